import Verif.CTL.EncodeNet
import Verif.Stubborn.Main

/-!
# The dependency graph with the reduced generator of the code

`OnTheFlyDG::nextStates` uses the stubborn sets of C24 for `EF` over a formula without temporal operators.
-/

namespace Verif
namespace CTL
open PQL Stubborn

/-- The generators with another reduced one. -/
def Gens.withRed (D : Gens) (r : Cond → List Nat → List (List Nat)) : Gens := { D with red := r }

section
variable (D : Gens) (r : Cond → List Nat → List (List Nat))

theorem andConds_red (m : List Nat) : ∀ l, andConds (D.withRed r) m l = andConds D m l
  | [] => rfl
  | (i, c) :: cs => by simp only [andConds, andConds_red m cs]; rfl

theorem orConds_red (m : List Nat) : ∀ l, orConds (D.withRed r) m l = orConds D m l
  | [] => rfl
  | (i, c) :: cs => by simp only [orConds, orConds_red m cs]; rfl

theorem auLoop_red (src : Conf) (f : Cond) (pos : List Nat) : ∀ ms e,
    auLoop (D.withRed r) src f pos ms e = auLoop D src f pos ms e
  | [], _ => rfl
  | m :: ms, e => by simp only [auLoop, auLoop_red src f pos ms]; rfl

theorem afLoop_red (src : Conf) (f : Cond) (pos : List Nat) : ∀ ms e,
    afLoop (D.withRed r) src f pos ms e = afLoop D src f pos ms e
  | [], _ => rfl
  | m :: ms, e => by simp only [afLoop, afLoop_red src f pos ms]; rfl

theorem axLoop_red (src : Conf) (f : Cond) (pos : List Nat) : ∀ ms e v,
    axLoop (D.withRed r) src f pos ms e v = axLoop D src f pos ms e v
  | [], _, _ => rfl
  | m :: ms, e, v => by simp only [axLoop, axLoop_red src f pos ms]; rfl

theorem euLoop_red (src : Conf) (f : Cond) (pos : List Nat) (left : Option Conf) : ∀ ms e,
    euLoop (D.withRed r) src f pos left ms e = euLoop D src f pos left ms e
  | [], _ => rfl
  | m :: ms, e => by simp only [euLoop, euLoop_red src f pos left ms]; rfl

theorem efLoop_red (src : Conf) (f : Cond) (pos : List Nat) : ∀ ms e,
    efLoop (D.withRed r) src f pos ms e = efLoop D src f pos ms e
  | [], _ => rfl
  | m :: ms, e => by simp only [efLoop, efLoop_red src f pos ms]; rfl

theorem exLoopS_red (src : Conf) (f : Cond) (pos : List Nat) : ∀ ms e,
    exLoopS (D.withRed r) src f pos ms e = exLoopS D src f pos ms e
  | [], _ => rfl
  | m :: ms, e => by simp only [exLoopS, exLoopS_red src f pos ms]; rfl

theorem succOf_congr (φ : Cond) (src : Conf) (f : Cond)
    (h : ∀ c, f = .EF c → D.red f src.1 = r f src.1) : succOf (D.withRed r) φ src f = succOf D φ src f := by
  cases f with
  | EF c =>
    have : (D.withRed r).next (.EF c) src.1 = D.next (.EF c) src.1 := by
      have := h c rfl
      show (if (D.po && !c.isTemporal) = true then r (.EF c) src.1 else D.all src.1) =
        if (D.po && !c.isTemporal) = true then D.red (.EF c) src.1 else D.all src.1
      by_cases hx : (D.po && !c.isTemporal) = true
      · rw [if_pos hx, if_pos hx, this]
      · rw [if_neg hx, if_neg hx]
    simp only [succOf, efSucc, this, efLoop_red]
    rfl
  | and cs => simp only [succOf, andConds_red]
  | or cs => simp only [succOf, orConds_red]
  | EX c => simp only [succOf, exLoopS_red]; rfl
  | AX c => simp only [succOf, axSucc, axLoop_red]; rfl
  | AF c => simp only [succOf, afSucc, afLoop_red]; rfl
  | AU c d => simp only [succOf, auSucc, auLoop_red]; rfl
  | EU c d =>
    have : leftOpd (D.withRed r) = leftOpd D := rfl
    simp only [succOf, euSucc, euLoop_red, this]; rfl
  | _ => rfl

/-- The graph depends on the reduced generator only at the `EF` formulas of the query. -/
theorem dg_congr (φ : Cond) (h : ∀ pos c, subAt φ pos = some (.EF c) → ∀ l, D.red (.EF c) l = r (.EF c) l) :
    dg (D.withRed r) φ = dg D φ := by
  unfold dg
  congr 1
  funext src
  cases hf : subAt φ src.2 with
  | none => rfl
  | some f => exact succOf_congr D r φ src f fun c hc => by subst hc; exact h _ c hf src.1
end

/-- models src/CTL/PetriNets/OnTheFlyDG.cpp:529-553 with the reduced generator: `setQuery` and `prepare` for the
formula alone; `M` is what its objects contain before. -/
def stubRed (N : FlatNet) (M : Cond → List Nat → Mem) (c : Cond) (l : List Nat) : List (List Nat) :=
  (redGen N [c] (M c l) (toMark l)).1.map fun x => ofMark N.nplaces x.2

/-- Specification: the bodies of the `EF`s of the query that the reduction looks at are `tame`, and their
operands are 32-bit numbers in all reachable markings. -/
def EfOK (N : FlatNet) (m0 : Mark) (φ : Cond) : Prop :=
  ∀ pos c, subAt φ pos = some (.EF c) → c.isTemporal = false →
    tameCond c = true ∧ ∀ m, N.toNet.Reach m0 m → Fit32 m c

theorem sat_iff_evalSet {N : FlatNet} (w : N.WF) {c : Cond} (hc : c.isTemporal = false) (m : Nat → Nat) :
    Sat N.ts m c ↔ evaluateSet (N.deadlocked m) m c ≠ .rFalse := by
  rw [EvalProps.C15_evaluate_and_set_agrees _ _ _ hc]
  constructor
  · intro h he
    obtain ⟨π, hπ, h0⟩ := TS.exists_path N.ts m
    exact (EvalProps.C15_predicate_evaluation N w m c hc π hπ h0).2.1 he (h π hπ h0)
  · intro h π hπ h0
    exact Classical.byContradiction fun hn => h ((EvalProps.C15_predicate_evaluation N w m c hc π hπ h0).2.2 hn)

theorem until_run {N : FlatNet} {q : Mark → Prop} : ∀ {n : Nat} {m : Mark}, Until N.ts (fun _ => True) q n m →
    ∃ us M', us.length = n ∧ N.toNet.Run m us M' ∧ q M'
  | 0, m, h => ⟨[], m, rfl, .nil _, h⟩
  | n + 1, m, ⟨_, m', ⟨t, hs⟩, h⟩ => by
    obtain ⟨us, M', h1, h2, h3⟩ := until_run h
    exact ⟨t :: us, M', by simp [h1], .cons hs h2, h3⟩

theorem run_until {N : FlatNet} {q : Mark → Prop} {m M' : Mark} {us : List (Fin N.ntransitions)}
    (h : N.toNet.Run m us M') (hq : q M') : Until N.ts (fun _ => True) q us.length m := by
  induction h with
  | nil => exact hq
  | cons hs _ ih => exact ⟨trivial, _, ⟨_, hs⟩, ih hq⟩

/-- The reduced generator of the code keeps shortest ways to the goals of the query.  (Elsewhere, where it is not
called, the full generator is taken.) -/
theorem stubRed_ok {N : FlatNet} (w : N.WF) (hd : N.DirOK) {m0 : Mark} (hs : Small N m0) (φ : Cond) (he : EfOK N m0 φ)
    (M : Cond → List Nat → Mem) :
    ∃ red, RedOK N m0 red ∧ ∀ pos c, subAt φ pos = some (.EF c) → ∀ l, stubRed N M (.EF c) l = red (.EF c) l := by
  classical
  refine ⟨fun c l => if ∃ pos, subAt φ pos = some c then stubRed N M c l else (netGens N true (stubRed N M)).all l, ?_,
    fun pos c hp l => by simp only; rw [if_pos ⟨pos, hp⟩]⟩
  have hno : ∀ l, StoredOK N m0 l → (N.succGen (fun _ => true) (toMark l)).2 = false := fun l hl =>
    succGen_ok w (small_lt hs hl.2) fun t m' h p hp => hs m' (hl.2.step _ h) p hp
  have hall : ∀ l, StoredOK N m0 l → ∀ t m', N.toNet.Step (toMark l) t m' →
      ofMark N.nplaces m' ∈ (netGens N true (stubRed N M)).all l := by
    intro l hl t m' hst
    simp only [netGens, List.mem_map]
    exact ⟨_, FlatNet.succGen_complete w (fun _ => true) (small_lt hs hl.2) (hno l hl) rfl hst, rfl⟩
  have hof : ∀ l, StoredOK N m0 l → ∀ t m', N.toNet.Step (toMark l) t m' → toMark (ofMark N.nplaces m') = m' := by
    intro l hl t m' hst
    refine toMark_ofMark fun p hp => ?_
    rw [FlatNet.step_tail w hst p hp]
    exact toMark_tail (by rw [hl.1]; exact hp)
  constructor
  · intro c hc l hl l' hm
    split at hm
    · simp only [stubRed, List.mem_map] at hm
      obtain ⟨x, hx, rfl⟩ := hm
      obtain ⟨t, _, _, hst, _⟩ := redGen_step w _ _ (small_lt hs hl.2) hx
      exact hall l hl t _ hst
    · exact hm
  · intro c hc l hl n h1 h2
    split
    · rename_i hp
      obtain ⟨pos, hp⟩ := hp
      obtain ⟨ht, hf⟩ := he pos c hp hc
      obtain ⟨us, M', hlen, hrun, hq⟩ := until_run h1
      have hall32 : ∀ m, N.toNet.Reach m0 m → (∀ p, N.nplaces ≤ p → m p = 0) → ∀ p, m p < W32 := by
        intro m hm hz p
        by_cases hp : p < N.nplaces
        · exact small_lt hs hm p hp
        · rw [hz p (by omega)]; decide
      have hz : ∀ p, N.nplaces ≤ p → toMark l p = 0 := fun p hp => toMark_tail (by rw [hl.1]; exact hp)
      have hz' : ∀ p, N.nplaces ≤ p → M' p = 0 := by
        have key : ∀ (a b : Mark) us, N.toNet.Run a us b → (∀ p, N.nplaces ≤ p → a p = 0) → ∀ p, N.nplaces ≤ p → b p = 0 := by
          intro a b us hr
          induction hr with
          | nil => exact id
          | cons hs _ ih => exact fun h => ih fun p hp => (FlatNet.step_tail w hs p hp).trans (h p hp)
        exact key _ _ _ hrun hz
      have hM'r : N.toNet.Reach m0 M' := by
        obtain ⟨vs, hv⟩ := hl.2
        exact ⟨vs ++ us, hv.append _ hrun⟩
      have hnow : evaluateSet (N.deadlocked (toMark l)) (toMark l) c = .rFalse := by
        refine Classical.byContradiction fun hx => ?_
        exact h2 0 (Nat.zero_le _) ((sat_iff_evalSet w hc _).2 hx)
      obtain ⟨t, us', hst, hen, hrun', hlen'⟩ := stubborn_progress w hd (C02_deadlock_exact N w)
        (hall32 _ hl.2 hz) (hall32 _ hM'r hz') (M (.EF c) l) (qs := [.EF c]) (q := .EF c) (List.mem_singleton.2 rfl)
        ht (hf _ hl.2) hnow hrun ((sat_iff_evalSet w hc _).1 hq)
      have hstep : N.toNet.Step (toMark l) t (N.toNet.fire (toMark l) t) := ⟨hen, rfl⟩
      refine ⟨ofMark N.nplaces (N.toNet.fire (toMark l) t), ?_, ?_⟩
      · simp only [stubRed, List.mem_map]
        refine ⟨_, redGen_complete w _ _ (small_lt hs hl.2) ?_ hst hen, rfl⟩
        refine fireAll_ok fun u hu hx => ?_
        rw [List.mem_filter] at hu
        obtain ⟨h3, h4⟩ := (mem_ordering w).1 hu.1
        have he := (FlatNet.checkPreset_iff w _ ⟨u, h3⟩).1 h4
        have := FlatNet.fire_spec w (toMark l) (small_lt hs hl.2) ⟨u, h3⟩ he
        simp only [hx] at this
        obtain ⟨p, hp, hx⟩ := this
        have := hs _ (hl.2.step _ (⟨he, rfl⟩ : N.toNet.Step _ _ _)) p hp
        omega
      · rw [hof l hl t _ hstep]
        have := run_until (q := fun x => Sat N.ts x c) hrun' hq
        have he : us'.length = n := by omega
        rwa [he] at this
    · obtain ⟨_, m', ⟨t, hst⟩, hu⟩ := h1
      exact ⟨ofMark N.nplaces m', hall l hl t m' hst, by rw [hof l hl t m' hst]; exact hu⟩

end CTL
end Verif
