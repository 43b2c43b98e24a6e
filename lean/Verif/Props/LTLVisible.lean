import Verif.LTL.VisibleMain
import Verif.PQL.CtlLemmas
import Verif.Props.LTLStubborn

/-!
# C81: the classic partial-order reduction of the LTL engine

`redTS N (visSet N (visibleT N c))` is the transition system explored with `--ltl-por classic` for the condition `c`.
The engine switches the reduction off for nets with inhibitor arcs and formulas with next
(src/LTL/Algorithm/TarjanModelChecker.cpp:40-60).
-/

namespace Verif
namespace LTLVisibleProps
open PQL Stubborn StubbornProps LTLStubbornProps LTL

/-- Transitions that are not visible do not change the places of the query. -/
theorem invisible {N : FlatNet} (w : N.WF) (hd : N.DirOK) {c : Cond} (hp : onPath c = true) (t : Fin N.ntransitions) (p : Nat)
    (ht : visibleT N c t = false) (hc : c.uses p = true) : N.toNet.pre t p = N.toNet.post t p := by
  have hv : visC c (fun _ => false) p = true := by rw [visC_eq c hp, hc]; rfl
  unfold visibleT at ht
  rw [List.any_eq_false] at ht
  have slice_mem : ∀ {i : Invariant} {a b : Nat}, i ∈ slice N.invariants a b → i.place < N.nplaces := fun h =>
    w.place_lt _ (List.mem_of_mem_drop (List.mem_of_mem_take h))
  rcases Nat.lt_trichotomy (N.toNet.pre t p) (N.toNet.post t p) with h | h | h
  · have hm := mem_preT hd t p h
    have hlt : p < N.nplaces := by
      have hm' := hm
      simp only [preT, List.mem_flatMap, List.mem_range, List.mem_map, List.mem_filter] at hm'
      obtain ⟨u, _, i, ⟨hi, hi'⟩, _⟩ := hm'
      simp only [Bool.and_eq_true, beq_iff_eq] at hi'
      have := slice_mem hi
      rwa [hi'.1] at this
    refine (ht p (List.mem_range.2 hlt) ?_).elim
    rw [hv, List.contains_iff_mem.2 hm]; rfl
  · exact h
  · obtain ⟨i, hi, hpl, _⟩ := mem_postT t p (by omega)
    obtain ⟨d, h0, hm⟩ := mem_postT_decr hd t p h
    refine (ht p (List.mem_range.2 (hpl ▸ slice_mem hi)) ?_).elim
    rw [hv, Bool.true_and, Bool.or_eq_true]
    exact .inr (List.any_eq_true.2 ⟨_, hm, by simp [h0]⟩)

/-- **C81** (formulas without deadlock propositions, runs that do not ignore visible transitions for ever): all runs of the
net satisfy the formula if and only if all runs explored do.  `hinh` and `hn` are what the engine checks; `hp` says that
the formula is one of LTL.  The full statement, without `hdead` and `hL`, is refuted below. -/
theorem C81_classic_reduction_keeps_ltl_partial {N : FlatNet} (w : N.WF) (hd : N.DirOK) (hinh : hasInhibitor N = false)
    (m0 : Mark) (c : Cond) (hp : onPath c = true) (hn : c.next = false) (hdead : c.hasDead = false)
    (hL : Proviso N (visibleT N c) (visSet N (visibleT N c)) m0) :
    (∀ π, N.ts.IsPath π → π 0 = m0 → c.sat N.ts π) ↔
      (∀ π, (redTS N (visSet N (visibleT N c))).IsPath π → π 0 = m0 → c.sat N.ts π) := by
  have hS := visSet_ok w hd hinh (visibleT N c)
  refine ⟨fun h π hπ h0 => h π (redTS_path hS hπ) h0, fun h π hπ h0 => ?_⟩
  obtain ⟨π', h1, h2, h3⟩ := stair_of_path (V := fun p => c.uses p = true) hS
    (fun t p ht hc => invisible w hd hp t p ht hc) (inh_none hinh) hL hπ h0
  exact (onPath_stair N.ts N.ts c hp hdead hn (fun _ hx => hx) h3).2 (h π' h1 h2)

/-- **C81**, for existing runs: a counterexample is found if and only if there is one. -/
theorem C81_classic_reduction_keeps_runs_partial {N : FlatNet} (w : N.WF) (hd : N.DirOK) (hinh : hasInhibitor N = false)
    (m0 : Mark) (c : Cond) (hp : onPath c = true) (hn : c.next = false) (hdead : c.hasDead = false)
    (hL : Proviso N (visibleT N c) (visSet N (visibleT N c)) m0) :
    (∃ π, N.ts.IsPath π ∧ π 0 = m0 ∧ c.sat N.ts π) ↔
      (∃ π, (redTS N (visSet N (visibleT N c))).IsPath π ∧ π 0 = m0 ∧ c.sat N.ts π) := by
  have hS := visSet_ok w hd hinh (visibleT N c)
  refine ⟨fun ⟨π, hπ, h0, h⟩ => ?_, fun ⟨π, hπ, h0, h⟩ => ⟨π, redTS_path hS hπ, h0, h⟩⟩
  obtain ⟨π', h1, h2, h3⟩ := stair_of_path (V := fun p => c.uses p = true) hS
    (fun t p ht hc => invisible w hd hp t p ht hc) (inh_none hinh) hL hπ h0
  exact ⟨π', h1, h2, (onPath_stair N.ts N.ts c hp hdead hn (fun _ hx => hx) h3).1 h⟩

/-! ### Non-vacuity and findings -/

/-- A witness against unrestricted C81: some run of the net violates the formula, but no run explored does. -/
structure Missed (N : FlatNet) (m0 : Mark) (c : Cond) : Prop where
  wf : N.WF
  dir : N.DirOK
  noInh : hasInhibitor N = false
  ltl : onPath c = true
  noNext : c.next = false
  full : ∃ π, N.ts.IsPath π ∧ π 0 = m0 ∧ ¬ c.sat N.ts π
  reduced : ∀ π, (redTS N (visSet N (visibleT N c))).IsPath π → π 0 = m0 → c.sat N.ts π

/-- `F (1 ≤ p1)` -/
def evP1 : Cond := .F (.cmp .le (.lit 1) (.id 1))

/-- The set is `{t1}`, the transition that is not visible, though both are enabled. -/
example : ((List.range 2).map fun t => (ordering (indep 1) (indepM 1)).contains t) = [true, true] ∧
    ((List.range 2).map fun t => visibleT (indep 1) evP1 t) = [true, false] ∧
    ((List.range 2).map fun t => visSet (indep 1) (visibleT (indep 1) evP1) (indepM 1) t) = [false, true] :=
  ⟨rfl, rfl, rfl⟩

/-- No run of `indep 1` is infinite, so that no transition is ignored for ever. -/
theorem indep_proviso (vis : Nat → Bool) (S : Mark → Nat → Bool) (m0 : Mark) : Proviso (indep 1) vis S m0 := by
  intro r _ hr
  have h : ∀ k, r k 0 + r k 2 + k ≤ r 0 0 + r 0 2 := by
    intro k
    induction k with
    | zero => omega
    | succ k ih =>
      obtain ⟨t, _, hs⟩ := hr k
      have := (indep_step hs).1
      omega
  have := h (r 0 0 + r 0 2 + 1)
  omega

/-- Non-vacuity of C81 (all hypotheses hold of a set that is really smaller). -/
example : (∀ π, (indep 1).ts.IsPath π → π 0 = indepM 1 → evP1.sat (indep 1).ts π) ↔
    (∀ π, (redTS (indep 1) (visSet (indep 1) (visibleT (indep 1) evP1))).IsPath π → π 0 = indepM 1 → evP1.sat (indep 1).ts π) :=
  C81_classic_reduction_keeps_ltl_partial indep_wf indep_dir (by decide) _ evP1 rfl rfl rfl (indep_proviso _ _ _)

/-- `t0` needs a token on place 0 and leaves it there, `t1` moves a token from place 1 to place 2. -/
def spin : FlatNet where
  nplaces := 3
  ntransitions := 2
  ninvariants := 4
  transitions := [⟨0, 1⟩, ⟨2, 3⟩, ⟨4, 4⟩]
  invariants := [⟨0, 1, false, 0⟩, ⟨0, 1, false, 0⟩, ⟨1, 1, false, -1⟩, ⟨2, 1, false, 1⟩]
  placeToPtrs := [0, 1, 2, 2]
  controllable := [true, true]

theorem spin_wf : spin.WF where
  places_pos := by decide
  len_trans := by decide
  len_inv := by decide
  len_ptr := by decide
  ptr_zero := by decide
  ptr_mono := by decide
  ptr_last := by decide
  in_out := by decide
  out_in := by decide
  last_in := by decide
  place_lt := by decide
  tokens_pos := by decide
  tokens_lt := by decide
  pre_nodup := by decide
  post_nodup := by decide
  block := by
    intro p t h1 h2 h3 h4
    have h2 : p < 3 := h2
    have : p = 1 ∨ p = 2 := by omega
    rcases this with rfl | rfl
    · have h3 : 1 ≤ t := h3
      have h4 : t < 2 := h4
      have : t = 1 := by omega
      subst this; decide
    · have h3 : 2 ≤ t := h3
      have h4 : t < 2 := h4
      omega

theorem spin_dir : spin.DirOK := dirOK_of (by decide)

def spinM : Mark := fun p => if p = 0 ∨ p = 1 then 1 else 0

/-- the transitions of `spin` -/
def st (k : Nat) (h : k < 2) : Fin spin.ntransitions := ⟨k, h⟩

theorem spin_loop (m : Mark) (h : 1 ≤ m 0) : spin.toNet.fire m (st 0 (by decide)) = m := by
  funext p
  match p with
  | 0 => show m 0 - 1 + 1 = m 0; omega
  | p + 1 => rfl

/-- `G (p2 = 0)` -/
def noP2 : Cond := .G (.cmp .eq (.id 2) (.lit 0))

/-- F123: nothing keeps the reduction from firing an invisible transition for ever.  Here `t0` is the only transition in the
set of the initial marking, and leads back to it; that `t1` violates the formula is not seen. -/
theorem C81_finding_ignoring : Missed spin spinM noP2 where
  wf := spin_wf
  dir := spin_dir
  noInh := by decide
  ltl := rfl
  noNext := rfl
  full := by
    refine ⟨fun k => if k = 0 then spinM else spin.toNet.fire spinM (st 1 (by decide)), fun k => .inl ?_, rfl, fun h => ?_⟩
    · cases k with
      | zero => exact ⟨st 1 (by decide), (FlatNet.checkPreset_iff spin_wf _ _).1 rfl, rfl⟩
      | succ k => exact ⟨st 0 (by decide), (FlatNet.checkPreset_iff spin_wf _ _).1 rfl, (spin_loop _ (show 1 ≤ 1 from Nat.le_refl 1)).symm⟩
    · have := h 1
      revert this
      show ¬ ((1 : Int) = 0)
      decide
  reduced := by
    intro π hπ h0
    have hs : ∀ k, π k = spinM := by
      intro k
      induction k with
      | zero => exact h0
      | succ k ih =>
        rcases hπ k with ⟨t, ht, he, hf⟩ | ⟨_, he⟩
        · rw [ih] at ht hf
          rcases t with ⟨t, htl⟩
          have htl : t < 2 := htl
          have : t = 0 ∨ t = 1 := by omega
          rcases this with rfl | rfl
          · rw [hf]; exact spin_loop _ (by decide)
          · cases ht
        · rw [he]; exact ih
    intro k
    have : suffix π k = fun _ => spinM := funext fun j => hs _
    rw [this]
    show (0 : Int) = 0
    rfl

/-- `G (p1 = 0 ∨ deadlock)` -/
def quietP1 : Cond := .G (.or [.cmp .eq (.id 1) (.lit 0), .dead])

/-- F124: a transition that can end a deadlock-free run is invisible to a formula about deadlocks.  Here `t1` is fired first, so
that the token comes to place 1 only in the deadlock. -/
theorem C81_finding_deadlock : Missed (indep 1) (indepM 1) quietP1 where
  wf := indep_wf
  dir := indep_dir
  noInh := by decide
  ltl := rfl
  noNext := rfl
  full := by
    obtain ⟨ρ, hρ, hρ0⟩ := TS.exists_path (indep 1).ts ((indep 1).toNet.fire (indepM 1) (0 : Fin 2))
    refine ⟨Ctl.consPath (indepM 1) ρ, Ctl.consPath_path hρ ⟨(0 : Fin 2), (FlatNet.checkPreset_iff indep_wf _ _).1 rfl, hρ0⟩, rfl,
      fun h => ?_⟩
    have := h 1
    simp only [Cond.sat, satAny_iff] at this
    obtain ⟨c, hc, hs⟩ := this
    have e : suffix (Ctl.consPath (indepM 1) ρ) 1 0 = (indep 1).toNet.fire (indepM 1) (0 : Fin 2) := hρ0
    simp only [List.mem_cons, List.not_mem_nil, or_false] at hc
    rcases hc with rfl | rfl
    · simp only [Cond.sat, e] at hs
      have hs : (1 : Int) = 0 := hs
      omega
    · simp only [Cond.sat, e] at hs
      exact hs _ ⟨(1 : Fin 2), (FlatNet.checkPreset_iff indep_wf _ _).1 rfl, rfl⟩
  reduced := by
    intro π hπ h0
    have inv : ∀ k, π k 1 = 0 ∧ π k = indepM 1 ∨ (π k = (indep 1).toNet.fire (indepM 1) (1 : Fin 2)) ∨ (π k 0 = 0 ∧ π k 2 = 0) := by
      intro k
      induction k with
      | zero => rw [h0]; exact .inl ⟨rfl, rfl⟩
      | succ k ih =>
        rcases ih with ⟨h1, h2⟩ | h | ⟨h1, h2⟩
        · rcases hπ k with ⟨t, ht, he, hf⟩ | ⟨_, he⟩
          · rw [h2] at ht hf
            rcases t with ⟨t, htl⟩
            have htl : t < 2 := htl
            have : t = 0 ∨ t = 1 := by omega
            rcases this with rfl | rfl
            · cases ht
            · exact .inr (.inl hf)
          · rw [he]; exact .inl ⟨h1, h2⟩
        · rcases hπ k with ⟨t, ht, hs⟩ | ⟨_, he⟩
          · have := (indep_step hs).1
            rw [h] at this
            have e0 : (indep 1).toNet.fire (indepM 1) (1 : Fin 2) 0 = 1 := rfl
            have e2 : (indep 1).toNet.fire (indepM 1) (1 : Fin 2) 2 = 0 := rfl
            rw [e0, e2] at this
            right; right; omega
          · rw [he]; exact .inr (.inl h)
        · rcases hπ k with ⟨t, ht, hs⟩ | ⟨_, he⟩
          · have := (indep_step hs).1
            omega
          · rw [he]; exact .inr (.inr ⟨h1, h2⟩)
    intro k
    simp only [Cond.sat, satAny_iff]
    have e : suffix π k 0 = π k := by simp [suffix]
    rcases inv k with ⟨_, h⟩ | h | ⟨h1, h2⟩
    · refine ⟨_, List.mem_cons_self .., ?_⟩
      simp only [Cond.sat, e, h]; exact (rfl : (0 : Int) = 0)
    · refine ⟨_, List.mem_cons_self .., ?_⟩
      simp only [Cond.sat, e, h]; exact (rfl : (0 : Int) = 0)
    · refine ⟨.dead, by simp, ?_⟩
      simp only [Cond.sat, e]
      rintro m' ⟨t, hs⟩
      have := (indep_step hs).1
      omega

end LTLVisibleProps
end Verif
