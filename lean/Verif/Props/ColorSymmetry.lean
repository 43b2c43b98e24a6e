import Verif.CFP.SymNet

/-!
# C78: unfolding with symmetric variables

The unfolder leaves out bindings that differ only in the order of the values of variables it takes for symmetric
(VariableSymmetry.cpp, BindingGenerator.cpp).
-/

namespace Verif
namespace CFP

open CPN
open Builder (run)

/-- models Unfolder.cpp:57-110 (`unfold`) after the colour fixed point and the search for symmetric variables. -/
def unfoldSym (N : CNet) (s : FSt) (fuel : Nat) : Option U := unfoldWith N (symGen N s fuel)

/-- As `Keeps` of C68, with the symmetric variables: the unfolder returns, the builder compiles the unfolded net, and the reachable
markings of the compiled net stand for the reachable markings of the coloured net; a reachable marking is dead in one exactly if it is
dead in the other. -/
def KeepsSym (N : CNet) (s : FSt) : Prop :=
  (∃ fuel0, ∀ fuel, fuel0 ≤ fuel → ∃ u, unfoldSym N s fuel = some u) ∧
  ∀ fuel u, unfoldSym N s fuel = some u →
    ∃ B, run u.ops = some B ∧ (B.transitions.length < W32 - 1 → ∀ reorder, ∃ c, B.makePetriNet reorder = some c ∧ c.net.WF ∧
      Reads N u B c N.init c.init ∧
      (∀ M, N.Reach M → ∃ m, c.net.toNet.Reach c.init m ∧ Reads N u B c M m) ∧
      (∀ m, c.net.toNet.Reach c.init m → ∃ M, N.Reach M ∧ Reads N u B c M m) ∧
      ∀ M m, N.Reach M → Reads N u B c M m →
        (c.net.toNet.Dead m ↔ ∀ t < N.transitions.length, ∀ ρ, N.Legal t ρ → ¬ N.Enabled M t ρ))

/-- The full claim: if unfolding keeps the behaviour without symmetric variables, it keeps it with them. -/
def C78_full : Prop := ∀ (N : CNet) (ks : Nat → Nat) (n : Nat) (s : FSt), Typed N → N.WF → N.SmallSums → N.NoMix → 0 < N.places.length →
  compute N ks n = some s → Keeps N s → KeepsSym N s

/-- **C78 (partial).**  Under the hypotheses of C68, if every transition has at most one set of symmetric variables, all of one type, and
each arc of the transition either has none of them or each once with the same number (and the colour 0 comes first in the later maps of
the transition, if it has other variables), then unfolding with symmetric variables keeps the behaviour of the net. -/
theorem C78_symmetric_variables_partial {N : CNet} (R : Ready N) (w : N.WF) (hsm : N.SmallSums) (hmix : N.NoMix) (hpl : 0 < N.places.length)
    {ks : Nat → Nat} {n : Nat} {s : FSt} (e : compute N ks n = some s) (ht : tidy N ks n = true) (hu : usable N s = true) (he : even N s = true) :
    KeepsSym N s := by
  have hs : ∀ t < N.transitions.length, ∀ m ∈ s.maps t, m.Sane N.types N.vty := by
    unfold tidy at ht
    rw [Bool.and_eq_true] at ht
    exact (loop_good R n 0 (start_good R ht.1) ht.2 e).1.sane
  have hgen : ∀ t < N.transitions.length, ∀ fuel, symGen N s fuel (N.trans t) = symBindings N.types N.vty (symSets (N.trans t)) (s.maps t) fuel (N.trans t) := by
    intro t ht fuel
    unfold symGen
    rw [find_self w ht]
  have hlegal : ∀ fuel, (∀ t ∈ N.transitions, symGen N s fuel t ≠ none) → GenLegal N (symGen N s fuel) := by
    intro fuel h t htt
    obtain ⟨k, hk, rfl⟩ := mem_trans htt
    cases hb : symGen N s fuel (N.trans k) with
    | none => exact absurd hb (h _ htt)
    | some bs =>
      obtain ⟨h1, h2, _⟩ := (sym_one R w hs hu he hk).2 fuel bs (by rw [← hgen k hk]; exact hb)
      exact ⟨bs, rfl, h1, h2⟩
  refine ⟨?_, fun fuel u hun => ?_⟩
  · have hb : ∀ k ≤ N.transitions.length, ∃ f0, ∀ fuel, f0 ≤ fuel → ∀ t < k, symGen N s fuel (N.trans t) ≠ none := by
      intro k
      induction k with
      | zero => exact fun _ => ⟨0, fun _ _ t h => absurd h (Nat.not_lt_zero _)⟩
      | succ k ih =>
        intro hk
        obtain ⟨f1, h1⟩ := ih (Nat.le_of_succ_le hk)
        obtain ⟨f2, h2⟩ := (sym_one R w hs hu he hk).1
        refine ⟨max f1 f2, fun fuel hf t htk => ?_⟩
        rcases Nat.lt_succ_iff_lt_or_eq.1 htk with h | rfl
        · exact h1 fuel (Nat.le_trans (Nat.le_max_left _ _) hf) t h
        · obtain ⟨bs, hbs⟩ := h2 fuel (Nat.le_trans (Nat.le_max_right _ _) hf)
          rw [hgen t hk, hbs]
          exact Option.some_ne_none _
    obtain ⟨f0, hf0⟩ := hb _ (Nat.le_refl _)
    refine ⟨f0, fun fuel hf => ?_⟩
    obtain ⟨u, h1, _⟩ := result_of w (hlegal fuel fun t htt => by
      obtain ⟨k, hk, rfl⟩ := mem_trans htt
      exact hf0 fuel hf k hk)
    exact ⟨u, h1⟩
  · have hg : GenLegal N (symGen N s fuel) := by
      have hun' := hun
      unfold unfoldSym unfoldWith at hun'
      obtain ⟨s0, h0, _⟩ := Option.map_eq_some_iff.1 hun'
      exact hlegal fuel (transitions_gen h0)
    refine reachability_like w hsm hmix hpl hg hun fun M hM t htl ρ hl hen => ?_
    obtain ⟨bs, hbs, _⟩ := hg _ (trans_mem htl)
    obtain ⟨_, _, h3⟩ := (sym_one R w hs hu he htl).2 fuel bs (by rw [← hgen t htl]; exact hbs)
    obtain ⟨b, hb, ρ', h4, h5, h6⟩ := h3 ρ hl (((C66_fixpoint_covers_partial R e ht hM).2 t htl ρ hl hen).2)
    exact ⟨bs, hbs, b, hb, ρ', h4, h5 M hen, h6 M⟩

/-! ### Small nets -/

/-- type 0 has one colour, the others two -/
def twoT : Types := ⟨fun ty => if ty = 0 then 1 else 2, []⟩

theorem twoDims (ty : Nat) : ∀ n ∈ twoT.dims ty, 0 < n := by
  intro n hn
  have e : twoT.dims ty = [twoT.basic ty] := rfl
  rw [e, List.mem_singleton] at hn
  rw [hn]
  show 0 < if ty = 0 then 1 else 2
  split <;> omega

/-- a sum of numbers of terms -/
def sumE (l : List (Nat × CExpr)) : ArcE := .add (l.map fun q => .num q.1 [q.2])

def arcsE (l : List (Nat × List (Nat × CExpr))) : List CArc := l.map fun a => ⟨a.1, sumE a.2⟩

/-- a net with two colours: the places with their markings, the transitions with the sums on their arcs -/
def tiny (ps : List (String × List (Nat × Nat))) (ts : List (String × List (Nat × List (Nat × CExpr)) × List (Nat × List (Nat × CExpr)))) : CNet :=
  ⟨twoT, fun _ => 1, ps.map fun p => ⟨p.1, 1, p.2⟩, ts.map fun t => ⟨t.1, none, arcsE t.2.1, arcsE t.2.2⟩, []⟩

def okTerm (q : Nat × CExpr) : Bool := decide (0 < q.1) && decide (q.1 < 10) && match q.2 with
  | .var _ => true
  | .const c => c.ty == 1 && decide (c.id < 2)
  | _ => false

def okArc (n : Nat) (a : Nat × List (Nat × CExpr)) : Bool := decide (a.1 < n) && !a.2.isEmpty && a.2.all okTerm && decide ((sumE a.2).bound < 100)

def tinyOk (ps : List (String × List (Nat × Nat))) (ts : List (String × List (Nat × List (Nat × CExpr)) × List (Nat × List (Nat × CExpr)))) : Bool :=
  decide (ps.map (·.1)).Nodup && decide (ts.map (·.1)).Nodup &&
  (ps.all fun p => decide (p.2.map (·.1)).Nodup && (p.2.all fun q => decide (q.1 < 2)) && decide ((⟨p.1, 1, p.2⟩ : CPlace).tokens < W32)) &&
  ts.all fun t => decide (t.2.1.map (·.1)).Nodup && (t.2.1.all fun a => okArc ps.length a && aligned twoT (fun _ => 1) (sumE a.2)) && t.2.2.all (okArc ps.length)

theorem okTerm_iff {q : Nat × CExpr} (h : okTerm q = true) : 0 < q.1 ∧ q.1 < 10 ∧ HasTy twoT (fun _ => 1) q.2 1 ∧ PlainConsts twoT q.2 := by
  obtain ⟨n, t⟩ := q
  unfold okTerm at h
  simp only [Bool.and_eq_true, decide_eq_true_eq] at h
  refine ⟨h.1.1, h.1.2, ?_⟩
  cases t with
  | var v => exact ⟨rfl, trivial⟩
  | const c =>
    obtain ⟨ty, i⟩ := c
    have h2 := h.2
    simp only [Bool.and_eq_true, beq_iff_eq, decide_eq_true_eq] at h2
    obtain ⟨rfl, hi⟩ := h2
    exact ⟨⟨rfl, hi⟩, rfl⟩
  | _ => cases h.2

theorem sum_parts : (l : List (Nat × CExpr)) → (∀ q ∈ l, okTerm q = true) → ArcTys twoT (fun _ => 1) 1 (l.map fun q => .num q.1 [q.2]) ∧
    FlatL twoT (l.map fun q => .num q.1 [q.2]) ∧ PositiveL (l.map fun q => .num q.1 [q.2]) ∧ ArcE.SmallL (l.map fun q => .num q.1 [q.2]) ∧
    ∀ t ∈ leavesL (l.map fun q => .num q.1 [q.2]), PlainConsts twoT t
  | [], _ => ⟨trivial, trivial, trivial, trivial, fun t h => nomatch h⟩
  | q :: l, h => by
    obtain ⟨h1, h2, h3, h4, h5⟩ := sum_parts l fun q hq => h q (List.mem_cons_of_mem _ hq)
    obtain ⟨k1, k2, k3, k4⟩ := okTerm_iff (h q List.mem_cons_self)
    refine ⟨⟨⟨by simp, List.forall_mem_cons.2 ⟨k3, fun t h => nomatch h⟩⟩, h1⟩, ⟨⟨_, rfl, k4⟩, h2⟩, ⟨k1, h3⟩, ⟨?_, h4⟩, ?_⟩
    · simp only [ArcE.Small, List.length_singleton, Nat.mul_one]
      exact Nat.lt_trans k2 (by decide)
    · intro t ht
      rw [List.map_cons, leavesL, leaves] at ht
      rcases List.mem_append.1 ht with ht | ht
      · rw [List.mem_singleton.1 ht]
        exact k4
      · exact h5 t ht

theorem okArc_iff {n : Nat} {a : Nat × List (Nat × CExpr)} (h : okArc n a = true) : a.1 < n ∧ ArcTy twoT (fun _ => 1) 1 (sumE a.2) ∧ Flat twoT (sumE a.2) ∧
    Positive (sumE a.2) ∧ (sumE a.2).Small ∧ (sumE a.2).bound < 2 ^ 31 ∧ ∀ t ∈ leaves (sumE a.2), PlainConsts twoT t := by
  unfold okArc at h
  simp only [Bool.and_eq_true, decide_eq_true_eq] at h
  obtain ⟨⟨⟨h1, h2⟩, h3⟩, h4⟩ := h
  obtain ⟨k1, k2, k3, k4, k5⟩ := sum_parts a.2 (List.all_eq_true.1 h3)
  refine ⟨h1, k1, ⟨?_, k2⟩, k3, ⟨?_, k4⟩, Nat.lt_trans h4 (by decide), k5⟩
  · intro e
    rw [List.map_eq_nil_iff] at e
    rw [e] at h2
    cases h2
  · exact Nat.lt_trans h4 (by decide)

theorem mem_arcsE {l : List (Nat × List (Nat × CExpr))} {a : CArc} (h : a ∈ arcsE l) : ∃ q ∈ l, a = ⟨q.1, sumE q.2⟩ := by
  obtain ⟨q, hq, rfl⟩ := List.mem_map.1 h
  exact ⟨q, hq, rfl⟩

section
variable {ps : List (String × List (Nat × Nat))} {ts : List (String × List (Nat × List (Nat × CExpr)) × List (Nat × List (Nat × CExpr)))}

theorem tiny_place {p : Nat} (hp : p < (tiny ps ts).places.length) : ∃ q ∈ ps, (tiny ps ts).place p = ⟨q.1, 1, q.2⟩ := by
  have := place_mem (N := tiny ps ts) hp
  obtain ⟨q, hq, e⟩ := List.mem_map.1 this
  exact ⟨q, hq, e.symm⟩

theorem tiny_ready (h : tinyOk ps ts = true) : Ready (tiny ps ts) ∧ (tiny ps ts).WF := by
  unfold tinyOk at h
  simp only [Bool.and_eq_true, decide_eq_true_eq] at h
  obtain ⟨⟨⟨h1, h2⟩, h3⟩, h4⟩ := h
  have hp : ∀ q ∈ ps, (q.2.map (·.1)).Nodup ∧ (∀ i ∈ q.2, i.1 < 2) ∧ (⟨q.1, 1, q.2⟩ : CPlace).tokens < W32 := by
    intro q hq
    have := List.all_eq_true.1 h3 q hq
    simp only [Bool.and_eq_true, decide_eq_true_eq, List.all_eq_true] at this
    exact ⟨this.1.1, this.1.2, this.2⟩
  have ht : ∀ t ∈ ts, (t.2.1.map (·.1)).Nodup ∧ (∀ a ∈ t.2.1, okArc ps.length a = true ∧ aligned twoT (fun _ => 1) (sumE a.2) = true) ∧ ∀ a ∈ t.2.2, okArc ps.length a = true := by
    intro t htt
    have := List.all_eq_true.1 h4 t htt
    simp only [Bool.and_eq_true, decide_eq_true_eq, List.all_eq_true] at this
    exact ⟨this.1.1, this.1.2, this.2⟩
  have hlen : (tiny ps ts).places.length = ps.length := List.length_map _
  have hty : ∀ p < ps.length, ((tiny ps ts).place p).ty = 1 := by
    intro p hp
    obtain ⟨q, _, e⟩ := tiny_place (ts := ts) (p := p) (by rw [hlen]; exact hp)
    rw [e]
  have hw : twoT.WF := ⟨by decide, by decide, by decide⟩
  refine ⟨⟨hw, (fun ty cs h => nomatch h), fun v => twoDims _, fun p _ => twoDims _, ?_, ?_, ?_, ?_, ?_⟩, ⟨hw, ?_, ?_, ?_, ?_, ?_, ?_, fun h hh => nomatch hh⟩⟩
  · intro p hpl q hq
    obtain ⟨r, hr, e⟩ := tiny_place hpl
    rw [e] at hq ⊢
    exact (hp r hr).2.1 q hq
  · intro t htt g hg
    obtain ⟨u, hu, rfl⟩ := List.mem_map.1 htt
    cases hg
  · intro t htt a ha
    obtain ⟨u, hu, rfl⟩ := List.mem_map.1 htt
    obtain ⟨q, hq, rfl⟩ := mem_arcsE ha
    obtain ⟨k1, k2⟩ := (ht u hu).2.1 q hq
    obtain ⟨k3, k4, k5, k6, _⟩ := okArc_iff k1
    refine ⟨by rw [hlen]; exact k3, ?_, k5, k2, Or.inl k6⟩
    rw [hty _ k3]
    exact k4
  · intro t htt
    obtain ⟨u, hu, rfl⟩ := List.mem_map.1 htt
    have := (ht u hu).1
    unfold arcsE
    rw [List.map_map]
    exact this
  · intro t htt a ha
    obtain ⟨u, hu, rfl⟩ := List.mem_map.1 htt
    obtain ⟨q, hq, rfl⟩ := mem_arcsE ha
    obtain ⟨k3, k4, _, _, _, _, k5⟩ := okArc_iff ((ht u hu).2.2 q hq)
    refine ⟨by rw [hlen]; exact k3, ?_, k5⟩
    rw [hty _ k3]
    exact k4
  · unfold tiny
    rw [List.map_map]
    exact h1
  · unfold tiny
    rw [List.map_map]
    exact h2
  · intro t _ v _
    exact (by decide : 0 < twoT.size 1)
  · intro t htt g hg
    obtain ⟨u, hu, rfl⟩ := List.mem_map.1 htt
    cases hg
  · intro t htt a ha
    obtain ⟨u, hu, rfl⟩ := List.mem_map.1 htt
    rcases List.mem_append.1 ha with ha | ha <;> obtain ⟨q, hq, rfl⟩ := mem_arcsE ha
    · obtain ⟨k3, k4, _, _, k5, k6, _⟩ := okArc_iff ((ht u hu).2.1 q hq).1
      refine ⟨by rw [hlen]; exact k3, ?_, k5, k6⟩
      rw [hty _ k3]
      exact k4
    · obtain ⟨k3, k4, _, _, k5, k6, _⟩ := okArc_iff ((ht u hu).2.2 q hq)
      refine ⟨by rw [hlen]; exact k3, ?_, k5, k6⟩
      rw [hty _ k3]
      exact k4
  · intro pl hpl
    obtain ⟨q, hq, rfl⟩ := List.mem_map.1 hpl
    obtain ⟨k1, k2, k3⟩ := hp q hq
    refine ⟨k1, fun i hi => ?_, k3⟩
    obtain ⟨r, hr, rfl⟩ := List.mem_map.1 hi
    exact k2 r hr

theorem tiny_nomix : (tiny ps ts).NoMix := fun h hh => nomatch hh

end

/-- number of transitions of the unfolded net -/
def symSize (N : CNet) (s : FSt) (fuel : Nat) : Option Nat := (unfoldSym N s fuel).bind fun u => (run u.ops).map fun B => B.transitions.length

/-! ### Example -/

/-- p: c0 and c1, r: c0 and c1; t: p(x + y) and r(z) to q(x + y) and s(z) -/
def pPair : List (String × List (Nat × Nat)) := [("p", [(0, 1), (1, 1)]), ("q", []), ("r", [(0, 1), (1, 1)]), ("s", [])]
def tPair : List (String × List (Nat × List (Nat × CExpr)) × List (Nat × List (Nat × CExpr))) :=
  [("t", [(0, [(1, .var 0), (1, .var 1)]), (2, [(1, .var 2)])], [(1, [(1, .var 0), (1, .var 1)]), (3, [(1, .var 2)])])]

/-- The hypotheses hold for a net with symmetric variables: six transitions instead of eight. -/
example : ∃ s, Ready (tiny pPair tPair) ∧ (tiny pPair tPair).WF ∧ (tiny pPair tPair).SmallSums ∧ (tiny pPair tPair).NoMix ∧
    compute (tiny pPair tPair) (fun _ => 250) 30 = some s ∧ tidy (tiny pPair tPair) (fun _ => 250) 30 = true ∧ usable (tiny pPair tPair) s = true ∧
    even (tiny pPair tPair) s = true ∧ (tiny pPair tPair).transitions.map symSets = [[[0, 1]]] ∧ symSize (tiny pPair tPair) s 20 = some 6 ∧
    ((unfoldFix (tiny pPair tPair) s 20).bind fun u => (run u.ops).map fun B => B.transitions.length) = some 8 := by
  have h : (compute (tiny pPair tPair) (fun _ => 250) 30).map (fun s => (usable (tiny pPair tPair) s, even (tiny pPair tPair) s, symSize (tiny pPair tPair) s 20,
      (unfoldFix (tiny pPair tPair) s 20).bind fun u => (run u.ops).map fun B => B.transitions.length)) = some (true, true, some 6, some 8) := by decide +kernel
  obtain ⟨s, e, h⟩ := Option.map_eq_some_iff.1 h
  simp only [Prod.mk.injEq] at h
  obtain ⟨h1, h2⟩ := tiny_ready (ps := pPair) (ts := tPair) (by decide +kernel)
  exact ⟨s, h1, h2, by unfold CNet.SmallSums; decide, tiny_nomix, e, by decide +kernel, h.1, h.2.1, by decide +kernel, h.2.2.1, h.2.2.2⟩

/-! ### Findings -/

/-- the assignment of a binding -/
def asg (N : CNet) (b : Binding) (v : Nat) : Val := N.types.value ⟨N.vty v, (b.lookup v).getD 0⟩

/-- the binding has colours for the variables -/
def fits (N : CNet) (t : Nat) (b : Binding) : Bool := (N.trans t).vars.all fun v => (b.lookup v).any fun i => decide (i < N.types.size (N.vty v))

/-- some input arc does not find its tokens in the initial marking -/
def stuck (N : CNet) (t : Nat) (b : Binding) : Bool := (List.range N.places.length).any fun p =>
  (N.types.values (N.place p).ty).any fun x => decide (N.init p x < arcsTokens N (asg N b) (N.trans t).inputs p x)

theorem agree_asg {N : CNet} {t : Nat} {b : Binding} (h : fits N t b = true) : Agree N.types N.vty b (asg N b) (N.trans t).vars := by
  intro v hv
  have := List.all_eq_true.1 h v hv
  unfold asg
  cases hl : b.lookup v with
  | none => rw [hl] at this; cases this
  | some i =>
    rw [hl] at this
    exact ⟨i, by simpa using this, rfl, rfl⟩

theorem agree_eq {N : CNet} {t : Nat} {b : Binding} {ρ : Nat → Val} (h : Agree N.types N.vty b ρ (N.trans t).vars) {v : Nat} (hv : v ∈ (N.trans t).vars) : ρ v = asg N b v := by
  obtain ⟨i, _, h1, h2⟩ := h v hv
  unfold asg
  rw [h1]
  exact h2

theorem in_vars {t : CTrans} {v : Nat} (h : v ∈ arcsVars t.inputs ∨ v ∈ arcsVars t.outputs) : v ∈ t.vars := by
  unfold CTrans.vars
  rw [mem_dedup, List.mem_append, List.mem_append]
  rcases h with h | h
  · exact Or.inl (Or.inr h)
  · exact Or.inr h

theorem stuck_not {N : CNet} {t : Nat} {b : Binding} (h : stuck N t b = true) {ρ : Nat → Val} (ha : Agree N.types N.vty b ρ (N.trans t).vars) : ¬ N.Enabled N.init t ρ := by
  intro hen
  obtain ⟨p, _, h⟩ := List.any_eq_true.1 h
  obtain ⟨x, _, h⟩ := List.any_eq_true.1 h
  have h := of_decide_eq_true h
  rw [← XCol.arcsTokens_congr (N := N) (ρ := ρ) (N.trans t).inputs fun v hv => agree_eq ha (in_vars (Or.inl hv))] at h
  exact absurd (hen.1 p x) (by omega)

/-- the bindings of all transitions are there and have the property -/
def gives (N : CNet) (gen : CTrans → Option (List Binding)) (ok : Nat → Binding → Bool) : Bool := (List.range N.transitions.length).all fun t =>
  match gen (N.trans t) with
  | none => false
  | some bs => bs.all fun b => fits N t b && ok t b

theorem gives_iff {N : CNet} {gen : CTrans → Option (List Binding)} {ok : Nat → Binding → Bool} (h : gives N gen ok = true) {t : Nat} (ht : t < N.transitions.length) :
    ∃ bs, gen (N.trans t) = some bs ∧ ∀ b ∈ bs, fits N t b = true ∧ ok t b = true := by
  have := List.all_eq_true.1 h t (List.mem_range.2 ht)
  cases hb : gen (N.trans t) with
  | none => rw [hb] at this; cases this
  | some bs =>
    rw [hb] at this
    exact ⟨bs, rfl, fun b hb => by simpa using List.all_eq_true.1 this b hb⟩

theorem gives_legal {N : CNet} {gen : CTrans → Option (List Binding)} {ok : Nat → Binding → Bool} (h : gives N gen ok = true) (hg : ∀ t ∈ N.transitions, t.guard = none) :
    GenLegal N gen := by
  intro t htt
  obtain ⟨k, hk, rfl⟩ := mem_trans htt
  obtain ⟨bs, h1, h2⟩ := gives_iff h hk
  exact ⟨bs, h1, fun b hb => ⟨_, agree_asg (h2 b hb).1⟩, fun b _ ρ _ => by rw [hg _ htt]; trivial⟩

/-- If a transition of the coloured net can fire in the initial marking, but with none of the generated bindings, the behaviour is not kept: the
unfolded net is dead. -/
theorem lost_first {N : CNet} (w : N.WF) (hsm : N.SmallSums) (hmix : N.NoMix) (hpl : 0 < N.places.length) (hng : ∀ t ∈ N.transitions, t.guard = none) {s : FSt} {fuel k : Nat}
    (hst : gives N (symGen N s fuel) (stuck N) = true) (hk : symSize N s fuel = some k) (hlt : k < W32 - 1) :
    (∃ u B, unfoldSym N s fuel = some u ∧ run u.ops = some B ∧ ∀ reorder, ∃ c, B.makePetriNet reorder = some c ∧ c.net.toNet.Dead c.init) ∧
    ((∃ t < N.transitions.length, ∃ ρ, N.Legal t ρ ∧ N.Enabled N.init t ρ) → ¬ KeepsSym N s) := by
  have hg := gives_legal hst hng
  obtain ⟨u, hu, h⟩ := Option.bind_eq_some_iff.1 hk
  obtain ⟨B, hB, rfl⟩ := Option.map_eq_some_iff.1 h
  obtain ⟨B', hB', h2⟩ := compiled_of w hsm hmix hpl hg hu
  rw [hB] at hB'
  cases hB'
  have hdead : ∀ reorder, ∃ c, B.makePetriNet reorder = some c ∧ c.net.toNet.Dead c.init := by
    intro reorder
    obtain ⟨c, hc, _, hr, _, _, h3⟩ := h2 hlt reorder
    refine ⟨c, hc, (h3 _ _ hr).2 fun t ht bs hbs b hb ρ ha => ?_⟩
    obtain ⟨bs', h4, h5⟩ := gives_iff hst ht
    rw [hbs] at h4
    cases h4
    exact stuck_not (h5 b hb).2 ha
  refine ⟨⟨u, B, hu, hB, hdead⟩, ?_⟩
  rintro ⟨t, ht, ρ, hl, hen⟩ ⟨_, hK⟩
  obtain ⟨B', hB', hK⟩ := hK fuel u hu
  rw [hB] at hB'
  cases hB'
  obtain ⟨c, hc, _, hr, _, _, h3⟩ := hK hlt false
  obtain ⟨c', hc', hd⟩ := hdead false
  rw [hc] at hc'
  cases hc'
  exact (h3 _ _ .init hr).1 hd t ht ρ hl hen

theorem tiny_guard {ps ts} : ∀ t ∈ (tiny ps ts).transitions, t.guard = none := by
  intro t ht
  obtain ⟨u, _, rfl⟩ := List.mem_map.1 ht
  rfl

/-- c0 to the even variables, c1 to the odd -/
def turn : Nat → Val := fun v => [v % 2]

theorem tiny_legal {ps ts} {t : Nat} (ht : t < (tiny ps ts).transitions.length) : (tiny ps ts).Legal t turn := by
  refine ⟨fun v _ => ?_, by rw [tiny_guard _ (trans_mem ht)]; trivial⟩
  show [v % 2] ∈ twoT.values 1
  have : v % 2 = 0 ∨ v % 2 = 1 := by omega
  rcases this with h | h <;> rw [h] <;> decide

theorem count_one (a x : Val) : [a].count x = if a = x then 1 else 0 := by
  rw [List.count_singleton]
  by_cases e : a = x
  · rw [if_pos e, if_pos (by rw [e]; exact beq_self_eq_true x)]
  · rw [if_neg e, if_neg (by simpa using e)]

/-! ### Which sets are found -/

/-- a sum of numbers of variables -/
def varSum (l : List (Nat × Nat)) : ArcE := .add (l.map fun q => .num q.1 [.var q.2])

theorem varSum_go : (l : List (Nat × Nat)) → (ns : List Nat) → symGoL (l.map fun q => .num q.1 [.var q.2]) ns = (true, ns ++ l.map (·.1))
  | [], ns => by rw [List.map_nil, symGoL, List.map_nil, List.append_nil]
  | q :: l, ns => by
    rw [List.map_cons, symGoL, symGo]
    simp only [List.length_singleton, Nat.lt_irrefl, gt_iff_lt, if_false, Bool.not_true, Bool.false_eq_true]
    rw [varSum_go l, List.map_cons, List.append_assoc]
    rfl

theorem varSum_vars : (l : List (Nat × Nat)) → ArcE.varsL (l.map fun q => .num q.1 [.var q.2]) = l.map (·.2)
  | [] => rfl
  | q :: l => by
    rw [List.map_cons, ArcE.varsL, varSum_vars l]
    rfl

theorem varSum_spread {S : List Nat} : (l : List (Nat × Nat)) → (∀ q ∈ l, q.2 ∈ S) → spread S (l.map fun q => .num q.1 [.var q.2]) = some l
  | [], _ => rfl
  | q :: l, h => by
    have h1 : ((ArcE.num q.1 [.var q.2]).vars.all fun v => !S.contains v) = false := by
      rw [show (ArcE.num q.1 [.var q.2]).vars = [q.2] from rfl]
      simp [h q List.mem_cons_self]
    rw [List.map_cons, spread, h1, if_neg Bool.false_ne_true]
    rw [varSum_spread l fun q hq => h q (List.mem_cons_of_mem _ hq)]
    rfl

/-- On input arcs that are sums of numbers of distinct variables, or no sums at all, from distinct places, the search is right: a set that is
found has at least two variables, they are all on one input arc, the input arcs are even in it, and all variables are on exactly one output
arc while the other output arcs have none of them.  There is no guard. -/
theorem C78_found_sets {t : CTrans} (hn : (t.inputs.map (·.place)).Nodup)
    (hi : ∀ a ∈ t.inputs, (∃ l, a.expr = varSum l ∧ (l.map (·.2)).Nodup) ∨ ∀ as, a.expr ≠ .add as) {S : List Nat} (hS : S ∈ symSets t) :
    t.guard = none ∧ 2 ≤ S.length ∧ S.Nodup ∧ (∃ a ∈ t.inputs, ∀ v, v ∈ S ↔ v ∈ a.expr.vars) ∧ (∀ a ∈ t.inputs, evenArc S a.expr = true) ∧
    (∀ a ∈ t.outputs, (∀ v ∈ S, v ∈ a.expr.vars) ∨ ∀ v ∈ S, v ∉ a.expr.vars) ∧
    ∃ l a r, t.outputs = l ++ a :: r ∧ (∀ v ∈ S, v ∈ a.expr.vars) ∧ ∀ b ∈ l ++ r, ∀ v ∈ S, v ∉ b.expr.vars := by
  obtain ⟨hg, hne, hnd, _⟩ := sets_of hS
  obtain ⟨v0, hv0⟩ := List.exists_mem_of_ne_nil _ hne
  unfold symSets at hS
  rw [hg] at hS
  obtain ⟨a, ha, h⟩ := List.mem_filterMap.1 hS
  unfold symArc at h
  simp only at h
  split at h
  · rename_i hc
    simp only [Bool.and_eq_true, decide_eq_true_eq] at hc
    obtain ⟨⟨⟨⟨h1, h2⟩, h3⟩, h4⟩, h5⟩ := hc
    rw [Option.some.injEq] at h
    rw [h] at h3 h4 h5
    have hmem : ∀ v, v ∈ S ↔ v ∈ a.expr.vars := by
      intro v
      rw [← h, List.mem_filter]
      refine ⟨fun h => by simpa using h.2, fun h => ⟨in_vars (Or.inl ?_), by simpa using h⟩⟩
      exact List.mem_flatten.2 ⟨_, List.mem_map.2 ⟨a, ha, rfl⟩, h⟩
    have hev : evenArc S a.expr = true := by
      rcases hi a ha with ⟨l, hl, hld⟩ | hno
      · have hvs : a.expr.vars = l.map (·.2) := by
          rw [hl]
          exact varSum_vars l
        rw [hl, varSum, symGo, varSum_go l []] at h1
        simp only [Bool.not_true, Bool.false_eq_true, if_false, List.nil_append] at h1
        have hns : ∀ q ∈ l, q.1 = (l.headD (0, 0)).1 := by
          split at h1
          · cases h1
          · intro q hq
            have := List.all_eq_true.1 h1 q.1 (List.mem_map.2 ⟨q, hq, rfl⟩)
            rw [beq_iff_eq] at this
            rw [this]
            cases l <;> rfl
        unfold evenArc
        rw [hl]
        unfold varSum
        simp only
        rw [varSum_spread l fun q hq => (hmem q.2).2 (by rw [hvs]; exact List.mem_map.2 ⟨q, hq, rfl⟩)]
        simp only
        have hp : (l.map (·.2)).Perm S := (List.perm_ext_iff_of_nodup hld hnd).2 fun v => by rw [hmem, hvs]
        rw [Bool.or_eq_true, Bool.and_eq_true, decide_eq_true_eq]
        exact Or.inr ⟨List.all_eq_true.2 fun q hq => by rw [hns q hq]; exact BEq.rfl, hp⟩
      · exfalso
        cases he : a.expr with
        | add as => exact hno as he
        | num n es =>
          rw [he, symGo] at h2
          split at h2 <;> exact absurd h2 (by simp)
        | sub x y => rw [he, symGo] at h1; cases h1
        | scal k x => rw [he, symGo] at h1; cases h1
    have hout : ∀ b ∈ t.outputs, (∀ v ∈ S, v ∈ b.expr.vars) ∨ ∀ v ∈ S, v ∉ b.expr.vars := by
      intro b hb
      unfold symOut at h5
      rw [Bool.and_eq_true] at h5
      have := List.all_eq_true.1 h5.1 b hb
      rcases Bool.or_eq_true _ _ ▸ this with h | h
      · exact Or.inl fun v hv => by simpa using List.all_eq_true.1 h v hv
      · exact Or.inr fun v hv => by simpa using List.all_eq_true.1 h v hv
    refine ⟨hg, h3, hnd, ⟨a, ha, hmem⟩, fun b hb => ?_, hout, ?_⟩
    · by_cases hp : b.place = a.place
      · have : b = a := List.inj_on_of_nodup_map hn hb ha hp
        rw [this]
        exact hev
      · unfold symIn at h4
        have h6 := List.all_eq_true.1 h4 b hb
        rw [Bool.or_eq_true, beq_iff_eq] at h6
        rcases h6 with h6 | h6
        · exact absurd h6 hp
        · unfold evenArc
          rw [Bool.or_eq_true]
          refine Or.inl (List.all_eq_true.2 fun v hv => ?_)
          by_cases hvS : v ∈ S
          · have := List.all_eq_true.1 h6 v hvS
            simp only [Bool.not_eq_true', List.contains_eq_mem, decide_eq_false_iff_not] at this
            exact absurd hv this
          · simpa using hvS
    · unfold symOut at h5
      rw [Bool.and_eq_true, beq_iff_eq] at h5
      obtain ⟨c, hc⟩ := List.length_eq_one_iff.1 h5.2
      have hcm : c ∈ t.outputs.filter fun b => S.all fun v => b.expr.vars.contains v := by rw [hc]; exact List.mem_singleton_self _
      obtain ⟨hco, hca⟩ := List.mem_filter.1 hcm
      obtain ⟨l, r, hlr⟩ := List.append_of_mem hco
      refine ⟨l, c, r, hlr, fun v hv => by simpa using List.all_eq_true.1 hca v hv, fun b hb => ?_⟩
      have hbo : b ∈ t.outputs := by
        rw [hlr]
        rcases List.mem_append.1 hb with h | h
        · exact List.mem_append_left _ h
        · exact List.mem_append_right _ (List.mem_cons_of_mem _ h)
      rcases hout b hbo with h | h
      · exfalso
        have hbf : (S.all fun v => b.expr.vars.contains v) = true := List.all_eq_true.2 fun v hv => by simpa using h v hv
        rw [hlr, List.filter_append, List.filter_cons, if_pos hca] at hc
        have hlen := congrArg List.length hc
        rw [List.length_append, List.length_cons, List.length_singleton] at hlen
        rcases List.mem_append.1 hb with h' | h'
        · have := List.length_pos_of_mem (List.mem_filter (p := fun b : CArc => S.all fun v => b.expr.vars.contains v) |>.2 ⟨h', hbf⟩)
          omega
        · have := List.length_pos_of_mem (List.mem_filter (p := fun b : CArc => S.all fun v => b.expr.vars.contains v) |>.2 ⟨h', hbf⟩)
          omega
      · exact h
  · cases h

/-- A set is found. -/
example : symSets ⟨"t", none, [⟨0, varSum [(2, 0), (2, 1)]⟩, ⟨1, .num 1 [.var 2]⟩], [⟨1, varSum [(3, 1), (3, 0)]⟩, ⟨0, .num 1 [.var 2]⟩]⟩ = [[1, 0]] := by decide +kernel

/-! ### Findings -/

/-- p: twice c0 and c1; t: p(x + x + y) to q(x + y) -/
def pTwice : List (String × List (Nat × Nat)) := [("p", [(0, 2), (1, 1)]), ("q", [])]
def tTwice : List (String × List (Nat × List (Nat × CExpr)) × List (Nat × List (Nat × CExpr))) :=
  [("t", [(0, [(1, .var 0), (1, .var 0), (1, .var 1)])], [(1, [(1, .var 0), (1, .var 1)])])]

theorem twice_enabled : (tiny pTwice tTwice).Enabled (tiny pTwice tTwice).init 0 turn := by
  refine ⟨fun p x => ?_, fun h hh => nomatch hh⟩
  show (if 0 = p then _ else 0) + 0 ≤ _
  by_cases hp : 0 = p
  · subst hp
    rw [if_pos rfl]
    show 1 * [[0]].count x + (1 * [[0]].count x + (1 * [[1]].count x + 0)) + 0 ≤ (if twoT.value ⟨1, 0⟩ = x then 2 else 0) + ((if twoT.value ⟨1, 1⟩ = x then 1 else 0) + 0)
    have h0 : twoT.value ⟨1, 0⟩ = [0] := by decide
    have h1 : twoT.value ⟨1, 1⟩ = [1] := by decide
    rw [h0, h1, count_one, count_one]
    split <;> split <;> omega
  · rw [if_neg hp]
    exact Nat.zero_le _

/-- **F116.**  A variable that occurs twice on the input arc is taken for symmetric with one that occurs once, as only the numbers are compared
(SymmetryVisitor.h:44-160): the transition can fire in the coloured net, the unfolded net is dead. -/
theorem C78_finding_repeated : ∃ s, Ready (tiny pTwice tTwice) ∧ (tiny pTwice tTwice).WF ∧ compute (tiny pTwice tTwice) (fun _ => 250) 30 = some s ∧
    Keeps (tiny pTwice tTwice) s ∧ (tiny pTwice tTwice).Legal 0 turn ∧ (tiny pTwice tTwice).Enabled (tiny pTwice tTwice).init 0 turn ∧
    (∃ u B, unfoldSym (tiny pTwice tTwice) s 20 = some u ∧ run u.ops = some B ∧ ∀ reorder, ∃ c, B.makePetriNet reorder = some c ∧ c.net.toNet.Dead c.init) ∧
    ¬ KeepsSym (tiny pTwice tTwice) s := by
  have h : (compute (tiny pTwice tTwice) (fun _ => 250) 30).map (fun s => (usable (tiny pTwice tTwice) s, symSize (tiny pTwice tTwice) s 20,
      gives (tiny pTwice tTwice) (symGen (tiny pTwice tTwice) s 20) (stuck (tiny pTwice tTwice)))) = some (true, some 3, true) := by decide +kernel
  obtain ⟨s, e, h⟩ := Option.map_eq_some_iff.1 h
  simp only [Prod.mk.injEq] at h
  obtain ⟨h1, h2, h3⟩ := h
  obtain ⟨hR, hW⟩ := tiny_ready (ps := pTwice) (ts := tTwice) (by decide +kernel)
  have hsm : (tiny pTwice tTwice).SmallSums := by unfold CNet.SmallSums; decide
  obtain ⟨hd, hk⟩ := lost_first hW hsm tiny_nomix (by decide) tiny_guard h3 h2 (by decide)
  have hl : (tiny pTwice tTwice).Legal 0 turn := tiny_legal (by decide)
  exact ⟨s, hR, hW, e, C68_unfolding_with_fixpoint_partial hR hW hsm tiny_nomix (by decide) e (by decide +kernel) h1, hl, twice_enabled, hd,
    hk ⟨0, by decide, turn, hl, twice_enabled⟩⟩

/-- p, q: c0 and c1; t: p(x + y) and q(z + w) to r(x + y) and s(z + w) -/
def pTwo : List (String × List (Nat × Nat)) := [("p", [(0, 1), (1, 1)]), ("q", [(0, 1), (1, 1)]), ("r", []), ("s", [])]
def tTwo : List (String × List (Nat × List (Nat × CExpr)) × List (Nat × List (Nat × CExpr))) :=
  [("t", [(0, [(1, .var 0), (1, .var 1)]), (1, [(1, .var 2), (1, .var 3)])], [(2, [(1, .var 0), (1, .var 1)]), (3, [(1, .var 2), (1, .var 3)])])]

theorem two_enabled : (tiny pTwo tTwo).Enabled (tiny pTwo tTwo).init 0 turn := by
  refine ⟨fun p x => ?_, fun h hh => nomatch hh⟩
  show (if 0 = p then _ else 0) + ((if 1 = p then _ else 0) + 0) ≤ _
  have h0 : twoT.value ⟨1, 0⟩ = [0] := by decide
  have h1 : twoT.value ⟨1, 1⟩ = [1] := by decide
  by_cases hp : 0 = p
  · subst hp
    rw [if_pos rfl, if_neg (by decide)]
    show 1 * [[0]].count x + (1 * [[1]].count x + 0) + (0 + 0) ≤ (if twoT.value ⟨1, 0⟩ = x then 1 else 0) + ((if twoT.value ⟨1, 1⟩ = x then 1 else 0) + 0)
    rw [h0, h1, count_one, count_one]
    omega
  · rw [if_neg hp]
    by_cases hp : 1 = p
    · subst hp
      rw [if_pos rfl]
      show 0 + (1 * [[0]].count x + (1 * [[1]].count x + 0) + 0) ≤ (if twoT.value ⟨1, 0⟩ = x then 1 else 0) + ((if twoT.value ⟨1, 1⟩ = x then 1 else 0) + 0)
      rw [h0, h1, count_one, count_one]
      omega
    · rw [if_neg hp]
      exact Nat.zero_le _

/-- **F117.**  With two sets of symmetric variables the generator goes through the sequences of one set after those of the other, not through all
pairs (BindingGenerator.cpp:196-221): again the unfolded net is dead from the start.  Each set by itself is symmetric. -/
theorem C78_finding_two_sets : ∃ s, Ready (tiny pTwo tTwo) ∧ (tiny pTwo tTwo).WF ∧ compute (tiny pTwo tTwo) (fun _ => 250) 30 = some s ∧
    Keeps (tiny pTwo tTwo) s ∧ (tiny pTwo tTwo).Legal 0 turn ∧ (tiny pTwo tTwo).Enabled (tiny pTwo tTwo).init 0 turn ∧
    symSets ((tiny pTwo tTwo).trans 0) = [[0, 1], [2, 3]] ∧
    (∀ S ∈ symSets ((tiny pTwo tTwo).trans 0), ∀ a ∈ ((tiny pTwo tTwo).trans 0).inputs ++ ((tiny pTwo tTwo).trans 0).outputs, evenArc S a.expr = true) ∧
    (∃ u B, unfoldSym (tiny pTwo tTwo) s 20 = some u ∧ run u.ops = some B ∧ ∀ reorder, ∃ c, B.makePetriNet reorder = some c ∧ c.net.toNet.Dead c.init) ∧
    ¬ KeepsSym (tiny pTwo tTwo) s := by
  have h : (compute (tiny pTwo tTwo) (fun _ => 250) 30).map (fun s => (usable (tiny pTwo tTwo) s, symSize (tiny pTwo tTwo) s 20,
      gives (tiny pTwo tTwo) (symGen (tiny pTwo tTwo) s 20) (stuck (tiny pTwo tTwo)))) = some (true, some 6, true) := by decide +kernel
  obtain ⟨s, e, h⟩ := Option.map_eq_some_iff.1 h
  simp only [Prod.mk.injEq] at h
  obtain ⟨h1, h2, h3⟩ := h
  obtain ⟨hR, hW⟩ := tiny_ready (ps := pTwo) (ts := tTwo) (by decide +kernel)
  have hsm : (tiny pTwo tTwo).SmallSums := by unfold CNet.SmallSums; decide
  obtain ⟨hd, hk⟩ := lost_first hW hsm tiny_nomix (by decide) tiny_guard h3 h2 (by decide)
  have hl : (tiny pTwo tTwo).Legal 0 turn := tiny_legal (by decide)
  exact ⟨s, hR, hW, e, C68_unfolding_with_fixpoint_partial hR hW hsm tiny_nomix (by decide) e (by decide +kernel) h1, hl, two_enabled, by decide +kernel, by decide +kernel, hd,
    hk ⟨0, by decide, turn, hl, two_enabled⟩⟩

/-- p: c0 and c1; t: p(x + y) to q(x + 2y); u: takes two c0 from q and puts them back -/
def pOut : List (String × List (Nat × Nat)) := [("p", [(0, 1), (1, 1)]), ("q", [])]
def tOut : List (String × List (Nat × List (Nat × CExpr)) × List (Nat × List (Nat × CExpr))) :=
  [("t", [(0, [(1, .var 0), (1, .var 1)])], [(1, [(1, .var 0), (2, .var 1)])]), ("u", [(1, [(2, .const ⟨1, 0⟩)])], [(1, [(2, .const ⟨1, 0⟩)])])]

local instance : DecidableEq Binding := inferInstanceAs (DecidableEq (List (Nat × Nat)))

theorem out_take (ρ : Nat → Val) (p : Nat) (x : Val) : arcsTokens (tiny pOut tOut) ρ ((tiny pOut tOut).trans 0).inputs p x =
    if 0 = p then (if ρ 0 = x then 1 else 0) + (if ρ 1 = x then 1 else 0) else 0 := by
  show (if 0 = p then 1 * [ρ 0].count x + (1 * [ρ 1].count x + 0) else 0) + 0 = _
  rw [count_one, count_one]
  split <;> omega

theorem out_out (ρ : Nat → Val) (p : Nat) (x : Val) : arcsTokens (tiny pOut tOut) ρ ((tiny pOut tOut).trans 0).outputs p x =
    if 1 = p then (if ρ 0 = x then 1 else 0) + 2 * (if ρ 1 = x then 1 else 0) else 0 := by
  show (if 1 = p then 1 * [ρ 0].count x + (2 * [ρ 1].count x + 0) else 0) + 0 = _
  rw [count_one, count_one]
  split <;> omega

theorem out_u (ρ : Nat → Val) (p : Nat) (x : Val) : arcsTokens (tiny pOut tOut) ρ ((tiny pOut tOut).trans 1).inputs p x =
    if 1 = p then 2 * (if [0] = x then 1 else 0) else 0 := by
  show (if 1 = p then 2 * [twoT.value ⟨1, 0⟩].count x + 0 else 0) + 0 = _
  rw [show twoT.value ⟨1, 0⟩ = [0] from by decide, count_one]
  split <;> omega

theorem out_init (x : Val) : (tiny pOut tOut).init 0 x = (if [0] = x then 1 else 0) + (if [1] = x then 1 else 0) := by
  show (if twoT.value ⟨1, 0⟩ = x then 1 else 0) + ((if twoT.value ⟨1, 1⟩ = x then 1 else 0) + 0) = _
  rw [show twoT.value ⟨1, 0⟩ = [0] from by decide, show twoT.value ⟨1, 1⟩ = [1] from by decide]
  omega

theorem out_enabled : (tiny pOut tOut).Enabled (tiny pOut tOut).init 0 turn := by
  refine ⟨fun p x => ?_, fun h hh => nomatch hh⟩
  rw [out_take]
  split
  · rename_i hp
    subst hp
    rw [out_init]
    exact Nat.le_refl _
  · exact Nat.zero_le _

/-- `t` has fired with c0 for x and c1 for y -/
def outM : CMark := (tiny pOut tOut).fire (tiny pOut tOut).init 0 turn

/-- what the unfolded net can reach -/
def OutInv (M : CMark) : Prop := (M 0 [0] = 1 ∧ M 0 [1] = 1) ∨ (M 0 [0] = 0 ∧ M 0 [1] = 0 ∧ 2 ≤ M 1 [0])

theorem out_cases {s : FSt} (h0 : symGen (tiny pOut tOut) s 20 ((tiny pOut tOut).trans 0) = some [[(0, 0), (1, 0)], [(0, 1), (1, 0)], [(0, 1), (1, 1)]]) {t : Nat}
    (ht : t < (tiny pOut tOut).transitions.length) {bs : List Binding} (hbs : symGen (tiny pOut tOut) s 20 ((tiny pOut tOut).trans t) = some bs) {b : Binding} (hb : b ∈ bs)
    {ρ : Nat → Val} (ha : Agree twoT (fun _ => 1) b ρ ((tiny pOut tOut).trans t).vars) :
    t = 1 ∨ (t = 0 ∧ ((ρ 0 = [0] ∧ ρ 1 = [0]) ∨ (ρ 0 = [1] ∧ ρ 1 = [0]) ∨ (ρ 0 = [1] ∧ ρ 1 = [1]))) := by
  have : t = 0 ∨ t = 1 := by have : t < 2 := ht; omega
  rcases this with rfl | rfl
  · right
    rw [h0] at hbs
    cases hbs
    refine ⟨rfl, ?_⟩
    have e0 := agree_eq (N := tiny pOut tOut) (t := 0) ha (v := 0) (by decide)
    have e1 := agree_eq (N := tiny pOut tOut) (t := 0) ha (v := 1) (by decide)
    rw [e0, e1]
    simp only [List.mem_cons, List.not_mem_nil, or_false] at hb
    rcases hb with rfl | rfl | rfl <;> decide
  · exact Or.inl rfl

theorem out_via {s : FSt} (h0 : symGen (tiny pOut tOut) s 20 ((tiny pOut tOut).trans 0) = some [[(0, 0), (1, 0)], [(0, 1), (1, 0)], [(0, 1), (1, 1)]]) {M : CMark}
    (h : Via (tiny pOut tOut) (symGen (tiny pOut tOut) s 20) M) : OutInv M := by
  induction h with
  | init => exact Or.inl (by rw [out_init, out_init]; decide)
  | @step M t bs b ρ _ ht hbs hb ha hen ih =>
    rcases out_cases h0 ht hbs hb ha with rfl | ⟨rfl, hρ⟩
    · have h1 : ∀ x, (tiny pOut tOut).fire M 1 ρ 0 x = M 0 x := fun x => by
        unfold CNet.fire
        rw [out_u, show ((tiny pOut tOut).trans 1).outputs = ((tiny pOut tOut).trans 1).inputs from rfl, out_u]
        rfl
      have h2 := hen.1 1 [0]
      rw [out_u] at h2
      have h3 : (tiny pOut tOut).fire M 1 ρ 1 [0] = M 1 [0] := by
        unfold CNet.fire
        rw [show ((tiny pOut tOut).trans 1).outputs = ((tiny pOut tOut).trans 1).inputs from rfl, out_u]
        exact Nat.sub_add_cancel h2
      unfold OutInv
      rw [h1, h1, h3]
      exact ih
    · have h1 := hen.1 0 [0]
      have h2 := hen.1 0 [1]
      have e1 : ∀ x, (tiny pOut tOut).fire M 0 ρ 0 x = M 0 x - arcsTokens (tiny pOut tOut) ρ ((tiny pOut tOut).trans 0).inputs 0 x := fun x => by
        unfold CNet.fire
        rw [out_out]
        rfl
      have e2 : (tiny pOut tOut).fire M 0 ρ 1 [0] = M 1 [0] + ((if ρ 0 = [0] then 1 else 0) + 2 * (if ρ 1 = [0] then 1 else 0)) := by
        unfold CNet.fire
        rw [out_take, out_out]
        rfl
      unfold OutInv
      rw [e1, e1, e2]
      rw [out_take] at h1 h2 ⊢
      rw [out_take]
      rcases hρ with ⟨r0, r1⟩ | ⟨r0, r1⟩ | ⟨r0, r1⟩ <;> rw [r0, r1] at h1 h2 ⊢ <;> simp at h1 h2 ⊢ <;> unfold OutInv at ih <;> omega

theorem outM_p (x : Val) : outM 0 x = 0 := by
  unfold outM CNet.fire
  rw [out_take, out_out, out_init]
  exact Nat.sub_self _

theorem outM_q : outM 1 [0] = 1 := by
  unfold outM CNet.fire
  rw [out_take, out_out]
  decide

/-- **F118.**  On the output arc only the presence of the variables is checked, not their numbers (VariableSymmetry.cpp:80-114): the coloured net
reaches a marking, even a dead one, for which the unfolded net has none; the unfolded net never gets stuck. -/
theorem C78_finding_output : ∃ s, Ready (tiny pOut tOut) ∧ (tiny pOut tOut).WF ∧ compute (tiny pOut tOut) (fun _ => 250) 30 = some s ∧ Keeps (tiny pOut tOut) s ∧
    (tiny pOut tOut).Reach outM ∧
    (∃ u B, unfoldSym (tiny pOut tOut) s 20 = some u ∧ run u.ops = some B ∧ ∀ reorder, ∃ c, B.makePetriNet reorder = some c ∧
      (∀ m, c.net.toNet.Reach c.init m → ¬ Reads (tiny pOut tOut) u B c outM m ∧ ¬ c.net.toNet.Dead m) ∧ ∀ m, Reads (tiny pOut tOut) u B c outM m → c.net.toNet.Dead m) ∧
    ¬ KeepsSym (tiny pOut tOut) s := by
  have h : (compute (tiny pOut tOut) (fun _ => 250) 30).map (fun s => (usable (tiny pOut tOut) s, symSize (tiny pOut tOut) s 20,
      gives (tiny pOut tOut) (symGen (tiny pOut tOut) s 20) (fun _ _ => true))) = some (true, some 4, true) := by decide +kernel
  have h' : (compute (tiny pOut tOut) (fun _ => 250) 30).map (fun s => (symGen (tiny pOut tOut) s 20 ((tiny pOut tOut).trans 0),
      symGen (tiny pOut tOut) s 20 ((tiny pOut tOut).trans 1))) = some (some [[(0, 0), (1, 0)], [(0, 1), (1, 0)], [(0, 1), (1, 1)]], some [[]]) := by decide +kernel
  obtain ⟨s, e, h⟩ := Option.map_eq_some_iff.1 h
  rw [e, Option.map_some] at h'
  simp only [Prod.mk.injEq, Option.some.injEq] at h h'
  obtain ⟨h1, h2, h3⟩ := h
  obtain ⟨h4, h5⟩ := h'
  obtain ⟨hR, hW⟩ := tiny_ready (ps := pOut) (ts := tOut) (by decide +kernel)
  have hsm : (tiny pOut tOut).SmallSums := by unfold CNet.SmallSums; decide
  have hg := gives_legal h3 tiny_guard
  obtain ⟨u, hu, h⟩ := Option.bind_eq_some_iff.1 h2
  obtain ⟨B, hB, hl⟩ := Option.map_eq_some_iff.1 h
  obtain ⟨B', hB', hc⟩ := compiled_of hW hsm tiny_nomix (by decide) hg hu
  rw [hB] at hB'
  cases hB'
  have hreach : (tiny pOut tOut).Reach outM := .step .init ⟨by decide, tiny_legal (by decide), out_enabled, rfl⟩
  have key : ∀ reorder, ∃ c, B.makePetriNet reorder = some c ∧
      (∀ m, c.net.toNet.Reach c.init m → ¬ Reads (tiny pOut tOut) u B c outM m ∧ ¬ c.net.toNet.Dead m) ∧ ∀ m, Reads (tiny pOut tOut) u B c outM m → c.net.toNet.Dead m := by
    intro reorder
    obtain ⟨c, hmk, _, _, _, hback, hdead⟩ := hc (by rw [hl]; decide) reorder
    have hd : ∀ m, Reads (tiny pOut tOut) u B c outM m → c.net.toNet.Dead m := by
      intro m hr
      refine (hdead outM m hr).2 fun t ht bs hbs b hb ρ ha hen => ?_
      rcases out_cases h4 ht hbs hb ha with rfl | ⟨rfl, _⟩
      · have := hen.1 1 [0]
        rw [out_u, outM_q] at this
        exact absurd this (by decide)
      · have := hen.1 0 (ρ 0)
        rw [out_take, outM_p, if_pos rfl, if_pos rfl] at this
        omega
    have hn : ∀ m, c.net.toNet.Reach c.init m → ¬ c.net.toNet.Dead m := by
      intro m hm hdm
      obtain ⟨M, hv, hr⟩ := hback m hm
      have hno := (hdead M m hr).1 hdm
      rcases out_via h4 hv with ⟨k0, k1⟩ | ⟨_, _, k2⟩
      · refine hno 0 (by decide) _ h4 [(0, 1), (1, 0)] (by decide) (fun v => if v = 0 then [1] else [0]) ?_ ⟨fun p x => ?_, fun h hh => nomatch hh⟩
        · exact (by decide : ∀ v ∈ [0, 1], ∃ i < 2, List.lookup v [(0, 1), (1, 0)] = some i ∧ (if v = 0 then [1] else [0]) = twoT.value ⟨1, i⟩)
        · rw [out_take]
          split
          · rename_i hp
            subst hp
            show (if [1] = x then 1 else 0) + (if [0] = x then 1 else 0) ≤ _
            by_cases x0 : [0] = x
            · subst x0
              rw [k0]
              decide
            · by_cases x1 : [1] = x
              · subst x1
                rw [k1]
                decide
              · rw [if_neg x0, if_neg x1]
                exact Nat.zero_le _
          · exact Nat.zero_le _
      · refine hno 1 (by decide) _ h5 [] (by decide) turn (fun v hv => nomatch hv) ⟨fun p x => ?_, fun h hh => nomatch hh⟩
        rw [out_u]
        split
        · rename_i hp
          subst hp
          split
          · rename_i hx
            subst hx
            exact k2
          · exact Nat.zero_le _
        · exact Nat.zero_le _
    exact ⟨c, hmk, fun m hm => ⟨fun hr => hn m hm (hd m hr), hn m hm⟩, hd⟩
  refine ⟨s, hR, hW, e, C68_unfolding_with_fixpoint_partial hR hW hsm tiny_nomix (by decide) e (by decide +kernel) h1, hreach, ⟨u, B, hu, hB, key⟩, ?_⟩
  rintro ⟨_, hK⟩
  obtain ⟨B', hB', hK⟩ := hK 20 u hu
  rw [hB] at hB'
  cases hB'
  obtain ⟨c, hmk, _, _, hf, _, _⟩ := hK (by rw [hl]; decide) false
  obtain ⟨c', hmk', hn, _⟩ := key false
  rw [hmk] at hmk'
  cases hmk'
  obtain ⟨m, hm, hr⟩ := hf outM hreach
  exact (hn m hm).1 hr

/-- p: pairs of a colour and a dot; t: p((x, y) + (z, w)) to q((x, y) + (z, w)) -/
def pairE : ArcE := .add [.num 1 [.tuple [.var 0, .var 1]], .num 1 [.tuple [.var 2, .var 3]]]
def nTuple : CNet := ⟨⟨fun ty => if ty = 0 then 1 else 2, [(2, [1, 0])]⟩, fun v => if v = 0 ∨ v = 2 then 1 else 0, [⟨"p", 2, [(0, 2)]⟩, ⟨"q", 2, []⟩],
  [⟨"t", none, [⟨0, pairE⟩], [⟨1, pairE⟩]⟩], []⟩

theorem pair_ty : ArcTy nTuple.types nTuple.vty 2 pairE := by
  refine ⟨⟨by simp, List.forall_mem_cons.2 ⟨?_, fun t h => nomatch h⟩⟩, ⟨by simp, List.forall_mem_cons.2 ⟨?_, fun t h => nomatch h⟩⟩, trivial⟩ <;>
    exact ⟨[1, 0], rfl, 1, [0], rfl, rfl, rfl, 0, [], rfl, rfl, rfl, rfl⟩

theorem tupleDims (ty : Nat) : ∀ n ∈ nTuple.types.dims ty, 0 < n := by
  have hb : ∀ ty, 0 < nTuple.types.basic ty := by
    intro ty
    show 0 < if ty = 0 then 1 else 2
    split <;> omega
  intro n hn
  unfold Types.dims at hn
  split at hn
  · rw [List.mem_singleton.1 hn]
    exact hb _
  · obtain ⟨c, _, rfl⟩ := List.mem_map.1 hn
    exact hb c

theorem nTuple_ready : Ready nTuple where
  types := ⟨by decide, by decide, by decide⟩
  parts ty cs h := by
    have hm : (ty, cs) ∈ [(2, [1, 0])] := lookup_mem' h
    rw [List.mem_singleton] at hm
    rw [(Prod.mk.inj hm).2]
    simp
  vpos v := tupleDims _
  ppos p _ := tupleDims _
  marking p hp := by
    have : p = 0 ∨ p = 1 := by have : p < 2 := hp; omega
    rcases this with rfl | rfl
    · intro q hq; rw [List.mem_singleton.1 hq]; decide
    · intro q hq; cases hq
  guard := List.forall_mem_cons.2 ⟨(fun g h => nomatch h), fun t h => nomatch h⟩
  input := List.forall_mem_cons.2 ⟨List.forall_mem_cons.2 ⟨⟨by decide, pair_ty, ⟨by simp, ⟨_, rfl, trivial⟩, ⟨_, rfl, trivial⟩, trivial⟩, by decide +kernel,
    Or.inl ⟨Nat.one_pos, Nat.one_pos, trivial⟩⟩, fun t h => nomatch h⟩, fun t h => nomatch h⟩
  places := by decide
  output := List.forall_mem_cons.2 ⟨List.forall_mem_cons.2 ⟨⟨by decide, pair_ty, List.forall_mem_cons.2 ⟨trivial, List.forall_mem_cons.2 ⟨trivial, fun t h => nomatch h⟩⟩⟩,
    fun t h => nomatch h⟩, fun t h => nomatch h⟩

theorem nTuple_wf : nTuple.WF where
  types := ⟨by decide, by decide, by decide⟩
  pnames := by decide
  tnames := by decide
  vpos := by decide
  guard := fun t ht g hg => (nTuple_ready.guard t ht g hg).1
  arcs := by
    have hs : pairE.Small ∧ pairE.bound < 2 ^ 31 := by simp [pairE, ArcE.Small, ArcE.SmallL, ArcE.bound, ArcE.boundL, W32]
    exact List.forall_mem_cons.2 ⟨List.forall_mem_cons.2 ⟨⟨by decide, pair_ty, hs⟩, List.forall_mem_cons.2 ⟨⟨by decide, pair_ty, hs⟩, fun t h => nomatch h⟩⟩, fun t h => nomatch h⟩
  marking := by decide
  inhib := fun h hh => nomatch hh

/-- **F119.**  The types of the variables are not compared, as only the number of terms is looked at (SymmetryVisitor.h, VariableSymmetry.cpp:28-58), and the
sequences are made for the type of the first: the generator asks the other types for colours that they do not have
(BindingGenerator.cpp:175-180, 205-209).  This is undefined behaviour; without symmetric variables the net is unfolded well. -/
theorem C78_finding_types : ∃ s, Ready nTuple ∧ nTuple.WF ∧ compute nTuple (fun _ => 250) 30 = some s ∧ Keeps nTuple s ∧ (∀ fuel, unfoldSym nTuple s fuel = none) ∧ ¬ KeepsSym nTuple s := by
  have h : (compute nTuple (fun _ => 250) 30).map (fun s => (usable nTuple s, s.maps 0)) =
      some (true, [[(0, [[⟨0, 0⟩]]), (1, [[⟨0, 0⟩]]), (2, [[⟨0, 0⟩]]), (3, [[⟨0, 0⟩]])]]) := by decide +kernel
  obtain ⟨s, e, h⟩ := Option.map_eq_some_iff.1 h
  simp only [Prod.mk.injEq] at h
  obtain ⟨h1, h2⟩ := h
  have hgen : ∀ fuel, symGen nTuple s fuel (nTuple.trans 0) = none := by
    intro fuel
    unfold symGen
    rw [find_self nTuple_wf (by decide), h2, show symSets (nTuple.trans 0) = [[0, 1, 2, 3]] from by decide +kernel]
    match fuel with
    | 0 => decide +kernel
    | 1 => decide +kernel
    | 2 => decide +kernel
    | n + 3 => rfl
  have hno : ∀ fuel, unfoldSym nTuple s fuel = none := by
    intro fuel
    cases hun : unfoldSym nTuple s fuel with
    | none => rfl
    | some u =>
      unfold unfoldSym unfoldWith at hun
      obtain ⟨s0, h0, _⟩ := Option.map_eq_some_iff.1 hun
      exact absurd (hgen fuel) (transitions_gen h0 _ (trans_mem (by decide)))
  refine ⟨s, nTuple_ready, nTuple_wf, e, C68_unfolding_with_fixpoint_partial nTuple_ready nTuple_wf (by unfold CNet.SmallSums; decide) (fun h hh => nomatch hh) (by decide) e
    (by decide +kernel) h1, hno, ?_⟩
  rintro ⟨⟨f0, hf⟩, _⟩
  obtain ⟨u, hu⟩ := hf f0 (Nat.le_refl _)
  rw [hno] at hu
  cases hu

/-- The full claim fails. -/
theorem C78_full_fails : ¬ C78_full := by
  intro h
  obtain ⟨s, hR, hW, e, hK, _, _, _, hn⟩ := C78_finding_repeated
  exact hn (h _ _ 30 s hR.typed hW (by unfold CNet.SmallSums; decide) tiny_nomix (by decide) e hK)

end CFP
end Verif
