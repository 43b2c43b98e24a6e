import Verif.ST.LemmasNet
import Verif.Props.Builder

/-!
# C48: the siphon-trap analysis

`STSolver::solve` (src/PetriEngine/STSolver.cpp): siphons and traps are stated here over the abstract net.
-/

namespace Verif

/-- every transition that puts tokens into the set also takes tokens from it -/
def Net.IsSiphon {P T : Type} (N : Net P T) (D : P → Prop) : Prop :=
  ∀ t, (∃ p, D p ∧ 0 < N.post t p) → ∃ p, D p ∧ 0 < N.pre t p

/-- every transition that takes tokens from the set also puts tokens into it -/
def Net.IsTrap {P T : Type} (N : Net P T) (D : P → Prop) : Prop :=
  ∀ t, (∃ p, D p ∧ 0 < N.pre t p) → ∃ p, D p ∧ 0 < N.post t p

/-- the nets the analysis accepts: no weights, no inhibitor arcs, no transition without inputs -/
def Net.Ordinary {P T : Type} (N : Net P T) : Prop :=
  ∀ t, (∃ p, 0 < N.pre t p) ∧ (∀ p, N.inh t p = none) ∧ (∀ p, N.pre t p ≤ 1) ∧ ∀ p, N.post t p ≤ 1

namespace ST

open FlatNet

/-- **C48** (the answer): for every net, initial marking, sequence of random numbers and clock: if the analysis succeeds, no
reachable marking is a deadlock. -/
theorem C48_no_deadlock {C : Cfg} (w : C.N.WF) (ht : 0 < C.N.ntransitions) {fuel : Nat} (h : solve C fuel = some true) :
    ∀ m, C.N.toNet.Reach C.m0 m → ¬ C.N.toNet.Dead m := by
  obtain ⟨h1, h2⟩ := solve_spec h
  exact fun m hm => not_dead_of_good w h1 ht h2 hm

/-! ### The analysis is exact -/

theorem mem_preP_iff {N : FlatNet} (w : N.WF) (t : Fin N.ntransitions) (p : Nat) :
    t.1 ∈ preP N p ↔ 0 < N.toNet.post t p := by
  rw [mem_preP]
  constructor
  · rintro ⟨_, i, hi, hip⟩
    have hf := find_place (w.post_nodup t t.2) hi (fun _ => true) rfl
    simp only [Bool.and_true, hip] at hf
    simp only [toNet, hf]
    unfold postset slice at hi
    exact w.tokens_pos i (List.mem_of_mem_drop (List.mem_of_mem_take hi))
  · intro h
    simp only [toNet] at h
    cases hf : (N.postset t).find? (fun i => i.place == p) with
    | none => rw [hf] at h; cases h
    | some i => exact ⟨t.2, i, List.mem_of_find?_eq_some hf, by simpa using List.find?_some hf⟩

theorem mem_postP_iff {N : FlatNet} (w : N.WF) (hc : checkNet N = true) (t : Fin N.ntransitions) (p : Nat) :
    t.1 ∈ postP N p ↔ 0 < N.toNet.pre t p := by
  rw [mem_postP]
  constructor
  · rintro ⟨_, i, hi, hip⟩
    have hinh := ((checkNet_spec hc t.2).2.1 i hi).1
    have hf := find_place (w.pre_nodup t t.2) hi (fun j => !j.inhibitor) (by simp [hinh])
    rw [hip] at hf
    simp only [toNet, hf]
    unfold preset slice at hi
    exact w.tokens_pos i (List.mem_of_mem_drop (List.mem_of_mem_take hi))
  · intro h
    simp only [toNet] at h
    cases hf : (N.preset t).find? (fun i => i.place == p && !i.inhibitor) with
    | none => rw [hf] at h; cases h
    | some i =>
      have := List.find?_some hf
      simp only [Bool.and_eq_true, beq_iff_eq] at this
      exact ⟨t.2, i, List.mem_of_find?_eq_some hf, this.1⟩

theorem siphon_iff {N : FlatNet} (w : N.WF) (hc : checkNet N = true) (D : Nat → Prop) :
    Siphon N D ↔ N.toNet.IsSiphon D := by
  constructor
  · rintro h t ⟨p, hp, ht⟩
    obtain ⟨q, hq, h2⟩ := h t t.2 ⟨p, hp, (mem_preP_iff w t p).2 ht⟩
    exact ⟨q, hq, (mem_postP_iff w hc t q).1 h2⟩
  · rintro h t ht ⟨p, hp, hm⟩
    obtain ⟨q, hq, h2⟩ := h ⟨t, ht⟩ ⟨p, hp, (mem_preP_iff w ⟨t, ht⟩ p).1 hm⟩
    exact ⟨q, hq, (mem_postP_iff w hc ⟨t, ht⟩ q).2 h2⟩

theorem trap_iff {N : FlatNet} (w : N.WF) (hc : checkNet N = true) (D : Nat → Prop) :
    Trap N D ↔ N.toNet.IsTrap D := by
  constructor
  · rintro h t ⟨p, hp, ht⟩
    obtain ⟨q, hq, h2⟩ := h t t.2 ⟨p, hp, (mem_postP_iff w hc t p).2 ht⟩
    exact ⟨q, hq, (mem_preP_iff w t q).1 h2⟩
  · rintro h t ht ⟨p, hp, hm⟩
    obtain ⟨q, hq, h2⟩ := h ⟨t, ht⟩ ⟨p, hp, (mem_postP_iff w hc ⟨t, ht⟩ p).1 hm⟩
    exact ⟨q, hq, (mem_preP_iff w ⟨t, ht⟩ q).2 h2⟩

/-- The test of `solve` (lines 28-47) accepts exactly the ordinary nets. -/
theorem C48_checkNet {N : FlatNet} (w : N.WF) : checkNet N = true ↔ N.toNet.Ordinary := by
  have hmem : ∀ t, ∀ i ∈ N.preset t, i ∈ N.invariants := fun t i hi => by
    unfold preset slice at hi
    exact List.mem_of_mem_drop (List.mem_of_mem_take hi)
  constructor
  · intro h t
    obtain ⟨h1, h2, h3⟩ := checkNet_spec h t.2
    refine ⟨?_, ?_, ?_, ?_⟩
    · obtain ⟨i, hi⟩ := List.exists_mem_of_ne_nil _ h1
      exact ⟨i.place, (mem_postP_iff w h t _).1 ((mem_postP N _ _).2 ⟨t.2, i, hi, rfl⟩)⟩
    · intro p
      simp only [toNet]
      cases hf : (N.preset t).find? (fun i => i.place == p && i.inhibitor) with
      | none => rfl
      | some i =>
        have := List.find?_some hf
        simp only [Bool.and_eq_true] at this
        rw [(h2 i (List.mem_of_find?_eq_some hf)).1] at this
        cases this.2
    · intro p
      simp only [toNet]
      cases hf : (N.preset t).find? (fun i => i.place == p && !i.inhibitor) with
      | none => exact Nat.zero_le _
      | some i => exact Nat.le_of_eq (h2 i (List.mem_of_find?_eq_some hf)).2
    · intro p
      simp only [toNet]
      cases hf : (N.postset t).find? (fun i => i.place == p) with
      | none => exact Nat.zero_le _
      | some i => exact Nat.le_of_eq (h3 i (List.mem_of_find?_eq_some hf))
  · intro h
    refine List.all_eq_true.2 fun t ht => ?_
    have ht := List.mem_range.1 ht
    obtain ⟨⟨p, hp⟩, h2, h3, h4⟩ := h ⟨t, ht⟩
    simp only [Bool.and_eq_true, Bool.not_eq_true', List.isEmpty_eq_false_iff, List.all_eq_true, beq_iff_eq]
    refine ⟨⟨?_, fun i hi => ?_⟩, fun i hi => ?_⟩
    · intro hn
      simp only [toNet, hn] at hp
      cases hp
    · have hinh : i.inhibitor = false := by
        refine Classical.byContradiction fun hne => ?_
        have hf := find_place (w.pre_nodup t ht) hi (fun j => j.inhibitor) (by simpa using hne)
        have := h2 i.place
        simp only [toNet, hf] at this
        cases this
      refine ⟨hinh, ?_⟩
      have hf := find_place (w.pre_nodup t ht) hi (fun j => !j.inhibitor) (by simp [hinh])
      have := h3 i.place
      simp only [toNet, hf] at this
      have := w.tokens_pos i (hmem t i hi)
      omega
    · have hf := find_place (w.post_nodup t ht) hi (fun _ => true) rfl
      simp only [Bool.and_true] at hf
      have := h4 i.place
      simp only [toNet, hf] at this
      unfold postset slice at hi
      have := w.tokens_pos i (List.mem_of_mem_drop (List.mem_of_mem_take hi))
      omega

/-- The presets of every compiled net are ascending. -/
theorem sorted_of_builder {B : Builder} (w : B.WF) {reorder : Bool}
    (hne : ∃ p, p < B.places.length ∧ (B.place p).skip = false) {c : Builder.Compiled}
    (hc : B.makePetriNet reorder = some c) : c.net.WF ∧ SortedPre c.net := by
  obtain ⟨c', order, em, blocks, hmk, hf⟩ := Builder.make_facts w reorder hne
  obtain rfl := Option.some.inj (hc.symm.trans hmk)
  refine ⟨hf.wf w, fun t ht => ?_⟩
  have hlt : t < em.length := by rw [← hf.lay.nt]; exact ht
  rw [hf.lay.preset_eq hlt]
  have h1 := hf.pre_nodup w em[t]
  have h2 : ((Builder.finPre B c.idmap em[t]).map Invariant.place).Pairwise (· ≤ ·) := by
    have h2 : (Builder.finPre B c.idmap em[t]).map Invariant.place =
        (Builder.sortedPre B c.idmap em[t]).map Invariant.place := by simp [Builder.finPre, Function.comp_def]
    rw [h2, List.pairwise_map]
    have := List.pairwise_mergeSort (le := fun a b : Invariant => decide (a.place ≤ b.place))
      (fun a b c h1 h2 => by simp only [decide_eq_true_eq] at *; omega)
      (fun a b => by simp only [Bool.or_eq_true, decide_eq_true_eq]; omega)
      ((Builder.preI B em[t]).map (Builder.reidx c.idmap))
    exact this.imp fun h => of_decide_eq_true h
  exact (List.pairwise_and_iff.2 ⟨h1, h2⟩).imp fun h => Nat.lt_of_le_of_ne h.2 h.1

/-- **C48** (termination): on every compiled net the analysis returns, whatever the random numbers and the clock. -/
theorem C48_terminates {B : Builder} (wB : B.WF) {reorder : Bool}
    (hne : ∃ p, p < B.places.length ∧ (B.place p).skip = false) {c : Builder.Compiled}
    (hc : B.makePetriNet reorder = some c) (m0 : Nat → Nat) (rand : Nat → Nat) (timeout : Nat → Bool) {fuel : Nat}
    (hf : c.net.nplaces ≤ fuel) : ∃ r, solve ⟨c.net, m0, rand, timeout⟩ fuel = some r := by
  obtain ⟨w, hs⟩ := sorted_of_builder wB hne hc
  unfold solve
  split
  · exact ⟨_, rfl⟩
  · split
    · exact ⟨_, rfl⟩
    · exact solveLoop_some ⟨c.net, m0, rand, timeout⟩ w hs hf _ 0 _ (Nat.zero_add _)

/-- **C48** (exactness): when the clock does not run out, the analysis succeeds on an ordinary net exactly if every siphon
that has a place contains a trap with a token. -/
theorem C48_exact {C : Cfg} (w : C.N.WF) (hs : SortedPre C.N) (htime : ∀ k, C.timeout k = false)
    (ho : C.N.toNet.Ordinary) {fuel : Nat} (hf : C.N.nplaces ≤ fuel) :
    solve C fuel = some true ↔ ∀ D : Nat → Prop, C.N.toNet.IsSiphon D → (∃ p < C.N.nplaces, D p) →
      ∃ T : Nat → Prop, C.N.toNet.IsTrap T ∧ (∀ p, T p → D p) ∧ ∃ p, T p ∧ C.m0 p ≠ 0 := by
  have hc := (C48_checkNet w).2 ho
  constructor
  · intro h D hD ⟨p, hp, hDp⟩
    obtain ⟨_, h2⟩ := solve_spec h
    obtain ⟨T, hT, hsub, q, hq, hm⟩ := h2 p hp D ((siphon_iff w hc D).2 hD) (fun x hx => by
      rw [List.mem_singleton.1 hx]; exact hDp)
    exact ⟨(· ∈ T), (trap_iff w hc _).1 hT, hsub, q, hq, hm⟩
  · intro h
    have hpos : C.N.nplaces ≠ 0 := Nat.pos_iff_ne_zero.1 w.places_pos
    have heq : solve C fuel = solveLoop C fuel C.N.nplaces 0 {} := by
      unfold solve
      rw [if_neg hpos, hc]
      rfl
    rw [heq]
    obtain ⟨r, hr⟩ := solveLoop_some C w hs hf C.N.nplaces 0 {} (Nat.zero_add _)
    rw [hr]
    cases r with
    | true => rfl
    | false =>
      exfalso
      obtain ⟨D, hne, hlt, hD, hbad⟩ := solveLoop_false C w htime fuel C.N.nplaces 0 {} (Nat.zero_add _) hr
      obtain ⟨p, hp⟩ := List.exists_mem_of_ne_nil _ hne
      obtain ⟨T, hT, hsub, q, hq, hm⟩ := h (· ∈ D) ((siphon_iff w hc _).1 hD) ⟨p, hlt p hp, hp⟩
      exact hm (hbad T ((trap_iff w hc T).2 hT) hsub q hq)

/-! ### Non-vacuity -/

/-- a token going round between two places -/
def ringNet : FlatNet where
  nplaces := 2
  ntransitions := 2
  ninvariants := 4
  transitions := [⟨0, 1⟩, ⟨2, 3⟩, ⟨4, 4⟩]
  invariants := [⟨0, 1, false, -1⟩, ⟨1, 1, false, 1⟩, ⟨1, 1, false, -1⟩, ⟨0, 1, false, 1⟩]
  placeToPtrs := [0, 1, 2]
  controllable := [true, true]

def ringCfg (k : Nat) : Cfg := ⟨ringNet, fun p => if p = 0 then k else 0, fun n => n, fun _ => false⟩

theorem ringNet_wf : ringNet.WF where
  places_pos := by decide
  len_trans := rfl
  len_inv := rfl
  len_ptr := rfl
  ptr_zero := rfl
  ptr_mono := by decide
  ptr_last := rfl
  in_out := by decide
  out_in := by decide
  last_in := rfl
  place_lt := by decide
  tokens_pos := by decide
  tokens_lt := by decide
  pre_nodup := by decide
  post_nodup := by decide
  block := by
    intro p t h0 h1 h2 h3
    have : p = 1 := by simp only [ringNet] at h1; omega
    subst this
    simp [FlatNet.ptr, ringNet] at h2 h3
    have : t = 1 := by omega
    subst this
    decide

theorem ringNet_sorted : SortedPre ringNet := by
  intro t ht
  have : t = 0 ∨ t = 1 := by simp only [ringNet] at ht; omega
  rcases this with rfl | rfl <;> decide

/-- one token: success; no token: failure -/
example : solve (ringCfg 1) 3 = some true ∧ solve (ringCfg 0) 3 = some false := by decide

example : ∀ m, ringNet.toNet.Reach (ringCfg 1).m0 m → ¬ ringNet.toNet.Dead m :=
  C48_no_deadlock (C := ringCfg 1) ringNet_wf (by decide) (fuel := 3) (by decide)

example : ringNet.toNet.Ordinary := (C48_checkNet ringNet_wf).1 (by decide)

/-! ### Finding -/

/-- one marked place, no transition -/
def loneNet : FlatNet where
  nplaces := 1
  ntransitions := 0
  ninvariants := 0
  transitions := [⟨0, 0⟩]
  invariants := []
  placeToPtrs := [0, 0]
  controllable := []

theorem loneNet_wf : loneNet.WF where
  places_pos := by decide
  len_trans := rfl
  len_inv := rfl
  len_ptr := rfl
  ptr_zero := rfl
  ptr_mono := by decide
  ptr_last := rfl
  in_out := by decide
  out_in := by decide
  last_in := rfl
  place_lt := by decide
  tokens_pos := by decide
  tokens_lt := by decide
  pre_nodup := by decide
  post_nodup := by decide
  block := by
    intro p t h0 h1
    simp only [loneNet] at h1; omega

/-- **Finding.**  Without the hypothesis that there is a transition the answer is wrong: a net without transitions whose
places are marked is deadlocked, and the analysis reports that there is no deadlock. -/
theorem C48_finding_no_transitions : ∃ C : Cfg, C.N.WF ∧ solve C 2 = some true ∧ C.N.toNet.Dead C.m0 :=
  ⟨⟨loneNet, fun _ => 1, fun n => n, fun _ => false⟩, loneNet_wf, by decide, fun t => t.elim0⟩

end ST
end Verif
