import Verif.LTL.HyperLemmas

/-!
# C85: successors of several traces; C86: propositions about traces

`seg n w i` is the marking of trace `i` in the compound marking `w`.  `Fits` says that no trace and no successor comes near the limit of
32 bits (where the program stops with an error, see C04).
-/

namespace Verif
namespace HyperProps
open Hyper PQL

/-- All traces make a step; a trace that is dead stays where it is, and one at least is not dead. -/
def Moves (N : FlatNet) (k : Nat) (m m' : Nat → Nat → Nat) : Prop :=
  (∃ i, i < k ∧ ¬ N.toNet.Dead (m i)) ∧ ∀ i, i < k → (∃ t, N.toNet.Step (m i) t (m' i)) ∨ (N.toNet.Dead (m i) ∧ m' i = m i)

theorem lists_nil {N : FlatNet} {m : Nat → Nat} {e : List Nat} (h : Lists N m e) : e = [] ↔ N.toNet.Dead m := by
  constructor
  · rintro rfl t ht
    exact absurd ((h.2 t.1).2 ⟨t.2, ht⟩) List.not_mem_nil
  · intro hd
    cases e with
    | nil => rfl
    | cons t e =>
      obtain ⟨ht, he⟩ := (h.2 t).1 (List.mem_cons_self ..)
      exact (hd _ he).elim

/-- What `next` delivers, call by call, with the lists of enabled transitions. -/
theorem all_spec (N : FlatNet) (wf : N.WF) {k : Nat} (hk : 0 < k) {parent : Nat → Nat} (hF : Fits N k parent) (w0 : Nat → Nat) :
    ∃ (E : List (List Nat)) (fuel : Nat) (l : List (Nat → Nat)), compoundAll N k parent fuel w0 ⟨[], []⟩ = .ok (l, true) ∧ E.length = k ∧
      (∀ j, j < k → Lists N (seg N.nplaces parent j) (E.getD j [])) ∧
      ((∀ i, i < k → N.toNet.Dead (seg N.nplaces parent i)) → l = []) ∧
      ((∃ i, i < k ∧ ¬ N.toNet.Dead (seg N.nplaces parent i)) → l.length = combos E ∧
        (∀ x ∈ l, ∃ ls, Valid E ls ∧ ∀ j, j < k → Goes N (seg N.nplaces parent j) (E.getD j []) (ls.getD j 0) (seg N.nplaces x j)) ∧
        ∀ ls, Valid E ls → ∃ x ∈ l, ∀ j, j < k → Goes N (seg N.nplaces parent j) (E.getD j []) (ls.getD j 0) (seg N.nplaces x j)) := by
  obtain ⟨E, w1, h1, h2, h3, h4⟩ := enumSegs_spec wf hF k 0 (copyAll N.nplaces k parent w0) (by omega)
  simp only [Nat.zero_add] at h3
  have hany : E.any (fun e => !e.isEmpty) = true ↔ ∃ i, i < k ∧ ¬ N.toNet.Dead (seg N.nplaces parent i) := by
    rw [List.any_eq_true]
    constructor
    · rintro ⟨e, he, hne⟩
      obtain ⟨i, hi, rfl⟩ := List.getElem_of_mem he
      refine ⟨i, by omega, fun hd => ?_⟩
      have := (lists_nil (h3 i (by omega))).2 hd
      rw [List.getD_eq_getElem?_getD, List.getElem?_eq_getElem hi, Option.getD_some] at this
      simp [this] at hne
    · rintro ⟨i, hi, hd⟩
      have hi' : i < E.length := by omega
      refine ⟨E[i], List.getElem_mem _, ?_⟩
      have : E[i] ≠ [] := fun e => hd ((lists_nil (h3 i hi)).1 (by
        rw [List.getD_eq_getElem?_getD, List.getElem?_eq_getElem hi', Option.getD_some]; exact e))
      simpa using this
  by_cases ha : E.any (fun e => !e.isEmpty) = true
  · obtain ⟨hv, hn⟩ := valid_zero E
    rw [h2] at hv hn
    obtain ⟨w2, h5, _, h6⟩ := fireFrom_spec wf hF E (List.replicate k 0) 0 (setSeg N.nplaces w1 0 (seg N.nplaces parent 0)) hv (by omega)
      (fun j hj => by rw [Nat.zero_add]; exact h3 j (by omega))
      (fun j _ hj => by
        cases j with
        | zero => exact seg_set_self _ _ (seg_big _ _)
        | succ j => rw [seg_set_other _ (by omega), h4 _ (by omega), seg_copy hj])
    simp only [Nat.zero_add] at h6
    have hlt := num_lt E _ hv
    obtain ⟨l, h7, h8, h9, h10⟩ := all_from wf hF h2 hk h3 (combos E - 1) (List.replicate k 0) w2 hv (by omega)
    refine ⟨E, combos E - 1 + 1 + 1, w2 :: l, ?_, h2, h3, fun hd => ?_, fun _ => ⟨?_, fun x hx => ?_, fun ls hls => ?_⟩⟩
    · rw [compoundAll, compoundNext]
      simp only [List.isEmpty_nil, if_true, h1, ha, h5, h7]
    · obtain ⟨i, hi, hne⟩ := hany.1 ha
      exact (hne (hd i hi)).elim
    · rw [List.length_cons, h8]
      omega
    · rcases List.mem_cons.1 hx with rfl | hx
      · exact ⟨_, hv, fun j hj => h6 j (by omega)⟩
      · exact h9 x hx
    · by_cases e : num E ls = 0
      · rw [num_inj E ls _ hls hv (e.trans hn.symm)]
        exact ⟨w2, List.mem_cons_self .., fun j hj => h6 j (by omega)⟩
      · obtain ⟨x, hx, h⟩ := h10 ls hls (by omega)
        exact ⟨x, List.mem_cons_of_mem _ hx, h⟩
  · refine ⟨E, 1, [], ?_, h2, h3, fun _ => rfl, fun h => (ha (hany.2 h)).elim⟩
    rw [compoundAll, compoundNext]
    simp only [List.isEmpty_nil, if_true, h1, ha]
    rfl

/-- **C85**: calling `next` until it says that there is no more gives the combinations of steps of the traces: nothing else, and all of
them.  (`w0` is what the buffer held before.) -/
theorem C85_compound_successors (N : FlatNet) (wf : N.WF) (k : Nat) (hk : 0 < k) (parent : Nat → Nat) (hF : Fits N k parent) (w0 : Nat → Nat) :
    ∃ fuel l, compoundAll N k parent fuel w0 ⟨[], []⟩ = .ok (l, true) ∧
      (∀ x ∈ l, Moves N k (seg N.nplaces parent) (seg N.nplaces x)) ∧
      ∀ m', Moves N k (seg N.nplaces parent) m' → ∃ x ∈ l, ∀ i, i < k → seg N.nplaces x i = m' i := by
  obtain ⟨E, fuel, l, h1, h2, h3, h4, h5⟩ := all_spec N wf hk hF w0
  by_cases hd : ∀ i, i < k → N.toNet.Dead (seg N.nplaces parent i)
  · refine ⟨fuel, l, h1, ?_, fun m' hm => ?_⟩
    · rw [h4 hd]
      exact fun x hx => by cases hx
    · obtain ⟨⟨i, hi, hne⟩, _⟩ := hm
      exact (hne (hd i hi)).elim
  · have hne : ∃ i, i < k ∧ ¬ N.toNet.Dead (seg N.nplaces parent i) := by
      by_contra hc
      exact hd fun i hi => by
        by_contra hdi
        exact hc ⟨i, hi, hdi⟩
    obtain ⟨_, h6, h7⟩ := h5 hne
    refine ⟨fuel, l, h1, fun x hx => ⟨hne, fun i hi => ?_⟩, fun m' hm => ?_⟩
    · obtain ⟨ls, _, hls⟩ := h6 x hx
      rcases hls i hi with ⟨he, hs⟩ | ⟨ht, _, hs⟩
      · exact .inr ⟨(lists_nil (h3 i hi)).1 he, hs⟩
      · exact .inl ⟨_, hs⟩
    · have hch : ∀ i, ∃ t, i < k → E.getD i [] = [] ∧ m' i = seg N.nplaces parent i ∨
          t ∈ E.getD i [] ∧ ∃ h : t < N.ntransitions, N.toNet.Step (seg N.nplaces parent i) ⟨t, h⟩ (m' i) := by
        intro i
        by_cases hi : i < k
        · rcases hm.2 i hi with ⟨t, hs⟩ | ⟨hdi, e⟩
          · exact ⟨t.1, fun _ => .inr ⟨((h3 i hi).2 t.1).2 ⟨t.2, hs.1⟩, t.2, hs⟩⟩
          · exact ⟨0, fun _ => .inl ⟨(lists_nil (h3 i hi)).2 hdi, e⟩⟩
        · exact ⟨0, fun h => (hi h).elim⟩
      choose f hf using hch
      obtain ⟨ls, hls, hlf⟩ := counters E f fun j hj => (hf j (by omega)).elim (fun h => .inl h.1) (fun h => .inr h.1)
      obtain ⟨x, hx, hgo⟩ := h7 ls hls
      refine ⟨x, hx, fun i hi => ?_⟩
      rcases hf i hi with ⟨he, e⟩ | ⟨hmem, ht, hs⟩
      · rcases hgo i hi with ⟨_, h⟩ | ⟨_, hne, _⟩
        · rw [h, e]
        · exact (hne he).elim
      · have hne : E.getD i [] ≠ [] := fun h => by rw [h] at hmem; cases hmem
        rcases hgo i hi with ⟨he, _⟩ | ⟨hlt, _, h⟩
        · exact (hne he).elim
        · have heq := (hlf i (by omega)).resolve_left hne
          rw [h.2, hs.2]
          congr 1
          exact Fin.ext heq

/-- **C85**: as many results as there are combinations, so that none comes twice.  `E` are the lists of the enabled transitions of the
traces. -/
theorem C85_each_once (N : FlatNet) (wf : N.WF) (k : Nat) (hk : 0 < k) (parent : Nat → Nat) (hF : Fits N k parent) (w0 : Nat → Nat) :
    ∃ (E : List (List Nat)) (fuel : Nat) (l : List (Nat → Nat)), compoundAll N k parent fuel w0 ⟨[], []⟩ = .ok (l, true) ∧ E.length = k ∧
      (∀ j, j < k → (E.getD j []).Nodup ∧
        ∀ t, t ∈ E.getD j [] ↔ ∃ h : t < N.ntransitions, N.toNet.Enabled (seg N.nplaces parent j) ⟨t, h⟩) ∧
      ((∃ i, i < k ∧ ¬ N.toNet.Dead (seg N.nplaces parent i)) → l.length = (E.map fun e => max 1 e.length).prod) ∧
      ((∀ i, i < k → N.toNet.Dead (seg N.nplaces parent i)) → l.length = 0) := by
  obtain ⟨E, fuel, l, h1, h2, h3, h4, h5⟩ := all_spec N wf hk hF w0
  exact ⟨E, fuel, l, h1, h2, h3, fun h => (h5 h).1, fun h => by rw [h4 h]; rfl⟩

/-- **C85**: all traces start in the initial marking. -/
theorem C85_initial (n : Nat) (init w : Nat → Nat) (h : ∀ p, n ≤ p → init p = 0) (k i : Nat) (hi : i < k) :
    seg n (initialAll n init k w) i = init := initialAll_seg init h w k i hi

/-- Non-vacuity: two traces of a net that moves a token from one place to the other and back. -/
def both : Nat → Nat := fun x => [1, 0, 0, 1].getD x 0

example : (match compoundAll Examples.net2 2 both 3 (fun _ => 7) ⟨[], []⟩ with
    | .ok (l, b) => some (l.map fun x => (List.range 4).map x, b)
    | .error _ => none) = some ([[0, 1, 1, 0]], true) := by decide

/-- three tokens on two places: both transitions are enabled -/
def busy : Nat → Nat := fun x => [2, 1, 0, 1].getD x 0

example : (match compoundAll Examples.net2 2 busy 3 (fun _ => 7) ⟨[], []⟩ with
    | .ok (l, b) => some (l.map fun x => (List.range 4).map x, b)
    | .error _ => none) = some ([[1, 2, 1, 0], [3, 0, 1, 0]], true) := by decide

/-! ### C86 -/

/-- **C86** (comparisons with a scope around each place or single expression, and everything about the first trace): propositions are
evaluated on the traces that they name. -/
theorem C86_evaluated_on_trace_partial (N : FlatNet) (wf : N.WF) (w : Nat → Nat) (c : HCond) (h : okC N.nplaces 0 c = true) :
    heval N.nplaces N.deadlocked w 0 c = true ↔ HCond.Sat N (seg N.nplaces w) 0 c := heval_iff wf w 0 c h

/-- Non-vacuity: the first places of two traces differ. -/
example : okC Examples.net2.nplaces 0 (.cmp .ne (.on 0 (.id 0)) (.on 1 (.id 0))) = true := by decide
example : heval Examples.net2.nplaces Examples.net2.deadlocked both 0 (.cmp .ne (.on 0 (.id 0)) (.on 1 (.id 0))) = true := by decide

/-- F130: a scope around a proposition has no effect; the offset of the visitor is never read. -/
theorem C86_finding_scope (n : Nat) (dl : (Nat → Nat) → Bool) (w : Nat → Nat) (i : Nat) (c : HCond) (off : Nat) :
    heval n dl w off (.on i c) = heval n dl w 0 c := by
  suffices h : ∀ c o1 o2, heval n dl w o1 c = heval n dl w o2 c from h c i 0
  intro c
  induction c with
  | dead => exact fun _ _ => rfl
  | cmp op e1 e2 => exact fun _ _ => by cases op <;> rfl
  | cc l ng => exact fun _ _ => rfl
  | not c ih => exact fun o1 o2 => congrArg (!·) (ih o1 o2)
  | and c d ihc ihd => exact fun o1 o2 => by show (_ && _) = (_ && _); rw [ihc o1 o2, ihd o1 o2]
  | on i c _ => exact fun _ _ => rfl

/-- F130, on a net: in the second trace place 0 is empty, but the proposition "in the second trace, place 0 has one token" passes for
true. -/
theorem C86_finding_scope_net : heval Examples.net2.nplaces Examples.net2.deadlocked both 0 (.on 1 (.cmp .eq (.id 0) (.lit 1))) = true ∧
    ¬ HCond.Sat Examples.net2 (seg Examples.net2.nplaces both) 0 (.on 1 (.cmp .eq (.id 0) (.lit 1))) := by
  refine ⟨by decide, ?_⟩
  simp only [HCond.Sat, HExpr.val]
  decide

/-- **C86**, as one would like to have it: for all propositions. -/
def C86_full : Prop := ∀ (N : FlatNet), N.WF → ∀ (w : Nat → Nat) (c : HCond),
  heval N.nplaces N.deadlocked w 0 c = true ↔ HCond.Sat N (seg N.nplaces w) 0 c

theorem C86_full_fails : ¬ C86_full := fun h =>
  C86_finding_scope_net.2 ((h _ Examples.net2_wf _ _).1 C86_finding_scope_net.1)

/-- F130: no query can tell two traces apart with scopes around propositions. -/
theorem C86_finding_never_apart (n : Nat) (dl : (Nat → Nat) → Bool) (w : Nat → Nat) (c : HCond) :
    heval n dl w 0 (.and (.on 0 c) (.not (.on 1 c))) = false := by
  show (heval n dl w 0 (.on 0 c) && !heval n dl w 0 (.on 1 c)) = false
  rw [C86_finding_scope, C86_finding_scope]
  cases heval n dl w 0 c <;> rfl

/-- F131: the places of a sum are read in the first trace, also under a scope.  The sum of both places of the second trace is 1; the
evaluation gives 3. -/
theorem C86_finding_sum : hval 2 (fun x => [2, 1, 0, 1].getD x 0) 0 (.on 1 (.plus 0 [0, 1] [])) = 3 ∧
    HExpr.val (seg 2 (fun x => [2, 1, 0, 1].getD x 0)) 0 (.on 1 (.plus 0 [0, 1] [])) = 1 := by
  refine ⟨by decide, by decide⟩

end HyperProps
end Verif
