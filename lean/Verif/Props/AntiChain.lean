import Verif.TAR.AntiChainLemmas

/-!
# C54: antichains

`AntiChain` keeps, per element, the smallest of the sets inserted.  The siphon-trap solver and the
trace-abstraction-refinement engine answer "already covered" from it.
-/

namespace Verif
namespace AntiChainProps
open AntiChain

/-- **C54**.  After any sequence of insertions of sets (strictly ascending vectors) for any elements, the question whether
a set is subsumed for an element is answered yes exactly when a set inserted for that element is included in it; the sets
stored for an element were inserted for it and none of them is included in another. -/
theorem C54_antichain (l : List (Nat × List Nat)) (hl : ∀ x ∈ l, x.2.Pairwise (· < ·)) (el : Nat) :
    (∀ s : List Nat, s.Pairwise (· < ·) →
      (subsumed (insertAll l) el s = true ↔ ∃ c, (el, c) ∈ l ∧ ∀ x ∈ c, x ∈ s)) ∧
    (∀ c ∈ (insertAll l)[el]?.getD [], (el, c) ∈ l) ∧
    ((insertAll l)[el]?.getD []).Pairwise (fun c d => (¬ ∀ x ∈ c, x ∈ d) ∧ ¬ ∀ x ∈ d, x ∈ c) := by
  obtain ⟨I, hI, hmem⟩ := insertAll_inv l hl el
  have hm : ∀ c, c ∈ I ↔ (el, c) ∈ l := by
    intro c
    rw [hmem, setsOf, List.mem_map]
    constructor
    · rintro ⟨x, hx, rfl⟩
      obtain ⟨h1, h2⟩ := List.mem_filter.1 hx
      have : x.1 = el := by simpa using h2
      rw [← this]; exact h1
    · intro h
      exact ⟨(el, c), List.mem_filter.2 ⟨h, by simp⟩, rfl⟩
  refine ⟨fun s hs => ?_, fun c hc => (hm c).1 (hI.sub c hc), hI.anti⟩
  rw [subsumed_get, subsumed_iff hI.asc hs]
  constructor
  · rintro ⟨c, hc, h⟩; exact ⟨c, (hm c).1 (hI.sub c hc), h⟩
  · rintro ⟨c, hc, h⟩
    obtain ⟨d, hd, h'⟩ := hI.cover c ((hm c).2 hc)
    exact ⟨d, hd, fun x hx => h x (h' x hx)⟩

/-- **C54** (result).  `insert` returns true exactly when the set was not subsumed, and the set is subsumed afterwards. -/
theorem C54_insert (l : List (Nat × List Nat)) (hl : ∀ x ∈ l, x.2.Pairwise (· < ·)) (el : Nat) (s : List Nat)
    (hs : s.Pairwise (· < ·)) :
    ((insert (insertAll l) el s).2 = true ↔ ¬ ∃ c, (el, c) ∈ l ∧ ∀ x ∈ c, x ∈ s) ∧
    subsumed (insert (insertAll l) el s).1 el s = true := by
  constructor
  · rw [← (C54_antichain l hl el).1 s hs, subsumed_get]
    have hr : subsumed (resize (insertAll l) el) el s = subsumed (insertAll l) el s := by
      rw [subsumed_get, subsumed_get]
      congr 1
      unfold resize
      by_cases h : el < (insertAll l).length
      · rw [List.getElem?_append_left h]
      · rw [List.getElem?_append_right (by omega), List.getElem?_eq_none (by omega : (insertAll l).length ≤ el),
          List.getElem?_replicate]
        split <;> rfl
    unfold AntiChain.insert
    simp only [hr, subsumed_get]
    split
    · rename_i h; simp [h]
    · rename_i h; simp [h]
  · have hl' : ∀ x ∈ l ++ [(el, s)], x.2.Pairwise (· < ·) := by
      intro x hx
      rcases List.mem_append.1 hx with hx | hx
      · exact hl x hx
      · simp only [List.mem_singleton] at hx; subst hx; exact hs
    have : (insert (insertAll l) el s).1 = insertAll (l ++ [(el, s)]) := by
      simp [insertAll, List.foldl_append]
    rw [this]
    exact ((C54_antichain _ hl' el).1 s hs).2 ⟨s, by simp, fun x hx => hx⟩

/-- **C54** (users).  The siphon-trap solver and the search of the trace-abstraction-refinement engine work on the sets
of one element: the operations written out in their models are those of the antichain. -/
theorem C54_users (chain : List (List Nat)) (s : List Nat) (h : ∀ c ∈ chain, c.Pairwise (· < ·)) (hs : s.Pairwise (· < ·)) :
    (insert [chain] 0 s).1 = [ST.insertChain chain s] ∧ subsumed [chain] 0 s = ST.subsumed chain s ∧
    TAR.chainInsert chain s = ST.insertChain chain s ∧ TAR.subsumed chain s = ST.subsumed chain s := by
  refine ⟨?_, rfl, tar_insert h hs, tar_subsumed h hs⟩
  unfold AntiChain.insert
  have hr : resize [chain] 0 = [chain] := rfl
  rw [hr]
  have hs' : subsumed [chain] 0 s = ST.subsumed chain s := rfl
  simp only [hs']
  unfold ST.insertChain
  split
  · rfl
  · simp [eraseFrom_all, List.modify]

/-- Three insertions: the second set replaces the first, the third one is subsumed. -/
example : insertAll [(1, [2, 4]), (1, [4]), (1, [4, 7]), (1, [2, 5])] = [[], [[4], [2, 5]]] := by decide
example : subsumed (insertAll [(1, [2, 4]), (1, [4])]) 1 [3, 4] = true := by decide
example : subsumed (insertAll [(1, [2, 4]), (1, [4])]) 0 [3, 4] = false := by decide
/-- The assumption is met and both answers occur. -/
example : ∀ x ∈ [(1, [2, 4]), (1, [4])], x.2.Pairwise (· < ·) := by decide
example : (insert (insertAll [(1, [2, 4])]) 1 [4]).2 = true ∧ (insert (insertAll [(1, [4])]) 1 [2, 4]).2 = false := by decide

end AntiChainProps
end Verif
