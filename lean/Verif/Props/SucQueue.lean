import Verif.LTL.SucQueue
import Mathlib.Data.List.Perm.Lattice
import Mathlib.Data.List.Perm.Subperm
import Mathlib.Data.List.Nodup
import Mathlib.Tactic.Common

/-!
# C88: the queue of successors of the reduced LTL search

`src` is what the spooler delivered first, `L` the longer list to which the queue is extended between two calls of `next`.
-/

namespace Verif
namespace SucQueueProps
open SucQueue

theorem fresh_eq (P : List Nat) : ∀ L, fresh P L = L.filter fun x => !P.contains x
  | [] => rfl
  | x :: xs => by
    rw [fresh, List.filter_cons, fresh_eq P xs]
    cases P.contains x <;> rfl

theorem drain_eq : ∀ (n : Nat) (q : SQ), drain n q = (q.data.drop q.front).take n
  | 0, q => rfl
  | n + 1, q => by
    rw [drain, SQ.pop, SQ.isEmpty]
    by_cases h : q.data.length ≤ q.front
    · simp [h]
    · have h' : q.front < q.data.length := by omega
      simp only [h, decide_false, Bool.false_eq_true, if_false]
      rw [drain_eq n, List.drop_eq_getElem_cons h', List.take_succ_cons, List.getD_eq_getElem?_getD, List.getElem?_eq_getElem h',
        Option.getD_some]

theorem after_eq : ∀ (n : Nat) (q : SQ), q.front + n ≤ q.data.length → after n q = ⟨q.front + n, q.data⟩
  | 0, q, _ => rfl
  | n + 1, q, h => by
    rw [after, SQ.pop, SQ.isEmpty]
    have h' : ¬ q.data.length ≤ q.front := by omega
    simp only [h', decide_false, Bool.false_eq_true, if_false]
    rw [after_eq n _ (by simp only []; omega)]
    simp only [SQ.mk.injEq, and_true]
    omega

/-- The loop of `next` delivers the list, in order. -/
theorem C88_plain (src : List Nat) (n : Nat) (h : src.length ≤ n) : drain n (ofList src) = src := by
  rw [drain_eq, ofList, List.drop_zero, List.take_of_length_le h]

/-- **C88**: extending the queue after `n` calls neither repeats nor loses a transition: what was delivered before and what is delivered
after is the longer list, up to the order. -/
theorem C88_extended (src L : List Nat) (hs : src.Nodup) (hL : L.Nodup) (hsub : ∀ t ∈ src, t ∈ L) (n : Nat) (hn : n ≤ src.length) :
    ∃ q, (after n (ofList src)).extendTo L = some q ∧ ∀ k, L.length ≤ k → (drain n (ofList src) ++ drain k q).Perm L := by
  have hle : src.length ≤ L.length := (List.subperm_of_subset hs hsub).length_le
  have hperm : (src.take n ++ fresh (src.take n) L).Perm L := by
    rw [fresh_eq]
    refine (List.perm_ext_iff_of_nodup ?_ hL).2 fun t => ?_
    · refine List.nodup_append.2 ⟨hs.sublist (List.take_sublist _ _), hL.filter _, fun a ha b hb e => ?_⟩
      subst e
      have := (List.mem_filter.1 hb).2
      simp only [Bool.not_eq_true', List.contains_eq_mem, decide_eq_false_iff_not] at this
      exact this ha
    · rw [List.mem_append, List.mem_filter]
      constructor
      · rintro (h | h)
        · exact hsub t (List.mem_of_mem_take h)
        · exact h.1
      · intro h
        by_cases hp : t ∈ src.take n
        · exact .inl hp
        · exact .inr ⟨h, by simpa using hp⟩
  have ha : after n (ofList src) = ⟨n, src⟩ := by
    rw [after_eq n _ (by simpa [ofList] using hn)]
    simp [ofList]
  refine ⟨⟨n, src.take n ++ fresh (src.take n) L⟩, ?_, fun k hk => ?_⟩
  · rw [ha, SQ.extendTo]
    simp only [hperm.length_eq, if_true]
    rw [if_neg (by omega)]
  · have hd : drain n (ofList src) = src.take n := by rw [drain_eq]; rfl
    have hlen : (src.take n).length = n := by rw [List.length_take]; omega
    rw [hd, drain_eq]
    simp only []
    have hk' : (fresh (src.take n) L).length ≤ k := by
      have := hperm.length_eq
      rw [List.length_append] at this
      omega
    rw [List.drop_append_of_le_length (by omega), List.drop_of_length_le (by omega), List.nil_append, List.take_of_length_le hk']
    exact hperm

/-- **C88**: `generate_all`.  The spooler delivered enabled transitions `src`; now the stubborn set is `stub`, and `more` are its enabled
transitions.  The array is large enough, and over all calls every transition that was there before or is stubborn now is delivered
once. -/
theorem C88_generate_all (enabled stub : Nat → Bool) (src more : List Nat) (hs : src.Nodup) (hm : more.Nodup)
    (hsrc : ∀ t ∈ src, enabled t = true) (hmore : ∀ t, t ∈ more ↔ enabled t = true ∧ stub t = true) (n : Nat) (hn : n ≤ src.length) :
    ∃ q, (after n (ofList src)).generateAll stub more = some q ∧
      ∀ k, src.length + more.length ≤ k → (drain n (ofList src) ++ drain k q).Nodup ∧
        ∀ t, t ∈ drain n (ofList src) ++ drain k q ↔ t ∈ src ∨ (enabled t = true ∧ stub t = true) := by
  have ha : (after n (ofList src)).data = src := by
    rw [after_eq n _ (by simpa [ofList] using hn)]
    rfl
  have hL : ((src.filter fun t => !stub t) ++ more).Nodup := by
    refine List.nodup_append.2 ⟨hs.filter _, hm, fun a h1 b h2 e => ?_⟩
    subst e
    have h3 := (List.mem_filter.1 h1).2
    rw [((hmore a).1 h2).2] at h3
    cases h3
  have hsub : ∀ t ∈ src, t ∈ (src.filter fun t => !stub t) ++ more := by
    intro t ht
    rw [List.mem_append, List.mem_filter]
    cases e : stub t
    · exact .inl ⟨ht, rfl⟩
    · exact .inr ((hmore t).2 ⟨hsrc t ht, e⟩)
  obtain ⟨q, h1, h2⟩ := C88_extended src _ hs hL hsub n hn
  refine ⟨q, by rw [SQ.generateAll, ha]; exact h1, fun k hk => ?_⟩
  have hp := h2 k (by
    rw [List.length_append]
    have := List.length_filter_le (fun t => !stub t) src
    omega)
  refine ⟨hp.nodup_iff.2 hL, fun t => ?_⟩
  rw [hp.mem_iff, List.mem_append, List.mem_filter, hmore]
  constructor
  · rintro (h | h)
    · exact .inl h.1
    · exact .inr h
  · rintro (h | h)
    · have := hsub t h
      rw [List.mem_append, List.mem_filter, hmore] at this
      exact this
    · exact .inr h

/-- Non-vacuity: transition 4 was delivered, 7 not yet; now 2, 4 and 9 are stubborn. -/
example : (after 1 (ofList [4, 7])).generateAll (fun t => t == 2 || t == 4 || t == 9) [2, 4, 9] = some ⟨1, [4, 7, 2, 9]⟩ := by decide
example : drain 9 ⟨1, [4, 7, 2, 9]⟩ = [7, 2, 9] := by decide

/-- The proviso is needed: if a transition that was delivered is missing from the longer list, the array is too small. -/
theorem C88_needs_old : (after 1 (ofList [4, 7])).extendTo [2, 7] = none := by decide

end SucQueueProps
end Verif
