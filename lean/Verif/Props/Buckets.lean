import Verif.Util.BucketsLemmas

/-!
# C87: the bucket allocator of the CTL engine

`C` is the size of a bucket.  `ths` are the threads that call `next`, one after the other.
-/

namespace Verif
namespace BucketsProps
open Buckets

/-- **C87**: no id is given out twice, and as many are counted as were given out. -/
theorem C87_ids_distinct (C : Nat) (hC : 0 < C) (threads : Nat) (ths : List Nat) (ht : ∀ t ∈ ths, t < threads) :
    (calls C (start threads) ths).1.Nodup ∧ (calls C (start threads) ths).1.length = ths.length ∧
      (calls C (start threads) ths).2.size = ths.length := by
  obtain ⟨_, h2, _, _, h5, _⟩ := calls_spec hC ths (start_inv hC threads) (by simpa [start] using ht)
  refine ⟨h2, ?_, by rw [h5]; simp [start, Alloc.size]⟩
  exact calls_length C ths _

/-- **C87**: every id has a cell inside a bucket that exists, and different ids have different cells. -/
theorem C87_cells_distinct (C : Nat) (hC : 0 < C) (threads : Nat) (ths : List Nat) (ht : ∀ t ∈ ths, t < threads) :
    (∀ i ∈ (calls C (start threads) ths).1, ∃ b k, (calls C (start threads) ths).2.at C i = some (b, k) ∧
      b < (calls C (start threads) ths).2.bs.length ∧ k < C) ∧
    ∀ i ∈ (calls C (start threads) ths).1, ∀ j ∈ (calls C (start threads) ths).1,
      (calls C (start threads) ths).2.at C i = (calls C (start threads) ths).2.at C j → i = j := by
  obtain ⟨h1, _, _, h4, _, _⟩ := calls_spec hC ths (start_inv hC threads) (by simpa [start] using ht)
  have hin : ∀ i ∈ (calls C (start threads) ths).1, i / C < (calls C (start threads) ths).2.bs.length :=
    fun i hi => ((h4 i).2 (.inr hi)).1
  refine ⟨fun i hi => ⟨_, _, at_of h1 (hin i hi), hin i hi, Nat.mod_lt _ hC⟩, fun i hi j hj e => ?_⟩
  rw [at_of h1 (hin i hi), at_of h1 (hin j hj)] at e
  simp only [Option.some.injEq, Prod.mk.injEq] at e
  rw [← Nat.div_add_mod i C, ← Nat.div_add_mod j C, e.1, e.2]

/-- **C87**: the cell of an id never changes, whatever is allocated later: pointers into the buckets stay valid. -/
theorem C87_cells_stay (C : Nat) (hC : 0 < C) (threads : Nat) (ths ths' : List Nat) (ht : ∀ t ∈ ths, t < threads)
    (ht' : ∀ t ∈ ths', t < threads) (i : Nat) (hi : i ∈ (calls C (start threads) ths).1) :
    (calls C (calls C (start threads) ths).2 ths').2.at C i = (calls C (start threads) ths).2.at C i := by
  obtain ⟨h1, _, _, h4, _, _⟩ := calls_spec hC ths (start_inv hC threads) (by simpa [start] using ht)
  have hlen : (calls C (start threads) ths).2.tnext.length = threads := by
    have : ∀ (ths : List Nat) (s : Alloc), Inv C s → (∀ t ∈ ths, t < s.tnext.length) → (calls C s ths).2.tnext.length = s.tnext.length := by
      intro ths
      induction ths with
      | nil => exact fun _ _ _ => rfl
      | cons t ths ih =>
        intro s h hm
        obtain ⟨g1, _, _, _, _, g6⟩ := next_spec hC h (hm t (List.mem_cons_self ..))
        rw [calls]
        exact (ih _ g1 fun t ht => by rw [g6]; exact hm t (List.mem_cons_of_mem _ ht)).trans g6
    rw [this ths _ (start_inv hC threads) (by simpa [start] using ht)]
    simp [start]
  obtain ⟨g1, _, _, _, _, g6⟩ := calls_spec hC ths' h1 (by rw [hlen]; exact ht')
  have hin := ((h4 i).2 (.inr hi)).1
  rw [at_of h1 hin, at_of g1 (by omega)]

/-- **C87**: with one thread, as the CTL engine uses it, the ids are the numbers from zero on; so the destructor, which goes through the
numbers below `size`, reaches just the configurations that were made. -/
theorem C87_one_thread (C : Nat) (hC : 0 < C) (n : Nat) : (calls C (start 1) (List.replicate n 0)).1 = List.range n := by
  have key : ∀ (n : Nat) (s : Alloc), Inv C s → s.tnext = [some (s.bs.length - 1)] → (∀ b, b + 1 < s.bs.length → (s.get b).count = C) →
      (calls C s (List.replicate n 0)).1 = List.range' ((s.bs.length - 1) * C + (s.get (s.bs.length - 1)).count) n := by
    intro n
    induction n with
    | zero => exact fun _ _ _ _ => rfl
    | succ n ih =>
      intro s h ht hfull
      have hp := h.pos
      rw [List.replicate_succ, calls, List.range'_succ]
      obtain ⟨h1, _⟩ := next_spec hC h (th := 0) (by rw [ht]; exact Nat.zero_lt_one)
      by_cases hf : (s.get (s.bs.length - 1)).count = C
      · have hnext : s.next C 0 = (s.grow C 0).take 0 := by
          rw [Alloc.next, if_pos]
          simp [Alloc.full, ht, hf]
        have hl := grow_length h 0
        have htn : (s.grow C 0).tnext = [some s.bs.length] := by rw [grow_eq h, ht]; rfl
        have hc : ((s.grow C 0).tnext.getD 0 none).getD 0 = s.bs.length := by rw [htn]; rfl
        have hg := fun b => take_get (s := s.grow C 0) 0 b (by rw [hc, hl]; omega)
        have hlen : ((s.grow C 0).take 0).2.bs.length = s.bs.length + 1 := by simp [Alloc.take, hl]
        have hid : ((s.grow C 0).take 0).1 = s.bs.length * C := by
          simp only [Alloc.take, hc, grow_get h, if_pos]
          rfl
        rw [hnext] at h1 ⊢
        rw [ih _ h1 (by rw [hlen]; exact htn) (fun b hb => ?_), hid]
        · rw [hlen, hg, hc, Nat.add_sub_cancel, if_pos rfl, grow_get h, if_pos rfl, hf]
          have : s.bs.length * C = (s.bs.length - 1) * C + C := by
            obtain ⟨d, hd⟩ : ∃ d, s.bs.length = d + 1 := ⟨s.bs.length - 1, by omega⟩
            rw [hd, Nat.add_sub_cancel]; ring
          rw [this]
        · rw [hlen] at hb
          rw [hg, hc, if_neg (by omega), grow_get h, if_neg (by omega)]
          split
          · rename_i e
            rw [← hf, show s.bs.length - 1 = b by omega]
          · exact hfull b (by omega)
      · have hnext : s.next C 0 = s.take 0 := by
          rw [Alloc.next, if_neg]
          simp [Alloc.full, ht, hf]
        have hc : (s.tnext.getD 0 none).getD 0 = s.bs.length - 1 := by rw [ht]; rfl
        have hg := fun b => take_get (s := s) 0 b (by rw [hc]; omega)
        have hlen : (s.take 0).2.bs.length = s.bs.length := by simp [Alloc.take]
        have hid : (s.take 0).1 = (s.bs.length - 1) * C + (s.get (s.bs.length - 1)).count := by
          simp only [Alloc.take, hc, h.off _ (show s.bs.length - 1 < s.bs.length by omega)]
        rw [hnext] at h1 ⊢
        rw [ih _ h1 (by rw [hlen]; exact ht) (fun b hb => ?_), hid]
        · rw [hlen, hg, hc, if_pos rfl]
          rfl
        · rw [hlen] at hb
          rw [hg, hc, if_neg (by omega)]
          exact hfull b hb
  rw [key n (start 1) (start_inv hC 1) rfl (fun b hb => absurd hb (by simp [start])), List.range_eq_range']
  simp [start, Alloc.get]

/-- Non-vacuity: two threads and buckets of two cells; the second page of the index is in use from id 4 on. -/
example : (calls 2 (start 2) [0, 1, 0, 0, 1, 1, 0]).1 = [0, 2, 1, 4, 3, 6, 5] := by decide
example : (calls 2 (start 2) [0, 1, 0, 0, 1, 1, 0]).2.at 2 5 = some (2, 1) := by decide
example : (calls 2 (start 2) [0, 1, 0, 0, 1, 1, 0]).2.pages.length = 2 := by decide
example : (calls 3 (start 1) [0, 0, 0, 0, 0]).1 = [0, 1, 2, 3, 4] := by decide

/-- F132: `pop_back`, which is never used, cannot go back past the beginning of a bucket: three ids were given out, but the second
`pop_back` already fails (without assertions the counter wraps). -/
theorem C87_finding_pop : (((calls 2 (start 1) [0, 0, 0]).2.pop 0).bind fun s => s.pop 0).isNone = true ∧
    (calls 2 (start 1) [0, 0, 0]).2.size = 3 := by decide

end BucketsProps
end Verif
