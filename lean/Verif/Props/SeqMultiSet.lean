import Verif.XCol.MSLemmas

/-!
# C49: the multisets of the explicit coloured engine
-/

namespace Verif
namespace SeqMultiSetProps
open XCol

/-- `m` represents the multiset with `f x` copies of the colour `x`. -/
def Denotes (m : MS) (f : Nat → Nat) : Prop := m.WF ∧ ∀ x, m.val x = (f x : Int)

theorem Denotes.nonNeg {m : MS} {f : Nat → Nat} (h : Denotes m f) : NonNeg m.counts :=
  nonNeg_of_val h.1.sorted fun c => by have := h.2 c; unfold MS.val at this; omega

/-- the sum of `f x` for `x < n` -/
def total (f : Nat → Int) : Nat → Int
  | 0 => 0
  | n + 1 => total f n + f n

theorem total_add (f g : Nat → Int) (n : Nat) : total (fun x => f x + g x) n = total f n + total g n := by
  induction n with
  | zero => rfl
  | succ n ih => simp only [total, ih]; omega

theorem total_zero (n : Nat) : total (fun _ => 0) n = 0 := by
  induction n with
  | zero => rfl
  | succ n ih => simp only [total, ih]; omega

theorem total_single (c : Nat) (k : Int) (n : Nat) : total (fun x => if c = x then k else 0) n = if c < n then k else 0 := by
  induction n with
  | zero => simp [total]
  | succ n ih =>
    simp only [total, ih]
    by_cases h : c = n
    · subst h; simp
    · by_cases h2 : c < n
      · rw [if_pos h2, if_neg h, if_pos (by omega)]; omega
      · rw [if_neg h2, if_neg h, if_neg (by omega)]; rfl

theorem total_congr {f g : Nat → Int} {n : Nat} (h : ∀ x < n, f x = g x) : total f n = total g n := by
  induction n with
  | zero => rfl
  | succ n ih => simp only [total, ih fun x hx => h x (by omega), h n (by omega)]

theorem sumL_total {l : List (Nat × Int)} (hs : Sorted l) {n : Nat} (h : ∀ e ∈ l, e.1 < n) : sumL l = total (valL l) n := by
  induction l with
  | nil => exact (total_zero n).symm
  | cons e l ih =>
    obtain ⟨c, k⟩ := e
    have hc : c < n := h (c, k) (by simp)
    rw [sumL_cons, ih hs.tail fun e he => h e (by simp [he])]
    have : total (valL ((c, k) :: l)) n = total (fun x => (if c = x then k else 0) + valL l x) n := by
      apply total_congr
      intro x _
      rw [valL_cons]
      by_cases hx : c = x
      · rw [if_pos hx, if_pos hx, valL_head hs (by simp only; omega)]; omega
      · rw [if_neg hx, if_neg hx]; omega
    rw [this, total_add, total_single, if_pos hc]

/-- C49: the empty set. -/
theorem C49_empty : Denotes MS.empty fun _ => 0 := ⟨MS.empty_wf, fun _ => rfl⟩

/-- C49: `addCount` adds copies of a colour. -/
theorem C49_add {m : MS} {f : Nat → Nat} (h : Denotes m f) (c k : Nat) :
    Denotes (m.addCount c k) fun x => f x + if x = c then k else 0 := by
  refine ⟨MS.addCount_wf h.1 c k, fun x => ?_⟩
  dsimp only
  rw [MS.addCount_val h.1, h.2 x]
  by_cases hx : x = c
  · rw [if_pos hx, if_pos hx]; omega
  · rw [if_neg hx, if_neg hx]; omega

/-- C49: `setCount` sets the number of copies of a colour. -/
theorem C49_set {m : MS} {f : Nat → Nat} (h : Denotes m f) (c k : Nat) :
    Denotes (m.setCount c k) fun x => if x = c then k else f x := by
  rw [MS.setCount_eq h.1]
  refine ⟨MS.addCount_wf h.1 _ _, fun x => ?_⟩
  dsimp only
  rw [MS.addCount_val h.1, h.2 x]
  by_cases hx : x = c
  · subst hx
    rw [if_pos rfl, if_pos rfl, h.2 x]; omega
  · rw [if_neg hx, if_neg hx]; omega

/-- C49: `+=` is the sum of multisets. -/
theorem C49_plus {m o : MS} {f g : Nat → Nat} (h : Denotes m f) (ho : Denotes o g) : Denotes (m.plus o) fun x => f x + g x := by
  refine ⟨MS.plus_wf h.1 ho.1, fun x => ?_⟩
  dsimp only
  rw [MS.plus_val h.1 ho.1, h.2 x, ho.2 x]; omega

/-- C49: `-=` followed by `fixNegative` is the truncated difference of multisets. -/
theorem C49_take {m o : MS} {f g : Nat → Nat} (h : Denotes m f) (ho : Denotes o g) :
    Denotes (m.minus o).fixNegative fun x => f x - g x := by
  refine ⟨MS.fix_wf (MS.minus_wf h.1 ho.1), fun x => ?_⟩
  dsimp only
  rw [MS.fix_val]
  have h1 := h.2 x
  have h2 := ho.2 x
  by_cases hc : m.counts = []
  · have hv : m.val x = 0 := by unfold MS.val; rw [hc]; rfl
    unfold MS.minus
    rw [if_pos hc, hv]
    omega
  · rw [MS.minus_val h.1 ho.1 hc]
    omega

/-- C49: `-=` alone is the difference, if the result is a multiset. -/
theorem C49_minus {m o : MS} {f g : Nat → Nat} (h : Denotes m f) (ho : Denotes o g) (hle : ∀ x, g x ≤ f x) :
    Denotes (m.minus o) fun x => f x - g x := by
  refine ⟨MS.minus_wf h.1 ho.1, fun x => ?_⟩
  dsimp only
  have h1 := h.2 x
  have h2 := ho.2 x
  have h3 := hle x
  by_cases hc : m.counts = []
  · have hv : m.val x = 0 := by unfold MS.val; rw [hc]; rfl
    unfold MS.minus
    rw [if_pos hc, hv]
    omega
  · rw [MS.minus_val h.1 ho.1 hc]
    omega

/-- C49: `shrink` keeps the multiset. -/
theorem C49_shrink {m : MS} {f : Nat → Nat} (h : Denotes m f) : Denotes m.shrink f :=
  ⟨MS.shrink_wf h.1 h.nonNeg, fun x => by rw [MS.shrink_val h.1 h.nonNeg, h.2 x]⟩

/-- C49: two shrunk representations of one multiset are the same. -/
theorem C49_shrink_unique {m o : MS} {f : Nat → Nat} (h : Denotes m f) (ho : Denotes o f) : m.shrink = o.shrink :=
  MS.shrunk_ext (C49_shrink h).1 (C49_shrink ho).1 m.shrink_pos o.shrink_pos fun x => by
    rw [(C49_shrink h).2 x, (C49_shrink ho).2 x]

/-- C49: `getCount` gives the number of copies. -/
theorem C49_get {m : MS} {f : Nat → Nat} (h : Denotes m f) (x : Nat) : m.val x = f x := h.2 x

/-- C49: `totalCount` is the number of elements. -/
theorem C49_total {m : MS} {f : Nat → Nat} (h : Denotes m f) {n : Nat} (hn : ∀ x, n ≤ x → f x = 0) :
    m.card = total (fun x => (f x : Int)) n := by
  have hs := C49_shrink h
  have : m.card = m.shrink.card := rfl
  rw [this, hs.1.card, sumL_total hs.1.sorted (n := n)]
  · exact total_congr fun x _ => hs.2 x
  · intro e he
    have hp := m.shrink_pos e he
    have hv := valL_mem hs.1.sorted (c := e.1) (k := e.2) he
    have h2 := hs.2 e.1
    unfold MS.val at h2
    refine Classical.byContradiction fun hge => ?_
    have := hn e.1 (by omega)
    omega

/-- C49: `<=` is inclusion. -/
theorem C49_le {m o : MS} {f g : Nat → Nat} (h : Denotes m f) (ho : Denotes o g) : m.le o = true ↔ ∀ x, f x ≤ g x := by
  rw [MS.le_spec h.1 ho.1 h.nonNeg ho.nonNeg]
  constructor
  · intro hv x; have := hv x; rw [h.2, ho.2] at this; omega
  · intro hv x; have := hv x; rw [h.2, ho.2]; omega

/-- C49: `>=` is inclusion the other way. -/
theorem C49_ge {m o : MS} {f g : Nat → Nat} (h : Denotes m f) (ho : Denotes o g) : m.ge o = true ↔ ∀ x, g x ≤ f x := by
  rw [MS.ge_spec h.1 ho.1 h.nonNeg ho.nonNeg]
  constructor
  · intro hv x; have := hv x; rw [h.2, ho.2] at this; omega
  · intro hv x; have := hv x; rw [h.2, ho.2]; omega

/-- C49: `==` is equality of multisets, whatever the representations. -/
theorem C49_eq {m o : MS} {f g : Nat → Nat} (h : Denotes m f) (ho : Denotes o g) : m.eq o = true ↔ f = g := by
  rw [MS.eq_spec h.1 ho.1 h.nonNeg ho.nonNeg]
  constructor
  · intro hv; funext x; have := hv x; rw [h.2, ho.2] at this; omega
  · intro hv x; rw [h.2, ho.2, hv]

/-- C49: `getHighestCount` bounds every number of copies, and is one of them if there is an element. -/
theorem C49_highest {m : MS} {f : Nat → Nat} (h : Denotes m f) :
    (∀ x, (f x : Int) ≤ m.highest) ∧ ((∃ x, 0 < f x) → ∃ x, (f x : Int) = m.highest) := by
  obtain ⟨h1, h2, h3⟩ := highestL_spec m.counts 0
  have hb : ∀ x, (f x : Int) ≤ m.highest := by
    intro x
    rw [← h.2 x]
    by_cases h0 : valL m.counts x = 0
    · unfold MS.val; rw [h0]; exact h1
    · obtain ⟨k, hk, he⟩ := valL_ne h0
      unfold MS.val; rw [he]; exact h2 _ hk
  refine ⟨hb, ?_⟩
  rintro ⟨x, hx⟩
  rcases h3 with h3 | ⟨e, he, h3⟩
  · have := hb x
    unfold MS.highest at this
    rw [h3] at this; omega
  · refine ⟨e.1, ?_⟩
    rw [← h.2 e.1]
    unfold MS.val MS.highest
    rw [valL_mem h.1.sorted (c := e.1) (k := e.2) he, h3]

/-- Non-vacuity: the operations on sets of two colours. -/
example : ((MS.empty.addCount 5 2).addCount 3 1).counts = [(3, 1), (5, 2)] ∧
    (((MS.empty.addCount 5 2).addCount 3 1).setCount 5 7).card = 8 ∧
    (((MS.empty.addCount 5 2).addCount 3 1).plus (MS.empty.addCount 4 1)).counts = [(3, 1), (4, 1), (5, 2)] ∧
    ((((MS.empty.addCount 5 2).addCount 3 1).minus (MS.empty.addCount 5 2)).fixNegative.shrink).counts = [(3, 1)] := by
  simp [MS.addCount, MS.empty, bump, MS.setCount, put, MS.plus, plusL, MS.minus, minusL, MS.fixNegative, MS.shrink, sumL, valL]

example : MS.le ⟨[(3, 1)], 1⟩ ⟨[(3, 2), (5, 0)], 2⟩ = true ∧ MS.le ⟨[(4, 1)], 1⟩ ⟨[(3, 2), (5, 0)], 2⟩ = false := by
  simp [MS.le, leL]

/-- Finding: with a negative number at the end of the left operand `<=` answers no, though every number of the left one is at
most that of the right one. -/
theorem C49_finding_le_negative : ∃ m o : MS, m.WF ∧ o.WF ∧ (∀ x, m.val x ≤ o.val x) ∧ m.le o = false := by
  refine ⟨⟨[(0, 1), (1, -1)], 0⟩, ⟨[(0, 1)], 1⟩, ⟨by simp [Sorted], by simp [sumL]⟩, ⟨by simp [Sorted], by simp [sumL]⟩, ?_, ?_⟩
  · intro x
    simp only [MS.val, valL]
    split
    · omega
    · split <;> omega
  · simp [MS.le, leL]

/-! ## 32-bit numbers -/

theorem valL_le_sum {l : List (Nat × Int)} (hn : NonNeg l) (c : Nat) : valL l c ≤ sumL l := by
  induction l with
  | nil => simp [valL, sumL]
  | cons e l ih =>
    have h1 := hn e (by simp)
    have h2 := ih hn.tail
    have h3 := sumL_nonneg hn.tail
    obtain ⟨d, k⟩ := e
    rw [valL_cons, sumL_cons]
    simp only at h1
    split <;> omega

theorem notFits {k : Int} : (!fits k) = true ↔ k < -2147483648 ∨ 2147483647 < k := by
  unfold fits maxI
  rw [Bool.not_eq_true', Bool.and_eq_false_iff]
  constructor
  · rintro (h | h)
    · have := of_decide_eq_false h; omega
    · have := of_decide_eq_false h; omega
  · rintro (h | h)
    · left; exact decide_eq_false (by omega)
    · right; exact decide_eq_false (by omega)

/-- C49: adding a colour to a multiset of `int32_t` numbers either is refused or gives the sum; it never overflows. -/
theorem C49_add_machine {m : MS} {f : Nat → Nat} (h : Denotes m f) (hc : m.card ≤ maxI) (c k : Nat) :
    addCountM m c k = if m.card + k ≤ maxI then .ok (m.addCount c k) else .tooMany := by
  have h0 := sumL_nonneg h.nonNeg
  have h1 := h.1.card
  have h2 := valL_le_sum h.nonNeg c
  have h3 := valL_nonneg h.nonNeg c
  unfold addCountM
  by_cases hk : m.card + k ≤ maxI
  · rw [if_neg (by omega), if_neg, if_pos hk]
    simp only [Bool.or_eq_true, notFits, maxI, MS.val] at hk ⊢
    omega
  · rw [if_pos (by omega), if_neg hk]

theorem plusML_ok {a b : List (Nat × Int)} {card : Int} (na : NonNeg a) (nb : NonNeg b) (ha : sumL a ≤ card) (hs : card + sumL b ≤ maxI) :
    plusML card a b = .ok () := by
  have h0 := sumL_nonneg na
  fun_induction plusML card a b with
  | case1 => rfl
  | case2 card d l b hf =>
    exfalso
    have h1 := sumL_nonneg nb.tail
    have h2 := nb (d, l) (by simp)
    rw [sumL_cons] at hs
    simp only [notFits, maxI] at hs hf
    omega
  | case3 card d l b hf ih =>
    have h2 := nb (d, l) (by simp)
    rw [sumL_cons] at hs
    exact ih na nb.tail (by simp only at h2; omega) (by omega) h0
  | case4 card k a d l b hc =>
    exfalso
    have h1 := sumL_nonneg nb.tail
    rw [sumL_cons] at hs
    omega
  | case5 card k a d l b hc hf =>
    exfalso
    have h1 := sumL_nonneg nb.tail
    have h2 := nb (d, l) (by simp)
    have h3 := na (d, k) (by simp)
    have h4 := sumL_nonneg na.tail
    rw [sumL_cons] at hs ha
    simp only [Bool.or_eq_true, notFits, maxI] at hs hf
    omega
  | case6 card k a d l b hc hf ih =>
    have h2 := nb (d, l) (by simp)
    have h3 := na (d, k) (by simp)
    rw [sumL_cons] at hs ha
    simp only at h2 h3
    exact ih na.tail nb.tail (by omega) (by omega) (sumL_nonneg na.tail)
  | case7 card c k a d l b h1 h2 ih =>
    have h3 := na (c, k) (by simp)
    rw [sumL_cons c] at ha
    simp only at h3
    exact ih na.tail nb (by omega) hs (sumL_nonneg na.tail)
  | case8 card c k a d l b h1 h2 hf =>
    exfalso
    have h1 := sumL_nonneg nb.tail
    have h2 := nb (d, l) (by simp)
    rw [sumL_cons d] at hs
    simp only [notFits, maxI] at hs hf
    omega
  | case9 card c k a d l b h1 h2 hf ih =>
    have h2 := nb (d, l) (by simp)
    rw [sumL_cons d] at hs
    simp only at h2
    exact ih na nb.tail (by omega) (by omega) h0

/-- C49: `+=` on `int32_t` numbers gives the sum when that has at most 2^31 - 1 elements.  Full claim: otherwise it throws
`TOO_MANY_TOKENS`; refuted by `C49_finding_plus_overflow`. -/
theorem C49_plus_machine_partial {m o : MS} {f g : Nat → Nat} (h : Denotes m f) (ho : Denotes o g) (hs : m.card + o.card ≤ maxI) :
    plusM m o = .ok (m.plus o) := by
  unfold plusM
  rw [plusML_ok h.nonNeg ho.nonNeg (by rw [h.1.card]; omega) (by rw [← ho.1.card]; exact hs)]

/-- Finding: `+=` checks only the colours present in both sets; otherwise the `int32_t` cardinality overflows, which is
undefined behaviour, instead of an exception. -/
theorem C49_finding_plus_overflow : ∃ (m o : MS) (f g : Nat → Nat), Denotes m f ∧ Denotes o g ∧ m.card ≤ maxI ∧ o.card ≤ maxI ∧
    plusM m o = .overflow := by
  refine ⟨MS.empty.addCount 0 (2 ^ 31 - 1 : Nat), MS.empty.addCount 1 (1 : Nat), _, _, C49_add C49_empty _ _, C49_add C49_empty _ _, ?_, ?_, ?_⟩
  · decide
  · decide
  · simp [plusM, MS.addCount, MS.empty, bump, plusML, fits, maxI]

/-- Finding: the check of `setCount` is made in `uint32_t`, where the sum of two numbers below 2^31 does not wrap; the sum then
overflows `int32_t`. -/
theorem C49_finding_set_overflow : ∃ (m : MS) (f : Nat → Nat), Denotes m f ∧ m.card ≤ maxI ∧ setCountM m 1 (2 ^ 31 - 1) = .overflow := by
  refine ⟨MS.empty.addCount 0 (2 ^ 31 - 1 : Nat), _, C49_add C49_empty _ _, ?_, ?_⟩
  · decide
  · decide

/-- Non-vacuity: sums that fit. -/
example : plusM (MS.empty.addCount 0 (1 : Nat)) (MS.empty.addCount 1 (1 : Nat)) = .ok ⟨[(0, 1), (1, 1)], 2⟩ ∧
    addCountM (MS.empty.addCount 0 (2 ^ 31 - 1 : Nat)) 0 (1 : Nat) = .tooMany := by
  simp [plusM, MS.addCount, MS.empty, bump, plusML, fits, maxI, MS.plus, plusL, sumL, addCountM]

end SeqMultiSetProps
end Verif
