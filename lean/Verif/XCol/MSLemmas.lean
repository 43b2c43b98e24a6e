import Verif.XCol.MultiSet

/-!
# Lemmas on the multisets of the explicit coloured engine
-/

namespace Verif
namespace XCol

/-- Sorted by colour, without repetition. -/
def Sorted (l : List (Nat × Int)) : Prop := l.Pairwise fun a b => a.1 < b.1

/-- No negative number. -/
def NonNeg (l : List (Nat × Int)) : Prop := ∀ e ∈ l, 0 ≤ e.2

theorem Sorted.tail {e : Nat × Int} {l : List (Nat × Int)} (h : Sorted (e :: l)) : Sorted l := (List.pairwise_cons.1 h).2

theorem valL_lt {l : List (Nat × Int)} {c : Nat} (h : ∀ e ∈ l, c < e.1) : valL l c = 0 := by
  induction l with
  | nil => rfl
  | cons e l ih =>
    obtain ⟨d, k⟩ := e
    have hd : c < d := h (d, k) (by simp)
    rw [valL, if_neg (by omega), ih fun e he => h e (by simp [he])]

theorem valL_head {e : Nat × Int} {l : List (Nat × Int)} (hs : Sorted (e :: l)) {c : Nat} (h : c ≤ e.1) : valL l c = 0 := by
  apply valL_lt
  intro x hx
  have := (List.pairwise_cons.1 hs).1 x hx
  omega

theorem valL_not_mem {l : List (Nat × Int)} {c : Nat} (h : ∀ e ∈ l, e.1 ≠ c) : valL l c = 0 := by
  induction l with
  | nil => rfl
  | cons e l ih =>
    obtain ⟨d, k⟩ := e
    have hd : d ≠ c := h (d, k) (by simp)
    rw [valL, if_neg hd, ih fun e he => h e (by simp [he])]

theorem valL_ne {l : List (Nat × Int)} {c : Nat} (h : valL l c ≠ 0) : ∃ k, (c, k) ∈ l ∧ valL l c = k := by
  induction l with
  | nil => exact absurd rfl h
  | cons e l ih =>
    obtain ⟨d, k⟩ := e
    rw [valL] at h ⊢
    by_cases hd : d = c
    · subst hd; exact ⟨k, by simp, by simp⟩
    · rw [if_neg hd] at h ⊢
      obtain ⟨k', h1, h2⟩ := ih h
      exact ⟨k', by simp [h1], h2⟩

theorem valL_mem {l : List (Nat × Int)} (hs : Sorted l) {c : Nat} {k : Int} (h : (c, k) ∈ l) : valL l c = k := by
  induction l with
  | nil => simp at h
  | cons e l ih =>
    obtain ⟨d, k'⟩ := e
    rw [valL]
    rcases List.mem_cons.1 h with h | h
    · simp only [Prod.mk.injEq] at h; rw [if_pos h.1.symm, h.2]
    · have : d < c := (List.pairwise_cons.1 hs).1 _ h
      rw [if_neg (by omega), ih hs.tail h]

theorem valL_nonneg {l : List (Nat × Int)} (h : NonNeg l) (c : Nat) : 0 ≤ valL l c := by
  by_cases h0 : valL l c = 0
  · omega
  · obtain ⟨k, hk, he⟩ := valL_ne h0
    rw [he]; exact h _ hk

theorem nonNeg_of_val {l : List (Nat × Int)} (hs : Sorted l) (h : ∀ c, 0 ≤ valL l c) : NonNeg l := by
  intro e he
  have := valL_mem hs (c := e.1) (k := e.2) he
  rw [← this]; exact h _

theorem NonNeg.tail {e : Nat × Int} {l : List (Nat × Int)} (h : NonNeg (e :: l)) : NonNeg l := fun x hx => h x (by simp [hx])

theorem valL_cons (d : Nat) (k : Int) (l : List (Nat × Int)) (x : Nat) : valL ((d, k) :: l) x = if d = x then k else valL l x := rfl

theorem sumL_cons (d : Nat) (k : Int) (l : List (Nat × Int)) : sumL ((d, k) :: l) = k + sumL l := rfl

theorem valL_below {d : Nat} {k : Int} {l : List (Nat × Int)} (hs : Sorted ((d, k) :: l)) {x : Nat} (h : x < d) : valL ((d, k) :: l) x = 0 := by
  rw [valL_cons, if_neg (by omega), valL_head hs (by simp only; omega)]

/-! ## addCount -/

theorem bump_keys {c : Nat} {k : Int} {l : List (Nat × Int)} {x : Nat × Int} (h : x ∈ bump c k l) : x.1 = c ∨ ∃ y ∈ l, y.1 = x.1 := by
  induction l with
  | nil => simp [bump] at h; left; rw [h]
  | cons e l ih =>
    obtain ⟨d, m⟩ := e
    rw [bump] at h
    split at h
    · rcases List.mem_cons.1 h with h | h
      · right; exact ⟨(d, m), by simp, by rw [h]⟩
      · rcases ih h with h | ⟨y, hy, he⟩
        · left; exact h
        · right; exact ⟨y, by simp [hy], he⟩
    · split at h
      · rcases List.mem_cons.1 h with h | h
        · right; exact ⟨(d, m), by simp, by rw [h]⟩
        · right; exact ⟨x, by simp [h], rfl⟩
      · rcases List.mem_cons.1 h with h | h
        · left; rw [h]
        · right; exact ⟨x, by simpa using h, rfl⟩

theorem bump_sorted {c : Nat} {k : Int} {l : List (Nat × Int)} (hs : Sorted l) : Sorted (bump c k l) := by
  induction l with
  | nil => simp [bump, Sorted]
  | cons e l ih =>
    obtain ⟨d, m⟩ := e
    have h1 := (List.pairwise_cons.1 hs).1
    rw [bump]
    split
    · refine List.pairwise_cons.2 ⟨fun x hx => ?_, ih hs.tail⟩
      rcases bump_keys hx with h | ⟨y, hy, he⟩
      · simp only; omega
      · have := h1 y hy; simp only at this ⊢; omega
    · split
      · exact List.pairwise_cons.2 ⟨fun x hx => h1 x hx, hs.tail⟩
      · refine List.pairwise_cons.2 ⟨fun x hx => ?_, hs⟩
        rcases List.mem_cons.1 hx with h | h
        · rw [h]; simp only; omega
        · have := h1 x h; simp only at this ⊢; omega

theorem bump_val {c : Nat} {k : Int} {l : List (Nat × Int)} (hs : Sorted l) (x : Nat) :
    valL (bump c k l) x = valL l x + if x = c then k else 0 := by
  induction l with
  | nil =>
    simp only [bump, valL]
    by_cases h : x = c
    · subst h; simp
    · rw [if_neg (fun h' => h h'.symm), if_neg h]; rfl
  | cons e l ih =>
    obtain ⟨d, m⟩ := e
    rw [bump]
    split
    · rename_i hd
      rw [valL, valL, ih hs.tail]
      by_cases h : d = x
      · rw [if_pos h, if_pos h, if_neg (by omega)]; omega
      · rw [if_neg h, if_neg h]
    · split
      · rename_i hd hd'
        rw [valL, valL]
        by_cases h : d = x
        · rw [if_pos h, if_pos h, if_pos (by omega)]
        · rw [if_neg h, if_neg h, if_neg (by omega)]; omega
      · rename_i hd hd'
        rw [valL]
        by_cases h : c = x
        · subst h
          rw [if_pos rfl, if_pos rfl, valL, if_neg hd', valL_head hs (by simp only; omega)]; omega
        · rw [if_neg h, if_neg (fun h' => h h'.symm)]; omega

theorem bump_sum {c : Nat} {k : Int} {l : List (Nat × Int)} : sumL (bump c k l) = sumL l + k := by
  induction l with
  | nil => simp [bump, sumL]
  | cons e l ih =>
    obtain ⟨d, m⟩ := e
    rw [bump]
    split
    · rw [sumL, ih, sumL]; omega
    · split
      · rw [sumL, sumL]; omega
      · rw [sumL, sumL]; omega

/-! ## setCount -/

theorem put_eq {c : Nat} {k : Int} {l : List (Nat × Int)} (hs : Sorted l) : put c k l = bump c (k - valL l c) l := by
  induction l with
  | nil => simp [put, bump, valL]
  | cons e l ih =>
    obtain ⟨d, m⟩ := e
    rw [put, bump]
    split
    · rename_i hd
      rw [ih hs.tail, valL, if_neg (by omega)]
    · split
      · rename_i hd hd'
        rw [valL, if_pos hd', show m + (k - m) = k by omega]
      · rename_i hd hd'
        rw [valL, if_neg hd', valL_head hs (by simp only; omega), Int.sub_zero]

/-! ## `+=` and `-=` -/

theorem plusL_keys {a b : List (Nat × Int)} {x : Nat × Int} (h : x ∈ plusL a b) : (∃ y ∈ a, y.1 = x.1) ∨ ∃ y ∈ b, y.1 = x.1 := by
  fun_induction plusL a b with
  | case1 b => right; exact ⟨x, h, rfl⟩
  | case2 a hne => left; exact ⟨x, h, rfl⟩
  | case3 k a d l b ih =>
    rcases List.mem_cons.1 h with h | h
    · left; exact ⟨(d, k), by simp, by rw [h]⟩
    · rcases ih h with ⟨y, hy, he⟩ | ⟨y, hy, he⟩
      · left; exact ⟨y, by simp [hy], he⟩
      · right; exact ⟨y, by simp [hy], he⟩
  | case4 c k a d l b h1 h2 ih =>
    rcases List.mem_cons.1 h with h | h
    · left; exact ⟨(c, k), by simp, by rw [h]⟩
    · rcases ih h with ⟨y, hy, he⟩ | ⟨y, hy, he⟩
      · left; exact ⟨y, by simp [hy], he⟩
      · right; exact ⟨y, hy, he⟩
  | case5 c k a d l b h1 h2 ih =>
    rcases List.mem_cons.1 h with h | h
    · right; exact ⟨(d, l), by simp, by rw [h]⟩
    · rcases ih h with ⟨y, hy, he⟩ | ⟨y, hy, he⟩
      · left; exact ⟨y, hy, he⟩
      · right; exact ⟨y, by simp [hy], he⟩

theorem plusL_sorted {a b : List (Nat × Int)} (ha : Sorted a) (hb : Sorted b) : Sorted (plusL a b) := by
  fun_induction plusL a b with
  | case1 b => exact hb
  | case2 a hne => exact ha
  | case3 k a d l b ih =>
    refine List.pairwise_cons.2 ⟨fun x hx => ?_, ih ha.tail hb.tail⟩
    rcases plusL_keys hx with ⟨y, hy, he⟩ | ⟨y, hy, he⟩
    · have := (List.pairwise_cons.1 ha).1 y hy; simp only at this ⊢; omega
    · have := (List.pairwise_cons.1 hb).1 y hy; simp only at this ⊢; omega
  | case4 c k a d l b h1 h2 ih =>
    refine List.pairwise_cons.2 ⟨fun x hx => ?_, ih ha.tail hb⟩
    rcases plusL_keys hx with ⟨y, hy, he⟩ | ⟨y, hy, he⟩
    · have := (List.pairwise_cons.1 ha).1 y hy; simp only at this ⊢; omega
    · rcases List.mem_cons.1 hy with hy | hy
      · rw [hy] at he; simp only at he ⊢; omega
      · have := (List.pairwise_cons.1 hb).1 y hy; simp only at this ⊢; omega
  | case5 c k a d l b h1 h2 ih =>
    refine List.pairwise_cons.2 ⟨fun x hx => ?_, ih ha hb.tail⟩
    rcases plusL_keys hx with ⟨y, hy, he⟩ | ⟨y, hy, he⟩
    · rcases List.mem_cons.1 hy with hy | hy
      · rw [hy] at he; simp only at he ⊢; omega
      · have := (List.pairwise_cons.1 ha).1 y hy; simp only at this ⊢; omega
    · have := (List.pairwise_cons.1 hb).1 y hy; simp only at this ⊢; omega

theorem plusL_val {a b : List (Nat × Int)} (ha : Sorted a) (hb : Sorted b) (x : Nat) :
    valL (plusL a b) x = valL a x + valL b x := by
  fun_induction plusL a b with
  | case1 b => simp [valL]
  | case2 a hne => simp [valL]
  | case3 k a d l b ih =>
    rw [valL, valL, valL, ih ha.tail hb.tail]
    split <;> rfl
  | case4 c k a d l b h1 h2 ih =>
    rw [valL_cons, ih ha.tail hb, valL_cons c]
    by_cases h : c = x
    · rw [if_pos h, if_pos h, valL_below hb (by omega)]; omega
    · rw [if_neg h, if_neg h]
  | case5 c k a d l b h1 h2 ih =>
    rw [valL_cons, ih ha hb.tail, valL_cons d]
    by_cases h : d = x
    · rw [if_pos h, if_pos h, valL_below ha (by omega)]; omega
    · rw [if_neg h, if_neg h]

theorem plusL_sum {a b : List (Nat × Int)} : sumL (plusL a b) = sumL a + sumL b := by
  fun_induction plusL a b with
  | case1 b => simp [sumL]
  | case2 a hne => simp [sumL]
  | case3 k a d l b ih => rw [sumL, ih, sumL, sumL]; omega
  | case4 c k a d l b h1 h2 ih => rw [sumL_cons, ih, sumL_cons c]; omega
  | case5 c k a d l b h1 h2 ih => rw [sumL_cons, ih, sumL_cons d]; omega

/-- The negated entries. -/
def negEntries (b : List (Nat × Int)) : List (Nat × Int) := b.map fun e => (e.1, -e.2)

theorem minusL_eq (a b : List (Nat × Int)) : minusL a b = plusL a (negEntries b) := by
  fun_induction minusL a b with
  | case1 b => rw [plusL]; rfl
  | case2 a hne => cases a with
    | nil => exact absurd rfl (by intro h; exact hne h)
    | cons e a => simp only [negEntries, List.map_nil]; rw [plusL]; exact hne
  | case3 k a d l b ih =>
    rw [ih]; simp only [negEntries, List.map_cons]; rw [plusL, if_pos rfl, Int.sub_eq_add_neg]
  | case4 c k a d l b h1 h2 ih =>
    rw [ih]; simp only [negEntries, List.map_cons]; rw [plusL, if_neg h1, if_pos h2]
  | case5 c k a d l b h1 h2 ih =>
    rw [ih]; simp only [negEntries, List.map_cons]; rw [plusL, if_neg h1, if_neg h2]

theorem negEntries_sorted {b : List (Nat × Int)} (h : Sorted b) : Sorted (negEntries b) := by
  unfold Sorted negEntries
  rw [List.pairwise_map]
  exact h

theorem negEntries_val (b : List (Nat × Int)) (x : Nat) : valL (negEntries b) x = -valL b x := by
  induction b with
  | nil => rfl
  | cons e b ih =>
    obtain ⟨d, k⟩ := e
    simp only [negEntries, List.map_cons] at ih ⊢
    rw [valL, valL, ih]
    split <;> rfl

theorem negEntries_sum (b : List (Nat × Int)) : sumL (negEntries b) = -sumL b := by
  induction b with
  | nil => rfl
  | cons e b ih =>
    obtain ⟨d, k⟩ := e
    simp only [negEntries, List.map_cons] at ih ⊢
    rw [sumL, sumL, ih]; omega

/-! ## Well-formed multisets -/

/-- The representation invariant. -/
structure MS.WF (m : MS) : Prop where
  sorted : Sorted m.counts
  card : m.card = sumL m.counts

theorem MS.empty_wf : MS.empty.WF := ⟨List.Pairwise.nil, rfl⟩

theorem MS.addCount_wf {m : MS} (h : m.WF) (c : Nat) (k : Int) : (m.addCount c k).WF :=
  ⟨bump_sorted h.sorted, by show m.card + k = _; rw [h.card]; exact bump_sum.symm⟩

theorem MS.addCount_val {m : MS} (h : m.WF) (c : Nat) (k : Int) (x : Nat) :
    (m.addCount c k).val x = m.val x + if x = c then k else 0 := bump_val h.sorted x

theorem MS.setCount_eq {m : MS} (h : m.WF) (c : Nat) (k : Int) : m.setCount c k = m.addCount c (k - m.val c) := by
  unfold MS.setCount MS.addCount MS.val
  rw [put_eq h.sorted]
  congr 1
  omega

theorem MS.plus_wf {m o : MS} (h : m.WF) (ho : o.WF) : (m.plus o).WF :=
  ⟨plusL_sorted h.sorted ho.sorted, by show m.card + _ = _; rw [h.card]; exact plusL_sum.symm⟩

theorem MS.plus_val {m o : MS} (h : m.WF) (ho : o.WF) (x : Nat) : (m.plus o).val x = m.val x + o.val x :=
  plusL_val h.sorted ho.sorted x

theorem MS.minus_wf {m o : MS} (h : m.WF) (ho : o.WF) : (m.minus o).WF := by
  unfold MS.minus
  split
  · exact h
  · refine ⟨?_, ?_⟩
    · rw [minusL_eq]; exact plusL_sorted h.sorted (negEntries_sorted ho.sorted)
    · simp only; rw [minusL_eq, plusL_sum, negEntries_sum, h.card]; omega

theorem MS.minus_val {m o : MS} (h : m.WF) (ho : o.WF) (hne : m.counts ≠ []) (x : Nat) :
    (m.minus o).val x = m.val x - o.val x := by
  unfold MS.minus
  rw [if_neg hne]
  show valL (minusL _ _) x = _
  rw [minusL_eq, plusL_val h.sorted (negEntries_sorted ho.sorted), negEntries_val]
  rfl

/-! ## fixNegative, shrink -/

theorem MS.fix_wf {m : MS} (h : m.WF) : m.fixNegative.WF := by
  refine ⟨?_, ?_⟩
  · unfold Sorted MS.fixNegative
    rw [List.pairwise_map]
    exact h.sorted
  · unfold MS.fixNegative
    simp only
    rw [h.card]
    induction m.counts with
    | nil => rfl
    | cons e l ih =>
      obtain ⟨d, k⟩ := e
      simp only [List.map_cons, sumL, negL]
      rw [← ih]
      split <;> omega

theorem MS.fix_val (m : MS) (x : Nat) : m.fixNegative.val x = max 0 (m.val x) := by
  unfold MS.fixNegative MS.val
  simp only
  induction m.counts with
  | nil => simp [valL]
  | cons e l ih =>
    obtain ⟨d, k⟩ := e
    simp only [List.map_cons, valL]
    split
    · split <;> omega
    · exact ih

theorem MS.fix_nonneg (m : MS) : NonNeg m.fixNegative.counts := by
  unfold MS.fixNegative NonNeg
  simp only [List.mem_map]
  rintro e ⟨x, _, rfl⟩
  simp only
  split <;> omega

theorem shrink_sum {l : List (Nat × Int)} (h : NonNeg l) : sumL (l.filter fun e => decide (e.2 > 0)) = sumL l := by
  induction l with
  | nil => rfl
  | cons e l ih =>
    obtain ⟨d, k⟩ := e
    have hk : 0 ≤ k := h (d, k) (by simp)
    rw [List.filter_cons]
    split
    · rw [sumL, sumL, ih h.tail]
    · rename_i h0
      simp only [gt_iff_lt, decide_eq_true_eq] at h0
      rw [sumL, ih h.tail]; omega

theorem shrink_val {l : List (Nat × Int)} (hs : Sorted l) (h : NonNeg l) (x : Nat) :
    valL (l.filter fun e => decide (e.2 > 0)) x = valL l x := by
  induction l with
  | nil => rfl
  | cons e l ih =>
    obtain ⟨d, k⟩ := e
    have hk : 0 ≤ k := h (d, k) (by simp)
    rw [List.filter_cons]
    split
    · rw [valL, valL, ih hs.tail h.tail]
    · rename_i h0
      simp only [gt_iff_lt, decide_eq_true_eq] at h0
      rw [valL, ih hs.tail h.tail]
      by_cases hd : d = x
      · rw [if_pos hd, valL_head hs (by simp only; omega)]; omega
      · rw [if_neg hd]

theorem MS.shrink_wf {m : MS} (h : m.WF) (hn : NonNeg m.counts) : m.shrink.WF :=
  ⟨List.Pairwise.filter _ h.sorted, by show m.card = _; rw [h.card]; exact (shrink_sum hn).symm⟩

theorem MS.shrink_val {m : MS} (h : m.WF) (hn : NonNeg m.counts) (x : Nat) : m.shrink.val x = m.val x :=
  XCol.shrink_val h.sorted hn x

theorem MS.shrink_pos (m : MS) : ∀ e ∈ m.shrink.counts, 0 < e.2 := by
  intro e he
  unfold MS.shrink at he
  simp only [List.mem_filter, gt_iff_lt, decide_eq_true_eq] at he
  exact he.2

/-! ## Comparison -/

theorem leL_spec {a b : List (Nat × Int)} (ha : Sorted a) (hb : Sorted b) (na : NonNeg a) (nb : NonNeg b) :
    leL a b = true ↔ ∀ x, valL a x ≤ valL b x := by
  fun_induction leL a b with
  | case1 b =>
    simp only [true_iff]
    intro x
    have := valL_nonneg nb x
    simpa [valL] using this
  | case2 a hne =>
    simp only [List.all_eq_true, beq_iff_eq]
    constructor
    · intro h x
      have : valL a x = 0 := Classical.byContradiction fun h0 => by
        obtain ⟨k, hk, he⟩ := valL_ne h0
        have := h _ hk
        simp only at this; omega
      rw [this]; simp [valL]
    · intro h e he
      have h1 := valL_mem ha (c := e.1) (k := e.2) he
      have h2 := h e.1
      have h3 := na e he
      simp only [valL] at h2
      omega
  | case3 c k a d l b hk ih =>
    have hk0 : k = 0 := by have := na (c, k) (by simp); simp only at this; omega
    rw [ih ha.tail hb na.tail nb]
    have : ∀ x, valL ((c, k) :: a) x = valL a x := by
      intro x
      rw [valL]
      by_cases h : c = x
      · rw [if_pos h, valL_head ha (by simp only; omega)]; exact hk0
      · rw [if_neg h]
    simp only [this]
  | case4 c k a d l b hk hl ih =>
    have hl0 : l = 0 := by have := nb (d, l) (by simp); simp only at this; omega
    rw [ih ha hb.tail na nb.tail]
    have : ∀ x, valL ((d, l) :: b) x = valL b x := by
      intro x
      rw [valL]
      by_cases h : d = x
      · rw [if_pos h, valL_head hb (by simp only; omega)]; exact hl0
      · rw [if_neg h]
    simp only [this]
  | case5 k a d l b hk hl hkl =>
    constructor
    · intro h; cases h
    · intro h; have := h d; simp only [valL, if_true] at this; omega
  | case6 k a d l b hk hl hkl ih =>
    rw [ih ha.tail hb.tail na.tail nb.tail]
    constructor
    · intro h x
      rw [valL, valL]
      split
      · omega
      · exact h x
    · intro h x
      by_cases hx : d = x
      · rw [valL_head ha (by simp only; omega)]; exact valL_nonneg nb.tail x
      · have := h x; rw [valL, valL, if_neg hx, if_neg hx] at this; exact this
  | case7 c k a d l b hk hl hne hlt =>
    constructor
    · intro h; cases h
    · intro h
      have := h c
      rw [valL, if_pos rfl, valL, if_neg (by omega), valL_head hb (by simp only; omega)] at this
      omega
  | case8 c k a d l b hk hl hne hlt ih =>
    rw [ih ha hb.tail na nb.tail]
    constructor
    · intro h x
      have := h x
      rw [valL_cons d]
      split
      · rename_i hx
        rw [valL_below ha (by omega)]; omega
      · exact this
    · intro h x
      have h1 := h x
      rw [valL_cons d] at h1
      by_cases hx : d = x
      · rw [valL_below ha (by omega)]
        exact valL_nonneg nb.tail x
      · rw [if_neg hx] at h1; exact h1

theorem valL_skip {d : Nat} {k : Int} {l : List (Nat × Int)} (hs : Sorted ((d, k) :: l)) (hk : k = 0) (x : Nat) :
    valL ((d, k) :: l) x = valL l x := by
  rw [valL_cons]
  by_cases h : d = x
  · rw [if_pos h, valL_head hs (by simp only; omega)]; exact hk
  · rw [if_neg h]

theorem geL_spec {a b : List (Nat × Int)} (ha : Sorted a) (hb : Sorted b) (na : NonNeg a) (nb : NonNeg b) :
    geL a b = true ↔ ∀ x, valL b x ≤ valL a x := by
  fun_induction geL a b with
  | case1 a =>
    simp only [true_iff]
    intro x
    have := valL_nonneg na x
    simpa [valL] using this
  | case2 b hne =>
    simp only [List.all_eq_true, beq_iff_eq]
    constructor
    · intro h x
      have : valL b x = 0 := Classical.byContradiction fun h0 => by
        obtain ⟨k, hk, he⟩ := valL_ne h0
        have := h _ hk
        simp only at this; omega
      rw [this]; simp [valL]
    · intro h e he
      have h1 := valL_mem hb (c := e.1) (k := e.2) he
      have h2 := h e.1
      have h3 := nb e he
      simp only [valL] at h2
      omega
  | case3 c k a d l b hk ih =>
    have hk0 : k = 0 := by have := na (c, k) (by simp); simp only at this; omega
    rw [ih ha.tail hb na.tail nb]
    simp only [valL_skip ha hk0]
  | case4 c k a d l b hk hl ih =>
    have hl0 : l = 0 := by have := nb (d, l) (by simp); simp only at this; omega
    rw [ih ha hb.tail na nb.tail]
    simp only [valL_skip hb hl0]
  | case5 k a d l b hk hl hkl =>
    constructor
    · intro h; cases h
    · intro h; have := h d; simp only [valL, if_true] at this; omega
  | case6 k a d l b hk hl hkl ih =>
    rw [ih ha.tail hb.tail na.tail nb.tail]
    constructor
    · intro h x
      rw [valL, valL]
      split
      · omega
      · exact h x
    · intro h x
      by_cases hx : d = x
      · rw [valL_head hb (by simp only; omega)]; exact valL_nonneg na.tail x
      · have := h x; rw [valL, valL, if_neg hx, if_neg hx] at this; exact this
  | case7 c k a d l b hk hl hne hlt ih =>
    rw [ih ha.tail hb na.tail nb]
    constructor
    · intro h x
      have := h x
      rw [valL_cons c]
      split
      · rename_i hx
        rw [valL_below hb (by omega)]; omega
      · exact this
    · intro h x
      have h1 := h x
      rw [valL_cons c] at h1
      by_cases hx : c = x
      · rw [valL_below hb (by omega)]
        exact valL_nonneg na.tail x
      · rw [if_neg hx] at h1; exact h1
  | case8 c k a d l b hk hl hne hlt =>
    constructor
    · intro h; cases h
    · intro h
      have := h d
      rw [valL, if_pos rfl, valL_below ha (by omega)] at this
      omega

theorem sumL_nonneg {l : List (Nat × Int)} (h : NonNeg l) : 0 ≤ sumL l := by
  induction l with
  | nil => simp [sumL]
  | cons e l ih =>
    have h1 := h e (by simp)
    have h2 := ih h.tail
    obtain ⟨d, k⟩ := e
    rw [sumL_cons]
    simp only at h1
    omega

theorem sumL_zero {l : List (Nat × Int)} (h : NonNeg l) (h0 : sumL l = 0) : ∀ e ∈ l, e.2 = 0 := by
  induction l with
  | nil => simp
  | cons e l ih =>
    have h1 := h e (by simp)
    have h2 := sumL_nonneg h.tail
    obtain ⟨d, k⟩ := e
    rw [sumL_cons] at h0
    simp only at h1
    intro x hx
    rcases List.mem_cons.1 hx with hx | hx
    · rw [hx]; simp only; omega
    · exact ih h.tail (by omega) x hx

theorem valL_zeros {l : List (Nat × Int)} (h : ∀ e ∈ l, e.2 = 0) (x : Nat) : valL l x = 0 :=
  Classical.byContradiction fun h0 => by
    obtain ⟨k, hk, he⟩ := valL_ne h0
    have := h _ hk
    simp only at this; omega

/-- The numbers of a multiset determine its cardinality. -/
theorem sum_mono {a b : List (Nat × Int)} (ha : Sorted a) (hb : Sorted b)
    (h : ∀ x, valL a x ≤ valL b x) : sumL a ≤ sumL b := by
  have hs := plusL_sorted hb (negEntries_sorted ha)
  have hv : NonNeg (plusL b (negEntries a)) := nonNeg_of_val hs (by
    intro c; rw [plusL_val hb (negEntries_sorted ha), negEntries_val]; have := h c; omega)
  have := sumL_nonneg hv
  rw [plusL_sum, negEntries_sum] at this
  omega

theorem eqL_spec {a b : List (Nat × Int)} (ha : Sorted a) (hb : Sorted b) (na : NonNeg a) (nb : NonNeg b) (hsum : sumL a = sumL b) :
    eqL a b = true ↔ ∀ x, valL a x = valL b x := by
  fun_induction eqL a b with
  | case1 b =>
    simp only [true_iff]
    intro x
    rw [valL_zeros (l := b) (sumL_zero nb (by rw [← hsum]; rfl))]
    rfl
  | case2 a hne =>
    simp only [true_iff]
    intro x
    rw [valL_zeros (l := a) (sumL_zero na (by rw [hsum]; rfl))]
    rfl
  | case3 c a d l b ih =>
    rw [ih ha.tail hb na.tail nb (by rw [← hsum, sumL_cons]; omega)]
    simp only [valL_skip ha rfl]
  | case4 c k a d b hk ih =>
    rw [ih ha hb.tail na nb.tail (by rw [hsum, sumL_cons]; omega)]
    simp only [valL_skip hb rfl]
  | case5 c k a d l b hk hl hne =>
    constructor
    · intro h; cases h
    · intro h
      exfalso
      have h1 := na (c, k) (by simp)
      have h2 := nb (d, l) (by simp)
      simp only at h1 h2
      have hc := h c
      have hd := h d
      by_cases hcd : c = d
      · subst hcd
        simp only [valL, if_true] at hc
        rcases hne with hne | hne
        · exact hne rfl
        · exact hne hc
      · rcases Nat.lt_or_gt_of_ne hcd with hlt | hgt
        · rw [valL_below hb hlt, valL_cons, if_pos rfl] at hc; omega
        · rw [valL_below ha hgt, valL_cons, if_pos rfl] at hd; omega
  | case6 c k a d l b hk hl hne ih =>
    have hcd : c = d := Classical.byContradiction fun h => hne (Or.inl h)
    have hkl : k = l := Classical.byContradiction fun h => hne (Or.inr h)
    subst hcd; subst hkl
    rw [ih ha.tail hb.tail na.tail nb.tail (by rw [sumL_cons, sumL_cons] at hsum; omega)]
    constructor
    · intro h x
      rw [valL_cons, valL_cons, h x]
    · intro h x
      by_cases hx : c = x
      · rw [valL_head ha (by simp only; omega), valL_head hb (by simp only; omega)]
      · have := h x; rw [valL_cons, valL_cons, if_neg hx, if_neg hx] at this; exact this

theorem MS.le_spec {m o : MS} (h : m.WF) (ho : o.WF) (nm : NonNeg m.counts) (no : NonNeg o.counts) :
    m.le o = true ↔ ∀ x, m.val x ≤ o.val x := by
  unfold MS.le
  split
  · rename_i hc
    constructor
    · intro h; cases h
    · intro hv
      have := sum_mono h.sorted ho.sorted hv
      rw [h.card, ho.card] at hc; omega
  · exact leL_spec h.sorted ho.sorted nm no

theorem MS.ge_spec {m o : MS} (h : m.WF) (ho : o.WF) (nm : NonNeg m.counts) (no : NonNeg o.counts) :
    m.ge o = true ↔ ∀ x, o.val x ≤ m.val x := by
  unfold MS.ge
  split
  · rename_i hc
    constructor
    · intro h; cases h
    · intro hv
      have := sum_mono ho.sorted h.sorted hv
      rw [h.card, ho.card] at hc; omega
  · exact geL_spec h.sorted ho.sorted nm no

theorem MS.eq_spec {m o : MS} (h : m.WF) (ho : o.WF) (nm : NonNeg m.counts) (no : NonNeg o.counts) :
    m.eq o = true ↔ ∀ x, m.val x = o.val x := by
  unfold MS.eq
  split
  · rename_i hc
    constructor
    · intro h; cases h
    · intro hv
      have h1 := sum_mono h.sorted ho.sorted fun x => Int.le_of_eq (hv x)
      have h2 := sum_mono ho.sorted h.sorted fun x => Int.le_of_eq (hv x).symm
      rw [h.card, ho.card] at hc; omega
  · rename_i hc
    exact eqL_spec h.sorted ho.sorted nm no (by rw [h.card, ho.card] at hc; omega)

/-- Sorted lists with positive numbers are determined by their values. -/
theorem pos_ext {a b : List (Nat × Int)} (ha : Sorted a) (hb : Sorted b) (pa : ∀ e ∈ a, 0 < e.2) (pb : ∀ e ∈ b, 0 < e.2)
    (h : ∀ x, valL a x = valL b x) : a = b := by
  induction a generalizing b with
  | nil =>
    cases b with
    | nil => rfl
    | cons e b =>
      obtain ⟨d, l⟩ := e
      have := h d
      rw [valL_cons, if_pos rfl] at this
      have := pb (d, l) (by simp)
      simp only [valL] at *
      omega
  | cons e a ih =>
    obtain ⟨c, k⟩ := e
    have hk := pa (c, k) (by simp)
    simp only at hk
    cases b with
    | nil =>
      have := h c
      rw [valL_cons, if_pos rfl] at this
      simp only [valL] at this
      omega
    | cons e b =>
      obtain ⟨d, l⟩ := e
      have hl := pb (d, l) (by simp)
      simp only at hl
      have hc := h c
      have hd := h d
      have hcd : c = d := by
        rcases Nat.lt_trichotomy c d with hlt | heq | hgt
        · rw [valL_below hb hlt, valL_cons, if_pos rfl] at hc; omega
        · exact heq
        · rw [valL_below ha hgt, valL_cons, if_pos rfl] at hd; omega
      subst hcd
      rw [valL_cons, valL_cons, if_pos rfl, if_pos rfl] at hc
      subst hc
      rw [ih ha.tail hb.tail (fun e he => pa e (by simp [he])) (fun e he => pb e (by simp [he]))]
      intro x
      by_cases hx : c = x
      · rw [valL_head ha (by simp only; omega), valL_head hb (by simp only; omega)]
      · have := h x; rw [valL_cons, valL_cons, if_neg hx, if_neg hx] at this; exact this

theorem MS.shrunk_ext {m o : MS} (h : m.WF) (ho : o.WF) (pm : ∀ e ∈ m.counts, 0 < e.2) (po : ∀ e ∈ o.counts, 0 < e.2)
    (hv : ∀ x, m.val x = o.val x) : m = o := by
  have hc := pos_ext h.sorted ho.sorted pm po hv
  have h1 := h.card
  have h2 := ho.card
  cases m; cases o
  simp only at hc h1 h2
  subst hc
  rw [h1, h2]

theorem highestL_spec (l : List (Nat × Int)) (m : Int) : m ≤ highestL l m ∧ (∀ e ∈ l, e.2 ≤ highestL l m) ∧
    (highestL l m = m ∨ ∃ e ∈ l, e.2 = highestL l m) := by
  induction l generalizing m with
  | nil => simp [highestL]
  | cons e l ih =>
    obtain ⟨d, k⟩ := e
    obtain ⟨h1, h2, h3⟩ := ih (max k m)
    rw [highestL]
    refine ⟨by omega, ?_, ?_⟩
    · intro x hx
      rcases List.mem_cons.1 hx with hx | hx
      · rw [hx]; simp only; omega
      · exact h2 x hx
    · rcases h3 with h3 | ⟨x, hx, he⟩
      · rcases Int.le_total k m with hkm | hkm
        · left; rw [h3]; omega
        · right; exact ⟨(d, k), by simp, by rw [h3]; simp only; omega⟩
      · right; exact ⟨x, by simp [hx], he⟩

end XCol
end Verif
