import Verif.CFP.Intervals
import Verif.CPN.Values

/-!
# The values in boxes and lists of boxes under the operations
-/

namespace Verif
namespace CFP

open CPN

/-! ### Boxes -/

theorem Interval.Has.length : {i : Interval} → {x : Val} → Interval.Has i x → i.length = x.length
  | [], [], _ => rfl
  | _ :: _, _ :: _, h => by rw [List.length_cons, List.length_cons, h.2.length]
  | [], _ :: _, h => h.elim
  | _ :: _, [], h => h.elim

/-- The box lies within the given sizes and no range of it is empty. -/
def Interval.In : List Nat → Interval → Prop
  | [], [] => True
  | n :: ns, r :: i => (r.lo ≤ r.hi ∧ r.hi < n) ∧ Interval.In ns i
  | _, _ => False

def IVec.In (dims : List Nat) (v : IVec) : Prop := ∀ i ∈ v, Interval.In dims i

theorem Interval.In.length : {ns : List Nat} → {i : Interval} → Interval.In ns i → i.length = ns.length
  | [], [], _ => rfl
  | _ :: _, _ :: _, h => by rw [List.length_cons, List.length_cons, h.2.length]
  | [], _ :: _, h => h.elim
  | _ :: _, [], h => h.elim

theorem Interval.In.fits : {ns : List Nat} → {i : Interval} → {x : Val} → Interval.In ns i → Interval.Has i x → Fits ns x
  | [], [], [], _, _ => trivial
  | _ :: _, _ :: _, _ :: _, h, g => ⟨by have := h.1.2; have := g.1.2; omega, h.2.fits g.2⟩
  | [], _ :: _, _, h, _ => h.elim
  | _ :: _, [], _, h, _ => h.elim
  | [], [], _ :: _, _, g => g.elim
  | _ :: _, _ :: _, [], _, g => g.elim

theorem Interval.In.sound : {ns : List Nat} → {i : Interval} → Interval.In ns i → i.sound = true
  | [], [], _ => rfl
  | _ :: _, r :: i, h => by
    have := h.2.sound
    unfold Interval.sound at this ⊢
    rw [List.all_cons, this, Bool.and_true]
    exact decide_eq_true h.1.1
  | [], _ :: _, h => h.elim
  | _ :: _, [], h => h.elim

theorem Interval.Has.sound : {i : Interval} → {x : Val} → Interval.Has i x → i.sound = true
  | [], [], _ => rfl
  | r :: i, a :: x, h => by
    have := h.2.sound
    unfold Interval.sound at this ⊢
    rw [List.all_cons, this, Bool.and_true]
    exact decide_eq_true (by have := h.1.1; have := h.1.2; omega)
  | [], _ :: _, h => h.elim
  | _ :: _, [], h => h.elim

/-- A box that is not empty has its lower corner. -/
theorem Interval.lower_mem : (i : Interval) → i.sound = true → Interval.Has i i.lowerIds
  | [], _ => trivial
  | r :: i, h => by
    unfold Interval.sound at h
    rw [List.all_cons, Bool.and_eq_true] at h
    exact ⟨⟨Nat.le_refl _, of_decide_eq_true h.1⟩, Interval.lower_mem i h.2⟩

theorem Interval.meets_length : {i j : Interval} → i.meets j = true → i.length = j.length
  | [], [], _ => rfl
  | r :: i, s :: j, h => by
    unfold Interval.meets at h
    rw [Bool.and_eq_true] at h
    rw [List.length_cons, List.length_cons, Interval.meets_length h.2]
  | [], _ :: _, h => by unfold Interval.meets at h; cases h
  | _ :: _, [], h => by unfold Interval.meets at h; cases h

/-- Two boxes with a value in common meet. -/
theorem Interval.meets_of : {i j : Interval} → {x : Val} → Interval.Has i x → Interval.Has j x → i.meets j = true
  | [], [], [], _, _ => rfl
  | r :: i, s :: j, a :: x, h, g => by
    unfold Interval.meets Rng.meets
    rw [Interval.meets_of h.2 g.2, Bool.and_true, Bool.and_eq_true]
    exact ⟨decide_eq_true (Nat.le_trans h.1.1 g.1.2), decide_eq_true (Nat.le_trans g.1.1 h.1.2)⟩
  | [], _, _ :: _, h, _ => h.elim
  | _ :: _, _, [], h, _ => h.elim
  | [], _ :: _, [], _, g => g.elim
  | _ :: _, [], _ :: _, _, g => g.elim

/-- Two non-empty boxes that meet have a value in common. -/
theorem Interval.meets_exists : (i j : Interval) → i.sound = true → j.sound = true → i.meets j = true →
    ∃ x, Interval.Has i x ∧ Interval.Has j x
  | [], [], _, _, _ => ⟨[], trivial, trivial⟩
  | r :: i, s :: j, hi, hj, h => by
    unfold Interval.sound at hi hj
    rw [List.all_cons, Bool.and_eq_true] at hi hj
    unfold Interval.meets Rng.meets at h
    rw [Bool.and_eq_true, Bool.and_eq_true] at h
    obtain ⟨x, h1, h2⟩ := Interval.meets_exists i j hi.2 hj.2 h.2
    have e1 := of_decide_eq_true hi.1
    have e2 := of_decide_eq_true hj.1
    have e3 := of_decide_eq_true h.1.1
    have e4 := of_decide_eq_true h.1.2
    exact ⟨max r.lo s.lo :: x, ⟨by omega, h1⟩, ⟨by omega, h2⟩⟩
  | [], _ :: _, _, _, h => by unfold Interval.meets at h; cases h
  | _ :: _, [], _, _, h => by unfold Interval.meets at h; cases h

theorem Interval.meets_comm : (i j : Interval) → i.meets j = j.meets i
  | [], [] => rfl
  | r :: i, s :: j => by
    unfold Interval.meets Rng.meets
    rw [Interval.meets_comm i j, Bool.and_comm (decide (r.lo ≤ s.hi))]
  | [], _ :: _ => rfl
  | _ :: _, [] => rfl

theorem Interval.hull_left : {i j : Interval} → {x : Val} → i.length = j.length → Interval.Has i x → Interval.Has (i.hull j) x
  | [], [], [], _, _ => trivial
  | r :: i, s :: j, a :: x, hl, h => by
    refine ⟨?_, Interval.hull_left (by simpa using hl) h.2⟩
    have := h.1.1; have := h.1.2
    show min r.lo s.lo ≤ a ∧ a ≤ max r.hi s.hi
    omega
  | [], _, _ :: _, _, h => h.elim
  | _ :: _, _, [], _, h => h.elim
  | [], _ :: _, [], hl, _ => by cases hl
  | _ :: _, [], _ :: _, hl, _ => by cases hl

theorem Interval.hull_comm (i j : Interval) : i.hull j = j.hull i := by
  unfold Interval.hull
  induction i generalizing j with
  | nil => cases j <;> rfl
  | cons r i ih => cases j with
    | nil => rfl
    | cons s j =>
      rw [List.zipWith_cons_cons, List.zipWith_cons_cons, ih]
      congr 1
      unfold Rng.hull
      rw [Nat.min_comm, Nat.max_comm]

theorem Interval.hull_right {i j : Interval} {x : Val} (hl : i.length = j.length) (h : Interval.Has j x) :
    Interval.Has (i.hull j) x := by
  rw [Interval.hull_comm]
  exact Interval.hull_left hl.symm h

theorem Interval.hull_length {i j : Interval} (h : i.length = j.length) : (i.hull j).length = i.length := by
  unfold Interval.hull
  rw [List.length_zipWith, h, Nat.min_self]

theorem Interval.In.hull : {ns : List Nat} → {i j : Interval} → Interval.In ns i → Interval.In ns j → Interval.In ns (i.hull j)
  | [], [], [], _, _ => trivial
  | n :: ns, r :: i, s :: j, h, g => by
    refine ⟨?_, h.2.hull g.2⟩
    have := h.1; have := g.1
    show min r.lo s.lo ≤ max r.hi s.hi ∧ max r.hi s.hi < n
    omega
  | [], [], _ :: _, _, g => g.elim
  | [], _ :: _, _, h, _ => h.elim
  | _ :: _, [], _, h, _ => h.elim
  | _ :: _, _ :: _, [], _, g => g.elim

/-- The overlap has the values that both boxes have. -/
theorem Interval.overlap_has {i j : Interval} {x : Val} (hl : i.length = j.length) :
    Interval.Has (i.overlap j) x ↔ Interval.Has i x ∧ Interval.Has j x := by
  unfold Interval.overlap
  rw [if_pos hl]
  induction i generalizing j x with
  | nil =>
    cases j with
    | nil => cases x <;> simp [Interval.Has]
    | cons => cases hl
  | cons r i ih =>
    cases j with
    | nil => cases hl
    | cons s j =>
      cases x with
      | nil => simp [Interval.Has]
      | cons a x =>
        rw [List.zipWith_cons_cons]
        show ((max r.lo s.lo ≤ a ∧ a ≤ min r.hi s.hi) ∧ _) ↔ _
        rw [ih (by simpa using hl)]
        show _ ↔ ((r.lo ≤ a ∧ a ≤ r.hi) ∧ _) ∧ ((s.lo ≤ a ∧ a ≤ s.hi) ∧ _)
        constructor
        · rintro ⟨h1, h2, h3⟩
          exact ⟨⟨by omega, h2⟩, ⟨by omega, h3⟩⟩
        · rintro ⟨⟨h1, h2⟩, ⟨h3, h4⟩⟩
          exact ⟨by omega, h2, h4⟩

theorem Interval.In.overlap : {ns : List Nat} → {i j : Interval} → Interval.In ns i → Interval.In ns j →
    (i.overlap j).sound = true → Interval.In ns (i.overlap j) := by
  intro ns i j h g hs
  have hl : i.length = j.length := by rw [h.length, g.length]
  unfold Interval.overlap at hs ⊢
  rw [if_pos hl] at hs ⊢
  clear hl
  induction ns generalizing i j with
  | nil =>
    cases i with
    | nil => cases j <;> exact trivial
    | cons => exact h.elim
  | cons n ns ih =>
    cases i with
    | nil => exact h.elim
    | cons r i =>
      cases j with
      | nil => exact g.elim
      | cons s j =>
        rw [List.zipWith_cons_cons] at hs ⊢
        unfold Interval.sound at hs
        rw [List.all_cons, Bool.and_eq_true] at hs
        refine ⟨?_, ih h.2 g.2 hs.2⟩
        have e1 : max r.lo s.lo ≤ min r.hi s.hi := of_decide_eq_true hs.1
        have e2 := h.1.2
        show max r.lo s.lo ≤ min r.hi s.hi ∧ min r.hi s.hi < n
        omega

/-- In one dimension the hull of two ranges that meet has no further values. -/
theorem Interval.hull_one {r s : Rng} {x : Val} (hr : r.sound = true) (hs : s.sound = true) (hm : Interval.meets [r] [s] = true) :
    Interval.Has (Interval.hull [r] [s]) x ↔ Interval.Has [r] x ∨ Interval.Has [s] x := by
  have e1 : r.lo ≤ r.hi := of_decide_eq_true hr
  have e2 : s.lo ≤ s.hi := of_decide_eq_true hs
  unfold Interval.meets Rng.meets at hm
  rw [Bool.and_eq_true, Bool.and_eq_true] at hm
  have e3 := of_decide_eq_true hm.1.1
  have e4 := of_decide_eq_true hm.1.2
  cases x with
  | nil => simp [Interval.Has, Interval.hull]
  | cons a x =>
    cases x with
    | cons => simp [Interval.Has, Interval.hull]
    | nil =>
      show ((min r.lo s.lo ≤ a ∧ a ≤ max r.hi s.hi) ∧ True) ↔ ((r.lo ≤ a ∧ a ≤ r.hi) ∧ True) ∨ ((s.lo ≤ a ∧ a ≤ s.hi) ∧ True)
      rw [and_true, and_true, and_true]
      omega

/-! ### Adding a box -/

theorem IVec.add_has_right (v : IVec) {i : Interval} {x : Val} (h : Interval.Has i x) : IVec.Has (v.add i) x := by
  induction v with
  | nil => exact ⟨i, List.mem_singleton_self i, h⟩
  | cons l ls ih =>
    unfold IVec.add
    split
    · rename_i hm
      exact ⟨_, List.mem_cons_self, Interval.hull_right (Interval.meets_length hm).symm h⟩
    · split
      · exact ⟨i, List.mem_cons_self, h⟩
      · obtain ⟨j, hj, hx⟩ := ih
        exact ⟨j, List.mem_cons_of_mem _ hj, hx⟩

theorem IVec.add_has_left {v : IVec} (i : Interval) {x : Val} (h : IVec.Has v x) : IVec.Has (v.add i) x := by
  induction v with
  | nil => obtain ⟨_, hj, _⟩ := h; cases hj
  | cons l ls ih =>
    obtain ⟨j, hj, hx⟩ := h
    unfold IVec.add
    split
    · rename_i hm
      rcases List.mem_cons.1 hj with rfl | hj
      · exact ⟨_, List.mem_cons_self, Interval.hull_left (Interval.meets_length hm).symm hx⟩
      · exact ⟨j, List.mem_cons_of_mem _ hj, hx⟩
    · split
      · exact ⟨j, List.mem_cons_of_mem _ hj, hx⟩
      · rcases List.mem_cons.1 hj with rfl | hj
        · exact ⟨j, List.mem_cons_self, hx⟩
        · obtain ⟨j', hj', hx'⟩ := ih ⟨j, hj, hx⟩
          exact ⟨j', List.mem_cons_of_mem _ hj', hx'⟩

theorem IVec.In.add {dims : List Nat} {v : IVec} {i : Interval} (hv : IVec.In dims v) (hi : Interval.In dims i) : IVec.In dims (v.add i) := by
  induction v with
  | nil => intro j hj; rw [List.mem_singleton.1 hj]; exact hi
  | cons l ls ih =>
    have h1 := hv l List.mem_cons_self
    have h2 : IVec.In dims ls := fun j hj => hv j (List.mem_cons_of_mem _ hj)
    unfold IVec.add
    split
    · intro j hj
      rcases List.mem_cons.1 hj with rfl | hj
      · exact h1.hull hi
      · exact h2 j hj
    · split
      · intro j hj
        rcases List.mem_cons.1 hj with rfl | hj
        · exact hi
        · exact hv j hj
      · intro j hj
        rcases List.mem_cons.1 hj with rfl | hj
        · exact h1
        · exact ih h2 j hj

theorem IVec.addAll_has_left {v : IVec} (l : List Interval) {x : Val} (h : IVec.Has v x) : IVec.Has (v.addAll l) x := by
  induction l generalizing v with
  | nil => exact h
  | cons i l ih => exact ih (IVec.add_has_left i h)

theorem IVec.addAll_has_right (v : IVec) {l : List Interval} {x : Val} (h : IVec.Has l x) : IVec.Has (v.addAll l) x := by
  induction l generalizing v with
  | nil => obtain ⟨_, hj, _⟩ := h; cases hj
  | cons i l ih =>
    obtain ⟨j, hj, hx⟩ := h
    rcases List.mem_cons.1 hj with rfl | hj
    · exact IVec.addAll_has_left l (IVec.add_has_right v hx)
    · exact ih (v.add i) ⟨j, hj, hx⟩

theorem IVec.In.addAll {dims : List Nat} {v : IVec} {l : List Interval} (hv : IVec.In dims v) (hl : IVec.In dims l) : IVec.In dims (v.addAll l) := by
  induction l generalizing v with
  | nil => exact hv
  | cons i l ih => exact ih (hv.add (hl i List.mem_cons_self)) fun j hj => hl j (List.mem_cons_of_mem _ hj)

/-- In one dimension no value is added that is in neither. -/
theorem IVec.add_one {v : IVec} {i : Interval} {n : Nat} (hv : IVec.In [n] v) (hi : Interval.In [n] i) {x : Val} :
    IVec.Has (v.add i) x ↔ IVec.Has v x ∨ Interval.Has i x := by
  constructor
  · intro h
    induction v with
    | nil =>
      obtain ⟨j, hj, hx⟩ := h
      rw [List.mem_singleton.1 hj] at hx
      exact Or.inr hx
    | cons l ls ih =>
      have h1 := hv l List.mem_cons_self
      have h2 : IVec.In [n] ls := fun j hj => hv j (List.mem_cons_of_mem _ hj)
      obtain ⟨j, hj, hx⟩ := h
      unfold IVec.add at hj
      split at hj
      · rename_i hm
        rcases List.mem_cons.1 hj with rfl | hj
        · obtain ⟨r, rfl⟩ := List.length_eq_one_iff.1 h1.length
          obtain ⟨s, rfl⟩ := List.length_eq_one_iff.1 hi.length
          rcases (Interval.hull_one (decide_eq_true h1.1.1) (decide_eq_true hi.1.1) (by rw [Interval.meets_comm]; exact hm)).1 hx with hx | hx
          · exact Or.inl ⟨_, List.mem_cons_self, hx⟩
          · exact Or.inr hx
        · exact Or.inl ⟨j, List.mem_cons_of_mem _ hj, hx⟩
      · split at hj
        · rcases List.mem_cons.1 hj with rfl | hj
          · exact Or.inr hx
          · exact Or.inl ⟨j, hj, hx⟩
        · rcases List.mem_cons.1 hj with rfl | hj
          · exact Or.inl ⟨_, List.mem_cons_self, hx⟩
          · rcases ih h2 ⟨j, hj, hx⟩ with ⟨j', hj', hx'⟩ | h
            · exact Or.inl ⟨j', List.mem_cons_of_mem _ hj', hx'⟩
            · exact Or.inr h
  · rintro (h | h)
    · exact IVec.add_has_left i h
    · exact IVec.add_has_right v h

/-! ### Simplification -/

theorem absorb_spec (x : Interval) (ys : IVec) {a : Val} :
    (Interval.Has x a → Interval.Has (Interval.absorb x ys).1 a) ∧
    (IVec.Has ys a → Interval.Has (Interval.absorb x ys).1 a ∨ IVec.Has (Interval.absorb x ys).2 a) := by
  induction ys with
  | nil => exact ⟨id, fun h => Or.inr h⟩
  | cons y ys ih =>
    unfold Interval.absorb
    by_cases hs : y.sound = true
    · rw [if_pos hs]
      by_cases hm : (Interval.absorb x ys).1.meets y = true
      · rw [if_pos hm]
        refine ⟨fun h => Interval.hull_left (Interval.meets_length hm) (ih.1 h), ?_⟩
        rintro ⟨j, hj, hx⟩
        rcases List.mem_cons.1 hj with rfl | hj
        · exact Or.inl (Interval.hull_right (Interval.meets_length hm) hx)
        · rcases ih.2 ⟨j, hj, hx⟩ with h | h
          · exact Or.inl (Interval.hull_left (Interval.meets_length hm) h)
          · exact Or.inr h
      · rw [if_neg hm]
        refine ⟨ih.1, ?_⟩
        rintro ⟨j, hj, hx⟩
        rcases List.mem_cons.1 hj with rfl | hj
        · exact Or.inr ⟨j, List.mem_cons_self, hx⟩
        · rcases ih.2 ⟨j, hj, hx⟩ with h | ⟨j', h1, h2⟩
          · exact Or.inl h
          · exact Or.inr ⟨j', List.mem_cons_of_mem _ h1, h2⟩
    · rw [if_neg hs]
      refine ⟨ih.1, ?_⟩
      rintro ⟨j, hj, hx⟩
      rcases List.mem_cons.1 hj with rfl | hj
      · exact absurd hx.sound hs
      · exact ih.2 ⟨j, hj, hx⟩

theorem absorb_length (x : Interval) (ys : IVec) : (Interval.absorb x ys).2.length ≤ ys.length := by
  induction ys with
  | nil => exact Nat.le_refl _
  | cons y ys ih =>
    unfold Interval.absorb
    split
    · simp only
      split
      · exact Nat.le_succ_of_le ih
      · exact Nat.succ_le_succ ih
    · exact Nat.le_succ_of_le ih

/-- boxes that are empty are dropped -/
def IVec.In' (dims : List Nat) (v : IVec) : Prop := ∀ i ∈ v, i.sound = true → Interval.In dims i

theorem absorb_in {dims : List Nat} (x : Interval) (ys : IVec) (hx : Interval.In dims x) (hy : IVec.In' dims ys) :
    Interval.In dims (Interval.absorb x ys).1 ∧ IVec.In dims (Interval.absorb x ys).2 := by
  induction ys with
  | nil => exact ⟨hx, fun j hj => by cases hj⟩
  | cons y ys ih =>
    obtain ⟨h1, h2⟩ := ih fun j hj => hy j (List.mem_cons_of_mem _ hj)
    unfold Interval.absorb
    by_cases hs : y.sound = true
    · have h3 := hy y List.mem_cons_self hs
      rw [if_pos hs]
      by_cases hm : (Interval.absorb x ys).1.meets y = true
      · rw [if_pos hm]
        exact ⟨h1.hull h3, h2⟩
      · rw [if_neg hm]
        refine ⟨h1, fun j hj => ?_⟩
        rcases List.mem_cons.1 hj with rfl | hj
        · exact h3
        · exact h2 j hj
    · rw [if_neg hs]
      exact ⟨h1, h2⟩

theorem pass_has (n : Nat) (v : IVec) {a : Val} (h : IVec.Has v a) : IVec.Has (IVec.pass n v) a := by
  induction n generalizing v with
  | zero => cases v <;> exact h
  | succ n ih =>
    cases v with
    | nil => exact h
    | cons x xs =>
      obtain ⟨j, hj, hx⟩ := h
      unfold IVec.pass
      rcases List.mem_cons.1 hj with rfl | hj
      · exact ⟨_, List.mem_cons_self, (absorb_spec j xs).1 hx⟩
      · rcases (absorb_spec x xs).2 ⟨j, hj, hx⟩ with h | h
        · exact ⟨_, List.mem_cons_self, h⟩
        · obtain ⟨j', h1, h2⟩ := ih _ h
          exact ⟨j', List.mem_cons_of_mem _ h1, h2⟩

theorem pass_in {dims : List Nat} (n : Nat) (v : IVec) (h : IVec.In dims v) : IVec.In dims (IVec.pass n v) := by
  induction n generalizing v with
  | zero => cases v <;> exact h
  | succ n ih =>
    cases v with
    | nil => exact h
    | cons x xs =>
      obtain ⟨h1, h2⟩ := absorb_in x xs (h x List.mem_cons_self) fun j hj _ => h j (List.mem_cons_of_mem _ hj)
      unfold IVec.pass
      intro j hj
      rcases List.mem_cons.1 hj with rfl | hj
      · exact h1
      · exact ih _ h2 j hj

theorem dropWhile_has (v : IVec) {a : Val} (h : IVec.Has v a) : IVec.Has (v.dropWhile fun i => !i.sound) a := by
  induction v with
  | nil => exact h
  | cons x xs ih =>
    rw [List.dropWhile_cons]
    split
    · rename_i hs
      obtain ⟨j, hj, hx⟩ := h
      rcases List.mem_cons.1 hj with rfl | hj
      · rw [hx.sound] at hs; cases hs
      · exact ih ⟨j, hj, hx⟩
    · exact h

theorem IVec.simplify_has {v : IVec} {a : Val} (h : IVec.Has v a) : IVec.Has v.simplify a := pass_has _ _ (dropWhile_has v h)

theorem IVec.In.simplify' {dims : List Nat} {v : IVec} (h : IVec.In' dims v) : IVec.In dims v.simplify := by
  unfold IVec.simplify
  have h1 : IVec.In' dims (v.dropWhile fun i => !i.sound) := fun i hi => h i ((List.dropWhile_sublist _).mem hi)
  have h2 : ∀ x xs, (v.dropWhile fun i => !i.sound) = x :: xs → x.sound = true := by
    intro x xs he
    have := List.head?_dropWhile_not (fun i : Interval => !i.sound) v
    rw [he] at this
    simpa using this
  generalize (v.dropWhile fun i => !i.sound) = w at h1 h2
  cases w with
  | nil => intro j hj; cases hj
  | cons x xs =>
    obtain ⟨h3, h4⟩ := absorb_in x xs (h1 x List.mem_cons_self (h2 x xs rfl)) fun j hj => h1 j (List.mem_cons_of_mem _ hj)
    show IVec.In dims (IVec.pass (xs.length + 1) (x :: xs))
    unfold IVec.pass
    intro j hj
    rcases List.mem_cons.1 hj with rfl | hj
    · exact h3
    · exact pass_in _ _ h4 j hj

theorem IVec.In.simplify {dims : List Nat} {v : IVec} (h : IVec.In dims v) : IVec.In dims v.simplify :=
  IVec.In.simplify' fun i hi _ => h i hi

theorem pass_length (n : Nat) (v : IVec) : (IVec.pass n v).length ≤ v.length := by
  induction n generalizing v with
  | zero => cases v <;> exact Nat.le_refl _
  | succ n ih =>
    cases v with
    | nil => exact Nat.le_refl _
    | cons x xs =>
      unfold IVec.pass
      exact Nat.succ_le_succ (Nat.le_trans (ih _) (absorb_length x xs))

theorem simplify_length (v : IVec) : v.simplify.length ≤ v.length :=
  Nat.le_trans (pass_length _ _) (List.dropWhile_suffix _).length_le

/-- In one dimension simplification neither adds nor loses a value. -/
theorem absorb_one {n : Nat} (x : Interval) (ys : IVec) (hx : Interval.In [n] x) (hy : IVec.In' [n] ys) {a : Val} :
    (Interval.Has (Interval.absorb x ys).1 a → Interval.Has x a ∨ IVec.Has ys a) ∧
    (IVec.Has (Interval.absorb x ys).2 a → IVec.Has ys a) := by
  induction ys with
  | nil => exact ⟨Or.inl, id⟩
  | cons y ys ih =>
    have hy' : IVec.In' [n] ys := fun j hj => hy j (List.mem_cons_of_mem _ hj)
    obtain ⟨h1, h2⟩ := ih hy'
    obtain ⟨h3, h4⟩ := absorb_in x ys hx hy'
    have wk : IVec.Has ys a → IVec.Has (y :: ys) a := fun ⟨j, hj, hx⟩ => ⟨j, List.mem_cons_of_mem _ hj, hx⟩
    have wk' : Interval.Has x a ∨ IVec.Has ys a → Interval.Has x a ∨ IVec.Has (y :: ys) a := fun h => h.imp_right wk
    unfold Interval.absorb
    by_cases hs : y.sound = true
    · rw [if_pos hs]
      by_cases hm : (Interval.absorb x ys).1.meets y = true
      · rw [if_pos hm]
        refine ⟨fun h => ?_, fun h => wk (h2 h)⟩
        have h5 := hy y List.mem_cons_self hs
        obtain ⟨r, hr⟩ := List.length_eq_one_iff.1 h3.length
        obtain ⟨s, hs'⟩ := List.length_eq_one_iff.1 h5.length
        rw [hr] at h h3 hm
        subst hs'
        rcases (Interval.hull_one (decide_eq_true h3.1.1) (decide_eq_true h5.1.1) hm).1 h with h | h
        · exact wk' (h1 (by rw [hr]; exact h))
        · exact Or.inr ⟨_, List.mem_cons_self, h⟩
      · rw [if_neg hm]
        refine ⟨fun h => wk' (h1 h), ?_⟩
        rintro ⟨j, hj, hx⟩
        rcases List.mem_cons.1 hj with rfl | hj
        · exact ⟨j, List.mem_cons_self, hx⟩
        · exact wk (h2 ⟨j, hj, hx⟩)
    · rw [if_neg hs]
      exact ⟨fun h => wk' (h1 h), fun h => wk (h2 h)⟩

theorem pass_one {n : Nat} (m : Nat) (v : IVec) (hv : IVec.In [n] v) {a : Val} (h : IVec.Has (IVec.pass m v) a) : IVec.Has v a := by
  induction m generalizing v with
  | zero => cases v <;> exact h
  | succ m ih =>
    cases v with
    | nil => exact h
    | cons x xs =>
      have hx := hv x List.mem_cons_self
      have hxs : IVec.In' [n] xs := fun j hj _ => hv j (List.mem_cons_of_mem _ hj)
      obtain ⟨h1, h2⟩ := absorb_one x xs hx hxs (a := a)
      unfold IVec.pass at h
      obtain ⟨j, hj, hxa⟩ := h
      rcases List.mem_cons.1 hj with rfl | hj
      · rcases h1 hxa with h | ⟨j', h3, h4⟩
        · exact ⟨x, List.mem_cons_self, h⟩
        · exact ⟨j', List.mem_cons_of_mem _ h3, h4⟩
      · obtain ⟨j', h3, h4⟩ := h2 (ih _ (absorb_in x xs hx hxs).2 ⟨j, hj, hxa⟩)
        exact ⟨j', List.mem_cons_of_mem _ h3, h4⟩

theorem IVec.simplify_one {n : Nat} {v : IVec} (hv : IVec.In [n] v) {a : Val} : IVec.Has v.simplify a ↔ IVec.Has v a := by
  refine ⟨fun h => ?_, IVec.simplify_has⟩
  obtain ⟨j, hj, hx⟩ := pass_one _ _ (fun i hi => hv i ((List.dropWhile_sublist _).mem hi)) h
  exact ⟨j, (List.dropWhile_sublist _).mem hj, hx⟩

theorem IVec.simplify_one' {n : Nat} {v : IVec} (hv : IVec.In' [n] v) {a : Val} : IVec.Has v.simplify a ↔ IVec.Has v a := by
  refine ⟨fun h => ?_, IVec.simplify_has⟩
  unfold IVec.simplify at h
  have h1 : IVec.In' [n] (v.dropWhile fun i => !i.sound) := fun i hi => hv i ((List.dropWhile_sublist _).mem hi)
  suffices IVec.Has (v.dropWhile fun i => !i.sound) a by
    obtain ⟨j, hj, hx⟩ := this
    exact ⟨j, (List.dropWhile_sublist _).mem hj, hx⟩
  have h2 : ∀ x xs, (v.dropWhile fun i => !i.sound) = x :: xs → x.sound = true := by
    intro x xs e
    have := List.head?_dropWhile_not (fun i : Interval => !i.sound) v
    rw [e] at this
    simpa using this
  simp only at h
  generalize v.dropWhile (fun i => !i.sound) = w at h h1 h2
  cases w with
  | nil => exact h
  | cons x xs =>
    have hx := h1 x List.mem_cons_self (h2 x xs rfl)
    have hxs : IVec.In' [n] xs := fun j hj => h1 j (List.mem_cons_of_mem _ hj)
    obtain ⟨g1, g2⟩ := absorb_one x xs hx hxs (a := a)
    rw [List.length_cons] at h
    unfold IVec.pass at h
    obtain ⟨j, hj, hxa⟩ := h
    rcases List.mem_cons.1 hj with rfl | hj
    · rcases g1 hxa with h | ⟨j', h3, h4⟩
      · exact ⟨x, List.mem_cons_self, h⟩
      · exact ⟨j', List.mem_cons_of_mem _ h3, h4⟩
    · obtain ⟨j', h3, h4⟩ := g2 (pass_one _ _ (absorb_in x xs hx hxs).2 ⟨j, hj, hxa⟩)
      exact ⟨j', List.mem_cons_of_mem _ h3, h4⟩

/-! ### At most `k` boxes -/

theorem getD_get {v : IVec} {i : Nat} (h : i < v.length) : v.getD i [] = v[i] := by
  rw [List.getD_eq_getElem?_getD, List.getElem?_eq_getElem h]
  rfl

theorem closest_mem (l : List (Nat × Nat × Nat)) (best : Option (Nat × Nat × Nat)) (q : Nat × Nat × Nat)
    (h : IVec.closest l best = some q) : q ∈ l ∨ best = some q := by
  induction l generalizing best with
  | nil => exact Or.inr h
  | cons p l ih =>
    cases best with
    | none =>
      unfold IVec.closest at h
      split at h
      · cases h; exact Or.inl List.mem_cons_self
      · rcases ih _ h with h | h
        · exact Or.inl (List.mem_cons_of_mem _ h)
        · cases h; exact Or.inl List.mem_cons_self
    | some b =>
      unfold IVec.closest at h
      split at h
      · split at h
        · cases h; exact Or.inl List.mem_cons_self
        · rcases ih _ h with h | h
          · exact Or.inl (List.mem_cons_of_mem _ h)
          · cases h; exact Or.inl List.mem_cons_self
      · rcases ih _ h with h | h
        · exact Or.inl (List.mem_cons_of_mem _ h)
        · exact Or.inr h

theorem closest_some (l : List (Nat × Nat × Nat)) (b : Nat × Nat × Nat) : ∃ q, IVec.closest l (some b) = some q := by
  induction l generalizing b with
  | nil => exact ⟨b, rfl⟩
  | cons p l ih =>
    unfold IVec.closest
    split
    · split
      · exact ⟨p, rfl⟩
      · exact ih p
    · exact ih b

theorem closest_none {l : List (Nat × Nat × Nat)} (h : l ≠ []) : ∃ q, IVec.closest l none = some q := by
  cases l with
  | nil => exact absurd rfl h
  | cons p l =>
    unfold IVec.closest
    split
    · exact ⟨p, rfl⟩
    · exact closest_some l p

theorem mem_pairs {v : IVec} {q : Nat × Nat × Nat} (h : q ∈ v.pairs) : q.1 < q.2.1 ∧ q.2.1 < v.length := by
  unfold IVec.pairs at h
  obtain ⟨l, hl, hq⟩ := List.mem_flatten.1 h
  obtain ⟨i, hi, rfl⟩ := List.mem_map.1 hl
  obtain ⟨d, hd, rfl⟩ := List.mem_map.1 hq
  have h1 := List.mem_range.1 hi
  have h2 := List.mem_range.1 hd
  simp only
  omega

theorem pairs_ne {v : IVec} (h : 2 ≤ v.length) : v.pairs ≠ [] := by
  intro he
  have : (0, 1, Interval.dist (v.getD 0 []) (v.getD 1 [])) ∈ v.pairs := by
    unfold IVec.pairs
    refine List.mem_flatten.2 ⟨_, List.mem_map.2 ⟨0, List.mem_range.2 (by omega), rfl⟩, ?_⟩
    exact List.mem_map.2 ⟨0, List.mem_range.2 (by omega), rfl⟩
  rw [he] at this
  cases this

/-- All boxes have one dimension. -/
def IVec.Dim (d : Nat) (v : IVec) : Prop := ∀ i ∈ v, i.length = d

theorem IVec.In.dim {dims : List Nat} {v : IVec} (h : IVec.In dims v) : IVec.Dim dims.length v := fun i hi => (h i hi).length

/-- a property of boxes kept by the hull of two boxes is kept by joining -/
theorem join_all {P : Interval → Prop} (hP : ∀ i j, P i → P j → P (i.hull j)) {v : IVec} (h : ∀ i ∈ v, P i) : ∀ i ∈ v.join, P i := by
  unfold IVec.join
  split
  · exact h
  · rename_i i j d he
    intro x hx
    rcases closest_mem _ _ _ he with hq | hq
    · obtain ⟨h1, h2⟩ := mem_pairs hq
      simp only at h1 h2
      have hx' := List.mem_of_mem_eraseIdx hx
      rcases List.mem_or_eq_of_mem_set hx' with hx' | rfl
      · exact h x hx'
      · apply hP
        · rw [getD_get (show i < v.length by omega)]; exact h _ (List.getElem_mem _)
        · rw [getD_get h2]; exact h _ (List.getElem_mem _)
    · cases hq

theorem join_length {v : IVec} (h : 2 ≤ v.length) : v.join.length + 1 = v.length := by
  unfold IVec.join
  obtain ⟨⟨i, j, d⟩, he⟩ := closest_none (pairs_ne h)
  rw [he]
  rcases closest_mem _ _ _ he with hq | hq
  · obtain ⟨h1, h2⟩ := mem_pairs hq
    simp only at h1 h2 ⊢
    rw [List.length_eraseIdx, List.length_set, if_pos h2]
    omega
  · cases hq

theorem join_has {v : IVec} {d : Nat} (hd : IVec.Dim d v) {a : Val} (h : IVec.Has v a) : IVec.Has v.join a := by
  unfold IVec.join
  split
  · exact h
  · rename_i i j dd he
    rcases closest_mem _ _ _ he with hq | hq
    · obtain ⟨h1, h2⟩ := mem_pairs hq
      simp only at h1 h2
      have hi : i < v.length := by omega
      have hl : (v.getD i []).length = (v.getD j []).length := by
        rw [getD_get hi, getD_get h2, hd _ (List.getElem_mem _), hd _ (List.getElem_mem _)]
      obtain ⟨y, hy, hx⟩ := h
      obtain ⟨k, hk, rfl⟩ := List.getElem_of_mem hy
      -- where the value is afterwards
      have key : ∀ m, (hm : m < v.length) → m ≠ j → Interval.Has ((v.set i ((v.getD i []).hull (v.getD j [])))[m]'(by rw [List.length_set]; exact hm)) a →
          IVec.Has ((v.set i ((v.getD i []).hull (v.getD j []))).eraseIdx j) a := by
        intro m hm hmj hh
        refine ⟨_, ?_, hh⟩
        rw [List.mem_eraseIdx_iff_getElem]
        exact ⟨m, by rw [List.length_set]; exact hm, hmj, rfl⟩
      by_cases hkj : k = j
      · subst hkj
        apply key i hi (by omega)
        rw [List.getElem_set_self]
        apply Interval.hull_right hl
        rw [getD_get h2]
        exact hx
      · by_cases hki : k = i
        · subst hki
          apply key k hi hkj
          rw [List.getElem_set_self]
          apply Interval.hull_left hl
          rw [getD_get hk]
          exact hx
        · apply key k hk hkj
          rw [List.getElem_set_ne (fun h => hki h.symm)]
          exact hx
    · cases hq

theorem Dim.hull {d : Nat} (i j : Interval) (hi : i.length = d) (hj : j.length = d) : (i.hull j).length = d := by
  rw [Interval.hull_length (by rw [hi, hj]), hi]

theorem joinTo_has {d : Nat} (k n : Nat) {v : IVec} (hd : IVec.Dim d v) {a : Val} (h : IVec.Has v a) : IVec.Has (IVec.joinTo k n v) a := by
  induction n generalizing v with
  | zero => exact h
  | succ n ih =>
    unfold IVec.joinTo
    split
    · exact ih (join_all Dim.hull hd) (join_has hd h)
    · exact h

theorem joinTo_in {dims : List Nat} (k n : Nat) {v : IVec} (hd : IVec.In dims v) : IVec.In dims (IVec.joinTo k n v) := by
  induction n generalizing v with
  | zero => exact hd
  | succ n ih =>
    unfold IVec.joinTo
    split
    · exact ih (join_all (fun i j h g => h.hull g) hd)
    · exact hd

theorem joinTo_length {k : Nat} (hk : 0 < k) (n : Nat) {v : IVec} (h : v.length ≤ k + n) : (IVec.joinTo k n v).length ≤ k := by
  induction n generalizing v with
  | zero => exact h
  | succ n ih =>
    unfold IVec.joinTo
    split
    · have := join_length (v := v) (by omega)
      exact ih (by omega)
    · omega

theorem IVec.restrict_has {dims : List Nat} (k : Nat) {v : IVec} (hv : IVec.In dims v) {a : Val} (h : IVec.Has v a) : IVec.Has (v.restrict k) a := by
  unfold IVec.restrict
  simp only
  split
  · exact IVec.simplify_has h
  · exact IVec.simplify_has (joinTo_has k _ hv.simplify.dim (IVec.simplify_has h))

theorem IVec.In.restrict {dims : List Nat} (k : Nat) {v : IVec} (hv : IVec.In dims v) : IVec.In dims (v.restrict k) := by
  unfold IVec.restrict
  simp only
  split
  · exact hv.simplify
  · exact (joinTo_in k _ hv.simplify).simplify

theorem restrict_length {k : Nat} (hk : 0 < k) (v : IVec) : (v.restrict k).length ≤ k := by
  unfold IVec.restrict
  simp only
  rw [if_neg (by omega)]
  exact Nat.le_trans (simplify_length _) (joinTo_length hk _ (by omega))

end CFP
end Verif
