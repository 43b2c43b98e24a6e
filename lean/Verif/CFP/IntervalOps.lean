import Verif.CFP.IntervalLemmas

/-!
# Subtraction, bounds, shifts and counting of boxes
-/

namespace Verif
namespace CFP

open CPN

/-! ### Subtraction -/

theorem Interval.has_append : {p i : Interval} → {xp x : Val} → p.length = xp.length →
    (Interval.Has (p ++ i) (xp ++ x) ↔ Interval.Has p xp ∧ Interval.Has i x)
  | [], _, [], _, _ => by simp [Interval.Has]
  | r :: p, i, a :: xp, x, h => by
    rw [List.cons_append, List.cons_append]
    show (r.lo ≤ a ∧ a ≤ r.hi) ∧ Interval.Has (p ++ i) (xp ++ x) ↔ ((r.lo ≤ a ∧ a ≤ r.hi) ∧ Interval.Has p xp) ∧ Interval.Has i x
    rw [Interval.has_append (by simpa using h), and_assoc (a := r.lo ≤ a ∧ a ≤ r.hi)]
  | [], _, _ :: _, _, h => by cases h
  | _ :: _, _, [], _, h => by cases h

theorem IVec.has_cons {i : Interval} {v : IVec} {x : Val} : IVec.Has (i :: v) x ↔ Interval.Has i x ∨ IVec.Has v x := by
  unfold IVec.Has
  simp

theorem IVec.has_nil {x : Val} : ¬ IVec.Has [] x := fun ⟨_, h, _⟩ => by cases h

theorem IVec.has_append {v w : IVec} {x : Val} : IVec.Has (v ++ w) x ↔ IVec.Has v x ∨ IVec.Has w x := by
  unfold IVec.Has
  simp only [List.mem_append]
  constructor
  · rintro ⟨i, h | h, hx⟩
    · exact Or.inl ⟨i, h, hx⟩
    · exact Or.inr ⟨i, h, hx⟩
  · rintro (⟨i, h, hx⟩ | ⟨i, h, hx⟩)
    · exact ⟨i, Or.inl h, hx⟩
    · exact ⟨i, Or.inr h, hx⟩

theorem subtractFrom_has (pre i j : Interval) (xp x : Val) (hp : pre.length = xp.length) (hl : i.length = j.length)
    (hx : i.length = x.length) :
    IVec.Has (Interval.subtractFrom pre i j) (xp ++ x) ↔ Interval.Has pre xp ∧ Interval.Has i x ∧ ¬ Interval.Has j x := by
  induction i generalizing pre j xp x with
  | nil =>
    cases j with
    | cons => cases hl
    | nil =>
      cases x with
      | cons => cases hx
      | nil =>
        unfold Interval.subtractFrom
        simp [IVec.Has, Interval.Has]
  | cons r i ih =>
    cases j with
    | nil => cases hl
    | cons s j =>
      cases x with
      | nil => cases hx
      | cons a x =>
        have hl' : i.length = j.length := by simpa using hl
        have hx' : i.length = x.length := by simpa using hx
        -- what the pieces and the rest have
        have piece : ∀ l u : Nat, Interval.Has (pre ++ ⟨l, u⟩ :: i) (xp ++ a :: x) ↔
            Interval.Has pre xp ∧ (l ≤ a ∧ a ≤ u) ∧ Interval.Has i x := fun l u => by
          rw [Interval.has_append hp]; rfl
        have rest : ∀ l u : Nat, IVec.Has (Interval.subtractFrom (pre ++ [⟨l, u⟩]) i j) (xp ++ a :: x) ↔
            (Interval.Has pre xp ∧ (l ≤ a ∧ a ≤ u)) ∧ Interval.Has i x ∧ ¬ Interval.Has j x := fun l u => by
          have := ih (pre ++ [⟨l, u⟩]) j (xp ++ [a]) x (by rw [List.length_append, List.length_append, hp]; rfl) hl' hx'
          rw [List.append_assoc] at this
          rw [show xp ++ a :: x = xp ++ ([a] ++ x) from rfl, this, Interval.has_append hp]
          show (_ ∧ (_ ∧ True)) ∧ _ ↔ _
          rw [and_true]
        have rest' : IVec.Has (Interval.subtractFrom (pre ++ [r]) i j) (xp ++ a :: x) ↔
            (Interval.Has pre xp ∧ (r.lo ≤ a ∧ a ≤ r.hi)) ∧ Interval.Has i x ∧ ¬ Interval.Has j x := rest r.lo r.hi
        have goal : Interval.Has (s :: j) (a :: x) ↔ (s.lo ≤ a ∧ a ≤ s.hi) ∧ Interval.Has j x := Iff.rfl
        have goal' : Interval.Has (r :: i) (a :: x) ↔ (r.lo ≤ a ∧ a ≤ r.hi) ∧ Interval.Has i x := Iff.rfl
        rw [goal, goal']
        unfold Interval.subtractFrom
        simp only
        generalize hlow : min ((s.lo : Int) - 1) r.hi = low
        generalize hhigh : max (s.hi + 1) r.lo = high
        by_cases c1 : (r.lo : Int) ≤ low ∧ high ≤ r.hi
        · rw [if_pos c1, IVec.has_cons, IVec.has_cons, piece, piece, rest]
          obtain ⟨k, hk⟩ : ∃ k : Nat, low = k := ⟨low.toNat, by omega⟩
          subst hk
          rw [Int.toNat_natCast]
          by_cases h1 : Interval.Has pre xp <;> by_cases h2 : Interval.Has i x <;> by_cases h3 : Interval.Has j x <;>
            simp only [h1, h2, h3, true_and, and_true, false_and, and_false, or_false, not_true, not_false_iff, false_iff] <;> omega
        · rw [if_neg c1]
          by_cases c2 : (r.lo : Int) ≤ low
          · rw [if_pos c2]
            obtain ⟨k, hk⟩ : ∃ k : Nat, low = k := ⟨low.toNat, by omega⟩
            subst hk
            rw [Int.toNat_natCast]
            by_cases c3 : (r.hi : Int) ≤ k
            · rw [if_pos c3, IVec.has_cons, piece]
              have := @IVec.has_nil (xp ++ a :: x)
              by_cases h1 : Interval.Has pre xp <;> by_cases h2 : Interval.Has i x <;> by_cases h3 : Interval.Has j x <;>
                simp only [h1, h2, h3, this, true_and, and_true, false_and, and_false, or_false, not_true, not_false_iff, false_iff] <;> omega
            · rw [if_neg c3, IVec.has_cons, piece, rest]
              by_cases h1 : Interval.Has pre xp <;> by_cases h2 : Interval.Has i x <;> by_cases h3 : Interval.Has j x <;>
                simp only [h1, h2, h3, true_and, and_true, false_and, and_false, or_false, not_true, not_false_iff, false_iff] <;> omega
          · rw [if_neg c2]
            by_cases c3 : high ≤ r.hi
            · rw [if_pos c3]
              by_cases c4 : r.lo ≥ high
              · rw [if_pos c4, IVec.has_cons, piece]
                have := @IVec.has_nil (xp ++ a :: x)
                by_cases h1 : Interval.Has pre xp <;> by_cases h2 : Interval.Has i x <;> by_cases h3 : Interval.Has j x <;>
                  simp only [h1, h2, h3, this, true_and, and_true, false_and, and_false, or_false, not_true, not_false_iff, false_iff] <;> omega
              · rw [if_neg c4, IVec.has_cons, piece, rest]
                by_cases h1 : Interval.Has pre xp <;> by_cases h2 : Interval.Has i x <;> by_cases h3 : Interval.Has j x <;>
                  simp only [h1, h2, h3, true_and, and_true, false_and, and_false, or_false, not_true, not_false_iff, false_iff] <;> omega
            · rw [if_neg c3, rest']
              by_cases h1 : Interval.Has pre xp <;> by_cases h2 : Interval.Has i x <;> by_cases h3 : Interval.Has j x <;>
                simp only [h1, h2, h3, true_and, and_true, false_and, and_false, or_false, not_true, not_false_iff, false_iff] <;> omega

theorem Interval.subtract_has {i j : Interval} {x : Val} (hl : i.length = j.length) :
    IVec.Has (i.subtract j) x ↔ Interval.Has i x ∧ ¬ Interval.Has j x := by
  unfold Interval.subtract
  rw [if_pos hl]
  by_cases hx : i.length = x.length
  · have := subtractFrom_has [] i j [] x rfl hl hx
    rw [List.nil_append] at this
    rw [this]
    simp [Interval.Has]
  · constructor
    · rintro ⟨k, hk, hkx⟩
      exfalso
      apply hx
      rw [← hkx.length]
      -- all pieces have the dimension of the box
      have key : ∀ (i j pre : Interval), i.length = j.length → ∀ k ∈ Interval.subtractFrom pre i j, k.length = pre.length + i.length := by
        intro i
        induction i with
        | nil => intro j pre _ k hk; unfold Interval.subtractFrom at hk; cases j <;> cases hk
        | cons r i ih =>
          intro j pre hl k hk
          cases j with
          | nil => cases hl
          | cons s j =>
            have hl' : i.length = j.length := by simpa using hl
            have h1 : ∀ r' : Rng, (pre ++ r' :: i).length = pre.length + (r :: i).length := fun r' => by
              rw [List.length_append, List.length_cons, List.length_cons]
            have h2 : ∀ r' : Rng, ∀ k ∈ Interval.subtractFrom (pre ++ [r']) i j, k.length = pre.length + (r :: i).length := by
              intro r' k hk
              rw [ih j _ hl' k hk, List.length_append, List.length_cons, List.length_cons, List.length_nil]
              omega
            unfold Interval.subtractFrom at hk
            simp only at hk
            split at hk
            · rcases List.mem_cons.1 hk with rfl | hk
              · exact h1 _
              · rcases List.mem_cons.1 hk with rfl | hk
                · exact h1 _
                · exact h2 _ k hk
            · split at hk
              · split at hk
                · rw [List.mem_singleton.1 hk]; exact h1 _
                · rcases List.mem_cons.1 hk with rfl | hk
                  · exact h1 _
                  · exact h2 _ k hk
              · split at hk
                · split at hk
                  · rw [List.mem_singleton.1 hk]; exact h1 _
                  · rcases List.mem_cons.1 hk with rfl | hk
                    · exact h1 _
                    · exact h2 _ k hk
                · exact h2 _ k hk
      rw [key i j [] hl k hk]
      simp
    · rintro ⟨h, _⟩
      exact absurd h.length hx

/-! ### Bounds -/

theorem Rng.constrainLower_iff (strict : Bool) (a : Nat) (r : Rng) (b : Nat) :
    ((r.constrainLower strict a).lo ≤ b ∧ b ≤ (r.constrainLower strict a).hi) ↔
      (r.lo ≤ b ∧ b ≤ r.hi) ∧ (if strict then a < b else a ≤ b) := by
  unfold Rng.constrainLower Rng.bad
  cases strict <;> simp only [true_and, false_and, if_false, if_true, Bool.false_eq_true, reduceCtorEq] <;>
    repeat' split
  all_goals try simp only
  all_goals omega

theorem Rng.constrainUpper_iff (strict : Bool) (a : Nat) (r : Rng) (b : Nat) :
    ((r.constrainUpper strict a).lo ≤ b ∧ b ≤ (r.constrainUpper strict a).hi) ↔
      (r.lo ≤ b ∧ b ≤ r.hi) ∧ (if strict then b < a else b ≤ a) := by
  unfold Rng.constrainUpper Rng.bad
  cases strict <;> simp only [true_and, false_and, if_false, if_true, Bool.false_eq_true, reduceCtorEq] <;>
    repeat' split
  all_goals try simp only
  all_goals omega

/-- The components that have a bound satisfy it. -/
def Bounded (P : Nat → Nat → Prop) : List Nat → Val → Prop
  | a :: as, b :: x => P a b ∧ Bounded P as x
  | _, _ => True

theorem mapVals_has {P : Nat → Nat → Prop} {f : Nat → Rng → Rng}
    (hf : ∀ a r b, ((f a r).lo ≤ b ∧ b ≤ (f a r).hi) ↔ (r.lo ≤ b ∧ b ≤ r.hi) ∧ P a b) (i : Interval) (vals : List Nat) (x : Val) :
    Interval.Has (i.mapVals f vals) x ↔ Interval.Has i x ∧ Bounded P vals x := by
  induction i generalizing vals x with
  | nil =>
    cases x with
    | nil => cases vals <;> simp [Interval.mapVals, Interval.Has, Bounded]
    | cons => cases vals <;> simp [Interval.mapVals, Interval.Has]
  | cons r i ih =>
    cases vals with
    | nil => cases x <;> simp [Interval.mapVals, Bounded]
    | cons a as =>
      cases x with
      | nil => simp [Interval.mapVals, Interval.Has]
      | cons b x =>
        show ((f a r).lo ≤ b ∧ b ≤ (f a r).hi) ∧ Interval.Has (Interval.mapVals f i as) x ↔
          ((r.lo ≤ b ∧ b ≤ r.hi) ∧ Interval.Has i x) ∧ (P a b ∧ Bounded P as x)
        rw [hf, ih]
        constructor
        · rintro ⟨⟨h1, h2⟩, h3, h4⟩; exact ⟨⟨h1, h3⟩, h2, h4⟩
        · rintro ⟨⟨h1, h3⟩, h2, h4⟩; exact ⟨⟨h1, h2⟩, h3, h4⟩

theorem map_has {f : Interval → Interval} {Q : Val → Prop} (hf : ∀ i x, Interval.Has (f i) x ↔ Interval.Has i x ∧ Q x) (v : IVec) (x : Val) :
    IVec.Has (v.map f) x ↔ IVec.Has v x ∧ Q x := by
  constructor
  · rintro ⟨j, hj, hx⟩
    obtain ⟨i, hi, rfl⟩ := List.mem_map.1 hj
    obtain ⟨h1, h2⟩ := (hf i x).1 hx
    exact ⟨⟨i, hi, h1⟩, h2⟩
  · rintro ⟨⟨i, hi, hx⟩, h2⟩
    exact ⟨f i, List.mem_map.2 ⟨i, hi, rfl⟩, (hf i x).2 ⟨hx, h2⟩⟩

theorem constrainLower_has {v : IVec} {vals : List Nat} {strict : Bool} {x : Val} (h : IVec.Has v x)
    (hb : Bounded (fun a b => if strict then a < b else a ≤ b) vals x) : IVec.Has (v.constrainLower vals strict) x :=
  IVec.simplify_has ((map_has (fun i x => mapVals_has (Rng.constrainLower_iff strict) i vals x) v x).2 ⟨h, hb⟩)

theorem constrainUpper_has {v : IVec} {vals : List Nat} {strict : Bool} {x : Val} (h : IVec.Has v x)
    (hb : Bounded (fun a b => if strict then b < a else b ≤ a) vals x) : IVec.Has (v.constrainUpper vals strict) x :=
  IVec.simplify_has ((map_has (fun i x => mapVals_has (Rng.constrainUpper_iff strict) i vals x) v x).2 ⟨h, hb⟩)

theorem mapVals_in {f : Nat → Rng → Rng} (hf : ∀ a r, (f a r).sound = true → (f a r).hi ≤ r.hi) {dims : List Nat} {i : Interval}
    (vals : List Nat) (h : Interval.In dims i) (hs : (i.mapVals f vals).sound = true) : Interval.In dims (i.mapVals f vals) := by
  induction i generalizing dims vals with
  | nil => cases vals <;> exact h
  | cons r i ih =>
    cases vals with
    | nil => exact h
    | cons a as =>
      cases dims with
      | nil => exact h.elim
      | cons n ns =>
        unfold Interval.mapVals Interval.sound at hs
        rw [List.all_cons, Bool.and_eq_true] at hs
        refine ⟨⟨of_decide_eq_true hs.1, ?_⟩, ih as h.2 hs.2⟩
        have := hf a r hs.1
        have := h.1.2
        omega

theorem constrainLower_hi (strict : Bool) (a : Nat) (r : Rng) (h : (r.constrainLower strict a).sound = true) : (r.constrainLower strict a).hi ≤ r.hi := by
  have := (Rng.constrainLower_iff strict a r (r.constrainLower strict a).hi).1 ⟨of_decide_eq_true h, Nat.le_refl _⟩
  exact this.1.2

theorem constrainUpper_hi (strict : Bool) (a : Nat) (r : Rng) (h : (r.constrainUpper strict a).sound = true) : (r.constrainUpper strict a).hi ≤ r.hi := by
  have := (Rng.constrainUpper_iff strict a r (r.constrainUpper strict a).hi).1 ⟨of_decide_eq_true h, Nat.le_refl _⟩
  exact this.1.2

theorem IVec.In.constrainLower {dims : List Nat} {v : IVec} (h : IVec.In dims v) (vals : List Nat) (strict : Bool) :
    IVec.In dims (v.constrainLower vals strict) :=
  IVec.In.simplify' fun j hj hs => by
    obtain ⟨i, hi, rfl⟩ := List.mem_map.1 hj
    exact mapVals_in (constrainLower_hi strict) vals (h i hi) hs

theorem IVec.In.constrainUpper {dims : List Nat} {v : IVec} (h : IVec.In dims v) (vals : List Nat) (strict : Bool) :
    IVec.In dims (v.constrainUpper vals strict) :=
  IVec.In.simplify' fun j hj hs => by
    obtain ⟨i, hi, rfl⟩ := List.mem_map.1 hj
    exact mapVals_in (constrainUpper_hi strict) vals (h i hi) hs

/-! ### Shifts -/

/-- The shift in the cycle of a type, for shifts that are not below minus the size. -/
theorem shiftN_eq {w n : Nat} {m : Int} {a : Nat} (hm : -(n : Int) ≤ m) : shiftN w n m a = (((a : Int) + m) % n).toNat := by
  unfold shiftN
  simp only
  rw [if_neg (by omega)]
  have h1 : (n : Int) + (a + m) = ((((n : Int) + (a + m)).toNat : Nat) : Int) := by omega
  have h2 : (((((n : Int) + (a + m)).toNat % n : Nat)) : Int) = ((a : Int) + m) % n := by
    rw [Int.natCast_emod, ← h1, Int.add_emod_left]
  omega

theorem shiftN_lt {w n : Nat} {m : Int} {a : Nat} (hn : 0 < n) : shiftN w n m a < n := Nat.mod_lt _ hn

/-- The elements of a range are shifted into one range or two. -/
theorem shiftN_succ {w n : Nat} {m : Int} {a b : Nat} (hm : -(n : Int) ≤ m) (hab : a ≤ b) (hb : b < n) :
    shiftN w n m b = if shiftN w n m a + (b - a) < n then shiftN w n m a + (b - a) else shiftN w n m a + (b - a) - n := by
  have hn : (0 : Int) < n := by omega
  rw [shiftN_eq hm, shiftN_eq hm]
  have h0 := Int.emod_nonneg ((a : Int) + m) (show (n : Int) ≠ 0 by omega)
  have h1 := Int.emod_lt_of_pos ((a : Int) + m) hn
  have e : ((b : Int) + m) % n = (((a : Int) + m) % n + (b - a)) % n := by
    rw [Int.emod_add_emod]; congr 1; omega
  rw [e]
  generalize ((a : Int) + m) % n = z at *
  by_cases h : z.toNat + (b - a) < n
  · rw [if_pos h, Int.emod_eq_of_lt (by omega) (by omega)]; omega
  · rw [if_neg h]
    have : (z + ((b : Int) - a)) % n = z + (b - a) - n := by
      rw [← Int.sub_emod_right, Int.emod_eq_of_lt (by omega) (by omega)]
    rw [this]; omega

theorem Rng.shift_iff {n : Nat} {m : Int} {r : Rng} (hm : -(n : Int) ≤ m) (hs : r.lo ≤ r.hi) (hr : r.hi < n) (y : Nat) :
    (((r.shift n m).1.lo ≤ y ∧ y ≤ (r.shift n m).1.hi) ∨ ∃ s, (r.shift n m).2 = some s ∧ s.lo ≤ y ∧ y ≤ s.hi) ↔
      ∃ a, (r.lo ≤ a ∧ a ≤ r.hi) ∧ y = shiftN 32 n m a := by
  have hu := shiftN_succ (w := 32) hm hs hr
  have hl := shiftN_lt (w := 32) (m := m) (a := r.lo) (show 0 < n by omega)
  have hu' := shiftN_lt (w := 32) (m := m) (a := r.hi) (show 0 < n by omega)
  have key : ∀ a, r.lo ≤ a → a ≤ r.hi → shiftN 32 n m a = if shiftN 32 n m r.lo + (a - r.lo) < n then shiftN 32 n m r.lo + (a - r.lo)
      else shiftN 32 n m r.lo + (a - r.lo) - n := fun a h1 h2 => shiftN_succ hm h1 (by omega)
  have back : (∃ a, (r.lo ≤ a ∧ a ≤ r.hi) ∧ y = shiftN 32 n m a) ↔ ∃ a, (r.lo ≤ a ∧ a ≤ r.hi) ∧
      y = if shiftN 32 n m r.lo + (a - r.lo) < n then shiftN 32 n m r.lo + (a - r.lo) else shiftN 32 n m r.lo + (a - r.lo) - n := by
    constructor
    · rintro ⟨a, h, e⟩; exact ⟨a, h, by rw [e, key a h.1 h.2]⟩
    · rintro ⟨a, h, e⟩; exact ⟨a, h, by rw [e, key a h.1 h.2]⟩
  rw [back]
  unfold Rng.shift
  simp only
  generalize shiftN 32 n m r.hi = u at *
  generalize shiftN 32 n m r.lo = l at *
  clear key back
  by_cases c : l > u
  · rw [if_pos c]
    simp only [Option.some.injEq]
    constructor
    · rintro (h | ⟨s, rfl, h⟩)
      · refine ⟨r.lo + (y + n - l), ?_, ?_⟩
        · split at hu <;> omega
        · split at hu <;> split <;> omega
      · simp only at h
        refine ⟨r.lo + (y - l), ?_, ?_⟩
        · split at hu <;> omega
        · split at hu <;> split <;> omega
    · rintro ⟨a, h, e⟩
      split at e
      · exact Or.inr ⟨_, rfl, by simp only; omega⟩
      · left; split at hu <;> omega
  · rw [if_neg c]
    simp only [reduceCtorEq, false_and, exists_false, or_false]
    constructor
    · intro h
      refine ⟨r.lo + (y - l), ?_, ?_⟩
      · split at hu <;> omega
      · split at hu <;> split <;> omega
    · rintro ⟨a, h, e⟩
      split at hu <;> split at e <;> omega

/-- Has, position by position. -/
theorem has_iff (i : Interval) (x : Val) : Interval.Has i x ↔
    i.length = x.length ∧ ∀ k, k < i.length → (i.getD k ⟨0, 0⟩).lo ≤ x.getD k 0 ∧ x.getD k 0 ≤ (i.getD k ⟨0, 0⟩).hi := by
  induction i generalizing x with
  | nil =>
    cases x with
    | nil => simp [Interval.Has]
    | cons => simp [Interval.Has]
  | cons r i ih =>
    cases x with
    | nil => simp [Interval.Has]
    | cons a x =>
      show _ ∧ Interval.Has i x ↔ _
      rw [ih]
      constructor
      · rintro ⟨h1, h2, h3⟩
        refine ⟨by simp [h2], fun k hk => ?_⟩
        cases k with
        | zero => exact h1
        | succ k => exact h3 k (by simpa using hk)
      · rintro ⟨h1, h2⟩
        refine ⟨h2 0 (by simp), by simpa using h1, fun k hk => h2 (k + 1) (by simpa using hk)⟩

theorem in_iff (dims : List Nat) (i : Interval) : Interval.In dims i ↔
    i.length = dims.length ∧ ∀ k, k < i.length → (i.getD k ⟨0, 0⟩).lo ≤ (i.getD k ⟨0, 0⟩).hi ∧ (i.getD k ⟨0, 0⟩).hi < dims.getD k 0 := by
  induction i generalizing dims with
  | nil =>
    cases dims with
    | nil => simp [Interval.In]
    | cons => simp [Interval.In]
  | cons r i ih =>
    cases dims with
    | nil => simp [Interval.In]
    | cons a x =>
      show _ ∧ Interval.In x i ↔ _
      rw [ih]
      constructor
      · rintro ⟨h1, h2, h3⟩
        refine ⟨by simp [h2], fun k hk => ?_⟩
        cases k with
        | zero => exact h1
        | succ k => exact h3 k (by simpa using hk)
      · rintro ⟨h1, h2⟩
        refine ⟨h2 0 (by simp), by simpa using h1, fun k hk => h2 (k + 1) (by simpa using hk)⟩

theorem getD_set {α : Type} (l : List α) (k j : Nat) (a d : α) (hk : k < l.length) :
    (l.set k a).getD j d = if j = k then a else l.getD j d := by
  rw [List.getD_eq_getElem?_getD, List.getD_eq_getElem?_getD, List.getElem?_set]
  by_cases h : j = k
  · subst h; rw [if_pos rfl, if_pos rfl, if_pos hk]; rfl
  · rw [if_neg (fun e => h e.symm), if_neg h]

theorem set_has {i : Interval} {k : Nat} {r : Rng} {y : Val} (hk : k < i.length) : Interval.Has (i.set k r) y ↔
    i.length = y.length ∧ (r.lo ≤ y.getD k 0 ∧ y.getD k 0 ≤ r.hi) ∧
      ∀ j, j < i.length → j ≠ k → (i.getD j ⟨0, 0⟩).lo ≤ y.getD j 0 ∧ y.getD j 0 ≤ (i.getD j ⟨0, 0⟩).hi := by
  rw [has_iff, List.length_set]
  constructor
  · rintro ⟨h1, h2⟩
    refine ⟨h1, ?_, fun j hj hjk => ?_⟩
    · have := h2 k hk; rw [getD_set _ _ _ _ _ hk, if_pos rfl] at this; exact this
    · have := h2 j hj; rw [getD_set _ _ _ _ _ hk, if_neg hjk] at this; exact this
  · rintro ⟨h1, h2, h3⟩
    refine ⟨h1, fun j hj => ?_⟩
    rw [getD_set _ _ _ _ _ hk]
    by_cases h : j = k
    · rw [if_pos h, h]; exact h2
    · rw [if_neg h]; exact h3 j hj h

/-- one component shifted -/
def shiftSet (sizes : List Nat) (m : Int) (x : Val) (k : Nat) : Val := x.set k (shiftN 32 (sizes.getD k 0) m (x.getD k 0))

theorem shiftAt_box {sizes : List Nat} {m : Int} {k : Nat} {i : Interval} {y : Val} (hi : Interval.In sizes i) (hk : k < sizes.length)
    (hm : -(sizes.getD k 0 : Int) ≤ m) :
    (Interval.Has (i.set k ((i.getD k ⟨0, 0⟩).shift (sizes.getD k 0) m).1) y ∨
      ∃ r, ((i.getD k ⟨0, 0⟩).shift (sizes.getD k 0) m).2 = some r ∧ Interval.Has (i.set k r) y) ↔
    ∃ x, Interval.Has i x ∧ y = shiftSet sizes m x k := by
  have hk' : k < i.length := by rw [hi.length]; exact hk
  obtain ⟨hlen, hin⟩ := (in_iff sizes i).1 hi
  have hr := hin k hk'
  have key := Rng.shift_iff hm hr.1 hr.2 (y.getD k 0)
  constructor
  · intro h
    have hy : i.length = y.length ∧ ∀ j, j < i.length → j ≠ k → (i.getD j ⟨0, 0⟩).lo ≤ y.getD j 0 ∧ y.getD j 0 ≤ (i.getD j ⟨0, 0⟩).hi := by
      rcases h with h | ⟨r, _, h⟩
      · exact ⟨((set_has hk').1 h).1, ((set_has hk').1 h).2.2⟩
      · exact ⟨((set_has hk').1 h).1, ((set_has hk').1 h).2.2⟩
    obtain ⟨a, ha, hya⟩ := key.1 (by
      rcases h with h | ⟨r, hr', h⟩
      · exact Or.inl ((set_has hk').1 h).2.1
      · exact Or.inr ⟨r, hr', ((set_has hk').1 h).2.1⟩)
    have hky : k < y.length := by rw [← hy.1]; exact hk'
    refine ⟨y.set k a, ?_, ?_⟩
    · rw [has_iff, List.length_set]
      refine ⟨hy.1, fun j hj => ?_⟩
      rw [getD_set _ _ _ _ _ hky]
      by_cases h : j = k
      · rw [if_pos h, h]; exact ha
      · rw [if_neg h]; exact hy.2 j hj h
    · unfold shiftSet
      rw [getD_set _ _ _ _ _ hky, if_pos rfl, List.set_set, ← hya]
      have : y.getD k 0 = y[k] := by rw [List.getD_eq_getElem?_getD, List.getElem?_eq_getElem hky]; rfl
      rw [this, List.set_getElem_self]
  · rintro ⟨x, hx, rfl⟩
    have hx' := (has_iff i x).1 hx
    have hkx : k < x.length := by rw [← hx'.1]; exact hk'
    have hy : (shiftSet sizes m x k).getD k 0 = shiftN 32 (sizes.getD k 0) m (x.getD k 0) := by
      unfold shiftSet; rw [getD_set _ _ _ _ _ hkx, if_pos rfl]
    have ho : ∀ j, j < i.length → j ≠ k → (i.getD j ⟨0, 0⟩).lo ≤ (shiftSet sizes m x k).getD j 0 ∧ (shiftSet sizes m x k).getD j 0 ≤ (i.getD j ⟨0, 0⟩).hi := by
      intro j hj hjk
      unfold shiftSet
      rw [getD_set _ _ _ _ _ hkx, if_neg hjk]
      exact hx'.2 j hj
    have hl : i.length = (shiftSet sizes m x k).length := by unfold shiftSet; rw [List.length_set]; exact hx'.1
    rcases key.2 ⟨x.getD k 0, hx'.2 k hk', hy⟩ with h | ⟨r, hr', h⟩
    · exact Or.inl ((set_has hk').2 ⟨hl, h, ho⟩)
    · exact Or.inr ⟨r, hr', (set_has hk').2 ⟨hl, h, ho⟩⟩

theorem shiftAt_has {sizes : List Nat} {m : Int} {k : Nat} {v : IVec} {y : Val} (hv : IVec.In sizes v) (hk : k < sizes.length)
    (hm : -(sizes.getD k 0 : Int) ≤ m) :
    IVec.Has (IVec.shiftAt (sizes.getD k 0) m k v) y ↔ ∃ x, IVec.Has v x ∧ y = shiftSet sizes m x k := by
  unfold IVec.shiftAt
  rw [IVec.has_append]
  constructor
  · rintro (⟨j, hj, h⟩ | ⟨j, hj, h⟩)
    · obtain ⟨i, hi, rfl⟩ := List.mem_map.1 hj
      obtain ⟨x, hx, e⟩ := (shiftAt_box (hv i hi) hk hm).1 (Or.inl h)
      exact ⟨x, ⟨i, hi, hx⟩, e⟩
    · obtain ⟨i, hi, he⟩ := List.mem_filterMap.1 hj
      obtain ⟨r, hr, rfl⟩ := Option.map_eq_some_iff.1 he
      obtain ⟨x, hx, e⟩ := (shiftAt_box (hv i hi) hk hm).1 (Or.inr ⟨r, hr, h⟩)
      exact ⟨x, ⟨i, hi, hx⟩, e⟩
  · rintro ⟨x, ⟨i, hi, hx⟩, e⟩
    rcases (shiftAt_box (hv i hi) hk hm).2 ⟨x, hx, e⟩ with h | ⟨r, hr, h⟩
    · exact Or.inl ⟨_, List.mem_map.2 ⟨i, hi, rfl⟩, h⟩
    · exact Or.inr ⟨_, List.mem_filterMap.2 ⟨i, hi, by rw [hr]; rfl⟩, h⟩

theorem set_in {sizes : List Nat} {i : Interval} {k : Nat} {r : Rng} (hi : Interval.In sizes i) (h1 : r.lo ≤ r.hi) (h2 : r.hi < sizes.getD k 0) :
    Interval.In sizes (i.set k r) := by
  rw [in_iff] at hi ⊢
  rw [List.length_set]
  refine ⟨hi.1, fun j hj => ?_⟩
  by_cases hk : k < i.length
  · rw [getD_set _ _ _ _ _ hk]
    by_cases h : j = k
    · rw [if_pos h, h]; exact ⟨h1, h2⟩
    · rw [if_neg h]; exact hi.2 j hj
  · rw [List.set_eq_of_length_le (by omega)]; exact hi.2 j hj

theorem shiftAt_in {sizes : List Nat} {m : Int} {k : Nat} {v : IVec} (hv : IVec.In sizes v) (hk : k < sizes.length) :
    IVec.In sizes (IVec.shiftAt (sizes.getD k 0) m k v) := by
  intro j hj
  have hn : ∀ i ∈ v, 0 < sizes.getD k 0 := fun i hi => by
    have := ((in_iff sizes i).1 (hv i hi)).2 k (by rw [(hv i hi).length]; exact hk)
    omega
  rcases List.mem_append.1 hj with hj | hj
  · obtain ⟨i, hi, rfl⟩ := List.mem_map.1 hj
    have h1 := shiftN_lt (w := 32) (m := m) (a := (i.getD k ⟨0, 0⟩).lo) (hn i hi)
    have h2 := shiftN_lt (w := 32) (m := m) (a := (i.getD k ⟨0, 0⟩).hi) (hn i hi)
    apply set_in (hv i hi) <;> unfold Rng.shift <;> simp only <;> split <;> simp only <;> omega
  · obtain ⟨i, hi, he⟩ := List.mem_filterMap.1 hj
    obtain ⟨r, hr, rfl⟩ := Option.map_eq_some_iff.1 he
    have h1 := shiftN_lt (w := 32) (m := m) (a := (i.getD k ⟨0, 0⟩).lo) (hn i hi)
    have h2 := shiftN_lt (w := 32) (m := m) (a := (i.getD k ⟨0, 0⟩).hi) (hn i hi)
    unfold Rng.shift at hr
    simp only at hr
    split at hr
    · cases hr
      apply set_in (hv i hi) <;> simp only <;> omega
    · cases hr

theorem foldl_shift {sizes : List Nat} {m : Int} (ks : List Nat) {v : IVec} {y : Val} (hv : IVec.In sizes v) (hk : ∀ k ∈ ks, k < sizes.length)
    (hm : ∀ k, k < sizes.length → -(sizes.getD k 0 : Int) ≤ m) :
    IVec.In sizes (ks.foldl (fun w k => IVec.shiftAt (sizes.getD k 0) m k w) v) ∧
    (IVec.Has (ks.foldl (fun w k => IVec.shiftAt (sizes.getD k 0) m k w) v) y ↔ ∃ x, IVec.Has v x ∧ y = ks.foldl (shiftSet sizes m) x) := by
  induction ks generalizing v with
  | nil =>
    refine ⟨hv, ?_⟩
    rw [List.foldl_nil]
    constructor
    · intro h; exact ⟨y, h, rfl⟩
    · rintro ⟨x, h, e⟩; rw [List.foldl_nil] at e; rw [e]; exact h
  | cons k ks ih =>
    rw [List.foldl_cons]
    have h1 := shiftAt_in (m := m) hv (hk k List.mem_cons_self)
    obtain ⟨h2, h3⟩ := ih h1 fun j hj => hk j (List.mem_cons_of_mem _ hj)
    refine ⟨h2, ?_⟩
    rw [h3]
    constructor
    · rintro ⟨x, hx, e⟩
      obtain ⟨x', hx', e'⟩ := (shiftAt_has hv (hk k List.mem_cons_self) (hm k (hk k List.mem_cons_self))).1 hx
      exact ⟨x', hx', by rw [List.foldl_cons, ← e']; exact e⟩
    · rintro ⟨x, hx, e⟩
      rw [List.foldl_cons] at e
      exact ⟨_, (shiftAt_has hv (hk k List.mem_cons_self) (hm k (hk k List.mem_cons_self))).2 ⟨x, hx, rfl⟩, e⟩

/-- A value with every component shifted. -/
def shiftVal (m : Int) (sizes : List Nat) (x : Val) : Val := List.zipWith (fun n a => shiftN 32 n m a) sizes x

theorem foldl_shiftSet (sizes : List Nat) (m : Int) (x : Val) (n : Nat) (h : x.length = sizes.length) (hn : n ≤ x.length) :
    (List.range n).foldl (shiftSet sizes m) x = List.zipWith (fun n a => shiftN 32 n m a) (sizes.take n) (x.take n) ++ x.drop n := by
  induction n with
  | zero => simp
  | succ n ih =>
    rw [List.range_succ, List.foldl_append, ih (by omega), List.foldl_cons, List.foldl_nil]
    have hnx : n < x.length := by omega
    have hns : n < sizes.length := by omega
    have hz : (List.zipWith (fun n a => shiftN 32 n m a) (sizes.take n) (x.take n)).length = n := by
      rw [List.length_zipWith, List.length_take, List.length_take]; omega
    unfold shiftSet
    rw [List.set_append_right (h := by omega), hz, Nat.sub_self, List.drop_eq_getElem_cons hnx, List.set_cons_zero]
    rw [List.getD_eq_getElem?_getD (l := _ ++ _), List.getElem?_append_right (by omega), hz, Nat.sub_self]
    rw [List.getElem?_cons_zero, Option.getD_some]
    rw [List.take_add_one, List.take_add_one, List.getElem?_eq_getElem hnx, List.getElem?_eq_getElem hns, Option.toList, Option.toList]
    rw [List.zipWith_append (by rw [List.length_take, List.length_take]; omega)]
    rw [List.getD_eq_getElem?_getD, List.getElem?_eq_getElem hns, Option.getD_some]
    simp

/-- `applyModifier` shifts the values and nothing else. -/
theorem applyModifier_has {sizes : List Nat} {m : Int} {v : IVec} {y : Val} (hv : IVec.In sizes v)
    (hm : ∀ k, k < sizes.length → -(sizes.getD k 0 : Int) ≤ m) :
    IVec.Has (v.applyModifier m sizes) y ↔ ∃ x, IVec.Has v x ∧ y = shiftVal m sizes x := by
  have key : ∀ i ∈ v, (IVec.Has ((List.range i.length).foldl (fun w k => IVec.shiftAt (sizes.getD k 0) m k w) [i]) y ↔
      ∃ x, Interval.Has i x ∧ y = shiftVal m sizes x) := by
    intro i hi
    have hl := (hv i hi).length
    have h1 := (foldl_shift (sizes := sizes) (m := m) (List.range i.length) (v := [i]) (y := y)
      (fun j hj => by rw [List.mem_singleton.1 hj]; exact hv i hi) (fun k hk => by rw [← hl]; exact List.mem_range.1 hk) hm).2
    rw [h1]
    have h2 : ∀ x, Interval.Has i x → (List.range i.length).foldl (shiftSet sizes m) x = shiftVal m sizes x := by
      intro x hx
      have hlx := hx.length
      rw [hlx, foldl_shiftSet sizes m x x.length (by omega) (Nat.le_refl _), List.drop_length, List.append_nil, List.take_length,
        List.take_of_length_le (by omega)]
      rfl
    constructor
    · rintro ⟨x, ⟨j, hj, hx⟩, e⟩
      rw [List.mem_singleton.1 hj] at hx
      exact ⟨x, hx, by rw [e, h2 x hx]⟩
    · rintro ⟨x, hx, e⟩
      exact ⟨x, ⟨i, List.mem_singleton_self i, hx⟩, by rw [e, h2 x hx]⟩
  unfold IVec.applyModifier
  constructor
  · rintro ⟨j, hj, hx⟩
    obtain ⟨l, hl, hj'⟩ := List.mem_flatten.1 hj
    obtain ⟨i, hi, rfl⟩ := List.mem_map.1 hl
    obtain ⟨x, h1, h2⟩ := (key i hi).1 ⟨j, hj', hx⟩
    exact ⟨x, ⟨i, hi, h1⟩, h2⟩
  · rintro ⟨x, ⟨i, hi, h1⟩, h2⟩
    obtain ⟨j, hj, hx⟩ := (key i hi).2 ⟨x, h1, h2⟩
    exact ⟨j, List.mem_flatten.2 ⟨_, List.mem_map.2 ⟨i, hi, rfl⟩, hj⟩, hx⟩

theorem IVec.In.applyModifier {sizes : List Nat} {m : Int} {v : IVec} (hv : IVec.In sizes v)
    (hm : ∀ k, k < sizes.length → -(sizes.getD k 0 : Int) ≤ m) : IVec.In sizes (v.applyModifier m sizes) := by
  intro j hj
  obtain ⟨l, hl, hj'⟩ := List.mem_flatten.1 hj
  obtain ⟨i, hi, rfl⟩ := List.mem_map.1 hl
  exact (foldl_shift (sizes := sizes) (m := m) (List.range i.length) (v := [i]) (y := [])
      (fun j hj => by rw [List.mem_singleton.1 hj]; exact hv i hi)
      (fun k hk => by rw [← (hv i hi).length]; exact List.mem_range.1 hk) hm).1 j hj'

end CFP
end Verif
