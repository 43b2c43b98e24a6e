import Verif.CFP.IntervalCount

/-!
# C62: operations on intervals of colours

A box (`interval_t`) stands for the values in it, a list of boxes (`interval_vector_t`) for those in one of its boxes.  The
fixed point of the unfolder needs that no operation loses a value; where the code aims at more (cutting, taking away,
shifting, counting) the exact meaning is proved.
-/

namespace Verif
namespace CFP

open CPN

/-- `a` moved by `m` in a cycle of `n` colours -/
def cyc (m : Int) (n a : Nat) : Nat := (((a : Int) + m) % (n : Int)).toNat

/-- The full statement: the operations on lists of boxes that lie in a type mean what their names say. -/
def C62_full : Prop := ∀ (dims : List Nat) (v : IVec) (i : Interval) (k : Nat) (m : Int), IVec.In dims v → Interval.In dims i →
  (∀ x, IVec.Has (v.add i) x ↔ IVec.Has v x ∨ Interval.Has i x) ∧ (∀ x, IVec.Has v.simplify x ↔ IVec.Has v x) ∧
  (v.simplify).Disjoint ∧ (∀ x, IVec.Has v x → IVec.Has (v.restrict k) x) ∧ (0 < k → (v.restrict k).length ≤ k) ∧
  (∀ y, IVec.Has (v.applyModifier m dims) y ↔ ∃ x, IVec.Has v x ∧ y = List.zipWith (cyc m) dims x) ∧
  (v.Disjoint → v.count = v.vals.length)

/-- **C62** (joining).  Adding boxes, simplifying and restricting to a number of boxes lose no value and keep the boxes in
the type; the restriction keeps the number of boxes. -/
theorem C62_join {dims : List Nat} {v : IVec} (hv : IVec.In dims v) {l : List Interval} (hl : IVec.In dims l) (k : Nat) :
    (∀ x, IVec.Has v x ∨ IVec.Has l x → IVec.Has (v.addAll l) x) ∧ IVec.In dims (v.addAll l) ∧
    (∀ x, IVec.Has v x → IVec.Has v.simplify x) ∧ IVec.In dims v.simplify ∧
    (∀ x, IVec.Has v x → IVec.Has (v.restrict k) x) ∧ IVec.In dims (v.restrict k) ∧ (0 < k → (v.restrict k).length ≤ k) :=
  ⟨fun _ h => h.elim (IVec.addAll_has_left l) (IVec.addAll_has_right v), hv.addAll hl, fun _ h => IVec.simplify_has h, hv.simplify,
    fun _ h => IVec.restrict_has k hv h, hv.restrict k, fun h => restrict_length h v⟩

/-- **C62** (joining, one dimension).  In one dimension adding and simplifying change nothing but the boxes. -/
theorem C62_join_exact {n : Nat} {v : IVec} (hv : IVec.In [n] v) {i : Interval} (hi : Interval.In [n] i) :
    (∀ x, IVec.Has (v.add i) x ↔ IVec.Has v x ∨ Interval.Has i x) ∧ (∀ x, IVec.Has v.simplify x ↔ IVec.Has v x) :=
  ⟨fun _ => IVec.add_one hv hi, fun _ => IVec.simplify_one hv⟩

example : IVec.In [8] (IVec.addAll [] [[⟨0, 1⟩], [⟨3, 4⟩]]) ∧ (IVec.addAll [] [[⟨0, 1⟩], [⟨3, 4⟩], [⟨1, 3⟩]]).simplify = [[⟨0, 4⟩]] ∧
    IVec.restrict 1 [[⟨0, 1⟩], [⟨3, 4⟩]] = [[⟨0, 4⟩]] := by
  refine ⟨?_, by decide +kernel, by decide +kernel⟩
  intro i hi
  have : i = [⟨0, 1⟩] ∨ i = [⟨3, 4⟩] := by
    have e : IVec.addAll [] [[⟨0, 1⟩], [⟨3, 4⟩]] = [[⟨0, 1⟩], [⟨3, 4⟩]] := by decide +kernel
    rw [e] at hi
    simpa using hi
  rcases this with rfl | rfl <;> exact ⟨by decide, trivial⟩

/-- **C62** (cutting).  The common part and the difference of two boxes of one dimension are exact; so are bounds. -/
theorem C62_cut {i j : Interval} (hl : i.length = j.length) (x : Val) :
    (Interval.Has (i.overlap j) x ↔ Interval.Has i x ∧ Interval.Has j x) ∧
    (IVec.Has (i.subtract j) x ↔ Interval.Has i x ∧ ¬ Interval.Has j x) :=
  ⟨Interval.overlap_has hl, Interval.subtract_has hl⟩

/-- **C62** (bounds).  Bounds on the components lose no value within the bounds; in one dimension exactly those values are
left. -/
theorem C62_bounds {v : IVec} {vals : List Nat} {strict : Bool} {x : Val} :
    (IVec.Has v x → Bounded (fun a b => if strict then a < b else a ≤ b) vals x → IVec.Has (v.constrainLower vals strict) x) ∧
    (IVec.Has v x → Bounded (fun a b => if strict then b < a else b ≤ a) vals x → IVec.Has (v.constrainUpper vals strict) x) ∧
    ∀ n, IVec.In [n] v →
      (IVec.Has (v.constrainLower vals strict) x → IVec.Has v x ∧ Bounded (fun a b => if strict then a < b else a ≤ b) vals x) ∧
      (IVec.Has (v.constrainUpper vals strict) x → IVec.Has v x ∧ Bounded (fun a b => if strict then b < a else b ≤ a) vals x) := by
  refine ⟨fun h hb => constrainLower_has h hb, fun h hb => constrainUpper_has h hb, fun n hn => ⟨fun h => ?_, fun h => ?_⟩⟩
  · refine (map_has (fun i x => mapVals_has (Rng.constrainLower_iff strict) i vals x) v x).1 ((IVec.simplify_one' (n := n) fun j hj hs => ?_).1 h)
    obtain ⟨i, hi, rfl⟩ := List.mem_map.1 hj
    exact mapVals_in (constrainLower_hi strict) vals (hn i hi) hs
  · refine (map_has (fun i x => mapVals_has (Rng.constrainUpper_iff strict) i vals x) v x).1 ((IVec.simplify_one' (n := n) fun j hj hs => ?_).1 h)
    obtain ⟨i, hi, rfl⟩ := List.mem_map.1 hj
    exact mapVals_in (constrainUpper_hi strict) vals (hn i hi) hs

example : Interval.overlap [⟨0, 3⟩, ⟨2, 5⟩] [⟨2, 7⟩, ⟨0, 3⟩] = [⟨2, 3⟩, ⟨2, 3⟩] ∧
    Interval.subtract [⟨0, 5⟩] [⟨2, 3⟩] = [[⟨4, 5⟩], [⟨0, 1⟩]] ∧ IVec.constrainLower [[⟨0, 3⟩]] [1] true = [[⟨2, 3⟩]] ∧
    IVec.constrainUpper [[⟨0, 3⟩]] [1] false = [[⟨0, 1⟩]] := by decide +kernel

/-- **C62** (shifting).  Shifting by a modifier not below minus the sizes of the components moves every value in the cycles
of its components. -/
theorem C62_shift {sizes : List Nat} {m : Int} {v : IVec} (hv : IVec.In sizes v) (hm : ∀ n ∈ sizes, -(n : Int) ≤ m) (y : Val) :
    IVec.Has (v.applyModifier m sizes) y ↔ ∃ x, IVec.Has v x ∧ y = List.zipWith (cyc m) sizes x := by
  have key : ∀ x, shiftVal m sizes x = List.zipWith (cyc m) sizes x := by
    clear hv
    induction sizes with
    | nil => intro x; rfl
    | cons n ns ih =>
      intro x
      cases x with
      | nil => rfl
      | cons a x =>
        have h1 := ih (fun k hk => hm k (List.mem_cons_of_mem _ hk)) x
        unfold shiftVal at h1 ⊢
        rw [List.zipWith_cons_cons, List.zipWith_cons_cons, h1, shiftN_eq (hm n List.mem_cons_self)]
        rfl
  rw [applyModifier_has hv]
  · constructor
    · rintro ⟨x, h, e⟩; exact ⟨x, h, by rw [e, key]⟩
    · rintro ⟨x, h, e⟩; exact ⟨x, h, by rw [e, key]⟩
  · intro k hk
    rw [List.getD_eq_getElem?_getD, List.getElem?_eq_getElem hk]
    exact hm _ (List.getElem_mem hk)

example : IVec.applyModifier 1 [4] [[⟨2, 3⟩]] = [[⟨0, 0⟩], [⟨3, 3⟩]] ∨ IVec.applyModifier 1 [4] [[⟨2, 3⟩]] = [[⟨3, 3⟩], [⟨0, 0⟩]] := by decide +kernel

/-- **C62** (counting).  If no two boxes have a value in common, and the number fits in 32 bits, the count is the number of
values; and then a count that does not grow means that no value has come in. -/
theorem C62_count {v : IVec} (hd : v.Disjoint) (hv : v.total < W32) :
    (∃ l : List Val, l.Nodup ∧ (∀ x, x ∈ l ↔ IVec.Has v x) ∧ v.count = l.length) ∧
    ∀ w : IVec, w.total < W32 → (∀ x, IVec.Has v x → IVec.Has w x) → ¬ w.count > v.count → ∀ x, IVec.Has w x → IVec.Has v x :=
  ⟨⟨v.vals, nodup_ivals hd, mem_ivals v, by rw [count_eq, Nat.mod_eq_of_lt hv, length_ivals]⟩,
    fun _ hw hs hc _ hx => grow_none hd hv hw hs hc hx⟩

example : IVec.disjointB [[⟨0, 1⟩], [⟨3, 4⟩]] = true ∧ IVec.count [[⟨0, 1⟩], [⟨3, 4⟩]] = 4 := by decide +kernel

/-! ### Where the code goes wrong -/

/-- Adding a box to a list of boxes of two dimensions adds values that are in none of them. -/
theorem C62_finding_join_adds : ¬ IVec.Has [[⟨0, 1⟩, ⟨0, 1⟩]] [2, 0] ∧ ¬ Interval.Has [⟨1, 2⟩, ⟨1, 2⟩] [2, 0] ∧
    IVec.Has (IVec.add [[⟨0, 1⟩, ⟨0, 1⟩]] [⟨1, 2⟩, ⟨1, 2⟩]) [2, 0] := by decide +kernel

/-- Simplifying goes over the boxes once: boxes that have grown may still have values in common, and are counted twice. -/
theorem C62_finding_simplify_leaves_overlaps :
    let v := (IVec.addAll [] [[⟨0, 1⟩], [⟨3, 4⟩], [⟨6, 7⟩], [⟨1, 3⟩], [⟨4, 6⟩]]).simplify
    v = [[⟨0, 6⟩], [⟨6, 7⟩]] ∧ ¬ v.Disjoint ∧ v.count = 9 ∧ v.vals.eraseDups.length = 8 := by
  refine ⟨by decide +kernel, ?_, by decide +kernel, by decide +kernel⟩
  have e : (IVec.addAll [] [[⟨0, 1⟩], [⟨3, 4⟩], [⟨6, 7⟩], [⟨1, 3⟩], [⟨4, 6⟩]]).simplify = [[⟨0, 6⟩], [⟨6, 7⟩]] := by decide +kernel
  rw [e]
  intro h
  cases h with
  | cons h _ => exact h [⟨6, 7⟩] (List.mem_singleton.2 rfl) [6] ⟨⟨by decide, trivial⟩, ⟨by decide, trivial⟩⟩

/-- A modifier below minus the size is taken modulo 2^32 first, and then modulo the size: 4 back from colour 0 of 3 is colour
2, and not colour 0. -/
theorem C62_finding_shift_far : IVec.applyModifier (-4) [3] [[⟨0, 0⟩]] = [[⟨0, 0⟩]] ∧ (((0 : Nat) : Int) + (-4)) % ((3 : Nat) : Int) = 2 := by
  decide +kernel

/-- The number of values is counted modulo 2^32: the box of all pairs of 65536 colours has none. -/
theorem C62_finding_count_wraps : IVec.count [[⟨0, 65535⟩, ⟨0, 65535⟩]] = 0 := by decide +kernel

/-- The bounds for comparisons of two variables are never found (the loop that fills the list runs over the list itself). -/
theorem C62_finding_no_ids (m : Int) (sizes : List Nat) (v : IVec) : v.lowerIdsMod m sizes = [] ∧ v.upperIdsMod m sizes = [] := by
  constructor
  · unfold IVec.lowerIdsMod
    induction v with
    | nil => rfl
    | cons i v ih => exact ih
  · unfold IVec.upperIdsMod
    induction v with
    | nil => rfl
    | cons i v ih => exact ih

theorem C62_full_fails : ¬ C62_full := by
  intro h
  have hv : IVec.In [3, 3] [[⟨0, 1⟩, ⟨0, 1⟩]] := fun i hi => by rw [List.mem_singleton] at hi; subst hi; exact ⟨by decide, by decide, trivial⟩
  have := (h [3, 3] [[⟨0, 1⟩, ⟨0, 1⟩]] [⟨1, 2⟩, ⟨1, 2⟩] 1 0 hv ⟨by decide, by decide, trivial⟩).1 [2, 0]
  rcases this.1 C62_finding_join_adds.2.2 with h | h
  · exact C62_finding_join_adds.1 h
  · exact C62_finding_join_adds.2.1 h

end CFP
end Verif
