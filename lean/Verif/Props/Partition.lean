import Verif.CFP.PartitionLemmas

/-!
# C83: splitting partitions of colours; C84: the numbers of colours

`splitLoop n Q P false` splits the partition `P` of a place by the classes `Q`; the colour type has one component.  `Refined Q P P'` says
that `P'` has the colours of `P`, no colour twice, that each class of `P'` lies in one of `P`, and that each class of `Q` has all
colours of a class of `P'` or none.
-/

namespace Verif
namespace PartitionProps
open CFP CPN

/-- **C83** (classes of plain types whose boxes do not touch): splitting ends, and its result is the partition refined by the classes.
The full statement, with boxes that may touch, is refuted below. -/
theorem C83_split_refines_partial (Q P : List IVec) (hQ : Proper Q) (hP : Proper P) (hA : ClassesApart P) :
    ∃ n P' s, splitLoop n Q P false = some (P', s) ∧ Refined Q P P' := by
  obtain ⟨P', s, h1, h2, _⟩ := split_refines (sizes Q + 1) Q P false (Nat.lt_succ_self _) hQ hP hA
  exact ⟨_, P', s, h1, h2⟩

/-- **C83**: any number of rounds above the number of colours in the classes is enough. -/
theorem C83_split_ends_partial (Q P : List IVec) (hQ : Proper Q) (hP : Proper P) (hA : ClassesApart P) (n : Nat) (hn : sizes Q < n) :
    ∃ P' s, splitLoop n Q P false = some (P', s) ∧ Refined Q P P' := by
  obtain ⟨P', s, h1, h2, _⟩ := split_refines n Q P false hn hQ hP hA
  exact ⟨P', s, h1, h2⟩

/-- **C83**: what the result of `splitPartition` means: some class of `Q` meets some class of `P`. -/
theorem C83_split_flag_partial (Q P : List IVec) (hQ : Proper Q) (hP : Proper P) (hA : ClassesApart P) (n : Nat) (hn : sizes Q < n) :
    ∃ P' s, splitLoop n Q P false = some (P', s) ∧ (s = true ↔ ∃ q ∈ Q, ∃ p ∈ P, ∃ x, IVec.Has q x ∧ IVec.Has p x) := by
  obtain ⟨P', s, h1, _, h2⟩ := split_refines n Q P false hn hQ hP hA
  exact ⟨P', s, h1, h2.trans ⟨fun h => h.resolve_left (by decide), .inr⟩⟩

/-- **C83**: a partition has nothing to merge. -/
theorem C83_merge_partial (P : List IVec) (hP : Proper P) (hA : ClassesApart P) : mergeClasses P = P := merge_id hP hA

/-- **C83**: merging keeps the colours, for all classes of all types. -/
theorem C83_merge_keeps (P : List IVec) (x : Val) : (∃ c ∈ mergeClasses P, IVec.Has c x) ↔ ∃ c ∈ P, IVec.Has c x := mergeFrom_keeps x _ P

example : mergeClasses [[[⟨0, 9⟩]], [[⟨3, 4⟩], [⟨7, 8⟩]], [[⟨11, 12⟩]]] = [[[⟨0, 9⟩]], [[⟨11, 12⟩]]] := by decide

/-- the box from `l` to `h` -/
def bx (l h : Nat) : Interval := [⟨l, h⟩]

theorem sep_one {l h : Nat} (hlh : l ≤ h) : Sep [bx l h] :=
  ⟨fun i hi => by rw [List.mem_singleton.1 hi]; exact ⟨_, rfl, hlh⟩, List.pairwise_singleton ..⟩

theorem sep_two {a b c d : Nat} (h1 : a ≤ b) (h2 : b + 1 < c) (h3 : c ≤ d) : Sep [bx a b, bx c d] := by
  refine ⟨fun i hi => ?_, List.pairwise_cons.2 ⟨fun j hj => ?_, List.pairwise_singleton ..⟩⟩
  · simp only [List.mem_cons, List.not_mem_nil, or_false] at hi
    rcases hi with rfl | rfl
    · exact ⟨_, rfl, h1⟩
    · exact ⟨_, rfl, h3⟩
  · rw [List.mem_singleton.1 hj]
    intro r s hr hs
    cases hr; cases hs
    exact .inl h2

/-- Non-vacuity: ten colours, split by `{0, 1, 2, 7}`. -/
example : splitLoop 5 [[bx 0 2, bx 7 7]] [[bx 0 9]] false = some ([[bx 0 2, bx 7 7], [bx 3 6, bx 8 9]], true) := by decide

example : ∃ P' s, splitLoop 5 [[bx 0 2, bx 7 7]] [[bx 0 9]] false = some (P', s) ∧ Refined [[bx 0 2, bx 7 7]] [[bx 0 9]] P' :=
  C83_split_ends_partial _ _
    (fun p hp => by rw [List.mem_singleton.1 hp]; exact ⟨sep_two (by decide) (by decide) (by decide), by decide⟩)
    (fun p hp => by rw [List.mem_singleton.1 hp]; exact ⟨sep_one (by decide), by decide⟩)
    (List.pairwise_singleton ..) 5 (by decide)

/-- F127: when nothing is left of a box, the next box of the other class starts the subtraction anew.  The partition `{1..4}`,
`{0, 5..9}` is split by `{1, 2} ∪ {3, 4} ∪ {9}`, and then has the colours 1 to 4 twice. -/
theorem C83_finding_subtract : classSub [bx 1 4] [bx 1 2, bx 3 4, bx 9 9] = [bx 1 4] ∧
    ∃ P' s, splitLoop 10 [[bx 1 2, bx 3 4, bx 9 9]] [[bx 1 4], [bx 0 0, bx 5 9]] false = some (P', s) ∧ ¬ ClassesApart P' ∧
      ([bx 1 4] ∈ P' ∧ [bx 1 2, bx 3 4] ∈ P') := by
  refine ⟨by decide, [[bx 1 2, bx 3 4], [bx 1 4], [bx 9 9], [bx 0 0, bx 5 8]], true, by decide, fun h => ?_, by simp⟩
  exact (List.pairwise_cons.1 h).1 [bx 1 4] (by simp) [1] ⟨by decide, by decide⟩

/-- F128: the result says that the partition was split although it is the same as before; so a place on a cycle is put into the
queue again and again, until the time is up. -/
theorem C83_finding_flag : splitLoop 11 [[bx 0 9]] [[bx 0 9]] false = some ([[bx 0 9]], true) := by decide

/-! ### C84 -/

/-- **C84** (plain types, and so no diagonal positions): two colours have one place if and only if they are in one class. -/
theorem C84_same_place_partial (n : Nat) (P : List NClass) (hP : Proper (P.map NClass.boxes)) (hA : ClassesApart (P.map NClass.boxes))
    (hid : ∀ c ∈ P, ∀ d ∈ P, c.id = d.id → c = d) {x y : Val} (hx : ∃ c ∈ P, IVec.Has c.boxes x) (hy : ∃ c ∈ P, IVec.Has c.boxes y) :
    uniqueId [n] [false] P x = uniqueId [n] [false] P y ↔ ∃ c ∈ P, IVec.Has c.boxes x ∧ IVec.Has c.boxes y := by
  obtain ⟨c, hc, hx⟩ := hx
  obtain ⟨d, hd, hy⟩ := hy
  rw [uniqueId_class hP hA n hc hx, uniqueId_class hP hA n hd hy]
  constructor
  · intro h
    have := hid c hc d hd (Option.some.inj h)
    subst this
    exact ⟨c, hc, hx, hy⟩
  · rintro ⟨e, he, h1, h2⟩
    rw [← uniqueId_class hP hA n hc hx, ← uniqueId_class hP hA n hd hy, uniqueId_class hP hA n he h1, uniqueId_class hP hA n he h2]

/-- **C84**: the colour a token is replaced with has the same place. -/
theorem C84_representative_partial (n : Nat) (P : List NClass) (hP : Proper (P.map NClass.boxes)) (hA : ClassesApart (P.map NClass.boxes))
    {x : Val} (hx : ∃ c ∈ P, IVec.Has c.boxes x) :
    uniqueId [n] [false] P (representative (P.map NClass.boxes) x) = uniqueId [n] [false] P x := by
  obtain ⟨c, hc, hx⟩ := hx
  rw [uniqueId_class hP hA n hc hx]
  exact uniqueId_class hP hA n hc (representative_has hP hA (List.mem_map.2 ⟨c, hc, rfl⟩) hx)

/-- Non-vacuity. -/
def halves : List NClass := [⟨3, [bx 0 2, bx 7 7]⟩, ⟨5, [bx 3 6, bx 8 9]⟩]

example : (List.range 10).map (fun a => uniqueId [10] [false] halves [a]) =
    [some 3, some 3, some 3, some 5, some 5, some 5, some 5, some 3, some 5, some 5] := by decide
example : (List.range 10).map (fun a => representative (halves.map NClass.boxes) [a]) = [[0], [0], [0], [3], [3], [3], [3], [7], [8], [8]] := by decide
example : uniqueId [10] [false] halves [1] = uniqueId [10] [false] halves [7] :=
  (C84_same_place_partial 10 halves
    (by
      intro p hp
      simp only [halves, List.map_cons, List.map_nil, List.mem_cons, List.not_mem_nil, or_false] at hp
      rcases hp with rfl | rfl
      · exact ⟨sep_two (by decide) (by decide) (by decide), by decide⟩
      · exact ⟨sep_two (by decide) (by decide) (by decide), by decide⟩)
    (by
      refine List.pairwise_cons.2 ⟨fun q hq x hx => ?_, List.pairwise_singleton ..⟩
      simp only [List.map_cons, List.map_nil, List.mem_singleton] at hq
      subst hq
      obtain ⟨⟨i, hi, h1⟩, j, hj, h2⟩ := hx
      simp only [List.mem_cons, List.not_mem_nil, or_false] at hi hj
      rcases hi with rfl | rfl <;> rcases hj with rfl | rfl <;>
      · obtain ⟨a, rfl, h3⟩ := one_has.1 h1
        obtain ⟨b, h4, h5⟩ := one_has.1 h2
        cases h4
        dsimp only at h3 h5
        omega)
    (by
      intro c hc d hd h
      simp only [halves, List.mem_cons, List.not_mem_nil, or_false] at hc hd
      rcases hc with rfl | rfl <;> rcases hd with rfl | rfl
      · rfl
      · simp at h
      · simp at h
      · rfl)
    ⟨_, List.mem_cons_self .., by decide⟩ ⟨_, List.mem_cons_self .., by decide⟩).2 ⟨_, List.mem_cons_self .., by decide, by decide⟩

/-- F129: with diagonal positions the number of the class and that of the colour are added, and different sums may be equal.  The
type is a product of four and three colours with a diagonal first position; the classes are as `splitPartition` numbers them when the
second position is split by `{1, 2}`.  The colours `(3, 0)` and `(1, 1)` differ in both the class and the diagonal position. -/
theorem C84_finding_collision :
    uniqueId [4, 3] [true, false] [⟨10, [[⟨0, 3⟩, ⟨1, 2⟩]]⟩, ⟨12, [[⟨0, 3⟩, ⟨0, 0⟩]]⟩] [3, 0] =
      uniqueId [4, 3] [true, false] [⟨10, [[⟨0, 3⟩, ⟨1, 2⟩]]⟩, ⟨12, [[⟨0, 3⟩, ⟨0, 0⟩]]⟩] [1, 1] := by decide

/-- Without the numbers of the classes the sums would differ: these are the summands. -/
example : uniqueId [4, 3] [true, false] [⟨10, [[⟨0, 3⟩, ⟨1, 2⟩]]⟩, ⟨12, [[⟨0, 3⟩, ⟨0, 0⟩]]⟩] [3, 0] = some (12 + 3) ∧
    uniqueId [4, 3] [true, false] [⟨10, [[⟨0, 3⟩, ⟨1, 2⟩]]⟩, ⟨12, [[⟨0, 3⟩, ⟨0, 0⟩]]⟩] [1, 1] = some (10 + 5) := by decide

end PartitionProps
end Verif
