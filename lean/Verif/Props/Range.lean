import Verif.TAR.RangeLemmas

/-!
# C36: interval arithmetic of the trace-abstraction-refinement engine

A range describes the values `lower ≤ v ≤ upper`; `rmax` as upper bound means "no bound", and values are
32-bit.  A vector of place ranges describes the markings within all its ranges.
-/

namespace Verif
namespace RangeProps
open TAR TAR.PRVec

/-- Membership, stated without the model. -/
def In (r : Range) (v : Nat) : Prop := r.lower ≤ v ∧ v ≤ r.upper

/-- **C36**: the predicate used by the code. -/
theorem C36_contains (r : Range) (v : Nat) : r.contains v = true ↔ In r v := contains_iff

/-- **C36**: adding to a value of the range gives a value of the result. -/
theorem C36_add (r : Range) (w v : Nat) (hv : In r v) (hw : v + w ≤ rmax) : In (r.add w) (v + w) := by
  unfold In Range.add at *
  have : (2 : Nat) ^ 32 = rmax + 1 := rfl
  simp only
  refine ⟨?_, ?_⟩
  · split
    · rw [this, Nat.mod_eq_of_lt (by omega)]; omega
    · omega
  · split <;> omega

/-- **C36**: subtracting from a value of the range gives a value of the result. -/
theorem C36_sub (r : Range) (w v : Nat) (hv : In r v) (hw : w ≤ v) : In (r.sub w) (v - w) := by
  unfold In Range.sub at *
  simp only
  refine ⟨?_, ?_⟩
  · split <;> omega
  · split
    · split <;> omega
    · omega

/-- **C36**: as used to compute what must hold before a transition: the values from which consuming `w`
leads into the range are exactly those of `r += w` (values below `w` cannot fire). -/
theorem C36_add_exact (r : Range) (w m : Nat) (hw : w ≤ m) (hm : m ≤ rmax) (hl : r.lower + w ≤ rmax) :
    In (r.add w) m ↔ In r (m - w) := by
  unfold In Range.add at *
  have : (2 : Nat) ^ 32 = rmax + 1 := rfl
  simp only
  rw [this, Nat.mod_eq_of_lt (by omega)]
  constructor
  · rintro ⟨h1, h2⟩
    refine ⟨?_, ?_⟩
    · split at h1 <;> omega
    · split at h2 <;> omega
  · rintro ⟨h1, h2⟩
    refine ⟨?_, ?_⟩
    · split <;> omega
    · split <;> omega

/-- **C36**: the values from which producing `w` leads into the range are exactly those of `r -= w`. -/
theorem C36_sub_exact (r : Range) (w m : Nat) (hm : m + w ≤ rmax) (hu : w ≤ r.upper) :
    In (r.sub w) m ↔ In r (m + w) := by
  unfold In Range.sub at *
  simp only
  constructor
  · rintro ⟨h1, h2⟩
    refine ⟨?_, ?_⟩
    · split at h1 <;> omega
    · split at h2
      · split at h2 <;> omega
      · omega
  · rintro ⟨h1, h2⟩
    refine ⟨?_, ?_⟩
    · split <;> omega
    · split
      · split <;> omega
      · omega

/-- **C36**: intersection. -/
theorem C36_inter (r o : Range) (v : Nat) : In (r.inter o) v ↔ In r v ∧ In o v := by
  unfold In Range.inter; simp only; omega

/-- **C36**: the join contains both, and is the least range that does. -/
theorem C36_join (r o x : Range) (hr : r.lower ≤ r.upper) (ho : o.lower ≤ o.upper) :
    (∀ v, In r v ∨ In o v → In (r.join o) v) ∧
    ((∀ v, In r v ∨ In o v → In x v) → ∀ v, In (r.join o) v → In x v) := by
  unfold In Range.join; simp only
  refine ⟨fun v h => by omega, fun h v hv => ?_⟩
  have h1 := h r.lower (Or.inl ⟨Nat.le_refl _, hr⟩)
  have h2 := h r.upper (Or.inl ⟨hr, Nat.le_refl _⟩)
  have h3 := h o.lower (Or.inr ⟨Nat.le_refl _, ho⟩)
  have h4 := h o.upper (Or.inr ⟨ho, Nat.le_refl _⟩)
  omega

/-- **C36**: extending by a value. -/
theorem C36_joinVal (r : Range) (x v : Nat) (h : In r v ∨ v = x) : In (r.joinVal x) v := by
  unfold In Range.joinVal at *; simp only; omega

/-- **C36**: restricting to a value. -/
theorem C36_setVal (r : Range) (x v : Nat) : In (r.setVal x) v ↔ v = x := by
  unfold In Range.setVal; simp only; omega

/-- **C36**: inclusion answers are right in both directions. -/
theorem C36_compare (r o : Range) (hr : r.lower ≤ r.upper) (ho : o.lower ≤ o.upper) :
    ((r.compare o).1 = true ↔ ∀ v, In o v → In r v) ∧ ((r.compare o).2 = true ↔ ∀ v, In r v → In o v) := by
  unfold In Range.compare
  simp only [Bool.and_eq_true, decide_eq_true_eq]
  refine ⟨⟨fun h v hv => by omega, fun h => ?_⟩, ⟨fun h v hv => by omega, fun h => ?_⟩⟩
  · have h1 := h o.lower ⟨Nat.le_refl _, ho⟩
    have h2 := h o.upper ⟨ho, Nat.le_refl _⟩
    omega
  · have h1 := h r.lower ⟨Nat.le_refl _, hr⟩
    have h2 := h r.upper ⟨hr, Nat.le_refl _⟩
    omega

/-- **C36**: overlap. -/
theorem C36_intersects (r o : Range) (hr : r.lower ≤ r.upper) (ho : o.lower ≤ o.upper) :
    r.intersects o = true ↔ ∃ v, In r v ∧ In o v := by
  unfold In Range.intersects
  simp only [Bool.and_eq_true, decide_eq_true_eq]
  constructor
  · intro h
    exact ⟨max r.lower o.lower, by omega⟩
  · rintro ⟨v, hv⟩; omega

/-- **C36**: the size of a range that is not unbounded is the number of its values. -/
theorem C36_size (r : Range) (hr : r.lower ≤ r.upper) (hu : r.upper ≤ rmax) (hb : r.unbound = false) :
    r.size = r.upper + 1 - r.lower := by
  have h32 : (2 : Nat) ^ 32 = rmax + 1 := rfl
  unfold Range.size
  have : r.upper + 1 - r.lower < 2 ^ 32 := by
    simp [Range.unbound, Range.noLower, Range.noUpper] at hb
    by_cases h : r.lower = 0
    · have := hb h; omega
    · omega
  rw [show 1 + r.upper + 2 ^ 32 - r.lower = (r.upper + 1 - r.lower) + 2 ^ 32 by omega, Nat.add_mod_right,
    Nat.mod_eq_of_lt this]

/-- Finding: the unbounded range reports size 0. -/
theorem C36_finding_size_unbounded : Range.size {} = 0 := by decide

/-! ## Vectors -/

/-- **C36**: looking up a place. -/
theorem C36_vector_lookup (v : PRVec) (hs : Sorted v) (p : Nat) (r : Range) :
    find? v p = some r ↔ (⟨p, r⟩ : PRange) ∈ v := find?_some_iff hs

/-- **C36**: `find_or_add` and assignment change only that place and keep the order. -/
theorem C36_vector_update (v : PRVec) (hs : Sorted v) (p : Nat) (f : Range → Range) :
    Sorted (update v p f) ∧
      ∀ q, find? (update v p f) q = if q = p then some (f ((find? v p).getD {})) else find? v q :=
  ⟨update_sorted hs p f, fun q => find?_update hs p q f⟩

/-- **C36**: removing unbounded entries does not change the markings described. -/
theorem C36_vector_compact (v : PRVec) (m : Nat → Nat) (hm : ∀ p, m p ≤ rmax) :
    (Sat (compact v) m ↔ Sat v m) ∧ isCompact (compact v) = true ∧ (Sorted v → Sorted (compact v)) :=
  ⟨sat_compact hm, by simp [isCompact, compact], compact_sorted⟩

/-- **C36**: restricting by one place range is intersection. -/
theorem C36_vector_and_place (v : PRVec) (x : PRange) (m : Nat → Nat) :
    (Sat (andPlace v x) m ↔ Sat v m ∧ In x.range (m x.place)) ∧ (Sorted v → Sorted (andPlace v x)) :=
  ⟨by rw [sat_andPlace, C36_contains], fun h => andPlace_sorted h x⟩

/-- **C36**: the intersection of vectors describes the intersection. -/
theorem C36_vector_and (v o : PRVec) (m : Nat → Nat) : Sat (andVec v o) m ↔ Sat v m ∧ Sat o m := sat_andVec v o

/-- Finding: but it repeats the places both have (the iterator is not advanced), and then the result
is not recognised as equal to itself without the repetition. -/
theorem C36_finding_and_repeats :
    ¬ Sorted (andVec [⟨0, ⟨1, 5⟩⟩] [⟨0, ⟨0, 9⟩⟩]) ∧
      eq (andVec [⟨0, ⟨1, 5⟩⟩] [⟨0, ⟨0, 9⟩⟩]) [⟨0, ⟨1, 5⟩⟩] = false := by
  refine ⟨by simp [andVec, Sorted, Range.inter], by
    simp [andVec, eq, PRVec.compare, compareLoop, Range.inter, Range.compare]⟩

/-- **C36**: the inclusion test between vectors is exact in both directions. -/
theorem C36_vector_compare (v o : PRVec) (hv : Sorted v) (ho : Sorted o) (hcv : isCompact v = true)
    (hco : isCompact o = true) (hsv : Sound v) (hso : Sound o) :
    ((PRVec.compare v o).1 = true ↔ ∀ m : Nat → Nat, (∀ p, m p ≤ rmax) → Sat o m → Sat v m) ∧
    ((PRVec.compare v o).2 = true ↔ ∀ m : Nat → Nat, (∀ p, m p ≤ rmax) → Sat v m → Sat o m) := by
  obtain ⟨h1, h2⟩ := compareLoop_iff v o (true, true) hv ho
  unfold PRVec.compare
  rw [h1, h2]
  simp only [true_and]
  exact ⟨⟨fun h m _ hm => sat_of_incl h hm, incl_of_sat ho hcv hsv hso⟩,
    ⟨fun h m _ hm => sat_of_incl h hm, incl_of_sat hv hco hso hsv⟩⟩

/-- **C36**: a positive inclusion answer is right even for empty or unbounded ranges. -/
theorem C36_vector_compare_sound (v o : PRVec) (hv : Sorted v) (ho : Sorted o) (m : Nat → Nat) :
    ((PRVec.compare v o).1 = true → Sat o m → Sat v m) ∧ ((PRVec.compare v o).2 = true → Sat v m → Sat o m) := by
  obtain ⟨h1, h2⟩ := compareLoop_iff v o (true, true) hv ho
  exact ⟨fun h hm => sat_of_incl (h1.1 h).2 hm, fun h hm => sat_of_incl (h2.1 h).2 hm⟩

/-- **C36**: a transition writing only unrestricted places keeps the described set. -/
theorem C36_vector_restricts (v : PRVec) (hv : Sorted v) (writes : List Nat) (hw : writes.Pairwise (· ≤ ·)) :
    (restricts v writes = false ↔ ∀ p ∈ writes, ∀ e ∈ v, e.place = p → e.range.unbound = true) ∧
    (restricts v writes = false → ∀ m m' : Nat → Nat, (∀ p, m' p ≤ rmax) → (∀ p, p ∉ writes → m' p = m p) →
      Sat v m → Sat v m') := by
  have h := restricts_false_iff writes v hv hw
  refine ⟨h, fun hr m m' hm heq hs e he => ?_⟩
  by_cases hp : e.place ∈ writes
  · exact unbound_contains (h.1 hr _ hp e he rfl) (hm _)
  · rw [heq _ hp]; exact hs e he

/-- **C36**: `operator<` is a strict total order, so the map of predicates separates different vectors. -/
theorem C36_vector_lt (v o x : PRVec) :
    lt v v = false ∧ (lt v o = false → lt o v = false → v = o) ∧
      (lt v o = true → lt o x = true → lt v x = true) := by
  refine ⟨?_, ?_, ?_⟩
  · unfold lt
    rw [if_neg (by simp)]
    exact ltLoop_irrefl v
  · unfold lt
    intro h1 h2
    by_cases hl : v.length = o.length
    · rw [if_neg (by omega)] at h1 h2
      exact ltLoop_conn v o hl h1 h2
    · rw [if_pos hl] at h1; rw [if_pos (by omega)] at h2
      simp at h1 h2; omega
  · unfold lt
    intro h1 h2
    by_cases hl : v.length = o.length
    · rw [if_neg (by omega)] at h1
      by_cases hl' : o.length = x.length
      · rw [if_neg (by omega)] at h2
        rw [if_neg (by omega)]
        exact ltLoop_trans v o x h1 h2
      · rw [if_pos hl'] at h2
        rw [if_pos (by omega), hl]; exact h2
    · rw [if_pos hl] at h1
      by_cases hl' : o.length = x.length
      · rw [if_pos (by omega), ← hl']; exact h1
      · rw [if_pos hl'] at h2
        simp at h1 h2
        rw [if_pos (by omega)]; simp; omega
where
  ltLoop_irrefl : ∀ v : PRVec, ltLoop v v = false
    | [] => rfl
    | r :: rs => by simp [ltLoop, ltLoop_irrefl rs]
  ltLoop_conn : ∀ v o : PRVec, v.length = o.length → ltLoop v o = false → ltLoop o v = false → v = o
    | [], [], _, _, _ => rfl
    | r :: rs, s :: ss, hl, h1, h2 => by
      simp only [ltLoop] at h1 h2
      by_cases e1 : r.place = s.place
      · by_cases e2 : r.range.lower = s.range.lower
        · by_cases e3 : r.range.upper = s.range.upper
          · rw [if_neg (by simp [e1]), if_neg (by simp [e2]), if_neg (by simp [e3])] at h1
            rw [if_neg (by simp [e1]), if_neg (by simp [e2]), if_neg (by simp [e3])] at h2
            have hl' : rs.length = ss.length := by simpa using hl
            rw [ltLoop_conn rs ss hl' h1 h2]
            rcases r with ⟨_, _, _⟩; rcases s with ⟨_, _, _⟩
            simp at e1 e2 e3; simp [e1, e2, e3]
          · rw [if_neg (by simp [e1]), if_neg (by simp [e2]), if_pos (by simp [e3])] at h1
            rw [if_neg (by simp [e1]), if_neg (by simp [e2]), if_pos (by simp [Ne.symm e3])] at h2
            simp at h1 h2; omega
        · rw [if_neg (by simp [e1]), if_pos e2] at h1
          rw [if_neg (by simp [e1]), if_pos (Ne.symm e2)] at h2
          simp at h1 h2; omega
      · rw [if_pos e1] at h1; rw [if_pos (Ne.symm e1)] at h2
        simp at h1 h2; omega
  ltLoop_trans : ∀ v o x : PRVec, ltLoop v o = true → ltLoop o x = true → ltLoop v x = true
    | [], _, _, h1, _ => by simp [ltLoop] at h1
    | _ :: _, [], _, h1, _ => by simp [ltLoop] at h1
    | _ :: _, _ :: _, [], _, h2 => by simp [ltLoop] at h2
    | a :: as, b :: bs, c :: cs, h1, h2 => by
      have ih := ltLoop_trans as bs cs
      simp only [ltLoop] at h1 h2 ⊢
      split at h1
      · simp at h1
        split at h2
        · simp at h2; rw [if_pos (by omega)]; simp; omega
        · rw [if_pos (by omega)]; simp; omega
      · split at h2
        · simp at h2; rw [if_pos (by omega)]; simp; omega
        · rw [if_neg (by omega)]
          split at h1
          · simp at h1
            split at h2
            · simp at h2; rw [if_pos (by omega)]; simp; omega
            · rw [if_pos (by omega)]; simp; omega
          · split at h2
            · simp at h2; rw [if_pos (by omega)]; simp; omega
            · rw [if_neg (by omega)]
              split at h1
              · simp at h1
                split at h2
                · simp at h2; rw [if_pos (by omega)]; simp; omega
                · rw [if_pos (by omega)]; simp; omega
              · split at h2
                · simp at h2; rw [if_pos (by omega)]; simp; omega
                · rw [if_neg (by omega)]; exact ih h1 h2

/-- The vectors of the engine: not trivial. -/
example : ∃ v o : PRVec, Sorted v ∧ Sorted o ∧ isCompact v = true ∧ isCompact o = true ∧ Sound v ∧ Sound o ∧
    PRVec.compare v o = (true, false) := by
  refine ⟨[⟨1, ⟨2, rmax⟩⟩], [⟨0, ⟨0, 4⟩⟩, ⟨1, ⟨3, 7⟩⟩], by simp [Sorted], by simp [Sorted], by decide, by decide,
    by simp [Sound, rmax], by simp [Sound, rmax], ?_⟩
  simp [PRVec.compare, compareLoop, Range.compare, rmax]

end RangeProps
end Verif
