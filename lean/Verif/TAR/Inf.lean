import Verif.TAR.RangeLemmas
import Verif.TAR.Search
import Mathlib.Data.List.Perm.Subperm

/-! # Ranges as sets of numbers of tokens, the largest bound meaning none -/

namespace Verif
namespace TAR

/-- The numbers in a range, `rmax` being no upper bound. -/
def Range.Has (r : Range) (n : Nat) : Prop := r.lower ≤ n ∧ (r.upper = rmax ∨ n ≤ r.upper)

namespace PRVec

/-- The range of a place. -/
def rng (v : PRVec) (p : Nat) : Range := (find? v p).getD {}

/-- The markings described by a vector. -/
def SatI (v : PRVec) (m : Nat → Nat) : Prop := ∀ p, (rng v p).Has (m p)

/-- Sorted, over the first `n` places, with 32-bit bounds. -/
structure Good (n : Nat) (v : PRVec) : Prop where
  sorted : Sorted v
  lt : ∀ e ∈ v, e.place < n
  le : ∀ e ∈ v, e.range.upper ≤ rmax

theorem good_nil (n : Nat) : Good n [] := ⟨List.Pairwise.nil, by simp, by simp⟩

theorem rng_nil (p : Nat) : rng [] p = {} := rfl

theorem has_default (n : Nat) : Range.Has {} n := ⟨Nat.zero_le _, Or.inl rfl⟩

theorem satI_nil (m : Nat → Nat) : SatI [] m := fun _ => has_default _

theorem lower_eq (v : PRVec) (p : Nat) : v.lower p = (rng v p).lower := by
  unfold lower rng; cases find? v p <;> rfl

theorem upper_eq (v : PRVec) (p : Nat) : v.upper p = (rng v p).upper := by
  unfold upper rng; cases find? v p <;> rfl

theorem unboundAt_eq (v : PRVec) (p : Nat) : v.unboundAt p = (rng v p).unbound := by
  unfold unboundAt rng; cases find? v p <;> rfl

theorem unbound_iff {r : Range} : r.unbound = true ↔ r = {} := by
  cases r with
  | mk l u => simp [Range.unbound, Range.noLower, Range.noUpper]

theorem rng_update {v : PRVec} (hs : Sorted v) (p q : Nat) (f : Range → Range) :
    rng (v.update p f) q = if q = p then f (rng v p) else rng v q := by
  unfold rng
  rw [find?_update hs]
  split <;> rfl

theorem rng_compact {v : PRVec} (hs : Sorted v) (p : Nat) : rng v.compact p = rng v p := by
  unfold rng
  rw [find?_compact hs]
  cases h : find? v p with
  | none => rfl
  | some r =>
    simp only [Option.getD_some]
    by_cases hu : r.unbound = true
    · rw [if_pos hu]; exact (unbound_iff.1 hu).symm
    · rw [if_neg hu]; rfl

theorem mem_of_rng {v : PRVec} (hs : Sorted v) {p : Nat} (h : rng v p ≠ {}) : (⟨p, rng v p⟩ : PRange) ∈ v := by
  unfold rng at h ⊢
  cases hf : find? v p with
  | none => rw [hf] at h; exact (h rfl).elim
  | some r => exact (find?_some_iff hs).1 hf

theorem rng_of_mem {v : PRVec} (hs : Sorted v) {e : PRange} (h : e ∈ v) : rng v e.place = e.range := by
  unfold rng
  rw [(find?_some_iff hs).2 (show (⟨e.place, e.range⟩ : PRange) ∈ v from h)]; rfl

theorem rng_le {n : Nat} {v : PRVec} (g : Good n v) (p : Nat) : (rng v p).upper ≤ rmax := by
  by_cases h : rng v p = {}
  · rw [h]
  · exact g.le _ (mem_of_rng g.sorted h)

theorem rng_ge {n : Nat} {v : PRVec} (g : Good n v) {p : Nat} (h : n ≤ p) : rng v p = {} := by
  by_cases h' : rng v p = {}
  · exact h'
  · exact absurd (g.lt _ (mem_of_rng g.sorted h')) (by simpa using h)

theorem mem_update_range {v : PRVec} (hs : Sorted v) {p : Nat} {f : Range → Range} {x : PRange} (h : x ∈ update v p f) :
    x ∈ v ∨ (x.place = p ∧ x.range = f (rng v p)) := by
  have hr := rng_of_mem (update_sorted hs p f) h
  rw [rng_update hs] at hr
  rcases mem_update h with h' | h'
  · exact Or.inl h'
  · rw [if_pos h'] at hr; exact Or.inr ⟨h', hr.symm⟩

theorem good_update {n : Nat} {v : PRVec} (g : Good n v) {p : Nat} {f : Range → Range} (hp : p < n)
    (hf : (f (rng v p)).upper ≤ rmax) : Good n (v.update p f) := by
  refine ⟨update_sorted g.sorted p f, ?_, ?_⟩
  · intro e he
    rcases mem_update he with h | h
    · exact g.lt e h
    · omega
  · intro e he
    rcases mem_update_range g.sorted he with h | h
    · exact g.le e h
    · rw [h.2]; exact hf

theorem good_compact {n : Nat} {v : PRVec} (g : Good n v) : Good n v.compact :=
  ⟨compact_sorted g.sorted, fun e he => g.lt e (List.mem_of_mem_filter he), fun e he => g.le e (List.mem_of_mem_filter he)⟩

theorem isCompact_compact (v : PRVec) : v.compact.isCompact = true := by
  unfold isCompact compact
  rw [List.all_eq_true]
  intro e he
  exact (List.mem_filter.1 he).2

theorem compact_eq_self {v : PRVec} (h : v.isCompact = true) : v.compact = v := by
  unfold compact
  rw [List.filter_eq_self]
  intro e he
  exact (List.all_eq_true.1 h) e he

theorem satI_compact {v : PRVec} (hs : Sorted v) {m : Nat → Nat} : SatI v.compact m ↔ SatI v m := by
  unfold SatI
  simp only [rng_compact hs]

theorem has_inter {r o : Range} {n : Nat} (hr : r.upper ≤ rmax) (ho : o.upper ≤ rmax) :
    (r.inter o).Has n ↔ r.Has n ∧ o.Has n := by
  unfold Range.Has Range.inter
  simp only
  constructor
  · rintro ⟨h1, h2⟩
    refine ⟨⟨by omega, ?_⟩, ⟨by omega, ?_⟩⟩ <;> omega
  · rintro ⟨⟨h1, h2⟩, h3, h4⟩
    refine ⟨by omega, ?_⟩
    omega

theorem rng_andPlace {n : Nat} {v : PRVec} (g : Good n v) {x : PRange} (hx : x.range.upper ≤ rmax) (q : Nat) :
    rng (v.andPlace x) q = if q = x.place then (rng v q).inter x.range else rng v q := by
  have key : ∀ w : PRVec, Sorted w → find? (w.andPlace x) q =
      if q = x.place then (match find? w q with | none => some x.range | some r => some (r.inter x.range))
      else find? w q := by
    intro w
    induction w with
    | nil =>
      intro _
      simp only [andPlace, find?]
      by_cases h : q = x.place
      · rw [if_pos h]; simp [h]
      · rw [if_neg h]
        by_cases h1 : x.place < q
        · simp [h1]
        · have : ¬ x.place = q := fun h' => h h'.symm
          simp [h1, this]
    | cons e es ih =>
      intro hw
      obtain ⟨h1, h2⟩ := sorted_cons.1 hw
      simp only [andPlace]
      by_cases hl : e.place < x.place
      · rw [if_pos hl]
        simp only [find?]
        by_cases h3 : e.place < q
        · simp only [h3, if_true]; exact ih h2
        · simp only [h3, if_false]
          have : ¬ q = x.place := by omega
          simp only [this, if_false]
      · rw [if_neg hl]
        by_cases he : e.place = x.place
        · rw [if_pos he]
          simp only [find?]
          by_cases h3 : e.place < q
          · have : ¬ q = x.place := by omega
            simp [h3, this]
          · by_cases h4 : e.place = q
            · have : q = x.place := by omega
              simp [h4, this]
            · have : ¬ q = x.place := by omega
              simp [h3, h4, this]
        · rw [if_neg he]
          simp only [find?]
          by_cases h3 : x.place < q
          · have : ¬ q = x.place := by omega
            simp [h3, this]
          · by_cases h4 : x.place = q
            · have h5 : ¬ e.place < q := by omega
              have h6 : ¬ e.place = q := by omega
              simp [h4.symm, hl, he]
            · have h5 : ¬ e.place < q := by omega
              have h6 : ¬ e.place = q := by omega
              have h7 : ¬ q = x.place := by omega
              simp [h5, h6, h7, h3, h4]
  unfold rng
  rw [key v g.sorted]
  by_cases h : q = x.place
  · rw [if_pos h, if_pos h]
    cases hf : find? v q with
    | none =>
      simp only [Option.getD_some, Option.getD_none, Range.inter]
      cases hr : x.range with
      | mk l u => rw [hr] at hx; simp only [Nat.zero_max]; rw [Nat.min_eq_right hx]
    | some r => rfl
  · rw [if_neg h, if_neg h]

theorem good_andPlace {n : Nat} {v : PRVec} (g : Good n v) {x : PRange} (hp : x.place < n) (hx : x.range.upper ≤ rmax) :
    Good n (v.andPlace x) := by
  refine ⟨andPlace_sorted g.sorted x, ?_, ?_⟩
  · intro e he
    rcases mem_andPlace he with h | h
    · exact g.lt e h
    · omega
  · intro e he
    have := rng_of_mem (andPlace_sorted g.sorted x) he
    rw [← this, rng_andPlace g hx]
    split
    · simp only [Range.inter]; omega
    · exact rng_le g _

/-- An unrestricted vector is satisfied by everything. -/
theorem satI_of_compact_nil {v : PRVec} (hs : Sorted v) (h : v.compact.isTrue = true) (m : Nat → Nat) : SatI v m := by
  rw [← satI_compact hs]
  have : v.compact = [] := by simpa [isTrue] using h
  rw [this]; exact satI_nil m

theorem satI_congr {v w : PRVec} (h : ∀ p, rng v p = rng w p) {m : Nat → Nat} (hm : SatI v m) : SatI w m :=
  fun p => h p ▸ hm p

/-- `v` restricts every place at least as much as `w`. -/
def Ref (v w : PRVec) : Prop := ∀ p, (rng w p).lower ≤ (rng v p).lower ∧ (rng v p).upper ≤ (rng w p).upper

theorem Ref.refl (v : PRVec) : Ref v v := fun _ => ⟨Nat.le_refl _, Nat.le_refl _⟩
theorem Ref.trans {u v w : PRVec} (h : Ref u v) (h' : Ref v w) : Ref u w :=
  fun p => ⟨Nat.le_trans (h' p).1 (h p).1, Nat.le_trans (h p).2 (h' p).2⟩

theorem Ref.sat {n : Nat} {v w : PRVec} (h : Ref v w) (gw : Good n w) {m : Nat → Nat} (hm : SatI v m) : SatI w m := by
  intro p
  have h1 := h p
  have h2 := hm p
  have h3 := rng_le gw p
  unfold Range.Has at h2 ⊢
  refine ⟨by omega, ?_⟩
  omega

/-- Some place has an upper bound. -/
def FinU (v : PRVec) : Prop := ∃ p, (rng v p).upper < rmax

theorem Ref.finU {v w : PRVec} (h : Ref v w) (hw : FinU w) : FinU v := by
  obtain ⟨p, hp⟩ := hw
  exact ⟨p, Nat.lt_of_le_of_lt (h p).2 hp⟩

theorem Ref.compact {v w : PRVec} (hv : Sorted v) (h : Ref v w) : Ref v.compact w := by
  intro p; rw [rng_compact hv]; exact h p

theorem ref_andPlace {n : Nat} {v : PRVec} (g : Good n v) {x : PRange} (hx : x.range.upper ≤ rmax) :
    Ref (v.andPlace x) v := by
  intro p
  rw [rng_andPlace g hx]
  split
  · simp only [Range.inter]; omega
  · omega

theorem finU_not_true {v : PRVec} (hs : Sorted v) (h : FinU v) : v.compact.isTrue = false := by
  cases hc : v.compact.isTrue with
  | false => rfl
  | true =>
    obtain ⟨p, hp⟩ := h
    have : v.compact = [] := by simpa [isTrue] using hc
    rw [← rng_compact hs, this] at hp
    exact absurd hp (Nat.lt_irrefl rmax)

/-- The "false" vector describes the empty marking only. -/
theorem satI_isFalse {n : Nat} {v : PRVec} (g : Good n v) (h : v.isFalse n = true) {m : Nat → Nat} (hm : SatI v m) :
    ∀ p < n, m p = 0 := by
  simp only [isFalse, Bool.and_eq_true, beq_iff_eq, List.all_eq_true] at h
  obtain ⟨hlen, hall⟩ := h
  intro p hp
  have hnd : (v.map (·.place)).Nodup := by
    rw [List.nodup_iff_pairwise_ne, List.pairwise_map]
    exact g.sorted.imp (fun hab => by omega)
  have hsub : (v.map (·.place)) ⊆ List.range n := by
    intro q hq
    obtain ⟨e, he, rfl⟩ := List.mem_map.1 hq
    exact List.mem_range.2 (g.lt e he)
  have hperm : (v.map (·.place)).Perm (List.range n) :=
    (List.subperm_of_subset hnd hsub).perm_of_length_le (by simp [hlen])
  have hmem : p ∈ v.map (·.place) := hperm.mem_iff.2 (List.mem_range.2 hp)
  obtain ⟨e, he, hep⟩ := List.mem_map.1 hmem
  have h1 := hm p
  rw [← hep, rng_of_mem g.sorted he] at h1
  have h2 := hall e he
  unfold Range.Has at h1
  rw [h2.2] at h1
  rcases h1.2 with h | h
  · exact absurd h (by decide)
  · rw [← hep]; omega

end PRVec
end TAR
end Verif
