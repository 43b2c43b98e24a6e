import Verif.CFP.IntervalOps
import Mathlib.Data.List.Nodup
import Mathlib.Data.List.Perm.Subperm

/-!
# Counting the values of a list of boxes
-/

namespace Verif
namespace CFP

open CPN

/-- The values of a box. -/
def Interval.vals : Interval → List Val
  | [] => [[]]
  | r :: i => (List.range' r.lo (1 + r.hi - r.lo)).flatMap fun a => (Interval.vals i).map (a :: ·)

theorem mem_vals (i : Interval) (x : Val) : x ∈ i.vals ↔ Interval.Has i x := by
  induction i generalizing x with
  | nil =>
    cases x with
    | nil => simp [Interval.vals, Interval.Has]
    | cons => simp [Interval.vals, Interval.Has]
  | cons r i ih =>
    unfold Interval.vals
    rw [List.mem_flatMap]
    cases x with
    | nil => simp [Interval.Has]
    | cons a x =>
      constructor
      · rintro ⟨b, hb, hx⟩
        obtain ⟨y, hy, e⟩ := List.mem_map.1 hx
        cases e
        have := List.mem_range'_1.1 hb
        exact ⟨by omega, (ih x).1 hy⟩
      · rintro ⟨h1, h2⟩
        exact ⟨a, List.mem_range'_1.2 (by omega), List.mem_map.2 ⟨x, (ih x).2 h2, rfl⟩⟩

theorem nodup_vals (i : Interval) : i.vals.Nodup := by
  induction i with
  | nil => simp [Interval.vals]
  | cons r i ih =>
    unfold Interval.vals
    rw [List.nodup_flatMap]
    constructor
    · intro a _
      exact ih.map fun x y h => (List.cons.inj h).2
    · refine (List.nodup_range' (s := r.lo) (n := 1 + r.hi - r.lo)).imp ?_
      intro a b hab x hx hy
      obtain ⟨y, _, rfl⟩ := List.mem_map.1 hx
      obtain ⟨z, _, e⟩ := List.mem_map.1 hy
      exact hab (List.cons.inj e).1.symm

/-- the number of values of a box, without overflow -/
def Interval.card (i : Interval) : Nat := (i.map fun r => 1 + r.hi - r.lo).prod

theorem length_vals (i : Interval) : i.vals.length = i.card := by
  induction i with
  | nil => rfl
  | cons r i ih =>
    have hc : Interval.card (r :: i) = (1 + r.hi - r.lo) * Interval.card i := rfl
    unfold Interval.vals
    rw [List.length_flatMap, hc, ← ih]
    simp [List.map_const']

/-- The numbers of values of the boxes added up, without overflow. -/
def IVec.total (v : IVec) : Nat := (v.map Interval.card).sum

def IVec.vals (v : IVec) : List Val := v.flatMap Interval.vals

theorem mem_ivals (v : IVec) (x : Val) : x ∈ v.vals ↔ IVec.Has v x := by
  unfold IVec.vals IVec.Has
  rw [List.mem_flatMap]
  simp only [mem_vals]

theorem length_ivals (v : IVec) : v.vals.length = v.total := by
  unfold IVec.vals IVec.total
  rw [List.length_flatMap]
  simp only [length_vals]

theorem sum_mod (l : List Nat) (n : Nat) : (l.map (· % n)).sum % n = l.sum % n := by
  induction l with
  | nil => rfl
  | cons a l ih =>
    rw [List.map_cons, List.sum_cons, List.sum_cons, Nat.add_mod, ih, Nat.mod_mod, ← Nat.add_mod]

/-- `getContainedColors` is the total, modulo 2^32. -/
theorem count_eq (v : IVec) : v.count = v.total % W32 := by
  unfold IVec.count IVec.total
  rw [← sum_mod (v.map Interval.card), List.map_map]
  rfl

/-- No two boxes have a value in common. -/
def IVec.Disjoint (v : IVec) : Prop := v.Pairwise fun i j => ∀ x, ¬ (Interval.Has i x ∧ Interval.Has j x)

theorem nodup_ivals {v : IVec} (h : v.Disjoint) : v.vals.Nodup := by
  unfold IVec.vals
  rw [List.nodup_flatMap]
  refine ⟨fun i _ => nodup_vals i, h.imp ?_⟩
  intro i j hij x hx hy
  exact hij x ⟨(mem_vals i x).1 hx, (mem_vals j x).1 hy⟩

/-- If the boxes of `v` are disjoint and the count does not grow, then nothing new is covered. -/
theorem grow_none {v w : IVec} (hd : v.Disjoint) (hv : v.total < W32) (hw : w.total < W32) (hsub : ∀ x, IVec.Has v x → IVec.Has w x)
    (hc : ¬ w.count > v.count) {x : Val} (hx : IVec.Has w x) : IVec.Has v x := by
  rw [count_eq, count_eq, Nat.mod_eq_of_lt hv, Nat.mod_eq_of_lt hw, ← length_ivals, ← length_ivals] at hc
  have h1 : v.vals.Subperm w.vals :=
    (nodup_ivals hd).subperm fun y hy => (mem_ivals w y).2 (hsub y ((mem_ivals v y).1 hy))
  have h2 := h1.perm_of_length_le (by omega)
  exact (mem_ivals v x).1 (h2.mem_iff.2 ((mem_ivals w x).2 hx))

/-- the boxes are disjoint (decided) -/
def IVec.disjointB : IVec → Bool
  | [] => true
  | i :: v => v.all (fun j => !(i.sound && j.sound && i.meets j)) && IVec.disjointB v

theorem IVec.disjointB_spec {v : IVec} (h : v.disjointB = true) : v.Disjoint := by
  induction v with
  | nil => exact List.Pairwise.nil
  | cons i v ih =>
    unfold IVec.disjointB at h
    rw [Bool.and_eq_true, List.all_eq_true] at h
    refine List.pairwise_cons.2 ⟨fun j hj x hx => ?_, ih h.2⟩
    have := h.1 j hj
    rw [hx.1.sound, hx.2.sound, Interval.meets_of hx.1 hx.2] at this
    cases this

end CFP
end Verif
