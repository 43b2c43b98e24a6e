import Mathlib.Data.Set.Finite.Basic
import Mathlib.Data.Set.Finite.Lattice
import Verif.LTL.Lasso

/-!
# Accepting runs and accepting cycles
-/

namespace Verif
namespace LTL
open Relation
variable {V : Type} {E : V → V → Prop}

/-- Specification: an infinite run from `v` that visits accepting states again and again. -/
def AccRun (E : V → V → Prop) (acc : V → Bool) (v : V) : Prop :=
  ∃ r : Nat → V, r 0 = v ∧ (∀ n, E (r n) (r (n + 1))) ∧ ∀ n, ∃ k, n ≤ k ∧ acc (r k) = true

/-- Specification: an accepting state that can be reached from an initial state and lies on a cycle (within the
states that can be stored). -/
def PGraph.AccCycle (G : PGraph V) (E : V → V → Prop) (I : V → Prop) : Prop :=
  ∃ i a, I i ∧ G.bnd i = true ∧ ReflTransGen (G.B E) i a ∧ G.acc a = true ∧ TransGen (G.B E) a a

theorem rtg_fun {i a : V} (h : ReflTransGen E i a) :
    ∃ (n : Nat) (f : Nat → V), f 0 = i ∧ f n = a ∧ ∀ k, k < n → E (f k) (f (k + 1)) := by
  induction h with
  | refl => exact ⟨0, fun _ => i, rfl, rfl, fun k hk => by omega⟩
  | @tail b c _ hbc ih =>
    obtain ⟨n, f, h0, hn, hf⟩ := ih
    refine ⟨n + 1, fun k => if k ≤ n then f k else c, by simp [h0], by simp, ?_⟩
    intro k hk
    by_cases h1 : k + 1 ≤ n
    · simp only [h1, show k ≤ n by omega, if_true]
      exact hf k (by omega)
    · have : k = n := by omega
      subst this
      simp only [Nat.le_refl, if_true, show ¬ k + 1 ≤ k by omega, if_false]
      rw [hn]; exact hbc

theorem fun_rtg {r : Nat → V} (h : ∀ n, E (r n) (r (n + 1))) (n m : Nat) : ReflTransGen E (r n) (r (n + m)) := by
  induction m with
  | zero => exact .refl
  | succ m ih => exact ih.tail (h (n + m))

theorem fun_tg {r : Nat → V} (h : ∀ n, E (r n) (r (n + 1))) {n m : Nat} (hm : n < m) : TransGen E (r n) (r m) := by
  have h1 := fun_rtg h (n + 1) (m - (n + 1))
  rw [show n + 1 + (m - (n + 1)) = m by omega] at h1
  exact TransGen.head' (h n) h1

theorem AccRun.head {acc : V → Bool} {v w : V} (h : E v w) (hw : AccRun E acc w) : AccRun E acc v := by
  obtain ⟨r, h0, hE, hacc⟩ := hw
  refine ⟨fun n => match n with | 0 => v | n + 1 => r n, rfl, ?_, ?_⟩
  · intro n
    cases n with
    | zero => show E v (r 0); rw [h0]; exact h
    | succ n => exact hE n
  · intro n
    obtain ⟨k, hk, ha⟩ := hacc n
    exact ⟨k + 1, by omega, ha⟩

theorem AccRun.stem {acc : V → Bool} {v w : V} (h : ReflTransGen E v w) (hw : AccRun E acc w) : AccRun E acc v := by
  induction h using ReflTransGen.head_induction_on with
  | refl => exact hw
  | head h1 _ ih => exact ih.head h1

/-- Going round a cycle through an accepting state. -/
theorem AccRun.cycle {acc : V → Bool} {a : V} (ha : acc a = true) (h : TransGen E a a) : AccRun E acc a := by
  obtain ⟨b, hab, hba⟩ := TransGen.head'_iff.1 h
  obtain ⟨n, f, h0, hn, hf⟩ := rtg_fun hba
  -- the cycle has `n + 1` edges
  let g : Nat → V := fun k => if k = 0 then a else f (k - 1)
  have hg : ∀ k, k < n + 1 → E (g k) (if k + 1 = n + 1 then a else g (k + 1)) := by
    intro k hk
    by_cases hk0 : k = 0
    · subst hk0
      by_cases hn0 : n = 0
      · subst hn0
        simp only [g, if_true]
        have hba' : b = a := by rw [← h0, hn]
        rw [hba'] at hab
        exact hab
      · simp only [g, if_true]
        rw [if_neg (by omega), if_neg (by omega)]
        simpa [h0] using hab
    · have := hf (k - 1) (by omega)
      rw [show k - 1 + 1 = k by omega] at this
      by_cases he : k + 1 = n + 1
      · rw [if_pos he]
        have hkn : k = n := by omega
        rw [hkn, hn] at this
        simp only [g, hk0, if_false]
        rw [hkn]; exact this
      · rw [if_neg he]
        simp only [g, hk0, if_false, show ¬ k + 1 = 0 by omega, Nat.add_sub_cancel]
        exact this
  refine ⟨fun k => g (k % (n + 1)), by simp [g], ?_, ?_⟩
  · intro k
    have := hg (k % (n + 1)) (Nat.mod_lt _ (by omega))
    show E (g (k % (n + 1))) (g ((k + 1) % (n + 1)))
    rw [Nat.add_mod_eq_ite]
    by_cases hn1 : n = 0
    · subst hn1
      simp only [Nat.zero_add, Nat.mod_one] at this ⊢
      simpa [g] using this
    · rw [Nat.mod_eq_of_lt (show 1 < n + 1 by omega)]
      by_cases he : k % (n + 1) + 1 = n + 1
      · rw [if_pos he] at this
        rw [if_pos (by omega), he, Nat.sub_self]
        simpa [g] using this
      · rw [if_neg he] at this
        have := Nat.mod_lt k (show 0 < n + 1 by omega)
        rw [if_neg (by omega)]
        assumption
  · intro k
    refine ⟨k * (n + 1), Nat.le_mul_of_pos_right _ (by omega), ?_⟩
    show acc (g (k * (n + 1) % (n + 1))) = true
    rw [Nat.mul_mod_left]
    simpa [g] using ha

/-- In a finite graph every accepting run contains an accepting cycle. -/
theorem AccRun.toCycle {acc : V → Bool} {v : V} (h : AccRun E acc v) {R : List V}
    (hR : ∀ w, ReflTransGen E v w → w ∈ R) :
    ∃ a, ReflTransGen E v a ∧ acc a = true ∧ TransGen E a a := by
  obtain ⟨r, h0, hE, hacc⟩ := h
  have hreach : ∀ n, ReflTransGen E v (r n) := fun n => by
    have := fun_rtg hE 0 n
    rwa [h0, Nat.zero_add] at this
  have hinf : {k | acc (r k) = true}.Infinite := by
    intro hf
    obtain ⟨b, hb⟩ := hf.bddAbove
    obtain ⟨k, hk, ha⟩ := hacc (b + 1)
    have := hb (show k ∈ {k | acc (r k) = true} from ha)
    omega
  obtain ⟨x, hx, y, hy, hne, he⟩ := hinf.exists_ne_map_eq_of_mapsTo (f := r) (t := {w | w ∈ R})
    (fun k _ => hR _ (hreach k)) (List.finite_toSet R)
  rcases Nat.lt_or_gt_of_ne hne with hlt | hlt
  · refine ⟨r x, hreach x, hx, ?_⟩
    have := fun_tg hE hlt
    rwa [← he] at this
  · refine ⟨r x, hreach x, hx, ?_⟩
    have := fun_tg hE hlt
    rwa [← he] at this

end LTL
end Verif
