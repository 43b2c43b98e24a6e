import Verif.CRed.VarMs
import Verif.CPN.Shares
import Verif.CPN.BindingLemmas

/-!
# The weight of an expression without subtractions is the number of its tokens
-/

namespace Verif
namespace CRed
open CPN

mutual
/-- the expression has no subtraction -/
def noSub : ArcE → Bool
  | .num _ _ => true
  | .add as => noSubs as
  | .sub _ _ => false
  | .scal _ a => noSub a
def noSubs : List ArcE → Bool
  | [] => true
  | a :: as => noSub a && noSubs as
end

theorem sum_mul {α : Type} (xs : List α) (k : Nat) (f : α → Nat) : (xs.map fun x => k * f x).sum = k * (xs.map f).sum := by
  induction xs with
  | nil => simp
  | cons x xs ih => rw [List.map_cons, List.sum_cons, List.map_cons, List.sum_cons, ih, Nat.mul_add]

theorem sum_add' {α : Type} (xs : List α) (f g : α → Nat) : (xs.map fun x => f x + g x).sum = (xs.map f).sum + (xs.map g).sum := by
  induction xs with
  | nil => rfl
  | cons x xs ih => simp only [List.map_cons, List.sum_cons, ih]; omega

theorem sum_one {xs : List Val} (hx : xs.Nodup) {y : Val} (hy : y ∈ xs) : (xs.map fun x => if x = y then 1 else 0).sum = 1 := by
  induction xs with
  | nil => cases hy
  | cons x xs ih =>
    rw [List.nodup_cons] at hx
    rw [List.map_cons, List.sum_cons]
    by_cases h : x = y
    · subst h
      rw [if_pos rfl]
      have : (xs.map fun z => if z = x then 1 else 0).sum = 0 := List.sum_eq_zero_iff_forall_eq_nat.2 fun k hk => by
        obtain ⟨z, hz, rfl⟩ := List.mem_map.1 hk
        have : z ≠ x := fun e => hx.1 (by rw [← e]; exact hz)
        exact if_neg this
      omega
    · rw [if_neg h, ih hx.2 ((List.mem_cons.1 hy).resolve_left (Ne.symm h))]

theorem sum_count {xs : List Val} (hx : xs.Nodup) (l : List Val) (hl : ∀ y ∈ l, y ∈ xs) : (xs.map fun x => l.count x).sum = l.length := by
  induction l with
  | nil =>
    refine List.sum_eq_zero_iff_forall_eq_nat.2 fun k hk => ?_
    obtain ⟨z, hz, rfl⟩ := List.mem_map.1 hk
    rfl
  | cons y l ih =>
    have h3 : (xs.map fun x => (y :: l).count x) = xs.map fun x => (if x = y then 1 else 0) + l.count x := by
      refine List.map_congr_left fun x _ => ?_
      rw [List.count_cons]
      by_cases h : x = y
      · subst h; simp; omega
      · rw [if_neg h, if_neg (by simpa using fun e => h e.symm)]; omega
    rw [h3, sum_add', sum_one hx (hl y List.mem_cons_self), ih fun z hz => hl z (List.mem_cons_of_mem _ hz), List.length_cons]
    omega

variable {T : Types} {vty : Nat → Nat}

mutual
theorem weight_sum (w : T.WF) {b : Binding} {ρ : Nat → Val} {ty : Nat} : (e : ArcE) → ArcTy T vty ty e → noSub e = true → e.bound < W32 →
    Agree T vty b ρ e.vars → ((T.values ty).map (tokens T vty ρ e)).sum = e.bound ∧ arcWeight e = e.bound
  | .num n es, h, _, hb, ha => by
    rw [ArcTy] at h
    rw [ArcE.vars] at ha
    rw [ArcE.bound] at hb ⊢
    obtain ⟨ids, h1, h2, h3⟩ := evalL_map w es h.2 ha
    refine ⟨?_, by rw [arcWeight, Nat.mod_eq_of_lt hb]⟩
    rw [tokens, sum_mul, sum_count (values_nodup T ty) _ (fun y hy => ?_), List.length_map]
    rw [h3] at hy
    obtain ⟨i, hi, rfl⟩ := List.mem_map.1 hy
    exact (mem_values T).2 ⟨i, h2 i hi, rfl⟩
  | .add as, h, hs, hb, ha => by
    rw [ArcTy] at h
    rw [ArcE.vars] at ha
    rw [noSub] at hs
    rw [ArcE.bound] at hb ⊢
    rw [tokens, arcWeight]
    exact weight_sums w as h hs hb ha
  | .sub a c, _, hs, _, _ => by rw [noSub] at hs; cases hs
  | .scal k a, h, hs, hb, ha => by
    rw [ArcTy] at h
    rw [ArcE.vars] at ha
    rw [noSub] at hs
    rw [ArcE.bound] at hb ⊢
    rw [tokens, arcWeight, sum_mul]
    by_cases hk : k = 0
    · subst hk
      simp
    · have := Nat.le_mul_of_pos_left a.bound (Nat.pos_of_ne_zero hk)
      obtain ⟨h1, h2⟩ := weight_sum w a h hs (by omega) ha
      rw [h1, h2, Nat.mod_eq_of_lt hb]
      exact ⟨rfl, rfl⟩
theorem weight_sums (w : T.WF) {b : Binding} {ρ : Nat → Val} {ty : Nat} : (es : List ArcE) → ArcTys T vty ty es → noSubs es = true → ArcE.boundL es < W32 →
    Agree T vty b ρ (ArcE.varsL es) → ((T.values ty).map (tokensL T vty ρ es)).sum = ArcE.boundL es ∧ arcWeights es = ArcE.boundL es
  | [], _, _, _, _ => by
    rw [tokensL, ArcE.boundL, arcWeights]
    refine ⟨List.sum_eq_zero_iff_forall_eq_nat.2 fun k hk => ?_, rfl⟩
    obtain ⟨z, hz, rfl⟩ := List.mem_map.1 hk
    rfl
  | e :: es, h, hs, hb, ha => by
    rw [ArcTys] at h
    rw [ArcE.varsL] at ha
    rw [noSubs, Bool.and_eq_true] at hs
    rw [ArcE.boundL] at hb ⊢
    obtain ⟨h1, h2⟩ := weight_sum w e h.1 hs.1 (by omega) (ha.mono fun v hv => List.mem_append_left _ hv)
    obtain ⟨h3, h4⟩ := weight_sums w es h.2 hs.2 (by omega) (ha.mono fun v hv => List.mem_append_right _ hv)
    rw [tokensL, sum_add', h1, h3, arcWeights, h2, h4, Nat.mod_eq_of_lt hb]
    exact ⟨rfl, rfl⟩
end

end CRed
end Verif
