import Verif.Spec.Coloured
import Verif.CPN.Eval

/-!
# Numbering of tuples
-/

namespace Verif
namespace CPN

def dec : List Nat → Nat → Val
  | [], _ => []
  | n :: ns, k => k % n :: dec ns (k / n)

def enc : List Nat → Val → Nat
  | n :: ns, i :: v => i + n * enc ns v
  | _, _ => 0

theorem flatten_rows {α} (n P : Nat) (f : Nat → Nat → α) :
    ((List.range P).map fun q => (List.range n).map fun i => f i q).flatten =
      (List.range (n * P)).map fun k => f (k % n) (k / n) := by
  induction P with
  | zero => simp
  | succ P ih =>
    rw [List.range_succ, List.map_append, List.flatten_append, ih, Nat.mul_succ, List.range_add, List.map_append]
    congr 1
    simp only [List.map_cons, List.map_nil, List.flatten_cons, List.flatten_nil, List.append_nil, List.map_map]
    apply List.map_congr_left
    intro i hi
    have hi' := List.mem_range.1 hi
    simp only [Function.comp_apply]
    rw [Nat.mul_add_mod, Nat.mod_eq_of_lt hi', Nat.mul_add_div (by omega), Nat.div_eq_of_lt hi', Nat.add_zero]

theorem box_eq (ns : List Nat) : box ns = (List.range ns.prod).map (dec ns) := by
  induction ns with
  | nil => rfl
  | cons n ns ih =>
    rw [box, ih, List.map_map, List.prod_cons]
    exact flatten_rows n ns.prod fun i q => i :: dec ns q

theorem enc_dec (ns : List Nat) (k : Nat) (h : k < ns.prod) : enc ns (dec ns k) = k := by
  induction ns generalizing k with
  | nil => simp at h; simp [enc, h]
  | cons n ns ih =>
    rw [List.prod_cons] at h
    rw [dec, enc, ih _ (Nat.div_lt_of_lt_mul h)]
    exact Nat.mod_add_div k n

theorem dec_inj (ns : List Nat) {j k : Nat} (hj : j < ns.prod) (hk : k < ns.prod) (h : dec ns j = dec ns k) : j = k := by
  rw [← enc_dec ns j hj, ← enc_dec ns k hk, h]

def Fits : List Nat → Val → Prop
  | [], [] => True
  | n :: ns, i :: v => i < n ∧ Fits ns v
  | _, _ => False

theorem enc_lt (ns : List Nat) (v : Val) (h : Fits ns v) : enc ns v < ns.prod ∧ dec ns (enc ns v) = v := by
  induction ns generalizing v with
  | nil => cases v with
    | nil => simp [enc, dec]
    | cons => exact h.elim
  | cons n ns ih => cases v with
    | nil => exact h.elim
    | cons i v =>
      obtain ⟨h1, h2⟩ := ih v h.2
      have hi : i < n := h.1
      rw [enc, List.prod_cons]
      constructor
      · calc i + n * enc ns v < n + n * enc ns v := by omega
          _ = n * (enc ns v + 1) := by rw [Nat.mul_succ]; omega
          _ ≤ n * ns.prod := Nat.mul_le_mul_left n h1
      · rw [dec, Nat.add_mul_mod_self_left, Nat.mod_eq_of_lt hi, Nat.add_mul_div_left _ _ (by omega), Nat.div_eq_of_lt hi,
          Nat.zero_add, h2]

theorem fits_dec (ns : List Nat) (k : Nat) (h : k < ns.prod) : Fits ns (dec ns k) := by
  induction ns generalizing k with
  | nil => trivial
  | cons n ns ih =>
    rw [List.prod_cons] at h
    refine ⟨Nat.mod_lt _ ?_, ih _ (Nat.div_lt_of_lt_mul h)⟩
    rcases Nat.eq_zero_or_pos n with rfl | hn
    · simp at h
    · exact hn

theorem getColorLoop_eq (T : Types) (cs : List Color) (product sum : Nat) :
    getColorLoop T cs product sum = sum + product * enc (cs.map fun c => T.basic c.ty) (cs.map (·.id)) := by
  induction cs generalizing product sum with
  | nil => simp [getColorLoop, enc]
  | cons c cs ih =>
    rw [getColorLoop, ih, List.map_cons, List.map_cons, enc, Nat.mul_add, Nat.mul_assoc, Nat.add_assoc]

variable (T : Types)

theorem size_eq (ty : Nat) : T.size ty = (T.dims ty).prod := by
  unfold Types.size Types.dims
  cases T.parts ty <;> simp

theorem values_eq (ty : Nat) : T.values ty = (List.range (T.size ty)).map fun k => T.value ⟨ty, k⟩ := by
  unfold Types.values
  rw [box_eq, size_eq]
  apply List.map_congr_left
  intro k hk
  unfold Types.value Types.values
  simp only
  rw [box_eq, List.getD_eq_getElem?_getD, List.getElem?_map, List.getElem?_range (List.mem_range.1 hk)]
  rfl

theorem value_eq {ty k : Nat} (h : k < T.size ty) : T.value ⟨ty, k⟩ = dec (T.dims ty) k := by
  unfold Types.value Types.values
  simp only
  rw [box_eq, List.getD_eq_getElem?_getD, List.getElem?_map, List.getElem?_range (by rw [← size_eq]; exact h)]
  rfl

theorem value_inj {ty j k : Nat} (hj : j < T.size ty) (hk : k < T.size ty) (h : T.value ⟨ty, j⟩ = T.value ⟨ty, k⟩) : j = k := by
  rw [value_eq T hj, value_eq T hk] at h
  exact dec_inj _ (by rw [← size_eq]; exact hj) (by rw [← size_eq]; exact hk) h

theorem mem_values {ty : Nat} {x : Val} : x ∈ T.values ty ↔ ∃ k < T.size ty, T.value ⟨ty, k⟩ = x := by
  rw [values_eq, List.mem_map]
  simp [List.mem_range]

theorem value_plain {ty k : Nat} (hp : T.parts ty = none) (h : k < T.size ty) : T.value ⟨ty, k⟩ = [k] := by
  rw [value_eq T h]
  unfold Types.dims
  unfold Types.size at h
  rw [hp] at h ⊢
  simp only [dec] at h ⊢
  rw [Nat.mod_eq_of_lt h]

end CPN
end Verif
