import Verif.PQL.PushNeg

/-! # More fuel does not change the result of the rewriting -/

namespace Verif
namespace PQL

/-- what `v` returns, `v'` returns -/
def Visit.Le (v v' : Visit) : Prop := ∀ nested neg c r, v nested neg c = some r → v' nested neg c = some r

variable {v v' : Visit} (hv : v.Le v') {nested neg : Bool} {r : Cond}
include hv

theorem visitOps_le {stop : Bool} (cs : List Cond) (x : Sum Unit (List Cond)) (h : visitOps v nested neg stop cs = some x) :
    visitOps v' nested neg stop cs = some x := by
  induction cs generalizing x with
  | nil => exact h
  | cons c cs ih =>
    simp only [visitOps] at h ⊢
    cases hc : v nested neg c with
    | none => rw [hc] at h; cases h
    | some a =>
      rw [hc] at h
      rw [hv _ _ _ _ hc]
      cases hx : visitOps v nested neg stop cs with
      | none =>
        rw [hx] at h
        cases a with
        | bool b =>
          simp only at h ⊢
          split at h
          · rename_i hb; rw [if_pos hb]; exact h
          · cases h
        | _ => cases h
      | some y =>
        rw [hx] at h
        rw [ih y hx]
        exact h

theorem pushAnd_le {cs : List Cond} (h : pushAnd v nested neg cs = some r) : pushAnd v' nested neg cs = some r := by
  unfold pushAnd at h ⊢
  obtain ⟨x, hx, h⟩ := Option.map_eq_some_iff.1 h
  rw [visitOps_le hv cs x hx, Option.map_some, h]

theorem pushOr_le {cs : List Cond} (h : pushOr v nested neg cs = some r) : pushOr v' nested neg cs = some r := by
  unfold pushOr at h ⊢
  obtain ⟨x, hx, h⟩ := Option.map_eq_some_iff.1 h
  rw [visitOps_le hv cs x hx, Option.map_some, h]

theorem pushEX_le {c : Cond} (h : pushEX v nested neg c = some r) : pushEX v' nested neg c = some r := by
  simp only [pushEX, Option.bind_eq_bind, Option.bind_eq_some_iff] at h ⊢
  obtain ⟨a, ha, h⟩ := h
  refine ⟨a, hv _ _ _ _ ha, ?_⟩
  cases neg
  · exact h
  · exact hv _ _ _ _ h

theorem pushAX_le {c : Cond} (h : pushAX v nested neg c = some r) : pushAX v' nested neg c = some r := by
  simp only [pushAX, Option.bind_eq_bind, Option.bind_eq_some_iff] at h ⊢
  obtain ⟨a, ha, h⟩ := h
  refine ⟨a, hv _ _ _ _ ha, ?_⟩
  cases neg
  · exact h
  · exact hv _ _ _ _ h

theorem pushEF_le {c : Cond} (h : pushEF v nested neg c = some r) : pushEF v' nested neg c = some r := by
  simp only [pushEF, Option.bind_eq_bind, Option.bind_eq_some_iff] at h ⊢
  obtain ⟨a, ha, h⟩ := h
  refine ⟨a, hv _ _ _ _ ha, ?_⟩
  cases a with
  | not x => cases x <;> first | exact h | exact hv _ _ _ _ h
  | or cs =>
    simp only at h ⊢
    split at h
    · rename_i ht; rw [if_pos ht]; exact hv _ _ _ _ h
    · rename_i ht; rw [if_neg ht]; exact h
  | _ => first | exact h | exact hv _ _ _ _ h

theorem pushAF_le {c : Cond} (h : pushAF v nested neg c = some r) : pushAF v' nested neg c = some r := by
  simp only [pushAF, Option.bind_eq_bind, Option.bind_eq_some_iff] at h ⊢
  obtain ⟨a, ha, h⟩ := h
  refine ⟨a, hv _ _ _ _ ha, ?_⟩
  cases a with
  | not x => cases x <;> first | exact h | exact hv _ _ _ _ h
  | or cs =>
    simp only at h ⊢
    split at h
    · rename_i ht; rw [if_pos ht]; exact h
    · rename_i ht; rw [if_neg ht]; exact hv _ _ _ _ h
  | _ => first | exact h | exact hv _ _ _ _ h

theorem pushAU_le {c d : Cond} (h : pushAU v nested neg c d = some r) : pushAU v' nested neg c d = some r := by
  simp only [pushAU, Option.bind_eq_bind, Option.bind_eq_some_iff] at h ⊢
  obtain ⟨b, hb, a, ha, h⟩ := h
  refine ⟨b, hv _ _ _ _ hb, a, hv _ _ _ _ ha, ?_⟩
  cases hu : untilDead a b with
  | some x => rw [hu] at h; cases x <;> exact hv _ _ _ _ h
  | none =>
    rw [hu] at h
    cases b with
    | or cs =>
      simp only at h ⊢
      split at h
      · rename_i ht; rw [if_pos ht]; exact h
      · rename_i ht; rw [if_neg ht]; exact hv _ _ _ _ h
    | _ => first | exact h | exact hv _ _ _ _ h

theorem pushEU_le {c d : Cond} (h : pushEU v nested neg c d = some r) : pushEU v' nested neg c d = some r := by
  simp only [pushEU, Option.bind_eq_bind, Option.bind_eq_some_iff] at h ⊢
  obtain ⟨b, hb, a, ha, h⟩ := h
  refine ⟨b, hv _ _ _ _ hb, a, hv _ _ _ _ ha, ?_⟩
  cases hu : untilDead a b with
  | some x => rw [hu] at h; cases x <;> exact hv _ _ _ _ h
  | none =>
    rw [hu] at h
    cases b with
    | or cs =>
      simp only at h ⊢
      split at h
      · rename_i ht; rw [if_pos ht]; exact h
      · rename_i ht; rw [if_neg ht]; exact hv _ _ _ _ h
    | _ => first | exact h | exact hv _ _ _ _ h

theorem pushU_le {c d : Cond} (h : pushU v neg c d = some r) : pushU v' neg c d = some r := by
  simp only [pushU, Option.bind_eq_bind, Option.bind_eq_some_iff] at h ⊢
  obtain ⟨b, hb, a, ha, h⟩ := h
  exact ⟨b, hv _ _ _ _ hb, a, hv _ _ _ _ ha, h⟩

theorem pushX_le {c : Cond} (h : pushX v neg c = some r) : pushX v' neg c = some r := by
  simp only [pushX, Option.bind_eq_bind, Option.bind_eq_some_iff] at h ⊢
  obtain ⟨a, ha, h⟩ := h
  exact ⟨a, hv _ _ _ _ ha, h⟩

theorem pushF_le {c : Cond} (h : pushF v nested neg c = some r) : pushF v' nested neg c = some r := by
  simp only [pushF, Option.bind_eq_bind, Option.bind_eq_some_iff] at h ⊢
  obtain ⟨a, ha, h⟩ := h
  refine ⟨a, hv _ _ _ _ ha, ?_⟩
  cases a with
  | or cs =>
    simp only at h ⊢
    split at h
    · rename_i ht; rw [if_pos ht]; exact hv _ _ _ _ h
    · rename_i ht; rw [if_neg ht]; exact h
  | _ => first | exact h | exact hv _ _ _ _ h

theorem pushStep_le (K : RwCtx) : Visit.Le (pushStep K v) (pushStep K v') := by
  intro nested neg c r h
  have hmap : ∀ {x y : Option Cond} {g : Cond → Cond}, x.map g = some r → (∀ z, x = some z → y = some z) → y.map g = some r := by
    intro x y g h1 h2
    obtain ⟨z, hz, h1⟩ := Option.map_eq_some_iff.1 h1
    rw [h2 z hz, Option.map_some, h1]
  cases c with
  | bool b => exact h
  | dead => exact h
  | cmp op e1 e2 => exact h
  | cc l n => exact h
  | not c => exact hmap h fun z hz => hv _ _ _ _ hz
  | and cs => cases neg with
    | true => exact hmap h fun z hz => pushOr_le hv hz
    | false => exact hmap h fun z hz => pushAnd_le hv hz
  | or cs => cases neg with
    | true => exact hmap h fun z hz => pushAnd_le hv hz
    | false => exact hmap h fun z hz => pushOr_le hv hz
  | EX c => exact hmap h fun z hz => pushEX_le hv hz
  | AX c => exact hmap h fun z hz => pushAX_le hv hz
  | EF c => exact hmap h fun z hz => pushEF_le hv hz
  | AF c => exact hmap h fun z hz => pushAF_le hv hz
  | EG c => exact hv _ _ _ _ h
  | AG c => exact hv _ _ _ _ h
  | EU c d => exact hmap h fun z hz => pushEU_le hv hz
  | AU c d => exact hmap h fun z hz => pushAU_le hv hz
  | E c => exact hmap h fun z hz => hv _ _ _ _ hz
  | A c => exact hv _ _ _ _ h
  | X c => exact hmap h fun z hz => pushX_le hv hz
  | F c => exact hmap h fun z hz => pushF_le hv hz
  | G c => exact hv _ _ _ _ h
  | U c d => exact hmap h fun z hz => pushU_le hv hz

omit hv in
theorem pushNegation_le (K : RwCtx) {n m : Nat} (h : n ≤ m) : Visit.Le (pushNegation K n) (pushNegation K m) := by
  induction n generalizing m with
  | zero => intro _ _ _ _ h; cases h
  | succ n ih =>
    obtain ⟨k, rfl⟩ : ∃ k, m = k + 1 := ⟨m - 1, by omega⟩
    exact pushStep_le (ih (by omega)) K

end PQL
end Verif
