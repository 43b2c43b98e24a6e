import Verif.CRed.VarLemmas
import Verif.CRed.ParTrans

/-!
# Multiples of variable multisets
-/

namespace Verif
namespace CRed
open CPN

/-! ### Multisets without types are empty -/

/-- no product type has no parts -/
def NoEmptyProd (T : Types) : Prop := ∀ ty, T.parts ty ≠ some []

def Typed (m : VMS) : Prop := m.types = [] → m.set = []

theorem tupleVars_length (es : List CExpr) : ∀ vs, tupleVars es = some (some vs) → vs.length = es.length := by
  induction es with
  | nil => intro vs h; rw [tupleVars] at h; injection h with h; injection h with h; subst h; rfl
  | cons e es ih =>
    intro vs h
    cases e with
    | var v =>
      rw [tupleVars] at h
      cases ht : tupleVars es with
      | none => rw [ht] at h; cases h
      | some r =>
        rw [ht] at h
        cases r with
        | none => simp at h
        | some ws =>
          simp at h
          subst h
          rw [List.length_cons, ih ws ht, List.length_cons]
    | _ => simp [tupleVars] at h

theorem exprVars_ne {T : Types} (hT : NoEmptyProd T) {vty : Nat → Nat} {e : CExpr} {ty : Nat} (h : HasTy T vty e ty) {vs : List Nat}
    (he : exprVars e = some (some vs)) : vs ≠ [] := by
  cases e with
  | var v => simp [exprVars] at he; subst he; simp
  | tuple es =>
    rw [exprVars] at he
    rw [HasTy] at h
    obtain ⟨cs, hcs, hts⟩ := h
    have hl := tupleVars_length es vs he
    intro hv
    rw [hv] at hl
    have : es = [] := List.length_eq_zero_iff.1 hl.symm
    subst this
    rw [HasTys] at hts
    subst hts
    exact hT ty hcs
  | _ => simp [exprVars] at he

theorem typed_empty : Typed {} := fun _ => rfl

theorem vaddAll_nil (l : List (List Nat × Nat)) : vaddAll l [] = l := rfl

theorem typed_add {m o m' : VMS} (hm : Typed m) (ho : Typed o) (h : m.add o = some m') : Typed m' := by
  unfold VMS.add at h
  simp only at h
  generalize hts : (if m.types = [] then o.types else m.types) = ts at h
  split at h
  · cases h
  · injection h with h
    subst h
    intro ht
    simp only at ht
    rw [ht] at hts
    rename' hts => ht'
    clear ht
    rename' ht' => ht
    by_cases e : m.types = []
    · rw [if_pos e] at ht
      show vaddAll m.set o.set = []
      rw [ho ht, vaddAll_nil, hm e]
    · rw [if_neg e] at ht
      exact absurd ht e

theorem typed_numLoop {T : Types} (hT : NoEmptyProd T) {vty : Nat → Nat} {ty : Nat} (n : Nat) (es : List CExpr) :
    ∀ m m' : VMS, Typed m → (∀ e ∈ es, HasTy T vty e ty) → numLoop vty n es m = some (some m') → Typed m' := by
  induction es with
  | nil => intro m m' hm _ h; rw [numLoop] at h; injection h with h; injection h with h; subst h; exact hm
  | cons e es ih =>
    intro m m' hm hty h
    rw [numLoop] at h
    cases hv : exprVars e with
    | none => rw [hv] at h; cases h
    | some r =>
      rw [hv] at h
      cases r with
      | none => cases h
      | some vs =>
        simp only at h
        cases ha : m.add (.single vty vs n) with
        | none => rw [ha] at h; cases h
        | some m1 =>
          rw [ha] at h
          refine ih m1 m' (typed_add hm (fun ht => ?_) ha) (fun e' he' => hty e' (List.mem_cons_of_mem _ he')) h
          exact absurd (List.map_eq_nil_iff.1 ht) (exprVars_ne hT (hty e List.mem_cons_self) hv)

mutual
theorem typed_extract {T : Types} (hT : NoEmptyProd T) {vty : Nat → Nat} {ty : Nat} : (e : ArcE) → (m : VMS) → ArcTy T vty ty e →
    extract vty e = some (some m) → Typed m
  | .num n es, m, hty, h => by
    rw [extract] at h
    rw [ArcTy] at hty
    exact typed_numLoop hT n es {} m typed_empty hty.2 h
  | .add as, m, hty, h => by
    rw [extract] at h
    rw [ArcTy] at hty
    exact typed_extractL hT as {} m typed_empty hty h
  | .sub a b, m, hty, h => by rw [extract] at h; cases h
  | .scal k a, m, hty, h => by
    rw [extract] at h
    rw [ArcTy] at hty
    cases ha : extract vty a with
    | none => rw [ha] at h; cases h
    | some r =>
      rw [ha] at h
      cases r with
      | none => simp at h
      | some m1 =>
        simp at h
        subst h
        intro ht
        show m1.set.map _ = []
        rw [typed_extract hT a m1 hty ha ht]
        rfl
theorem typed_extractL {T : Types} (hT : NoEmptyProd T) {vty : Nat → Nat} {ty : Nat} : (as : List ArcE) → (m m' : VMS) → Typed m →
    ArcTys T vty ty as → extractL vty as m = some (some m') → Typed m'
  | [], m, m', hm, _, h => by
    rw [extractL] at h
    injection h with h
    injection h with h
    subst h
    exact hm
  | a :: as, m, m', hm, hty, h => by
    rw [extractL] at h
    rw [ArcTys] at hty
    cases ha : extract vty a with
    | none => rw [ha] at h; cases h
    | some r =>
      rw [ha] at h
      cases r with
      | none => cases h
      | some m1 =>
        simp only at h
        cases hd : m.add m1 with
        | none => rw [hd] at h; cases h
        | some m2 =>
          rw [hd] at h
          exact typed_extractL hT as m2 m' (typed_add hm (typed_extract hT a m1 hty.1 ha) hd) hty.2 h
end

/-! ### Multiples -/

def uscale (m : VMS) (k : Nat) : VMS := ⟨m.types, m.set.map fun q => (q.1, q.2 * k)⟩

theorem wsum_uscale (f : List Nat → Nat) (m : VMS) (k : Nat) : wsum f (uscale m k).set = k * wsum f m.set := by
  unfold uscale
  generalize m.set = l
  induction l with
  | nil => simp [wsum]
  | cons a l ih =>
    unfold wsum at *
    simp only [List.map_cons, List.sum_cons]
    rw [ih, Nat.mul_add, Nat.mul_comm a.2 k, ← Nat.mul_assoc, ← Nat.mul_assoc, Nat.mul_comm (f a.1) k]

theorem vtot_eq (l : List (List Nat × Nat)) : vtot l = wsum (fun _ => 1) l := by simp [vtot, wsum]

theorem vlook_mem {l : List (List Nat × Nat)} (h : (l.map (·.1)).Nodup) {q : List Nat × Nat} (hq : q ∈ l) : vlook l q.1 = q.2 := by
  induction l with
  | nil => cases hq
  | cons a l ih =>
    rw [List.map_cons, List.nodup_cons] at h
    rw [vlook]
    rcases List.mem_cons.1 hq with rfl | hq
    · rw [if_pos rfl]
    · rw [if_neg (fun e => h.1 (by rw [e]; exact List.mem_map_of_mem hq)), ih h.2 hq]

theorem vlook_zero {l : List (List Nat × Nat)} {vs : List Nat} (h : vs ∉ l.map (·.1)) : vlook l vs = 0 := by
  induction l with
  | nil => rfl
  | cons a l ih =>
    rw [List.map_cons, List.mem_cons, not_or] at h
    rw [vlook, if_neg (fun e => h.1 e.symm), ih h.2]

theorem fitLoop_le (m : VMS) (l : List (List Nat × Nat)) : ∀ k, fitLoop m l k ≤ k ∧ ∀ q ∈ l, m.get q.1 ≠ 0 → fitLoop m l k * m.get q.1 ≤ q.2 := by
  induction l with
  | nil => intro k; exact ⟨Nat.le_refl _, (fun q hq => nomatch hq)⟩
  | cons a l ih =>
    intro k
    rw [fitLoop]
    by_cases h : m.get a.1 ≠ 0
    · rw [if_pos h]
      obtain ⟨h1, h2⟩ := ih (min k (a.2 / m.get a.1))
      refine ⟨Nat.le_trans h1 (Nat.min_le_left _ _), fun q hq hg => ?_⟩
      rcases List.mem_cons.1 hq with rfl | hq
      · refine Nat.le_trans (Nat.mul_le_mul_right _ (Nat.le_trans h1 (Nat.min_le_right _ _))) ?_
        exact Nat.div_mul_le_self _ _
      · exact h2 q hq hg
    · rw [if_neg h]
      obtain ⟨h1, h2⟩ := ih k
      refine ⟨h1, fun q hq hg => ?_⟩
      rcases List.mem_cons.1 hq with rfl | hq
      · exact absurd hg h
      · exact h2 q hq hg

theorem vtot_zero {l : List (List Nat × Nat)} (f : List Nat → Nat) (h : vtot l = 0) : wsum f l = 0 := by
  unfold vtot at h
  unfold wsum
  rw [List.sum_eq_zero_iff_forall_eq_nat] at *
  intro k hk
  obtain ⟨q, hq, rfl⟩ := List.mem_map.1 hk
  rw [h q.2 (List.mem_map_of_mem hq), Nat.mul_zero]

theorem multOf_ok {s b : VMS} {a c : Nat} (ts : Typed s) (hc : c < 2 ^ 31) {k : Nat}
    (h : multOf (some s) (some b) = some (some k)) {F G : (Nat → Val) → Val → Nat} (hs : ∀ ρ, Means s a ρ (F ρ))
    (hb : ∀ ρ, Means b c ρ (G ρ)) :
    (k = umax ∧ a = 0 ∧ c = 0) ∨ (k < umax ∧ c = k * a ∧ 0 < a ∧ ∀ ρ x, G ρ x = k * F ρ x) := by
  have hnd := (hs fun _ => []).nodup
  have htot := (hs fun _ => []).tot
  have hnd' := (hb fun _ => []).nodup
  have htot' := (hb fun _ => []).tot
  have h : ((s.divides b).bind fun d => if d then (s.fits b).map some else some none) = some (some k) := h
  cases hd : s.divides b with
  | none => rw [hd] at h; cases h
  | some d =>
    rw [hd] at h
    cases d with
    | false => cases h
    | true =>
      simp only [Option.bind_some, if_true] at h
      have hf : s.fits b = some k := by
        cases hf : s.fits b with
        | none => rw [hf] at h; cases h
        | some j => rw [hf] at h; simp at h; rw [h]
      unfold VMS.divides at hd
      rw [hf] at hd
      simp only [Option.bind_some] at hd
      cases hsub : b.sub (s.scale k) with
      | none => rw [hsub] at hd; cases hd
      | some dd =>
        rw [hsub] at hd
        simp only [Option.map_some, Option.some.injEq] at hd
        have hle := sub_empty hsub hd
        unfold VMS.fits at hf
        by_cases h1 : s.types = []
        · rw [if_pos h1] at hf
          injection hf with hf
          left
          have hset := ts h1
          have ha : a = 0 := by rw [← htot, hset]; rfl
          have hcz : c = 0 := by
            rw [← htot', vtot_eq]
            have := wsum_le (fun _ => 1) (l := b.set) (r := []) hnd' (fun q hq => by
              have := hle q hq
              unfold VMS.get at this
              rw [if_pos (show (s.scale k).types = [] from h1)] at this
              omega)
            simpa [wsum] using this
          exact ⟨hf.symm, ha, hcz⟩
        · rw [if_neg h1] at hf
          by_cases h2 : s.types ≠ b.types
          · rw [if_pos h2] at hf; cases hf
          · rw [if_neg h2] at hf
            have h2 : s.types = b.types := by simpa using h2
            have hsget : ∀ vs, s.get vs = vlook s.set vs := fun vs => by unfold VMS.get; rw [if_neg h1]
            unfold VMS.subEq at hf
            cases hsb : s.sub b with
            | none => rw [hsb] at hf; cases hf
            | some e =>
              rw [hsb] at hf
              simp only [Option.map_some, Option.some.injEq] at hf
              by_cases he : e.empty = true
              · rw [if_pos he] at hf
                have hsle := sub_empty hsb he
                have hbget : ∀ vs, b.get vs = vlook b.set vs := fun vs => by unfold VMS.get; rw [if_neg (h2 ▸ h1)]
                obtain ⟨f1, f2⟩ := fitLoop_le s b.set (W32 - 1)
                rw [hf] at f1 f2
                have hkey : ∀ q ∈ s.set, q.2 * k ≤ vlook b.set q.1 := by
                  intro q hq
                  by_cases hz : q.2 = 0
                  · rw [hz, Nat.zero_mul]; exact Nat.zero_le _
                  · have hbq := hsle q hq
                    rw [hbget] at hbq
                    by_cases hm : q.1 ∈ b.set.map (·.1)
                    · obtain ⟨r, hr, hrq⟩ := List.mem_map.1 hm
                      have hg : s.get r.1 = q.2 := by rw [hsget, hrq, vlook_mem hnd hq]
                      have := f2 r hr (by rw [hg]; exact hz)
                      rw [hg] at this
                      rw [← hrq, vlook_mem hnd' hr, Nat.mul_comm]
                      exact this
                    · rw [vlook_zero hm] at hbq
                      omega
                have hup : ∀ f : List Nat → Nat, k * wsum f s.set ≤ wsum f b.set := by
                  intro f
                  rw [← wsum_uscale]
                  refine wsum_le f ?_ ?_
                  · unfold uscale
                    rw [List.map_map]
                    exact hnd
                  · intro q hq
                    obtain ⟨r, hr, rfl⟩ := List.mem_map.1 hq
                    exact hkey r hr
                have hka : k * a ≤ c := by
                  rw [← htot, ← htot', vtot_eq, vtot_eq]
                  exact hup _
                have hdown : ∀ f : List Nat → Nat, wsum f b.set ≤ k * wsum f s.set := by
                  intro f
                  have h3 := wsum_le f hnd' (fun q hq => Nat.le_trans (hle q hq) (get_le _ _))
                  have h4 := (wsum_scale f k s.set (by rw [htot]; unfold W32; omega)).1
                  unfold VMS.scale at h3
                  dsimp only at h3
                  rw [h4] at h3
                  exact h3
                have hca : c = k * a := by
                  refine Nat.le_antisymm ?_ hka
                  rw [← htot, ← htot', vtot_eq, vtot_eq]
                  exact hdown _
                by_cases ha : a = 0
                · have hcz : c = 0 := by rw [hca, ha, Nat.mul_zero]
                  left
                  refine ⟨?_, ha, hcz⟩
                  have hz : ∀ l : List (List Nat × Nat), ∀ j, fitLoop s l j = j := by
                    intro l
                    induction l with
                    | nil => intro j; rfl
                    | cons q l ih =>
                      intro j
                      rw [fitLoop, ih, if_neg]
                      rw [hsget]
                      intro hne
                      apply hne
                      by_cases hm : q.1 ∈ s.set.map (·.1)
                      · obtain ⟨r, hr, hrq⟩ := List.mem_map.1 hm
                        rw [← hrq, vlook_mem hnd hr]
                        have : vtot s.set = 0 := by rw [htot, ha]
                        exact List.sum_eq_zero_iff_forall_eq_nat.1 this _ (List.mem_map_of_mem hr)
                      · exact vlook_zero hm
                  rw [← hf, hz]
                  rfl
                · right
                  refine ⟨?_, hca, by omega, fun ρ x => ?_⟩
                  · have : k ≤ k * a := Nat.le_mul_of_pos_right _ (by omega)
                    unfold umax W32
                    omega
                  · rw [← (hs ρ).val, ← (hb ρ).val]
                    exact Nat.le_antisymm (hdown _) (hup _)
              · rw [if_neg he] at hf
                subst hf
                have hcz : c = 0 := by
                  rw [← htot', vtot_eq]
                  have h3 := wsum_le (fun _ => 1) hnd' (fun q hq => Nat.le_trans (hle q hq) (get_le _ _))
                  have h4 := (wsum_scale (fun _ => 1) 0 s.set (by rw [Nat.zero_mul]; decide)).1
                  unfold VMS.scale at h3
                  dsimp only at h3
                  rw [h4] at h3
                  omega
                by_cases ha : a = 0
                · exfalso
                  apply he
                  unfold VMS.sub at hsb
                  simp only at hsb
                  generalize (if s.types = [] then b.types else s.types) = ts at hsb
                  split at hsb
                  · cases hsb
                  · injection hsb with hsb
                    subst hsb
                    unfold VMS.empty VMS.size
                    rw [beq_iff_eq]
                    apply List.sum_eq_zero_iff_forall_eq_nat.2
                    intro j hj
                    obtain ⟨r, hr, rfl⟩ := List.mem_map.1 hj
                    obtain ⟨u, hu, rfl⟩ := List.mem_map.1 hr
                    have : vtot s.set = 0 := by rw [htot, ha]
                    have := List.sum_eq_zero_iff_forall_eq_nat.1 this _ (List.mem_map_of_mem hu)
                    dsimp only
                    rw [this]
                    split <;> omega
                · right
                  refine ⟨by decide, by omega, by omega, fun ρ x => ?_⟩
                  rw [← (hb ρ).val, Nat.zero_mul]
                  exact vtot_zero _ (by rw [htot', hcz])

theorem isMult_ok {s b : VMS} {a c k : Nat} (h : isMult k (some s) (some b) = some true) (hk : k * a < W32)
    {F G : (Nat → Val) → Val → Nat} (hs : ∀ ρ, Means s a ρ (F ρ)) (hb : ∀ ρ, Means b c ρ (G ρ)) :
    c = k * a ∧ ∀ ρ x, G ρ x = k * F ρ x := by
  have hm := fun ρ => means_scale (hs ρ) k hk
  have h : (s.scale k).eq b = some true := h
  unfold VMS.eq at h
  cases h1 : (s.scale k).sub b with
  | none => rw [h1] at h; cases h
  | some d =>
    rw [h1] at h
    simp only [Option.bind_some] at h
    cases h2 : b.sub (s.scale k) with
    | none => rw [h2] at h; cases h
    | some e =>
      rw [h2] at h
      simp only [Option.map_some, Option.some.injEq, Bool.and_eq_true] at h
      have l1 := fun f => wsum_le f (hm fun _ => []).nodup (fun q hq => Nat.le_trans (sub_empty h1 h.1 q hq) (get_le _ _))
      have l2 := fun f => wsum_le f (hb fun _ => []).nodup (fun q hq => Nat.le_trans (sub_empty h2 h.2 q hq) (get_le _ _))
      constructor
      · rw [← (hb fun _ => []).tot, ← (hm fun _ => []).tot, vtot_eq, vtot_eq]
        exact Nat.le_antisymm (l2 _) (l1 _)
      · intro ρ x
        rw [← (hb ρ).val, ← (hm ρ).val]
        exact Nat.le_antisymm (l2 _) (l1 _)

end CRed
end Verif
