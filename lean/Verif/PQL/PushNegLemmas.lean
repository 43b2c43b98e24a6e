import Verif.PQL.PushNeg
import Verif.PQL.MergeLemmas
import Verif.PQL.Rules

namespace Verif
namespace PQL

/-! ### Comparisons -/

theorem remdup_sum (m : Mark) (a b : List Nat) :
    ((remdup a b).1.map fun p => (m p : Int)).sum - ((remdup a b).2.map fun p => (m p : Int)).sum =
    (a.map fun p => (m p : Int)).sum - (b.map fun p => (m p : Int)).sum := by
  fun_induction remdup a b with
  | case1 x a y b h r ih =>
    simp only [r, List.map_cons, List.sum_cons] at *; omega
  | case2 a y b h ih =>
    simp only [List.map_cons, List.sum_cons] at *; omega
  | case3 x a y b h h' r ih =>
    simp only [r, List.map_cons, List.sum_cons] at *; omega
  | case4 => rfl

theorem remdup_disjoint (a b : List Nat) (h : ∀ p ∈ a, p ∉ b) : remdup a b = (a, b) := by
  fun_induction remdup a b with
  | case1 x a y b hlt r ih =>
    have := ih fun p hp => h p (List.mem_cons_of_mem _ hp)
    simp only [r, this]
  | case2 a y b _ ih => exact (h y (List.mem_cons_self ..) (List.mem_cons_self ..)).elim
  | case3 x a y b _ _ r ih =>
    have := ih fun p hp hb => h p hp (List.mem_cons_of_mem _ hb)
    simp only [r, this]
  | case4 => rfl

/-- Comparing after removing common places. -/
theorem dropCommon_holds (m : Mark) (op : Cmp) (e1 e2 : Expr) (h : mulOK e1 e2 = true) :
    op.holds ((dropCommon e1 e2).1.val m) ((dropCommon e1 e2).2.val m) ↔ op.holds (e1.val m) (e2.val m) := by
  cases e1 with
  | plus k a es =>
    cases e2 with
    | plus k' b es' =>
      have := remdup_sum m a b
      simp only [dropCommon, Expr.val]
      cases op <;> simp only [Cmp.holds] <;> omega
    | _ => rfl
  | mul k a es =>
    cases e2 with
    | mul k' b es' =>
      simp only [mulOK, List.all_eq_true, Bool.not_eq_true', List.contains_eq_mem, decide_eq_false_iff_not] at h
      simp only [dropCommon, remdup_disjoint a b h]
    | _ => rfl
  | _ => rfl

theorem dropCommon_isId (e1 e2 : Expr) :
    (dropCommon e1 e2).1.isId = e1.isId ∧ (dropCommon e1 e2).2.isId = e2.isId ∧
    (e1.isId = true ∨ e2.isId = true → dropCommon e1 e2 = (e1, e2)) := by
  cases e1 <;> cases e2 <;> simp [dropCommon, Expr.isId]

theorem remdup_sub (a b : List Nat) : (∀ p ∈ (remdup a b).1, p ∈ a) ∧ ∀ p ∈ (remdup a b).2, p ∈ b := by
  fun_induction remdup a b with
  | case1 x a y b hlt r ih =>
    refine ⟨fun p hp => ?_, fun p hp => ih.2 p hp⟩
    rcases List.mem_cons.1 hp with rfl | hp
    · exact List.mem_cons_self ..
    · exact List.mem_cons_of_mem _ (ih.1 p hp)
  | case2 a y b _ ih =>
    exact ⟨fun p hp => List.mem_cons_of_mem _ (ih.1 p hp), fun p hp => List.mem_cons_of_mem _ (ih.2 p hp)⟩
  | case3 x a y b _ _ r ih =>
    refine ⟨fun p hp => ih.1 p hp, fun p hp => ?_⟩
    rcases List.mem_cons.1 hp with rfl | hp
    · exact List.mem_cons_self ..
    · exact List.mem_cons_of_mem _ (ih.2 p hp)
  | case4 => exact ⟨fun _ h => h, fun _ h => h⟩

theorem mulOK_dropCommon (e1 e2 : Expr) (h : mulOK e1 e2 = true) :
    mulOK (dropCommon e1 e2).1 (dropCommon e1 e2).2 = true := by
  cases e1 with
  | mul k a es =>
    cases e2 with
    | mul k' b es' =>
      have h' := h
      simp only [mulOK, List.all_eq_true, Bool.not_eq_true', List.contains_eq_mem, decide_eq_false_iff_not] at h
      simp only [dropCommon, remdup_disjoint a b h]; exact h'
    | _ => exact h
  | plus k a es => cases e2 <;> rfl
  | _ => exact h

theorem cmpOK_dropCommon (op : Cmp) (e1 e2 : Expr) (h : cmpOK op e1 e2 = true) :
    cmpOK op (dropCommon e1 e2).1 (dropCommon e1 e2).2 = true := by
  obtain ⟨h1, h2, h3⟩ := dropCommon_isId e1 e2
  by_cases hid : e1.isId = true ∨ e2.isId = true
  · rw [h3 hid]; exact h
  · simp only [cmpOK, Bool.and_eq_true] at h ⊢
    rw [h1, h2]
    have a : e1.isId = false := by cases hh : e1.isId <;> simp_all
    have b : e2.isId = false := by cases hh : e2.isId <;> simp_all
    simp [a, b, mulOK_dropCommon e1 e2 h.1.1]

theorem mulOK_symm (e1 e2 : Expr) : mulOK e1 e2 = true → mulOK e2 e1 = true := by
  cases e1 <;> cases e2 <;> simp [mulOK]
  intro h p hp hq; exact h p hq hp

theorem cmpOK_flip_lt {e1 e2 : Expr} (h : cmpOK .lt e1 e2 = true) : cmpOK .le e2 e1 = true := by
  simp only [cmpOK, Bool.and_eq_true] at h ⊢
  exact ⟨⟨mulOK_symm _ _ h.1.1, h.2⟩, h.1.2⟩

theorem cmpOK_flip_le {e1 e2 : Expr} (h : cmpOK .le e1 e2 = true) : cmpOK .lt e2 e1 = true := by
  simp only [cmpOK, Bool.and_eq_true] at h ⊢
  exact ⟨⟨mulOK_symm _ _ h.1.1, h.2⟩, h.1.2⟩

theorem canBeNegL_iff (es : List Expr) : canBeNegL es = false ↔ ∀ e ∈ es, canBeNeg e = false := by
  induction es with
  | nil => simp [canBeNegL]
  | cons e es ih => simp [canBeNegL, ih]

theorem list_sum_nonneg (l : List Int) (h : ∀ x ∈ l, 0 ≤ x) : 0 ≤ l.sum := by
  induction l with
  | nil => simp
  | cons x l ih =>
    have := h x (List.mem_cons_self ..)
    have := ih fun y hy => h y (List.mem_cons_of_mem _ hy)
    simp only [List.sum_cons]; omega

theorem list_prod_nonneg (l : List Int) (h : ∀ x ∈ l, 0 ≤ x) : 0 ≤ l.prod := by
  induction l with
  | nil => simp
  | cons x l ih =>
    have h1 := h x (List.mem_cons_self ..)
    have h2 := ih fun y hy => h y (List.mem_cons_of_mem _ hy)
    simp only [List.prod_cons]; exact Int.mul_nonneg h1 h2

theorem val_nonneg (m : Mark) (e : Expr) (h : canBeNeg e = false) : 0 ≤ e.val m := by
  induction e using Expr.ind with
  | lit v => simpa [canBeNeg, Expr.val] using h
  | id p => simp [Expr.val]
  | plus k ids es ih =>
    simp only [canBeNeg, Bool.or_eq_false_iff, decide_eq_false_iff_not, canBeNegL_iff] at h
    have h1 := list_sum_nonneg (ids.map fun p => (m p : Int)) (by
      intro x hx; obtain ⟨p, _, rfl⟩ := List.mem_map.1 hx; omega)
    have h2 := list_sum_nonneg (es.map (Expr.val m)) (by
      intro x hx; obtain ⟨e, he, rfl⟩ := List.mem_map.1 hx; exact ih e he (h.2 e he))
    simp only [Expr.val, vals_eq]; omega
  | mul k ids es ih =>
    simp only [canBeNeg, Bool.or_eq_false_iff, decide_eq_false_iff_not, canBeNegL_iff] at h
    have h1 := list_prod_nonneg (ids.map fun p => (m p : Int)) (by
      intro x hx; obtain ⟨p, _, rfl⟩ := List.mem_map.1 hx; omega)
    have h2 := list_prod_nonneg (es.map (Expr.val m)) (by
      intro x hx; obtain ⟨e, he, rfl⟩ := List.mem_map.1 hx; exact ih e he (h.2 e he))
    simp only [Expr.val, vals_eq]
    exact Int.mul_nonneg (Int.mul_nonneg (by omega) h1) h2
  | sub e es _ _ => simp [canBeNeg] at h
  | minus e _ => simp [canBeNeg] at h

/-- negation if the flag is set -/
def xneg (neg : Bool) (P : Prop) : Prop := if neg then ¬ P else P

theorem isTrivialCmp_free (e1 e2 : Expr) (h : isTrivialCmp e1 e2 = true) (m m' : Mark) :
    e1.val m = e1.val m' ∧ e2.val m = e2.val m' := by
  have key : ∀ e : Expr, e.commSize = some 0 → e.val m = e.val m' := by
    intro e he
    cases e <;> simp only [Expr.commSize, Option.some.injEq, reduceCtorEq] at he
    · obtain ⟨h1, h2⟩ := Nat.add_eq_zero_iff.1 he
      rw [List.length_eq_zero_iff] at h1 h2; subst h1 h2; rfl
    · obtain ⟨h1, h2⟩ := Nat.add_eq_zero_iff.1 he
      rw [List.length_eq_zero_iff] at h1 h2; subst h1 h2; rfl
  unfold isTrivialCmp at h
  split at h
  · rename_i a b ha hb
    simp only [beq_iff_eq, Nat.add_eq_zero_iff] at h
    rw [h.1] at ha; rw [h.2] at hb
    exact ⟨key _ ha, key _ hb⟩
  · simp only [Bool.and_eq_true] at h
    exact ⟨val_placeFree _ _ _ h.1, val_placeFree _ _ _ h.2⟩

theorem isTrivialCmp_lit (x : Expr) (k : Int) : mulOK x (.lit k) = true ∧ mulOK (.lit k) x = true := by
  cases x <;> exact ⟨rfl, rfl⟩

theorem cmpOK_zero_le (x : Expr) : cmpOK .le x (.lit 0) = true ∧ cmpOK .le (.lit 1) x = true := by
  have h := isTrivialCmp_lit x 0
  have h1 := isTrivialCmp_lit x 1
  simp [cmpOK, h, h1, Expr.isId, Expr.val, atomOKl, atomOKr]

/-- The rewriting of (in)equality with zero. -/
theorem pushEqualZero_spec (m : Mark) (e1 e2 : Expr) (eqp : Bool) (r : Cond)
    (h : pushEqualZero e1 e2 eqp = some r) {T : TS} {π : Nat → Mark} (hπ : π 0 = m) :
    r.wf = true ∧ r.isState = true ∧ (r.sat T π ↔ if eqp then e1.val m = e2.val m else e1.val m ≠ e2.val m) := by
  subst hπ
  have side : ∀ x z : Expr, z.placeFree = true → evalExpr (fun _ => 0) z = 0 → canBeNeg x = false →
      (((if eqp then Cond.cmp .le x (.lit 0) else Cond.cmp .le (.lit 1) x).sat T π) ↔
        if eqp then x.val (π 0) = z.val (π 0) else x.val (π 0) ≠ z.val (π 0)) ∧
      (if eqp then Cond.cmp .le x (.lit 0) else Cond.cmp .le (.lit 1) x).wf = true ∧
      (if eqp then Cond.cmp .le x (.lit 0) else Cond.cmp .le (.lit 1) x).isState = true := by
    intro x z hz h0 hn
    have hx := val_nonneg (π 0) x hn
    have hz0 : z.val (π 0) = 0 := by
      rw [val_placeFree (π 0) (fun _ => 0) z hz, ← evalExpr_eq, h0]
    cases eqp
    · simp only [Bool.false_eq_true, if_false, Cond.sat, Cmp.holds, Expr.val, Cond.wf, Cond.isState,
        (cmpOK_zero_le x).2, hz0, and_true]
      omega
    · simp only [if_true, Cond.sat, Cmp.holds, Expr.val, Cond.wf, Cond.isState, (cmpOK_zero_le x).1, hz0,
        and_true]
      omega
  unfold pushEqualZero at h
  by_cases h1 : e1.placeFree = true ∧ evalExpr (fun _ => 0) e1 = 0 ∧ canBeNeg e2 = false
  · simp only [if_pos h1, Option.some.injEq] at h
    obtain ⟨s1, s2, s3⟩ := side e2 e1 h1.1 h1.2.1 h1.2.2
    rw [← h]
    refine ⟨s2, s3, s1.trans ?_⟩
    cases eqp
    · simp only [Bool.false_eq_true, if_false]; exact ne_comm
    · simp only [if_true]; exact eq_comm
  · by_cases h2 : e2.placeFree = true ∧ evalExpr (fun _ => 0) e2 = 0 ∧ canBeNeg e1 = false
    · simp only [if_neg h1, if_pos h2, Option.some.injEq] at h
      obtain ⟨s1, s2, s3⟩ := side e1 e2 h2.1 h2.2.1 h2.2.2
      rw [← h]
      exact ⟨s2, s3, s1⟩
    · simp [if_neg h1, if_neg h2] at h

/-- Visit of a comparison. -/
theorem pushCmp_spec (neg : Bool) (op : Cmp) (e1 e2 : Expr) (hok : cmpOK op e1 e2 = true)
    {T : TS} {π : Nat → Mark} :
    (pushCmp neg op e1 e2).wf = true ∧ (pushCmp neg op e1 e2).isState = true ∧
    ((pushCmp neg op e1 e2).sat T π ↔ xneg neg ((Cond.cmp op e1 e2).sat T π)) := by
  have hm : mulOK e1 e2 = true := by simp only [cmpOK, Bool.and_eq_true] at hok; exact hok.1.1
  have hd := dropCommon_holds (π 0) op e1 e2 hm
  have hok' := cmpOK_dropCommon op e1 e2 hok
  unfold pushCmp
  simp only
  generalize (dropCommon e1 e2).1 = d1 at *
  generalize (dropCommon e1 e2).2 = d2 at *
  have hgoal : ∀ r : Cond, (r.wf = true ∧ r.isState = true ∧
      (r.sat T π ↔ xneg neg (op.holds (d1.val (π 0)) (d2.val (π 0))))) →
      r.wf = true ∧ r.isState = true ∧ (r.sat T π ↔ xneg neg ((Cond.cmp op e1 e2).sat T π)) := by
    intro r h
    simp only [Cond.sat, ← hd]; exact h
  apply hgoal
  by_cases ht : isTrivialCmp d1 d2 = true
  · rw [if_pos ht]
    obtain ⟨f1, f2⟩ := isTrivialCmp_free d1 d2 ht (fun _ => 0) (π 0)
    refine ⟨rfl, rfl, ?_⟩
    have := compare_iff (fun _ => 0) op d1 d2
    rw [f1, f2] at this
    simp only [Cond.sat]
    rw [← this]
    cases neg <;> cases compare (fun _ => 0) op d1 d2 <;> simp [xneg]
  · rw [if_neg ht]
    have heq : ∀ eqp : Bool, cmpOK (if eqp then .eq else .ne) d1 d2 = true →
        (((pushEqualZero d1 d2 eqp).getD (.cmp (if eqp then .eq else .ne) d1 d2)).wf = true ∧
        ((pushEqualZero d1 d2 eqp).getD (.cmp (if eqp then .eq else .ne) d1 d2)).isState = true ∧
        (((pushEqualZero d1 d2 eqp).getD (.cmp (if eqp then .eq else .ne) d1 d2)).sat T π ↔
          if eqp then d1.val (π 0) = d2.val (π 0) else d1.val (π 0) ≠ d2.val (π 0))) := by
      intro eqp hk
      cases hz : pushEqualZero d1 d2 eqp with
      | some r => exact pushEqualZero_spec (π 0) d1 d2 eqp r hz rfl
      | none =>
        refine ⟨hk, rfl, ?_⟩
        cases eqp <;> simp [Cond.sat, Cmp.holds]
    cases op with
    | lt =>
      cases neg
      · exact ⟨hok', rfl, by simp [Cond.sat, xneg]⟩
      · refine ⟨cmpOK_flip_lt hok', rfl, ?_⟩
        simp [Cond.sat, xneg, Cmp.holds]
    | le =>
      cases neg
      · exact ⟨hok', rfl, by simp [Cond.sat, xneg]⟩
      · refine ⟨cmpOK_flip_le hok', rfl, ?_⟩
        simp [Cond.sat, xneg, Cmp.holds]
    | eq =>
      cases neg
      · have := heq true hok'
        simpa [xneg, Cmp.holds] using this
      · have := heq false hok'
        simpa [xneg, Cmp.holds] using this
    | ne =>
      cases neg
      · have := heq false hok'
        simpa [xneg, Cmp.holds] using this
      · have := heq true hok'
        simpa [xneg, Cmp.holds] using this

end PQL
end Verif
