import Verif.PQL.EvalLemmas
import Verif.PQL.NetTS
import Verif.Props.Net

/-!
# C15, C16: evaluation of queries in one marking

`Cond.sat` and `Expr.val` (`Verif/PQL/Semantics.lean`) give the meaning of formulas; `N.ts` is the
transition system of the net.
-/

namespace Verif
namespace EvalProps
open PQL

/-- **C15** (expressions): an integer expression evaluates to its value. -/
theorem C15_expression_value (m : Mark) (e : Expr) : evalExpr m e = e.val m := evalExpr_eq m e

/-- **C15** (construction): the normalising constructors of sums and products (constants folded,
nested sums flattened, places sorted) keep the value. -/
theorem C15_sum_constructor (m : Mark) (es : List Expr) :
    evalExpr m (mkPlus es) = (es.map (Expr.val m)).sum := by
  rw [evalExpr_eq, mkPlus_val]

theorem C15_product_constructor (m : Mark) (es : List Expr) :
    evalExpr m (mkMul es) = (es.map (Expr.val m)).prod := by
  rw [evalExpr_eq, mkMul_val]

/-- **C15**.  For every predicate without temporal operators, every net and marking, evaluation
returns true exactly if the predicate holds and false exactly if it does not. -/
theorem C15_predicate_evaluation (N : FlatNet) (w : N.WF) (m : Mark) (c : Cond)
    (hc : c.isTemporal = false) (π : Nat → Mark) (hπ : N.ts.IsPath π) (h0 : π 0 = m) :
    (evaluate (N.deadlocked m) m c = .rTrue ↔ c.sat N.ts π) ∧
    (evaluate (N.deadlocked m) m c = .rFalse ↔ ¬ c.sat N.ts π) := by
  have hd : N.deadlocked m = true ↔ N.ts.Dead m := (C02_deadlock_exact N w m).trans (N.ts_dead m).symm
  have hs := evaluate_sound hd c π hπ h0
  have hu := evaluate_definite (N.deadlocked m) m c hc
  cases h : evaluate (N.deadlocked m) m c with
  | rTrue => have := hs.1 h; simp [this]
  | rFalse => have := hs.2 h; simp [this]
  | rUnknown => exact (hu h).elim

/-- `Cond.sat` of a predicate does not depend on the path chosen, and there is one from every
marking, so that the previous theorem determines the answer in every marking. -/
theorem C15_paths_exist (N : FlatNet) (m : Mark) : ∃ π, N.ts.IsPath π ∧ π 0 = m :=
  TS.exists_path N.ts m

/-- **C16**.  A definite answer of the evaluation of any (temporal) formula in a marking is right,
on every path that starts there. -/
theorem C16_early_evaluation_sound (N : FlatNet) (w : N.WF) (m : Mark) (c : Cond)
    (π : Nat → Mark) (hπ : N.ts.IsPath π) (h0 : π 0 = m) :
    (evaluate (N.deadlocked m) m c = .rTrue → c.sat N.ts π) ∧
    (evaluate (N.deadlocked m) m c = .rFalse → ¬ c.sat N.ts π) :=
  evaluate_sound ((C02_deadlock_exact N w m).trans (N.ts_dead m).symm) c π hπ h0

/-- **C16** for `evaluateAndSet`, the variant that stores results in the formula. -/
theorem C16_evaluate_and_set_sound (N : FlatNet) (w : N.WF) (m : Mark) (c : Cond)
    (π : Nat → Mark) (hπ : N.ts.IsPath π) (h0 : π 0 = m) :
    (evaluateSet (N.deadlocked m) m c = .rTrue → c.sat N.ts π) ∧
    (evaluateSet (N.deadlocked m) m c = .rFalse → ¬ c.sat N.ts π) :=
  (evaluateSet_le (N.deadlocked m) m c).sound (C16_early_evaluation_sound N w m c π hπ h0)

/-- C15: the storing variant agrees with plain evaluation on predicates. -/
theorem C15_evaluate_and_set_agrees (dl : Bool) (m : Mark) (c : Cond) (hc : c.isTemporal = false) :
    evaluateSet dl m c = evaluate dl m c := by
  rcases evaluateSet_le dl m c with h | h
  · induction c using Cond.ind with
    | not c ih =>
      have : evaluateSet dl m c = .rUnknown := by
        simp only [evaluateSet] at h
        cases hr : evaluateSet dl m c <;> simp [hr, Res.neg] at h ⊢
      simp only [evaluateSet, evaluate, ih hc this]
    | and cs ih =>
      simp only [evaluateSet, evaluate, evalAndSet_eq, evalAnd_eq]
      congr 1
      refine List.map_congr_left fun c hm => ?_
      rcases evaluateSet_le dl m c with h | h
      · exact ih c hm (isTemporal_any cs hc c hm) h
      · exact h
    | or cs ih =>
      simp only [evaluateSet, evaluate, evalOrSet_eq, evalOr_eq]
      congr 1
      refine List.map_congr_left fun c hm => ?_
      rcases evaluateSet_le dl m c with h | h
      · exact ih c hm (isTemporal_any cs hc c hm) h
      · exact h
    | bool | dead | cmp | cc => rfl
    | _ => simp [Cond.isTemporal] at hc
  · exact h

/-! Non-vacuity -/

/-- `2*p0 + 3 - p1 <= 7 and not (p2 = 1)` -/
private def exC : Cond :=
  .and [.cmp .le (.sub (mkPlus [mkMul [.lit 2, .id 0], .lit 3]) [.id 1]) (.lit 7),
        .not (.cmp .eq (.id 2) (.lit 1))]

example : exC.isTemporal = false := by decide +kernel
example : evaluate false (fun p => p + 1) exC = .rTrue ∧ evaluate false (fun p => 5 - p) exC = .rFalse := by
  decide +kernel

/-- all three answers occur on temporal formulas -/
example : evaluate false (fun _ => 1) (.EF (.cc [⟨0, 1, 5⟩] false)) = .rTrue ∧
    evaluate false (fun _ => 1) (.AU (.cc [⟨0, 2, 5⟩] false) (.cc [⟨1, 2, 5⟩] false)) = .rFalse ∧
    evaluate false (fun _ => 1) (.AG (.cc [⟨0, 1, 5⟩] false)) = .rUnknown := by decide +kernel

example := C15_predicate_evaluation Examples.net3 Examples.net3_wf Examples.mark3 exC (by decide +kernel)

end EvalProps
end Verif
