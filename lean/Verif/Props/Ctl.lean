import Verif.PQL.CtlVisit

/-!
# C61: which queries are CTL, and their conversion
-/

namespace Verif
namespace CtlProps
open PQL Ctl

/-- **C61**, conversion.  Every CTL formula in the notation of CTL* (each quantifier directly above one path operator)
is converted to a formula with CTL operators only.  The formula has the same meaning on every path of every transition
system, if no quantifier is above a `next` operator or the system has no deadlock (in a deadlock a path stays for ever,
but there is no next state). -/
theorem C61_conversion (c : Cond) (h : shape c = true) :
    ∃ d, asCTL c = some d ∧ Ctl.pure d = true ∧
      ∀ (T : TS), (noNext c = true ∨ ∀ m, ¬ T.Dead m) → ∀ π, d.sat T π ↔ c.sat T π := by
  obtain ⟨d, h1, h2, h3⟩ := (asCTL_conv c).1 h
  exact ⟨d, h1, h2, fun T hT π => (h3 T π).trans ((ctlOf_sat c hT).1 π)⟩

/-- **C61**, the check is complete: every such formula is accepted (no conjunction or disjunction may be empty). -/
theorem C61_check_complete (t : Ty) (c : Cond) (hp : plain c = true) (h : shape c = true) : isCTL t c = true :=
  (isCTL_iff t c hp).2 (Or.inl h)

/-- **C61**, the check.  Full statement: a formula is accepted exactly if it is a CTL formula,
`isCTL t c = true ↔ shape c = true`.  It is false of the code (`C61_finding_path_formula_accepted`,
`C61_finding_until_operand_not_checked`, `C61_finding_type_not_initialised`).  What holds, if the conjunctions and
disjunctions are not empty and the second operands of `EU` and `AU` are CTL formulas: the accepted formulas are the
CTL formulas and the formulas that are one path operator on top of CTL formulas. -/
theorem C61_check_partial (t : Ty) (c : Cond) (h : plain c = true) :
    isCTL t c = true ↔ shape c = true ∨ pshape c = true :=
  isCTL_iff t c h

/-- **C61**, check and conversion together: an accepted formula whose top is not a path operator is converted. -/
theorem C61_accepted_partial (t : Ty) (c : Cond) (hp : plain c = true) (h : isCTL t c = true)
    (ht : pshape c = false) :
    ∃ d, asCTL c = some d ∧ Ctl.pure d = true ∧
      ∀ (T : TS), (noNext c = true ∨ ∀ m, ¬ T.Dead m) → ∀ π, d.sat T π ↔ c.sat T π := by
  rcases (isCTL_iff t c hp).1 h with h | h
  · exact C61_conversion c h
  · rw [ht] at h; cases h

/-- Non-vacuity: `A G E F (p0 ≥ 1)`. -/
example : isCTL .error (.A (.G (.E (.F (.cmp .le (.lit 1) (.id 0)))))) = true ∧
    asCTL (.A (.G (.E (.F (.cmp .le (.lit 1) (.id 0)))))) = some (.AG (.EF (.cmp .le (.lit 1) (.id 0)))) := ⟨rfl, rfl⟩
example : plain (.A (.G (.E (.F (.cmp .le (.lit 1) (.id 0)))))) = true ∧
    shape (.A (.G (.E (.F (.cmp .le (.lit 1) (.id 0)))))) = true ∧
    noNext (.A (.G (.E (.F (.cmp .le (.lit 1) (.id 0)))))) = true := ⟨rfl, rfl, rfl⟩
/-- Non-vacuity: formulas that are rejected. -/
example : isCTL .boolean (.A (.G (.F .dead))) = false ∧ isCTL .path (.A (.not (.G .dead))) = false ∧
    isCTL .path (.E (.and [.F .dead, .G .dead])) = false := ⟨rfl, rfl, rfl⟩

/-- The system with one state and no step. -/
def stuck : TS := { step := fun _ _ => False }

/-- The condition about deadlocks is needed: in a deadlock `E X true` holds of the only path but is converted to
`EX true`, which does not hold. -/
theorem C61_next_in_deadlock :
    asCTL (.E (.X (.bool true))) = some (.EX (.bool true)) ∧
    (Cond.E (.X (.bool true))).sat stuck (fun _ _ => 0) ∧ ¬ (Cond.EX (.bool true)).sat stuck (fun _ _ => 0) := by
  refine ⟨rfl, ⟨fun _ _ => 0, fun i => Or.inr ⟨fun m h => h, rfl⟩, rfl, rfl⟩, ?_⟩
  rintro ⟨_, _, h, _⟩
  exact h

/-- **Finding.**  `isCTL` does not look at the type of the whole query: every path operator on top of CTL formulas is
accepted, and the conversion gives a null pointer. -/
theorem C61_finding_path_formula_accepted (t : Ty) (c : Cond) (hp : plain c = true) (h : pshape c = true) :
    isCTL t c = true ∧ asCTL c = none := by
  refine ⟨(isCTL_iff t c hp).2 (Or.inr h), ?_⟩
  cases c <;> first | rfl | simp [pshape] at h

example : isCTL .boolean (.F .dead) = true ∧ asCTL (.F .dead) = none := ⟨rfl, rfl⟩

/-- **Finding.**  The second operand of `EU` and `AU` is not visited: whatever it is, the formula is accepted if the
first operand is a CTL formula.  With a path formula as the second operand the conversion gives a null pointer. -/
theorem C61_finding_until_operand_not_checked (t : Ty) (c d : Cond) (hp : plain c = true) (h : shape c = true) :
    isCTL t (.EU c d) = true ∧ isCTL t (.AU c d) = true ∧
    (pshape d = true → asCTL (.EU c d) = none ∧ asCTL (.AU c d) = none) := by
  have hv := (visit_out c hp).need.1 h ⟨t, true⟩
  refine ⟨?_, ?_, fun hd => ?_⟩
  · simp only [isCTL, visit, hv]
  · simp only [isCTL, visit, hv]
  · have : asCTL d = none := by cases d <;> first | rfl | simp [pshape] at hd
    simp only [asCTL, this, Option.map_none]
    cases asCTL c <;> exact ⟨rfl, rfl⟩

/-- **Finding.**  The type is not initialised and an empty conjunction leaves it so: whether the query `not (and [])`
is accepted depends on the initial content of the field. -/
theorem C61_finding_type_not_initialised :
    isCTL .boolean (.not (.and [])) = true ∧ isCTL .path (.not (.and [])) = false := ⟨rfl, rfl⟩

/-- **Finding.**  The conversion looks at the path operator of the operand of a quantifier only, so without the check
`A E F p` becomes `A F p`. -/
theorem C61_finding_quantifier_dropped :
    asCTL (.A (.EF .dead)) = some (.AF .dead) ∧ isCTL .boolean (.A (.EF .dead)) = false := ⟨rfl, rfl⟩

end CtlProps
end Verif
