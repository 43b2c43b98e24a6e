import Verif.PQL.Merge

/-!
# The formulas the rewriting theorems speak of

`Cond.wf` excludes exactly the two kinds of formulas on which the code is wrong (see the theorems
named `…_finding_…` in `Verif/Props/Rewrite.lean`): comparisons of a place with a constant that is
vacuous or out of the 32-bit range, and comparisons of two products that share a place.  It also
says that the operands of the CTL operators are state formulas.
-/

namespace Verif
namespace PQL

/-- A constraint that fits 32 bits and excludes something. -/
def Cons.ok (c : Cons) : Bool := decide (c.lower ≤ umax) && decide (c.upper ≤ umax) && !c.trivial

/-- `place op k`: the constant is in range. -/
def atomOKl (op : Cmp) (k : Int) : Bool :=
  match op with
  | .le => decide (0 ≤ k ∧ k < 4294967295)
  | .lt => decide (1 ≤ k ∧ k ≤ 4294967295)
  | .eq | .ne => decide (0 ≤ k ∧ k ≤ 4294967295)

/-- `k op place`: the constant is in range. -/
def atomOKr (op : Cmp) (k : Int) : Bool :=
  match op with
  | .le => decide (1 ≤ k ∧ k ≤ 4294967295)
  | .lt => decide (0 ≤ k ∧ k < 4294967295)
  | .eq | .ne => decide (0 ≤ k ∧ k ≤ 4294967295)

/-- Two products compared must not share a place. -/
def mulOK : Expr → Expr → Bool
  | .mul _ ids _, .mul _ ids' _ => ids.all fun p => !ids'.contains p
  | _, _ => true

def cmpOK (op : Cmp) (e1 e2 : Expr) : Bool :=
  mulOK e1 e2 &&
  (!(e1.isId && e2.placeFree) || atomOKl op (e2.val (fun _ => 0))) &&
  (!(e2.isId && e1.placeFree) || atomOKr op (e1.val (fun _ => 0)))

mutual
def Cond.wf : Cond → Bool
  | .bool _ => true
  | .dead => true
  | .cmp op e1 e2 => cmpOK op e1 e2
  | .cc l _ => l.all Cons.ok
  | .not c => c.wf
  | .and cs => wfL cs
  | .or cs => wfL cs
  | .EX c | .AX c | .EF c | .AF c | .EG c | .AG c => c.wf && c.isState
  | .EU c d | .AU c d => c.wf && c.isState && d.wf && d.isState
  | .E c | .A c => c.wf
  | .X c | .F c | .G c => c.wf
  | .U c d => c.wf && d.wf
def wfL : List Cond → Bool
  | [] => true
  | c :: cs => c.wf && wfL cs
end

theorem wfL_iff (cs : List Cond) : wfL cs = true ↔ ∀ c ∈ cs, c.wf = true := by
  induction cs with
  | nil => simp [wfL]
  | cons c cs ih => simp [wfL, ih]

/-- 32-bit markings -/
def Mark32 (m : Mark) : Prop := ∀ p, m p ≤ umax

end PQL
end Verif
