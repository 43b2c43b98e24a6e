import Verif.Spec.Coloured
import Verif.XCol.Search

/-!
# Specification: reachability queries of coloured nets

The truth of propositions in markings of coloured nets.  Only the syntax is shared with the model of the engine.
-/

namespace Verif
namespace XCol
open CPN

/-- The transition can fire. -/
def CanFire (N : CNet) (M : CMark) (t : Nat) : Prop := ∃ ρ M', N.Step M t ρ M'

/-- The value of an operand of a comparison: the number of tokens of a place, whatever their colours, or a number. -/
def QVal.sem (N : CNet) (M : CMark) : QVal → Int
  | .place p => N.total M p
  | .lit k => k

/-- The truth of a proposition in a marking. -/
def XQ.holds (N : CNet) (M : CMark) : XQ → Prop
  | .and a b => a.holds N M ∧ b.holds N M
  | .or a b => a.holds N M ∨ b.holds N M
  | .not a => ¬a.holds N M
  | .lt x y => x.sem N M < y.sem N M
  | .le x y => x.sem N M ≤ y.sem N M
  | .eq x y => x.sem N M = y.sem N M
  | .ne x y => x.sem N M ≠ y.sem N M
  | .dead => ∀ t, ¬CanFire N M t
  | .fire t => CanFire N M t

/-- Literals that an `uint32_t` holds. -/
def QVal.fine : QVal → Prop
  | .place _ => True
  | .lit k => 0 ≤ k ∧ k < 2 ^ 32

/-- All literals are numbers from 0 on. -/
def XQ.fine : XQ → Prop
  | .and a b => a.fine ∧ b.fine
  | .or a b => a.fine ∧ b.fine
  | .not a => a.fine
  | .lt x y => x.fine ∧ y.fine
  | .le x y => x.fine ∧ y.fine
  | .eq x y => x.fine ∧ y.fine
  | .ne x y => x.fine ∧ y.fine
  | .dead => True
  | .fire _ => True

/-- The meaning of a query: the proposition holds in some reachable marking (`ef`), or in all. -/
def Holds (N : CNet) (ef : Bool) (q : XQ) : Prop :=
  if ef then ∃ M, N.Reach M ∧ q.holds N M else ∀ M, N.Reach M → q.holds N M

end XCol
end Verif
