import Verif.LTL.SpotLps
import Verif.LTL.Engine

/-! # Simplification and engine together -/

namespace Verif
namespace LTL
open PQL CTL Simp

/-- models src/VerifyPN.cpp:395-487 with src/main.cpp:242-270 and 423: the query is simplified; a constant is the answer, and otherwise the LTL
engine is asked.  The net is not reduced in between, and no partial-order reduction is used.  `aut` and `reg` are what spot makes of the
simplified query. -/
def answerLtl (e : ECfg) (cfg1 cfg2 : TCfg) (simp : SpotF → SpotF) (o : Oracle) (n depth f1 f2 f3 : Nat) (N : FlatNet)
    (aut : Cond → Buchi) (reg : Cond → Key → Nat) (l0 : List Nat) (fuel : Nat) (q : Cond) : Option Bool :=
  let K : RwCtx := ⟨N.deadlocked (toMark l0), toMark l0, true⟩
  match simplifyLtl cfg1 cfg2 simp (chainMid K f1 f2 f3 (lpsStep o n N (toMark l0) depth)) (chainLast K) q with
  | none => none
  | some (.bool b) => some b
  | some r => ltlSolve e N (aut r) (reg r) r l0 fuel

end LTL
end Verif
