import Verif.LTL.Formula
import Verif.PQL.Merge

/-!
# Simplification of LTL queries with the library spot

Models src/LTL/Simplification/SpotToPQL.cpp and `simplify_ltl_query` of src/VerifyPN.cpp.
-/

namespace Verif
namespace LTL
open PQL

mutual
/-- models src/LTL/Simplification/SpotToPQL.cpp:30-122 (`toPQL`); `none` is the exception for a proposition that is not in the table.  The
operators for which it throws do not occur in `SpotF`: `unabbreviate` has removed them (line 135). -/
def toPQL (st : APInfo) : SpotF → Option Cond
  | .tt => some (.bool true)
  | .ff => some (.bool false)
  | .ap k => (st.find? fun e => e.1 == k).map Prod.snd
  | .not f => (toPQL st f).map .not
  | .and fs => (toPQLs st fs).map fun cs => .and (logOperands false cs)
  | .or fs => (toPQLs st fs).map fun cs => .or (logOperands true cs)
  | .X f => (toPQL st f).map .X
  | .F f => (toPQL st f).map .F
  | .G f => (toPQL st f).map .G
  | .U f g => (toPQL st f).bind fun c => (toPQL st g).map fun d => .U c d
/-- the operands -/
def toPQLs (st : APInfo) : List SpotF → Option (List Cond)
  | [] => some []
  | f :: fs => (toPQL st f).bind fun c => (toPQLs st fs).map fun cs => c :: cs
end

/-- models src/LTL/Simplification/SpotToPQL.cpp:124-137 (`simplify`); `simp` is what spot's simplifier and `unabbreviate` do -/
def spotSimplify (cfg : TCfg) (simp : SpotF → SpotF) : Cond → Option Cond
  | .E c => (spotSimplify cfg simp c).map .E
  | .A c => (spotSimplify cfg simp c).map .A
  | c => toPQL (toSpot cfg c []).2 (simp (toSpot cfg c []).1)

/-- models src/VerifyPN.cpp:403-425: the path quantifier is taken off; other queries count as being about all paths (named paths are left
out) -/
def strip : Cond → Bool × Cond
  | .A c => (true, c)
  | .E c => (false, c)
  | c => (true, c)

/-- models src/VerifyPN.cpp:462-477: it is put back, except in front of constants -/
def wrap (all : Bool) : Cond → Cond
  | .bool b => .bool b
  | c => if all then .A c else .E c

/-- models src/VerifyPN.cpp:395-487 (`simplify_ltl_query`).  `mid` are the rewriting and simplification between the two calls of spot
(lines 435-453; C18 and C22), and `last` is the look at the initial marking (line 460); the configurations of the translation may differ, as
they depend on the size of the formula. -/
def simplifyLtl (cfg1 cfg2 : TCfg) (simp : SpotF → SpotF) (mid last : Cond → Option Cond) (q : Cond) : Option Cond :=
  (spotSimplify cfg1 simp (strip q).2).bind fun c1 =>
  (mid c1).bind fun c2 =>
  (spotSimplify cfg2 simp c2).bind fun c3 =>
  (last c3).map fun c4 => wrap (strip q).1 c4

/-! ### Specification -/

mutual
/-- the propositions of a formula -/
def SpotF.keys : SpotF → List Key
  | .tt | .ff => []
  | .ap k => [k]
  | .not f | .X f | .F f | .G f => f.keys
  | .and fs | .or fs => keysL fs
  | .U f g => f.keys ++ g.keys
def keysL : List SpotF → List Key
  | [] => []
  | f :: fs => f.keys ++ keysL fs
end

/-- Specification, the contract of spot's simplifier: the meaning stays, and no propositions are invented. -/
structure SimpOK (simp : SpotF → SpotF) : Prop where
  same : ∀ f v i, (simp f).sat v i ↔ f.sat v i
  keys : ∀ f k, k ∈ (simp f).keys → k ∈ f.keys

end LTL
end Verif
