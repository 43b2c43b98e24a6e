import Verif.XCol.Ignorant
import Verif.Spec.Coloured
import Verif.XCol.Search
import Verif.PQL.PushNeg
import Verif.PQL.Shorthand
import Verif.Search.Model
import Verif.Simp.Model

/-!
# The verdicts that the explicit coloured engine draws from the net without colours

Models `checkFireabilityColorIgnorantLP` and `checkCardinalityColorIgnorantLP`
(src/PetriEngine/ExplicitColored/ExplicitColoredModelChecker.cpp:108-239), `fireabilityEvaluate`
(src/PetriEngine/ExplicitColored/IgnorantFireabilityVisitor.cpp) and `FireabilitySearch`
(src/PetriEngine/ExplicitColored/Algorithms/FireabilitySearch.cpp).
-/

namespace Verif
namespace XCol
open PQL Search
open CPN

/-! ## The evaluation -/

/-- models IgnorantFireabilityVisitor.cpp:67-81: does some lower bound fail? -/
def lowerFails (m : Mark) (l : List Cons) : Bool := l.any fun c => decide (m c.place < c.lower)

/-- The negation is turned around in front of `EF` only, IgnorantFireabilityVisitor.cpp:99-109. -/
def flipEF (c : Cond) (r : Res) : Res := if c.isEF then r.neg else r

mutual
/-- models IgnorantFireabilityVisitor.cpp:10-127 (`fireabilityEvaluate`). -/
def fe (m : Mark) : Cond → Res
  | .bool b => Res.ofBool b
  | .dead => .rUnknown
  | .cmp _ _ _ => .rUnknown
  | .cc l n => if lowerFails m l then Res.ofBool n else .rUnknown
  | .not c => flipEF c (fe m c)
  | .and cs => feAnd m .rTrue cs
  | .or cs => feOr m .rFalse cs
  | .EF c => fe m c
  | .E c => fe m c
  | .EX _ => .rUnknown
  | .AX _ => .rUnknown
  | .AF _ => .rUnknown
  | .EG _ => .rUnknown
  | .AG _ => .rUnknown
  | .EU _ _ => .rUnknown
  | .AU _ _ => .rUnknown
  | .A _ => .rUnknown
  | .X _ => .rUnknown
  | .F _ => .rUnknown
  | .G _ => .rUnknown
  | .U _ _ => .rUnknown
/-- the loop of `AndCondition`, IgnorantFireabilityVisitor.cpp:40-51 -/
def feAnd (m : Mark) (res : Res) : List Cond → Res
  | [] => res
  | c :: cs => if fe m c = .rFalse then .rFalse else feAnd m (if fe m c = .rUnknown then .rUnknown else res) cs
/-- the loop of `OrCondition`, IgnorantFireabilityVisitor.cpp:53-64 -/
def feOr (m : Mark) (res : Res) : List Cond → Res
  | [] => res
  | c :: cs => if fe m c = .rTrue then .rTrue else feOr m (if fe m c = .rUnknown then .rUnknown else res) cs
end

/-! ## The search -/

/-- models FireabilitySearch.cpp:23-38: one query at one marking. -/
def feStep (m : Mark) (q : Cond) (r : Answer) : Answer :=
  if r = .unknown then
    match fe m q with
    | .rTrue => .satisfied
    | .rUnknown => .ignore
    | .rFalse => .unknown
  else r

/-- models FireabilitySearch.cpp:11-39 (`checkQueries`) for the markings in the order in which `tryReach` meets them
(include/PetriEngine/Reachability/ReachabilitySearch.h:160-230; the order is given, C09 and C10 are about it): the queries with their
results.  `timeout k` says whether the k-th call finds that the time is up.  At the end of the search the queries still open are not
satisfied. -/
def feSearch (timeout : Nat → Bool) : Nat → List Mark → List (Cond × Answer) → List Answer
  | _, [], qs => qs.map fun q => if q.2 = .unknown then .notSatisfied else q.2
  | k, m :: ms, qs =>
    if timeout k then qs.map fun _ => .ignore
    else
      let qs' := qs.map fun q => (q.1, feStep m q.1 q.2)
      if qs'.any fun q => q.2 = .unknown then feSearch timeout (k + 1) ms qs' else qs'.map Prod.snd

/-! ## The verdicts -/

/-- models ExplicitColoredModelChecker.cpp:169-175: the verdict for the results of the first two queries. -/
def fireVerdict (isEf : Bool) (r0 r1 : Answer) : Verdict3 :=
  if r0 = .satisfied then (if isEf then .satisfied else .notSatisfied)
  else if r1 = .notSatisfied then (if isEf then .notSatisfied else .satisfied)
  else .unknown

/-- The two queries of ExplicitColoredModelChecker.cpp:149-153: `AG` and `EF` of the formula under `EF`; `none`: no fuel. -/
def fireQueries (K : RwCtx) (fuel : Nat) (a : Cond) : Option (Cond × Cond) :=
  match pushNegation K fuel false false (.AG a), pushNegation K fuel false false (.EF a) with
  | some q0, some q1 => some (q0, q1)
  | _, _ => none

/-- models ExplicitColoredModelChecker.cpp:108-176 (`checkFireabilityColorIgnorantLP`) from line 117 on, for the query `q` after the first call of
`pushNegation` (a formula that begins with `EF` or `¬ EF`) and the name resolution.  The third query is a copy whose result is not used, but
which the search waits for. -/
def fireCheck (K : RwCtx) (fuel : Nat) (timeout : Nat → Bool) (visits : List Mark) (q : Cond) : Option Verdict3 :=
  let go := fun (isEf : Bool) (a : Cond) => (fireQueries K fuel a).map fun qs =>
    match feSearch timeout 0 visits [(qs.1, .unknown), (qs.2, .unknown), (q, .unknown)] with
    | r0 :: r1 :: _ => fireVerdict isEf r0 r1
    | _ => .unknown
  match q with
  | .EF a => go true a
  | .not (.EF a) => go false a
  | _ => some .unknown

/-! ## The queries -/

/-- An expression over the numbers of tokens. -/
inductive CE
  | lit (k : Int)
  | tok (p : Nat)
  | add (a b : CE)
  | sub (a b : CE)
  | mul (a b : CE)

/-- Its value in a coloured marking: tokens of all colours count. -/
def CE.val (N : CNet) (M : CMark) : CE → Int
  | .lit k => k
  | .tok p => N.total M p
  | .add a b => a.val N M + b.val N M
  | .sub a b => a.val N M - b.val N M
  | .mul a b => a.val N M * b.val N M

def CE.places : CE → List Nat
  | .lit _ => []
  | .tok p => [p]
  | .add a b => a.places ++ b.places
  | .sub a b => a.places ++ b.places
  | .mul a b => a.places ++ b.places

/-- models src/PetriEngine/PQL/Analyze.cpp:40-141: the expression after the name resolution; `pl` gives the number of the place with the name of
the coloured one. -/
def CE.compile (pl : Nat → Nat) : CE → Expr
  | .lit k => .lit k
  | .tok p => .id (pl p)
  | .add a b => .plus 0 [] [a.compile pl, b.compile pl]
  | .sub a b => .sub (a.compile pl) [b.compile pl]
  | .mul a b => .mul 1 [] [a.compile pl, b.compile pl]

/-- The formula under `EF` of a reachability query, as the query of a coloured net has it. -/
inductive FQ
  | const (b : Bool)
  | fire (t : Nat)
  | cmp (op : Cmp) (a b : CE)
  | not (q : FQ)
  | and (q r : FQ)
  | or (q r : FQ)

/-- What it says of a coloured marking: a transition is fireable if some binding enables it. -/
def FQ.holds (N : CNet) (M : CMark) : FQ → Prop
  | .const b => b = true
  | .fire t => ∃ ρ, N.Legal t ρ ∧ N.Enabled M t ρ
  | .cmp op a b => op.holds (a.val N M) (b.val N M)
  | .not q => ¬ q.holds N M
  | .and q r => q.holds N M ∧ r.holds N M
  | .or q r => q.holds N M ∨ r.holds N M

/-- The transitions asked about. -/
def FQ.fires : FQ → List Nat
  | .const _ => []
  | .fire t => [t]
  | .cmp _ _ _ => []
  | .not q => q.fires
  | .and q r => q.fires ++ r.fires
  | .or q r => q.fires ++ r.fires

/-- There is no comparison. -/
def FQ.noCmp : FQ → Bool
  | .const _ => true
  | .fire _ => true
  | .cmp _ _ _ => false
  | .not q => q.noCmp
  | .and q r => q.noCmp && r.noCmp
  | .or q r => q.noCmp && r.noCmp

/-- The places asked about. -/
def FQ.places : FQ → List Nat
  | .const _ => []
  | .fire _ => []
  | .cmp _ a b => a.places ++ b.places
  | .not q => q.places
  | .and q r => q.places ++ r.places
  | .or q r => q.places ++ r.places

/-- models src/PetriEngine/PQL/Analyze.cpp:40-192: the formula after the name resolution in the net without colours; `tr` gives the number
of the transition with the name of the coloured one, `pl` that of the place. -/
def FQ.compile (F : FlatNet) (tr pl : Nat → Nat) : FQ → Cond
  | .const b => .bool b
  | .fire t => Shorthand.fireable F (tr t)
  | .cmp op a b => .cmp op (a.compile pl) (b.compile pl)
  | .not q => .not (q.compile F tr pl)
  | .and q r => .and [q.compile F tr pl, r.compile F tr pl]
  | .or q r => .or [q.compile F tr pl, r.compile F tr pl]

/-! ## Cardinality queries -/

/-- The query is a constant (ExplicitColoredModelChecker.cpp:226-237 compares with the shared constants). -/
def isConst (b : Bool) : Cond → Bool
  | .bool b' => b == b'
  | _ => false

/-- models ExplicitColoredModelChecker.cpp:226-238: the verdict for the two simplified queries. -/
def cardVerdict (isEf : Bool) (q0 q1 : Cond) : Verdict3 :=
  if isConst true q0 = true ∧ isEf = false then .satisfied
  else if isConst false q0 = true ∧ isEf = true then .notSatisfied
  else if isConst true q1 = true ∧ isEf = false then .notSatisfied
  else if isConst true q1 = true ∧ isEf = true then .satisfied
  else .unknown

/-- models ExplicitColoredModelChecker.cpp:182-239 (`checkCardinalityColorIgnorantLP`) for the query `q` after the first call of `pushNegation`
and the name resolution; `S` is what lines 208-225 do with a query. -/
def cardCheck (S : Cond → Option Cond) (K : RwCtx) (fuel : Nat) (q : Cond) : Option Verdict3 :=
  let go := fun (isEf : Bool) (q1 : Cond) =>
    match S q, S q1 with
    | some r0, some r1 => some (cardVerdict isEf r0 r1)
    | _, _ => none
  match q with
  | .EF a => (pushNegation K fuel false false (.AG a)).bind (go true)
  | .not (.EF a) => (pushNegation K fuel false false (.AG a)).bind (go false)
  | q => go false q

/-- models ExplicitColoredModelChecker.cpp:208-224: the evaluation in the initial marking. -/
def atInit (F : FlatNet) (m0 : Mark) (q : Cond) : Cond :=
  match evaluate (F.deadlocked m0) m0 q with
  | .rTrue => .bool true
  | .rFalse => .bool false
  | .rUnknown => q

/-- models ExplicitColoredModelChecker.cpp:208-225 with src/VerifyPN.cpp:596-620 (`simplify_queries` for one query): evaluation, rewriting,
linear programs (unless the time is up, `lp`), rewriting. -/
def cardSimp (o : Simp.Oracle) (fuel : Nat) (F : FlatNet) (m0 : Mark) (lp : Bool) (q : Cond) : Option Cond :=
  let K : RwCtx := ⟨F.deadlocked m0, m0, true⟩
  (pushNegation K fuel false false (atInit F m0 q)).bind fun q1 =>
    if lp then (Simp.simplify o fuel F m0 fuel [] false q1).bind fun r => pushNegation K fuel false false r.formula
    else some q1

end XCol
end Verif
