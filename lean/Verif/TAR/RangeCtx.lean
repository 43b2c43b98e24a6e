import Verif.TAR.Range
import Verif.PQL.Eval
import Verif.Net.Flat

/-!
# Model: token ranges on which a query is false

Models `src/PetriEngine/TAR/RangeContext.cpp` (a range around a marking on which the query is false) and
`src/PetriEngine/TAR/RangeEvalContext.cpp` (a range sufficient for the query to be false).  Upper-bound queries
are not modelled.  The values cached in the conditions and expressions by `evaluateAndSet` are recomputed.
-/

namespace Verif
namespace TAR
open PQL

/-- What ends a run of the engine without an answer: a net or a query the engine does not accept, a number that
does not fit (a bound of a range or a number of tokens reaching `rmax`, the value that stands for "no bound"; the code
asserts, saturates or wraps),
or the end of the steps the model was given. -/
inductive Err
  | unsupported | overflow | timeout
deriving DecidableEq, Repr

/-- Conversion of an `int64_t` to `uint32_t`. -/
def u32 (i : Int) : Nat := (i % 2 ^ 32).toNat

/-- models include/PetriEngine/TAR/RangeContext.h:29-38: what the visitor reads.  `base` and `marking` are the
same array (src/PetriEngine/TAR/Solver.cpp:411). -/
structure RCtx where
  net : FlatNet
  uses : Nat → Nat
  base : Nat → Nat
  dirty : Nat → Bool

namespace RCtx

/-- models src/PetriEngine/TAR/RangeContext.cpp:170-183: the loop over the places of a sum. -/
def ids (C : RCtx) (lt : Bool) : List Nat → PRVec × Bool → PRVec × Bool
  | [], s => s
  | p :: ps, s =>
    if C.dirty p then (s.1, true)
    else ids C lt ps (s.1.update p fun r =>
      if lt then { r with upper := min (C.base p) r.upper } else { r with lower := max (C.base p) r.lower }, s.2)

mutual
/-- models src/PetriEngine/TAR/RangeContext.cpp:145-204: expressions, under the bound `limit` and the direction
`lt`. -/
def expr (C : RCtx) (lt : Bool) (limit : Int) : Expr → PRVec × Bool → PRVec × Bool
  | .lit _, s => s
  | .id p, s =>
    if C.dirty p then (s.1, true)
    else (s.1.update p fun r =>
      if lt then { r with upper := min r.upper (u32 limit) } else { r with lower := max r.lower (u32 limit) }, s.2)
  | .plus _ is es, s =>
    if (is.any fun p => C.dirty p) then ids C lt is s
    else exprs C lt es (ids C lt is s)
  | .mul _ _ _, s => (s.1, true)
  | .sub _ _, s => (s.1, true)
  | .minus _, s => (s.1, true)
/-- the loop over the expressions of a sum, src/PetriEngine/TAR/RangeContext.cpp:184-188 -/
def exprs (C : RCtx) (lt : Bool) : List Expr → PRVec × Bool → PRVec × Bool
  | [], s => s
  | e :: es, s =>
    let s' := expr C lt (evalExpr C.base e) e s
    if s'.2 then s' else exprs C lt es s'
end

/-- models src/PetriEngine/TAR/RangeContext.cpp:24-48 (`handle_compare`). -/
def cmp (C : RCtx) (left right : Expr) (strict : Bool) (s : PRVec × Bool) : PRVec × Bool :=
  let vl := evalExpr C.base left
  let vr := evalExpr C.base right
  if right.placeFree then expr C false (vr + if strict then 0 else 1) left s
  else if left.placeFree then expr C true (vl - if strict then 0 else 1) right s
  else expr C true vr right (expr C false (vr + if strict then 0 else 1) left s)

/-- models src/PetriEngine/TAR/RangeContext.cpp:265-291: the loop over the constraints of a conjunction.  The
range picked and its priority; `none` when a range already excludes the conjunction. -/
def ccPos (C : RCtx) : List Cons → PRVec → PRange × Nat → PRVec × Option (PRange × Nat)
  | [], v, pr => (v, some pr)
  | c :: cs, v, pr =>
    if c.lower > C.base c.place then
      let v := v.update c.place id
      if v.upper c.place ≤ c.lower - 1 then (v, none)
      else ccPos C cs v (if !C.dirty c.place && decide (pr.2 < C.uses c.place) then
        (⟨c.place, ⟨0, c.lower - 1⟩⟩, C.uses c.place) else pr)
    else if c.upper < C.base c.place then
      let v := v.update c.place id
      if v.lower c.place ≥ c.upper + 1 then (v, none)
      else ccPos C cs v (if !C.dirty c.place && decide (pr.2 < C.uses c.place) then
        (⟨c.place, ⟨c.upper + 1, rmax⟩⟩, C.uses c.place) else pr)
    else ccPos C cs v pr

/-- models src/PetriEngine/TAR/RangeContext.cpp:292-304: the loop over the constraints of a negated conjunction.
The bounds are those of the constraint: `pr` is the default range here. -/
def ccNeg (C : RCtx) : List Cons → PRVec → PRVec × Bool
  | [], v => (v, false)
  | c :: cs, v =>
    let v := v.update c.place fun _ => ⟨max c.lower 0, min c.upper rmax⟩
    if C.dirty c.place then (v, true) else ccNeg C cs v

/-- models src/PetriEngine/TAR/RangeContext.cpp:259-318 (`CompareConjunction`). -/
def cc (C : RCtx) (l : List Cons) (neg : Bool) (s : PRVec × Bool) : PRVec × Bool :=
  if neg then ((ccNeg C l s.1).1, s.2 || (ccNeg C l s.1).2)
  else match ccPos C l s.1 (⟨rmax, {}⟩, 0) with
    | (v, none) => (v, s.2)
    | (v, some pr) =>
      if pr.2 = 0 then (v, true)
      else ((v.update pr.1.place fun _ => pr.1.range).compact, s.2)

/-- models src/PetriEngine/TAR/RangeContext.cpp:213-241: the loop over the transitions: the candidate with its
priority, and whether a dirty place was met. -/
def deadCand (C : RCtx) : Nat → Nat → Nat × Nat × Bool → Nat × Nat × Bool
  | 0, _, s => s
  | n + 1, t, s =>
    let pre := C.net.preset t
    let enabled := pre.all fun i => !decide (C.base i.place < i.tokens)
    let dirty := pre.any fun i => C.dirty i.place
    let s := (s.1, s.2.1, s.2.2 || dirty)
    if !(enabled && !dirty) then deadCand C n (t + 1) s
    else
      let sum := (pre.map fun i => C.uses i.place).foldl (· + ·) 0
      deadCand C n (t + 1) (if sum > s.2.1 then (t, sum, s.2.2) else s)

/-- models src/PetriEngine/TAR/RangeContext.cpp:243-249: the ranges of the preset of the candidate. -/
def deadPre : List Invariant → PRVec → PRVec
  | [], v => v
  | i :: is, v => deadPre is (v.update i.place fun r => { r with lower := max i.tokens r.lower })

/-- models src/PetriEngine/TAR/RangeContext.cpp:207-257 (`DeadlockCondition`); without a candidate the last
assertion fails and nothing happens. -/
def dead (C : RCtx) (s : PRVec × Bool) : PRVec × Bool :=
  let r := deadCand C C.net.ntransitions 0 (0, 0, false)
  if r.2.1 ≠ 0 then (deadPre (C.net.preset r.1) s.1, s.2)
  else if r.2.2 then (s.1, true)
  else s

/-- models src/PetriEngine/TAR/RangeContext.cpp:80-99: the priority of a range. -/
def sumUses (C : RCtx) (v : PRVec) : Nat := (v.map fun e => C.uses e.place).foldl (· + ·) 0

/-- models src/PetriEngine/TAR/RangeContext.cpp:76-101: keep the best range found so far. -/
def better (C : RCtx) (v : PRVec) (best : Option PRVec) : Option PRVec :=
  match best with
  | none => some v
  | some b =>
    if v.length < b.length then some v
    else if v.length = b.length ∧ C.sumUses v > C.sumUses b then some v
    else some b

/-- `PetriEngine::PQL::evaluateAndSet(e, ctx)` in the marking of the context. -/
def eval (C : RCtx) (c : Cond) : Res := evaluateSet (C.net.deadlocked C.base) C.base c

mutual
/-- models src/PetriEngine/TAR/RangeContext.cpp:51-318: conditions.  The state is the vector of ranges and the
flag `_is_dirty`. -/
def cond (C : RCtx) : Cond → PRVec × Bool → Except Err (PRVec × Bool)
  | .dead, s => .ok (dead C s)
  | .cmp .eq _ _, s => .ok (s.1, true)
  | .cmp .ne _ _, s => .ok (s.1, true)
  | .cmp .lt a b, s => .ok (cmp C a b true s)
  | .cmp .le a b, s => .ok (cmp C a b false s)
  | .cc l n, s => .ok (cc C l n s)
  | .and cs, s =>
    if eval C (.and cs) = .rTrue then .ok s
    else do
      match ← ands C cs s.1 none with
      | some v => pure (v, s.2)
      | none => pure (s.1, true)
  | .or cs, s => ors C cs s
  | _, _ => .error .unsupported
/-- the loop of `AndCondition`, src/PetriEngine/TAR/RangeContext.cpp:68-103: every false condition is tried from
the same ranges -/
def ands (C : RCtx) : List Cond → PRVec → Option PRVec → Except Err (Option PRVec)
  | [], _, best => .ok best
  | c :: cs, v, best =>
    if eval C c = .rFalse then do
      let s ← cond C c (v, false)
      ands C cs v (if s.2 then best else better C s.1 best)
    else ands C cs v best
/-- the loop of `OrCondition`, src/PetriEngine/TAR/RangeContext.cpp:114-123 -/
def ors (C : RCtx) : List Cond → PRVec × Bool → Except Err (PRVec × Bool)
  | [], s => .ok s
  | c :: cs, s => do
    let s' ← cond C c s
    if s'.2 then pure s' else ors C cs s'
end

end RCtx

/-! ## `RangeEvalContext` -/

/-- models include/PetriEngine/TAR/RangeEvalContext.h:26-33: the data the visitor writes.  `res` and `lit` are not
initialised by the constructor. -/
structure RE where
  suff : PRVec
  res : Bool
  lit : Int
  places : List Nat

/-- What `RangeEvalContext` reads. -/
structure ECtx where
  ranges : PRVec
  uses : Nat → Nat

namespace ECtx

mutual
/-- models src/PetriEngine/TAR/RangeEvalContext.cpp:219-257: expressions. -/
def expr : Expr → RE → RE
  | .lit v, s => { s with lit := v }
  | .id p, s => { s with places := s.places ++ [p] }
  | .plus k is es, s =>
    let s := exprs es s
    { s with lit := s.lit + k, places := s.places ++ is }
  | .mul _ _ _, s => { s with res := true }
  | .sub _ _, s => { s with res := true }
  | .minus _, s => { s with res := true }
def exprs : List Expr → RE → RE
  | [], s => s
  | e :: es, s => exprs es (expr e s)
end

/-- models src/PetriEngine/TAR/RangeEvalContext.cpp:82-91: the loop over the places below a constant. -/
def below (val : Int) : List Nat → RE → RE
  | [], s => s
  | p :: ps, s =>
    if val > s.suff.upper p then { s with res := true }
    else below val ps { s with suff := s.suff.andPlace ⟨p, ⟨u32 val, rmax⟩⟩ }

/-- models src/PetriEngine/TAR/RangeEvalContext.cpp:104-113: the loop over the places above a constant. -/
def above (val : Int) : List Nat → RE → RE
  | [], s => s
  | p :: ps, s =>
    if val < s.suff.lower p then { s with res := true }
    else above val ps { s with suff := s.suff.andPlace ⟨p, ⟨0, u32 val⟩⟩ }

/-- models src/PetriEngine/TAR/RangeEvalContext.cpp:65-121 (`handle_compare`). -/
def cmp (left right : Expr) (strict : Bool) (s : RE) : RE :=
  let s := { s with places := [] }
  if right.placeFree then
    let s := expr right s
    let cnst := s.lit
    let s := expr left { s with lit := 0 }
    below (cnst - s.lit + if strict then 0 else 1) s.places s
  else if left.placeFree then
    let s := expr left s
    let cnst := s.lit
    let s := expr right { s with lit := 0 }
    above (cnst + if strict then 1 else 0) s.places s
  else { s with res := true }

/-- models src/PetriEngine/TAR/RangeEvalContext.cpp:152-172: the loop for a negated conjunction. -/
def ccNeg (E : ECtx) : List Cons → RE → RE
  | [], s => { s with res := false }
  | c :: cs, s =>
    match E.ranges.find? c.place with
    | none => { s with res := true }
    | some r =>
      if r.upper < c.lower ∨ c.upper < r.lower then { s with res := true }
      else ccNeg E cs { s with suff := s.suff.andPlace ⟨c.place, ⟨c.lower, c.upper⟩⟩ }

/-- models src/PetriEngine/TAR/RangeEvalContext.cpp:152-216: the loop for a conjunction; `tmp` is the range
picked (`found`). -/
def ccPos (E : ECtx) : List Cons → Option PRange → RE → RE
  | [], tmp, s =>
    match tmp with
    | some t => { s with suff := s.suff.andPlace t, res := false }
    | none => { s with res := true }
  | c :: cs, tmp, s =>
    match E.ranges.find? c.place with
    | none => ccPos E cs tmp s
    | some r =>
      if !(decide (r.lower ≤ c.upper) && decide (c.lower ≤ r.upper)) then
        if r.upper < c.lower then
          if s.suff.upper c.place < c.lower then { s with res := false }
          else ccPos E cs (match tmp with
            | none => some ⟨c.place, ⟨0, c.lower - 1⟩⟩
            | some t => if E.uses c.place > E.uses t.place ∧ !t.range.noUpper then
                some ⟨c.place, ⟨0, c.lower - 1⟩⟩ else some t) { s with res := false }
        else
          if s.suff.lower c.place > c.lower then { s with res := false }
          else ccPos E cs (match tmp with
            | none => some ⟨c.place, ⟨c.upper + 1, rmax⟩⟩
            | some t => if E.uses c.place > E.uses t.place ∨ !t.range.noUpper then
                some ⟨c.place, ⟨c.upper + 1, rmax⟩⟩ else some t) { s with res := false }
      else ccPos E cs tmp s

mutual
/-- models src/PetriEngine/TAR/RangeEvalContext.cpp:24-217: conditions. -/
def cond (E : ECtx) : Cond → RE → Except Err RE
  | .dead, s => .ok { s with res := true }
  | .cmp .eq _ _, s => .ok { s with res := true }
  | .cmp .ne _ _, s => .ok { s with res := true }
  | .cmp .lt a b, s => .ok (cmp a b true s)
  | .cmp .le a b, s => .ok (cmp a b false s)
  | .cc l n, s => .ok (if n then ccNeg E l s else ccPos E l none s)
  | .and cs, s => ands E s.suff cs none s
  | .or cs, s => ors E s.suff cs s
  | _, _ => .error .unsupported
/-- the loop of `AndCondition`, src/PetriEngine/TAR/RangeEvalContext.cpp:25-48: a condition found false is visited
twice -/
def ands (E : ECtx) (suff : PRVec) : List Cond → Option PRVec → RE → Except Err RE
  | [], best, s =>
    .ok (match best with
      | some b => { s with suff := b, res := false }
      | none => { s with suff := suff, res := true })
  | c :: cs, best, s => do
    let s1 ← cond E c s
    if s1.res then ands E suff cs best s1
    else do
      let s2 ← cond E c s1
      let best' := match best with
        | none => s2.suff
        | some b => if s2.suff.length < b.length then s2.suff else b
      ands E suff cs (some best') { s2 with suff := suff }
/-- the loop of `OrCondition`, src/PetriEngine/TAR/RangeEvalContext.cpp:50-63 -/
def ors (E : ECtx) (suff : PRVec) : List Cond → RE → Except Err RE
  | [], s => .ok { s with res := false }
  | c :: cs, s => do
    let s' ← cond E c s
    if s'.res then pure { s' with suff := suff } else ors E suff cs s'
end

end ECtx
end TAR
end Verif
