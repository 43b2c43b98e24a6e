import Verif.Simp.Member

/-!
# Collections of linear programs

Models `src/PetriEngine/Simplification/LinearProgram.cpp` (the part used by the simplifier) and
`src/PetriEngine/Simplification/LinearPrograms.cpp`.

The clock, the linear solver and the addresses of the cached rows come from an `Oracle`.  Every question to the clock and
to the solver is asked at a different place `π`, so that two questions may always get two different answers: a run of the
program, whatever the clock and the solver do, is a run of the model for some oracle.

`none` is the outcome of a run that needs more fuel or whose behaviour is undefined (`lps[0]` of an empty vector).
-/

namespace Verif
namespace Simp

/-- models include/PetriEngine/Simplification/LinearPrograms.h:14, LinearProgram.h:35 -/
inductive Res
  | unknown | impossible | possible
deriving DecidableEq, Repr

/-- models include/PetriEngine/Simplification/Vector.h: the non-zero coefficients with their positions -/
abbrev Row := List (Nat × Int)

/-- models include/PetriEngine/Simplification/Vector.h (the constructor from a vector of coefficients) -/
def sparse (i : Nat) : List Int → Row
  | [] => []
  | v :: l => if v = 0 then sparse (i + 1) l else (i, v) :: sparse (i + 1) l

/-- models include/PetriEngine/Simplification/LinearProgram.h:18-31 (`equation_t`); `none` is infinite.  The code keeps the
bounds, which are integers, in a `double`. -/
structure Eqn where
  row : Row
  lower : Option Int := none
  upper : Option Int := none
deriving DecidableEq, Repr

/-- models include/PetriEngine/Simplification/LinearProgram.h:33-37 -/
structure LP where
  res : Res := .unknown
  eqs : List Eqn := []
deriving DecidableEq, Repr

/-- the clock, the solver and the cache of rows -/
structure Oracle where
  /-- `SimplificationContext::timeout()` (include/PetriEngine/PQL/Contexts.h) -/
  timeout : List Nat → Bool
  /-- `makeBaseLP()` returns a program (src/PetriEngine/PQL/Contexts.cpp:89-157) -/
  base : List Nat → Bool
  /-- the answer of GLPK for the base program with the given equations (LinearProgram.cpp:130-176) -/
  solve : List Nat → List Eqn → Res
  /-- the address of a cached row (src/PetriEngine/Simplification/LPCache.h, `createAndCache`) -/
  addr : Row → Nat
  /-- `markingOutOfBounds()` -/
  oob : Bool

/-- include/PetriEngine/Simplification/Vector.h:21-29 -/
inductive OpT
  | eq | le | ge | lt | gt
deriving DecidableEq, Repr

/-- models src/PetriEngine/Simplification/LinearProgram.cpp:16-45 -/
def LP.mk1 (row : Row) (c : Int) : OpT → LP
  | .lt => { eqs := [{ row := row, upper := some (c - 1) }] }
  | .gt => { eqs := [{ row := row, lower := some (c + 1) }] }
  | .le => { eqs := [{ row := row, upper := some c }] }
  | .ge => { eqs := [{ row := row, lower := some c }] }
  | .eq => { eqs := [{ row := row, lower := some c, upper := some c }] }

/-- `std::max` of lower bounds -/
def maxLo : Option Int → Option Int → Option Int
  | none, b => b
  | a, none => a
  | some a, some b => some (if a < b then b else a)

/-- `std::min` of upper bounds -/
def minUp : Option Int → Option Int → Option Int
  | none, b => b
  | a, none => a
  | some a, some b => some (if b < a then b else a)

/-- models src/PetriEngine/Simplification/LinearProgram.cpp:436-468: both lists are ordered by the address of the row. -/
def unionEqs (addr : Row → Nat) : Nat → List Eqn → List Eqn → List Eqn
  | 0, a, b => a ++ b
  | _ + 1, [], b => b
  | _ + 1, a, [] => a
  | n + 1, e :: a, f :: b =>
    if addr e.row < addr f.row then e :: unionEqs addr n a (f :: b)
    else if addr f.row < addr e.row then f :: unionEqs addr n (e :: a) b
    else { row := e.row, lower := maxLo e.lower f.lower, upper := minUp e.upper f.upper } :: unionEqs addr n a b

/-- models src/PetriEngine/Simplification/LinearProgram.cpp:426-470 (`make_union`) -/
def LP.union (addr : Row → Nat) (p q : LP) : LP :=
  if p.res = .impossible ∨ q.res = .impossible then { res := .impossible, eqs := [] }
  else { res := p.res, eqs := unionEqs addr (p.eqs.length + q.eqs.length) p.eqs q.eqs }

/-- `eq.lower > eq.upper` for finite bounds -/
def badRow (e : Eqn) : Bool :=
  match e.lower, e.upper with
  | some l, some u => decide (u < l)
  | _, _ => false

/-- models src/PetriEngine/Simplification/LinearProgram.cpp:81-112: a row with contradicting bounds (`some true`), a timeout
(`some false`), or all rows are entered (`none`). -/
def rowCheck (o : Oracle) (π : List Nat) : List Eqn → Option Bool
  | [] => none
  | e :: es =>
    if badRow e then some true
    else if o.timeout (es.length :: π) then some false
    else rowCheck o π es

/-- models src/PetriEngine/Simplification/LinearProgram.cpp:49-180 (`isImpossible`).  After an error of the solver the code
keeps the old `_result`, which is not `IMPOSSIBLE`; here it is the oracle's answer, which makes no difference as `POSSIBLE`
is nowhere distinguished from `UKNOWN`. -/
def LP.isImpossible (o : Oracle) (π : List Nat) (p : LP) : Bool × LP :=
  if p.res = .impossible then (true, p)
  else if p.eqs = [] ∨ o.timeout (0 :: π) = true then (false, p)
  else if o.oob then (false, p)
  else if o.base (1 :: π) = false then (false, p)
  else
    match rowCheck o (2 :: π) p.eqs with
    | some true => (true, { p with res := .impossible })
    | some false => (false, p)
    | none => (o.solve (3 :: π) p.eqs = .impossible, { p with res := o.solve (3 :: π) p.eqs })

/-- models include/PetriEngine/Simplification/LinearPrograms.h:11-114: `_result`, `has_empty` and the fields of the
subclasses.  The pointers to the members are owned by one collection only, so they are values here.  `_size` is used in an
assertion only. -/
inductive Coll
  | single (res : Res) (he : Bool) (p : LP)
  | union (res : Res) (he : Bool) (lps : List Coll) (cur : Nat)
  | merge (res : Res) (he : Bool) (l r : Coll) (tmp : LP) (mr moreR re : Bool) (nsat curr : Nat)

namespace Coll

/-- `empty()` -/
def he : Coll → Bool
  | single _ h _ => h
  | union _ h _ _ => h
  | merge _ h _ _ _ _ _ _ _ _ => h

/-- `_result` -/
def res : Coll → Res
  | single r _ _ => r
  | union r _ _ _ => r
  | merge r _ _ _ _ _ _ _ _ _ => r

/-- models src/PetriEngine/Simplification/LinearPrograms.cpp:264-267 (`SingleProgram()`) -/
def empty : Coll := single .unknown true {}

/-- models src/PetriEngine/Simplification/LinearPrograms.cpp:269-275 -/
def mkSingle (m : Member) (c : Int) (op : OpT) : Coll := single .unknown false (LP.mk1 (sparse 0 m.vars) c op)

/-- models src/PetriEngine/Simplification/LinearPrograms.cpp:38-43 -/
def mkUnion (l : List Coll) : Coll := union .unknown false l 0

/-- models src/PetriEngine/Simplification/LinearPrograms.cpp:45-57: the loop stops at the first member that is empty or
known to be satisfiable. -/
def mkUnion2 (a b : Coll) : Coll :=
  if a.he || a.res = .possible then union .possible a.he [a, b] 0
  else if b.he || b.res = .possible then union .possible b.he [a, b] 0
  else union .unknown false [a, b] 0

/-- models src/PetriEngine/Simplification/LinearPrograms.cpp:127-134 -/
def mkMerge (a b : Coll) : Coll := merge .unknown (a.he && b.he) a b {} true true false 0 0

/-- models src/PetriEngine/Simplification/LinearPrograms.cpp:65-69, 142-153 and LinearPrograms.h:111 (`reset`) -/
def reset : Coll → Option Coll
  | single r h p => some (single r h p)
  | union _ _ [] _ => none
  | union r h (c :: cs) _ =>
    match reset c with
    | none => none
    | some c' => some (union r h (c' :: cs) 0)
  | merge r h a b _ _ _ _ n _ =>
    match reset b with
    | none => none
    | some b' => some (merge r h a b' {} true true false n 0)

/-- models src/PetriEngine/Simplification/LinearPrograms.cpp:80-82: on to the next member, which is reset. -/
def nextMember (i : Nat) (lps : List Coll) : Option (List Coll) :=
  match lps[i]? with
  | none => some lps
  | some c =>
    match reset c with
    | none => none
    | some c' => some (lps.set i c')

/-- What one call of `merge` yields: are there more, `has_empty`, the program, and the collection afterwards. -/
structure Out where
  more : Bool
  emp : Bool
  prog : LP
  coll : Coll

/-- models src/PetriEngine/Simplification/LinearPrograms.cpp:71-86 -/
def unionStep (res : Res) (he : Bool) (lps : List Coll) (i : Nat) (r : Out) : Option Out :=
  if r.more then some ⟨true, r.emp, r.prog, union res he (lps.set i r.coll) i⟩
  else
    match nextMember (i + 1) (lps.set i r.coll) with
    | none => none
    | some lps' => some ⟨decide (i + 1 < lps.length), r.emp, r.prog, union res he lps' (i + 1)⟩

/-- the state of a `MergeCollection` once it has a right program -/
structure Right where
  r : Coll
  l : Coll
  tmp : LP
  moreR : Bool
  re : Bool

/-- models src/PetriEngine/Simplification/LinearPrograms.cpp:71-86, 155-199, 277-285 (`merge`).  The program given to `merge`
is always the empty one: it is so in `satisfiableImpl` (211-214), the right member gets a new program (171) and the left one
a copy of the program given (166, 180).  So it is left out: `program.make_union(this->program)` yields the program of the
`SingleProgram`, and the check of line 157 is never true.  `dry_run` is never true. -/
def mergeC (o : Oracle) : Nat → Coll → Option Out
  | 0, _ => none
  | _ + 1, single r h p => some ⟨false, p.eqs.isEmpty, LP.union o.addr {} p, single r h p⟩
  | n + 1, union res he lps cur =>
    let i := if lps.length ≤ cur then 0 else cur
    match lps[i]? with
    | none => none
    | some c =>
      match mergeC o n c with
      | none => none
      | some r => unionStep res he lps i r
  | n + 1, merge res he l r tmp mr moreR re nsat curr =>
    let st : Option Right :=
      if mr then
        match mergeC o n r with
        | none => none
        | some x =>
          match reset l with
          | none => none
          | some l' => some ⟨x.coll, l', x.prog, x.more, x.emp⟩
      else some ⟨r, l, tmp, moreR, re⟩
    match st with
    | none => none
    | some st =>
      match mergeC o n st.l with
      | none => none
      | some y =>
        let next := merge res he y.coll st.r st.tmp (!y.more) st.moreR st.re nsat (curr + 1)
        if nsat < curr + 1 ∨ (y.more || st.moreR) = false then
          if y.prog.res = .impossible ∧ (y.more || st.moreR) = true then mergeC o n next
          else some ⟨y.more || st.moreR, y.emp && st.re, LP.union o.addr y.prog st.tmp, next⟩
        else mergeC o n next

/-- models src/PetriEngine/Simplification/LinearPrograms.cpp:88-104, from the last member to the first: the list is given
reversed.  `some (true, rest)`: a satisfiable member was found; `some (false, [])`: all were erased. -/
def unionLoop (o : Oracle) (π : List Nat) (sat : List Nat → Coll → Option (Bool × Coll)) :
    List Coll → Option (Bool × List Coll)
  | [] => some (false, [])
  | c :: cs =>
    match sat (cs.length :: 0 :: π) c with
    | none => none
    | some (b, c') =>
      if b || o.timeout (cs.length :: 1 :: π) then some (true, c' :: cs)
      else unionLoop o π sat cs

/-- one more unsatisfiable configuration (`++nsat`) -/
def bump : Coll → Coll
  | merge res he l r tmp mr moreR re nsat curr => merge res he l r tmp mr moreR re (nsat + 1) curr
  | c => c

/-- `_result = …` -/
def setRes (v : Res) : Coll → Coll
  | single _ h p => single v h p
  | union _ h l c => union v h l c
  | merge _ he l r tmp mr moreR re nsat curr => merge v he l r tmp mr moreR re nsat curr

/-- models src/PetriEngine/Simplification/LinearPrograms.cpp:201-233 (`MergeCollection::satisfiableImpl`): whether it ends
with a configuration that may be possible (or a timeout), and the collection. -/
def mergeLoop (o : Oracle) (π : List Nat) : Nat → Coll → Option (Bool × Coll)
  | 0, _ => none
  | n + 1, c =>
    if o.timeout (n :: 0 :: π) then some (true, c)
    else
      match mergeC o n c with
      | none => none
      | some r =>
        if r.emp then some (true, r.coll)
        else if o.timeout (n :: 1 :: π) = true ∨ (r.prog.isImpossible o (n :: 2 :: π)).1 = false then some (true, r.coll)
        else if r.more then mergeLoop o π n (bump r.coll)
        else some (false, bump r.coll)

/-- models src/PetriEngine/Simplification/LinearPrograms.cpp:102-103, 231-232 and 25: the result after nothing was found.
A collection that was found satisfiable before stays so. -/
def finish (c : Coll) : Bool × Coll :=
  if c.res = .possible then (true, c) else (false, setRes .impossible c)

/-- models src/PetriEngine/Simplification/LinearPrograms.cpp:88-104, 201-233, 287-298 (`satisfiableImpl`); `sat` is
`satisfiable`. -/
def satImpl (o : Oracle) (n : Nat) (sat : List Nat → Coll → Option (Bool × Coll)) (π : List Nat) :
    Coll → Option (Bool × Coll)
  | single _ h p =>
    if (p.isImpossible o (1 :: π)).1 then some (false, single .impossible h (p.isImpossible o (1 :: π)).2)
    else some (true, single .possible h (p.isImpossible o (1 :: π)).2)
  | union rs h lps _ =>
    match unionLoop o (2 :: π) sat lps.reverse with
    | none => none
    | some (true, rest) => some (true, union .possible h rest.reverse 0)
    | some (false, _) => some (finish (union rs h [] 0))
  | merge rs h l r t m mm re ns k =>
    match mergeLoop o (3 :: π) n (merge rs h l r t m mm re ns k) with
    | none => none
    | some (true, c') => some (true, setRes .possible c')
    | some (false, c') => some (finish c')

/-- models src/PetriEngine/Simplification/LinearPrograms.cpp:12-26 (`satisfiable`).  The bound on the time is the largest one
(LinearPrograms.h:27). -/
def satC (o : Oracle) : Nat → List Nat → Coll → Option (Bool × Coll)
  | 0, _, _ => none
  | n + 1, π, c =>
    match reset c with
    | none => none
    | some c =>
      if o.timeout (0 :: π) = true ∨ c.he = true then some (true, c)
      else if c.res = .impossible then some (false, c)
      else satImpl o n (satC o n) π c

/-- models src/PetriEngine/PQL/Simplifier.cpp:32-45 (`mergeLps`): member `j` is merged with the last one, `j` going round
from the front. -/
def mergeLps : Nat → Nat → List Coll → Option Coll
  | 0, _, _ => none
  | _ + 1, _, [] => none
  | _ + 1, _, [c] => some c
  | n + 1, j, l =>
    if l.length - 1 ≤ j then mergeLps n 0 l
    else
      match l[j]?, l.getLast? with
      | some a, some b => mergeLps n (j + 1) (l.dropLast.set j (mkMerge a b))
      | _, _ => none

end Coll
end Simp
end Verif
