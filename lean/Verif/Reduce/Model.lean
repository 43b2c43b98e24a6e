import Verif.Net.Builder

/-!
# Model of the structural reductions

Models `src/PetriEngine/Reducer.cpp` on the data of `include/PetriEngine/NetStructures.h`.

Simplifications.
* The lists `consumers` and `producers` of a place are computed from the arcs; the code keeps them as sorted
  lists and asserts (`Reducer::consistent`, :241-301) that they agree with the arcs.
* `std::lower_bound` in a list sorted by place is a search for the place.
* Weights and markings are unbounded numbers.
* The clock (`hasTimedout`) is a bound on the number of turns of the outermost loop of a rule.  Inside such a turn
  the code looks at the clock as well; it can only stop between two applications.
* Names, locations, statistics and the data for trace reconstruction are left out.
-/

namespace Verif
namespace Reduce

/-- models include/PetriEngine/NetStructures.h:40-46 (`Transition`). -/
structure RTr where
  pre : List Arc := []
  post : List Arc := []
  skip : Bool := false
  inhib : Bool := false
deriving DecidableEq, Repr, Inhabited

/-- The net inside the builder while it is reduced: `np`, `nt` are the numbers of places and transitions
(`_places.size()`, `_transitions.size()`), `pskip`, `pinhib` the flags of the places, `init` is `initialMarking`,
`skipped` is `_skippedTransitions` (last one first), `nskip` is `_skippedPlaces`.  `bad` is not in the code: it
records that a rule was applied outside of the conditions under which it is sound (see `flag`); no rule looks at it. -/
structure RNet where
  np : Nat
  nt : Nat
  tr : Nat → RTr
  pskip : Nat → Bool
  pinhib : Nat → Bool
  init : Nat → Nat
  skipped : List Nat
  nskip : Nat
  bad : Bool := false

/-- models src/PetriEngine/Reducer.cpp:128-156 (`getOutArc`, `getInArc`). -/
def arcAt (l : List Arc) (p : Nat) : Option Arc := l.find? fun a => a.place == p

/-- The weight of the arc of a place, 0 if there is none. -/
def wAt (l : List Arc) (p : Nat) : Nat := ((arcAt l p).map (·.weight)).getD 0

/-- models include/PetriEngine/NetStructures.h:48-66 (`addPreArc`, `addPostArc`). -/
def addArc (a : Arc) : List Arc → List Arc
  | [] => [a]
  | b :: l =>
    if b.place < a.place then b :: addArc a l
    else if b.place = a.place then { b with weight := b.weight + a.weight } :: l
    else a :: b :: l

/-- Removes the arc of a place. -/
def dropArc (p : Nat) (l : List Arc) : List Arc := l.filter fun a => a.place != p

namespace RNet

def consumers (N : RNet) (p : Nat) : List Nat :=
  (List.range N.nt).filter fun t => (arcAt (N.tr t).pre p).isSome

def producers (N : RNet) (p : Nat) : List Nat :=
  (List.range N.nt).filter fun t => (arcAt (N.tr t).post p).isSome

def setTr (N : RNet) (t : Nat) (x : RTr) : RNet := { N with tr := fun i => if i = t then x else N.tr i }

def setInit (N : RNet) (p n : Nat) : RNet := { N with init := fun i => if i = p then n else N.init i }

/-- models src/PetriEngine/Reducer.cpp:166-183 (`skipTransition`). -/
def skipTrans (N : RNet) (t : Nat) : RNet :=
  { N.setTr t { N.tr t with pre := [], post := [], skip := true } with skipped := t :: N.skipped }

/-- models src/PetriEngine/Reducer.cpp:185-209 (`skipPlace`). -/
def skipPlace (N : RNet) (p : Nat) : RNet :=
  { N with
    pskip := fun i => if i = p then true else N.pskip i
    nskip := N.nskip + 1
    tr := fun t => { N.tr t with pre := dropArc p (N.tr t).pre, post := dropArc p (N.tr t).post } }

/-- models src/PetriEngine/Reducer.cpp:211-224 (`skipInArc`). -/
def skipInArc (N : RNet) (p t : Nat) : RNet := N.setTr t { N.tr t with pre := dropArc p (N.tr t).pre }

/-- models src/PetriEngine/Reducer.cpp:226-239 (`skipOutArc`). -/
def skipOutArc (N : RNet) (t p : Nat) : RNet := N.setTr t { N.tr t with post := dropArc p (N.tr t).post }

/-- Records an application of a rule outside of the conditions under which it is sound (not in the code). -/
def flag (N : RNet) (b : Bool) : RNet := { N with bad := N.bad || b }

/-- models src/PetriEngine/Reducer.cpp:2479-2489 (an unused transition number, or a new one). -/
def newTrans (N : RNet) (x : RTr) : Nat × RNet :=
  match N.skipped with
  | id :: rest => (id, { N.setTr id x with skipped := rest })
  | [] => (N.nt, { N.setTr N.nt x with nt := N.nt + 1 })

end RNet

/-- The arcs of `a` and of the second list in the order of their places, see `mergeArcs`. -/
def mergeArc (a : Arc) (rest : List Arc → List (Option Arc × Option Arc)) : List Arc → List (Option Arc × Option Arc)
  | [] => (some a, none) :: rest []
  | b :: post =>
    if a.place < b.place then (some a, none) :: rest (b :: post)
    else if b.place < a.place then (none, some b) :: mergeArc a rest post
    else (some a, some b) :: rest post

/-- Two lists of arcs, sorted by place, side by side: the order in which the loops with two indices that occur all over
Reducer.cpp (e.g. :1250-1294) visit them. -/
def mergeArcs : List Arc → List Arc → List (Option Arc × Option Arc)
  | [] => fun post => post.map fun b => (none, some b)
  | a :: pre => mergeArc a (mergeArcs pre)

/-- A loop that tries a step for each element of a list. -/
def sweep (step : RNet → Nat → Option RNet) : List Nat → RNet → RNet × Bool
  | [], N => (N, false)
  | c :: cs, N =>
    match step N c with
    | some N' => ((sweep step cs N').1, true)
    | none => sweep step cs N

/-! ### Rule A -/

/-- models src/PetriEngine/Reducer.cpp:373-377: the initial tokens of `pPre` (`n` firings) move on. -/
def moveInit (n : Nat) : List Arc → RNet → RNet
  | [], N => N
  | a :: l, N => moveInit n l (N.setInit a.place (N.init a.place + n * a.weight))

/-- models src/PetriEngine/Reducer.cpp:386-413: the producers `ts` of `p` produce what `t` would make of
the tokens. -/
def aMove (p w : Nat) (post : List Arc) : List Nat → RNet → RNet
  | [], N => N
  | t :: ts, N =>
    let x := N.tr t
    let k := wAt x.post p / w
    aMove p w post ts
      (N.setTr t { x with post := post.foldl (fun l a => addArc ⟨a.place, k * a.weight, false⟩ l) x.post })

/-- models src/PetriEngine/Reducer.cpp:308-415: one turn of the loop. -/
def ruleAStep (Q : Nat → Bool) (N : RNet) (t : Nat) : Option RNet :=
  let x := N.tr t
  if x.skip then none else
  match x.pre with
  | [a] =>
    let p := a.place
    let w := a.weight
    if (N.consumers p).length ≠ 1 then none
    else if (N.producers p).any (fun s => wAt (N.tr s).post p % w != 0) then none
    else if N.pinhib p || x.inhib then none
    else if Q p then none
    else if x.post.any (fun b => N.pinhib b.place || p == b.place || Q b.place) then none
    else
      let N1 := (moveInit (N.init p / w) x.post N).setInit p 0
      let N2 := N1.skipTrans t
      let N3 := aMove p w x.post (N2.producers p) N2
      some (N3.skipPlace p)
  | _ => none

/-- models src/PetriEngine/Reducer.cpp:303-418 (`ReducebyRuleA`). -/
def ruleA (Q : Nat → Bool) (lim : Nat) (N : RNet) : RNet × Bool :=
  sweep (ruleAStep Q) ((List.range N.nt).take lim) N

/-! ### Rule B -/

/-- models src/PetriEngine/Reducer.cpp:531-614: `tOut` fires `tIn` at once. -/
def bApply (p tIn tOut mult initm : Nat) (N : RNet) : RNet :=
  let i := N.tr tIn
  let o := N.tr tOut
  let N1 := N.setInit p 0
  let N2 := moveInit initm i.post N1
  let N3 := moveInit initm (dropArc p i.pre) N2
  N3.setTr tOut { o with
    post := dropArc p (i.post.foldl (fun l a => addArc ⟨a.place, mult * a.weight, a.inhib⟩ l) o.post)
    pre := (dropArc p i.pre).foldl (fun l a => addArc ⟨a.place, mult * a.weight, a.inhib⟩ l) o.pre }

/-- Not in the code: initial tokens are lost; or `tOut` must fire `tIn` several times or has to wait for it and a place
it consumes from has inhibitor arcs. -/
def bBad (p tIn tOut : Nat) (N : RNet) : Bool :=
  let i := N.tr tIn
  let o := N.tr tOut
  let w := wAt i.pre p
  if i.pre.length = 1 then N.init p % w != 0 && (N.producers p).any (fun t => wAt (N.tr t).post p % w != 0)
  else wAt o.post p != w || o.pre.any (fun a => N.pinhib a.place)

/-- models src/PetriEngine/Reducer.cpp:455-615: one turn of the inner loop. -/
def bStep (Q : Nat → Bool) (rd rc : Bool) (p tIn : Nat) (N : RNet) (tOut : Nat) : Option RNet :=
  let i := N.tr tIn
  let o := N.tr tOut
  if o.post.length ≠ 1 ∧ i.pre.length ≠ 1 then none
  else if (!rd || !rc) && i.pre.length != 1 then none
  else if N.init p > 0 ∧ i.pre.length ≠ 1 then none
  else if wAt o.post p < wAt i.pre p then none
  else if wAt o.post p % wAt i.pre p ≠ 0 then none
  else if N.pinhib p || i.inhib || o.inhib then none
  else if i.post.any (fun a => N.pinhib a.place || Q a.place) then none
  else if i.pre.any (fun a => N.pinhib a.place || Q a.place) then none
  else if 1 < i.pre.length && o.pre.any (fun a => Q a.place) then none
  else if (if i.pre.length < o.post.length then i.pre else o.post).any
      (fun a => decide (0 < a.weight) && a.place != p) then none
  else some (bApply p tIn tOut (wAt o.post p / wAt i.pre p) (N.init p / wAt i.pre p) (N.flag (bBad p tIn tOut N)))

/-- models src/PetriEngine/Reducer.cpp:425-622: one turn of the outer loop. -/
def ruleBStep (Q : Nat → Bool) (rd rc : Bool) (N : RNet) (p : Nat) : Option RNet :=
  if N.pskip p then none
  else if Q p then none
  else
    match N.consumers p with
    | [tIn] =>
      if N.producers p = [] then none
      else if tIn ∈ N.producers p then none
      else
        match sweep (bStep Q rd rc p tIn) (N.producers p) N with
        | (_, false) => none
        | (N', true) => some (if N'.producers p = [] then (N'.skipPlace p).skipTrans tIn else N')
    | _ => none

/-- models src/PetriEngine/Reducer.cpp:420-625 (`ReducebyRuleB`). -/
def ruleB (Q : Nat → Bool) (rd rc : Bool) (lim : Nat) (N : RNet) : RNet × Bool :=
  sweep (ruleBStep Q rd rc) ((List.range N.np).take lim) N

/-! ### Rule C -/

/-- A non-negative fraction. -/
structure Frac where
  num : Nat
  den : Nat
deriving DecidableEq, Repr

def Frac.lt (a b : Frac) : Bool := decide (a.num * b.den < b.num * a.den)

/-- `std::max` (the code uses `double`; here the quotients are exact). -/
def Frac.max (a b : Frac) : Frac := if a.lt b then b else a

/-- models src/PetriEngine/Reducer.cpp:676-704: the consumers of `p2` are consumers of `p1`; `maxDrainRatio`; and
whether `swp` is set to 2. -/
def cDrain (N : RNet) (p1 p2 : Nat) : List Nat → List Nat → Frac → Bool → Option Frac × Bool
  | _, [], r, sw => (some r, sw)
  | [], _ :: _, _, sw => (none, sw)
  | a :: c1, b :: c2, r, sw =>
    if b < a then (none, sw)
    else if a < b then cDrain N p1 p2 c1 (b :: c2) r true
    else cDrain N p1 p2 c1 c2 (r.max ⟨wAt (N.tr a).pre p2, wAt (N.tr a).pre p1⟩) sw

/-- models src/PetriEngine/Reducer.cpp:708-737: the producers of `p1` are producers of `p2` and produce enough. -/
def cFill (N : RNet) (p1 p2 : Nat) (r : Frac) : List Nat → List Nat → Bool → Bool × Bool
  | [], _, sw => (true, sw)
  | _ :: _, [], sw => (false, sw)
  | a :: c1, b :: c2, sw =>
    if a < b then (false, sw)
    else if b < a then cFill N p1 p2 r (a :: c1) c2 true
    else if (Frac.lt ⟨wAt (N.tr a).post p2, wAt (N.tr a).post p1⟩ r) then (false, sw)
    else cFill N p1 p2 r c1 c2 sw

/-- models src/PetriEngine/Reducer.cpp:662-737: whether `p2` can be removed because of `p1`, and whether to leave
the loop over `swp`. -/
def cCheck (Q : Nat → Bool) (N : RNet) (p1 p2 : Nat) : Bool × Bool :=
  if Q p2 then (false, false)
  else if N.pinhib p2 then (false, false)
  else if N.producers p2 = [] ∨ N.consumers p1 = [] then (false, false)
  else if (N.consumers p1).length < (N.consumers p2).length ∨ (N.producers p2).length < (N.producers p1).length then
    (false, false)
  else
    match cDrain N p1 p2 (N.consumers p1) (N.consumers p2) ⟨0, 1⟩ false with
    | (none, sw) => (false, sw)
    | (some r, sw) =>
      if N.init p2 * r.den < N.init p1 * r.num then (false, sw)
      else cFill N p1 p2 r (N.producers p1) (N.producers p2) sw

/-- Not in the code: a transition that consumes from `p2` is inhibited by `p1`. -/
def cBad (N : RNet) (p1 p2 : Nat) : Bool :=
  (N.consumers p2).any fun t => ((arcAt (N.tr t).pre p1).map (·.inhib)).getD false

/-- models src/PetriEngine/Reducer.cpp:742 (`skipPlace(p2)`), where `p2` is `pi` or `po`. -/
def cRemove (N : RNet) (po pi p2 : Nat) : RNet := (N.flag (cBad N (if p2 = po then pi else po) p2)).skipPlace p2

/-- models src/PetriEngine/Reducer.cpp:650-750: the two values of `swp`; the removed place. -/
def cPair (Q : Nat → Bool) (N : RNet) (po pi : Nat) : Option Nat :=
  if N.pskip pi || N.pskip po then none
  else
    match cCheck Q N po pi with
    | (true, _) => some pi
    | (false, true) => none
    | (false, false) => if (cCheck Q N pi po).1 then some po else none

/-- models src/PetriEngine/Reducer.cpp:645-751: the loop over `aid_inner`; the last component tells whether
`pid_outer` was removed. -/
def cInner (Q : Nat → Bool) (tid po : Nat) : Nat → Nat → RNet → RNet × Bool × Bool
  | 0, _, N => (N, false, false)
  | fuel + 1, ai, N =>
    match (N.tr tid).post[ai]? with
    | none => (N, false, false)
    | some a =>
      match cPair Q N po a.place with
      | none => cInner Q tid po fuel (ai + 1) N
      | some p2 =>
        if p2 = po then (cRemove N po a.place p2, true, true)
        else
          let r := cInner Q tid po fuel ai (cRemove N po a.place p2)
          (r.1, true, r.2.2)

/-- models src/PetriEngine/Reducer.cpp:634-752: the loop over `aid_outer`; the list holds the places with
`_pflags`. -/
def cOuter (Q : Nat → Bool) (tid : Nat) : Nat → Nat → List Nat → RNet → RNet × Bool × List Nat
  | 0, _, fl, N => (N, false, fl)
  | fuel + 1, ao, fl, N =>
    match (N.tr tid).post[ao]? with
    | none => (N, false, fl)
    | some a =>
      if a.place ∈ fl then cOuter Q tid fuel (ao + 1) fl N
      else if N.pskip a.place then cOuter Q tid fuel (ao + 1) (a.place :: fl) N
      else
        let r := cInner Q tid a.place ((N.tr tid).post.length + 1) (ao + 1) N
        let s := cOuter Q tid fuel (if r.2.2 then ao else ao + 1) (a.place :: fl) r.1
        (s.1, r.2.1 || s.2.1, s.2.2)

/-- models src/PetriEngine/Reducer.cpp:633-753: the loop over `tid_outer`. -/
def ruleCLoop (Q : Nat → Bool) : List Nat → List Nat → RNet → RNet × Bool
  | [], _, N => (N, false)
  | tid :: ts, fl, N =>
    let r := cOuter Q tid ((N.tr tid).post.length + 1) 0 fl N
    let s := ruleCLoop Q ts r.2.2 r.1
    (s.1, r.2.1 || s.2)

/-- models src/PetriEngine/Reducer.cpp:627-756 (`ReducebyRuleC`). -/
def ruleC (Q : Nat → Bool) (lim : Nat) (N : RNet) : RNet × Bool :=
  ruleCLoop Q ((List.range N.nt).take lim) [] N

/-! ### Rule D -/

/-- The variables of the comparison of two transitions (src/PetriEngine/Reducer.cpp:826-831); `mult = none` is the
largest `uint`; `ok` is the C++ variable. -/
structure DState where
  ok : Nat := 0
  mult : Option Nat := none
  preEq : Bool := true
  postEq : Bool := true
  someQ : Bool := false
  exact : Bool := true
deriving Repr

/-- models src/PetriEngine/Reducer.cpp:836-840 and 872-876: the places that only the longer list has. -/
def dSkipPre (Q : Nat → Bool) (l : List (Option Arc × Option Arc)) (s : DState) : DState :=
  l.foldl (fun s x =>
    match x.2 with
    | some b => { s with preEq := s.preEq && !Q b.place, exact := false }
    | none => s) s

/-- models src/PetriEngine/Reducer.cpp:832-876 (D3): the presets, those of `trans1` and `trans2` side by side. -/
def dPre (Q : Nat → Bool) : List (Option Arc × Option Arc) → DState → DState
  | [], s => s
  | (none, none) :: l, s => dPre Q l s
  | (none, some b) :: l, s => dPre Q l { s with preEq := s.preEq && !Q b.place, exact := false }
  | (some _, none) :: l, s => dSkipPre Q l { s with ok := 1 }
  | (some a, some b) :: l, s =>
    if b.weight < a.weight then dSkipPre Q ((some a, some b) :: l) { s with ok := 1 }
    else
      let mult := min (b.weight / a.weight) (s.mult.getD (b.weight / a.weight))
      let ch := s.mult.isSome && decide (s.mult ≠ some mult) && s.someQ
      let preEq := s.preEq && !ch && (!Q b.place || decide (a.weight = b.weight * mult))
      let s' := { s with mult := some mult, someQ := s.someQ || Q b.place, preEq := preEq
                         exact := s.exact && !ch && decide (a.weight = b.weight * mult) }
      if preEq then dPre Q l s' else s'

/-- models src/PetriEngine/Reducer.cpp:889-893 and 914-918: the same for the postsets. -/
def dSkipPost (Q : Nat → Bool) (l : List (Option Arc × Option Arc)) (s : DState) : DState :=
  l.foldl (fun s x =>
    match x.2 with
    | some a => { s with postEq := s.postEq && !Q a.place, exact := false }
    | none => s) s

/-- models src/PetriEngine/Reducer.cpp:885-918 (D4): the postsets, those of `trans2` and `trans1` side by side. -/
def dPost (Q : Nat → Bool) (mult : Nat) : List (Option Arc × Option Arc) → DState → DState
  | [], s => s
  | (none, none) :: l, s => dPost Q mult l s
  | (none, some a) :: l, s => dPost Q mult l { s with postEq := s.postEq && !Q a.place, exact := false }
  | (some _, none) :: l, s => dSkipPost Q l { s with ok := 1 }
  | (some b, some a) :: l, s =>
    let s' := { s with postEq := s.postEq && (!Q b.place || decide (a.weight * mult = b.weight))
                       exact := s.exact && decide (a.weight * mult = b.weight) }
    if a.weight * mult < b.weight then dSkipPost Q ((some b, some a) :: l) { s' with ok := 2 }
    else if s'.postEq then dPost Q mult l s' else s'

inductive DOut
  | remove | leave | next
deriving DecidableEq, Repr

/-- models src/PetriEngine/Reducer.cpp:817-926: whether `t2` is removed because of `t1` (`remove`), the loop over `swp` is
left, or continued. -/
def dTry (Q : Nat → Bool) (allReach noBranch : Bool) (x1 x2 : RTr) : DOut :=
  if x1.post.length < x2.post.length then .leave
  else if x2.pre.length < x1.pre.length then .leave
  else if !noBranch && (x1.pre.length != x2.pre.length || x1.post.length != x2.post.length) then .leave
  else
    let s := dPre Q (mergeArcs x1.pre x2.pre) {}
    if !s.preEq then .leave
    else if s.ok = 2 then .leave
    else if s.ok = 1 then .next
    else if s.mult ≠ some 1 ∧ allReach = false then .leave
    else if !noBranch && !s.exact then .leave
    else
      let s' := dPost Q (s.mult.getD 4294967295) (mergeArcs x2.post x1.post) { s with ok := 0 }
      if !s'.postEq then .leave
      else if s'.ok = 2 then .leave
      else if s'.ok = 1 then .next
      else if !noBranch && !s'.exact then .leave
      else .remove

/-- models src/PetriEngine/Reducer.cpp:802-939: the two values of `swp`; the removed transition. -/
def dPair (Q : Nat → Bool) (allReach noBranch : Bool) (N : RNet) (to ti : Nat) : Option Nat :=
  if (N.tr to).skip || (N.tr ti).skip || (N.tr to).inhib || (N.tr ti).inhib then none
  else
    match dTry Q allReach noBranch (N.tr to) (N.tr ti) with
    | .remove => some ti
    | .leave => none
    | .next =>
      match dTry Q allReach noBranch (N.tr ti) (N.tr to) with
      | .remove => some to
      | _ => none

/-- Not in the code: a place with inhibitor arcs whose tokens change when `t1` is fired for `t2`. -/
def dBad (Q : Nat → Bool) (N : RNet) (x1 x2 : RTr) : Bool :=
  let k := (dPre Q (mergeArcs x1.pre x2.pre) {}).mult.getD 0
  (x1.pre ++ x2.pre ++ x1.post ++ x2.post).any fun a =>
    N.pinhib a.place &&
      !(wAt x2.pre a.place == k * wAt x1.pre a.place && wAt x2.post a.place == k * wAt x1.post a.place)

/-- models src/PetriEngine/Reducer.cpp:929 (`skipTransition(t2)`), where `t2` is `ti` or `to`. -/
def dRemove (Q : Nat → Bool) (N : RNet) (to ti t2 : Nat) : RNet :=
  (N.flag (dBad Q N (N.tr (if t2 = to then ti else to)) (N.tr t2))).skipTrans t2

/-- models src/PetriEngine/Reducer.cpp:793-940: the loop over `inner`. -/
def dInner (Q : Nat → Bool) (allReach noBranch : Bool) (p to : Nat) : Nat → Nat → RNet → RNet × Bool × Bool
  | 0, _, N => (N, false, false)
  | fuel + 1, inner, N =>
    match (N.consumers p)[inner]? with
    | none => (N, false, false)
    | some ti =>
      match dPair Q allReach noBranch N to ti with
      | none => dInner Q allReach noBranch p to fuel (inner + 1) N
      | some t2 =>
        if t2 = to then (dRemove Q N to ti t2, true, true)
        else
          let r := dInner Q allReach noBranch p to fuel inner (dRemove Q N to ti t2)
          (r.1, true, r.2.2)

/-- models src/PetriEngine/Reducer.cpp:781-941: the loop over `outer`; the list holds the transitions with
`_tflags`. -/
def dOuter (Q : Nat → Bool) (allReach noBranch : Bool) (p : Nat) : Nat → Nat → List Nat → RNet → RNet × Bool × List Nat
  | 0, _, fl, N => (N, false, fl)
  | fuel + 1, outer, fl, N =>
    match (N.consumers p)[outer]? with
    | none => (N, false, fl)
    | some to =>
      if to ∈ fl then dOuter Q allReach noBranch p fuel (outer + 1) fl N
      else
        let r := dInner Q allReach noBranch p to (N.nt + 1) (outer + 1) N
        let s := dOuter Q allReach noBranch p fuel (if r.2.2 then outer else outer + 1)
          (if r.2.1 then fl else to :: fl) r.1
        (s.1, r.2.1 || s.2.1, s.2.2)

/-- models src/PetriEngine/Reducer.cpp:780: the loop over the places. -/
def dPlaces (Q : Nat → Bool) (allReach noBranch : Bool) : List Nat → List Nat → RNet → RNet × Bool
  | [], _, N => (N, false)
  | p :: ps, fl, N =>
    let r := dOuter Q allReach noBranch p (2 * N.nt + 2) 0 fl N
    let s := dPlaces Q allReach noBranch ps r.2.2 r.1
    (s.1, r.2.1 || s.2)

/-- models src/PetriEngine/Reducer.cpp:764-778: all but the first transition without arcs are removed. -/
def dEmpty : List Nat → Bool → RNet → RNet
  | [], _, N => N
  | t :: ts, seen, N =>
    if (N.tr t).skip = false ∧ (N.tr t).pre = [] ∧ (N.tr t).post = [] then
      dEmpty ts true (if seen then N.skipTrans t else N)
    else dEmpty ts seen N

/-- models src/PetriEngine/Reducer.cpp:758-944 (`ReducebyRuleD`). -/
def ruleD (Q : Nat → Bool) (allReach noBranch : Bool) (lim : Nat) (N : RNet) : RNet × Bool :=
  dPlaces Q allReach noBranch ((List.range N.np).take lim) [] (dEmpty (List.range N.nt) false N)

/-! ### Rules E and P -/

/-- models src/PetriEngine/Reducer.cpp:950-1029: one turn of the loop of `ReducebyRuleEP`. -/
def ruleEPStep (Q : Nat → Bool) (N : RNet) (p : Nat) : Option RNet :=
  if N.pskip p then none
  else if (N.consumers p).length < (N.producers p).length then none
  else if (N.producers p).any (fun t =>
      match arcAt (N.tr t).pre p with
      | none => true
      | some a => a.inhib) then none
  else if (N.consumers p).any (fun t =>
      match arcAt (N.tr t).pre p with
      | none => false
      | some a => !a.inhib && decide (a.weight ≤ N.init p) && decide (a.weight < wAt (N.tr t).post p)) then none
  else
    let dis := (N.consumers p).filter fun t =>
      match arcAt (N.tr t).pre p with
      | none => false
      | some a => !a.inhib && decide (N.init p < a.weight)
    let inh := (N.consumers p).filter fun t =>
      match arcAt (N.tr t).pre p with
      | none => false
      | some a => a.inhib && decide (N.init p < a.weight)
    if dis = [] ∧ inh = [] then none
    else if dis.length + inh.length = (N.consumers p).length ∧ Q p = false then
      some ((N.flag (decide (dis ≠ []))).skipPlace p)
    else
      let N1 := dis.foldl (fun N t => N.skipTrans t) N
      some (inh.foldl (fun N t => N.skipInArc p t) N1)

/-- models src/PetriEngine/Reducer.cpp:946-1032 (`ReducebyRuleEP`). -/
def ruleEP (Q : Nat → Bool) (lim : Nat) (N : RNet) : RNet × Bool :=
  sweep (ruleEPStep Q) ((List.range N.np).take lim) N

/-! ### Rule F -/

/-- models src/PetriEngine/Reducer.cpp:1054-1096: one turn of the loop of `ReducebyRuleF`. -/
def ruleFStep (Q : Nat → Bool) (N : RNet) (p : Nat) : Option RNet :=
  if N.pskip p then none
  else if N.pinhib p then none
  else if (N.producers p).length < (N.consumers p).length then none
  else if Q p then none
  else if (N.consumers p).any (fun t =>
      decide (N.init p < wAt (N.tr t).pre p) ||
      (match arcAt (N.tr t).post p with
       | none => true
       | some b => decide (b.weight < wAt (N.tr t).pre p))) then none
  else if 1 < N.np - N.nskip then some (N.skipPlace p)
  else none

/-- models src/PetriEngine/Reducer.cpp:1051-1099 (`ReducebyRuleF`). -/
def ruleF (Q : Nat → Bool) (lim : Nat) (N : RNet) : RNet × Bool :=
  sweep (ruleFStep Q) ((List.range N.np).take lim) N

/-! ### Rule G -/

/-- models src/PetriEngine/Reducer.cpp:1246-1294: the arcs match. -/
def gMatch (Q : Nat → Bool) (rc : Bool) (pinhib : Nat → Bool) : Option Arc × Option Arc → Bool
  | (none, _) => false
  | (some a, none) => !(a.inhib || pinhib a.place) && !(Q a.place || !rc)
  | (some a, some b) =>
    !(a.inhib || pinhib a.place) && !(!rc && a.weight != b.weight) &&
      !((Q a.place && a.weight != b.weight) || (!Q a.place && decide (a.weight < b.weight)))

/-- models src/PetriEngine/Reducer.cpp:1237-1311: one turn of the loop of `ReducebyRuleG`. -/
def ruleGStep (Q : Nat → Bool) (rc : Bool) (N : RNet) (t : Nat) : Option RNet :=
  let x := N.tr t
  if x.skip then none
  else if x.inhib then none
  else if x.pre.length < x.post.length then none
  else if (mergeArcs x.pre x.post).all (gMatch Q rc N.pinhib) && x.pre.all (fun a => !(a.inhib || N.pinhib a.place)) then
    some (N.skipTrans t)
  else none

/-- models src/PetriEngine/Reducer.cpp:1234-1314 (`ReducebyRuleG`): it always returns false. -/
def ruleG (Q : Nat → Bool) (removeLoops rc : Bool) (lim : Nat) (N : RNet) : RNet × Bool :=
  if !removeLoops then (N, false)
  else ((sweep (ruleGStep Q rc) ((List.range N.nt).take lim) N).1, false)

/-! ### Rule J -/

/-- The greatest common divisor so far with one more weight. -/
def jNext (m : Option Nat) (w : Nat) : Nat :=
  match m with
  | none => w
  | some k => Nat.gcd k w

/-- models src/PetriEngine/Reducer.cpp:1561-1575 and 1576-1588: `mod`; `none` is the largest `uint32_t`. -/
def jGcd : List Nat → Option Nat → Option Nat
  | [], m => m
  | w :: ws, m =>
    if jNext m w = 1 then some 1
    else jGcd ws (if jNext m w = 4294967295 then none else some (jNext m w))

def divArc (p k : Nat) (l : List Arc) : List Arc :=
  l.map fun a => if a.place = p then { a with weight := a.weight / k } else a

/-- Not in the code: a weight that is not a multiple of `k`. -/
def jBad (N : RNet) (p k : Nat) : Bool :=
  (N.consumers p).any (fun t => wAt (N.tr t).pre p % k != 0) || (N.producers p).any (fun t => wAt (N.tr t).post p % k != 0)

/-- models src/PetriEngine/Reducer.cpp:1554-1606: one turn of the loop of `ReducebyRuleJ`. -/
def ruleJStep (Q : Nat → Bool) (N : RNet) (p : Nat) : Option RNet :=
  if Q p then none
  else if N.pskip p then none
  else if N.consumers p = [] ∧ N.producers p = [] then none
  else
    let m1 := jGcd ((N.consumers p).map fun t => wAt (N.tr t).pre p) none
    if m1 = some 1 then none
    else
      let m2 := jGcd ((N.producers p).map fun t => wAt (N.tr t).post p) m1
      if m2 = some 1 then none
      else
        let k := m2.getD 4294967295
        some { N.flag (jBad N p k) with
          tr := fun t => { N.tr t with pre := divArc p k (N.tr t).pre, post := divArc p k (N.tr t).post }
          init := fun i => if i = p then N.init p / k else N.init i }

/-- models src/PetriEngine/Reducer.cpp:1550-1608 (`ReducebyRuleJ`; not used when traces are reconstructed). -/
def ruleJ (Q : Nat → Bool) (lim : Nat) (N : RNet) : RNet × Bool :=
  sweep (ruleJStep Q) ((List.range N.np).take lim) N

end Reduce
end Verif
