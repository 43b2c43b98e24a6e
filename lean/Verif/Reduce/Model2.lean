import Verif.Reduce.Model

/-!
# Model of the structural reductions, second part

Rules E-F-M-N-O-P in one, M, F-N-O, Q, L, I of `src/PetriEngine/Reducer.cpp`.
-/

namespace Verif
namespace Reduce

/-! ### The over-approximation of what can happen -/

/-- The variables of the fixed-point iteration (src/PetriEngine/Reducer.cpp:2043-2057): the places that can gain (`inc`) and
lose (`dec`) tokens, the lower bounds, the transitions that may fire, and the queue. -/
structure MState where
  inc : Nat → Bool
  dec : Nat → Bool
  low : Nat → Nat
  tf : Nat → Bool
  queue : List Nat

/-- The consumers that are put into the queue. -/
def mPush (N : RNet) (p : Nat) (s : MState) : List Nat := s.queue ++ (N.consumers p).filter fun t => !s.tf t

/-- models src/PetriEngine/Reducer.cpp:2059-2069 (`processIncPlace`). -/
def mInc (N : RNet) (p : Nat) (s : MState) : MState :=
  if s.inc p then s
  else { s with inc := fun q => if q = p then true else s.inc q, queue := mPush N p s }

/-- Part of `mDec`: the lower bound. -/
def mLow (p low : Nat) (s : MState) : MState := { s with low := fun q => if q = p then min low (s.low p) else s.low q }

/-- models src/PetriEngine/Reducer.cpp:2071-2083 (`processDecPlace`). -/
def mDec (N : RNet) (p low : Nat) (s : MState) : MState :=
  if s.dec p then mLow p low s
  else { mLow p low s with dec := fun q => if q = p then true else s.dec q, queue := mPush N p s }

/-- models src/PetriEngine/Reducer.cpp:2092-2122: the arcs of one place. -/
def mArc (N : RNet) (x : Option Arc × Option Arc) (s : MState) : MState :=
  match x with
  | (none, none) => s
  | (some a, none) => if a.inhib then s else mDec N a.place 0 s
  | (none, some b) => mInc N b.place s
  | (some a, some b) =>
    if a.inhib then mInc N b.place s
    else if b.weight < a.weight then mDec N a.place b.weight s
    else if a.weight < b.weight then mInc N b.place s
    else s

/-- models src/PetriEngine/Reducer.cpp:2085-2123 (`processEnabled`). -/
def mEnabled (N : RNet) (t : Nat) (s : MState) : MState :=
  (mergeArcs (N.tr t).pre (N.tr t).post).foldl (fun s x => mArc N x s)
    { s with tf := fun i => if i = t then true else s.tf i }

/-- models src/PetriEngine/Reducer.cpp:2130-2136. -/
def mFirst (N : RNet) (t : Nat) : Bool :=
  (N.tr t).pre.all fun a => a.inhib == decide (N.init a.place < a.weight)

/-- models src/PetriEngine/Reducer.cpp:2125-2140: the transitions that are enabled at first. -/
def mStart (N : RNet) : List Nat → MState → MState
  | [], s => s
  | t :: ts, s =>
    if (N.tr t).skip then mStart N ts s
    else if mFirst N t then mStart N ts (mEnabled N t s)
    else mStart N ts s

/-- models src/PetriEngine/Reducer.cpp:2155-2156. -/
def mPass (N : RNet) (s : MState) (a : Arc) : Bool :=
  (!a.inhib || decide (N.init a.place < a.weight) || s.dec a.place) &&
    (a.inhib || decide (a.weight ≤ N.init a.place) || s.inc a.place)

/-- models src/PetriEngine/Reducer.cpp:2142-2165: the loop over the queue; `none` if the time is up. -/
def mLoop (N : RNet) : Nat → MState → Option MState
  | 0, _ => none
  | fuel + 1, s =>
    match s.queue with
    | [] => some s
    | t :: q =>
      if s.tf t then mLoop N fuel { s with queue := q }
      else if (N.tr t).pre.all (mPass N s) then mLoop N fuel (mEnabled N t { s with queue := q })
      else mLoop N fuel { s with queue := q }

/-- models src/PetriEngine/Reducer.cpp:2040-2165. -/
def mFix (N : RNet) (fuel : Nat) : Option MState :=
  mLoop N fuel (mStart N (List.range N.nt)
    { inc := fun _ => false, dec := fun _ => false, low := N.init, tf := fun _ => false, queue := [] })

/-- models src/PetriEngine/Reducer.cpp:2167-2173: transitions that never fire. -/
def mDead (s : MState) (N : RNet) (t : Nat) : Option RNet :=
  if (N.tr t).skip = false ∧ s.tf t = false then some (N.skipTrans t) else none

/-! ### Rules E, F, M, N, O, P -/

/-- The arc produces less. -/
def subArc (p w : Nat) (l : List Arc) : List Arc :=
  l.map fun a => if a.place = p then { a with weight := a.weight - w } else a

/-- A change, and what is known about the place. -/
structure EOut where
  net : RNet
  allOk : Bool
  changed : Bool

/-- models src/PetriEngine/Reducer.cpp:2211-2281: one consumer of the place. -/
def eCons (s : MState) (p t : Nat) (N : RNet) : EOut :=
  match arcAt (N.tr t).pre p with
  | none => ⟨N, true, false⟩
  | some a =>
    if a.inhib then
      if a.weight ≤ s.low p then ⟨N.skipTrans t, true, true⟩
      else if s.inc p = false ∧ N.init p < a.weight then ⟨N.skipInArc p t, true, true⟩
      else ⟨N, false, false⟩
    else if N.init p < a.weight ∧ s.inc p = false then ⟨N.skipTrans t, true, true⟩
    else if s.low p < a.weight then ⟨N, false, false⟩
    else
      match arcAt (N.tr t).post p with
      | none => ⟨N, false, false⟩
      | some b =>
        if a.weight < b.weight then
          ⟨N.setTr t { N.tr t with pre := dropArc p (N.tr t).pre, post := subArc p a.weight (N.tr t).post }, true, true⟩
        else if b.weight = a.weight then
          ⟨N.setTr t { N.tr t with pre := dropArc p (N.tr t).pre, post := dropArc p (N.tr t).post }, true, true⟩
        else ⟨N, false, false⟩

/-- models src/PetriEngine/Reducer.cpp:2209-2282: the loop over the consumers. -/
def eAll (s : MState) (p : Nat) : List Nat → RNet → EOut
  | [], N => ⟨N, true, false⟩
  | t :: ts, N =>
    let r := eCons s p t N
    let r' := eAll s p ts r.net
    ⟨r'.net, r.allOk && r'.allOk, r.changed || r'.changed⟩

/-- models src/PetriEngine/Reducer.cpp:2187-2202: all arcs of the place are removed. -/
def dropArcs (N : RNet) (p : Nat) : RNet :=
  { N with tr := fun t => { N.tr t with pre := dropArc p (N.tr t).pre, post := dropArc p (N.tr t).post } }

/-- models src/PetriEngine/Reducer.cpp:2175-2294: one place. -/
def ePlace (Q : Nat → Bool) (s : MState) (N : RNet) (p : Nat) : RNet × Bool :=
  if N.pskip p then (N, false)
  else if s.inc p = false ∧ s.dec p = false then
    if Q p then (dropArcs N p, decide (N.consumers p ≠ [] ∨ N.producers p ≠ []))
    else (N.skipPlace p, true)
  else
    let r := eAll s p (N.consumers p).reverse N
    if r.allOk ∧ Q p = false then (r.net.skipPlace p, true)
    else (r.net, r.changed)

/-- models src/PetriEngine/Reducer.cpp:2175: the loop over the places. -/
def ePlaces (Q : Nat → Bool) (s : MState) : List Nat → RNet → RNet × Bool
  | [], N => (N, false)
  | p :: ps, N =>
    let r := ePlace Q s N p
    let r' := ePlaces Q s ps r.1
    (r'.1, r.2 || r'.2)

/-- models src/PetriEngine/Reducer.cpp:2027-2298 (`ReducebyRuleEFMNOP`). -/
def ruleE (Q : Nat → Bool) (lim : Nat) (N : RNet) : RNet × Bool :=
  match mFix N lim with
  | none => (N, false)
  | some s =>
    let r := sweep (mDead s) (List.range N.nt) N
    let r' := ePlaces Q s (List.range N.np) r.1
    (r'.1, r.2 || r'.2)

/-! ### Rule M -/

/-- models src/PetriEngine/Reducer.cpp:2006-2011: places whose tokens never change. -/
def mConst (Q : Nat → Bool) (s : MState) (N : RNet) (p : Nat) : Option RNet :=
  if N.pskip p = false ∧ Q p = false ∧ s.inc p = false ∧ s.dec p = false then some (N.skipPlace p) else none

/-- models src/PetriEngine/Reducer.cpp:1888-2025 (`ReducebyRuleM`; the lower bounds are not in this rule and it does not
look at them). -/
def ruleM (Q : Nat → Bool) (lim : Nat) (N : RNet) : RNet × Bool :=
  match mFix N lim with
  | none => (N, false)
  | some s =>
    let r := sweep (mConst Q s) (List.range N.np) N
    let r' := sweep (mDead s) (List.range N.nt) r.1
    (r'.1, r.2 || r'.2)

/-! ### Rules F, N, O -/

/-- The variables of the first loop (src/PetriEngine/Reducer.cpp:1117-1130). -/
structure NState where
  low : Nat
  /-- the transitions with `_tflags` -/
  neg : List Nat
  removePlace : Bool
  inh : Nat
  /-- `disableableNonNegative` -/
  dnn : Nat

/-- models src/PetriEngine/Reducer.cpp:1132-1168: the first loop over the consumers. -/
def nScan (N : RNet) (p : Nat) : List Nat → NState → NState
  | [], s => s
  | t :: ts, s =>
    match arcAt (N.tr t).pre p with
    | none => nScan N p ts s
    | some a =>
      if a.inhib then nScan N p ts { s with inh := s.inh + 1 }
      else
        match arcAt (N.tr t).post p with
        | none => { s with low := 0 }
        | some b =>
          if b.weight < a.weight then
            nScan N p ts { s with dnn := s.dnn - 1, neg := t :: s.neg, removePlace := false, low := min b.weight s.low }
          else nScan N p ts s

/-- What the second loop returns: the net, `alwaysInhibited`, `disableableNonNegative`. -/
structure NOut where
  net : RNet
  inhibited : List Nat
  dnn : Nat
  changed : Bool

/-- models src/PetriEngine/Reducer.cpp:1190-1203: the arcs are compiled into their effect. -/
def nMerge (N : RNet) (p t : Nat) (a : Arc) : RNet :=
  let N1 :=
    if wAt (N.tr t).post p = a.weight then N.skipOutArc t p
    else N.setTr t { N.tr t with post := subArc p a.weight (N.tr t).post }
  N1.skipInArc p t

/-- models src/PetriEngine/Reducer.cpp:1177-1210: the second loop over the consumers. -/
def nApply (p : Nat) (s : NState) : List Nat → NOut → NOut
  | [], o => o
  | t :: ts, o =>
    if t ∈ s.neg then nApply p s ts o
    else
      match arcAt (o.net.tr t).pre p with
      | none => nApply p s ts o
      | some a =>
        if s.low < a.weight then nApply p s ts o
        else if a.inhib then nApply p s ts { o with inhibited := t :: o.inhibited, changed := true }
        else nApply p s ts { o with net := nMerge o.net p t a, dnn := o.dnn - 1, changed := true }

/-- models src/PetriEngine/Reducer.cpp:1212-1218: rule O. -/
def skipAll : List Nat → RNet → RNet
  | [], N => N
  | t :: ts, N => skipAll ts (N.skipTrans t)

/-- The flag of the place is taken back. -/
def clearInh (N : RNet) (p : Nat) : RNet := { N with pinhib := fun i => if i = p then false else N.pinhib i }

/-- models src/PetriEngine/Reducer.cpp:1111-1229: one place. -/
def nPlace (Q : Nat → Bool) (N : RNet) (p : Nat) : RNet × Bool :=
  if N.pskip p then (N, false)
  else
    let s := nScan N p (N.consumers p) ⟨N.init p, [], !Q p, 0, (N.consumers p).length⟩
    if N.consumers p ≠ [] ∧ s.low = 0 then (N, false)
    else
      let o := nApply p s (N.consumers p) ⟨N, [], s.dnn, false⟩
      let N1 := skipAll o.inhibited.reverse o.net
      if s.removePlace ∧ s.inh - o.inhibited.length = 0 ∧ o.dnn = 0 ∧ 1 < N.np - N1.nskip then (N1.skipPlace p, true)
      else if s.inh - o.inhibited.length = 0 then (clearInh N1 p, o.changed)
      else (N1, o.changed)

/-- models src/PetriEngine/Reducer.cpp:1111: the loop over the places. -/
def nPlaces (Q : Nat → Bool) : List Nat → RNet → RNet × Bool
  | [], N => (N, false)
  | p :: ps, N =>
    let r := nPlace Q N p
    let r' := nPlaces Q ps r.1
    (r'.1, r.2 || r'.2)

/-- models src/PetriEngine/Reducer.cpp:1101-1232 (`ReducebyRuleFNO`). -/
def ruleFNO (Q : Nat → Bool) (lim : Nat) (N : RNet) : RNet × Bool := nPlaces Q ((List.range N.np).take lim) N

/-! ### Rule Q -/

/-- models src/PetriEngine/Reducer.cpp:2319-2356: what is required of the arcs of one place. -/
def qOk (Q : Nat → Bool) (N : RNet) : Option Arc × Option Arc → Bool
  | (some a, none) =>
    N.init a.place / a.weight != 0 && !N.pinhib a.place && !Q a.place && decide ((N.consumers a.place).length = 1)
  | (none, some b) => !N.pinhib b.place && !Q b.place
  | _ => false

/-- models src/PetriEngine/Reducer.cpp:2316-2342: how often the transition can fire (0 is the start value). -/
def qTimes (N : RNet) : List Arc → Nat → Nat
  | [], k => k
  | a :: l, k =>
    qTimes N l (if k = 0 then N.init a.place / a.weight else min k (N.init a.place / a.weight))

/-- models src/PetriEngine/Reducer.cpp:2361-2364. -/
def takeInit (k : Nat) : List Arc → RNet → RNet
  | [], N => N
  | a :: l, N => takeInit k l (N.setInit a.place (N.init a.place - a.weight * k))

/-- models src/PetriEngine/Reducer.cpp:2307-2375: one transition. -/
def ruleQStep (Q : Nat → Bool) (N : RNet) (t : Nat) : Option RNet :=
  let x := N.tr t
  if x.skip || x.inhib || decide (x.pre = []) then none
  else if (mergeArcs x.pre x.post).all (qOk Q N) && qTimes N x.pre 0 != 0 then
    some (moveInit (qTimes N x.pre 0) x.post (takeInit (qTimes N x.pre 0) x.pre N))
  else none

/-- models src/PetriEngine/Reducer.cpp:2300-2378 (`ReducebyRuleQ`; not used when traces are reconstructed). -/
def ruleQ (Q : Nat → Bool) (lim : Nat) (N : RNet) : RNet × Bool :=
  sweep (ruleQStep Q) ((List.range N.nt).take lim) N

/-! ### Rule L -/

/-- models src/PetriEngine/Reducer.cpp:1817-1867: one place; `x2` needs no more than `x1` and has the same effect (the
code compares differences of unsigned numbers). -/
def lAt (x1 x2 : RTr) (p : Nat) : Bool :=
  (match arcAt x2.pre p with
   | none => true
   | some b =>
     match arcAt x1.pre p with
     | none => false
     | some a => b.inhib == a.inhib && (if b.inhib then decide (a.weight ≤ b.weight) else decide (b.weight ≤ a.weight))) &&
  (let i1 := match arcAt x1.pre p with
     | some a => if a.inhib then 0 else a.weight
     | none => 0
   let i2 := match arcAt x2.pre p with
     | some a => if a.inhib then 0 else a.weight
     | none => 0
   decide (wAt x1.post p + i2 = wAt x2.post p + i1))

/-- models src/PetriEngine/Reducer.cpp:1792-1867: the four lists are visited in the order of their places. -/
def lOk (x1 x2 : RTr) : Bool :=
  decide (x2.pre.length ≤ x1.pre.length) && decide (x2.post.length ≤ x1.post.length) &&
    (x2.pre ++ x1.pre ++ x2.post ++ x1.post).all fun a => lAt x1 x2 a.place

/-- models src/PetriEngine/Reducer.cpp:1779-1882: a reason to remove `t1`. -/
def lFind (N : RNet) (t1 : Nat) : Bool :=
  (N.tr t1).pre.any fun a => (N.consumers a.place).any fun t2 =>
    decide (t2 ≠ t1) && !(N.tr t2).skip && lOk (N.tr t1) (N.tr t2)

/-- models src/PetriEngine/Reducer.cpp:1775-1883: the outer loop (it ends at the first transition that is already
removed, :1778). -/
def lLoop : List Nat → RNet → RNet × Bool
  | [], N => (N, false)
  | t1 :: ts, N =>
    if (N.tr t1).skip then (N, false)
    else if lFind N t1 then ((lLoop ts (N.skipTrans t1)).1, true)
    else lLoop ts N

/-- models src/PetriEngine/Reducer.cpp:1765-1886 (`ReducebyRuleL`). -/
def ruleL (lim : Nat) (N : RNet) : RNet × Bool := lLoop ((List.range (N.nt - 1)).take lim) N

/-! ### Rule I -/

/-- Puts those that were not seen on the stack. -/
def iPush : List Nat → List Nat × List Nat → List Nat × List Nat
  | [], s => s
  | t :: ts, s => iPush ts (if t ∈ s.1 then s else (t :: s.1, t :: s.2))

/-- models src/PetriEngine/Reducer.cpp:1660-1677: the transitions at the places of the query. -/
def iSeeds (Q : Nat → Bool) (N : RNet) : List Nat → List Nat × List Nat → List Nat × List Nat
  | [], s => s
  | p :: ps, s => iSeeds Q N ps (if Q p then iPush (N.producers p) (iPush (N.consumers p) s) else s)

/-- models src/PetriEngine/Reducer.cpp:1693-1708: a consumer that need not be seen because of an inhibitor arc. -/
def iSkipCons (N : RNet) (a : Arc) (pt : Nat) : Bool :=
  match arcAt (N.tr pt).post a.place, arcAt (N.tr pt).pre a.place with
  | some b, some c => c.inhib || decide (a.weight ≤ b.weight) || decide (c.weight ≤ b.weight)
  | _, _ => false

/-- models src/PetriEngine/Reducer.cpp:1717-1726: a producer that need not be seen because of an arc. -/
def iSkipProd (N : RNet) (a : Arc) (pt : Nat) : Bool :=
  match arcAt (N.tr pt).pre a.place, arcAt (N.tr pt).post a.place with
  | some c, some b => !c.inhib && decide (b.weight ≤ c.weight)
  | _, _ => false

/-- models src/PetriEngine/Reducer.cpp:1685-1739: one arc of a transition from the stack. -/
def iArc (Q : Nat → Bool) (rc : Bool) (N : RNet) (a : Arc) (s : List Nat × List Nat) : List Nat × List Nat :=
  if a.inhib then iPush ((N.consumers a.place).filter fun pt => !iSkipCons N a pt) s
  else
    let s1 := iPush ((N.producers a.place).filter fun pt => !iSkipProd N a pt) s
    if !rc || Q a.place then iPush (N.consumers a.place) s1 else s1

/-- models src/PetriEngine/Reducer.cpp:1680-1742: the loop over the stack; `none` if the time is up. -/
def iLoop (Q : Nat → Bool) (rc : Bool) (N : RNet) : Nat → List Nat × List Nat → Option (List Nat)
  | 0, _ => none
  | fuel + 1, s =>
    match s.2 with
    | [] => some s.1
    | t :: st => iLoop Q rc N fuel ((N.tr t).pre.foldl (fun s a => iArc Q rc N a s) (s.1, st))

/-- models src/PetriEngine/Reducer.cpp:1655-1744 (`relevant`): `tseen`.  `pseen` holds the places of the input arcs of these
transitions. -/
def relevant (Q : Nat → Bool) (rc : Bool) (N : RNet) (fuel : Nat) : Option (List Nat) :=
  iLoop Q rc N fuel (iSeeds Q N (List.range N.np) ([], []))

/-- models src/PetriEngine/Reducer.cpp:1746-1755: transitions that were not seen. -/
def iTrans (seen : List Nat) (N : RNet) (t : Nat) : Option RNet :=
  if t ∉ seen ∧ (N.tr t).skip = false then some (N.skipTrans t) else none

/-- models src/PetriEngine/Reducer.cpp:1757-1764: places that were not seen. -/
def iPlace (Q : Nat → Bool) (pseen : Nat → Bool) (N : RNet) (p : Nat) : Option RNet :=
  if pseen p = false ∧ N.pskip p = false ∧ Q p = false then some (N.skipPlace p) else none

/-- `pseen` (src/PetriEngine/Reducer.cpp:1740). -/
def iPseen (N : RNet) (seen : List Nat) (p : Nat) : Bool :=
  seen.any fun t => (N.tr t).pre.any fun a => a.place == p

/-- Not in the code: a transition that was not seen can take tokens from the place of an inhibitor arc. -/
def iBad (N : RNet) (seen : List Nat) : Bool :=
  seen.any fun t => (N.tr t).pre.any fun a =>
    a.inhib && (List.range N.nt).any fun pt =>
      decide (pt ∉ seen) &&
        (match arcAt (N.tr pt).pre a.place with
         | none => false
         | some c => !c.inhib && decide (wAt (N.tr pt).post a.place < c.weight))

/-- models src/PetriEngine/Reducer.cpp:1034-1049 (`ReducebyRuleI`). -/
def ruleI (Q : Nat → Bool) (rc : Bool) (lim : Nat) (N : RNet) : RNet × Bool :=
  match relevant Q rc N lim with
  | none => (N, false)
  | some seen =>
    let r := sweep (iTrans seen) (List.range N.nt) (N.flag (iBad N seen))
    let r' := sweep (iPlace Q (iPseen N seen)) (List.range N.np) r.1
    (r'.1, r.2 || r'.2)

end Reduce
end Verif
