import Verif.Net.Flat

/-!
# Model of the net builder and of the compilation to the flat layout

Models `include/PetriEngine/NetStructures.h` and `src/PetriEngine/PetriNetBuilder.cpp`
(`addPlace`, `addTransition`, `addInputArc`, `addOutputArc`, `nextPlaceId`, `makePetriNet`) and
`PetriNet::sort`.
-/

namespace Verif

/-- models include/PetriEngine/NetStructures.h:16-38 (`Arc`). -/
structure Arc where
  place : Nat
  weight : Nat
  inhib : Bool
deriving DecidableEq, Repr, Inhabited

/-- models include/PetriEngine/NetStructures.h:40-46 (`Transition`; the `inhib` summary flag is only
used by the reducer and kept there). -/
structure BTrans where
  pre : List Arc := []
  post : List Arc := []
  player : Int := 0
  skip : Bool := false
deriving DecidableEq, Repr, Inhabited

/-- models include/PetriEngine/NetStructures.h:68-72 (`Place`). -/
structure BPlace where
  consumers : List Nat := []
  producers : List Nat := []
  skip : Bool := false
deriving DecidableEq, Repr, Inhabited

/-- models include/PetriEngine/PetriNetBuilder.h (data members): names are kept as lists, the
index in the list being the identifier stored in the C++ name map. -/
structure Builder where
  pnames : List String := []
  tnames : List String := []
  places : List BPlace := []
  transitions : List BTrans := []
  init : List Nat := []
deriving Repr, Inhabited

namespace Builder

def place (B : Builder) (p : Nat) : BPlace := B.places.getD p default
def trans (B : Builder) (t : Nat) : BTrans := B.transitions.getD t default

/-! ### Adding places, transitions, arcs -/

/-- models src/PetriEngine/PetriNetBuilder.cpp:62-75 (`addPlace`; coordinates dropped). -/
def addPlace (B : Builder) (name : String) (tokens : Nat) : Builder :=
  match B.pnames.idxOf? name with
  | some i => { B with init := B.init.set i tokens }
  | none => { B with pnames := B.pnames ++ [name], places := B.places ++ [{}],
                     init := B.init ++ [tokens] }

/-- models src/PetriEngine/PetriNetBuilder.cpp:83-94 (`addTransition`; coordinates dropped). -/
def addTransition (B : Builder) (name : String) (player : Int) : Builder :=
  match B.tnames.idxOf? name with
  | some _ => B
  | none => { B with tnames := B.tnames ++ [name],
                     transitions := B.transitions ++ [{ player := player }] }

/-- models src/PetriEngine/PetriNetBuilder.cpp:115-128: scan for an existing arc of the same
place; `none` = the thrown error, `some none` = no such arc, `some (some l)` = merged. -/
def mergePre (p : Nat) (inhibitor : Bool) (weight : Nat) : List Arc → Option (Option (List Arc))
  | [] => some none
  | a :: l =>
    if a.place = p then
      if inhibitor = a.inhib then
        if !inhibitor then some (some ({ a with weight := (a.weight + weight) % W32 } :: l))
        else some (some ({ a with weight := min a.weight weight } :: l))
      else none
    else
      match mergePre p inhibitor weight l with
      | none => none
      | some none => some none
      | some (some l') => some (some (a :: l'))

/-- models src/PetriEngine/PetriNetBuilder.cpp:162-167: scan for an existing output arc. -/
def mergePost (p : Nat) (weight : Nat) : List Arc → Option (List Arc)
  | [] => none
  | a :: l =>
    if a.place = p then some ({ a with weight := (a.weight + weight) % W32 } :: l)
    else (mergePost p weight l).map (a :: ·)

/-- models src/PetriEngine/PetriNetBuilder.cpp:103-141 (`addInputArc`); `none` = thrown error. -/
def addInputArc (B : Builder) (pname tname : String) (inhibitor : Bool) (weight : Nat) :
    Option Builder :=
  match B.tnames.idxOf? tname with
  | none => none
  | some t =>
    let B1 := if pname ∈ B.pnames then B else B.addPlace pname 0
    let p := B1.pnames.idxOf pname
    let tr := B1.trans t
    match mergePre p inhibitor weight tr.pre with
    | none => none
    | some (some pre') => some { B1 with transitions := B1.transitions.set t { tr with pre := pre' } }
    | some none =>
      let pl := B1.place p
      some { B1 with
        transitions := B1.transitions.set t { tr with pre := tr.pre ++ [⟨p, weight, inhibitor⟩] }
        places := B1.places.set p { pl with consumers := pl.consumers ++ [t] } }

/-- models src/PetriEngine/PetriNetBuilder.cpp:149-177 (`addOutputArc`). -/
def addOutputArc (B : Builder) (tname pname : String) (weight : Nat) : Option Builder :=
  match B.tnames.idxOf? tname with
  | none => none
  | some t =>
    let B1 := if pname ∈ B.pnames then B else B.addPlace pname 0
    let p := B1.pnames.idxOf pname
    let tr := B1.trans t
    match mergePost p weight tr.post with
    | some post' => some { B1 with transitions := B1.transitions.set t { tr with post := post' } }
    | none =>
      let pl := B1.place p
      some { B1 with
        transitions := B1.transitions.set t { tr with post := tr.post ++ [⟨p, weight, false⟩] }
        places := B1.places.set p { pl with producers := pl.producers ++ [t] } }

/-! ### makePetriNet -/

/-- Local variables of `makePetriNet` (src/PetriEngine/PetriNetBuilder.cpp:220-287).
Vectors that the C++ preallocates and then only writes at their current free index
(`_transitions`, `_invariants`, `_placeToPtrs`) are growing lists here:
`freeinv = invs.length`, `freetrans = trans.length`.  `none` in the id maps is
`numeric_limits<uint32_t>::max()`. -/
structure MkState where
  consCount : Nat → Nat
  prodCount : Nat → Nat
  idmap : Nat → Option Nat
  tmap : Nat → Option Nat
  free : Nat
  ptrs : List Nat
  trans : List TransPtr
  invs : List Invariant
  ctrl : Nat → Bool

/-- `--x` on a `uint32_t`. -/
def dec32 (x : Nat) : Nat := if x = 0 then W32 - 1 else x - 1

/-- Number of unskipped places, src/PetriEngine/PetriNetBuilder.h (`numberOfUnskippedPlaces`). -/
def nUnskippedPlaces (B : Builder) : Nat :=
  ((List.range B.places.length).filter (fun p => !(B.place p).skip)).length

/-- Number of unskipped transitions. -/
def nUnskippedTransitions (B : Builder) : Nat :=
  ((List.range B.transitions.length).filter (fun t => !(B.trans t).skip)).length

/-- models src/PetriEngine/PetriNetBuilder.cpp:226-262: the number of arcs to allocate. -/
def nInvariants (B : Builder) : Nat :=
  ((List.range B.places.length).map (fun p =>
    if !(B.place p).skip then (B.place p).consumers.length + (B.place p).producers.length
    else 0)).sum

/-- The weight of a candidate place, src/PetriEngine/PetriNetBuilder.cpp:185.
Note the `counts[0]` in the original. -/
def nnum (s : MkState) (i : Nat) : Nat :=
  if s.prodCount i = 0 then 0 else
    (if s.consCount 0 = 0 then 0 else max (s.consCount i) (s.prodCount i))

/-- models src/PetriEngine/PetriNetBuilder.cpp:179-196 (`nextPlaceId`), the loop from index `i`
with the running candidate. -/
def nextPlaceAux (B : Builder) (s : MkState) (reorder : Bool) :
    List Nat → Option Nat → Nat → Option Nat
  | [], cand, _ => cand
  | i :: rest, cand, cnt =>
    if (s.idmap i).isNone ∧ nnum s i < cnt ∧ !(B.place i).skip then
      if !reorder then some i
      else nextPlaceAux B s reorder rest (some i) (nnum s i)
    else nextPlaceAux B s reorder rest cand cnt

/-- models src/PetriEngine/PetriNetBuilder.cpp:179-196 (`nextPlaceId`). -/
def nextPlaceId (B : Builder) (s : MkState) (reorder : Bool) : Option Nat :=
  nextPlaceAux B s reorder (List.range B.places.length) none (W32 - 1)

/-- Arc triple written for an input arc (src/PetriEngine/PetriNetBuilder.cpp:305-308, 383-386). -/
def preInv (a : Arc) : Invariant := ⟨a.place, a.weight, a.inhib, 0⟩
/-- Arc triple written for an output arc (src/PetriEngine/PetriNetBuilder.cpp:319-320, 397-398). -/
def postInv (a : Arc) : Invariant := ⟨a.place, a.weight, false, 0⟩

/-- Decrement the counters of the places of a list of arcs. -/
def decAll (c : Nat → Nat) : List Arc → (Nat → Nat)
  | [] => c
  | a :: l => decAll (upd c a.place (dec32 (c a.place))) l

/-- models src/PetriEngine/PetriNetBuilder.cpp:293-331: the body of the orphan loop. -/
def orphanStep (B : Builder) (s : MkState) (t : Nat) : MkState :=
  let tr := B.trans t
  if tr.pre.all (·.inhib) then
    if tr.skip then s
    else
      { s with
        consCount := decAll s.consCount tr.pre
        tmap := fun u => if u = t then some s.trans.length else s.tmap u
        trans := s.trans ++ [⟨s.invs.length, s.invs.length + tr.pre.length⟩]
        invs := s.invs ++ tr.pre.map preInv ++ tr.post.map postInv }
  else s

/-- The place was handled in an earlier round: `place_idmap[p] < free`
(src/PetriEngine/PetriNetBuilder.cpp:364). -/
def oldPlace (s : MkState) (p : Nat) : Bool :=
  match s.idmap p with | some k => decide (k < s.free) | none => false

/-- models src/PetriEngine/PetriNetBuilder.cpp:356-376: the check loop; result `(ok, all_inhib)`.
The C++ breaks out of the loop with `ok = false`. -/
def checkArcs (s : MkState) (ninv next : Nat) : List Arc → Nat → Bool → Bool × Bool
  | [], _, allInhib => (true, allInhib)
  | a :: l, cnt, allInhib =>
    let allInhib := allInhib && a.inhib
    if (!a.inhib && oldPlace s a.place) || decide (s.invs.length + cnt ≥ ninv) then (false, allInhib)
    else if a.place = next ∧ a.inhib then (false, allInhib)
    else checkArcs s ninv next l (cnt + 1) allInhib

/-- models src/PetriEngine/PetriNetBuilder.cpp:345-413: the body of the loop over consumers.
The write `_transitions[freetrans].inputs = freeinv` before the check is repeated or harmless
(it hits the sentinel only when everything has been emitted, where it stores the same value). -/
def consumerStep (B : Builder) (ninv next : Nat) (s : MkState) (t : Nat) : MkState :=
  let tr := B.trans t
  if tr.skip then s
  else
    let s := { s with ctrl := fun k => if k = s.trans.length then decide (tr.player = 0) else s.ctrl k }
    let c := checkArcs s ninv next tr.pre 0 true
    if !c.1 || c.2 then s
    else
      { s with
        consCount := decAll s.consCount tr.pre
        prodCount := decAll s.prodCount tr.post
        tmap := fun u => if u = t then some s.trans.length else s.tmap u
        trans := s.trans ++ [⟨s.invs.length, s.invs.length + tr.pre.length⟩]
        invs := s.invs ++ tr.pre.map preInv ++ tr.post.map postInv }

/-- models src/PetriEngine/PetriNetBuilder.cpp:290-291 / 341-342. -/
def assign (s : MkState) (next : Nat) : MkState :=
  { s with idmap := fun p => if p = next then some s.free else s.idmap p
           ptrs := s.ptrs ++ [s.trans.length] }

/-- models src/PetriEngine/PetriNetBuilder.cpp:345-415: all consumers of a place, then `++free`. -/
def processPlace (B : Builder) (ninv : Nat) (s : MkState) (next : Nat) : MkState :=
  let s := (B.place next).consumers.foldl (consumerStep B ninv next) s
  { s with free := s.free + 1 }

/-- models src/PetriEngine/PetriNetBuilder.cpp:334-416: the `while` loop from its second
iteration on (the first iteration is unrolled in `mkAll`). -/
def placeLoop (B : Builder) (reorder : Bool) (ninv : Nat) : Nat → MkState → MkState
  | 0, s => s
  | fuel + 1, s =>
    match nextPlaceId B s reorder with
    | none => s
    | some next => placeLoop B reorder ninv fuel (processPlace B ninv (assign s next) next)

/-- Initial values of the local variables, src/PetriEngine/PetriNetBuilder.cpp:222-287. -/
def mkInit (B : Builder) : MkState where
  consCount p := if (B.place p).skip then 0 else (B.place p).consumers.length
  prodCount p := if (B.place p).skip then 0 else (B.place p).producers.length
  idmap _ := none
  tmap _ := none
  free := 0
  ptrs := []
  trans := []
  invs := []
  ctrl _ := true

/-- models src/PetriEngine/PetriNetBuilder.cpp:284-416.  The loop needs at most one round per
place. -/
def mkAll (B : Builder) (reorder : Bool) : MkState :=
  let ninv := B.nInvariants
  let s0 := B.mkInit
  match nextPlaceId B s0 reorder with
  | none => (List.range B.transitions.length).foldl (orphanStep B) s0
  | some next =>
    let s1 := (List.range B.transitions.length).foldl (orphanStep B) (assign s0 next)
    placeLoop B reorder ninv B.places.length (processPlace B ninv s1 next)

/-- `std::sort` by place of one arc range (src/PetriEngine/PetriNet.cpp:169-178). -/
def sortInvs (l : List Invariant) : List Invariant :=
  l.mergeSort (fun a b => decide (a.place ≤ b.place))

/-- models src/PetriEngine/PetriNetBuilder.cpp:480-500: direction of an input arc. -/
def preDir (post : List Invariant) (i : Invariant) : Int :=
  match post.find? (fun o => o.place == i.place) with
  | some o => if i.inhibitor then 1 else if i.tokens < o.tokens then 1
              else if i.tokens = o.tokens then 0 else -1
  | none => if i.inhibitor then 0 else -1

/-- models src/PetriEngine/PetriNetBuilder.cpp:501-521: direction of an output arc. -/
def postDir (pre : List Invariant) (i : Invariant) : Int :=
  match pre.find? (fun o => o.place == i.place) with
  | some o => if o.inhibitor then 1 else if i.tokens > o.tokens then 1
              else if i.tokens = o.tokens then 0 else -1
  | none => 1

/-- Reindexing, sorting and directions of one transition's ranges. -/
def finishTrans (idmap : Nat → Option Nat) (pre post : List Invariant) : List Invariant :=
  let re := fun i : Invariant => { i with place := (idmap i.place).getD (W32 - 1) }
  let pre := sortInvs (pre.map re)
  let post := sortInvs (post.map re)
  pre.map (fun i => { i with direction := preDir post i }) ++
    post.map (fun i => { i with direction := postDir pre i })

/-- Result of `makePetriNet`: the net, its initial marking, and the id maps (which the C++ leaves
in `_placenames` / `_transitionnames`). -/
structure Compiled where
  net : FlatNet
  init : Nat → Nat
  idmap : Nat → Option Nat
  tmap : Nat → Option Nat

/-- models src/PetriEngine/PetriNetBuilder.cpp:198-523 (`makePetriNet`).  `none` stands for a net
with array entries that were never written (the theorem shows it does not happen).  The in-place
reindex / sort / direction passes (419-425, 479-521) rewrite each transition's two ranges; they are
expressed range by range. -/
def makePetriNet (B : Builder) (reorder : Bool) : Option Compiled :=
  let s := B.mkAll reorder
  let nplaces := B.nUnskippedPlaces
  let ntrans := B.nUnskippedTransitions
  let ninv := B.nInvariants
  if s.trans.length = ntrans ∧ s.invs.length = ninv ∧ s.ptrs.length = nplaces then
    let raw : FlatNet :=
      { nplaces := nplaces, ntransitions := ntrans, ninvariants := ninv
        transitions := s.trans ++ [⟨ninv, ninv⟩]
        invariants := s.invs
        placeToPtrs := s.ptrs ++ [ntrans]
        controllable := (List.range (ntrans + 1)).map s.ctrl }
    let net := { raw with
      invariants := (List.range ntrans).flatMap (fun t => finishTrans s.idmap (raw.preset t) (raw.postset t)) }
    some { net := net
           init := fun q =>
             match (List.range B.places.length).find? (fun p => s.idmap p == some q) with
             | some p => B.init.getD p 0
             | none => 0
           idmap := s.idmap
           tmap := s.tmap }
  else none

/-! ### Well-formedness and meaning of a builder -/

/-- The invariant of the builder's cross-referenced structures
(the debug assertions in src/PetriEngine/PetriNetBuilder.cpp:234-281). -/
structure WF (B : Builder) : Prop where
  pre_nodup : ∀ t, ((B.trans t).pre.map Arc.place).Nodup
  post_nodup : ∀ t, ((B.trans t).post.map Arc.place).Nodup
  cons_nodup : ∀ p, (B.place p).consumers.Nodup
  prod_nodup : ∀ p, (B.place p).producers.Nodup
  cons_iff : ∀ p t, t ∈ (B.place p).consumers ↔ p ∈ (B.trans t).pre.map Arc.place
  prod_iff : ∀ p t, t ∈ (B.place p).producers ↔ p ∈ (B.trans t).post.map Arc.place
  arc_place : ∀ t, ∀ a ∈ (B.trans t).pre ++ (B.trans t).post,
    a.place < B.places.length ∧ (B.place a.place).skip = false
  arc_weight : ∀ t, ∀ a ∈ (B.trans t).pre ++ (B.trans t).post, 0 < a.weight ∧ a.weight < W32
  skip_empty : ∀ t, (B.trans t).skip = true → (B.trans t).pre = [] ∧ (B.trans t).post = []
  size : B.transitions.length < W32 - 1
  init_len : B.init.length = B.places.length

/-- The net denoted by the builder: places and transitions are the builder's own indices. -/
def toNet (B : Builder) : Net Nat Nat where
  pre t p := match (B.trans t).pre.find? (fun a => a.place == p && !a.inhib) with
    | some a => a.weight
    | none => 0
  inh t p := match (B.trans t).pre.find? (fun a => a.place == p && a.inhib) with
    | some a => some a.weight
    | none => none
  post t p := match (B.trans t).post.find? (fun a => a.place == p) with
    | some a => a.weight
    | none => 0

end Builder
end Verif
