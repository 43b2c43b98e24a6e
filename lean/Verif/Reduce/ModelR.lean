import Verif.Reduce.Model2
import Verif.Reduce.ModelH

/-!
# Model of the structural reductions, rules R and S and the order in which the rules are applied

The clock is a bound on the number of turns; when it runs out inside a rule the code returns at once, and so does the
model (`fin = false`).
-/

namespace Verif
namespace Reduce

/-- Arcs copied one by one into a list (`addPreArc`, `addPostArc`). -/
def addAll (src dst : List Arc) : List Arc := src.foldl (fun l a => addArc a l) dst

/-! ### Rule R -/

/-- models src/PetriEngine/Reducer.cpp:2507-2522: what the producer leaves of its arcs, `w` tokens of `pid` go to the
consumer. -/
def rRest (pid w : Nat) (l : List Arc) : List Arc :=
  (subArc pid w l).filter fun a => a.place != pid || decide (0 < a.weight)

/-- models src/PetriEngine/Reducer.cpp:2490-2522: the new transition, `x` is the producer and `y` the consumer (its only
input arc is the one of `pid`). -/
def rNew (pid : Nat) (x y : RTr) : RTr :=
  { pre := addAll x.pre []
    post := addAll (rRest pid (wAt y.pre pid) x.post) (addAll y.post [])
    skip := false
    inhib := false }

/-- models src/PetriEngine/Reducer.cpp:2473-2528: the loop over the consumers; the second part is the stack
`prods_todo`, its top first. -/
def rCons (pid : Nat) (x : RTr) : List Nat → RNet × List Nat → RNet × List Nat
  | [], s => s
  | c :: cs, s =>
    let r := s.1.newTrans (rNew pid x (s.1.tr c))
    rCons pid x cs (r.2, if 0 < wAt x.post pid - wAt (s.1.tr c).pre pid then r.1 :: s.2 else s.2)

/-- What the loop over the producers did: `fin` is false when the clock ran out, `all` is `removedAllProducers`, `diff` is
`n_new_trans`. -/
structure ROut where
  net : RNet
  fin : Bool
  all : Bool
  changed : Bool
  diff : Int

/-- models src/PetriEngine/Reducer.cpp:2455-2534: the loop over the producers.  `bad` (not in the code): the producer has
inhibitor arcs, the new transitions get them but not the flag `inhib`. -/
def rLoop (pid maxW : Nat) (cons : List Nat) : Nat → List Nat → ROut → ROut
  | 0, _, o => { o with fin := false }
  | _ + 1, [], o => o
  | fuel + 1, t :: todo, o =>
    let x := o.net.tr t
    if wAt x.post pid < maxW then rLoop pid maxW cons fuel todo { o with all := false }
    else
      let r := rCons pid x cons (o.net.flag (x.pre.any fun a => a.inhib), todo)
      rLoop pid maxW cons fuel r.2
        { o with net := r.1.skipTrans t, changed := true, diff := o.diff + cons.length - 1 }

/-- models src/PetriEngine/Reducer.cpp:2394-2448: the conditions. -/
def rOk (Q : Nat → Bool) (lim : Nat) (N : RNet) (pid : Nat) : Bool :=
  !N.pskip pid && !N.pinhib pid && !Q pid && !(N.producers pid).isEmpty && !(N.consumers pid).isEmpty &&
  decide ((N.producers pid).length * (N.consumers pid).length ≤ max lim N.skipped.length) &&
  (N.producers pid).all (fun t => !(N.consumers pid).contains t) &&
  (N.consumers pid).all fun c =>
    !(N.tr c).inhib && decide ((N.tr c).pre.length = 1) &&
    (N.tr c).post.all fun a => !Q a.place && !N.pinhib a.place

/-- models src/PetriEngine/Reducer.cpp:2447 (`maxConW`). -/
def rMax (N : RNet) (pid : Nat) : Nat := (N.consumers pid).foldl (fun m c => max m (wAt (N.tr c).pre pid)) 0

/-- models src/PetriEngine/Reducer.cpp:2394-2546: one place. -/
def rPlace (Q : Nat → Bool) (lim fuel : Nat) (N : RNet) (pid : Nat) : Option ROut :=
  if rOk Q lim N pid then
    let cons := N.consumers pid
    let o := rLoop pid (rMax N pid) cons fuel (N.producers pid).reverse ⟨N, true, true, false, 0⟩
    if o.fin && o.all && decide (o.net.init pid = 0) then
      let cs := o.net.consumers pid
      some { o with net := (skipAll cs o.net).skipPlace pid, diff := o.diff - cs.length }
    else some o
  else none

/-- models src/PetriEngine/Reducer.cpp:2390-2553: the loop over the places. -/
def rPlaces (Q : Nat → Bool) (lim fuel : Nat) : List Nat → RNet → RNet × Bool
  | [], N => (N, false)
  | p :: ps, N =>
    match rPlace Q lim fuel N p with
    | none => rPlaces Q lim fuel ps N
    | some o =>
      if o.fin = false then (o.net, false)
      else if o.diff > (lim : Int) then (o.net, o.changed)
      else
        let r := rPlaces Q lim fuel ps o.net
        (r.1, o.changed || r.2)

/-- models src/PetriEngine/Reducer.cpp:2383-2554 (`ReducebyRuleR`), without trace reconstruction. -/
def ruleR (Q : Nat → Bool) (expl fuel : Nat) (N : RNet) : RNet × Bool :=
  rPlaces Q expl fuel ((List.range N.np).take fuel) N

/-! ### Rule S -/

/-- A consumer of the place: its weight, and the elements of `todo` and `kIsAlwaysOne`. -/
structure SCon where
  id : Nat
  w : Nat
  todo : Bool := true
  one : Bool := true

/-- models src/PetriEngine/Reducer.cpp:2611-2619: S3, S9. -/
def sUpd (init kw : Nat) (c : SCon) : SCon :=
  if init ≥ c.w ∨ kw % c.w ≠ 0 then { c with todo := false }
  else if kw ≠ c.w then { c with one := false }
  else c

/-- models the binary search of `std::lower_bound` for `true` (Reducer.cpp:2629) on a list that need not be sorted: is the
result the end of the list? -/
def noTrue (l : List Bool) : Nat → Nat → Nat → Bool
  | 0, first, _ => decide (first = l.length)
  | fuel + 1, first, len =>
    if len = 0 then decide (first = l.length)
    else if l.getD (first + len / 2) true = false then noTrue l fuel (first + len / 2 + 1) (len - len / 2 - 1)
    else noTrue l fuel first (len / 2)

/-- models src/PetriEngine/Reducer.cpp:2599-2665: one producer. -/
def sProd (Q : Nat → Bool) (atomic : Bool) (N : RNet) (pid t : Nat) (cs : List SCon) : Option (List SCon) :=
  let x := N.tr t
  if x.inhib || decide (x.post.length ≠ 1) then none
  else
    let kw := wAt x.post pid
    if !atomic && cs.any (fun c => decide (N.init pid ≥ c.w) || decide (kw ≠ c.w)) then none
    else
      let cs' := if atomic then cs.map (sUpd (N.init pid) kw) else cs
      if cs'.any (fun c => !c.todo) && noTrue (cs'.map (·.todo)) cs'.length 0 cs'.length then none
      else if x.pre.any (fun a => N.pinhib a.place || Q a.place ||
          (!atomic && !(N.consumers a.place).all fun s => (N.producers pid).contains s)) then none
      else some cs'

/-- models src/PetriEngine/Reducer.cpp:2599-2665: the loop over the producers. -/
def sProds (Q : Nat → Bool) (atomic : Bool) (N : RNet) (pid : Nat) : List Nat → List SCon → Option (List SCon)
  | [], cs => some cs
  | t :: ts, cs =>
    match sProd Q atomic N pid t cs with
    | none => none
    | some cs' => sProds Q atomic N pid ts cs'

/-- models src/PetriEngine/Reducer.cpp:2722-2758 and :2777-2805: the new transition for `ki` of `k` firings of the
consumer `y`, each with `w` tokens of the producer `x`.  (`inhib |= arc.inhib` for the places of the new arcs has no
effect: those inhibitor arcs are arcs of `y`.) -/
def sNew (pid : Nat) (x y : RTr) (k ki w : Nat) : RTr :=
  { pre := addAll x.pre (addAll (dropArc pid y.pre) [])
    post :=
      let l := addAll (y.post.map fun a => { a with weight := a.weight * ki }) []
      if ki ≠ k then addArc ⟨pid, (k - ki) * w, false⟩ l else l
    skip := false
    inhib := (dropArc pid y.pre).any fun a => a.inhib }

/-- models src/PetriEngine/Reducer.cpp:2705-2759: the transitions for `ki = 1..k`. -/
def sAdd (pid t c k w : Nat) : List Nat → RNet → RNet
  | [], N => N
  | ki :: ks, N => sAdd pid t c k w ks (N.newTrans (sNew pid (N.tr t) (N.tr c) k ki w)).2

/-- models src/PetriEngine/Reducer.cpp:2694-2807: the loop over the producers for one consumer. -/
def sAddAll (pid : Nat) (c : SCon) (split : Bool) : List Nat → RNet × Nat → RNet × Nat
  | [], s => s
  | t :: ts, s =>
    let k := if split then wAt (s.1.tr t).post pid / c.w else 1
    sAddAll pid c split ts (sAdd pid t c.id k c.w ((List.range k).map (· + 1)) s.1, s.2 + k)

/-- models src/PetriEngine/Reducer.cpp:2675-2693: the consumer is left alone. -/
def sLeave (atomic : Bool) (N : RNet) (c : SCon) : Bool :=
  !c.todo || (atomic && !c.one &&
    (decide ((N.tr c.id).pre.length ≠ 1) || (N.tr c.id).post.any fun a => N.pinhib a.place))

/-- What the loop over the consumers did: `diff` is `n_added`. -/
structure SOut where
  net : RNet
  changed : Bool
  diff : Int

/-- models src/PetriEngine/Reducer.cpp:2669-2812: the loop over the consumers.  `bad` (not in the code): the consumer may
have to fire more than once. -/
def sCons (atomic : Bool) (pid : Nat) (prods : List Nat) : List SCon → SOut → SOut
  | [], o => o
  | c :: cs, o =>
    if sLeave atomic o.net c then sCons atomic pid prods cs o
    else
      let split := atomic && !c.one
      let r := sAddAll pid c split prods (o.net.flag split, 0)
      sCons atomic pid prods cs ⟨r.1.skipTrans c.id, true, o.diff + r.2 - 1⟩

/-- models src/PetriEngine/Reducer.cpp:2566-2823: one place. -/
def sPlace (Q : Nat → Bool) (atomic : Bool) (N : RNet) (pid : Nat) : Option SOut :=
  if N.pskip pid || N.pinhib pid || Q pid || (N.producers pid).isEmpty || (N.consumers pid).isEmpty ||
      (N.producers pid).any (fun t => (N.consumers pid).contains t) then none
  else
    match sProds Q atomic N pid (N.producers pid) ((N.consumers pid).map fun c => ⟨c, wAt (N.tr c).pre pid, true, true⟩) with
    | none => none
    | some cs =>
      let o := sCons atomic pid (N.producers pid) cs ⟨N, false, 0⟩
      if (o.net.consumers pid).isEmpty then
        let ps := o.net.producers pid
        some { o with net := (skipAll ps o.net).skipPlace pid, diff := o.diff - ps.length }
      else some o

/-- models src/PetriEngine/Reducer.cpp:2562-2826: the loop over the places. -/
def sPlaces (Q : Nat → Bool) (atomic : Bool) (expl : Nat) : List Nat → RNet → RNet × Bool
  | [], N => (N, false)
  | p :: ps, N =>
    match sPlace Q atomic N p with
    | none => sPlaces Q atomic expl ps N
    | some o =>
      if o.diff ≥ (expl : Int) then (o.net, o.changed)
      else
        let r := sPlaces Q atomic expl ps o.net
        (r.1, o.changed || r.2)

/-- models src/PetriEngine/Reducer.cpp:2556-2829 (`ReducebyRuleS`), without trace reconstruction. -/
def ruleS (Q : Nat → Bool) (rl ar : Bool) (expl lim : Nat) (N : RNet) : RNet × Bool :=
  sPlaces Q (ar && rl) expl ((List.range N.np).take lim) N

end Reduce
end Verif
