import Verif.CFP.Intervals
import Verif.CPN.Eval

/-!
# Variables, constants and intervals of arc expressions

Models `include/PetriEngine/Colored/VariableVisitor.h`, `ConstantVisitor.h`, `ArcIntervalVisitor.h` and
`OutputIntervalVisitor.h` and `src/PetriEngine/Colored/IntervalGenerator.cpp`.  An unordered map is a list of keys and
values; nothing that is proved depends on its order.  `AllExpression`s are expanded by the parser and are no part of the
syntax.
-/

namespace Verif
namespace CFP

open CPN

/-- replaces the value of a key or appends it -/
def setKey {α : Type} (l : List (Nat × α)) (k : Nat) (a : α) : List (Nat × α) :=
  match l with
  | [] => [(k, a)]
  | (j, b) :: l => if j = k then (j, a) :: l else (j, b) :: setKey l k a

/-- changes the last element -/
def modLast {α : Type} (f : α → α) : List α → List α
  | [] => []
  | [a] => [f a]
  | a :: l => a :: modLast f l

/-! ### Variables and their modifiers -/

/-- models include/PetriEngine/Colored/Colors.h (`VariableModifierMap`): for a variable and a leaf of the expression the
positions in the tuple where it occurs, with the modifiers. -/
abbrev Mods := List (Nat × List (List (Nat × Int)))

/-- The fields of the visitor (VariableVisitor.h:40-47); the set of variables is `CExpr.vars`. -/
structure VSt where
  idx : Nat := 0
  pos : List (Nat × Nat) := []
  mods : Mods := []
deriving DecidableEq, Repr

/-- models VariableVisitor.h:61-85: the entries of a variable that is new are filled up to the present leaf. -/
def VSt.var (s : VSt) (v : Nat) : VSt :=
  match s.mods.lookup v with
  | none =>
    let pad := match s.mods with
      | [] => 0
      | q :: _ => q.2.length - 1
    { s with pos := setKey s.pos s.idx v, mods := setKey s.mods v (List.replicate pad [] ++ [[(s.idx, 0)]]) }
  | some vec =>
    { s with pos := setKey s.pos s.idx v, mods := setKey s.mods v (modLast (fun m => setKey m s.idx 0) vec) }

/-- VariableVisitor.h:94-128: after the visit of the operand the modifiers of all positions visited are changed. -/
def VSt.shift (s : VSt) (before : Nat) (d : Int) : VSt :=
  { s with mods := s.mods.map fun q => (q.1, modLast (fun m => m.map fun e => if e.1 ≤ s.idx ∧ before ≤ e.1 then (e.1, e.2 + d) else e) q.2) }

mutual
/-- models VariableVisitor.h:57-138. -/
def VSt.visitC (s : VSt) : CExpr → VSt
  | .dot => s
  | .var v => s.var v
  | .const _ => s
  | .succ e => (s.visitC e).shift s.idx (-1)
  | .pred e => (s.visitC e).shift s.idx 1
  | .tuple es => s.visitCs es
def VSt.visitCs (s : VSt) : List CExpr → VSt
  | [] => s
  | e :: es => VSt.visitCs { s.visitC e with idx := (s.visitC e).idx + 1 } es
end

/-- a new leaf for all variables (VariableVisitor.h:211-213) -/
def VSt.leaf (s : VSt) : VSt := { s with mods := s.mods.map fun q => (q.1, q.2 ++ [[]]) }

/-- the test of VariableVisitor.h:219-226, 244-250 with `is_last_variable_expr` (lines 292-317) -/
def endsInVar : ArcE → Bool
  | .num _ es => match es.getLast? with
    | some e => !e.vars.isEmpty
    | none => false
  | _ => false

mutual
/-- models VariableVisitor.h:198-259, with the subtracted expressions. -/
def VSt.visitA (s : VSt) : ArcE → VSt
  | .num _ es => es.foldl (fun s e => VSt.visitC { s with idx := 0 } e) s
  | .add as =>
    let s' := s.visitAs as
    match as.getLast? with
    | some a => if endsInVar a then s'.leaf else s'
    | none => s'
  | .sub a b =>
    let s1 := VSt.visitA { s.leaf with idx := 0 } a
    let s2 := VSt.visitA { s1.leaf with idx := 0 } b
    if endsInVar b then s2.leaf else s2
  | .scal _ a => VSt.visitA { s with idx := 0 } a
def VSt.visitAs (s : VSt) : List ArcE → VSt
  | [] => s
  | a :: as => VSt.visitAs (VSt.visitA { s.leaf with idx := 0 } a) as
end

/-- models src/PetriEngine/Colored/ForwardFixedPoint.cpp:37-48 for one arc (`setupTransitionVars`). -/
def arcMods (e : ArcE) : Mods := (VSt.visitA {} e).mods

/-! ### The intervals an input arc can take from its place -/

/-- models ArcIntervalVisitor.h:70-74: a colour with the modifiers applied. -/
def constId (n : Nat) (id : Nat) (m : Int) : Nat := (((id : Int) + m) % n).toNat

/-- The fields of the visitor; in one leaf there is at most one list of intervals.  `ub` says that a range was read beyond
the end of a box. -/
structure ASt where
  idx : Nat := 0
  vec : Option IVec := none
  ok : Bool := true
  ub : Bool := false
deriving DecidableEq, Repr

/-- models ArcIntervalVisitor.h:50-66: all tokens of the place can be meant. -/
def ASt.any (s : ASt) (cfp : IVec) : ASt := { s with vec := some (s.vec.getD cfp), ok := !cfp.isEmpty }

def Interval.at (i : Interval) (k a : Nat) : Bool := (i.getD k Rng.bad).contains a

/-- models ArcIntervalVisitor.h:68-102: only the boxes that have the colour are kept. -/
def ASt.color (s : ASt) (cfp : IVec) (a : Nat) : ASt :=
  let src := s.vec.getD cfp
  let kept := src.filter fun i => i.at s.idx a
  { s with
    vec := some (match s.vec with
      | none => IVec.addAll [] kept
      | some _ => kept)
    ok := !kept.isEmpty
    ub := s.ub || src.any fun i => decide (i.length ≤ s.idx) }

mutual
/-- models ArcIntervalVisitor.h:50-126; `m` is the modifier. -/
def ASt.visitC (T : Types) (cfp : IVec) (m : Int) (s : ASt) : CExpr → ASt
  | .dot => s.any cfp
  | .var _ => s.any cfp
  | .const c => s.color cfp (constId (T.size c.ty) c.id m)
  | .succ e => s.visitC T cfp (m + 1) e
  | .pred e => s.visitC T cfp (m - 1) e
  | .tuple es => s.visitCs T cfp m es
def ASt.visitCs (T : Types) (cfp : IVec) (m : Int) (s : ASt) : List CExpr → ASt
  | [] => s
  | e :: es =>
    let s' := s.visitC T cfp m e
    if s'.ok then ASt.visitCs T cfp m { s' with idx := s'.idx + 1 } es else s'
end

/-- models ArcIntervalVisitor.h:172-179. -/
def ASt.elems (T : Types) (cfp : IVec) (s : ASt) : List CExpr → ASt
  | [] => s
  | e :: es => let s' := s.visitC T cfp 0 e; if s'.ok then ASt.elems T cfp s' es else s'

/-- What is found for an arc. -/
inductive Found
  | undef
  | no
  | yes (vec : List IVec)
deriving DecidableEq, Repr

mutual
/-- models ArcIntervalVisitor.h:172-215 (`intervals`). -/
def arcFound (T : Types) (cfp : IVec) : ArcE → Found
  | .num _ es =>
    let s := ASt.elems T cfp {} es
    if s.ub then .undef else if s.ok then .yes s.vec.toList else .no
  | .add as => arcFounds T cfp [] as
  | .sub a _ => arcFound T cfp a
  | .scal _ a => arcFound T cfp a
def arcFounds (T : Types) (cfp : IVec) (acc : List IVec) : List ArcE → Found
  | [] => .yes acc
  | a :: as =>
    match arcFound T cfp a with
    | .undef => .undef
    | .no => .no
    | .yes [] => .no
    | .yes vec => arcFounds T cfp (acc ++ vec) as
end

/-! ### The intervals of the variables -/

/-- models include/PetriEngine/Colored/Colors.h (`VariableIntervalMap`). -/
abbrev VMap := List (Nat × IVec)

/-- one position of the loop of IntervalGenerator.cpp:28-55 -/
def rangesFrom (n : Nat) (m : Int) (r : Rng) : List Rng :=
  let l := shiftN 64 n m r.lo
  let u := shiftN 64 n m r.hi
  if l > u then if l = u + 1 then [⟨0, n - 1⟩] else [⟨0, u⟩, ⟨l, n - 1⟩] else [⟨l, u⟩]

/-- models src/PetriEngine/Colored/IntervalGenerator.cpp:24-57 (`getIntervalsFromInterval`), for the sizes of the components
of the variable.  Where two components wrap around the order of the boxes differs from the code; variables of product types
have no modifiers, and then nothing wraps around. -/
def intervalsFrom (m : Int) : List Nat → List Rng → IVec
  | n :: ns, r :: i => ((rangesFrom n m r).map fun q => (intervalsFrom m ns i).map fun rest => q :: rest).flatten
  | [], _ => [[]]
  | _ :: _, [] => []

/-- the pairs of boxes that overlap, joined one after the other -/
def overlaps (v w : IVec) : IVec :=
  IVec.addAll [] (((v.map fun i => w.map fun j => i.overlap j).flatten).filter fun i => i.sound)

/-- models src/PetriEngine/Colored/IntervalGenerator.cpp:59-82 (`getArcVarIntervals`). -/
def arcVarIntervals (dims : List Nat) (box : Interval) (entries : List (Nat × Int)) : IVec :=
  entries.foldl (fun vi q =>
    let is := intervalsFrom q.2 dims (box.drop q.1)
    if vi.isEmpty then IVec.addAll [] is else overlaps vi is) []

/-- the intervals of a variable from leaf `j` of an arc with `k` leaves (IntervalGenerator.cpp:90-101, 133-143) -/
def leafIntervals (dims : List Nat) (k j : Nat) (vec : List (List (Nat × Int))) (box : Interval) : IVec :=
  let vi := arcVarIntervals dims box (vec.getD j [])
  if k > 1 ∧ (vec.getD j []).isEmpty then vi.add (fullInterval dims) else vi

/-- the loop over the variables of IntervalGenerator.cpp:132-149; `none`: one of them cannot be bound -/
def localMap (T : Types) (vty : Nat → Nat) (k j : Nat) (box : Interval) : Mods → Option VMap
  | [] => some []
  | (v, vec) :: ms =>
    let vi := leafIntervals (T.dims (vty v)) k j vec box
    if vi.isEmpty then none else (localMap T vty k j box ms).map fun l => (v, vi) :: l

/-- models src/PetriEngine/Colored/IntervalGenerator.cpp:121-156 (`fillVarMaps`). -/
def fillVarMaps (T : Types) (vty : Nat → Nat) (k j : Nat) (mods : Mods) (vec : IVec) : List VMap :=
  vec.foldl (fun maps box =>
    match localMap T vty k j box mods with
    | none => maps
    | some l => if !l.isEmpty || maps.isEmpty then maps ++ [l] else maps) []

/-- the intervals of a variable are cut with those it has in the old map (IntervalGenerator.cpp:103-113) -/
def meetOld (old : VMap) (v : Nat) (vi : IVec) : IVec :=
  match old.lookup v with
  | none => vi
  | some w => overlaps vi w

/-- models src/PetriEngine/Colored/IntervalGenerator.cpp:84-119 (`populateLocalMap`); `none`: not all variables assigned -/
def populate (T : Types) (vty : Nat → Nat) (k j : Nat) (old : VMap) (box : Interval) : Mods → Option VMap
  | [] => some []
  | (v, vec) :: ms =>
    let r := meetOld old v (leafIntervals (T.dims (vty v)) k j vec box)
    if r.isEmpty then none else (populate T vty k j old box ms).map fun l => (v, r) :: l

/-- the other variables of the old map (IntervalGenerator.cpp:186-190) -/
def keepOld (l old : VMap) : VMap := l ++ old.filter fun q => (l.lookup q.1).isNone

/-- the loops of IntervalGenerator.cpp:176-199 -/
def refineVarMaps (T : Types) (vty : Nat → Nat) (k j : Nat) (mods : Mods) (vec : IVec) (maps : List VMap) : List VMap :=
  (maps.map fun old => vec.map fun box => (old, box)).flatten.foldl (fun acc q =>
    match populate T vty k j q.1 q.2 mods with
    | none => acc
    | some l => let m := keepOld l q.1; if !m.isEmpty || acc.isEmpty then acc ++ [m] else acc) []

/-- one leaf (IntervalGenerator.cpp:164-206) -/
def leafStep (T : Types) (vty : Nat → Nat) (k j : Nat) (mods : Mods) (vec : IVec) (maps : List VMap) : List VMap :=
  if maps.isEmpty then fillVarMaps T vty k j mods vec else refineVarMaps T vty k j mods vec maps

/-- Whether an entry for the leaf exists for every variable (asserted in IntervalGenerator.cpp:93, 137; the access beyond the
end is undefined without the assertion). -/
def entriesExist (mods : Mods) (j : Nat) : Bool := mods.all fun q => decide (j < q.2.length)

/-- the leaves of one arc; `none` is undefined behaviour -/
def leavesStep (T : Types) (vty : Nat → Nat) (mods : Mods) (k : Nat) : Nat → List IVec → List VMap → Option (List VMap)
  | _, [], maps => some maps
  | j, vec :: vecs, maps =>
    if !vec.isEmpty && !entriesExist mods j then none
    else
      let maps' := leafStep T vty k j mods vec maps
      if maps'.isEmpty then some [] else leavesStep T vty mods k (j + 1) vecs maps'

/-- the loop over the arcs; the result is empty if some arc cannot be served -/
def arcsStep (T : Types) (vty : Nat → Nat) : List (Mods × List IVec) → List VMap → Option (List VMap)
  | [], maps => some maps
  | (mods, vecs) :: rest, maps =>
    match leavesStep T vty mods vecs.length 0 vecs maps with
    | none => none
    | some maps' => if maps'.isEmpty ∧ vecs ≠ [] then some [] else arcsStep T vty rest maps'

/-- models src/PetriEngine/Colored/IntervalGenerator.cpp:158-210 (`getVarIntervals`), for the arcs with their variables and
intervals.  The second component is the result of the function. -/
def varIntervals (T : Types) (vty : Nat → Nat) (arcs : List (Mods × List IVec)) : Option (List VMap × Bool) :=
  if arcs.isEmpty then some ([[]], true)
  else (arcsStep T vty arcs []).map fun maps => (maps, !maps.isEmpty || arcs.all fun q => q.2.isEmpty)

/-! ### The intervals an output arc produces -/

/-- one position of the loop of src/PetriEngine/Colored/GuardRestrictor.cpp:491-550 (`shiftIntervals`): a range is shifted in
the cycle of its type, of size `n`. -/
def shiftRanges (n : Nat) (m : Int) (r : Rng) : List Rng :=
  let l := shiftN 32 n m r.lo
  let u := shiftN 32 n m r.hi
  if u + 1 = l then [⟨0, n - 1⟩] else if u < l then [⟨l, n - 1⟩, ⟨0, u⟩] else [⟨l, u⟩]

/-- the boxes of one box (GuardRestrictor.cpp:497-545); the order differs from that of the code if two components wrap around,
which does not occur with successors of plain types -/
def shiftBox (m : Int) : List Nat → List Rng → IVec
  | n :: ns, r :: i => ((shiftRanges n m r).map fun q => (shiftBox m ns i).map fun rest => q :: rest).flatten
  | _, _ => [[]]

/-- models GuardRestrictor.cpp:491-550. -/
def shiftIntervals (m : Int) (dims : List Nat) (v : IVec) : IVec := IVec.addAll [] (v.map fun i => shiftBox m dims i).flatten

/-- one component appended to the boxes so far (OutputIntervalVisitor.h:114-131) -/
def crossIntervals (acc res : IVec) : IVec :=
  if acc.isEmpty then res
  else IVec.addAll [] (res.map fun r => IVec.addAll [] (acc.map fun i => i ++ r)).flatten

/-- the sizes of the components of what an expression denotes (the field `_colortypes` from the offset on) -/
def outDims (T : Types) (vty : Nat → Nat) : CExpr → List Nat
  | .dot => [T.size dotTy]
  | .var v => T.dims (vty v)
  | .const c => [T.size c.ty]
  | .succ e => outDims T vty e
  | .pred e => outDims T vty e
  | .tuple es => outDimsL es
where outDimsL : List CExpr → List Nat
  | [] => []
  | e :: es => outDims T vty e ++ outDimsL es

mutual
/-- models OutputIntervalVisitor.h:50-133, for one map of the variables. -/
def outIntervals (T : Types) (vty : Nat → Nat) (m : VMap) : CExpr → IVec
  | .dot => [[⟨0, 0⟩]]
  | .var v => match m.lookup v with
    | none => [fullInterval (T.dims (vty v))]
    | some w => IVec.addAll [] w
  | .const c => [[⟨c.id, c.id⟩]]
  | .succ e => shiftIntervals 1 (outDims T vty e) (outIntervals T vty m e)
  | .pred e => shiftIntervals (-1) (outDims T vty e) (outIntervals T vty m e)
  | .tuple es => outTuple T vty m [] es
def outTuple (T : Types) (vty : Nat → Nat) (m : VMap) (acc : IVec) : List CExpr → IVec
  | [] => acc
  | e :: es => outTuple T vty m (crossIntervals acc (outIntervals T vty m e)) es
end

mutual
/-- models OutputIntervalVisitor.h:165-203. -/
def outArc (T : Types) (vty : Nat → Nat) (maps : List VMap) : ArcE → List IVec
  | .num _ es => (es.map fun e => maps.map fun m => outIntervals T vty m e).flatten
  | .add as => outArcs T vty maps as
  | .sub a _ => outArc T vty maps a
  | .scal _ a => outArc T vty maps a
def outArcs (T : Types) (vty : Nat → Nat) (maps : List VMap) : List ArcE → List IVec
  | [] => []
  | a :: as => outArc T vty maps a ++ outArcs T vty maps as
end

/-! ### Constants -/

mutual
/-- models ConstantVisitor.h:32-69 (on colour expressions): the constants by their positions.  A successor is applied to all
constants found so far. -/
def constsC (T : Types) (s : Nat × List (Nat × Color)) : CExpr → Nat × List (Nat × Color)
  | .dot => (s.1, setKey s.2 s.1 ⟨dotTy, 0⟩)
  | .var _ => s
  | .const c => (s.1, setKey s.2 s.1 c)
  | .succ e => let s' := constsC T s e; (s'.1, s'.2.map fun q => (q.1, succC T q.2))
  | .pred e => let s' := constsC T s e; (s'.1, s'.2.map fun q => (q.1, predC T q.2))
  | .tuple es => constsCs T s es
def constsCs (T : Types) (s : Nat × List (Nat × Color)) : List CExpr → Nat × List (Nat × Color)
  | [] => s
  | e :: es => let s' := constsC T s e; constsCs T (s'.1 + 1, s'.2) es
end

def constants (T : Types) (e : CExpr) : List (Nat × Color) := (constsC T (0, []) e).2

end CFP
end Verif
