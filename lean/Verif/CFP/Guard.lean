import Verif.CFP.Visitors

/-!
# Restriction of the intervals by guards

Models `include/PetriEngine/Colored/RestrictVisitor.h` and `src/PetriEngine/Colored/GuardRestrictor.cpp`, for variables and
constants of plain types (those of product types need `expandIdVec` and `expandIntervalVec`, which are left out).  Every map
of the variables is treated separately in the code as well.
-/

namespace Verif
namespace CFP

open CPN

/-- What the visitors find of one side of a comparison. -/
structure Side where
  pos : List (Nat × Nat)
  mods : Mods
  consts : List (Nat × Color)

/-- models RestrictVisitor.h:67-80 (the calls of the visitors). -/
def side (T : Types) (e : CExpr) : Side :=
  let s := VSt.visitC {} e
  ⟨s.pos, s.mods, constants T e⟩

/-- models GuardRestrictor.cpp:25-34 (`getVarModifier`) with the look-up of the variable. -/
def Side.modOf (s : Side) (v k : Nat) : Int := ((((s.mods.lookup v).getD []).getLastD []).lookup k).getD 0

def VMap.at (m : VMap) (v : Nat) : IVec := (m.lookup v).getD []

/-- models GuardRestrictor.cpp:250-283 (`restrictEqDiagonal`), for variables of one size.  The writes are one after the
other, so that both modifiers are applied to the intervals of a variable that occurs on both sides. -/
def eqDiagonal (T : Types) (vty : Nat → Nat) (v w : Nat) (mv mw : Int) (m : VMap) : VMap :=
  let n := overlaps ((m.at v).applyModifier (-mv) (T.dims (vty v))) ((m.at w).applyModifier (-mw) (T.dims (vty w)))
  let m1 : VMap := setKey (setKey m v n) w n
  let m2 : VMap := setKey m1 v ((m1.at v).applyModifier mv (T.dims (vty v)))
  setKey m2 w ((m2.at w).applyModifier mw (T.dims (vty w)))

/-- models GuardRestrictor.cpp:147-171 (`restrictEqByConstant`). -/
def eqConstant (T : Types) (vty : Nat → Nat) (v : Nat) (mv : Int) (c : Color) (m : VMap) : VMap :=
  let a := shiftN 32 (T.size (vty v)) mv c.id
  setKey m v (overlaps (m.at v) [[⟨a, a⟩]])

/-- models GuardRestrictor.cpp:341-368 (`restrictEquality`). -/
def restrictEq (T : Types) (vty : Nat → Nat) (l r : Side) (m : VMap) : VMap :=
  let m1 : VMap := l.pos.foldl (fun m q =>
    match r.pos.lookup q.1 with
    | some w => eqDiagonal T vty q.2 w (l.modOf q.2 q.1) (r.modOf w q.1) m
    | none => match r.consts.lookup q.1 with
      | some c => eqConstant T vty q.2 (l.modOf q.2 q.1) c m
      | none => m) m
  r.pos.foldl (fun m q =>
    match l.consts.lookup q.1 with
    | some c => eqConstant T vty q.2 (r.modOf q.2 q.1) c m
    | none => m) m1

/-- models GuardRestrictor.cpp:122-145 (`restrictByConstant`). -/
def byConstant (v : Nat) (c : Color) (upper strict : Bool) (m : VMap) : VMap :=
  setKey m v (if upper then (m.at v).constrainUpper [c.id] strict else (m.at v).constrainLower [c.id] strict)

/-- models GuardRestrictor.cpp:173-212 (`restrictDiagonal`), for variables of one size; always called with `lessthan`. -/
def diagonal (T : Types) (vty : Nat → Nat) (v w : Nat) (mv mw : Int) (strict : Bool) (m : VMap) : VMap :=
  let lids := (m.at v).lowerIdsMod (-mv) (T.dims (vty v))
  let rids := (m.at w).upperIdsMod (-mw) (T.dims (vty w))
  let m1 : VMap := setKey m v ((m.at v).constrainUpper rids strict)
  setKey m1 w ((m1.at w).constrainLower lids strict)

/-- models GuardRestrictor.cpp:308-339 (`restrictVars`) with `lessthan`. -/
def restrictLess (T : Types) (vty : Nat → Nat) (strict : Bool) (l r : Side) (m : VMap) : VMap :=
  let m1 : VMap := l.pos.foldl (fun m q =>
    match r.pos.lookup q.1 with
    | some w => diagonal T vty q.2 w (l.modOf q.2 q.1) (r.modOf w q.1) strict m
    | none => match r.consts.lookup q.1 with
      | some c => byConstant q.2 c true strict m
      | none => m) m
  r.pos.foldl (fun m q =>
    match l.consts.lookup q.1 with
    | some c => byConstant q.2 c false strict m
    | none => m) m1

/-- one interval of the loop of GuardRestrictor.cpp:466-486 -/
def invertBox (old : Interval) (is : IVec) : IVec :=
  is.foldl (fun res i =>
    if res.isEmpty then old.subtract i
    else ((res.map fun c => (old.subtract i).map fun d => c.overlap d).flatten).filter fun j => j.sound) []

/-- models GuardRestrictor.cpp:460-489 (`invertIntervals`). -/
def invertIntervals (is old : IVec) : IVec := IVec.addAll [] (old.map fun o => invertBox o is).flatten

/-- models GuardRestrictor.cpp:398-415 (`handleInequalityConstants`). -/
def neConstant (old : VMap) (v : Nat) (m : VMap) : VMap :=
  let before := (old.at v).count
  let after := (m.at v).count
  if before ≠ 0 ∧ after = 0 then setKey m v (old.at v)
  else if before > 1 then setKey m v (invertIntervals (m.at v) (old.at v))
  else if before = 1 then setKey m v []
  else m

/-- models GuardRestrictor.cpp:417-458 (`handleInequalityVars`). -/
def neVars (old : VMap) (v w : Nat) (m : VMap) : VMap :=
  let rb := (old.at w).count
  let ra := (m.at w).count
  let lb := (old.at v).count
  let la := (m.at v).count
  let back := setKey (setKey m v (old.at v)) w (old.at w)
  if (lb > 1 ∧ rb > 1) ∨ lb = 0 ∨ rb = 0 then m
  else if lb = 1 ∧ rb = 1 then
    if !(m.at v).isEmpty then setKey (setKey m v []) w [] else back
  else if lb > 1 then
    if la > 0 then setKey m v (invertIntervals (m.at v) (old.at v)) else back
  else
    if ra > 0 then setKey m w (invertIntervals (m.at w) (old.at w)) else back

/-- models GuardRestrictor.cpp:370-396 (`restrictInEquality`). -/
def restrictNe (T : Types) (vty : Nat → Nat) (l r : Side) (old : VMap) : VMap :=
  let m := restrictEq T vty l r old
  let m1 : VMap := l.pos.foldl (fun m q =>
    match r.pos.lookup q.1 with
    | some w => neVars old q.2 w m
    | none => neConstant old q.2 m) m
  r.pos.foldl (fun m q => if (l.pos.lookup q.1).isNone then neConstant old q.2 m else m) m1

/-- A comparison without variables is passed over (RestrictVisitor.h:75-77, 94-96, 114-116, 133-135). -/
def atomOf (T : Types) (f : Side → Side → VMap → VMap) (a b : CExpr) (m : VMap) : VMap :=
  if a.vars.isEmpty && b.vars.isEmpty then m else f (side T a) (side T b) m

/-- models RestrictVisitor.h:66-151. -/
def restrictG (T : Types) (vty : Nat → Nat) : Guard → List VMap → List VMap
  | .lt a b, maps => maps.map (atomOf T (restrictLess T vty true) a b)
  | .le a b, maps => maps.map (atomOf T (restrictLess T vty false) a b)
  | .eq a b, maps => maps.map (atomOf T (restrictEq T vty) a b)
  | .ne a b, maps => maps.map (atomOf T (restrictNe T vty) a b)
  | .and g h, maps => restrictG T vty h (restrictG T vty g maps)
  | .or g h, maps => restrictG T vty g maps ++ restrictG T vty h maps

/-- models src/PetriEngine/Colored/ForwardFixedPoint.cpp:256-268 (`addTransitionVars`). -/
def addVars (T : Types) (vty : Nat → Nat) (vs : List Nat) (m : VMap) : VMap :=
  vs.foldl (fun m v => if (m.lookup v).isNone then m ++ [(v, [fullInterval (T.dims (vty v))])] else m) m

/-- models ForwardFixedPoint.cpp:270-287 (`removeInvalidVarmaps`). -/
def removeInvalid (maps : List VMap) : List VMap :=
  (maps.filter fun m => m.all fun q => q.2.valid).map fun m => m.map fun q => (q.1, q.2.simplify)

/-- The restriction of the maps of a transition by its guard (ForwardFixedPoint.cpp:160-165, 218-228). -/
def restrictMaps (T : Types) (vty : Nat → Nat) (g : Option Guard) (maps : List VMap) : List VMap :=
  match g with
  | none => maps
  | some g => removeInvalid (restrictG T vty g (maps.map (addVars T vty g.vars)))

end CFP
end Verif
