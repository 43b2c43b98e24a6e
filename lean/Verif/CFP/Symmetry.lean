import Verif.CFP.Gen

/-!
# Symmetric variables

Models `src/PetriEngine/Colored/VariableSymmetry.cpp` with `include/PetriEngine/Colored/SymmetryVisitor.h`, and what
`FixpointBindingGenerator` (`src/PetriEngine/Colored/BindingGenerator.cpp:125-340`) does with the sets of symmetric variables: it goes
through the sequences of colours that do not go up.  The partition of the colours is not computed.  A set of variables (a `std::set` of
pointers) is a list in the order of the variables of the transition.
-/

namespace Verif
namespace CFP

open CPN

/-! ### The sets -/

mutual
/-- models SymmetryVisitor.h:44-160: whether the expression is a sum of the same numbers, and the numbers. -/
def symGo : ArcE → List Nat → Bool × List Nat
  | .num n es, ns => if es.length > 1 then (false, ns) else (true, ns ++ [n])
  | .add as, ns =>
    let r := symGoL as ns
    if !r.1 then r
    else if r.2.length < 2 then (false, r.2)
    else (r.2.all fun n => n == r.2.headD 0, r.2)
  | .sub _ _, ns => (false, ns)
  | .scal _ _, ns => (false, ns)
def symGoL : List ArcE → List Nat → Bool × List Nat
  | [], ns => (true, ns)
  | a :: as, ns =>
    let r := symGo a ns
    if !r.1 then r else symGoL as r.2
end

/-- models VariableSymmetry.cpp:64-78 (`checkSymmetricVarsInArcs`): no variable is on an input arc from another place. -/
def symIn (t : CTrans) (p : Nat) (S : List Nat) : Bool :=
  t.inputs.all fun b => b.place == p || S.all fun v => !b.expr.vars.contains v

/-- models VariableSymmetry.cpp:80-114 (`checkSymmetricVarsOutArcs`): one output arc has all the variables, the others have none. -/
def symOut (t : CTrans) (S : List Nat) : Bool :=
  (t.outputs.all fun b => (S.all fun v => b.expr.vars.contains v) || S.all fun v => !b.expr.vars.contains v) &&
    (t.outputs.filter fun b => S.all fun v => b.expr.vars.contains v).length == 1

/-- models VariableSymmetry.cpp:28-58 for one input arc. -/
def symArc (t : CTrans) (a : CArc) : Option (List Nat) :=
  let r := symGo a.expr []
  let S := t.vars.filter fun v => a.expr.vars.contains v
  if r.1 && decide (r.2.length > 1) && decide (S.length ≥ 2) && symIn t a.place S && symOut t S then some S else none

/-- models VariableSymmetry.cpp:17-62 (`compute`) for one transition. -/
def symSets (t : CTrans) : List (List Nat) := if t.guard.isSome then [] else t.inputs.filterMap (symArc t)

/-! ### The generator -/

/-- models BindingGenerator.cpp:294-308 (`generateCombinations`). -/
def combos : Nat → Nat → List (List Nat)
  | _, 0 => [[]]
  | n, s + 1 => ((List.range (n + 1)).map fun i => (combos i s).map (i :: ·)).flatten

/-- models BindingGenerator.cpp:175-180: the size is that of the type of the first variable. -/
def symCombos (T : Types) (vty : Nat → Nat) (S : List Nat) : List (List Nat) := combos (T.size (vty (S.headD 0)) - 1) S.length

def setVar (v x : Nat) (b : Binding) : Binding := b.map fun q => if q.1 = v then (q.1, x) else q

/-- models the loop of BindingGenerator.cpp:205-209; `none` is the access to a colour that the type does not have. -/
def setVars (T : Types) (vty : Nat → Nat) : List Nat → List Nat → Binding → Option Binding
  | [], _, b => some b
  | _ :: _, [], _ => none
  | v :: S, x :: e, b => if x < T.size (vty v) then setVars T vty S e (setVar v x b) else none

/-- models BindingGenerator.cpp:196-221 (`assignSymmetricVars`) with `_currentOuterId` and `_currentInnerId`; inner `none` is `false`. -/
def assignS (T : Types) (vty : Nat → Nat) (sets : List (List Nat)) (b : Binding) (o i : Nat) : Option (Option (Binding × Nat × Nat)) :=
  if o < sets.length then
    let q := if i ≥ (symCombos T vty (sets.getD o [])).length then (o + 1, 0) else (o, i)
    match sets[q.1]? with
    | none => none
    | some S =>
      match setVars T vty S ((symCombos T vty S).getD q.2 []) b with
      | none => none
      | some b' => some (some (if q.2 + 1 ≥ (symCombos T vty S).length then (b', q.1 + 1, 0) else (b', q.1, q.2 + 1)))
  else some none

/-- The state of the generator: `_nextIndex`, `_bindings`, `_currentOuterId` and `_currentInnerId`. -/
structure SSt where
  k : Nat
  b : Binding
  o : Nat
  i : Nat
deriving DecidableEq

/-- models the loop of BindingGenerator.cpp:241-276, which leaves out the symmetric variables. -/
def bumpS (T : Types) (vty : Nat → Nat) (sym : List Nat) (m : VMap) : Binding → Option (Binding × Bool)
  | [] => some ([], true)
  | (v, i) :: b =>
    if v ∈ sym then (bumpS T vty sym m b).map fun r => ((v, i) :: r.1, r.2)
    else
      match m.lookup v with
      | none => none
      | some vec =>
        let q := stepVar T (vty v) vec i
        if q.2 then (bumpS T vty sym m b).map fun r => ((v, q.1) :: r.1, r.2) else some ((v, q.1) :: b, false)

/-- models BindingGenerator.cpp:260-270: after a variable that is not symmetric has changed, the symmetric ones start over. -/
def resetS (T : Types) (vty : Nat → Nat) (sets : List (List Nat)) (b : Binding) (o i : Nat) : Option (Binding × Nat × Nat) :=
  if b.all fun q => sets.flatten.contains q.1 then some (b, o, i)
  else
    match assignS T vty sets b 0 0 with
    | none => none
    | some none => some (b, 0, 0)
    | some (some r) => some r

/-- models BindingGenerator.cpp:236-288, one round without the guard. -/
def stepS (T : Types) (vty : Nat → Nat) (sets : List (List Nat)) (maps : List VMap) (q : SSt) : Option (Option SSt) :=
  match assignS T vty sets q.b q.o q.i with
  | none => none
  | some (some (b, o, i)) => some (some ⟨q.k, b, o, i⟩)
  | some none =>
    match bumpS T vty sets.flatten (maps.getD q.k []) q.b with
    | none => none
    | some (b, w) =>
      match resetS T vty sets b q.o q.i with
      | none => none
      | some (b', o, i) =>
        if !w then some (some ⟨q.k, b', o, i⟩)
        else if q.k + 1 ≥ maps.length then some none
        else (firstG T vty (maps.getD (q.k + 1) []) (b'.map (·.1))).map fun c => some ⟨q.k + 1, c, o, i⟩

/-- models the loop of BindingGenerator.cpp:234-291 (`nextBinding`): rounds `f` until the guard holds. -/
def nextOf {α : Type} (f : α → Option (Option α)) (ok : α → Option Bool) : Nat → α → Option (Option α)
  | 0, _ => none
  | n + 1, x =>
    match f x with
    | none => none
    | some none => some none
    | some (some y) =>
      match ok y with
      | none => none
      | some true => some (some y)
      | some false => nextOf f ok n y

/-- the iteration of src/PetriEngine/Colored/Unfolder.cpp:149 with BindingGenerator.cpp:138-148 -/
def iterOf {α : Type} (f : α → Option (Option α)) (ok : α → Option Bool) : Nat → α → Option (List α)
  | 0, _ => none
  | n + 1, x =>
    match nextOf f ok (n + 1) x with
    | none => none
    | some none => some [x]
    | some (some y) => (iterOf f ok n y).map (x :: ·)

/-- models BindingGenerator.cpp:154-194, 328-333 (the constructor and `begin`), followed by the loop over all bindings. -/
def symBindings (T : Types) (vty : Nat → Nat) (sets : List (List Nat)) (maps : List VMap) (fuel : Nat) (t : CTrans) : Option (List Binding) :=
  if !t.vars.isEmpty && (maps.getD 0 []).isEmpty then some []
  else
    match startG T vty (maps.getD 0 []) t.vars with
    | none => none
    | some none => some []
    | some (some b) =>
      match assignS T vty sets b 0 0 with
      | none => none
      | some r =>
        let x : SSt := ⟨0, (r.getD (b, 0, 0)).1, (r.getD (b, 0, 0)).2.1, (r.getD (b, 0, 0)).2.2⟩
        let ok := fun y : SSt => guardEval T vty y.b t.guard
        match ok x with
        | none => none
        | some true => (iterOf (stepS T vty sets maps) ok fuel x).map fun l => l.map (·.b)
        | some false =>
          match nextOf (stepS T vty sets maps) ok fuel x with
          | none => none
          | some none => some []
          | some (some y) => (iterOf (stepS T vty sets maps) ok fuel y).map fun l => l.map (·.b)

end CFP
end Verif
