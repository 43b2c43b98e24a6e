import Verif.Net.StateEq

/-!
# Upper-bound queries

Models `UnfoldedUpperBoundsCondition` (include/PetriEngine/PQL/Expressions.h:1104-1165), its evaluation
and its simplification.  Numbers of type `double` that hold token counts are exact integers here;
`_max`, which can be infinite or (after subtracting an offset) negative, is an `Option Int`.
-/

namespace Verif
namespace Bounds

/-- models include/PetriEngine/PQL/Expressions.h:1104-1165 (`UnfoldedUpperBoundsCondition`); `none` is
the initial `infinity` of `_max`.  The per-place `_max` and `_maxed_out` only steer the stubborn
reduction and are left out. -/
structure UB where
  places : List Nat
  max : Option Int := none
  offset : Nat := 0
  bound : Nat := 0
deriving DecidableEq, Repr

/-- models src/PetriEngine/PQL/Expressions.cpp:210-220 (`value`), unbounded sum. -/
def UB.value (u : UB) (m : Nat → Nat) : Nat := (u.places.map m).sum

/-- models include/PetriEngine/PQL/Expressions.h:1146-1149 (`setUpperBound`). -/
def UB.setUpperBound (u : UB) (b : Nat) : UB := { u with bound := Nat.max u.bound b }

/-- `_max <= x` on doubles. -/
def maxLe : Option Int → Nat → Bool
  | none, _ => false
  | some M, x => decide (M ≤ (x : Int))

/-- models src/PetriEngine/PQL/Evaluation.cpp:293-296: the condition is changed, and the result is
`RTRUE` (here `true`) or `RUNKNOWN`. -/
def UB.evaluate (u : UB) (m : Nat → Nat) : UB × Bool :=
  let u := u.setUpperBound (u.value m)
  (u, maxLe u.max u.bound)

/-- models include/PetriEngine/PQL/Expressions.h:1142-1144 (`bounds()`), the number printed by
src/PetriEngine/Reachability/ResultPrinter.cpp:103-106. -/
def UB.bounds (u : UB) : Nat := u.offset + u.bound

/-- One entry of the result of `LinearProgram::bounds`: an upper bound (`none`: infinity) and whether
it is the exact value in all markings. -/
abbrev Entry := Option Nat × Bool

/-- models src/PetriEngine/PQL/Simplifier.cpp:682-688 (the loop over the places). -/
def UB.split : List Nat → List Entry → Nat → List Nat × Nat
  | p :: ps, b :: bs, offset =>
    let r := UB.split ps bs (if b.2 then offset + b.1.getD 0 else offset)
    (if b.1 ≠ some 0 ∧ b.2 = false then p :: r.1 else r.1, r.2)
  | _, _, offset => ([], offset)

/-- models src/PetriEngine/PQL/Simplifier.cpp:675-696 and src/PetriEngine/PQL/PotencyVisitor.cpp:356-380:
`bs` are the entries for the places and `total` the last one.  (The code adds an exact bound as a
double; an exact bound is never infinite.) -/
def UB.simplify (u : UB) (bs : List Entry) (total : Entry) : UB :=
  if total.2 then { places := [], max := some 0, offset := total.1.getD 0 + u.offset }
  else
    let r := UB.split u.places bs u.offset
    { places := r.1, max := total.1.map fun (b : Nat) => (b : Int) - r.2, offset := r.2 }

/-! ### The bounds computed by linear programming -/

/-- What the solver says about one program: an optimum, that there is no solution, or nothing useful
(time out, unbounded, failure). -/
inductive Solve
  | opt (v : Int)
  | infeasible
  | nothing

/-- The solver and the clock: `stop it` — the context has timed out, or the base program cannot be
built, in iteration `it`. -/
structure Oracle where
  stop : Nat → Bool
  solve : Nat → Solve

/-- models src/PetriEngine/Simplification/LinearProgram.cpp:309-341: the objective, the summed effect of
every transition on the places. -/
def objective (N : FlatNet) (ps : List Nat) : List Int :=
  (List.range N.ntransitions).map fun t => (ps.map fun p => N.effect t p).sum

/-- models src/PetriEngine/Simplification/LinearProgram.cpp:343-410: the entry computed for a sum of
places with initial value `p0`, and whether it was found without solving.  (`all_zero` is false when
the solver is called.) -/
def entry (row : List Int) (p0 : Nat) (s : Solve) : Entry × Bool :=
  if row.all (fun c => decide (c ≤ 0)) then ((some p0, row.all fun c => decide (c = 0)), true)
  else match s with
    | .opt v => ((some ((p0 : Int) + v).toNat, row.all fun c => decide (c = 0)), false)
    | .infeasible => ((some p0, row.all fun c => decide (c = 0)), false)
    | .nothing => ((none, false), false)

/-- models src/PetriEngine/Simplification/LinearProgram.cpp:294-424, the iterations for the places
(number `it` on); the entries not reached keep their initial value. -/
def placeEntries (N : FlatNet) (m0 : Nat → Nat) (o : Oracle) : Nat → List Nat → List Entry
  | _, [] => []
  | it, p :: ps =>
    if o.stop it then (p :: ps).map fun _ => (none, false)
    else (entry (objective N [p]) (m0 p) (o.solve it)).1 :: placeEntries N m0 o (it + 1) ps

/-- `first >= p0` with infinity. -/
def Entry.ge (e : Entry) (p0 : Nat) : Bool :=
  match e.1 with
  | none => true
  | some b => decide (p0 ≤ b)

/-- models src/PetriEngine/Simplification/LinearProgram.cpp:277-426 (`bounds`): the entries of the
places and the last one. -/
def lpBounds (N : FlatNet) (m0 : Nat → Nat) (o : Oracle) (ps : List Nat) : List Entry × Entry :=
  let none' : List Entry := ps.map fun _ => (none, false)
  if o.stop 0 then (none', (none, false))
  else
    let p0 := (ps.map m0).sum
    let (e, short) := entry (objective N ps) p0 (o.solve 0)
    if short then (none', e)
    else if e.ge p0 then (none', e)
    else if ps.length = 1 then ([e], e)
    else (placeEntries N m0 o 1 ps, e)

/-- The condition after evaluating the markings of the list, the head last. -/
def UB.run (u : UB) : List (Nat → Nat) → UB
  | [] => u
  | m :: ms => ((u.run ms).evaluate m).1

/-! ### Lemmas -/

theorem run_fields (u : UB) (ms : List (Nat → Nat)) :
    (u.run ms).places = u.places ∧ (u.run ms).max = u.max ∧ (u.run ms).offset = u.offset := by
  induction ms with
  | nil => exact ⟨rfl, rfl, rfl⟩
  | cons m ms ih => exact ih

theorem run_value (u : UB) (ms : List (Nat → Nat)) (m : Nat → Nat) : (u.run ms).value m = u.value m := by
  unfold UB.value
  rw [(run_fields u ms).1]

theorem run_ge (u : UB) (ms : List (Nat → Nat)) (m : Nat → Nat) (h : m ∈ ms) :
    u.value m ≤ (u.run ms).bound := by
  induction ms with
  | nil => simp at h
  | cons m' ms ih =>
    simp only [UB.run, UB.evaluate, UB.setUpperBound]
    rcases List.mem_cons.1 h with rfl | h
    · rw [run_value]; exact Nat.le_max_right _ _
    · exact Nat.le_trans (ih h) (Nat.le_max_left _ _)

theorem run_attained (u : UB) (hu : u.bound = 0) (ms : List (Nat → Nat)) (h : ms ≠ []) :
    ∃ m ∈ ms, (u.run ms).bound = u.value m := by
  induction ms with
  | nil => exact absurd rfl h
  | cons m ms ih =>
    simp only [UB.run, UB.evaluate, UB.setUpperBound]
    rw [run_value]
    by_cases hms : ms = []
    · subst hms
      refine ⟨m, by simp, ?_⟩
      simp only [UB.run, hu]
      exact Nat.max_eq_right (Nat.zero_le _)
    · obtain ⟨m', h1, h2⟩ := ih hms
      rcases Nat.le_total (u.run ms).bound (u.value m) with hle | hle
      · exact ⟨m, by simp, Nat.max_eq_right hle⟩
      · exact ⟨m', by simp [h1], (Nat.max_eq_left hle).trans h2⟩

end Bounds
end Verif
