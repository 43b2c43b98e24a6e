import Verif.CFP.Classes
import Verif.CFP.OutLemmas

/-!
# C63-C65: intervals of variables, guards and output arcs

The unfolder over-approximates the colours of every place by boxes and derives from them, for each transition, maps that give
the variables boxes.  A map covers an assignment if it gives every variable that it mentions a box with the variable's value.
C63: the maps computed from the boxes of the input places cover every assignment under which the input arcs can find their
tokens in the boxes.  C64: the restriction by the guard keeps the assignments that satisfy the guard.  C65: what is added to
the boxes of the output places has the tokens produced.
-/

namespace Verif
namespace CFP

open CPN

variable {T : Types} {vty : Nat → Nat}

/-- the intervals of the input arcs, each with the boxes of its place; `none` is undefined behaviour, `some none` means that an
arc finds nothing (ForwardFixedPoint.cpp:323-346) -/
def inputFound (T : Types) : List (ArcE × IVec) → Option (Option (List (Mods × List IVec)))
  | [] => some (some [])
  | (e, cfp) :: as =>
    match arcFound T cfp e with
    | .undef => none
    | .no => some none
    | .yes vecs => (inputFound T as).map fun o => o.map fun l => (arcMods e, vecs) :: l

/-- the maps of a transition before its guard is looked at -/
def inputMaps (T : Types) (vty : Nat → Nat) (as : List (ArcE × IVec)) : Option (List VMap) :=
  match inputFound T as with
  | none => none
  | some none => some []
  | some (some l) => (varIntervals T vty l).map fun q => if q.2 then q.1 else []

/-- an input arc on a place of type `ty` whose tokens are in the boxes -/
structure Served (T : Types) (vty : Nat → Nat) (ρ : Nat → Val) (e : ArcE) (cfp : IVec) : Prop where
  typed : ∃ ty, T.dims ty ≠ [] ∧ IVec.In (T.dims ty) cfp ∧ ArcTy T vty ty e
  vars : ∀ v ∈ e.vars, ρ v ∈ T.values (vty v)
  tokens : ∀ x, 0 < tokens T vty ρ e x → IVec.Has cfp x

/-- The full statement: for all well-typed arcs with coefficients above 0 the maps cover every assignment under which the
tokens of all input arcs are in the boxes of their places. -/
def C63_full : Prop := ∀ (T : Types) (vty : Nat → Nat), T.WF → (∀ v, ∀ n ∈ T.dims (vty v), 0 < n) → ∀ (ρ : Nat → Val) (as : List (ArcE × IVec)),
  (∀ a ∈ as, Served T vty ρ a.1 a.2 ∧ Positive a.1) → ∃ maps, inputMaps T vty as = some maps ∧ ∃ m ∈ maps, m.Covers ρ

theorem inputFound_ok (w : T.WF) {ρ : Nat → Val} : (as : List (ArcE × IVec)) → (∀ a ∈ as, Served T vty ρ a.1 a.2 ∧
    (∀ t ∈ leaves a.1, IVec.Has a.2 (den T vty ρ t)) ∧ Flat T a.1 ∧ aligned T vty a.1 = true) →
    ∃ l, inputFound T as = some (some l) ∧ ∀ a ∈ l, ArcFits T vty ρ a
  | [], _ => ⟨[], rfl, fun a h => by cases h⟩
  | (e, cfp) :: as, h => by
    obtain ⟨⟨⟨ty, h1, h2, h3⟩, h4, _⟩, h5, h6, h7⟩ := h (e, cfp) List.mem_cons_self
    obtain ⟨vecs, h8, h9⟩ := arcFits w h1 h2 h3 h6 h7 (fun v hv => values_fits (h4 v hv)) h5
    obtain ⟨l, g1, g2⟩ := inputFound_ok w as fun a ha => h a (List.mem_cons_of_mem _ ha)
    refine ⟨(arcMods e, vecs) :: l, by rw [inputFound, h8]; simp only [g1]; rfl, ?_⟩
    intro a ha
    rcases List.mem_cons.1 ha with rfl | ha
    · exact h9
    · exact g2 a ha

/-- **C63**.  If the arcs are flat (one term in every multiple, constants of plain types) and aligned (the visitor counts the
leaves right), and the values of all terms outside subtracted parts are in the boxes, then nothing undefined happens, the maps
lie in the types of the variables, and one of them covers the assignment. -/
theorem C63_input_maps_cover_partial (w : T.WF) (hn : ∀ v, ∀ n ∈ T.dims (vty v), 0 < n) (ρ : Nat → Val) (as : List (ArcE × IVec))
    (ha : ∀ a ∈ as, Served T vty ρ a.1 a.2 ∧ (Positive a.1 ∨ ∀ t ∈ leaves a.1, IVec.Has a.2 (den T vty ρ t)) ∧ Flat T a.1 ∧ aligned T vty a.1 = true) :
    ∃ maps, inputMaps T vty as = some maps ∧ (∀ m ∈ maps, m.In T vty) ∧ ∃ m ∈ maps, m.Covers ρ := by
  obtain ⟨l, h1, h2⟩ := inputFound_ok w (ρ := ρ) as fun a h => by
    obtain ⟨g1, g2, g3, g4⟩ := ha a h
    refine ⟨g1, fun t ht => ?_, g3, g4⟩
    rcases g2 with g2 | g2
    · exact g1.tokens _ (leaf_tokens a.1 g2 t ht)
    · exact g2 t ht
  obtain ⟨maps, h3, h4⟩ := varIntervals_ok hn l h2
  unfold inputMaps
  rw [h1]
  simp only
  rw [h3]
  exact ⟨maps, rfl, h4.inn, h4.cov⟩

/-- **C63** (sums of terms).  The conditions hold for a multiple of one term, and for sums of multiples of single terms whose
first term has a variable (or none has), unless a variable is under more successors than its type has colours. -/
theorem C63_sums_aligned {ty : Nat} {e : ArcE} {ts : List CExpr} (he : sumOfTerms e = some ts) (ht : ArcTy T vty ty e)
    (hsm : ∀ t ∈ ts, ∀ o ∈ occs t, ∀ n ∈ T.dims (vty o.1), o.2.2 ≤ n) : aligned T vty e = true :=
  (aligned_sum he ht hsm).1

/-! A small net with a type of four colours (1) and the pairs of them (9); the variable 7 is a pair. -/

def exT : Types := ⟨fun ty => if ty = 0 then 1 else 4, [(9, [1, 1])]⟩
def exV : Nat → Nat := fun v => if v = 7 then 9 else 1
def exR (a b : Nat) : Nat → Val := fun v => if v = 0 then [a] else if v = 1 then [b] else if v = 7 then [0, 0] else [0]

theorem exWF : exT.WF := ⟨by decide, by decide, by decide⟩
theorem exSize : exT.size 1 = 4 := by decide
theorem exParts : exT.parts 1 = none := by decide
theorem exPos : ∀ v, ∀ n ∈ exT.dims (exV v), 0 < n := by
  intro v n hn
  unfold exV at hn
  split at hn
  · have : n = 4 := by
      have e : exT.dims 9 = [4, 4] := by decide
      rw [e] at hn
      simpa using hn
    omega
  · have : n = 4 := by
      have e : exT.dims 1 = [4] := by decide
      rw [e] at hn
      simpa using hn
    omega

theorem exFit (a b : Nat) (ha : a < 4) (hb : b < 4) (v : Nat) : exR a b v ∈ exT.values (exV v) := by
  refine fits_values ?_
  unfold exR exV
  by_cases h7 : v = 7
  · subst h7
    show Fits (exT.dims 9) [0, 0]
    exact ⟨by decide, by decide, trivial⟩
  · rw [if_neg h7]
    by_cases h0 : v = 0
    · rw [if_pos h0]; exact ⟨ha, trivial⟩
    · rw [if_neg h0]
      by_cases h1 : v = 1
      · rw [if_pos h1]; exact ⟨hb, trivial⟩
      · rw [if_neg h1, if_neg h7]; exact ⟨by decide, trivial⟩

/-- a box in a type -/
theorem exIn (l u : Nat) (h1 : l ≤ u) (h2 : u < 4) : Interval.In (exT.dims 1) [⟨l, u⟩] := ⟨⟨h1, h2⟩, trivial⟩

/-- the arc `1'x + 2'y++` on a place with the colours 0 and 2 -/
example : Served exT exV (exR 2 3) (.add [.num 1 [.var 0], .num 2 [.succ (.var 1)]]) [[⟨0, 0⟩], [⟨2, 2⟩]] ∧
    Positive (.add [.num 1 [.var 0], .num 2 [.succ (.var 1)]]) ∧ Flat exT (.add [.num 1 [.var 0], .num 2 [.succ (.var 1)]]) ∧
    aligned exT exV (.add [.num 1 [.var 0], .num 2 [.succ (.var 1)]]) = true ∧
    inputMaps exT exV [(.add [.num 1 [.var 0], .num 2 [.succ (.var 1)]], [[⟨0, 0⟩], [⟨2, 2⟩]])] ≠ some [] := by
  refine ⟨⟨⟨1, by decide, ?_, ?_⟩, fun v _ => exFit 2 3 (by decide) (by decide) v, ?_⟩, ?_, ?_, by decide +kernel, by decide +kernel⟩
  · intro i hi
    simp only [List.mem_cons, List.not_mem_nil, or_false] at hi
    rcases hi with rfl | rfl
    · exact exIn 0 0 (by decide) (by decide)
    · exact exIn 2 2 (by decide) (by decide)
  · simp [ArcTy, ArcTys, HasTy, exV, exSize, exParts]
  · intro x hx
    obtain ⟨t, ht, e⟩ := tokens_leaf _ hx
    simp only [leaves, leavesL, List.cons_append, List.nil_append, List.mem_cons, List.not_mem_nil, or_false] at ht
    rcases ht with rfl | rfl
    · rw [← e]; decide +kernel
    · rw [← e]; decide +kernel
  · simp [Positive, PositiveL]
  · simp [Flat, FlatL, PlainConsts]

/-- A constant before the first variable: the entry of the variable counts for the leaf of the constant, and the variable is
bound to the colours of the constant.  The binding `x = 0` of the arc `1'c2 + 1'x` is lost. -/
theorem C63_finding_constant_first : inputMaps exT exV [(.add [.num 1 [.const ⟨1, 2⟩], .num 1 [.var 0]], [[⟨0, 0⟩], [⟨2, 2⟩]])] =
      some [[(0, [[⟨2, 2⟩]])], [(0, [[⟨2, 2⟩]])]] ∧
    Served exT exV (exR 0 0) (.add [.num 1 [.const ⟨1, 2⟩], .num 1 [.var 0]]) [[⟨0, 0⟩], [⟨2, 2⟩]] ∧
    Positive (.add [.num 1 [.const ⟨1, 2⟩], .num 1 [.var 0]]) := by
  refine ⟨by decide +kernel, ⟨⟨1, by decide, ?_, ?_⟩, fun v _ => exFit 0 0 (by decide) (by decide) v, ?_⟩, by simp [Positive, PositiveL]⟩
  · intro i hi
    simp only [List.mem_cons, List.not_mem_nil, or_false] at hi
    rcases hi with rfl | rfl
    · exact exIn 0 0 (by decide) (by decide)
    · exact exIn 2 2 (by decide) (by decide)
  · simp [ArcTy, ArcTys, HasTy, exV, exSize, exParts]
  · intro x hx
    obtain ⟨t, ht, e⟩ := tokens_leaf _ hx
    simp only [leaves, leavesL, List.cons_append, List.nil_append, List.mem_cons, List.not_mem_nil, or_false] at ht
    rcases ht with rfl | rfl
    · rw [← e]; decide +kernel
    · rw [← e]; decide +kernel

/-- With two constants first there is no entry for the last leaf, and the vector is read beyond its end. -/
theorem C63_finding_two_constants_first :
    inputMaps exT exV [(.add [.num 1 [.const ⟨1, 2⟩], .num 1 [.const ⟨1, 3⟩], .num 1 [.var 0]], [[⟨0, 3⟩]])] = none := by decide +kernel

/-- A variable that occurs only in the subtracted part has no entry, and the transition is never activated. -/
theorem C63_finding_subtracted_variable :
    inputMaps exT exV [(.sub (.num 1 [.var 0]) (.num 1 [.var 1]), [[⟨0, 3⟩]])] = some [] := by decide +kernel

/-- All terms of one multiple are looked for in one box: `1'(c2, c0)` (two tokens) finds nothing in the boxes of 0 and 2. -/
theorem C63_finding_several_terms :
    inputMaps exT exV [(.num 1 [.const ⟨1, 2⟩, .const ⟨1, 0⟩], [[⟨0, 0⟩], [⟨2, 2⟩]])] = some [] := by decide +kernel

theorem C63_full_fails : ¬ C63_full := by
  intro h
  obtain ⟨e, h1, h2⟩ := C63_finding_constant_first
  obtain ⟨maps, h3, m, h4, h5⟩ := h exT exV exWF exPos (exR 0 0) [(.add [.num 1 [.const ⟨1, 2⟩], .num 1 [.var 0]], [[⟨0, 0⟩], [⟨2, 2⟩]])] (fun a ha => by rw [List.mem_singleton] at ha; subst ha; exact ⟨h1, h2⟩)
  rw [e] at h3
  cases h3
  have : m = [(0, [[⟨2, 2⟩]])] := by simpa using h4
  subst this
  exact absurd (h5 _ (List.mem_singleton.2 rfl)) (by decide +kernel)

/-! ### C64: guards -/

/-- The full statement: for every well-typed guard, the maps after the restriction cover every assignment that satisfies the
guard and was covered before. -/
def C64_full : Prop := ∀ (T : Types) (vty : Nat → Nat), T.WF → (∀ v, ∀ n ∈ T.dims (vty v), 0 < n) → ∀ (ρ : Nat → Val) (g : Guard) (maps : List VMap),
  GuardTy T vty g → (∀ v ∈ g.vars, ρ v ∈ T.values (vty v)) → (∀ m ∈ maps, m.In T vty) → (∃ m ∈ maps, m.Covers ρ) → g.holds T vty ρ →
  ∃ m ∈ restrictMaps T vty (some g) maps, m.Covers ρ

/-- **C64**.  For guards that pass the check `guardOk` (see `C64_plain_guards` for a class of them), with numbers of colours
that fit in 32 bits, the restriction keeps the maps in the types of the variables, and keeps every assignment that satisfies the
guard. -/
theorem C64_guard_keeps_partial (w : T.WF) (hn : ∀ v, ∀ n ∈ T.dims (vty v), 0 < n) (ρ : Nat → Val) {g : Guard} (ht : GuardTy T vty g)
    (hk : guardOk T vty g = true) (hf : ∀ v ∈ g.vars, ρ v ∈ T.values (vty v)) {maps : List VMap} (hm : ∀ m ∈ maps, m.In T vty) :
    (∀ m ∈ restrictMaps T vty (some g) maps, m.In T vty) ∧
    (smallG T vty g (maps.map (addVars T vty g.vars)) = true → (∃ m ∈ maps, m.Covers ρ) → g.holds T vty ρ →
      ∃ m ∈ restrictMaps T vty (some g) maps, m.Covers ρ) :=
  restrictMaps_ok w hn ht hk (fun v h => values_fits (hf v h)) hm

/-- **C64** (plain guards).  The check succeeds for all guards over plain types without three kinds of comparison: of a
variable under successors with itself, of a variable under successors with a constant by `<` or `≤`, and of two variables by
`≠`. -/
theorem C64_plain_guards (w : T.WF) {g : Guard} (h : PlainGuard T vty g) : GuardTy T vty g ∧ guardOk T vty g = true := plainGuard_ok w g h

/-- `x < y and y = x++ or x ≠ c0` -/
example : PlainGuard exT exV (.or (.and (.lt (.var 0) (.var 1)) (.eq (.var 1) (.succ (.var 0)))) (.ne (.var 0) (.const ⟨1, 0⟩))) ∧
    restrictMaps exT exV (some (.or (.and (.lt (.var 0) (.var 1)) (.eq (.var 1) (.succ (.var 0)))) (.ne (.var 0) (.const ⟨1, 0⟩)))) [[(0, [[⟨0, 1⟩]])]] =
      [[(0, [[⟨0, 1⟩]]), (1, [[⟨1, 2⟩]])], [(0, [[⟨1, 1⟩]]), (1, [[⟨0, 3⟩]])]] := by
  constructor
  · simp only [PlainGuard]
    refine ⟨⟨⟨⟨1, by decide, ?_, ?_, by decide, by decide⟩, by decide, by decide⟩, ⟨1, by decide, ?_, ?_, by decide, by decide⟩, by decide⟩,
      ⟨1, by decide, ?_, ?_, by decide, by decide⟩, by decide⟩ <;> simp [HasTy, exV, exSize, exParts]
  · decide +kernel

/-- a comparison of variables -/
def exNe : Guard := .ne (.var 0) (.var 1)

/-- Two variables that shall differ and have several colours each are left with the colours they have in common: with `x` in
0..1 and `y` in 2..3 no binding is left, with `x` in 0..1 and `y` in 1..2 only `x = y = 1`, which the guard forbids. -/
theorem C64_finding_different_variables :
    restrictMaps exT exV (some exNe) [[(0, [[⟨0, 1⟩]]), (1, [[⟨2, 3⟩]])]] = [] ∧
    restrictMaps exT exV (some exNe) [[(0, [[⟨0, 1⟩]]), (1, [[⟨1, 2⟩]])]] = [[(0, [[⟨1, 1⟩]]), (1, [[⟨1, 1⟩]])]] ∧
    GuardTy exT exV exNe ∧ exNe.holds exT exV (exR 0 2) := by
  refine ⟨by decide +kernel, by decide +kernel, ?_, ?_⟩
  · exact ⟨1, by simp [HasTy, exV, exSize, exParts], by simp [HasTy, exV, exSize, exParts]⟩
  · simp [exNe, Guard.holds, den, exR]

/-- A constant bounds the variable without its successors: `x++ < c1` is true of `x = 3`, and that binding is lost. -/
theorem C64_finding_successor_bound : restrictMaps exT exV (some (.lt (.succ (.var 0)) (.const ⟨1, 1⟩))) [[(0, [[⟨3, 3⟩]])]] = [] ∧
    GuardTy exT exV (.lt (.succ (.var 0)) (.const ⟨1, 1⟩)) ∧ (Guard.lt (.succ (.var 0)) (.const ⟨1, 1⟩)).holds exT exV (exR 3 0) := by
  refine ⟨by decide +kernel, ⟨1, by decide, by simp [HasTy, exV, exSize, exParts], by simp [HasTy, exSize, exParts]⟩, ?_⟩
  exact ⟨0, 1, by decide +kernel, by decide +kernel, by decide⟩

/-- `x++ = x++` moves the colours of `x`: with `x = 0` the map is left with `x = 3`. -/
theorem C64_finding_same_variable : restrictMaps exT exV (some (.eq (.succ (.var 0)) (.succ (.var 0)))) [[(0, [[⟨0, 0⟩]])]] = [[(0, [[⟨3, 3⟩]])]] := by
  decide +kernel

/-- A successor in a later component is applied to the constants before it as well: `(x, y) = (c1, z++)` binds `x` to 2. -/
theorem C64_finding_tuple_successor :
    restrictMaps exT exV (some (.eq (.tuple [.var 0, .var 1]) (.tuple [.const ⟨1, 1⟩, .succ (.var 2)])))
      [[(0, [[⟨0, 3⟩]]), (1, [[⟨0, 3⟩]]), (2, [[⟨0, 3⟩]])]] = 
      [[(0, [[⟨2, 2⟩]]), (1, [[⟨0, 0⟩], [⟨1, 3⟩]]), (2, [[⟨3, 3⟩], [⟨0, 2⟩]])]] := by decide +kernel

/-- Tuples that shall differ must differ in every component: `(x, y) ≠ (c1, c1)` forbids `x = 1, y = 0`. -/
theorem C64_finding_tuple_different :
    restrictMaps exT exV (some (.ne (.tuple [.var 0, .var 1]) (.tuple [.const ⟨1, 1⟩, .const ⟨1, 1⟩]))) [[(0, [[⟨0, 3⟩]]), (1, [[⟨0, 3⟩]])]] =
      [[(0, [[⟨0, 0⟩], [⟨2, 3⟩]]), (1, [[⟨0, 0⟩], [⟨2, 3⟩]])]] := by decide +kernel

/-- `x < y` restricts nothing (C62_finding_no_ids). -/
theorem C64_finding_order_of_variables :
    restrictMaps exT exV (some (.lt (.var 0) (.var 1))) [[(0, [[⟨2, 3⟩]]), (1, [[⟨0, 1⟩]])]] = [[(0, [[⟨2, 3⟩]]), (1, [[⟨0, 1⟩]])]] := by decide +kernel

theorem C64_full_fails : ¬ C64_full := by
  intro h
  obtain ⟨e, _, h1, h2⟩ := C64_finding_different_variables
  obtain ⟨m, hm, _⟩ := h exT exV exWF exPos (exR 0 2) exNe [[(0, [[⟨0, 1⟩]]), (1, [[⟨2, 3⟩]])]] h1
    (fun v _ => exFit 0 2 (by decide) (by decide) v) (fun m hm => by
      rw [List.mem_singleton] at hm
      subst hm
      intro q hq
      simp only [List.mem_cons, List.not_mem_nil, or_false] at hq
      rcases hq with rfl | rfl
      · exact fun i hi => by rw [List.mem_singleton] at hi; subst hi; exact exIn 0 1 (by decide) (by decide)
      · exact fun i hi => by rw [List.mem_singleton] at hi; subst hi; exact exIn 2 3 (by decide) (by decide))
    ⟨_, List.mem_singleton.2 rfl, fun q hq => by
      simp only [List.mem_cons, List.not_mem_nil, or_false] at hq
      rcases hq with rfl | rfl
      · decide +kernel
      · decide +kernel⟩ h2
  rw [e] at hm
  cases hm

/-! ### C65: output arcs -/

/-- The full statement: the boxes of every well-typed output arc have all tokens the arc produces under an assignment that a
map covers. -/
def C65_full : Prop := ∀ (T : Types) (vty : Nat → Nat), T.WF → ∀ (ρ : Nat → Val) (maps : List VMap) (m : VMap) (e : ArcE) (ty : Nat) (x : Val),
  m ∈ maps → m.Covers ρ → m.In T vty → ArcTy T vty ty e → T.dims ty ≠ [] → (∀ v ∈ e.vars, ρ v ∈ T.values (vty v)) → 0 < tokens T vty ρ e x →
  ∃ v ∈ outArc T vty maps e, IVec.Has v x

/-- **C65**.  Whatever map covers the assignment, the boxes of an output arc have all tokens the arc produces under the
assignment, and lie in the type of the place; constants inside the arc are of plain types. -/
theorem C65_output_covers_partial (w : T.WF) {ρ : Nat → Val} {maps : List VMap} {m : VMap} (hmm : m ∈ maps) (hm : m.Covers ρ) (hin : m.In T vty)
    {e : ArcE} {ty : Nat} (ht : ArcTy T vty ty e) (hpl : ∀ t ∈ leaves e, PlainConsts T t) (hne : T.dims ty ≠ [])
    (hv : ∀ v ∈ e.vars, ρ v ∈ T.values (vty v)) {x : Val} (hx : 0 < tokens T vty ρ e x) :
    ∃ v ∈ outArc T vty maps e, IVec.Has v x ∧ IVec.In (T.dims ty) v := by
  obtain ⟨t, h1, rfl⟩ := tokens_leaf e hx
  refine ⟨_, outArc_ok (ρ := ρ) hmm e t h1, out_ok w hm hin (leaves_ty e ht t h1) (hpl t h1) hne ?_⟩
  exact fun v hv' => values_fits (hv v (leaves_vars e t h1 v hv'))

/-- `1'(x, y--) + 1'(c3, x)` -/
example : outArc exT exV [[(0, [[⟨0, 1⟩]]), (1, [[⟨0, 0⟩]])]] (.add [.num 1 [.tuple [.var 0, .pred (.var 1)]], .num 1 [.tuple [.const ⟨1, 3⟩, .var 0]]]) =
    [[[⟨0, 1⟩, ⟨3, 3⟩]], [[⟨3, 3⟩, ⟨0, 1⟩]]] := by decide +kernel

/-- A constant of a product type gives a box of one dimension only. -/
theorem C65_finding_product_constant : outArc exT exV [[]] (.num 1 [.const ⟨9, 5⟩]) = [[[⟨5, 5⟩]]] ∧ exT.dims 9 = [4, 4] ∧
    exT.value ⟨9, 5⟩ = [1, 1] := by decide +kernel

theorem C65_full_fails : ¬ C65_full := by
  intro h
  have ht : ArcTy exT exV 9 (.num 1 [.const ⟨9, 5⟩]) := by
    rw [ArcTy]
    refine ⟨by simp, fun e he => ?_⟩
    rw [List.mem_singleton] at he
    subst he
    exact ⟨rfl, by decide⟩
  obtain ⟨v, hv, hx⟩ := h exT exV exWF (exR 0 0) [[]] [] (.num 1 [.const ⟨9, 5⟩]) 9 [1, 1] (List.mem_singleton.2 rfl) (fun q hq => by cases hq)
    (fun q hq => by cases hq) ht (by decide) (fun v hv => by simp [ArcE.vars, CExpr.varsL, CExpr.vars] at hv) (by decide +kernel)
  rw [C65_finding_product_constant.1, List.mem_singleton] at hv
  subst hv
  exact absurd hx (by decide +kernel)

end CFP
end Verif
