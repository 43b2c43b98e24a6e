import Verif.Simp.Main
import Verif.Props.Rewrite

/-!
# C22, C23: simplification of queries by linear programs

`Cond.sat` gives the meaning of formulas, `N.ts` is the transition system of the net; firing counts are those of a firing
sequence (`FlatNet.parikh`).

Both claims are false of the code when a number does not fit an `int`: see the theorems `…_finding_…`.  The theorems
`…_partial` exclude exactly such conversions (`exactE`, `exactC`) and, for C22, the formulas excluded for C17.
-/

namespace Verif
namespace SimplifyProps
open PQL Simp

/-- firing counts of a sequence, as a function on all numbers -/
def countsOf (N : FlatNet) (ts : List (Fin N.ntransitions)) (i : Nat) : Int :=
  if h : i < N.ntransitions then (N.parikh ts ⟨i, h⟩ : Nat) else 0

/-- What the base program says of firing counts: no count and no place is negative. -/
def BaseSolution (N : FlatNet) (m0 : Mark) (x : Nat → Int) : Prop :=
  (∀ i, 0 ≤ x i) ∧ ∀ p, p < N.nplaces → 0 ≤ (m0 p : Int) + ∑ t : Fin N.ntransitions, N.effect t p * x t

/-- The equation is satisfied. -/
def EqnHolds (x : Nat → Int) (e : Eqn) : Prop :=
  (∀ l, e.lower = some l → l ≤ (e.row.map fun q => q.2 * x q.1).sum) ∧
  (∀ u, e.upper = some u → (e.row.map fun q => q.2 * x q.1).sum ≤ u)

/-- The solver says `impossible` only if there is no solution in natural numbers, and different rows have different
addresses. -/
structure SoundSolver (N : FlatNet) (m0 : Mark) (o : Oracle) : Prop where
  addr : Function.Injective o.addr
  solve : ∀ π eqs, o.solve π eqs = .impossible → ¬ ∃ x, BaseSolution N m0 x ∧ ∀ e ∈ eqs, EqnHolds x e

theorem countsOf_counts {N : FlatNet} (w : N.WF) {m0 m : Mark} {ts : List (Fin N.ntransitions)}
    (h : N.toNet.Run m0 ts m) : Counts N m0 m (countsOf N ts) := by
  refine ⟨fun i => ?_, fun p => ?_⟩
  · unfold countsOf; split <;> omega
  · rw [FlatNet.marking_equation w h p]
    congr 1
    refine Finset.sum_congr rfl fun t _ => ?_
    simp [countsOf]

theorem countsOf_base {N : FlatNet} {m0 m : Mark} {x : Nat → Int} (h : Counts N m0 m x) : BaseSolution N m0 x :=
  ⟨h.1, fun p _ => by rw [← h.2 p]; omega⟩

theorem dotS_sum (x : Nat → Int) (row : Row) : dotS x row = (row.map fun q => q.2 * x q.1).sum := by
  induction row with
  | nil => rfl
  | cons q row ih => obtain ⟨i, v⟩ := q; simp [dotS, ih]

theorem eqsHold_iff (x : Nat → Int) (eqs : List Eqn) : eqsHold x eqs ↔ ∀ e ∈ eqs, EqnHolds x e := by
  unfold eqsHold
  refine forall_congr' fun e => forall_congr' fun _ => ?_
  unfold Eqn.holds EqnHolds
  rw [dotS_sum]
  cases e.lower <;> cases e.upper <;> simp [loOK, upOK]

theorem SoundSolver.sound {N : FlatNet} {m0 : Mark} {o : Oracle} (h : SoundSolver N m0 o) :
    o.Sound (BaseSolution N m0) :=
  ⟨h.addr, fun π eqs hi x hx he => h.solve π eqs hi ⟨x, hx, (eqsHold_iff x eqs).1 he⟩⟩

theorem setting {N : FlatNet} (w : N.WF) {m0 : Mark} (hm : RewriteProps.Within32 N m0) {o : Oracle}
    (h : SoundSolver N m0 o) :
    Setting N.ts (fun m => N.toNet.Reach m0 m) (fun m x => Counts N m0 m x) o (BaseSolution N m0) :=
  { inv := ⟨fun _ _ hr ⟨_, hs⟩ => Net.Reach.step N.toNet hr hs, hm⟩
    ex := fun _ ⟨ts, hr⟩ => ⟨countsOf N ts, countsOf_counts w hr⟩
    fs := fun _ _ hx => countsOf_base hx
    sound := h.sound }

/-! ## C23: linear forms -/

/-- **C23** (linear forms).  The linear form of an expression, if it is analysable, gives for every firing sequence the
value of the expression in the marking reached.  Full claim: without `he`. -/
theorem C23_linear_form_partial (N : FlatNet) (w : N.WF) (m0 m : Mark) (ts : List (Fin N.ntransitions))
    (h : N.toNet.Run m0 ts m) (e : Expr) (he : exactE e = true) (hc : (constraint N m0 e).can = true) :
    (constraint N m0 e).const + dot (constraint N m0 e).vars (countsOf N ts) = e.val m :=
  constraint_at (countsOf_counts w h) e he hc

/-- **C23** (trivial comparisons).  A comparison decided from the linear forms alone is right in every reachable marking. -/
theorem C23_trivial_verdict_partial (N : FlatNet) (w : N.WF) (m0 : Mark) (op : Cmp) (e1 e2 : Expr) (neg b : Bool)
    (hex : exactC m0 (.cmp op e1 e2) = true)
    (h1 : (constraint N m0 e1).can = true) (h2 : (constraint N m0 e2).can = true)
    (h : cmpAna neg op (constraint N m0 e1) (constraint N m0 e2) = .inl b) (m : Mark) (hr : N.toNet.Reach m0 m) :
    b = true ↔ (if neg then ¬ op.holds (e1.val m) (e2.val m) else op.holds (e1.val m) (e2.val m)) := by
  obtain ⟨ts, hr⟩ := hr
  have hx := countsOf_counts w hr
  simp only [exactC, Bool.and_eq_true] at hex
  obtain ⟨⟨⟨⟨x1, x2⟩, x3⟩, x4⟩, x5⟩ := hex
  have hf : fits2 (constraint N m0 e1) (constraint N m0 e2) = true := by
    rw [fits2, constraint_const N m0 e1 x1 h1, constraint_const N m0 e2 x2 h2, x3, x4, x5]; rfl
  have := cmpAna_inl hf h hx.1
  rw [constraint_at hx e1 x1 h1, constraint_at hx e2 x2 h2] at this
  exact this

/-- C23: every expression without products of non-constant factors has an analysable form: sums, differences and
negations of places and literals. -/
theorem C23_linear_analysable (N : FlatNet) (m0 : Mark) (p : Nat) (k : Int) (e1 e2 : Expr)
    (h1 : (constraint N m0 e1).can = true) (h2 : (constraint N m0 e2).can = true) :
    (constraint N m0 (.lit k)).can = true ∧ (constraint N m0 (.id p)).can = true ∧
    (constraint N m0 (.plus k [p] [e1, e2])).can = true ∧ (constraint N m0 (.sub e1 [e2])).can = true := by
  refine ⟨rfl, rfl, ?_, ?_⟩
  · by_cases hk : k = 0
    · simp [constraint, constraints, commCons, hk, commStep, Member.add, memberForPlace, h1, h2]
    · simp [constraint, constraints, commCons, hk, commStep, Member.add, Member.lit, memberForPlace, h1, h2]
  · simp [constraint, constraints, Member.sub, h1, h2]

/-! ## C22: simplification -/

/-- **C22**.  The simplified formula holds on the same paths from every reachable marking, in particular from the initial
one, whatever the clock does and whatever a sound solver answers.  `neg` asks for the negation.  Full claim: without `hwf`
and `hex`. -/
theorem C22_simplification_partial (N : FlatNet) (w : N.WF) (m0 : Mark) (hm : RewriteProps.Within32 N m0) (o : Oracle)
    (ho : SoundSolver N m0 o) (fuel depth : Nat) (at_ : List Nat) (neg : Bool) (c : Cond) (hwf : c.wf = true)
    (hex : exactC m0 c = true) (r : Ret) (h : simplify o fuel N m0 depth at_ neg c = some r)
    (π : Nat → Mark) (hπ : N.ts.IsPath π) (h0 : N.toNet.Reach m0 (π 0)) :
    r.formula.sat N.ts π ↔ (if neg then ¬ c.sat N.ts π else c.sat N.ts π) :=
  (simplify_good (setting w hm ho) (fun _ _ h => h) depth at_ neg c r h hwf hex).sat π hπ h0

/-- **C22** for CTL: in the initial marking.  The result is a CTL formula again. -/
theorem C22_initial_marking_partial (N : FlatNet) (w : N.WF) (m0 : Mark) (hm : RewriteProps.Within32 N m0) (o : Oracle)
    (ho : SoundSolver N m0 o) (fuel depth : Nat) (c : Cond) (hwf : c.wf = true) (hs : c.isState = true)
    (hex : exactC m0 c = true) (r : Ret) (h : simplify o fuel N m0 depth [] false c = some r) :
    r.formula.isState = true ∧
    ∀ π π' : Nat → Mark, N.ts.IsPath π → π 0 = m0 → π' 0 = m0 → (r.formula.sat N.ts π' ↔ c.sat N.ts π) := by
  have hg := simplify_good (setting w hm ho) (fun _ _ h => h) depth [] false c r h hwf hex
  refine ⟨hg.state hs, fun π π' hp h1 h2 => ?_⟩
  have hst := Cond.sat_state N.ts (π := π') (π' := π) (by rw [h1, h2]) r.formula (hg.state hs)
  rw [hst, hg.sat π hp (by rw [h1]; exact Net.Reach.refl N.toNet m0)]
  simp [xneg]

/-- C22: the simplifier passes two collections of linear programs on.  If the result is true (false) in a marking reached
by a firing sequence, its firing counts solve a program of the first (second) collection. -/
theorem C22_programs_cover_partial (N : FlatNet) (w : N.WF) (m0 : Mark) (hm : RewriteProps.Within32 N m0) (o : Oracle)
    (ho : SoundSolver N m0 o) (fuel depth : Nat) (at_ : List Nat) (neg : Bool) (c : Cond) (hwf : c.wf = true)
    (hex : exactC m0 c = true) (r : Ret) (h : simplify o fuel N m0 depth at_ neg c = some r)
    (π : Nat → Mark) (hπ : N.ts.IsPath π) (ts : List (Fin N.ntransitions)) (h0 : N.toNet.Run m0 ts (π 0)) :
    (r.formula.sat N.ts π → Coll.Sat r.lps (countsOf N ts)) ∧
    (¬ r.formula.sat N.ts π → Coll.Sat r.neglps (countsOf N ts)) := by
  have hg := simplify_good (setting w hm ho) (fun _ _ h => h) depth at_ neg c r h hwf hex
  have hsat := hg.sat π hπ ⟨ts, h0⟩
  have hx := countsOf_counts w h0
  exact ⟨fun h => hg.pos π _ hπ ⟨ts, h0⟩ hx (hsat.1 h), fun h => hg.neg π _ hπ ⟨ts, h0⟩ hx fun hp => h (hsat.2 hp)⟩

/-! ### Non-vacuity -/

/-- an injective numbering of rows -/
def pairN (a b : Nat) : Nat := 2 ^ a * (2 * b + 1)
def encI (v : Int) : Nat := if 0 ≤ v then 2 * v.toNat else 2 * (-v).toNat + 1
def encRow : Row → Nat
  | [] => 0
  | (i, v) :: l => pairN (pairN i (encI v)) (encRow l)

theorem pairN_inj {a b a' b' : Nat} (h : pairN a b = pairN a' b') : a = a' ∧ b = b' := by
  unfold pairN at h
  induction a generalizing a' with
  | zero =>
    cases a' with
    | zero => simp at h; omega
    | succ a' =>
      rw [Nat.pow_succ, Nat.mul_comm _ 2, Nat.mul_assoc] at h
      omega
  | succ a ih =>
    cases a' with
    | zero => rw [Nat.pow_succ, Nat.mul_comm _ 2, Nat.mul_assoc] at h; omega
    | succ a' =>
      rw [Nat.pow_succ, Nat.pow_succ, Nat.mul_comm _ 2, Nat.mul_comm _ 2, Nat.mul_assoc, Nat.mul_assoc] at h
      have := ih (a' := a') (by omega)
      omega

theorem pairN_pos (a b : Nat) : 0 < pairN a b := Nat.mul_pos (Nat.two_pow_pos a) (Nat.succ_pos _)

theorem encI_inj {v w : Int} (h : encI v = encI w) : v = w := by
  unfold encI at h
  split at h <;> split at h <;> omega

theorem encRow_inj : Function.Injective encRow := by
  intro a
  induction a with
  | nil =>
    intro b h
    cases b with
    | nil => rfl
    | cons q b => obtain ⟨i, v⟩ := q; have := pairN_pos (pairN i (encI v)) (encRow b); simp only [encRow] at h; omega
  | cons q a ih =>
    obtain ⟨i, v⟩ := q
    intro b h
    cases b with
    | nil => have := pairN_pos (pairN i (encI v)) (encRow a); simp only [encRow] at h; omega
    | cons q b =>
      obtain ⟨j, u⟩ := q
      simp only [encRow] at h
      obtain ⟨h1, h2⟩ := pairN_inj h
      obtain ⟨h3, h4⟩ := pairN_inj h1
      rw [h3, encI_inj h4, ih h2]

/-- a solver that knows nothing, a clock that does not run out -/
def lazyOracle : Oracle := ⟨fun _ => false, fun _ => true, fun _ _ => .unknown, encRow, false⟩

theorem lazyOracle_sound (N : FlatNet) (m0 : Mark) : SoundSolver N m0 lazyOracle :=
  ⟨encRow_inj, fun _ _ h => (by cases h)⟩

/-- `t0` moves the token of place 0 to place 1. -/
def exNet : FlatNet where
  nplaces := 2
  ntransitions := 1
  ninvariants := 2
  transitions := [⟨0, 1⟩, ⟨2, 2⟩]
  invariants := [⟨0, 1, false, -1⟩, ⟨1, 1, false, 1⟩]
  placeToPtrs := [0, 1, 1]
  controllable := [true]

def exM : Mark := fun p => if p = 0 then 1 else 0

theorem exNet_wf : exNet.WF where
  places_pos := by decide
  len_trans := rfl
  len_inv := rfl
  len_ptr := rfl
  ptr_zero := rfl
  ptr_mono := by decide
  ptr_last := rfl
  in_out := by decide
  out_in := by decide
  last_in := rfl
  place_lt := by decide
  tokens_pos := by decide
  tokens_lt := by decide
  pre_nodup := by decide
  post_nodup := by decide
  block := by
    intro p t h0 h1 h2 h3
    have : p = 1 := by simp only [exNet] at h1; omega
    subst this
    simp [FlatNet.ptr, exNet] at h2 h3
    omega

theorem exNet_step {m m' : Mark} {t : Fin 1} (h : exNet.toNet.Step m t m') :
    1 ≤ m 0 ∧ m' = fun p => if p = 0 then m 0 - 1 else if p = 1 then m 1 + 1 else m p := by
  have ht : t = 0 := Subsingleton.elim _ _
  subst ht
  refine ⟨h.1.1 0, ?_⟩
  rw [h.2]
  funext p
  match p with
  | 0 => rfl
  | 1 => rfl
  | p + 2 => rfl

/-- The initial marking of the example satisfies the hypothesis on counters. -/
theorem exNet_within : RewriteProps.Within32 exNet exM := by
  have key : ∀ ts (m m' : Mark), exNet.toNet.Run m ts m' → m 0 + m 1 = 1 → (∀ p, m (p + 2) = 0) →
      m' 0 + m' 1 = 1 ∧ ∀ p, m' (p + 2) = 0 := by
    intro ts m m' hr
    induction hr with
    | nil m => exact fun h1 h2 => ⟨h1, h2⟩
    | cons hs _ ih =>
      intro h1 h2
      obtain ⟨h3, rfl⟩ := exNet_step hs
      refine ih ?_ fun p => ?_
      · simp only [if_true, Nat.one_ne_zero, if_false]; omega
      · simpa using h2 p
  rintro m ⟨ts, hr⟩ p
  obtain ⟨h1, h2⟩ := key ts _ _ hr rfl fun _ => rfl
  match p with
  | 0 => unfold umax; omega
  | 1 => unfold umax; omega
  | p + 2 => rw [h2 p]; decide

/-- "Always p0 + p1 ≤ 1" and "possibly p0 = 1 and p0 = 2" are decided without a solver; "possibly p0 = 1 and p1 = 0"
becomes a conjunction of bounds.  All of them are covered by the theorem. -/
def exAG : Cond := .AG (.cmp .le (.plus 0 [0, 1] []) (.lit 1))
def exEF : Cond := .EF (.and [.cmp .eq (.id 0) (.lit 1), .cmp .eq (.id 0) (.lit 2)])
def exEF2 : Cond := .EF (.and [.cmp .eq (.id 0) (.lit 1), .cmp .eq (.id 1) (.lit 0)])

example : (∃ r, simplify lazyOracle 50 exNet exM 20 [] false exAG = some r ∧ r.formula = .bool true) ∧
    (∃ r, simplify lazyOracle 50 exNet exM 20 [] false exEF = some r ∧ r.formula = .bool false) ∧
    (∃ r, simplify lazyOracle 50 exNet exM 20 [] false exEF2 = some r ∧
      r.formula = .EF (.cc [⟨0, 1, 1⟩, ⟨1, 0, 0⟩] false)) ∧
    (∀ c ∈ [exAG, exEF, exEF2], c.wf = true ∧ c.isState = true ∧ exactC exM c = true) ∧
    exNet.WF ∧ RewriteProps.Within32 exNet exM ∧ SoundSolver exNet exM lazyOracle :=
  ⟨⟨_, rfl, rfl⟩, ⟨_, rfl, rfl⟩, ⟨_, rfl, rfl⟩,
   (by
     intro c hc
     simp only [List.mem_cons, List.not_mem_nil, or_false] at hc
     rcases hc with rfl | rfl | rfl <;> exact ⟨rfl, rfl, rfl⟩),
   exNet_wf, exNet_within, lazyOracle_sound _ _⟩

/-! ### Findings: conversions to `int` -/

/-- one place, no transitions -/
def netZ : FlatNet where
  nplaces := 1
  ntransitions := 0
  ninvariants := 0
  transitions := [⟨0, 0⟩]
  invariants := []
  placeToPtrs := [0, 0]
  controllable := []

/-- Finding: the conjunction of bounds that stands for `p0 > 2147483647` is simplified to true, and the one for
`p0 ≤ 3000000000` to false, although the first is false and the second is true in the only reachable marking: the bound,
an unsigned 32-bit number, is handed to `Member(int)` (Simplifier.cpp:529, 552, Member.h:22). -/
theorem C22_finding_bound_truncated :
    (∃ r, simplify lazyOracle 50 netZ exM 20 [] false (.cc [⟨0, 2147483648, 4294967295⟩] false) = some r ∧
      r.formula = .bool true) ∧
    (∀ π : Nat → Mark, π 0 = exM → ¬ (Cond.cc [⟨0, 2147483648, 4294967295⟩] false).sat netZ.ts π) ∧
    (∃ r, simplify lazyOracle 50 netZ exM 20 [] false (.cc [⟨0, 0, 3000000000⟩] false) = some r ∧
      r.formula = .bool false) ∧
    (∀ π : Nat → Mark, π 0 = exM → (Cond.cc [⟨0, 0, 3000000000⟩] false).sat netZ.ts π) := by
  refine ⟨⟨_, rfl, rfl⟩, fun π h => ?_, ⟨_, rfl, rfl⟩, fun π h => ?_⟩ <;>
    simp [Cond.sat, h, ccHolds, Cons.holds, exM]

/-- reads `k ≤ p` -/
def litLe : Option Ret → Option (Int × Nat)
  | some ⟨.cmp .le (.lit k) (.id p), _, _⟩ => some (k, p)
  | _ => none

theorem litLe_eq {r : Option Ret} {k : Int} {p : Nat} (h : litLe r = some (k, p)) :
    ∃ r', r = some r' ∧ r'.formula = .cmp .le (.lit k) (.id p) := by
  unfold litLe at h
  split at h
  · cases h; exact ⟨_, rfl, rfl⟩
  · cases h

/-- Finding: where the bounds are not decided at once, the comparison that is printed for them has the wrong literal
(`LiteralExpr(int)`, Simplifier.cpp:636-637). -/
theorem C22_finding_literal_truncated :
    (∃ r, simplify lazyOracle 50 exNet exM 20 [] false (.cc [⟨0, 3000000000, 4294967295⟩] false) = some r ∧
      r.formula = .cmp .le (.lit (-1294967296)) (.id 0)) ∧
    (∀ π : Nat → Mark, π 0 = exM → ¬ (Cond.cc [⟨0, 3000000000, 4294967295⟩] false).sat exNet.ts π) ∧
    (∀ π : Nat → Mark, π 0 = exM → (Cond.cmp .le (.lit (-1294967296)) (.id 0)).sat exNet.ts π) := by
  refine ⟨litLe_eq (by decide +kernel), fun π h => ?_, fun π h => ?_⟩ <;>
    simp [Cond.sat, h, ccHolds, Cons.holds, exM, Cmp.holds, Expr.val]

/-- Finding, for C23: the linear form of a literal that does not fit an `int` has another value. -/
theorem C23_finding_literal_truncated :
    (constraint netZ exM (.lit 2147483648)).can = true ∧
    (constraint netZ exM (.lit 2147483648)).const + dot (constraint netZ exM (.lit 2147483648)).vars (fun _ => 0) ≠
      (Expr.lit 2147483648).val exM := by
  decide

end SimplifyProps
end Verif
