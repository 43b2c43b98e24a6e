import Verif.PQL.Syntax
import Mathlib.Algebra.BigOperators.Group.List.Basic
import Mathlib.Data.Int.Basic

/-!
# Specification: meaning of the property language

Formulas are interpreted over the paths of a transition system whose states are markings.  Paths
are infinite sequences in which a deadlocked state is repeated for ever; this is the semantics of the
LTL competition category, and for the CTL operators other than `EX`/`AX` (which speak of real
successors only) it agrees with the semantics over maximal paths.
-/

namespace Verif
namespace PQL

abbrev Mark := Nat → Nat

/-- A transition system on markings. -/
structure TS where
  step : Mark → Mark → Prop

namespace TS
variable (T : TS)

def Dead (m : Mark) : Prop := ∀ m', ¬ T.step m m'

/-- A maximal path, deadlocked states being repeated. -/
def IsPath (π : Nat → Mark) : Prop :=
  ∀ i, T.step (π i) (π (i + 1)) ∨ (T.Dead (π i) ∧ π (i + 1) = π i)

end TS

/-- The path from position `i` on. -/
def suffix (π : Nat → Mark) (i : Nat) : Nat → Mark := fun j => π (i + j)

mutual
/-- Value of an expression in a marking. -/
def Expr.val (m : Mark) : Expr → Int
  | .lit v => v
  | .id p => m p
  | .plus k ids es => k + (ids.map fun p => (m p : Int)).sum + (vals m es).sum
  | .mul k ids es => k * (ids.map fun p => (m p : Int)).prod * (vals m es).prod
  | .sub e es => e.val m - (vals m es).sum
  | .minus e => - e.val m
def vals (m : Mark) : List Expr → List Int
  | [] => []
  | e :: es => e.val m :: vals m es
end

theorem vals_eq (m : Mark) (es : List Expr) : vals m es = es.map (Expr.val m) := by
  induction es with
  | nil => rfl
  | cons e es ih => simp [vals, ih]

/-- Meaning of a comparison. -/
def Cmp.holds (a b : Int) : Cmp → Prop
  | .lt => a < b
  | .le => a ≤ b
  | .eq => a = b
  | .ne => a ≠ b

/-- Meaning of a place constraint. -/
def Cons.holds (m : Mark) (c : Cons) : Prop := c.lower ≤ m c.place ∧ m c.place ≤ c.upper

/-- Meaning of a conjunction of place constraints, or of the negation of one. -/
def ccHolds (m : Mark) (l : List Cons) : Bool → Prop
  | false => ∀ c ∈ l, c.holds m
  | true => ¬ ∀ c ∈ l, c.holds m

mutual
/-- The path `π` satisfies the formula. -/
def Cond.sat (T : TS) (π : Nat → Mark) : Cond → Prop
  | .bool b => b = true
  | .dead => T.Dead (π 0)
  | .cmp op e1 e2 => op.holds (e1.val (π 0)) (e2.val (π 0))
  | .cc l n => ccHolds (π 0) l n
  | .not c => ¬ c.sat T π
  | .and cs => satAll T π cs
  | .or cs => satAny T π cs
  | .EX c => ∃ π', T.IsPath π' ∧ T.step (π 0) (π' 0) ∧ c.sat T π'
  | .AX c => ∀ π', T.IsPath π' → T.step (π 0) (π' 0) → c.sat T π'
  | .EF c => ∃ π', T.IsPath π' ∧ π' 0 = π 0 ∧ ∃ i, c.sat T (suffix π' i)
  | .AF c => ∀ π', T.IsPath π' → π' 0 = π 0 → ∃ i, c.sat T (suffix π' i)
  | .EG c => ∃ π', T.IsPath π' ∧ π' 0 = π 0 ∧ ∀ i, c.sat T (suffix π' i)
  | .AG c => ∀ π', T.IsPath π' → π' 0 = π 0 → ∀ i, c.sat T (suffix π' i)
  | .EU c d => ∃ π', T.IsPath π' ∧ π' 0 = π 0 ∧
      ∃ i, d.sat T (suffix π' i) ∧ ∀ j, j < i → c.sat T (suffix π' j)
  | .AU c d => ∀ π', T.IsPath π' → π' 0 = π 0 →
      ∃ i, d.sat T (suffix π' i) ∧ ∀ j, j < i → c.sat T (suffix π' j)
  | .E c => ∃ π', T.IsPath π' ∧ π' 0 = π 0 ∧ c.sat T π'
  | .A c => ∀ π', T.IsPath π' → π' 0 = π 0 → c.sat T π'
  | .X c => c.sat T (suffix π 1)
  | .F c => ∃ i, c.sat T (suffix π i)
  | .G c => ∀ i, c.sat T (suffix π i)
  | .U c d => ∃ i, d.sat T (suffix π i) ∧ ∀ j, j < i → c.sat T (suffix π j)
def satAll (T : TS) (π : Nat → Mark) : List Cond → Prop
  | [] => True
  | c :: cs => c.sat T π ∧ satAll T π cs
def satAny (T : TS) (π : Nat → Mark) : List Cond → Prop
  | [] => False
  | c :: cs => c.sat T π ∨ satAny T π cs
end

theorem satAll_iff (T : TS) (π : Nat → Mark) (cs : List Cond) :
    satAll T π cs ↔ ∀ c ∈ cs, c.sat T π := by
  induction cs with
  | nil => simp [satAll]
  | cons c cs ih => simp [satAll, ih]

theorem satAny_iff (T : TS) (π : Nat → Mark) (cs : List Cond) :
    satAny T π cs ↔ ∃ c ∈ cs, c.sat T π := by
  induction cs with
  | nil => simp [satAny]
  | cons c cs ih => simp [satAny, ih]

theorem isState_all_iff (cs : List Cond) : Cond.isState.all cs = true ↔ ∀ c ∈ cs, c.isState = true := by
  induction cs with
  | nil => simp [Cond.isState.all]
  | cons c cs ih => simp [Cond.isState.all, ih]

/-- State formulas look at the first state only. -/
theorem Cond.sat_state (T : TS) {π π' : Nat → Mark} (h : π 0 = π' 0) (c : Cond) (hc : c.isState = true) :
    c.sat T π ↔ c.sat T π' := by
  induction c using Cond.ind with
  | and cs ih =>
    simp only [isState, isState_all_iff] at hc
    simp only [sat, satAll_iff]
    exact forall₂_congr fun c hm => ih c hm (hc c hm)
  | or cs ih =>
    simp only [isState, isState_all_iff] at hc
    simp only [sat, satAny_iff]
    exact exists_congr fun c => and_congr_right fun hm => ih c hm (hc c hm)
  | not c ih => simp only [sat, ih hc]
  | X | F | G | U => simp [isState] at hc
  | _ => simp only [sat, h]

/-! ### Paths -/

variable {T : TS}

theorem TS.exists_path (T : TS) (m : Mark) : ∃ π, T.IsPath π ∧ π 0 = m := by
  classical
  let nx : Mark → Mark := fun m => if h : ∃ m', T.step m m' then Classical.choose h else m
  refine ⟨fun i => Nat.rec m (fun _ x => nx x) i, fun i => ?_, rfl⟩
  by_cases h : ∃ m', T.step (Nat.rec m (fun _ x => nx x) i) m'
  · left
    show T.step _ (nx _)
    simp only [nx, dif_pos h]
    exact Classical.choose_spec h
  · right
    refine ⟨fun m' hm' => h ⟨m', hm'⟩, ?_⟩
    show nx _ = _
    simp only [nx, dif_neg h]

theorem suffix_path {π : Nat → Mark} (h : T.IsPath π) (i : Nat) : T.IsPath (suffix π i) :=
  fun j => h (i + j)

theorem suffix_zero (π : Nat → Mark) : suffix π 0 = π := by funext j; simp [suffix]

theorem suffix_suffix (π : Nat → Mark) (i j : Nat) : suffix (suffix π i) j = suffix π (i + j) := by
  funext k; simp [suffix, Nat.add_assoc]

theorem suffix_head (π : Nat → Mark) (i : Nat) : suffix π i 0 = π i := rfl

/-- The first `n` states of `π`, then `π'`. -/
def glue (π : Nat → Mark) (n : Nat) (π' : Nat → Mark) : Nat → Mark :=
  fun i => if i < n then π i else π' (i - n)

theorem glue_path {π π' : Nat → Mark} (h : T.IsPath π) (h' : T.IsPath π') {n : Nat} (he : π' 0 = π n) :
    T.IsPath (glue π n π') := by
  intro i
  simp only [glue]
  by_cases h1 : i + 1 < n
  · rw [if_pos h1, if_pos (by omega)]; exact h i
  · by_cases h2 : i < n
    · have : i + 1 = n := by omega
      rw [if_neg h1, if_pos h2, this, Nat.sub_self, he, ← this]
      exact h i
    · rw [if_neg h1, if_neg h2, show i + 1 - n = (i - n) + 1 by omega]
      exact h' _

theorem glue_suffix (π π' : Nat → Mark) (n i : Nat) : suffix (glue π n π') (n + i) = suffix π' i := by
  funext j
  simp only [suffix, glue]
  rw [if_neg (by omega)]
  congr 1; omega

theorem glue_suffix0 (π π' : Nat → Mark) (n : Nat) : suffix (glue π n π') n = π' := by
  have := glue_suffix π π' n 0
  simpa [suffix_zero] using this

theorem glue_lt {π π' : Nat → Mark} {n i : Nat} (h : i < n) : glue π n π' i = π i := by
  simp [glue, h]

theorem glue_zero {π π' : Nat → Mark} {n : Nat} (he : π' 0 = π n) : glue π n π' 0 = π 0 := by
  simp only [glue]
  split
  · rfl
  · have : n = 0 := by omega
    subst this; simpa using he

/-- A successor step in front of a path. -/
def prepend (m : Mark) (π : Nat → Mark) : Nat → Mark
  | 0 => m
  | i + 1 => π i

theorem prepend_path {π : Nat → Mark} {m : Mark} (h : T.IsPath π) (hs : T.step m (π 0)) :
    T.IsPath (prepend m π) := by
  intro i
  cases i with
  | zero => exact .inl hs
  | succ i => exact h i

theorem prepend_suffix (m : Mark) (π : Nat → Mark) (i : Nat) : suffix (prepend m π) (i + 1) = suffix π i := by
  funext j
  simp only [suffix, show i + 1 + j = (i + j) + 1 by omega, prepend]

/-- After a dead state a path does not move. -/
theorem dead_const {π : Nat → Mark} (h : T.IsPath π) {i : Nat} (hd : T.Dead (π i)) (j : Nat) :
    π (i + j) = π i := by
  induction j with
  | zero => rfl
  | succ j ih =>
    rcases h (i + j) with hs | ⟨_, he⟩
    · rw [ih] at hs; exact (hd _ hs).elim
    · rw [← Nat.add_assoc, he, ih]

theorem dead_suffix {π : Nat → Mark} (h : T.IsPath π) {i : Nat} (hd : T.Dead (π i)) (j : Nat) :
    suffix π (i + j) = suffix π i := by
  funext k
  simp only [suffix]
  rw [Nat.add_assoc, dead_const h hd, dead_const h hd]

end PQL
end Verif
