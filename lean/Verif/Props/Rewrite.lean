import Verif.PQL.PushNegSound
import Verif.PQL.NetTS
import Verif.Props.Net

/-!
# C17, C18, C19: rewriting of queries

`Cond.sat` (`Verif/PQL/Semantics.lean`) gives the meaning of formulas on the maximal paths of a
transition system; `N.ts` is the transition system of the net `N`.

The claims are false of the code for some formulas.  The theorems `…_finding_…` give witnesses; the
theorems `…_partial` hold for all other formulas (`Cond.wf`, `Verif/PQL/WF.lean`: comparisons of a
place with a constant exclude some value and the constant fits 32 bits, and products that are
compared share no place).
-/

namespace Verif
namespace RewriteProps
open PQL

/-! ## C19: merging comparisons -/

/-- C19 (conjunctions): the constructed formula is the conjunction of the operands, for admissible
operands.  Full claim: the same without `hwf`. -/
theorem C19_conjunction_partial (T : TS) (π : Nat → Mark) (hm : Mark32 (π 0)) (cs : List Cond)
    (hwf : ∀ c ∈ cs, c.wf = true) : (makeAnd cs).sat T π ↔ ∀ c ∈ cs, c.sat T π :=
  makeAnd_spec hm cs hwf

/-- C19 (disjunctions). -/
theorem C19_disjunction_partial (T : TS) (π : Nat → Mark) (hm : Mark32 (π 0)) (cs : List Cond)
    (hwf : ∀ c ∈ cs, c.wf = true) : (makeOr cs).sat T π ↔ ∃ c ∈ cs, c.sat T π :=
  makeOr_spec hm cs hwf

/-- C19: the result is again admissible, so that the theorems apply to formulas built step by step. -/
theorem C19_closed (cs : List Cond) (hwf : ∀ c ∈ cs, c.wf = true) :
    (makeAnd cs).wf = true ∧ (makeOr cs).wf = true := ⟨makeAnd_wf cs hwf, makeOr_wf cs hwf⟩

/-- C19: intersecting constraints of one polarity is the conjunction (negated: disjunction) of the two
objects, for all constraints. -/
theorem C19_merge_same_polarity (m : Mark) (hm : Mark32 m) (l l' : List Cons) (n : Bool) :
    ∃ r, mergeOther l n l' n = some r ∧
      ((∀ c ∈ r, c.holds m) ↔ (∀ c ∈ l, c.holds m) ∧ ∀ c ∈ l', c.holds m) := by
  obtain ⟨r, h1, h2, _⟩ := mergeOther_same m hm n l l'
  exact ⟨r, h1, h2⟩

/-- C19: the exception of `CompareConjunction::merge` is not raised by the construction of
conjunctions and disjunctions. -/
theorem C19_merge_never_throws (orp : Bool) (l0 l : List Cons) (n0 n : Bool)
    (h : n = orp ∨ ccSingular l = true) :
    (n0 = orp → (mergeOther l0 n0 l n).isSome = true) ∧
    (n ≠ orp → (mergeOther [] false l n).isSome = true) := by
  have sing : ∀ (l0 : List Cons) (n0 : Bool), ccSingular l = true → (mergeOther l0 n0 l n).isSome = true := by
    intro l0 n0 hs
    obtain ⟨c, rfl, hc⟩ := ccSingular_cases hs
    have key : ∀ d : Cons, d = c.invert ∨ d = c → d.upper ≠ umax → d.lower ≠ 0 → d = c := by
      rintro d (rfl | rfl) h1 h2
      · unfold Cons.invert at h1 h2 ⊢
        split at h1
        · rename_i h; rw [if_pos h]
        · split at h1
          · exact (h1 rfl).elim
          · split at h1
            · rename_i h h' h''
              rw [if_neg h, if_neg h', if_pos h''] at h2
              exact (h2 rfl).elim
            · rename_i h h' h''
              rw [if_neg h, if_neg h', if_neg h'']
      · rfl
    have hno : ∀ d : Cons, d = c.invert ∨ d = c → ¬ (d.upper ≠ umax ∧ d.lower ≠ 0) := by
      rintro d hd ⟨h1, h2⟩
      have := key d hd h1 h2
      subst this
      simp only [Cons.oneSided, Bool.or_eq_true, beq_iff_eq] at hc
      rcases hc with hc | hc
      · exact h2 hc
      · exact h1 hc
    unfold mergeOther
    simp only [List.length_singleton, Nat.lt_irrefl, and_false, if_false, List.foldlM_cons,
      List.foldlM_nil]
    have : (mergeStep (n0 != n) l0 c).isSome = true := by
      unfold mergeStep
      have hd : (if (n0 != n) = true then c.invert else c) = c.invert ∨
          (if (n0 != n) = true then c.invert else c) = c := by
        split
        · exact .inl rfl
        · exact .inr rfl
      generalize (if (n0 != n) = true then c.invert else c) = d at hd ⊢
      simp only
      split
      · rfl
      · split
        · rename_i h1 h2
          exact (hno d hd ⟨h2.1, h2.2.1⟩).elim
        · rfl
    cases hm : mergeStep (n0 != n) l0 c with
    | none => rw [hm] at this; simp at this
    | some x => rfl
  have same : ∀ l0 : List Cons, (mergeOther l0 n l n).isSome = true := by
    intro l0
    obtain ⟨r, hr, _⟩ := mergeOther_same (fun _ => 0) (fun _ => Nat.zero_le _) n l0 l
    rw [hr]; rfl
  constructor
  · rintro rfl
    rcases h with rfl | h
    · exact same l0
    · exact sing l0 n0 h
  · intro hn
    rcases h with h | h
    · exact (hn h).elim
    · exact sing [] false h

/-! The claim without the restriction is false. -/

private def place (p : Nat) : Expr := .id p
private def p0 : Mark := fun _ => 0

/-- C19: a vacuous comparison makes a disjunction false: `0 <= p or q <= 1` becomes `q <= 1` (more
exactly, `0 <= p` becomes a negated interval that excludes everything). -/
theorem C19_finding_vacuous_disjunct :
    evaluate false (fun p => if p = 1 then 5 else 0) (.cmp .le (.lit 0) (.id 0)) = .rTrue ∧
    evaluate false (fun p => if p = 1 then 5 else 0)
      (makeOr [.cmp .le (.lit 0) (.id 0), .cmp .le (.id 1) (.lit 1)]) = .rFalse := by decide +kernel

/-- C19: an unsatisfiable comparison makes a conjunction true: `p < 0 and q <= 9` becomes `q <= 9`,
because `0 - 1` wraps to the largest value. -/
theorem C19_finding_unsatisfiable_conjunct :
    evaluate false p0 (.cmp .lt (.id 0) (.lit 0)) = .rFalse ∧
    evaluate false p0 (makeAnd [.cmp .lt (.id 0) (.lit 0), .cmp .le (.id 1) (.lit 9)]) = .rTrue := by
  decide +kernel

/-- C19: negative constants are taken modulo `2^32`: `p <= -1` becomes `p <= 4294967295`. -/
theorem C19_finding_negative_constant :
    evaluate false p0 (.cmp .le (.id 0) (.lit (-1))) = .rFalse ∧
    evaluate false p0 (makeAnd [.cmp .le (.id 0) (.lit (-1)), .cmp .le (.id 1) (.lit 9)]) = .rTrue := by
  decide +kernel

/-- C19: large constants are taken modulo `2^32`: `p = 4294967296` becomes `p = 0`. -/
theorem C19_finding_large_constant :
    evaluate false p0 (.cmp .eq (.id 0) (.lit 4294967296)) = .rFalse ∧
    evaluate false p0 (makeAnd [.cmp .eq (.id 0) (.lit 4294967296), .cmp .le (.id 1) (.lit 9)]) = .rTrue := by
  decide +kernel

/-- C19: `4294967295 < p` becomes vacuous instead of unsatisfiable. -/
theorem C19_finding_maximal_constant :
    evaluate false p0 (.cmp .lt (.lit 4294967295) (.id 0)) = .rFalse ∧
    evaluate false p0 (makeAnd [.cmp .lt (.lit 4294967295) (.id 0), .cmp .le (.id 1) (.lit 9)]) = .rTrue := by
  decide +kernel

/-- C19: merging drops constraints that exclude nothing also when the polarity changes: the
disjunction of `x` and an interval object that is always true is `x`. -/
theorem C19_finding_trivial_interval_dropped :
    evaluate false p0 (.cc [⟨0, 0, umax⟩] false) = .rTrue ∧
    evaluate false p0 (makeOr [.cc [⟨1, 0, 0⟩] true, .cc [⟨0, 0, umax⟩] false]) = .rFalse := by
  decide +kernel

/-- Non-vacuity of the C19 theorems: merging happens. -/
example : makeAnd [.cmp .le (.id 0) (.lit 5), .cmp .lt (.lit 2) (.id 0), .cmp .eq (.id 1) (.lit 4)]
    = .cc [⟨0, 3, 5⟩, ⟨1, 4, 4⟩] false ∧
    makeOr [.cmp .le (.id 0) (.lit 5), .cmp .lt (.lit 2) (.id 1)]
    = .cc [⟨0, 6, umax⟩, ⟨1, 0, 2⟩] true := ⟨rfl, rfl⟩
example : ∀ c ∈ [Cond.cmp .le (.id 0) (.lit 5), .cmp .lt (.lit 2) (.id 0), .cmp .eq (.id 1) (.lit 4),
    .not (.EF (.cmp .ne (.id 0) (.id 1)))], c.wf = true := by decide +kernel

/-! ## C17: CTL -/

/-- The markings a run of the tool considers: no counter exceeds 32 bits. -/
def Within32 (N : FlatNet) (m : Mark) : Prop := ∀ m', N.toNet.Reach m m' → Mark32 m'

theorem within32_inv (N : FlatNet) : StateInv N.ts (Within32 N) :=
  ⟨fun _ _ h ⟨_, hs⟩ m'' hr =>
      h m'' (Net.Reach.trans (N := N.toNet) (Net.Reach.step N.toNet (Net.Reach.refl N.toNet _) hs) hr),
   fun _ h => h _ (Net.Reach.refl N.toNet _)⟩

/-- **C17** without the use of the initial marking (`--`nested formulas, and all formulas if no
initial rewriting is asked for): the rewritten formula holds on the same paths.  For state formulas
(CTL) that is: in the same markings.  `neg` asks for the negation. -/
theorem C17_rewriting_everywhere_partial (N : FlatNet) (w : N.WF) (m0 : Mark) (fuel : Nat) (neg : Bool)
    (c r : Cond) (hwf : c.wf = true)
    (h : pushNegation ⟨N.deadlocked m0, m0, false⟩ fuel false neg c = some r)
    (π : Nat → Mark) (hπ : N.ts.IsPath π) (hm : Within32 N (π 0)) :
    r.sat N.ts π ↔ (if neg then ¬ c.sat N.ts π else c.sat N.ts π) := by
  have hd : N.deadlocked m0 = true ↔ N.ts.Dead m0 := (C02_deadlock_exact N w m0).trans (N.ts_dead m0).symm
  exact (pushNegation_good (K := ⟨N.deadlocked m0, m0, false⟩) (within32_inv N) hd fuel false neg c r h hwf).sat π
    ⟨hπ, hm, fun _ h => by simp at h⟩

/-- **C17** with the use of the initial marking: the rewritten formula holds on the same paths from
the initial marking. -/
theorem C17_rewriting_initially_partial (N : FlatNet) (w : N.WF) (m0 : Mark) (fuel : Nat) (neg initrw : Bool)
    (c r : Cond) (hwf : c.wf = true)
    (h : pushNegation ⟨N.deadlocked m0, m0, initrw⟩ fuel false neg c = some r)
    (hm : Within32 N m0) (π : Nat → Mark) (hπ : N.ts.IsPath π) (h0 : π 0 = m0) :
    r.sat N.ts π ↔ (if neg then ¬ c.sat N.ts π else c.sat N.ts π) := by
  have hd : N.deadlocked m0 = true ↔ N.ts.Dead m0 := (C02_deadlock_exact N w m0).trans (N.ts_dead m0).symm
  exact (pushNegation_good (K := ⟨N.deadlocked m0, m0, initrw⟩) (within32_inv N) hd fuel false neg c r h hwf).sat π
    ⟨hπ, by rw [h0]; exact hm, fun _ _ => h0⟩

/-- C17: rewriting CTL formulas gives CTL formulas (state formulas), whose truth depends on the
marking only. -/
theorem C17_state_formulas (N : FlatNet) (w : N.WF) (m0 : Mark) (fuel : Nat) (nested neg initrw : Bool)
    (c r : Cond) (hwf : c.wf = true) (hs : c.isState = true)
    (h : pushNegation ⟨N.deadlocked m0, m0, initrw⟩ fuel nested neg c = some r) :
    r.wf = true ∧ ∀ π π' : Nat → Mark, π 0 = π' 0 → (r.sat N.ts π ↔ r.sat N.ts π') := by
  have hd : N.deadlocked m0 = true ↔ N.ts.Dead m0 := (C02_deadlock_exact N w m0).trans (N.ts_dead m0).symm
  have hg := pushNegation_good (K := ⟨N.deadlocked m0, m0, initrw⟩) (within32_inv N) hd fuel nested neg c r h hwf
  exact ⟨hg.wf, fun π π' h0 => Cond.sat_state N.ts h0 r (hg.state hs)⟩

/-- C17: the claim fails for vacuous comparisons (through C19): with 5 tokens on place 1,
`0 <= p or q <= 1` holds, the rewritten formula does not. -/
theorem C17_finding_vacuous_disjunct :
    ∃ r, pushNegation ⟨false, p0, false⟩ 5 false false
        (.or [.cmp .le (.lit 0) (.id 0), .cmp .le (.id 1) (.lit 1)]) = some r ∧
      evaluate false (fun p => if p = 1 then 5 else 0)
        (.or [.cmp .le (.lit 0) (.id 0), .cmp .le (.id 1) (.lit 1)]) = .rTrue ∧
      evaluate false (fun p => if p = 1 then 5 else 0) r = .rFalse :=
  ⟨_, rfl, by decide +kernel, by decide +kernel⟩

/-- C17: common factors of compared products are cancelled although they may be zero:
`p*q < p*r` becomes `q < r`. -/
theorem C17_finding_products_cancelled :
    pushNegation ⟨false, p0, false⟩ 1 false false (.cmp .lt (.mul 1 [0, 1] []) (.mul 1 [0, 2] []))
        = some (.cmp .lt (.mul 1 [1] []) (.mul 1 [2] [])) ∧
      evaluate false (fun p => if p = 2 then 1 else 0)
        (.cmp .lt (.mul 1 [0, 1] []) (.mul 1 [0, 2] [])) = .rFalse ∧
      evaluate false (fun p => if p = 2 then 1 else 0)
        (.cmp .lt (.mul 1 [1] []) (.mul 1 [2] [])) = .rTrue := by
  refine ⟨?_, by decide +kernel, by decide +kernel⟩
  simp [pushNegation, pushStep, pushCmp, dropCommon, remdup, isTrivialCmp, Expr.commSize, RwCtx.rw]

/-! ## C18: LTL -/

/-- **C18**: rewriting an LTL formula (its body, visited below the path quantifier) gives a formula
that holds on the same executions of the net. -/
theorem C18_ltl_rewriting_partial (N : FlatNet) (w : N.WF) (m0 : Mark) (fuel : Nat) (neg initrw : Bool)
    (c r : Cond) (hwf : c.wf = true)
    (h : pushNegation ⟨N.deadlocked m0, m0, initrw⟩ fuel false neg c = some r)
    (hm : Within32 N m0) (π : Nat → Mark) (hπ : N.ts.IsPath π) (h0 : π 0 = m0) :
    r.sat N.ts π ↔ (if neg then ¬ c.sat N.ts π else c.sat N.ts π) :=
  C17_rewriting_initially_partial N w m0 fuel neg initrw c r hwf h hm π hπ h0

/-- **C18**: the quantified query: `A φ` (or `E φ`) and its rewritten form agree in the initial
marking: all (some) executions satisfy `φ`. -/
theorem C18_ltl_query_partial (N : FlatNet) (w : N.WF) (m0 : Mark) (fuel : Nat) (initrw : Bool)
    (c r : Cond) (hwf : c.wf = true)
    (h : pushNegation ⟨N.deadlocked m0, m0, initrw⟩ fuel false false (.A c) = some r)
    (hm : Within32 N m0) (π : Nat → Mark) (hπ : N.ts.IsPath π) (h0 : π 0 = m0) :
    r.sat N.ts π ↔ ∀ ρ, N.ts.IsPath ρ → ρ 0 = m0 → c.sat N.ts ρ := by
  have := C17_rewriting_initially_partial N w m0 fuel false initrw (.A c) r hwf h hm π hπ h0
  rw [this]
  simp only [Bool.false_eq_true, if_false, Cond.sat, h0]

/-! Non-vacuity: the rewriting terminates on formulas that use the rules, and changes them. -/

/-- `E [not deadlock U (AF p0 >= 1 or p1 = 0)]` and `not AG (p0 = 0 or EF p1 >= 3)` -/
private def exCtl : Cond :=
  .and [.EU (.not .dead) (.or [.AF (.cmp .le (.lit 1) (.id 0)), .cmp .eq (.id 1) (.lit 0)]),
        .not (.AG (.or [.cmp .eq (.id 0) (.lit 0), .EF (.cmp .le (.lit 3) (.id 1))]))]

example : exCtl.wf = true ∧ exCtl.isState = true := by decide +kernel
example : (pushNegation ⟨false, p0, false⟩ 20 false false exCtl).isSome = true := by decide +kernel
example : pushNegation ⟨false, p0, false⟩ 9 false false
    (.not (.EG (.AF (.EF (.cmp .eq (.id 1) (.lit 0))))))
    = some (.AF (.not (.EF (.cmp .le (.id 1) (.lit 0))))) := rfl
example : pushNegation ⟨false, p0, false⟩ 9 false false
    (.A (.F (.U (.cmp .le (.lit 1) (.id 1)) (.F (.cmp .le (.lit 1) (.id 0))))))
    = some (.A (.F (.cmp .le (.lit 1) (.id 0)))) := rfl

end RewriteProps
end Verif
