import Verif.LTL.PushEnds
import Verif.PQL.PushFuel
import Verif.Props.SpotChain

/-! # C91: the rewriting of LTL formulas ends -/

namespace Verif
namespace LTL
open PQL

/-- **C91** The visitor that pushes negations ends on every formula of LTL, in every context: from some fuel on the result is always the same
formula. -/
theorem C91_push_ends (K : RwCtx) (nested neg : Bool) (c : Cond) (hc : PathF c = true) :
    ∃ r f, ∀ n, f ≤ n → pushNegation K n nested neg c = some r := by
  obtain ⟨r, _, _, f, h⟩ := ends (K := K) c hc nested neg
  exact ⟨r, f, h⟩

/-- **C91** The fuel does not matter, for any formula: two visits of a formula that both end return the same. -/
theorem C91_fuel (K : RwCtx) (nested neg : Bool) (c : Cond) (n m : Nat) (r s : Cond)
    (h : pushNegation K n nested neg c = some r) (h' : pushNegation K m nested neg c = some s) : r = s := by
  have h1 := pushNegation_le K (Nat.le_max_left n m) _ _ _ _ h
  have h2 := pushNegation_le K (Nat.le_max_right n m) _ _ _ _ h'
  rw [h1] at h2
  exact Option.some.inj h2

/-- **C91** The result is not heavier than the formula, where negations weigh nothing and `F` and `G` double the weight. -/
theorem C91_push_weight (K : RwCtx) (nested neg : Bool) (c : Cond) (hc : PathF c = true) (n : Nat) (r : Cond)
    (h : pushNegation K n nested neg c = some r) : wt r ≤ wt c := by
  obtain ⟨r', hw, _, f, h'⟩ := ends (K := K) c hc nested neg
  rw [C91_fuel K nested neg c n f r r' h (h' f (Nat.le_refl _))]
  exact hw

/-- **C91** All the rewriting between the two calls of spot ends, if the step with linear programs does. -/
theorem C91_chain_ends (K : RwCtx) (lps : Cond → Option Cond)
    (hl : ∀ c, PathF c = true → ∃ d, lps c = some d ∧ PathF d = true) (c : Cond) (hc : PathF c = true) :
    ∃ r f, PathF r = true ∧ ∀ f1 f2 f3, f ≤ f1 → f ≤ f2 → f ≤ f3 → chainMid K f1 f2 f3 lps c = some r := by
  obtain ⟨c1, _, p1, g1, h1⟩ := ends (K := K) (K.rw false c) (rw_path hc) false false
  obtain ⟨c2, h2, p2⟩ := hl c1 p1
  obtain ⟨c3, _, p3, g3, h3⟩ := ends (K := K) c2 p2 false false
  obtain ⟨c4, _, p4, g4, h4⟩ := ends (K := K) c3 p3 false false
  refine ⟨c4, g1 + g3 + g4, p4, fun f1 f2 f3 k1 k2 k3 => ?_⟩
  simp only [chainMid, h1 f1 (by omega), h2, h3 f2 (by omega), h4 f3 (by omega), Option.bind_some]

/-- **C91** Hence the simplification of every LTL query ends with a formula. -/
theorem C91_simplify_ends (K : RwCtx) (lps : Cond → Option Cond)
    (hl : ∀ c, PathF c = true → ∃ d, lps c = some d ∧ PathF d = true) (T : TS) (cfg1 cfg2 : TCfg) (simp : SpotF → SpotF) (hs : SimpOK simp)
    (q : Cond) (hq : QueryF q = true) (hp : ∀ f1 f2 f3, PrintBoth T cfg1 cfg2 simp (chainMid K f1 f2 f3 lps) (inner q)) :
    ∃ r f, ∀ f1 f2 f3, f ≤ f1 → f ≤ f2 → f ≤ f3 → simplifyLtl cfg1 cfg2 simp (chainMid K f1 f2 f3 lps) (chainLast K) q = some r := by
  have hi : PathF (inner q) = true := by cases q <;> first | exact hq | cases hq
  obtain ⟨c1, h1, p1, _⟩ := C89_simplify cfg1 T simp hs (inner q) hi (hp 0 0 0).1
  obtain ⟨c2, f, p2, h2⟩ := C91_chain_ends K lps hl c1 p1
  obtain ⟨c3, h3, p3, _⟩ := C89_simplify cfg2 T simp hs c2 p2 ((hp f f f).2 c1 c2 h1 (h2 f f f (Nat.le_refl _) (Nat.le_refl _) (Nat.le_refl _)))
  have hst : spotSimplify cfg1 simp (strip q).2 = spotSimplify cfg1 simp (inner q) := by cases q <;> first | rfl | cases hq
  refine ⟨wrap (strip q).1 (K.rw false c3), f, fun f1 f2 f3 k1 k2 k3 => ?_⟩
  unfold simplifyLtl
  rw [hst, h1, Option.bind_some, h2 f1 f2 f3 k1 k2 k3, Option.bind_some, h3, Option.bind_some]
  rfl

/-! ### Non-vacuity -/

/-- `F (X p ∨ (q U r))` is distributed; `G` under a negation; and a visit that calls itself on a new formula needs more fuel than the depth. -/
example : pushNegation ⟨false, fun _ => 0, false⟩ 9 false false
    (.F (.or [.X exTok, .U exTok (.cmp .eq (.id 1) (.lit 2))])) = some (.or [.F (.X exTok), .F (.cmp .eq (.id 1) (.lit 2))]) ∧
    pushNegation ⟨false, fun _ => 0, false⟩ 9 false false (.not (.G (.not exTok))) = some (.F exTok) ∧
    pushNegation ⟨false, fun _ => 0, false⟩ 3 false false (.F (.or [.X exTok, .U exTok (.cmp .eq (.id 1) (.lit 2))])) = none :=
  ⟨rfl, rfl, rfl⟩

/-- The hypotheses of `C91_simplify_ends` can be met. -/
example : ∃ r f, ∀ f1 f2 f3, f ≤ f1 → f ≤ f2 → f ≤ f3 →
    simplifyLtl ⟨.full, true, fun _ => false, fun _ => "p"⟩ ⟨.full, true, fun _ => false, fun _ => "p"⟩ id
      (chainMid ⟨false, fun _ => 0, true⟩ f1 f2 f3 fun _ => some (.bool true)) (chainLast ⟨false, fun _ => 0, true⟩) (.AF exTok) = some r := by
  refine C91_simplify_ends ⟨false, fun _ => 0, true⟩ (fun _ => some (.bool true)) (fun _ _ => ⟨_, rfl, rfl⟩) netChoice.ts _ _ id id_ok (.AF exTok)
    rfl fun f1 f2 f3 => ⟨?_, fun c1 c2 _ h => ?_⟩
  · intro e he e' he' _ π _
    simp [toSpot, mkAp, exTok, inner] at he he'
    rw [he, he']
  · obtain ⟨x, _, h⟩ := Option.bind_eq_some_iff.1 h
    rw [Option.bind_some] at h
    obtain ⟨y, hy, h⟩ := Option.bind_eq_some_iff.1 h
    have hb : ∀ f z, pushNegation ⟨false, fun _ => 0, true⟩ f false false (.bool true) = some z → z = .bool true := by
      intro f z hz
      cases f with
      | zero => cases hz
      | succ f => cases hz; rfl
    rw [hb _ _ hy] at h
    rw [hb _ _ h]
    intro e he
    cases he

end LTL
end Verif
