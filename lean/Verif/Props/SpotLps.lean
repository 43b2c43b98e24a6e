import Verif.LTL.SpotLps
import Verif.Props.SpotChain
import Verif.Props.Simplify

/-! # C89: the simplification of LTL queries with all steps of the program -/

namespace Verif
namespace LTL
open PQL RewriteProps Simp SimplifyProps

/-- the step with linear programs, for formulas of which C22 speaks only -/
def guarded (o : Oracle) (n : Nat) (N : FlatNet) (m0 : Mark) (depth : Nat) (c : Cond) : Option Cond :=
  if exactC m0 c then lpsStep o n N m0 depth c else none

theorem guarded_ok (N : FlatNet) (w : N.WF) (m0 : Mark) (hm : Within32 N m0) (o : Oracle) (ho : SoundSolver N m0 o) (n depth : Nat) :
    StepOK N.ts m0 (guarded o n N m0 depth) := by
  intro c d hc hw h
  unfold guarded at h
  split at h
  · rename_i hex
    rw [lpsStep, Option.map_eq_some_iff] at h
    obtain ⟨r, h, rfl⟩ := h
    have hg := simplify_good (setting w hm ho) (fun _ _ h => h) depth [] false c r h hw hex
    exact ⟨simplify_path depth [] false c r h hc, hg.wf, fun π hπ h0 => by
      simpa [xneg] using hg.sat π hπ (by rw [h0]; exact Net.Reach.refl N.toNet m0)⟩
  · cases h

section
variable {K : RwCtx} {o : Oracle} {n : Nat} {N : FlatNet} {m0 : Mark} {depth f1 f2 f3 : Nat}

theorem guarded_mono (c d : Cond) (h : chainMid K f1 f2 f3 (guarded o n N m0 depth) c = some d) :
    chainMid K f1 f2 f3 (lpsStep o n N m0 depth) c = some d := by
  unfold chainMid at h ⊢
  obtain ⟨c1, h1, h⟩ := Option.bind_eq_some_iff.1 h
  obtain ⟨c2, h2, h⟩ := Option.bind_eq_some_iff.1 h
  unfold guarded at h2
  split at h2
  · rw [h1, Option.bind_some, h2, Option.bind_some]
    exact h
  · cases h2

theorem guarded_eq (c : Cond) (hex : ∀ c1, pushNegation K f1 false false (K.rw false c) = some c1 → exactC m0 c1 = true) :
    chainMid K f1 f2 f3 (guarded o n N m0 depth) c = chainMid K f1 f2 f3 (lpsStep o n N m0 depth) c := by
  unfold chainMid
  cases h : pushNegation K f1 false false (K.rw false c) with
  | none => rfl
  | some c1 => rw [Option.bind_some, Option.bind_some, guarded, if_pos (hex c1 h)]

end

theorem strip_inner (cfg : TCfg) (simp : SpotF → SpotF) (q : Cond) (hq : QueryF q = true) :
    spotSimplify cfg simp (strip q).2 = spotSimplify cfg simp (inner q) := by
  cases q <;> first | rfl | cases hq

theorem guarded_query {K : RwCtx} {o : Oracle} {n : Nat} {N : FlatNet} {m0 : Mark} {depth f1 f2 f3 : Nat} {cfg1 cfg2 : TCfg}
    {simp : SpotF → SpotF} {last : Cond → Option Cond} (q : Cond) (hq : QueryF q = true)
    (hex : ∀ c c1, spotSimplify cfg1 simp (inner q) = some c → pushNegation K f1 false false (K.rw false c) = some c1 → exactC m0 c1 = true) :
    simplifyLtl cfg1 cfg2 simp (chainMid K f1 f2 f3 (guarded o n N m0 depth)) last q =
      simplifyLtl cfg1 cfg2 simp (chainMid K f1 f2 f3 (lpsStep o n N m0 depth)) last q := by
  unfold simplifyLtl
  rw [strip_inner cfg1 simp q hq]
  cases hc : spotSimplify cfg1 simp (inner q) with
  | none => rfl
  | some c => rw [Option.bind_some, Option.bind_some, guarded_eq c fun c1 h1 => hex c c1 hc h1]

/-- **C89** with all steps of the program: spot, the look at the initial marking, pushing of negations, linear programs, spot again.  For every
well-formed LTL query other than `EF`, `EG` and `EU` (F133): the formula that `simplify_ltl_query` returns has the answer of the query in the
initial marking, whatever the clock does and whatever a sound solver answers.  As in C22 the numbers in the formula to which the linear
programs are applied must be small (`hex`). -/
theorem C89_program_partial (N : FlatNet) (w : N.WF) (m0 : Mark) (hm : Within32 N m0) (o : Oracle) (ho : SoundSolver N m0 o)
    (cfg1 cfg2 : TCfg) (simp : SpotF → SpotF) (hs : SimpOK simp) (f1 f2 f3 n depth : Nat) (q : Cond) (hq : QueryF q = true)
    (hw : (inner q).wf = true)
    (hp : PrintBoth N.ts cfg1 cfg2 simp (chainMid ⟨N.deadlocked m0, m0, true⟩ f1 f2 f3 (lpsStep o n N m0 depth)) (inner q))
    (hex : ∀ c c1, spotSimplify cfg1 simp (inner q) = some c →
      pushNegation ⟨N.deadlocked m0, m0, true⟩ f1 false false (RwCtx.rw ⟨N.deadlocked m0, m0, true⟩ false c) = some c1 → exactC m0 c1 = true)
    (he : isExists q = false) (r : Cond)
    (h : simplifyLtl cfg1 cfg2 simp (chainMid ⟨N.deadlocked m0, m0, true⟩ f1 f2 f3 (lpsStep o n N m0 depth))
      (chainLast ⟨N.deadlocked m0, m0, true⟩) q = some r)
    (π : Nat → Mark) (hπ : N.ts.IsPath π) (h0 : π 0 = m0) : r.sat N.ts π ↔ q.sat N.ts π := by
  rw [← guarded_query q hq hex] at h
  exact C89_chain_partial N w m0 hm cfg1 cfg2 simp hs f1 f2 f3 _ (guarded_ok N w m0 hm o ho n depth) q hq hw
    ⟨hp.1, fun c1 c2 h1 h2 => hp.2 c1 c2 h1 (guarded_mono c1 c2 h2)⟩ he r h π hπ h0

/-- **C89** with all steps of the program: the result is a constant or again a query of LTL. -/
theorem C89_program_shape (N : FlatNet) (w : N.WF) (m0 : Mark) (hm : Within32 N m0) (o : Oracle) (ho : SoundSolver N m0 o)
    (cfg1 cfg2 : TCfg) (simp : SpotF → SpotF) (hs : SimpOK simp) (f1 f2 f3 n depth : Nat) (q : Cond) (hq : QueryF q = true)
    (hw : (inner q).wf = true)
    (hp : PrintBoth N.ts cfg1 cfg2 simp (chainMid ⟨N.deadlocked m0, m0, true⟩ f1 f2 f3 (lpsStep o n N m0 depth)) (inner q))
    (hex : ∀ c c1, spotSimplify cfg1 simp (inner q) = some c →
      pushNegation ⟨N.deadlocked m0, m0, true⟩ f1 false false (RwCtx.rw ⟨N.deadlocked m0, m0, true⟩ false c) = some c1 → exactC m0 c1 = true)
    (r : Cond)
    (h : simplifyLtl cfg1 cfg2 simp (chainMid ⟨N.deadlocked m0, m0, true⟩ f1 f2 f3 (lpsStep o n N m0 depth))
      (chainLast ⟨N.deadlocked m0, m0, true⟩) q = some r) : (∃ b, r = .bool b) ∨ QueryF r = true := by
  rw [← guarded_query q hq hex] at h
  exact C89_chain_shape N w m0 hm cfg1 cfg2 simp hs f1 f2 f3 _ (guarded_ok N w m0 hm o ho n depth) q hq hw
    ⟨hp.1, fun c1 c2 h1 h2 => hp.2 c1 c2 h1 (guarded_mono c1 c2 h2)⟩ r h

/-- "always p0 + p1 ≤ 1" -/
def exSum : Cond := .G (.cmp .le (.plus 0 [0, 1] []) (.lit 1))

/-- The assumptions of `C89_program_partial` can be met, and the steps do something: the query is decided by the linear programs. -/
theorem exSum_steps : simplifyLtl exT exT id (chainMid ⟨exNet.deadlocked exM, exM, true⟩ 9 9 9 (lpsStep lazyOracle 50 exNet exM 20))
    (chainLast ⟨exNet.deadlocked exM, exM, true⟩) (.A exSum) = some (.bool true) := rfl

example (π : Nat → Mark) (hπ : exNet.ts.IsPath π) (h0 : π 0 = exM) : (Cond.A exSum).sat exNet.ts π := by
  refine (C89_program_partial exNet exNet_wf exM exNet_within lazyOracle (lazyOracle_sound _ _) exT exT id id_ok 9 9 9 50 20 (.A exSum)
    rfl rfl ⟨?_, ?_⟩ ?_ rfl _ exSum_steps π hπ h0).1 rfl
  · intro e he e' he' _ π _
    simp [toSpot, mkAp, exSum, exT, inner] at he he'
    rw [he, he']
  · intro c1 c2 h1 h2
    cases h1
    cases h2
    intro e he
    cases he
  · intro c c1 h1 h2
    cases h1
    cases h2
    rfl

end LTL
end Verif
