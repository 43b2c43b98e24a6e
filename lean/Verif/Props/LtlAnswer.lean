import Verif.LTL.Answer
import Verif.Props.SpotLps
import Verif.Props.LTLEngine

/-! # C90: answers to LTL queries that are simplified first -/

namespace Verif
namespace LTL
open PQL CTL RewriteProps Simp SimplifyProps Examples

/-- Specification: the assumptions on the library spot for the query `r` handed to the engine (cf. C46). -/
structure EngineFor (e : ECfg) (N : FlatNet) (A : Buchi) (reg : Key → Nat) (r : Cond) : Prop where
  simple : A.Simple
  states : ∃ k, A.States k
  spot : SpotFor e.tcfg A reg r
  print : PrintFor e.tcfg N.ts r

/-- **C90** An answer to an LTL query that is simplified first (spot, initial marking, negations, linear programs, spot again) and then given to
the LTL engine is right in the initial marking.  The query is any well-formed LTL query other than `EF`, `EG` and `EU` (F133).  As in C46 the net
has finitely many reachable markings, none of which exceeds the token bound; as in C22 the numbers are small. -/
theorem C90_answer_partial (N : FlatNet) (w : N.WF) (l0 : List Nat) (hl : l0.length = N.nplaces) (hsm : Small N (toMark l0))
    (hm : Within32 N (toMark l0)) (hfin : {m | N.toNet.Reach (toMark l0) m}.Finite)
    (e : ECfg) (ho : OrdOK e.ord) (hb : ∀ l, StoredOK N (toMark l0) l → e.bnd l = true)
    (o : Oracle) (hos : SoundSolver N (toMark l0) o) (cfg1 cfg2 : TCfg) (simp : SpotF → SpotF) (hs : SimpOK simp)
    (n depth f1 f2 f3 fuel : Nat) (aut : Cond → Buchi) (reg : Cond → Key → Nat)
    (q : Cond) (hsp : ∀ r, simplifyLtl cfg1 cfg2 simp
      (chainMid ⟨N.deadlocked (toMark l0), toMark l0, true⟩ f1 f2 f3 (lpsStep o n N (toMark l0) depth))
      (chainLast ⟨N.deadlocked (toMark l0), toMark l0, true⟩) q = some r → QueryF r = true → EngineFor e N (aut r) (reg r) r)
    (hq : QueryF q = true) (hw : (inner q).wf = true) (he : isExists q = false)
    (hp : PrintBoth N.ts cfg1 cfg2 simp
      (chainMid ⟨N.deadlocked (toMark l0), toMark l0, true⟩ f1 f2 f3 (lpsStep o n N (toMark l0) depth)) (inner q))
    (hex : ∀ c c1, spotSimplify cfg1 simp (inner q) = some c →
      pushNegation ⟨N.deadlocked (toMark l0), toMark l0, true⟩ f1 false false
        (RwCtx.rw ⟨N.deadlocked (toMark l0), toMark l0, true⟩ false c) = some c1 → exactC (toMark l0) c1 = true)
    (b : Bool) (h : answerLtl e cfg1 cfg2 simp o n depth f1 f2 f3 N aut reg l0 fuel q = some b)
    (π : Nat → Mark) (hπ : N.ts.IsPath π) (h0 : π 0 = toMark l0) : b = true ↔ q.sat N.ts π := by
  unfold answerLtl at h
  simp only at h
  split at h
  · cases h
  · rename_i b' hr
    cases h
    have := C89_program_partial N w (toMark l0) hm o hos cfg1 cfg2 simp hs f1 f2 f3 n depth q hq hw hp hex he _ hr π hπ h0
    rw [← this]
    simp only [Cond.sat]
  · rename_i r hne hr
    have hsat := C89_program_partial N w (toMark l0) hm o hos cfg1 cfg2 simp hs f1 f2 f3 n depth q hq hw hp hex he _ hr π hπ h0
    have hqr : QueryF r = true := by
      rcases C89_program_shape N w (toMark l0) hm o hos cfg1 cfg2 simp hs f1 f2 f3 n depth q hq hw hp hex _ hr with ⟨b', rfl⟩ | hqr
      · exact absurd hr (by simpa using hne b')
      · exact hqr
    have E := hsp r hr hqr
    obtain ⟨k, hk⟩ := E.states
    rw [← hsat]
    exact C46_ltl_correct e ho N w (aut r) E.simple (reg r) l0 hl hsm r hqr E.print E.spot hb hfin k hk fuel b h π h0

/-- **C90** Whenever the simplification ends with a formula, an answer comes: the engine ends on the simplified query. -/
theorem C90_answer_ends (N : FlatNet) (w : N.WF) (l0 : List Nat) (hl : l0.length = N.nplaces) (hsm : Small N (toMark l0))
    (hm : Within32 N (toMark l0)) (hfin : {m | N.toNet.Reach (toMark l0) m}.Finite) (e : ECfg) (ho : OrdOK e.ord)
    (o : Oracle) (hos : SoundSolver N (toMark l0) o) (cfg1 cfg2 : TCfg) (simp : SpotF → SpotF) (hs : SimpOK simp)
    (n depth f1 f2 f3 : Nat) (aut : Cond → Buchi) (reg : Cond → Key → Nat) (q r : Cond)
    (hr : simplifyLtl cfg1 cfg2 simp
      (chainMid ⟨N.deadlocked (toMark l0), toMark l0, true⟩ f1 f2 f3 (lpsStep o n N (toMark l0) depth))
      (chainLast ⟨N.deadlocked (toMark l0), toMark l0, true⟩) q = some r)
    (ha : (aut r).Simple) (k : Nat) (hk : (aut r).States k) (hq : QueryF q = true) (hw : (inner q).wf = true)
    (hp : PrintBoth N.ts cfg1 cfg2 simp
      (chainMid ⟨N.deadlocked (toMark l0), toMark l0, true⟩ f1 f2 f3 (lpsStep o n N (toMark l0) depth)) (inner q))
    (hex : ∀ c c1, spotSimplify cfg1 simp (inner q) = some c →
      pushNegation ⟨N.deadlocked (toMark l0), toMark l0, true⟩ f1 false false
        (RwCtx.rw ⟨N.deadlocked (toMark l0), toMark l0, true⟩ false c) = some c1 → exactC (toMark l0) c1 = true) :
    ∃ fuel, ∀ m, fuel ≤ m → (answerLtl e cfg1 cfg2 simp o n depth f1 f2 f3 N aut reg l0 m q).isSome = true := by
  rcases C89_program_shape N w (toMark l0) hm o hos cfg1 cfg2 simp hs f1 f2 f3 n depth q hq hw hp hex r hr with ⟨b, rfl⟩ | hqr
  · refine ⟨0, fun m _ => ?_⟩
    unfold answerLtl
    simp only [hr]
    rfl
  · obtain ⟨fuel, hf⟩ := C46_ltl_terminates e ho N w (aut r) ha (reg r) l0 hl hsm r hqr hfin k hk
    refine ⟨fuel, fun m hmf => ?_⟩
    unfold answerLtl
    simp only [hr]
    split
    · rename_i h; cases h
    · rfl
    · rename_i r' _ h
      cases h
      exact hf m hmf

/-! ### Non-vacuity -/

theorem net2_within : Within32 net2 (toMark [1, 0]) := by
  rw [mark2_list]
  intro m hm p
  rcases CtlEngineProps.net2_reach hm with rfl | rfl
  · unfold mark2; split <;> decide
  · unfold mark2'; split <;> decide

/-- the query as it is after the simplification -/
def exAF' : Cond := .A (.F (.cmp .eq (.id 1) (.lit 1)))

theorem exAF_simplified : simplifyLtl exT exT id
    (chainMid ⟨net2.deadlocked (toMark [1, 0]), toMark [1, 0], true⟩ 9 9 9 (lpsStep lazyOracle 50 net2 (toMark [1, 0]) 20))
    (chainLast ⟨net2.deadlocked (toMark [1, 0]), toMark [1, 0], true⟩) exAF = some exAF' := rfl

theorem exAF_engine : EngineFor (exCfg .tarjan) net2 autG (fun _ => 0) exAF' :=
  ⟨autG_simple, ⟨1, autG_states⟩, fun f neg h => exAF_spot .tarjan f neg h, fun f neg h => exAF_print .tarjan f neg h⟩

/-- The query "on all paths eventually p1 = 1" is simplified, given to the engine and answered. -/
theorem exAF_answer : answerLtl (exCfg .tarjan) exT exT id lazyOracle 50 20 9 9 9 net2 (fun _ => autG) (fun _ _ => 0) [1, 0] 40 exAF =
    some true := by
  unfold answerLtl
  simp only [exAF_simplified]
  decide +kernel

example (π : Nat → Mark) (hπ : net2.ts.IsPath π) (h0 : π 0 = toMark [1, 0]) : exAF.sat net2.ts π := by
  refine (C90_answer_partial net2 net2_wf [1, 0] rfl (by rw [mark2_list]; exact CtlEngineProps.net2_small) net2_within net2_finite
    (exCfg .tarjan) (fun _ _ => .refl _) (fun _ _ => rfl) lazyOracle (lazyOracle_sound _ _) exT exT id id_ok 50 20 9 9 9 40
    (fun _ => autG) (fun _ _ => 0) exAF (fun r hr _ => ?_) rfl rfl rfl ⟨?_, ?_⟩ ?_ true exAF_answer π hπ h0).1 rfl
  · rw [exAF_simplified] at hr
    cases hr
    exact exAF_engine
  · intro e he e' he' _ π _
    simp [toSpot, mkAp, exAF, exT, inner] at he he'
    rw [he, he']
  · intro c1 c2 h1 h2
    cases h1
    cases h2
    intro e he e' he' _ π _
    change e ∈ [(Key.txt "p", Cond.cmp .eq (.id 1) (.lit 1))] at he
    change e' ∈ [(Key.txt "p", Cond.cmp .eq (.id 1) (.lit 1))] at he'
    rw [List.mem_singleton] at he he'
    rw [he, he']
  · intro c c1 h1 h2
    cases h1
    cases h2
    rfl

example : ∃ fuel, ∀ m, fuel ≤ m →
    (answerLtl (exCfg .tarjan) exT exT id lazyOracle 50 20 9 9 9 net2 (fun _ => autG) (fun _ _ => 0) [1, 0] m exAF).isSome = true := by
  refine C90_answer_ends net2 net2_wf [1, 0] rfl (by rw [mark2_list]; exact CtlEngineProps.net2_small) net2_within net2_finite
    (exCfg .tarjan) (fun _ _ => .refl _) lazyOracle (lazyOracle_sound _ _) exT exT id id_ok 50 20 9 9 9
    (fun _ => autG) (fun _ _ => 0) exAF exAF' exAF_simplified autG_simple 1 autG_states rfl rfl ⟨?_, ?_⟩ ?_
  · intro e he e' he' _ π _
    simp [toSpot, mkAp, exAF, exT, inner] at he he'
    rw [he, he']
  · intro c1 c2 h1 h2
    cases h1
    cases h2
    intro e he e' he' _ π _
    change e ∈ [(Key.txt "p", Cond.cmp .eq (.id 1) (.lit 1))] at he
    change e' ∈ [(Key.txt "p", Cond.cmp .eq (.id 1) (.lit 1))] at he'
    rw [List.mem_singleton] at he he'
    rw [he, he']
  · intro c c1 h1 h2
    cases h1
    cases h2
    rfl

/-! ### Finding -/

theorem m0_eq : toMark [0] = fun _ => 0 := by
  funext p; match p with | 0 => rfl | p + 1 => rfl
/-- C90 (finding F133): the wrong simplification is printed as a wrong answer.  In the net of `C89_full_fails` the place can get a token, so
`EF (p0 = 1)` holds; the query is answered with "no" although the automaton handed to the engine is right. -/
theorem C90_finding_quantifier : answerLtl (exCfg .tarjan) exT exT id lazyOracle 50 20 9 9 9 netChoice (fun _ => autG) (fun _ _ => 0) [0] 40
      (.EF exTok) = some false ∧ EngineFor (exCfg .tarjan) netChoice autG (fun _ => 0) (.A (.F exTok)) ∧
    ∀ π, netChoice.ts.IsPath π → π 0 = toMark [0] → (Cond.EF exTok).sat netChoice.ts π := by
  refine ⟨?_, ⟨autG_simple, ⟨1, autG_states⟩, ?_, ?_⟩, fun π hπ h0 => C89_finding_chain.2.1 π hπ (h0.trans m0_eq)⟩
  · have h : simplifyLtl exT exT id (chainMid ⟨netChoice.deadlocked (toMark [0]), toMark [0], true⟩ 9 9 9 (lpsStep lazyOracle 50 netChoice (toMark [0]) 20))
        (chainLast ⟨netChoice.deadlocked (toMark [0]), toMark [0], true⟩) (.EF exTok) = some (.A (.F exTok)) := rfl
    unfold answerLtl
    simp only [h]
    decide +kernel
  · intro f neg h
    simp only [toLtl, exTok, valid, if_true, Prod.mk.injEq, Option.some.injEq] at h
    obtain ⟨rfl, rfl⟩ := h
    refine ⟨?_, fun v => ?_⟩
    · intro e he e' he' _
      simp [toSpot, mkAp, exCfg] at he he'
      rw [he, he']
    · rw [autG_lang]
      simp [toSpot, mkAp, exCfg, SpotF.sat]
  · intro f neg h
    simp only [toLtl, exTok, valid, if_true, Prod.mk.injEq, Option.some.injEq] at h
    obtain ⟨rfl, rfl⟩ := h
    intro e he e' he' _ π _
    simp [toSpot, mkAp, exCfg] at he he'
    rw [he, he']

end LTL
end Verif
