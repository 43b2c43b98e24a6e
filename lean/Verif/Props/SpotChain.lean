import Verif.LTL.SpotChain
import Verif.Props.SpotBack
import Verif.Props.Rewrite

/-! # C89: the simplification of LTL queries with the rewriting of the program between the calls of spot -/

namespace Verif
namespace LTL
open PQL RewriteProps

/-- Specification: if the step returns a formula, then this is an admissible formula without quantifiers that holds on the same paths from
`m0`. -/
def StepOK (T : TS) (m0 : Mark) (f : Cond → Option Cond) : Prop :=
  ∀ c d, PathF c = true → c.wf = true → f c = some d →
    PathF d = true ∧ d.wf = true ∧ ∀ π, T.IsPath π → π 0 = m0 → (d.sat T π ↔ c.sat T π)

theorem StepOK.bind {T : TS} {m0 : Mark} {f g : Cond → Option Cond} (hf : StepOK T m0 f) (hg : StepOK T m0 g) :
    StepOK T m0 fun c => (f c).bind g := by
  intro c d hc hw h
  obtain ⟨e, h1, h2⟩ := Option.bind_eq_some_iff.1 h
  obtain ⟨p1, w1, s1⟩ := hf c e hc hw h1
  obtain ⟨p2, w2, s2⟩ := hg e d p1 w1 h2
  exact ⟨p2, w2, fun π hπ h0 => (s2 π hπ h0).trans (s1 π hπ h0)⟩

section
variable (N : FlatNet) (w : N.WF) (m0 : Mark) (hm : Within32 N m0)
include w hm

/-- **C89** Pushing negations (with the initial marking) returns formulas without quantifiers for such formulas. -/
theorem C89_push (fuel : Nat) : StepOK N.ts m0 (pushNegation ⟨N.deadlocked m0, m0, true⟩ fuel false false) := by
  intro c d hc hw h
  have hd : N.deadlocked m0 = true ↔ N.ts.Dead m0 := (C02_deadlock_exact N w m0).trans (N.ts_dead m0).symm
  have hg := pushNegation_good (K := ⟨N.deadlocked m0, m0, true⟩) (within32_inv N) hd fuel false false c d h hw
  exact ⟨pushNegation_path _ fuel _ _ c d h hc, hg.wf, fun π hπ h0 => by
    simpa [xneg] using hg.sat π ⟨hπ, by rw [h0]; exact hm, fun _ _ => h0⟩⟩

/-- **C89** The look at the initial marking. -/
theorem C89_initial : StepOK N.ts m0 fun c => some (RwCtx.rw ⟨N.deadlocked m0, m0, true⟩ false c) := by
  intro c d hc hw h
  cases h
  have hd : N.deadlocked m0 = true ↔ N.ts.Dead m0 := (C02_deadlock_exact N w m0).trans (N.ts_dead m0).symm
  have hr : Rel N.ts (Within32 N) ⟨N.deadlocked m0, m0, true⟩ false c (fun π => c.sat N.ts π) False :=
    ⟨hw, False.elim, fun _ _ => Iff.rfl⟩
  have hg := Rel.rw hd hr
  exact ⟨rw_path hc, hg.wf, fun π hπ h0 => hg.sat π ⟨hπ, by rw [h0]; exact hm, fun _ _ => h0⟩⟩

theorem mid_ok (f1 f2 f3 : Nat) {lps : Cond → Option Cond} (hl : StepOK N.ts m0 lps) :
    StepOK N.ts m0 (chainMid ⟨N.deadlocked m0, m0, true⟩ f1 f2 f3 lps) :=
  (C89_initial N w m0 hm).bind ((C89_push N w m0 hm f1).bind (hl.bind ((C89_push N w m0 hm f2).bind (C89_push N w m0 hm f3))))

theorem chain_keep (cfg1 cfg2 : TCfg) (simp : SpotF → SpotF) (hs : SimpOK simp) (f1 f2 f3 : Nat) (lps : Cond → Option Cond)
    (hl : StepOK N.ts m0 lps) (c : Cond) (hc : PathF c = true) (hw : c.wf = true)
    (hp : PrintBoth N.ts cfg1 cfg2 simp (chainMid ⟨N.deadlocked m0, m0, true⟩ f1 f2 f3 lps) c) (all : Bool) (r : Cond)
    (h : (spotSimplify cfg1 simp c).bind (fun c1 => (chainMid ⟨N.deadlocked m0, m0, true⟩ f1 f2 f3 lps c1).bind fun c2 =>
      (spotSimplify cfg2 simp c2).bind fun c3 => (chainLast ⟨N.deadlocked m0, m0, true⟩ c3).map fun c4 => wrap all c4) = some r) :
    ∃ d, r = wrap all d ∧ PathF d = true ∧ ∀ π, N.ts.IsPath π → π 0 = m0 → (d.sat N.ts π ↔ c.sat N.ts π) := by
  obtain ⟨c1, h1, p1, s1⟩ := C89_simplify cfg1 N.ts simp hs c hc hp.1
  have w1 : c1.wf = true := back_wf hc hw (by rwa [spotSimplify_path cfg1 simp c hc] at h1)
  rw [h1, Option.bind_some, Option.bind_eq_some_iff] at h
  obtain ⟨c2, h2, h⟩ := h
  obtain ⟨p2, w2, s2⟩ := mid_ok N w m0 hm f1 f2 f3 hl c1 c2 p1 w1 h2
  obtain ⟨c3, h3, p3, s3⟩ := C89_simplify cfg2 N.ts simp hs c2 p2 (hp.2 c1 c2 h1 h2)
  have w3 : c3.wf = true := back_wf p2 w2 (by rwa [spotSimplify_path cfg2 simp c2 p2] at h3)
  rw [h3, Option.bind_some, Option.map_eq_some_iff] at h
  obtain ⟨c4, h4, rfl⟩ := h
  obtain ⟨p4, _, s4⟩ := C89_initial N w m0 hm c3 c4 p3 w3 h4
  exact ⟨c4, rfl, p4, fun π hπ h0 => by rw [s4 π hπ h0, s3 π hπ, s2 π hπ h0, s1 π hπ]⟩

/-- **C89** with the steps of the program.  For every well-formed LTL query other than `EF`, `EG` and `EU`: the formula that
`simplify_ltl_query` returns has the answer of the query in the initial marking.  The step with linear programs is a parameter (C22). -/
theorem C89_chain_partial (cfg1 cfg2 : TCfg) (simp : SpotF → SpotF) (hs : SimpOK simp) (f1 f2 f3 : Nat) (lps : Cond → Option Cond)
    (hl : StepOK N.ts m0 lps) (q : Cond) (hq : QueryF q = true) (hw : (inner q).wf = true)
    (hp : PrintBoth N.ts cfg1 cfg2 simp (chainMid ⟨N.deadlocked m0, m0, true⟩ f1 f2 f3 lps) (inner q)) (he : isExists q = false) (r : Cond)
    (h : simplifyLtl cfg1 cfg2 simp (chainMid ⟨N.deadlocked m0, m0, true⟩ f1 f2 f3 lps) (chainLast ⟨N.deadlocked m0, m0, true⟩) q = some r)
    (π : Nat → Mark) (hπ : N.ts.IsPath π) (h0 : π 0 = m0) : r.sat N.ts π ↔ q.sat N.ts π := by
  have hA : ∀ c, PathF c = true → c.wf = true → PrintBoth N.ts cfg1 cfg2 simp (chainMid ⟨N.deadlocked m0, m0, true⟩ f1 f2 f3 lps) c →
      simplifyLtl cfg1 cfg2 simp (chainMid ⟨N.deadlocked m0, m0, true⟩ f1 f2 f3 lps) (chainLast ⟨N.deadlocked m0, m0, true⟩) (.A c) = some r →
      (r.sat N.ts π ↔ (Cond.A c).sat N.ts π) := by
    intro c hc hw hp h
    obtain ⟨d, rfl, _, hd⟩ := chain_keep N w m0 hm cfg1 cfg2 simp hs f1 f2 f3 lps hl c hc hw hp true r h
    rw [wrap_sat true d π hπ]
    simp only [if_true, Cond.sat]
    exact forall_congr' fun π' => forall_congr' fun hπ' => forall_congr' fun h => hd π' hπ' (h.trans h0)
  cases q with
  | A c => exact hA c hq hw hp h
  | E c =>
    obtain ⟨d, rfl, _, hd⟩ := chain_keep N w m0 hm cfg1 cfg2 simp hs f1 f2 f3 lps hl c hq hw hp false r h
    rw [wrap_sat false d π hπ]
    simp only [Bool.false_eq_true, if_false, Cond.sat]
    exact exists_congr fun π' => and_congr_right fun hπ' => and_congr_right fun h => hd π' hπ' (h.trans h0)
  | AF c => exact hA (.F c) hq hw hp h
  | AG c => exact hA (.G c) hq hw hp h
  | AU c d => exact hA (.U c d) hq hw hp h
  | EF c => cases he
  | EG c => cases he
  | EU c d => cases he
  | _ => cases hq

/-- **C89** What is returned is a constant or again a path quantifier followed by an LTL formula. -/
theorem C89_chain_shape (cfg1 cfg2 : TCfg) (simp : SpotF → SpotF) (hs : SimpOK simp) (f1 f2 f3 : Nat) (lps : Cond → Option Cond)
    (hl : StepOK N.ts m0 lps) (q : Cond) (hq : QueryF q = true) (hw : (inner q).wf = true)
    (hp : PrintBoth N.ts cfg1 cfg2 simp (chainMid ⟨N.deadlocked m0, m0, true⟩ f1 f2 f3 lps) (inner q)) (r : Cond)
    (h : simplifyLtl cfg1 cfg2 simp (chainMid ⟨N.deadlocked m0, m0, true⟩ f1 f2 f3 lps) (chainLast ⟨N.deadlocked m0, m0, true⟩) q = some r) :
    (∃ b, r = .bool b) ∨ QueryF r = true := by
  have hwrap : ∀ all d, PathF d = true → (∃ b, wrap all d = .bool b) ∨ QueryF (wrap all d) = true := by
    intro all d hd
    cases d <;> first | exact .inl ⟨_, rfl⟩ | (right; cases all <;> exact hd)
  have key : ∀ all c, PathF c = true → c.wf = true →
      PrintBoth N.ts cfg1 cfg2 simp (chainMid ⟨N.deadlocked m0, m0, true⟩ f1 f2 f3 lps) c →
      (spotSimplify cfg1 simp c).bind (fun c1 => (chainMid ⟨N.deadlocked m0, m0, true⟩ f1 f2 f3 lps c1).bind fun c2 =>
        (spotSimplify cfg2 simp c2).bind fun c3 => (chainLast ⟨N.deadlocked m0, m0, true⟩ c3).map fun c4 => wrap all c4) = some r →
      (∃ b, r = .bool b) ∨ QueryF r = true := by
    intro all c hc hw hp h
    obtain ⟨d, rfl, hd, _⟩ := chain_keep N w m0 hm cfg1 cfg2 simp hs f1 f2 f3 lps hl c hc hw hp all r h
    exact hwrap all d hd
  cases q with
  | A c => exact key true c hq hw hp h
  | E c => exact key false c hq hw hp h
  | AF c => exact key true (.F c) hq hw hp h
  | AG c => exact key true (.G c) hq hw hp h
  | AU c d => exact key true (.U c d) hq hw hp h
  | EF c => exact key true (.F c) hq hw hp h
  | EG c => exact key true (.G c) hq hw hp h
  | EU c d => exact key true (.U c d) hq hw hp h
  | _ => cases hq

end

/-- The steps return formulas: `E ¬ G ¬ (p0 = 1)` becomes `E F (p0 = 1)`, and `A (p0 = 0)` is decided in the initial marking. -/
example : simplifyLtl exT exT id (chainMid ⟨netChoice.deadlocked fun _ => 0, fun _ => 0, true⟩ 9 9 9 some)
      (chainLast ⟨netChoice.deadlocked fun _ => 0, fun _ => 0, true⟩) (.E (.not (.G (.not exTok)))) = some (.E (.F exTok)) ∧
    simplifyLtl exT exT id (chainMid ⟨netChoice.deadlocked fun _ => 0, fun _ => 0, true⟩ 9 9 9 some)
      (chainLast ⟨netChoice.deadlocked fun _ => 0, fun _ => 0, true⟩) (.A (.cmp .eq (.id 0) (.lit 0))) = some (.bool true) :=
  ⟨rfl, rfl⟩

/-- C89 (finding F133) with the steps of the program: `EF (p0 = 1)` becomes `A F (p0 = 1)`. -/
theorem C89_finding_chain :
    simplifyLtl exT exT id (chainMid ⟨netChoice.deadlocked fun _ => 0, fun _ => 0, true⟩ 9 9 9 some)
      (chainLast ⟨netChoice.deadlocked fun _ => 0, fun _ => 0, true⟩) (.EF exTok) = some (.A (.F exTok)) ∧
    (∀ π, netChoice.ts.IsPath π → π 0 = (fun _ => 0) → (Cond.EF exTok).sat netChoice.ts π) ∧
    ∀ π, netChoice.ts.IsPath π → π 0 = (fun _ => 0) → ¬ (Cond.A (.F exTok)).sat netChoice.ts π := by
  have hstay : netChoice.ts.IsPath fun _ _ => 0 := fun i => .inl (netChoice_step _).1
  have hgo : netChoice.ts.IsPath fun i p => if p = 0 then i else 0 := fun i => .inl (by
    have := (netChoice_step fun p => if p = 0 then i else 0).2
    have e : (fun p => if p = 0 then (if 0 = 0 then i else 0) + 1 else if p = 0 then i else 0) = fun p : Nat => if p = 0 then i + 1 else 0 := by
      funext p
      by_cases hp : p = 0 <;> simp [hp]
    rwa [e] at this)
  refine ⟨rfl, fun π _ h0 => ?_, fun π _ h0 h => ?_⟩
  · exact ⟨_, hgo, by rw [h0]; funext p; simp, 1, by simp [exTok, Cond.sat, suffix, Expr.val, Cmp.holds]⟩
  · obtain ⟨i, hi⟩ := h _ hstay h0.symm
    simp [exTok, Cond.sat, suffix, Expr.val, Cmp.holds] at hi

end LTL
end Verif
