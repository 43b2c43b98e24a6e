import Verif.LTL.SpotBackLemmas
import Verif.PQL.NetTS

/-! # C89: simplification of LTL queries with spot -/

namespace Verif
namespace LTL
open PQL

theorem spotSimplify_path (cfg : TCfg) (simp : SpotF → SpotF) (c : Cond) (hc : PathF c = true) :
    spotSimplify cfg simp c = toPQL (toSpot cfg c []).2 (simp (toSpot cfg c []).1) := by
  cases c <;> first | rfl | cases hc

/-- **C89** `LTL::simplify` of a formula without quantifiers raises no exception, returns a formula without quantifiers, and this holds on
exactly the same paths, whatever spot's simplifier does within its contract and whichever options are set. -/
theorem C89_simplify (cfg : TCfg) (T : TS) (simp : SpotF → SpotF) (hs : SimpOK simp) (c : Cond) (hc : PathF c = true)
    (hp : PrintOK T cfg.print (toSpot cfg c []).2) :
    ∃ r, spotSimplify cfg simp c = some r ∧ PathF r = true ∧ ∀ π, T.IsPath π → (r.sat T π ↔ c.sat T π) := by
  rw [spotSimplify_path cfg simp c hc]
  exact back_spec hs hc hp

/-- **C89** The same for formulas with a quantifier in front; the quantifier stays. -/
theorem C89_simplify_quantified (cfg : TCfg) (T : TS) (simp : SpotF → SpotF) (hs : SimpOK simp) (c : Cond) (hc : PathF c = true)
    (hp : PrintOK T cfg.print (toSpot cfg c []).2) :
    (∃ r, spotSimplify cfg simp (.A c) = some (.A r) ∧ PathF r = true ∧ ∀ π, (Cond.A r).sat T π ↔ (Cond.A c).sat T π) ∧
    ∃ r, spotSimplify cfg simp (.E c) = some (.E r) ∧ PathF r = true ∧ ∀ π, (Cond.E r).sat T π ↔ (Cond.E c).sat T π := by
  obtain ⟨r, h1, h2, h3⟩ := C89_simplify cfg T simp hs c hc hp
  refine ⟨⟨r, by rw [spotSimplify, h1]; rfl, h2, fun π => ?_⟩, r, by rw [spotSimplify, h1]; rfl, h2, fun π => ?_⟩
  · simp only [Cond.sat]
    exact forall_congr' fun π' => forall_congr' fun hπ => imp_congr Iff.rfl (h3 π' hπ)
  · simp only [Cond.sat]
    exact exists_congr fun π' => and_congr_right fun hπ => and_congr Iff.rfl (h3 π' hπ)

/-- Specification: a rewriting of formulas without quantifiers that keeps their meaning on the paths from `m0`. -/
def MidOK (T : TS) (m0 : Mark) (f : Cond → Option Cond) : Prop :=
  ∀ c, PathF c = true → ∃ d, f c = some d ∧ PathF d = true ∧ ∀ π, T.IsPath π → π 0 = m0 → (d.sat T π ↔ c.sat T π)

/-- Specification: the texts of the propositions are not ambiguous in either call of spot. -/
def PrintBoth (T : TS) (cfg1 cfg2 : TCfg) (simp : SpotF → SpotF) (mid : Cond → Option Cond) (c : Cond) : Prop :=
  PrintOK T cfg1.print (toSpot cfg1 c []).2 ∧
  ∀ c1 c2, spotSimplify cfg1 simp c = some c1 → mid c1 = some c2 → PrintOK T cfg2.print (toSpot cfg2 c2 []).2

/-- Specification: the simplified query has the answer of the query. -/
def Kept (T : TS) (m0 : Mark) (q : Cond) (r : Option Cond) : Prop :=
  ∃ d, r = some d ∧ ∀ π, T.IsPath π → π 0 = m0 → (d.sat T π ↔ q.sat T π)

section
variable {cfg1 cfg2 : TCfg} {T : TS} {m0 : Mark} {simp : SpotF → SpotF} {mid last : Cond → Option Cond}
  (hs : SimpOK simp) (hm : MidOK T m0 mid) (hl : MidOK T m0 last)
include hs hm hl

/-- the four steps -/
theorem steps_keep (c : Cond) (hc : PathF c = true) (hp : PrintBoth T cfg1 cfg2 simp mid c) (all : Bool) :
    ∃ d, (spotSimplify cfg1 simp c).bind (fun c1 => (mid c1).bind fun c2 => (spotSimplify cfg2 simp c2).bind fun c3 =>
      (last c3).map fun c4 => wrap all c4) = some (wrap all d) ∧ ∀ π, T.IsPath π → π 0 = m0 → (d.sat T π ↔ c.sat T π) := by
  obtain ⟨c1, h1, p1, s1⟩ := C89_simplify cfg1 T simp hs c hc hp.1
  obtain ⟨c2, h2, p2, s2⟩ := hm c1 p1
  obtain ⟨c3, h3, p3, s3⟩ := C89_simplify cfg2 T simp hs c2 p2 (hp.2 c1 c2 h1 h2)
  obtain ⟨c4, h4, p4, s4⟩ := hl c3 p3
  refine ⟨c4, by simp only [h1, h2, h3, h4, Option.bind_some, Option.map_some], fun π hπ h0 => ?_⟩
  rw [s4 π hπ h0, s3 π hπ, s2 π hπ h0, s1 π hπ]

omit hs hm hl in
theorem wrap_sat (all : Bool) (c : Cond) (π : Nat → Mark) (hπ : T.IsPath π) :
    (wrap all c).sat T π ↔ (if all then Cond.A c else Cond.E c).sat T π := by
  cases c with
  | bool b =>
    cases all
    · simp only [wrap, Bool.false_eq_true, if_false, Cond.sat]
      exact ⟨fun h => ⟨π, hπ, rfl, h⟩, fun ⟨_, _, _, h⟩ => h⟩
    · simp only [wrap, if_true, Cond.sat]
      exact ⟨fun h _ _ _ => h, fun h => h π hπ rfl⟩
  | _ => rw [wrap]; intro b h; cases h

/-- **C89** (all quantifiers as formulas of their own) `simplify_ltl_query` keeps the answer of `A φ` in the initial marking. -/
theorem C89_query_A (c : Cond) (hc : PathF c = true) (hp : PrintBoth T cfg1 cfg2 simp mid c) :
    Kept T m0 (.A c) (simplifyLtl cfg1 cfg2 simp mid last (.A c)) := by
  obtain ⟨d, h1, h2⟩ := steps_keep hs hm hl c hc hp true
  refine ⟨wrap true d, h1, fun π hπ h0 => ?_⟩
  rw [wrap_sat true d π hπ]
  simp only [if_true, Cond.sat]
  exact forall_congr' fun π' => forall_congr' fun hπ' => forall_congr' fun h => h2 π' hπ' (h.trans h0)

/-- **C89** The same for `E φ`. -/
theorem C89_query_E (c : Cond) (hc : PathF c = true) (hp : PrintBoth T cfg1 cfg2 simp mid c) :
    Kept T m0 (.E c) (simplifyLtl cfg1 cfg2 simp mid last (.E c)) := by
  obtain ⟨d, h1, h2⟩ := steps_keep hs hm hl c hc hp false
  refine ⟨wrap false d, h1, fun π hπ h0 => ?_⟩
  rw [wrap_sat false d π hπ]
  simp only [Bool.false_eq_true, if_false, Cond.sat]
  exact exists_congr fun π' => and_congr_right fun hπ' => and_congr_right fun h => h2 π' hπ' (h.trans h0)

end

/-- The formula whose propositions the first call of spot sees. -/
def inner : Cond → Cond
  | .A c | .E c => c
  | .AF c | .EF c => .F c
  | .AG c | .EG c => .G c
  | .AU c d | .EU c d => .U c d
  | c => c

/-- **C89** in full: the answer of every LTL query stays. -/
def C89_full : Prop := ∀ (cfg1 cfg2 : TCfg) (T : TS) (m0 : Mark) (simp : SpotF → SpotF) (mid last : Cond → Option Cond) (q : Cond),
  SimpOK simp → MidOK T m0 mid → MidOK T m0 last → QueryF q = true → PrintBoth T cfg1 cfg2 simp mid (inner q) →
  Kept T m0 q (simplifyLtl cfg1 cfg2 simp mid last q)

/-- Queries that ask for one path by an operator of CTL. -/
def isExists : Cond → Bool
  | .EF _ | .EG _ | .EU _ _ => true
  | _ => false

/-- **C89** The answer of every LTL query other than `EF`, `EG` and `EU` stays.  (For these see `C89_finding_quantifier`.) -/
theorem C89_query_partial (cfg1 cfg2 : TCfg) (T : TS) (m0 : Mark) (simp : SpotF → SpotF) (mid last : Cond → Option Cond) (q : Cond)
    (hs : SimpOK simp) (hm : MidOK T m0 mid) (hl : MidOK T m0 last) (hq : QueryF q = true)
    (hp : PrintBoth T cfg1 cfg2 simp mid (inner q)) (he : isExists q = false) :
    Kept T m0 q (simplifyLtl cfg1 cfg2 simp mid last q) := by
  cases q with
  | A c => exact C89_query_A hs hm hl c hq hp
  | E c => exact C89_query_E hs hm hl c hq hp
  | AF c => exact C89_query_A hs hm hl (.F c) hq hp
  | AG c => exact C89_query_A hs hm hl (.G c) hq hp
  | AU c d => exact C89_query_A hs hm hl (.U c d) hq hp
  | EF c => cases he
  | EG c => cases he
  | EU c d => cases he
  | _ => cases hq

/-- C89 (finding F133): the quantifier of `EF`, `EG` and `EU` is lost: such queries are simplified to the same formula as the queries about
all paths.  There are no assumptions. -/
theorem C89_finding_quantifier (cfg1 cfg2 : TCfg) (simp : SpotF → SpotF) (mid last : Cond → Option Cond) (c d : Cond) :
    simplifyLtl cfg1 cfg2 simp mid last (.EF c) = simplifyLtl cfg1 cfg2 simp mid last (.A (.F c)) ∧
    simplifyLtl cfg1 cfg2 simp mid last (.EG c) = simplifyLtl cfg1 cfg2 simp mid last (.A (.G c)) ∧
    simplifyLtl cfg1 cfg2 simp mid last (.EU c d) = simplifyLtl cfg1 cfg2 simp mid last (.A (.U c d)) :=
  ⟨rfl, rfl, rfl⟩

/-- One place and two transitions: one does nothing, and the other puts a token on the place. -/
def netChoice : FlatNet where
  nplaces := 1
  ntransitions := 2
  ninvariants := 1
  transitions := [⟨0, 0⟩, ⟨0, 0⟩, ⟨1, 1⟩]
  invariants := [⟨0, 1, false, 1⟩]
  placeToPtrs := [0, 2]
  controllable := [true, true]

theorem netChoice_wf : netChoice.WF where
  places_pos := by decide
  len_trans := by decide
  len_inv := by decide
  len_ptr := by decide
  ptr_zero := by decide
  ptr_mono := by decide
  ptr_last := by decide
  in_out := by decide
  out_in := by decide
  last_in := by decide
  place_lt := by decide
  tokens_pos := by decide
  tokens_lt := by decide
  pre_nodup := by decide
  post_nodup := by decide
  block := by
    intro p t h1 h2 h3 h4
    simp only [netChoice] at h2
    omega

theorem netChoice_step (m : Mark) : netChoice.ts.step m m ∧ netChoice.ts.step m fun p => if p = 0 then m 0 + 1 else m p := by
  refine ⟨⟨⟨0, by decide⟩, ⟨fun p => ?_, fun p k h => ?_⟩, ?_⟩, ⟨⟨1, by decide⟩, ⟨fun p => ?_, fun p k h => ?_⟩, ?_⟩⟩
  · exact Nat.zero_le _
  · cases h
  · funext p; rfl
  · exact Nat.zero_le _
  · cases h
  · funext p
    by_cases h : p = 0
    · subst h; rfl
    · have h1 : netChoice.toNet.post ⟨1, by decide⟩ p = 0 := by
        have h2 : netChoice.postset 1 = [⟨0, 1, false, 1⟩] := rfl
        have h3 : ((0 : Nat) == p) = false := beq_eq_false_iff_ne.2 fun e => h e.symm
        simp only [FlatNet.toNet, h2, List.find?_cons, h3, List.find?_nil]
      simp only [h, if_false, Net.fire, h1]
      rfl

/-- "the place can get a token" -/
def exTok : Cond := .cmp .eq (.id 0) (.lit 1)
def exT : TCfg := ⟨.none, true, fun _ => false, fun _ => "p"⟩

theorem id_ok : SimpOK id := ⟨fun _ _ _ => Iff.rfl, fun _ _ h => h⟩
theorem some_ok (T : TS) (m0 : Mark) : MidOK T m0 some := fun c hc => ⟨c, rfl, hc, fun _ _ _ => Iff.rfl⟩

theorem exTok_print (T : TS) : PrintBoth T exT exT id some (.F exTok) := by
  have h : ∀ c, c = .F exTok → PrintOK T exT.print (toSpot exT c []).2 := by
    rintro c rfl e he e' he' _ π _
    simp [toSpot, mkAp, exTok, exT] at he he'
    rw [he, he']
  refine ⟨h _ rfl, fun c1 c2 h1 h2 => h c2 ?_⟩
  cases h1
  cases h2
  rfl

/-- C89 (finding F133): hence the full statement fails.  In the net above the place can get a token, but the simplified query says that it
gets one on all paths. -/
theorem C89_full_fails : ¬ C89_full := by
  intro h
  obtain ⟨d, h1, h2⟩ := h exT exT netChoice.ts (fun _ => 0) id some some (.EF exTok) id_ok (some_ok _ _) (some_ok _ _) rfl (exTok_print _)
  cases h1
  have hstay : netChoice.ts.IsPath fun _ _ => 0 := fun i => .inl (netChoice_step _).1
  have hgo : netChoice.ts.IsPath fun i p => if p = 0 then i else 0 := fun i => .inl (by
    have := (netChoice_step fun p => if p = 0 then i else 0).2
    have e : (fun p => if p = 0 then (if 0 = 0 then i else 0) + 1 else if p = 0 then i else 0) = fun p : Nat => if p = 0 then i + 1 else 0 := by
      funext p
      by_cases hp : p = 0 <;> simp [hp]
    rwa [e] at this)
  have h3 := (h2 _ hstay rfl).2 ⟨_, hgo, by funext p; simp, 1, by simp [exTok, Cond.sat, suffix, Expr.val, Cmp.holds]⟩
  obtain ⟨i, hi⟩ := h3 _ hstay rfl
  simp [Cond.sat, suffix, Expr.val, Cmp.holds] at hi

/-- The assumptions of `C89_query_partial` can be met; the answer of `A F (p0 = 1)` stays "no". -/
example : Kept netChoice.ts (fun _ => 0) (.AF exTok) (simplifyLtl exT exT id some some (.AF exTok)) ∧
    simplifyLtl exT exT id some some (.AF exTok) = some (.A (.F exTok)) :=
  ⟨C89_query_partial exT exT netChoice.ts _ id some some (.AF exTok) id_ok (some_ok _ _) (some_ok _ _) rfl (exTok_print _) rfl, rfl⟩

/-- A simplifier that does something: `F F f` becomes `F f`. -/
def simpFF : SpotF → SpotF
  | .F (.F f) => .F f
  | f => f

theorem simpFF_ok : SimpOK simpFF := by
  constructor
  · intro f v i
    unfold simpFF
    split
    · simp only [SpotF.sat]
      constructor
      · rintro ⟨j, h⟩
        exact ⟨j, 0, h⟩
      · rintro ⟨j, k, h⟩
        exact ⟨j + k, by rwa [← Nat.add_assoc]⟩
    · exact Iff.rfl
  · intro f k h
    unfold simpFF at h
    split at h
    · simpa [SpotF.keys] using h
    · exact h

example : spotSimplify exT simpFF (.E (.F (.F exTok))) = some (.E (.F exTok)) := rfl

end LTL
end Verif
