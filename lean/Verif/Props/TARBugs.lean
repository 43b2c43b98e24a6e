import Verif.Props.TAR

/-!
# C56, C57, C59: where the trace-abstraction-refinement engine goes wrong, and examples

`RangeContext` overwrites a range computed before when it comes to a conjunction of constraints on the same place;
`RangeEvalContext` compares a lower bound with the wrong side of a constraint; a query comparing two places for equality is
never decided unless it holds in the initial marking or the first sequence tried reaches it.
-/

namespace Verif
namespace TARProps
open PQL TAR Solver

/-- Two places; the only transition takes a token from the first. -/
def nA : FlatNet where
  nplaces := 2
  ntransitions := 1
  ninvariants := 1
  transitions := [⟨0, 1⟩, ⟨1, 1⟩]
  invariants := [⟨0, 1, false, -1⟩]
  placeToPtrs := [0, 1, 1]
  controllable := [true]

/-- Three tokens on the first place and one on the second. -/
def mA : Nat → Nat := fun p => if p = 0 then 3 else if p = 1 then 1 else 0

theorem nA_wf : nA.WF where
  places_pos := by decide
  len_trans := by decide
  len_inv := by decide
  len_ptr := by decide
  ptr_zero := by decide
  ptr_mono := by decide
  ptr_last := by decide
  in_out := by decide
  out_in := by decide
  last_in := by decide
  place_lt := by decide
  tokens_pos := by decide
  tokens_lt := by decide
  pre_nodup := by decide
  post_nodup := by decide
  block := by
    intro p t h1 h2 h3 h4
    have hp : p = 1 := by simp only [nA] at h2; omega
    subst hp
    simp [FlatNet.ptr, nA] at h3 h4; omega

theorem nA_tar : TarNet nA where
  wf := nA_wf
  dir := by
    intro t i hi
    have ht : t = ⟨0, by decide⟩ := by ext; have := t.2; simp only [nA] at this; simp only; omega
    subst ht
    have : i = ⟨0, 1, false, -1⟩ := by
      rcases hi with hi | hi
      · have : nA.preset 0 = [⟨0, 1, false, -1⟩] := by decide
        exact List.mem_singleton.1 (this ▸ hi)
      · have : nA.postset 0 = [] := by decide
        exact absurd (this ▸ hi) (by simp)
    subst this
    decide
  sorted := by
    intro t ht
    have ht : t = 0 := by simp only [nA] at ht; omega
    subst ht
    decide

theorem nA_noInh : ∀ t < nA.ntransitions, ∀ a ∈ nA.preset t, a.inhibitor = false := by decide

theorem nA_step (m : Nat → Nat) (h : 1 ≤ m 0) : nA.toNet.Step m ⟨0, by decide⟩ (fun p => if p = 0 then m 0 - 1 else m p) := by
  rw [step_iff_fire (nA_tar.ok nA_noInh)]
  have h1 : nA.preset 0 = [⟨0, 1, false, -1⟩] := by decide
  have h2 : nA.postset 0 = [] := by decide
  have hp : ∀ p, pre nA 0 p = if p = 0 then 1 else 0 := by
    intro p
    unfold pre
    rw [h1]
    by_cases hp : p = 0
    · subst hp; rfl
    · rw [if_neg hp]
      have : ((0 : Nat) == p) = false := by simpa using fun h => hp h.symm
      simp [arcSum, this]
  refine ⟨by decide, fun p => ?_, ?_⟩
  · show pre nA 0 p ≤ m p
    rw [hp]; split
    · rename_i h'; subst h'; exact h
    · exact Nat.zero_le _
  · funext p
    show _ = m p - pre nA 0 p + post nA 0 p
    unfold post
    rw [hp, h2]
    by_cases hp : p = 0
    · subst hp; simp [arcSum]
    · simp [arcSum, hp]

/-- At most one token on the first place, or five and one on the second. -/
def qA : Cond := .or [.cc [⟨0, 2, rmax⟩] true, .cc [⟨0, 5, rmax⟩, ⟨1, 1, rmax⟩] false]

/-! ## Non-vacuity -/

/-- C55: a trace of two firings is returned. -/
example : reachable nA mA (.cc [⟨0, 2, rmax⟩] true) (fun _ _ => 0) (fun _ _ => (true, 0)) 40 = .ok (.satisfied [1, 1, 0]) := by
  decide +kernel

/-- C56: four tokens cannot be reached; the hypotheses hold. -/
example : reachable nA mA (.cc [⟨0, 4, rmax⟩] false) (fun _ _ => 0) (fun _ _ => (true, 0)) 40 = .ok .notSatisfied ∧
    QOK nA.nplaces (.cc [⟨0, 4, rmax⟩] false) ∧ rcSafe (fun _ => false) (.cc [⟨0, 4, rmax⟩] false) = true ∧
    reSafe (fun _ => false) (.cc [⟨0, 4, rmax⟩] false) = true ∧
    evaluate (nA.deadlocked fun _ => 0) (fun _ => 0) (.cc [⟨0, 4, rmax⟩] false) ≠ .rTrue :=
  ⟨by decide +kernel, by
    intro c hc
    rw [List.mem_singleton.1 hc]; decide, by decide, by decide, by decide +kernel⟩

/-- C57 and C58: the predicate for "four tokens" is "at most three", before the firing "at most four". -/
example : computeTerminal ⟨nA, mA, .cc [⟨0, 4, rmax⟩] false, fun p => p == 0⟩ ⟨some 1, fun p => mA p, fun p => if p = 0 then 2 else 1, fun _ => false⟩ 0 =
      .ok (true, [⟨0, ⟨0, 3⟩⟩]) ∧
    computeHoare ⟨nA, mA, .cc [⟨0, 4, rmax⟩] false, fun p => p == 0⟩ [1, 0] 1 [⟨0, ⟨0, 3⟩⟩] =
      .ok ([([⟨0, ⟨0, 4⟩⟩], 1), ([⟨0, ⟨0, 3⟩⟩], 0)], none) ∧
    computeTerminal ⟨nA, mA, .cc [⟨0, 4, rmax⟩] false, fun p => p == 0⟩ ⟨some 1, fun _ => 0, fun _ => 0, fun _ => false⟩ 1 =
      .ok (true, [⟨0, ⟨0, 0⟩⟩]) := by
  decide +kernel

/-! ## C56: a wrong answer -/

/-- **C56** (refuted).  The engine answers "not satisfied" although firing the transition twice satisfies the query. -/
theorem C56_wrong : TarNet nA ∧ QOK nA.nplaces qA ∧
    reachable nA mA qA (fun _ _ => 0) (fun _ _ => (true, 0)) 40 = .ok .notSatisfied ∧
    ∃ m, nA.toNet.Run mA [⟨0, by decide⟩, ⟨0, by decide⟩] m ∧ (∀ p, m p ≤ rmax) ∧ evaluate (nA.deadlocked m) m qA = .rTrue := by
  refine ⟨nA_tar, ?_, by decide +kernel, _, .cons (nA_step mA (by decide)) (.cons (nA_step _ (by decide)) (.nil _)), ?_,
    by decide +kernel⟩
  · refine ⟨?_, ?_, trivial⟩
    · intro c hc; rw [List.mem_singleton.1 hc]; decide
    · intro c hc
      rcases List.mem_cons.1 hc with rfl | hc
      · decide
      · rw [List.mem_singleton.1 hc]; decide
  · intro p
    unfold mA rmax
    split
    · decide
    · split <;> omega

/-! ## C57: ranges overwritten -/

/-- **C57** (refuted).  Around the marking with three tokens and one the predicate computed for `qA` is "at most four on the
first place": the bound "at least two" is gone, and the empty marking, where the query holds, satisfies it. -/
theorem C57_overwritten : computeTerminal ⟨nA, mA, qA, fun _ => true⟩ ⟨some 0, fun p => mA p, mA, fun _ => false⟩ 0 =
      .ok (true, [⟨0, ⟨0, 4⟩⟩]) ∧
    evaluate (nA.deadlocked mA) mA qA ≠ .rTrue ∧
    Sat [⟨0, ⟨0, 4⟩⟩] (fun _ => 0) ∧ evaluate (nA.deadlocked fun _ => 0) (fun _ => 0) qA = .rTrue := by
  refine ⟨by decide +kernel, by decide +kernel, ?_, by decide +kernel⟩
  intro r hr
  rw [List.mem_singleton.1 hr]
  decide

/-- **C57** (refuted, the other visitor).  `RangeEvalContext` takes the second conjunction as excluded because the lower bound
found for the first, three, is above *its lower bound*; with three tokens the query holds. -/
theorem C57_lowerCheck : (ECtx.cond ⟨[⟨0, ⟨4, rmax⟩⟩], fun _ => 1⟩ (.or [.cc [⟨0, 0, 2⟩] false, .cc [⟨0, 1, 3⟩] false])
        ⟨[], true, 0, []⟩).toOption.map (fun r => (r.res, r.suff)) = some (false, [⟨0, ⟨3, rmax⟩⟩]) ∧
    Sat [⟨0, ⟨3, rmax⟩⟩] (fun _ => 3) ∧
    evaluate (nA.deadlocked fun _ => 3) (fun _ => 3) (.or [.cc [⟨0, 0, 2⟩] false, .cc [⟨0, 1, 3⟩] false]) = .rTrue := by
  refine ⟨by decide +kernel, ?_, by decide +kernel⟩
  intro r hr
  rw [List.mem_singleton.1 hr]
  decide

/-! ## C59: no answer -/

/-- As many tokens on the first place as on the second. -/
def qE : Cond := .cmp .eq (.id 0) (.id 1)

/-- The data of the check for `qE`. -/
def sE : Solver := ⟨nA, mA, qE, fun p => condUse p qE⟩

theorem run_trace (use : Nat → Bool) (h : use 0 = true) (rand : Nat → Nat) (r fuel : Nat) :
    runTAR nA (TraceSet.init 2) use rand (fuel + 1) 0 [] [⟨r, 0, (TraceSet.init 2).maximize (TraceSet.init 2).initial⟩] =
      .ok (.trace [0]) := by
  have he : SState.edge nA.ntransitions ⟨r, 0, (TraceSet.init 2).maximize (TraceSet.init 2).initial⟩ = 0 := rfl
  have hd : ∃ x, doStep nA (TraceSet.init 2) ((TraceSet.init 2).maximize (TraceSet.init 2).initial) 0 = some x :=
    Option.isSome_iff_exists.1 (by decide +kernel)
  obtain ⟨x, hx⟩ := hd
  simp only [runTAR, he, h, hx]
  simp [he]

theorem ff_sE : ∃ f : Failure, (∀ b d, findFailure sE b d [0] = .ok { f with dirty := fun p => d p || (decide (p < nA.nplaces) && decide ((mA p : Int) < 0)) }) ∧
    f.at? = some 0 := by
  refine ⟨⟨some 0, fun p => mA p, fun p => ((mA p : Int)).toNat, fun _ => false⟩, fun b d => ?_, rfl⟩
  unfold findFailure
  rw [ffLoop]
  have h1 : ((List.range sE.net.nplaces).any fun p => decide ((fun p => (sE.m0 p : Int)) p ≥ rmax)) = false := by decide +kernel
  have h2 : evaluateSet (sE.net.deadlocked fun p => ((fun p => (sE.m0 p : Int)) p).toNat) (fun p => ((fun p => (sE.m0 p : Int)) p).toNat) sE.query ≠ .rTrue := by
    decide +kernel
  rw [if_neg (by rw [h1]; decide)]
  dsimp only
  rw [if_neg h2]
  rfl

theorem check_sE (junk : Nat → Bool × Int) (fuel : Nat) (ts : TraceSet) :
    check sE junk (fuel + 1) ts [0] = .ok (ts, false) ∧ check sE junk 0 ts [0] = .error .timeout := by
  obtain ⟨f, hf, h0⟩ := ff_sE
  have hc : ∀ C s, RCtx.cond C sE.query s = .ok (s.1, true) := fun _ _ => rfl
  constructor <;>
  · simp [check, findFree, hf, h0, bind, Except.bind, pure, Except.pure, computeTerminal, hc, refine]

theorem tryLoop_sE (rand : Nat → Nat → Nat) (junk : Nat → Nat → Bool × Int) : ∀ (fuel k : Nat) (u : Uses), u.trans 0 = true →
    tryLoop sE rand junk fuel k u (TraceSet.init 2) = .error .timeout := by
  intro fuel
  induction fuel with
  | zero => intro k u _; rfl
  | succ fuel ih =>
    intro k u hu
    rw [tryLoop]
    cases fuel with
    | zero => rfl
    | succ fuel =>
      rw [show sE.net = nA from rfl, run_trace u.trans hu]
      simp only [bind, Except.bind, (check_sE (junk k) fuel _).1]
      exact ih (k + 1) u hu

/-- **C59** (refuted).  The engine is not complete, even where it could stop: firing the transition twice satisfies the query,
but whatever the random numbers and however many steps are taken there is no answer. -/
theorem C59_noAnswer : (∃ m, nA.toNet.Run mA [⟨0, by decide⟩, ⟨0, by decide⟩] m ∧ evaluate (nA.deadlocked m) m qE = .rTrue) ∧
    ∀ (rand : Nat → Nat → Nat) (junk : Nat → Nat → Bool × Int) (fuel : Nat),
      reachable nA mA qE rand junk fuel = .error .timeout := by
  refine ⟨⟨_, .cons (nA_step mA (by decide)) (.cons (nA_step _ (by decide)) (.nil _)), by decide +kernel⟩, fun rand junk fuel => ?_⟩
  unfold reachable
  rw [if_neg (by decide), if_neg (by decide +kernel)]
  have : tryReach ⟨nA, mA, qE, fun p => condUse p qE⟩ rand junk fuel = .error .timeout :=
    tryLoop_sE rand junk fuel 0 _ (by decide +kernel)
  rw [this]
  rfl

end TARProps
end Verif
