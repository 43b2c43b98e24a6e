import Verif.Synthesis.Net
import Verif.Synthesis.Print
import Verif.Props.CtlEngine

/-!
# C38, C47: controller synthesis

`Synth.synthesize N neg k permissive pick q l0 fuel` is the model of `SimpleSynthesis::synthesize` for the query
`control: q`: `k` is the token bound (0: none), `pick` the exploration order, `neg` what `pushNegation` makes of
a negation (C17).
-/

namespace Verif
namespace SynthProps
open Synth PQL CTL CtlEngineProps Examples

/-- Specification: the objective of a query, `none` if it has none: whether it is safety, and the goal. -/
def objective (N : FlatNet) : Cond → Option (Bool × (Mark → Prop))
  | .AG c | .A (.G c) => some (true, fun m => Sat N.ts m c)
  | .AF c | .A (.F c) => some (false, fun m => Sat N.ts m c)
  | .not (.EF c) | .not (.E (.F c)) => some (true, fun m => ¬ Sat N.ts m c)
  | .not (.EG c) | .not (.E (.G c)) => some (false, fun m => ¬ Sat N.ts m c)
  | _ => none

/-- Specification: the moves are the firings of controllable and other transitions; markings with more than
`k` tokens are lost (unless `k = 0`). -/
def game (N : FlatNet) (k : Nat) (goal : Mark → Prop) : Arena (List Nat) where
  env l l' := l'.length = N.nplaces ∧ ∃ t : Fin N.ntransitions, N.isCtrl t = false ∧
    N.toNet.Step (toMark l) t (toMark l')
  ctrl l l' := l'.length = N.nplaces ∧ ∃ t : Fin N.ntransitions, N.isCtrl t = true ∧
    N.toNet.Step (toMark l) t (toMark l')
  lost l := k ≠ 0 ∧ k < ((List.range N.nplaces).map (toMark l)).sum
  goal l := goal (toMark l)

/-- `neg c` is equivalent to the negation of `c` where it is used. -/
def NegOK (N : FlatNet) (k : Nat) (m0 : Mark) (neg : Cond → Cond) (q : Cond) : Prop :=
  ∀ c, (q = .not (.EF c) ∨ q = .not (.EG c) ∨ q = .not (.E (.F c)) ∨ q = .not (.E (.G c))) →
    ∀ m, Seen N k m0 m → (Sat N.ts m (neg c) ↔ ¬ Sat N.ts m c)

/-- In the markings seen that satisfy the goal, a controllable transition without effect is only enabled
together with environment transitions without effect. -/
def NeverIdle (N : FlatNet) (k : Nat) (m0 : Mark) (goal : Mark → Prop) : Prop :=
  ∀ m, Seen N k m0 m → Within N k m → goal m →
    (∃ t : Fin N.ntransitions, N.isCtrl t = true ∧ N.toNet.Step m t m) →
    ∀ (t : Fin N.ntransitions) m', N.isCtrl t = false → N.toNet.Step m t m' → m' = m

theorem getPredicate_spec {N : FlatNet} {k : Nat} {m0 : Mark} {neg : Cond → Cond} {q : Cond} (hn : NegOK N k m0 neg q)
    {s : Bool} {φ : Cond} (h : getPredicate neg q = some (s, φ)) :
    ∃ P, objective N q = some (s, P) ∧ ∀ m, Seen N k m0 m → (Sat N.ts m φ ↔ P m) := by
  unfold getPredicate at h
  split at h <;> simp only [Option.some.injEq, Prod.mk.injEq, reduceCtorEq] at h <;> obtain ⟨rfl, rfl⟩ := h
  · exact ⟨_, rfl, fun _ _ => Iff.rfl⟩
  · exact ⟨_, rfl, fun _ _ => Iff.rfl⟩
  · exact ⟨_, rfl, fun _ _ => Iff.rfl⟩
  · exact ⟨_, rfl, fun _ _ => Iff.rfl⟩
  · exact ⟨_, rfl, fun m hm => hn _ (Or.inl rfl) m hm⟩
  · exact ⟨_, rfl, fun m hm => hn _ (Or.inr (Or.inl rfl)) m hm⟩
  · exact ⟨_, rfl, fun m hm => hn _ (Or.inr (Or.inr (Or.inl rfl))) m hm⟩
  · exact ⟨_, rfl, fun m hm => hn _ (Or.inr (Or.inr (Or.inr rfl))) m hm⟩

theorem game_agrees {N : FlatNet} (w : N.WF) {k : Nat} {m0 : Mark} (hsm : SmallWithin N k m0) {s p : Bool} {pick}
    {φ : Cond} (hφ : φ.isTemporal = false) {P : Mark → Prop} (hP : ∀ m, Seen N k m0 m → (Sat N.ts m φ ↔ P m)) :
    Agrees (netGame N k s p pick φ) (game N k P) (SeenL N k m0) where
  env := (net_agrees w hsm hφ).env
  ctrl := (net_agrees w hsm hφ).ctrl
  envS := (net_agrees w hsm hφ).envS
  ctrlS := (net_agrees w hsm hφ).ctrlS
  lost l hl := by
    rw [over_iff hl.1]
    simp only [Within, tokens, game]
    omega
  goal l hl := (goal_iff w hφ).trans (hP _ hl.2)

/-- **C38**.  For every net, bound, query, initial marking, exploration order and number of steps: if the
synthesis ends with an answer, the query has an objective and the answer is 'satisfied' exactly when the controller has
a winning strategy for it; then it also has one that only looks at the current marking.

Restricted for safety objectives without `permissive` by `NeverIdle`; `C38_finding_idle_transition` shows that this
is needed. -/
theorem C38_synthesis_correct_partial (N : FlatNet) (w : N.WF) (neg : Cond → Cond) (k : Nat) (permissive : Bool)
    (pick : Nat → List (List Nat) → Nat) (q : Cond) (l0 : List Nat) (h0 : l0.length = N.nplaces)
    (hsm : SmallWithin N k (toMark l0)) (hneg : NegOK N k (toMark l0) neg q)
    (hidle : ∀ P, objective N q = some (true, P) → permissive = false → NeverIdle N k (toMark l0) P)
    (fuel : Nat) (b : Bool) (h : synthesize N neg k permissive pick q l0 fuel = some (.result b)) :
    ∃ s P, objective N q = some (s, P) ∧ (b = true ↔ (game N k P).Winning s l0) ∧
      (b = true ↔ (game N k P).WinningPos s l0) := by
  unfold synthesize at h
  cases hp : getPredicate neg q with
  | none => rw [hp] at h; cases h
  | some x =>
    obtain ⟨s, φ⟩ := x
    rw [hp] at h
    simp only at h
    split at h
    · cases h
    · rename_i ht
      have ht : φ.isTemporal = false := by simpa using ht
      obtain ⟨P, hob, hP⟩ := getPredicate_spec hneg hp
      cases hr : run (netGame N k s permissive pick φ) l0 fuel with
      | none => rw [hr] at h; cases h
      | some b' =>
        rw [hr] at h
        simp only [Option.map_some, Option.some.injEq, Out.result.injEq] at h
        subst h
        have hl0 : SeenL N k (toMark l0) l0 := ⟨h0, Or.inl rfl⟩
        have hi := net_noIdle w hsm (s := s) (p := permissive) (pick := pick) ht hl0 (fun hs hpp m hm hw hg =>
          hidle P (hs ▸ hob) hpp m hm hw ((hP m hm).1 hg))
        have hc := run_correct hi hr
        have hw := wins_iff (game_agrees w hsm (s := s) (p := permissive) (pick := pick) ht hP) hl0
        exact ⟨s, P, hob, hc.trans hw.1, hc.trans hw.2⟩

/-- C38 for reachability objectives and for `permissive`: no restriction. -/
theorem C38_synthesis_correct_reachability (N : FlatNet) (w : N.WF) (neg : Cond → Cond) (k : Nat) (permissive : Bool)
    (pick : Nat → List (List Nat) → Nat) (q : Cond) (l0 : List Nat) (h0 : l0.length = N.nplaces)
    (hsm : SmallWithin N k (toMark l0)) (hneg : NegOK N k (toMark l0) neg q)
    (hob : permissive = true ∨ ∃ P, objective N q = some (false, P))
    (fuel : Nat) (b : Bool) (h : synthesize N neg k permissive pick q l0 fuel = some (.result b)) :
    ∃ s P, objective N q = some (s, P) ∧ (b = true ↔ (game N k P).Winning s l0) ∧
      (b = true ↔ (game N k P).WinningPos s l0) := by
  refine C38_synthesis_correct_partial N w neg k permissive pick q l0 h0 hsm hneg (fun P hP hpp => ?_) fuel b h
  rcases hob with hob | ⟨P', hob⟩
  · rw [hpp] at hob; cases hob
  · rw [hob] at hP; cases hP

/-- C38: the error is raised exactly for the queries without objective and those with nested quantifiers. -/
theorem C38_errors (N : FlatNet) (neg : Cond → Cond) (k : Nat) (permissive : Bool)
    (pick : Nat → List (List Nat) → Nat) (q : Cond) (l0 : List Nat) (fuel : Nat) :
    synthesize N neg k permissive pick q l0 fuel = some .error ↔
      objective N q = none ∨ ∃ s φ, getPredicate neg q = some (s, φ) ∧ φ.isTemporal = true := by
  have hnone : getPredicate neg q = none ↔ objective N q = none := by
    unfold getPredicate objective
    split <;> simp_all
  unfold synthesize
  cases hp : getPredicate neg q with
  | none => simp [hnone.1 hp]
  | some x =>
    have hne : objective N q ≠ none := fun h => by rw [hnone.2 h] at hp; cases hp
    obtain ⟨s, φ⟩ := x
    simp only
    cases ht : φ.isTemporal with
    | true => simp [ht]
    | false =>
      simp only [Bool.false_eq_true, if_false, hne, false_or, Option.some.injEq, Prod.mk.injEq]
      constructor
      · intro h
        cases hr : run (netGame N k s permissive pick φ) l0 fuel <;> rw [hr] at h <;> cases h
      · rintro ⟨_, _, ⟨_, rfl⟩, h⟩
        rw [ht] at h; cases h

/-- C38: with a token bound the synthesis ends on every net, whatever the exploration order. -/
theorem C38_terminates_bounded (N : FlatNet) (neg : Cond → Cond) (k : Nat) (hk : 0 < k) (permissive : Bool)
    (pick : Nat → List (List Nat) → Nat) (q : Cond) (l0 : List Nat) (h0 : l0.length = N.nplaces) :
    ∃ fuel out, synthesize N neg k permissive pick q l0 fuel = some out := by
  unfold synthesize
  cases hp : getPredicate neg q with
  | none => exact ⟨0, _, rfl⟩
  | some x =>
    obtain ⟨s, φ⟩ := x
    simp only
    split
    · exact ⟨0, _, rfl⟩
    · obtain ⟨fuel, b, hb⟩ := net_run_bounded N hk (s := s) (p := permissive) (pick := pick) (φ := φ) h0
      exact ⟨fuel, .result b, by rw [hb]; rfl⟩

/-- C38: without a bound it ends if finitely many markings are reachable. -/
theorem C38_terminates_finite (N : FlatNet) (w : N.WF) (neg : Cond → Cond) (k : Nat) (permissive : Bool)
    (pick : Nat → List (List Nat) → Nat) (q : Cond) (l0 : List Nat) (h0 : l0.length = N.nplaces)
    (hsm : SmallWithin N k (toMark l0)) (hfin : {m | Seen N k (toMark l0) m}.Finite) :
    ∃ fuel out, synthesize N neg k permissive pick q l0 fuel = some out := by
  unfold synthesize
  cases hp : getPredicate neg q with
  | none => exact ⟨0, _, rfl⟩
  | some x =>
    obtain ⟨s, φ⟩ := x
    simp only
    split
    · exact ⟨0, _, rfl⟩
    · rename_i ht
      obtain ⟨fuel, b, hb⟩ := net_run_finite w hsm (s := s) (p := permissive) (pick := pick) (φ := φ)
        (by simpa using ht) ⟨h0, Or.inl rfl⟩ hfin
      exact ⟨fuel, .result b, by rw [hb]; rfl⟩

/-! ### Finding: controllable transitions without effect -/

/-- Controllable `t0` needs a token on place 0 and puts it back; `t1` of the environment moves it to place 1. -/
def idleNet : FlatNet where
  nplaces := 2
  ntransitions := 2
  ninvariants := 4
  transitions := [⟨0, 1⟩, ⟨2, 3⟩, ⟨4, 4⟩]
  invariants := [⟨0, 1, false, 0⟩, ⟨0, 1, false, 0⟩, ⟨0, 1, false, -1⟩, ⟨1, 1, false, 1⟩]
  placeToPtrs := [0, 2, 2]
  controllable := [true, false]

theorem idleNet_wf : idleNet.WF where
  places_pos := by decide
  len_trans := by decide
  len_inv := by decide
  len_ptr := by decide
  ptr_zero := by decide
  ptr_mono := by decide
  ptr_last := by decide
  in_out := by decide
  out_in := by decide
  last_in := by decide
  place_lt := by decide
  tokens_pos := by decide
  tokens_lt := by decide
  pre_nodup := by decide
  post_nodup := by decide
  block := by
    intro p t h1 h2 h3 h4
    have hp : p = 1 := by simp only [idleNet] at h2; omega
    subst hp
    simp [FlatNet.ptr, idleNet] at h3 h4; omega

/-- C38: false of the code.  The objective `AG true` is won by every strategy, but in the mode that the tool uses
(`permissive = false`) the answer is 'not satisfied': the self-loop
makes `fix_assignment` settle the marking while the environment's move still waits. -/
theorem C38_finding_idle_transition (neg : Cond → Cond) :
    synthesize idleNet neg 0 false (fun _ _ => 0) (.AG (.bool true)) [1, 0] 50 = some (.result false) ∧
    ∃ P, objective idleNet (.AG (.bool true)) = some (true, P) ∧ (game idleNet 0 P).Winning true [1, 0] := by
  constructor
  · have : run (netGame idleNet 0 true false (fun _ _ => 0) (.bool true)) [1, 0] 50 = some false := by decide +kernel
    simp [synthesize, getPredicate, Cond.isTemporal, this]
  · refine ⟨_, rfl, ?_⟩
    classical
    refine ⟨fun l => match l with
      | [] => []
      | s :: _ => if h : ∃ c, (game idleNet 0 (fun m => Sat idleNet.ts m (.bool true))).ctrl s c then h.choose else [], ?_, ?_⟩
    · intro s h hc
      simp only [hc, dite_true]
      exact hc.choose_spec
    · rw [if_pos rfl]
      intro ρ _ n
      refine ⟨fun h => h.1 rfl, ?_⟩
      intro π _ _
      simp [Cond.sat]

/-! ### Non-vacuity -/

theorem net2_seen {m : Mark} (h : Seen net2 0 mark2 m) : m = mark2 ∨ m = mark2' := by
  rcases h with rfl | ⟨ts, m', t, hr, hs⟩
  · exact Or.inl rfl
  · exact net2_reach (Net.Reach.step _ ⟨ts, hr.run⟩ hs)

theorem net2_smallWithin : SmallWithin net2 0 mark2 := by
  intro m hm p _
  rcases net2_seen hm with rfl | rfl
  · unfold mark2; split <;> decide
  · unfold mark2'; split <;> decide

theorem mark2_eq : toMark [1, 0] = mark2 := by
  funext p; match p with | 0 => rfl | 1 => rfl | p + 2 => rfl

/-- The controller of `net2` can move the token to place 1, and the engine finds that. -/
example : (game net2 0 (fun m => Sat net2.ts m (.cmp .le (.lit 1) (.id 1)))).WinningPos false [1, 0] := by
  have hr : synthesize net2 (fun c => c) 0 false (fun _ _ => 0) (.AF (.cmp .le (.lit 1) (.id 1))) [1, 0] 50 =
    some (.result true) := by
    have : run (netGame net2 0 false false (fun _ _ => 0) (.cmp .le (.lit 1) (.id 1))) [1, 0] 50 = some true := by
      decide +kernel
    simp [synthesize, getPredicate, Cond.isTemporal, this]
  obtain ⟨s, P, h1, _, h2⟩ := C38_synthesis_correct_reachability net2 net2_wf (fun c => c) 0 false (fun _ _ => 0)
    (.AF (.cmp .le (.lit 1) (.id 1))) [1, 0] rfl (by rw [mark2_eq]; exact net2_smallWithin)
    (by intro c hc; simp at hc) (Or.inr ⟨_, rfl⟩) 50 true hr
  simp only [objective, Option.some.injEq, Prod.mk.injEq] at h1
  obtain ⟨rfl, rfl⟩ := h1
  exact h2.1 rfl

/-- It can not avoid that: it has to move. -/
example : ¬ (game net2 0 (fun m => Sat net2.ts m (.cmp .le (.id 1) (.lit 0)))).Winning true [1, 0] := by
  have hr : synthesize net2 (fun c => c) 0 false (fun _ _ => 0) (.AG (.cmp .le (.id 1) (.lit 0))) [1, 0] 50 =
    some (.result false) := by
    have : run (netGame net2 0 true false (fun _ _ => 0) (.cmp .le (.id 1) (.lit 0))) [1, 0] 50 = some false := by
      decide +kernel
    simp [synthesize, getPredicate, Cond.isTemporal, this]
  obtain ⟨s, P, h1, h2, _⟩ := C38_synthesis_correct_partial net2 net2_wf (fun c => c) 0 false (fun _ _ => 0)
    (.AG (.cmp .le (.id 1) (.lit 0))) [1, 0] rfl (by rw [mark2_eq]; exact net2_smallWithin)
    (by intro c hc; simp at hc)
    (by
      intro P _ _ m _ _ _ _ t m' ht
      have : ∀ t : Fin net2.ntransitions, net2.isCtrl t = true := by decide
      rw [this t] at ht; cases ht) 50 false hr
  simp only [objective, Option.some.injEq, Prod.mk.injEq] at h1
  obtain ⟨rfl, rfl⟩ := h1
  intro hw
  exact absurd (h2.2 hw) (by simp)

/-! ## C47: the printed strategy -/

/-- Specification: the positions met before the goal when the controller only makes moves of the table. -/
inductive Meets (A : Arena (List Nat)) (rows : List (List Nat × List (List Nat))) (l0 : List Nat) : List Nat → Prop
  | root : Meets A rows l0 l0
  | env {s e} : Meets A rows l0 s → ¬ A.goal s → A.env s e → Meets A rows l0 e
  | ctrl {s c cs} : Meets A rows l0 s → ¬ A.goal s → (s, cs) ∈ rows → c ∈ cs → Meets A rows l0 c

/-- **C47** for reachability objectives.  If synthesis succeeds, then in every marking met when the controller only
makes printed moves (whatever the environment does, up to the goal) the controller can still win, and if it can
move at all, a move is printed; all printed moves are controllable ones that lead to markings from which it can
win. -/
theorem C47_printed_strategy_reachability_partial (N : FlatNet) (w : N.WF) (k : Nat) (permissive : Bool)
    (pick : Nat → List (List Nat) → Nat) (φ : Cond) (hφ : φ.isTemporal = false) (l0 : List Nat)
    (h0 : l0.length = N.nplaces) (hsm : SmallWithin N k (toMark l0)) (fuel : Nat)
    (hrun : run (netGame N k false permissive pick φ) l0 fuel = some true) (rows : List (List Nat × List (List Nat)))
    (h : strategy (netGame N k false permissive pick φ) l0 fuel = some rows)
    (l : List Nat) (hf : Meets (game N k (fun m => Sat N.ts m φ)) rows l0 l) :
    let A := game N k (fun m => Sat N.ts m φ)
    A.WinningPos false l ∧
    (¬ A.goal l → (∃ c, A.ctrl l c) → ∃ cs, (l, cs) ∈ rows ∧ cs ≠ [] ∧ ∀ c ∈ cs, A.ctrl l c ∧ A.WinningPos false c) := by
  intro A
  let G := netGame N k false permissive pick φ
  have hA : Agrees G A (SeenL N k (toMark l0)) := game_agrees w hsm hφ (fun _ _ => Iff.rfl)
  have hl0 : SeenL N k (toMark l0) l0 := ⟨h0, Or.inl rfl⟩
  have hidle : G.NoIdle l0 := by intro hs; cases hs
  have key : ∀ x, Meets A rows l0 x → SeenL N k (toMark l0) x ∧ Follows G rows l0 x := by
    intro x hx
    have ng : ∀ {y}, SeenL N k (toMark l0) y → ¬ A.goal y → G.goal y = false := by
      intro y hy hg
      cases hh : G.goal y with
      | false => rfl
      | true => exact absurd ((hA.goal y hy).1 hh) hg
    induction hx with
    | root => exact ⟨hl0, .root⟩
    | env hx hg he ih =>
      have ho := (printed_reach hidle rfl hrun h ih.2).1.not_over
      have he' := (hA.env _ ih.1 ho _).2 he
      exact ⟨hA.envS _ ih.1 ho _ he', .env ih.2 (ng ih.1 hg) he'⟩
    | ctrl hx hg hr hc ih =>
      have ho := (printed_reach hidle rfl hrun h ih.2).1.not_over
      exact ⟨hA.ctrlS _ ih.1 ho _ (printed_ctrl h hr _ hc), .ctrl ih.2 (ng ih.1 hg) hr hc⟩
  obtain ⟨hl, hf⟩ := key l hf
  have pos : ∀ x, SeenL N k (toMark l0) x → G.Reaches x → A.WinningPos false x := fun x hx hr =>
    (wins_iff hA hx).2.1 (by unfold Game.Wins; rw [if_neg (by simp [G, netGame])]; exact hr)
  obtain ⟨h1, h2⟩ := printed_reach hidle rfl hrun h hf
  refine ⟨pos l hl h1, fun hg hc => ?_⟩
  have hg' : G.goal l = false := by
    cases hh : G.goal l with
    | false => rfl
    | true => exact absurd ((hA.goal l hl).1 hh) hg
  have hc' : G.ctrl l ≠ [] := by
    obtain ⟨c, hc⟩ := hc
    have := (hA.ctrl l hl h1.not_over c).2 hc
    intro he; rw [he] at this; cases this
  obtain ⟨cs, r1, r2, r3⟩ := h2 hg' hc'
  refine ⟨cs, r1, r2, fun c hc => ?_⟩
  obtain ⟨i1, i2⟩ := r3 c hc
  exact ⟨(hA.ctrl l hl h1.not_over c).1 i1, pos c (hA.ctrlS l hl h1.not_over c i1) i2⟩

/-- `t0` moves the token from place 0 to place 1, `t1` back, `t2` from place 1 to place 2. -/
def cycNet : FlatNet where
  nplaces := 3
  ntransitions := 3
  ninvariants := 6
  transitions := [⟨0, 1⟩, ⟨2, 3⟩, ⟨4, 5⟩, ⟨6, 6⟩]
  invariants := [⟨0, 1, false, -1⟩, ⟨1, 1, false, 1⟩, ⟨1, 1, false, -1⟩, ⟨0, 1, false, 1⟩, ⟨1, 1, false, -1⟩,
    ⟨2, 1, false, 1⟩]
  placeToPtrs := [0, 1, 3, 3]
  controllable := [true, true, true]

/-- C47: false of the code.  For `AF` the printed strategy does not force the goal: moving the token to and fro
between places 0 and 1 follows it.  The entry of the initial marking is printed twice. -/
theorem C47_finding_printed_strategy_cycles :
    let G := netGame cycNet 0 false false (fun _ _ => 0) (.cmp .le (.lit 1) (.id 2))
    run G [1, 0, 0] 50 = some true ∧
    ∃ rows, strategy G [1, 0, 0] 50 = some rows ∧ ¬ (rows.map (·.1)).Nodup ∧
      ∃ ρ : Nat → List Nat, ρ 0 = [1, 0, 0] ∧
        ∀ n, G.goal (ρ n) = false ∧ ∃ cs, (ρ n, cs) ∈ rows ∧ ρ (n + 1) ∈ cs := by
  intro G
  refine ⟨by decide +kernel, [([1, 0, 0], [[0, 1, 0]]), ([0, 1, 0], [[1, 0, 0], [0, 0, 1]]), ([1, 0, 0], [[0, 1, 0]])],
    by decide +kernel, by decide, fun n => if n % 2 = 0 then [1, 0, 0] else [0, 1, 0], rfl, fun n => ?_⟩
  rcases Nat.mod_two_eq_zero_or_one n with h | h
  · have h' : (n + 1) % 2 = 1 := by omega
    simp only [h, h', if_pos, Nat.one_ne_zero, if_false]
    exact ⟨by decide +kernel, [[0, 1, 0]], by decide, by decide⟩
  · have h' : (n + 1) % 2 = 0 := by omega
    simp only [h, h', if_pos, Nat.one_ne_zero, if_false]
    exact ⟨by decide +kernel, [[1, 0, 0], [0, 0, 1]], by decide, by decide⟩

/-- From place 0 the controller moves the token to place 1 or to place 2; from place 2 the environment moves it to
place 3. -/
def badNet : FlatNet where
  nplaces := 4
  ntransitions := 3
  ninvariants := 6
  transitions := [⟨0, 1⟩, ⟨2, 3⟩, ⟨4, 5⟩, ⟨6, 6⟩]
  invariants := [⟨0, 1, false, -1⟩, ⟨1, 1, false, 1⟩, ⟨0, 1, false, -1⟩, ⟨2, 1, false, 1⟩, ⟨2, 1, false, -1⟩,
    ⟨3, 1, false, 1⟩]
  placeToPtrs := [0, 2, 2, 3, 3]
  controllable := [true, true, false]

/-- C47: false of the code.  For `AG` a move to a marking that has not been explored is printed beside a winning one,
and from there the environment leaves the goal. -/
theorem C47_finding_unsafe_move_printed :
    let G := netGame badNet 0 true false (fun _ _ => 0) (.cmp .le (.id 3) (.lit 0))
    run G [1, 0, 0, 0] 50 = some true ∧
    ∃ rows cs, strategy G [1, 0, 0, 0] 50 = some rows ∧ ([1, 0, 0, 0], cs) ∈ rows ∧ [0, 0, 1, 0] ∈ cs ∧
      [0, 0, 0, 1] ∈ G.env [0, 0, 1, 0] ∧ G.goal [0, 0, 0, 1] = false := by
  intro G
  exact ⟨by decide +kernel, [([1, 0, 0, 0], [[0, 1, 0, 0], [0, 0, 1, 0]])], [[0, 1, 0, 0], [0, 0, 1, 0]],
    by decide +kernel, by decide, by decide, by decide +kernel, by decide +kernel⟩

/-- Non-vacuity: in `net2` the entry of the initial marking is printed. -/
example : ∃ cs, ([1, 0], cs) ∈ [(([1, 0] : List Nat), [([0, 1] : List Nat)]), ([0, 1], [[1, 0]]), ([1, 0], [[0, 1]])] ∧
    cs ≠ [] ∧ ∀ c ∈ cs, (game net2 0 (fun m => Sat net2.ts m (.cmp .le (.lit 1) (.id 1)))).WinningPos false c := by
  have hA := (C47_printed_strategy_reachability_partial net2 net2_wf 0 false (fun _ _ => 0) (.cmp .le (.lit 1) (.id 1)) rfl
    [1, 0] rfl (by rw [mark2_eq]; exact net2_smallWithin) 50 (by decide +kernel)
    [([1, 0], [[0, 1]]), ([0, 1], [[1, 0]]), ([1, 0], [[0, 1]])] (by decide +kernel) [1, 0] .root).2
    (by
      intro h
      have := (goal_iff net2_wf (k := 0) (s := false) (p := false) (pick := fun _ _ => 0)
        (φ := .cmp .le (.lit 1) (.id 1)) (l := [1, 0]) rfl).2 h
      revert this; decide +kernel)
    ⟨[0, 1], rfl, ⟨0, by decide⟩, by decide, (FlatNet.checkPreset_iff net2_wf _ ⟨0, by decide⟩).1 (by decide), by
        funext p
        match p with
        | 0 => rfl
        | 1 => rfl
        | p + 2 => rfl⟩
  obtain ⟨cs, h1, h2, h3⟩ := hA
  exact ⟨cs, h1, h2, fun c hc => (h3 c hc).2⟩

end SynthProps
end Verif
