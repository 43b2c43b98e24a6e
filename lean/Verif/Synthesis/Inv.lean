import Verif.Synthesis.Model

/-! # Synthesis: winning regions and the loop invariant -/

namespace Verif
namespace Synth

variable {σ : Type}

/-- The markings from which the controller can force a goal (least fixed point). -/
inductive Game.Reaches (G : Game σ) : σ → Prop
  | goal (s : σ) : G.over s = false → G.goal s = true → G.Reaches s
  | env (s : σ) : G.over s = false → (∀ e ∈ G.env s, G.Reaches e) → G.ctrl s = [] → G.env s ≠ [] →
      G.Reaches s
  | ctrl (s c : σ) : G.over s = false → (∀ e ∈ G.env s, G.Reaches e) → c ∈ G.ctrl s → G.Reaches c →
      G.Reaches s

/-- The markings from which the environment can force a bad marking (least fixed point). -/
inductive Game.Unsafe (G : Game σ) : σ → Prop
  | bad (s : σ) : (G.over s = true ∨ G.goal s = false) → G.Unsafe s
  | env (s e : σ) : e ∈ G.env s → G.Unsafe e → G.Unsafe s
  | ctrl (s : σ) : G.ctrl s ≠ [] → (∀ c ∈ G.ctrl s, G.Unsafe c) → G.Unsafe s

/-- The controller wins from `s`. -/
def Game.Wins (G : Game σ) (s : σ) : Prop :=
  if G.safety then ¬ G.Unsafe s else G.Reaches s

/-- Reachability in the game graph through markings within the bound. -/
inductive Game.Reach (G : Game σ) (m0 : σ) : σ → Prop
  | refl : G.Reach m0 m0
  | env {s e : σ} : G.Reach m0 s → G.over s = false → e ∈ G.env s → G.Reach m0 e
  | ctrl {s e : σ} : G.Reach m0 s → G.over s = false → e ∈ G.ctrl s → G.Reach m0 e

def Active (v : CState) : Prop := v = .processed ∨ v = .maybe

instance (v : CState) : Decidable (Active v) := by unfold Active; infer_instance

set_option linter.unusedSectionVars false

variable [DecidableEq σ]

/-- What justifies the value `winning`. -/
def WinJ (G : Game σ) (st : Store σ) (s : σ) : Prop :=
  if G.safety then
    G.over s = false ∧ G.goal s = true ∧ (∀ e ∈ G.env s, (st e).state = .winning ∨ e = s) ∧
      (G.ctrl s = [] ∨ ∃ c ∈ G.ctrl s, (st c).state = .winning ∨ c = s)
  else G.Reaches s ∧ (G.goal s = true ∨ ((∀ e ∈ G.env s, (st e).state = .winning) ∧
    (G.ctrl s = [] ∨ ∃ c ∈ G.ctrl s, (st c).state = .winning)))

/-- What justifies the value `losing`. -/
def LoseJ (G : Game σ) (st : Store σ) (s : σ) : Prop :=
  if G.safety then G.Unsafe s
  else G.over s = true ∨ (G.goal s = false ∧
    ((∃ e ∈ G.env s, (st e).state = .losing ∨ e = s) ∨
     (G.ctrl s ≠ [] ∧ ∀ c ∈ G.ctrl s, (st c).state = .losing ∨ c = s) ∨
     (G.env s = [] ∧ G.ctrl s = [])))

/-- What holds of an undetermined configuration whose successors have been generated. `eP` and `cP`
are the environment and controller successors that have not been reported back. -/
structure Act (G : Game σ) (st : Store σ) (deps : σ → List (Bool × σ)) (queue back : List σ)
    (s : σ) (eP cP : List σ) : Prop where
  envC : (st s).envC = eP.length
  ctrlC : (st s).ctrlC = cP.length
  eCount : ∀ x, eP.count x = (deps x).count (false, s)
  cCount : ∀ x, cP.count x = (deps x).count (true, s)
  eSub : ∀ e ∈ eP, e ∈ G.env s
  cSub : ∀ c ∈ cP, c ∈ G.ctrl s
  env : ∀ e ∈ G.env s, (st e).state = .winning ∨ (G.safety = true ∧ e = s) ∨ e ∈ eP
  ePend : ∀ e ∈ eP, ((st e).state.det = true → e ∈ back) ∧
    ((st e).state = .unknown → e ∈ queue)
  proc : (st s).state = .processed → cP ≠ [] ∧
    (∀ c ∈ G.ctrl s, (st c).state = .losing ∨ (G.safety = false ∧ c = s) ∨ c ∈ cP) ∧
    (∀ c ∈ cP, ((st c).state.det = true → c ∈ back) ∧ ((st c).state = .unknown → c ∈ queue))
  may : (st s).state = .maybe → (G.ctrl s = [] ∧ G.env s ≠ [] ∨
      (∃ c ∈ G.ctrl s, (st c).state = .winning) ∨ (G.safety = true ∧ s ∈ G.ctrl s)) ∧
    (G.safety = false → eP ≠ [])

/-- The loop invariant.  `deps` are the depender entries that have not been handled. -/
structure Inv (G : Game σ) (m0 : σ) (st : Store σ) (deps : σ → List (Bool × σ))
    (queue back : List σ) : Prop where
  fresh : ∀ s, (st s).known = false → (st s).state = .unknown ∧ (st s).waiting = 0 ∧ deps s = []
  reach : ∀ s, (st s).known = true → G.Reach m0 s
  base : ∀ s, (st s).known = true → (st s).state.det = false → G.init0 s = .unknown
  win : ∀ s, (st s).state = .winning → WinJ G st s
  lose : ∀ s, (st s).state = .losing → LoseJ G st s
  act : ∀ s, Active (st s).state → ∃ eP cP, Act G st deps queue back s eP cP
  depAct : ∀ x b m, (b, m) ∈ deps x → (st m).known = true ∧ (st m).state ≠ .unknown
  nodup : queue.Nodup
  qWait : ∀ s ∈ queue, (st s).known = true ∧ (st s).waiting ≠ 0 ∧ ¬ Active (st s).state
  actWait : ∀ s, Active (st s).state → (st s).waiting = 1
  unkQ : ∀ s, (st s).state = .unknown → (st s).waiting ≠ 0 → s ∈ queue
  unkWait : ∀ s, (st s).state = .unknown → (st s).waiting ≤ 1
  backDet : ∀ s ∈ back, (st s).state.det = true
  root : (st m0).known = true ∧ (st m0).waiting ≠ 0

theorem det_iff {v : CState} : v.det = true ↔ v = .losing ∨ v = .winning := by
  cases v <;> simp [CState.det]

theorem active_det {v : CState} (h : Active v) : v.det = false := by
  rcases h with rfl | rfl <;> rfl

theorem not_det {v : CState} (h : v.det = false) : v = .unknown ∨ Active v := by
  cases v <;> simp_all [CState.det, Active]

/-- The values `winning` and `losing` are kept. -/
def Keeps (st st' : Store σ) : Prop :=
  ∀ x, (st x).state.det = true → (st' x).state = (st x).state

theorem Keeps.refl (st : Store σ) : Keeps st st := fun _ _ => rfl

theorem Keeps.trans {a b c : Store σ} (h1 : Keeps a b) (h2 : Keeps b c) : Keeps a c := by
  intro x hx
  have h := h1 x hx
  rw [h2 x (by rw [h]; exact hx), h]

theorem Keeps.win {st st' : Store σ} (h : Keeps st st') {x : σ} (hx : (st x).state = .winning) :
    (st' x).state = .winning := by
  rw [h x (by rw [hx]; rfl), hx]

theorem Keeps.lose {st st' : Store σ} (h : Keeps st st') {x : σ} (hx : (st x).state = .losing) :
    (st' x).state = .losing := by
  rw [h x (by rw [hx]; rfl), hx]

theorem WinJ.mono {G : Game σ} {st st' : Store σ} (hk : Keeps st st') {s : σ} (h : WinJ G st s) :
    WinJ G st' s := by
  unfold WinJ at *
  split
  · rename_i hs
    rw [if_pos hs] at h
    obtain ⟨h1, h2, h3, h4⟩ := h
    refine ⟨h1, h2, fun e he => (h3 e he).imp hk.win id, ?_⟩
    rcases h4 with h4 | ⟨c, hc, h4⟩
    · exact Or.inl h4
    · exact Or.inr ⟨c, hc, h4.imp hk.win id⟩
  · rename_i hs
    rw [if_neg hs] at h
    refine ⟨h.1, h.2.imp id ?_⟩
    rintro ⟨h1, h2⟩
    refine ⟨fun e he => hk.win (h1 e he), h2.imp id ?_⟩
    rintro ⟨c, hc, h3⟩
    exact ⟨c, hc, hk.win h3⟩

theorem LoseJ.mono {G : Game σ} {st st' : Store σ} (hk : Keeps st st') {s : σ} (h : LoseJ G st s) :
    LoseJ G st' s := by
  unfold LoseJ at *
  split
  · rename_i hs
    rw [if_pos hs] at h
    exact h
  · rename_i hs
    rw [if_neg hs] at h
    rcases h with h | ⟨hg, ⟨e, he, h⟩ | ⟨hc, h⟩ | h⟩
    · exact Or.inl h
    · exact Or.inr ⟨hg, Or.inl ⟨e, he, h.imp hk.lose id⟩⟩
    · exact Or.inr ⟨hg, Or.inr (Or.inl ⟨hc, fun c hc => (h c hc).imp hk.lose id⟩)⟩
    · exact Or.inr ⟨hg, Or.inr (Or.inr h)⟩

theorem init0_unknown {G : Game σ} {s : σ} (h : G.init0 s = .unknown) :
    G.over s = false ∧ (G.safety = true → G.goal s = true) ∧ (G.safety = false → G.goal s = false) := by
  unfold Game.init0 at h
  split at h
  · cases h
  · rename_i ho
    refine ⟨by simpa using ho, fun hs => ?_, fun hs => ?_⟩
    · rw [if_pos hs] at h
      split at h
      · assumption
      · cases h
    · rw [if_neg (by simp [hs])] at h
      split at h
      · cases h
      · rename_i hg; simpa using hg

theorem init0_cases (G : Game σ) (s : σ) : G.init0 s = .unknown ∨ G.init0 s = .losing ∨ G.init0 s = .winning := by
  unfold Game.init0
  split
  · simp
  · split
    · split <;> simp
    · split <;> simp

theorem init0_win {G : Game σ} {s : σ} (st : Store σ) (h : G.init0 s = .winning) : WinJ G st s := by
  unfold Game.init0 at h
  split at h
  · cases h
  · rename_i ho
    split at h
    · split at h <;> cases h
    · rename_i hs
      split at h
      · rename_i hg
        rw [WinJ, if_neg hs]
        exact ⟨.goal s (by simpa using ho) hg, Or.inl hg⟩
      · cases h

theorem init0_lose {G : Game σ} {s : σ} (st : Store σ) (h : G.init0 s = .losing) : LoseJ G st s := by
  unfold Game.init0 at h
  unfold LoseJ
  split at h
  · rename_i ho
    split
    · exact .bad s (Or.inl ho)
    · exact Or.inl ho
  · split at h
    · rename_i hs
      split at h
      · cases h
      · rename_i hg
        rw [if_pos hs]
        exact .bad s (Or.inr (by simpa using hg))
    · split at h <;> cases h

/-- A new justified `winning` value, from the facts the engine has. -/
theorem mkWin {G : Game σ} {st : Store σ} {s : σ} (h0 : G.init0 s = .unknown)
    (hW : ∀ x, (st x).state = .winning → WinJ G st x)
    (he : ∀ e ∈ G.env s, (st e).state = .winning ∨ (G.safety = true ∧ e = s))
    (hc : G.ctrl s = [] ∨ (∃ c ∈ G.ctrl s, (st c).state = .winning) ∨ (G.safety = true ∧ s ∈ G.ctrl s))
    (hd : G.safety = false → G.env s ≠ [] ∨ G.ctrl s ≠ []) : WinJ G st s := by
  have h1 := init0_unknown h0
  unfold WinJ
  split
  · rename_i hs
    refine ⟨h1.1, h1.2.1 hs, fun e h => (he e h).imp id (·.2), ?_⟩
    rcases hc with hc | ⟨c, hc, hw⟩ | ⟨_, hc⟩
    · exact Or.inl hc
    · exact Or.inr ⟨c, hc, Or.inl hw⟩
    · exact Or.inr ⟨s, hc, Or.inr rfl⟩
  · rename_i hs
    have hs' : G.safety = false := by simpa using hs
    have hR : ∀ x, (st x).state = .winning → G.Reaches x := by
      intro x hx
      have := hW x hx
      rw [WinJ, if_neg hs] at this
      exact this.1
    have he' : ∀ e ∈ G.env s, G.Reaches e := by
      intro e h
      rcases he e h with h | ⟨h, _⟩
      · exact hR e h
      · exact absurd h hs
    have hew : ∀ e ∈ G.env s, (st e).state = .winning := fun e h =>
      (he e h).resolve_right fun h' => hs h'.1
    rcases hc with hc | ⟨c, hc, hw⟩ | ⟨h, _⟩
    · exact ⟨.env s h1.1 he' hc ((hd hs').resolve_right (by simp [hc])), Or.inr ⟨hew, Or.inl hc⟩⟩
    · exact ⟨.ctrl s c h1.1 he' hc (hR c hw), Or.inr ⟨hew, Or.inr ⟨c, hc, hw⟩⟩⟩
    · exact absurd h hs

/-- A new justified `losing` value, from the facts the engine has. -/
theorem mkLose {G : Game σ} {st : Store σ} {s : σ} (h0 : G.init0 s = .unknown)
    (hL : ∀ x, (st x).state = .losing → LoseJ G st x)
    (h : (∃ e ∈ G.env s, (st e).state = .losing ∨ (G.safety = false ∧ e = s)) ∨
      (G.ctrl s ≠ [] ∧ ∀ c ∈ G.ctrl s, (st c).state = .losing ∨ (G.safety = false ∧ c = s)) ∨
      (G.safety = false ∧ G.env s = [] ∧ G.ctrl s = [])) : LoseJ G st s := by
  have h1 := init0_unknown h0
  unfold LoseJ
  split
  · rename_i hs
    have hU : ∀ x, (st x).state = .losing → G.Unsafe x := by
      intro x hx
      have := hL x hx
      rwa [LoseJ, if_pos hs] at this
    have hf : ¬ G.safety = false := by simp [hs]
    rcases h with ⟨e, he, h⟩ | ⟨hne, h⟩ | ⟨h, _⟩
    · rcases h with h | ⟨h, _⟩
      · exact .env s e he (hU e h)
      · exact absurd h hf
    · refine .ctrl s hne fun c hc => ?_
      rcases h c hc with h | ⟨h, _⟩
      · exact hU c h
      · exact absurd h hf
    · exact absurd h hf
  · rename_i hs
    have hs' : G.safety = false := by simpa using hs
    refine Or.inr ⟨h1.2.2 hs', ?_⟩
    rcases h with ⟨e, he, h⟩ | ⟨hne, h⟩ | ⟨_, h⟩
    · exact Or.inl ⟨e, he, h.imp id (·.2)⟩
    · exact Or.inr (Or.inl ⟨hne, fun c hc => (h c hc).imp id (·.2)⟩)
    · exact Or.inr (Or.inr h)

/-! ### What the invariant says at the end -/

variable {G : Game σ} {m0 : σ} {st : Store σ} {deps : σ → List (Bool × σ)} {queue back : List σ}

theorem Inv.win_sound (I : Inv G m0 st deps queue back) {s : σ} (h : (st s).state = .winning) :
    G.Wins s := by
  unfold Game.Wins
  split
  · rename_i hs
    intro hu
    induction hu with
    | bad s hb =>
      have := I.win s h
      rw [WinJ, if_pos hs] at this
      rcases hb with hb | hb
      · rw [this.1] at hb; cases hb
      · rw [this.2.1] at hb; cases hb
    | env s e he _ ih =>
      have := I.win s h
      rw [WinJ, if_pos hs] at this
      rcases this.2.2.1 e he with h' | rfl
      · exact ih h'
      · exact ih h
    | ctrl s hne _ ih =>
      have := I.win s h
      rw [WinJ, if_pos hs] at this
      rcases this.2.2.2 with h' | ⟨c, hc, h' | rfl⟩
      · exact hne h'
      · exact ih c hc h'
      · exact ih c hc h
  · rename_i hs
    have := I.win s h
    rw [WinJ, if_neg hs] at this
    exact this.1

theorem Inv.lose_sound (I : Inv G m0 st deps queue back) {s : σ} (h : (st s).state = .losing) :
    ¬ G.Wins s := by
  unfold Game.Wins
  split
  · rename_i hs
    have := I.lose s h
    rw [LoseJ, if_pos hs] at this
    exact fun hn => hn this
  · rename_i hs
    intro hr
    induction hr with
    | goal s h1 h2 =>
      have := I.lose s h
      rw [LoseJ, if_neg hs] at this
      rcases this with h' | ⟨h', _⟩
      · rw [h1] at h'; cases h'
      · rw [h2] at h'; cases h'
    | env s h1 _ h3 h4 ihe =>
      have := I.lose s h
      rw [LoseJ, if_neg hs] at this
      rcases this with h' | ⟨_, ⟨e, he, h' | rfl⟩ | ⟨hne, h'⟩ | h'⟩
      · rw [h1] at h'; cases h'
      · exact ihe e he h'
      · exact ihe e he h
      · exact hne h3
      · exact h4 h'.1
    | ctrl s c h1 _ h3 _ ihe ih =>
      have := I.lose s h
      rw [LoseJ, if_neg hs] at this
      rcases this with h' | ⟨_, ⟨e, he, h' | rfl⟩ | ⟨hne, h'⟩ | h'⟩
      · rw [h1] at h'; cases h'
      · exact ihe e he h'
      · exact ihe e he h
      · rcases h' c h3 with h' | rfl
        · exact ih h'
        · exact ih h
      · rw [h'.2] at h3; cases h3

/-- At the end of the exploration the undetermined configurations are safe (safety) or losing
(reachability). -/
theorem Inv.final_active (I : Inv G m0 st deps [] []) {s : σ} (h : Active (st s).state) :
    G.Wins s ↔ G.safety = true := by
  have pend : ∀ {m eP cP}, Act G st deps [] [] m eP cP → ∀ e ∈ eP, Active (st e).state := by
    intro m eP cP A e he
    have := A.ePend e he
    rcases hv : (st e).state.det with _ | _
    · rcases not_det hv with h' | h'
      · cases this.2 h'
      · exact h'
    · cases this.1 hv
  have pendc : ∀ {m eP cP}, Act G st deps [] [] m eP cP → (st m).state = .processed →
      ∀ e ∈ cP, Active (st e).state := by
    intro m eP cP A hm e he
    have := (A.proc hm).2.2 e he
    rcases hv : (st e).state.det with _ | _
    · rcases not_det hv with h' | h'
      · cases this.2 h'
      · exact h'
    · cases this.1 hv
  have hknown : ∀ {m}, Active (st m).state → G.init0 m = .unknown := by
    intro m hm
    refine I.base m ?_ (active_det hm)
    cases hk : (st m).known with
    | true => rfl
    | false =>
      rw [(I.fresh m hk).1] at hm
      rcases hm with hm | hm <;> cases hm
  unfold Game.Wins
  split
  · rename_i hs
    simp only [hs, iff_true]
    intro hu
    have hsf : G.safety ≠ false := by simp [hs]
    -- the winning and active configurations are closed
    have key : ∀ s, G.Unsafe s → ¬ (Active (st s).state ∨ (st s).state = .winning) := by
      intro s hu
      induction hu with
      | bad s hb =>
        rintro (ha | hw)
        · have := init0_unknown (hknown ha)
          rcases hb with hb | hb
          · rw [this.1] at hb; cases hb
          · rw [this.2.1 hs] at hb; cases hb
        · have := I.win s hw
          rw [WinJ, if_pos hs] at this
          rcases hb with hb | hb
          · rw [this.1] at hb; cases hb
          · rw [this.2.1] at hb; cases hb
      | env s e he _ ih =>
        rintro (ha | hw)
        · obtain ⟨eP, cP, A⟩ := I.act s ha
          rcases A.env e he with h' | ⟨_, rfl⟩ | h'
          · exact ih (Or.inr h')
          · exact ih (Or.inl ha)
          · exact ih (Or.inl (pend A e h'))
        · have := I.win s hw
          rw [WinJ, if_pos hs] at this
          rcases this.2.2.1 e he with h' | rfl
          · exact ih (Or.inr h')
          · exact ih (Or.inr hw)
      | ctrl s hne _ ih =>
        rintro (ha | hw)
        · obtain ⟨eP, cP, A⟩ := I.act s ha
          rcases ha with hp | hm
          · obtain ⟨h1, _, _⟩ := A.proc hp
            obtain ⟨c, hc⟩ := List.exists_mem_of_ne_nil _ h1
            exact ih c (A.cSub c hc) (Or.inl (pendc A hp c hc))
          · rcases (A.may hm).1 with h' | ⟨c, hc, h'⟩ | ⟨_, h'⟩
            · exact hne h'.1
            · exact ih c hc (Or.inr h')
            · exact ih s h' (Or.inl (Or.inr hm))
        · have := I.win s hw
          rw [WinJ, if_pos hs] at this
          rcases this.2.2.2 with h' | ⟨c, hc, h' | rfl⟩
          · exact hne h'
          · exact ih c hc (Or.inr h')
          · exact ih c hc (Or.inr hw)
    exact key s hu (Or.inl h)
  · rename_i hs
    have hs' : G.safety = false := by simpa using hs
    simp only [hs', Bool.false_eq_true, iff_false]
    have key : ∀ s, G.Reaches s → ¬ (Active (st s).state ∨ (st s).state = .losing) := by
      intro s hr
      induction hr with
      | goal s h1 h2 =>
        rintro (ha | hl)
        · have := (init0_unknown (hknown ha)).2.2 hs'
          rw [h2] at this; cases this
        · have := I.lose s hl
          rw [LoseJ, if_neg hs] at this
          rcases this with h' | ⟨h', _⟩
          · rw [h1] at h'; cases h'
          · rw [h2] at h'; cases h'
      | env s h1 _ h3 h4 ihe =>
        rintro (ha | hl)
        · obtain ⟨eP, cP, A⟩ := I.act s ha
          rcases ha with hp | hm
          · obtain ⟨h5, _, _⟩ := A.proc hp
            obtain ⟨c, hc⟩ := List.exists_mem_of_ne_nil _ h5
            have := A.cSub c hc
            rw [h3] at this; cases this
          · obtain ⟨e, he⟩ := List.exists_mem_of_ne_nil _ ((A.may hm).2 hs')
            exact ihe e (A.eSub e he) (Or.inl (pend A e he))
        · have := I.lose s hl
          rw [LoseJ, if_neg hs] at this
          rcases this with h' | ⟨_, ⟨e, he, h' | rfl⟩ | ⟨hne, h'⟩ | h'⟩
          · rw [h1] at h'; cases h'
          · exact ihe e he (Or.inr h')
          · exact ihe e he (Or.inr hl)
          · exact hne h3
          · exact h4 h'.1
      | ctrl s c h1 _ h3 _ ihe ih =>
        rintro (ha | hl)
        · obtain ⟨eP, cP, A⟩ := I.act s ha
          rcases ha with hp | hm
          · obtain ⟨_, h6, _⟩ := A.proc hp
            rcases h6 c h3 with h' | ⟨_, rfl⟩ | h'
            · exact ih (Or.inr h')
            · exact ih (Or.inl (Or.inl hp))
            · exact ih (Or.inl (pendc A hp c h'))
          · obtain ⟨e, he⟩ := List.exists_mem_of_ne_nil _ ((A.may hm).2 hs')
            exact ihe e (A.eSub e he) (Or.inl (pend A e he))
        · have := I.lose s hl
          rw [LoseJ, if_neg hs] at this
          rcases this with h' | ⟨_, ⟨e, he, h' | rfl⟩ | ⟨hne, h'⟩ | h'⟩
          · rw [h1] at h'; cases h'
          · exact ihe e he (Or.inr h')
          · exact ihe e he (Or.inr hl)
          · rcases h' c h3 with h' | rfl
            · exact ih (Or.inr h')
            · exact ih (Or.inr hl)
          · rw [h'.2] at h3; cases h3
    exact fun hr => key s hr (Or.inl h)

end Synth
end Verif
