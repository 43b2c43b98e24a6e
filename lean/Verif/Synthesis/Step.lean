import Verif.Synthesis.Proc

/-! # Synthesis: every step of the loop keeps the invariant -/

namespace Verif
namespace Synth

set_option linter.unusedSectionVars false
set_option linter.unusedSimpArgs false

variable {σ : Type} [DecidableEq σ]
variable {G : Game σ} {m0 : σ}

/-- In a non-permissive safety game a controllable self loop is only harmless when the environment
cannot leave the marking (see the finding about `fix_assignment`). -/
def Game.NoIdle (G : Game σ) (m0 : σ) : Prop :=
  G.safety = true → G.permissive = false → ∀ s, G.Reach m0 s →
    G.over s = false → G.goal s = true → s ∈ G.ctrl s → ∀ e ∈ G.env s, e = s

/-- What holds after the successors of `s` have been inspected.  `P` is the store, with `s` still
undetermined; `v` the new state, `eB` and `cB` the buffers. -/
structure Core (G : Game σ) (s : σ) (P : Store σ) (v : CState) (eB cB : List σ) : Prop where
  nu : v ≠ .unknown
  win : v = .winning → WinJ G P s
  lose : v = .losing → LoseJ G P s
  eSub : Active v → ∀ e ∈ eB, e ∈ G.env s ∧ e ≠ s ∧ (P e).state.det = false
  eAll : Active v → ∀ e ∈ G.env s, (P e).state = .winning ∨ (G.safety = true ∧ e = s) ∨ e ∈ eB
  cSub : Active v → ∀ c ∈ cB, c ∈ G.ctrl s
  proc : v = .processed → cB ≠ [] ∧
    (∀ c ∈ G.ctrl s, (P c).state = .losing ∨ (G.safety = false ∧ c = s) ∨ c ∈ cB) ∧
    (∀ c ∈ cB, c ≠ s ∧ (P c).state.det = false)
  may : v = .maybe → (G.ctrl s = [] ∧ G.env s ≠ [] ∨ (∃ c ∈ G.ctrl s, (P c).state = .winning) ∨
    (G.safety = true ∧ s ∈ G.ctrl s)) ∧ (G.safety = false → eB ≠ [])
  eKnown : ∀ e ∈ eB, (P e).known = true
  cKnown : ∀ e ∈ cB, (P e).known = true

/-- The stores `st` satisfying the local parts of the invariant stay so when extended. -/
theorem just_ext {st st3 : Store σ} {s : σ} {S : List σ} (hx : Ext G s S st st3)
    (hs : (st s).state = .unknown) (hf : ∀ x, (st x).known = false → (st x).state = .unknown)
    (hW : ∀ x, (st x).state = .winning → WinJ G st x) (hL : ∀ x, (st x).state = .losing → LoseJ G st x) :
    (∀ x, ((st3.setState s .processed) x).state = .winning → WinJ G (st3.setState s .processed) x) ∧
    (∀ x, ((st3.setState s .processed) x).state = .losing → LoseJ G (st3.setState s .processed) x) := by
  have hkeep : Keeps st (st3.setState s .processed) := by
    intro x hd
    have hne : x ≠ s := by rintro rfl; rw [hs] at hd; cases hd
    rw [setState_other _ _ hne]
    rcases hx.other x hne with h | h
    · rw [h]
    · rw [hf x h.1] at hd; cases hd
  constructor
  · intro x h
    have hne : x ≠ s := by rintro rfl; rw [setState_state] at h; cases h
    rw [setState_other _ _ hne] at h
    rcases hx.other x hne with h' | h'
    · rw [h'] at h; exact (hW x h).mono hkeep
    · rw [h'.2.1] at h; exact init0_win _ h
  · intro x h
    have hne : x ≠ s := by rintro rfl; rw [setState_state] at h; cases h
    rw [setState_other _ _ hne] at h
    rcases hx.other x hne with h' | h'
    · rw [h'] at h; exact (hL x h).mono hkeep
    · rw [h'.2.1] at h; exact init0_lose _ h

/-- `process`, the part before `to_queue`: buffers, store and new state. -/
def inspect (G : Game σ) (s : σ) (st : Store σ) : Store σ × CState × List σ × List σ :=
  let E := envLoop G s (G.env s) (st.setState s .processed) false []
  let C := if (E.1 s).state.det then (E.1, false, false, [])
    else ctrlLoop G s E.2.2.isEmpty (G.ctrl s) E.1 false false []
  (C.1, fixAssign G.safety (C.1 s).state C.2.1 C.2.2.1 C.2.2.2.isEmpty E.2.1 E.2.2.isEmpty, E.2.2, C.2.2.2)

theorem inspect_core {st : Store σ} {s : σ} (hk : (st s).known = true) (h0 : G.init0 s = .unknown)
    (hs : (st s).state = .unknown) (hf : ∀ x, (st x).known = false → (st x).state = .unknown)
    (hW : ∀ x, (st x).state = .winning → WinJ G st x) (hL : ∀ x, (st x).state = .losing → LoseJ G st x)
    (hidle : G.safety = true → G.permissive = false → s ∈ G.ctrl s → ∀ e ∈ G.env s, e = s) :
    Ext G s (G.env s ++ G.ctrl s) st (inspect G s st).1 ∧
    Core G s ((inspect G s st).1.setState s .processed) (inspect G s st).2.1 (inspect G s st).2.2.1
      (inspect G s st).2.2.2 := by
  have hk1 : ((st.setState s .processed) s).known = true := by rw [setState_known]; exact hk
  have hE := envLoop_res (G := G) (s := s) (G.env s) (st.setState s .processed) false [] hk1 (setState_state _ _ _)
  unfold inspect
  simp only
  generalize hEe : envLoop G s (G.env s) (st.setState s .processed) false [] = E at hE ⊢
  obtain ⟨st2, someEnv, eB⟩ := E
  simp only at hE ⊢
  have x1 : Ext G s (G.env s ++ G.ctrl s) st st2 :=
    (ext_setState _ _ _ _).trans (hE.ext.mono (fun x hx => List.mem_append_left _ hx))
  have eext : Ext G s (G.env s) (st.setState s .processed) st2 := hE.ext
  rcases hE.res with ⟨hl, e, he, hle⟩ | ⟨hp, hsome, b, hb, hall, hin⟩
  · -- the environment wins
    have hl' : (st2 s).state = .losing := hl
    rw [if_pos (show (st2 s).state.det = true by rw [hl']; rfl)]
    simp only [hl', fixAssign, CState.det, if_true]
    obtain ⟨_, jL⟩ := just_ext x1 hs hf hW hL
    -- the environment loop keeps its buffer known
    refine ⟨x1, ⟨by simp, by simp, fun _ => ?_, by simp [Active], by simp [Active], by simp [Active], by simp, by simp, ?_, by simp⟩⟩
    · refine mkLose h0 jL (Or.inl ⟨e, he, ?_⟩)
      rcases hle with ⟨h1, h2⟩ | h
      · left; rw [setState_other _ _ h1]; exact h2
      · exact Or.inr h
    · intro e he
      rw [setState_known]
      exact hE.bufK (by simp) e he
  · have hp' : (st2 s).state = .processed := hp
    have hb' : eB = b := by simpa using hb
    subst hb'
    have hsome' : someEnv = true ↔ G.env s ≠ [] := by simpa using hsome
    have hk2 : (st2 s).known = true := eext.known hk1
    rw [if_neg (show ¬ (st2 s).state.det = true by rw [hp']; simp [CState.det])]
    have hC := ctrlLoop_res (G := G) (s := s) (envEmpty := eB.isEmpty) (G.ctrl s) st2 false false [] hk2
      (by rw [hp']; exact Or.inl rfl)
    generalize hCe : ctrlLoop G s eB.isEmpty (G.ctrl s) st2 false false [] = C at hC ⊢
    obtain ⟨st3, someCtrl, someWin, cB⟩ := C
    simp only at hC ⊢
    have cext : Ext G s (G.ctrl s) st2 st3 := hC.ext
    have x2 : Ext G s (G.env s ++ G.ctrl s) st st3 :=
      x1.trans (cext.mono (fun x hx => List.mem_append_right _ hx))
    obtain ⟨jW, jL⟩ := just_ext x2 hs hf hW hL
    have hsc : someCtrl = true ↔ G.ctrl s ≠ [] := by simpa using hC.some
    -- facts about the environment buffer in the last store
    have eSub : ∀ e ∈ eB, e ∈ G.env s ∧ e ≠ s ∧ ((st3.setState s .processed) e).state.det = false := by
      intro e he
      obtain ⟨h1, h2, h3, h4⟩ := hin e he
      refine ⟨h1, h2, ?_⟩
      rw [setState_other _ _ h2, cext.same h2 h4]; exact h3
    have eKnown : ∀ e ∈ eB, ((st3.setState s .processed) e).known = true := by
      intro e he
      obtain ⟨h1, h2, h3, h4⟩ := hin e he
      rw [setState_known]; exact cext.known h4
    have eAll : ∀ e ∈ G.env s, ((st3.setState s .processed) e).state = .winning ∨
        (G.safety = true ∧ e = s) ∨ e ∈ eB := by
      intro e he
      rcases hall e he with h | h | h
      · left
        have hne : e ≠ s := by rintro rfl; rw [show (st2 e).state = .winning from h] at hp'; cases hp'
        rw [setState_other _ _ hne]
        rcases cext.other e hne with h' | h'
        · rw [h']; exact h
        · exfalso
          -- unknown configurations are not winning
          rcases eext.other e hne with h2 | h2
          · have : (st2 e).state = (st e).state := by rw [h2, setState_other _ _ hne]
            have h3 : (st e).known = false := by
              have := h'.1
              rw [h2, setState_other _ _ hne] at this
              exact this
            rw [this, hf e h3] at h; cases h
          · rw [h2.2.1] at h'; cases h'.1
      · exact Or.inr (Or.inl h)
      · exact Or.inr (Or.inr h)
    have eNil : eB = [] → ∀ e ∈ G.env s, ((st3.setState s .processed) e).state = .winning ∨
        (G.safety = true ∧ e = s) := by
      intro h e he
      rcases eAll e he with h' | h' | h'
      · exact Or.inl h'
      · exact Or.inr h'
      · rw [h] at h'; cases h'
    have hmin : (G.safety = true ∧ G.permissive = false ∧ s ∈ G.ctrl s) → eB = [] := by
      rintro ⟨h1, h2, h3⟩
      apply List.eq_nil_iff_forall_not_mem.2
      intro e he
      exact (eSub e he).2.1 (hidle h1 h2 h3 e (eSub e he).1)
    -- a winning controller successor
    have winC : (∃ c ∈ G.ctrl s, c ≠ s ∧ (st3 c).state = .winning) →
        ∃ c ∈ G.ctrl s, ((st3.setState s .processed) c).state = .winning := by
      rintro ⟨c, hc, hne, h⟩
      exact ⟨c, hc, by rw [setState_other _ _ hne]; exact h⟩
    rcases hC.res with ⟨b, hb, h1, h2, h3⟩ | ⟨h1, h2, h3⟩
    · have hb' : cB = b := by simpa using hb
      subst hb'
      have cKnown : ∀ e ∈ cB, ((st3.setState s .processed) e).known = true := by
        intro e he
        rw [setState_known]; exact (h1 e he).2.1
      have lossC : ∀ c ∈ G.ctrl s, ((st3.setState s .processed) c).state = .losing ∨
          (G.safety = false ∧ c = s) ∨ c ∈ cB := by
        intro c hc
        rcases h2 c hc with h | h
        · left; rw [setState_other _ _ h.1]; exact h.2
        · exact Or.inr h
      rcases h3 with ⟨h3, h4, h5⟩ | ⟨h3, _, h5⟩
      · -- no winning or self successor
        have h3' : (st3 s).state = .processed := by rw [h3]; exact hp'
        have h4' : someWin = false := h4
        rw [h3', h4']
        refine ⟨x2, ?_⟩
        by_cases c1 : G.ctrl s = []
        · have hsc' : someCtrl = false := by
            cases hh : someCtrl with
            | false => rfl
            | true => exact absurd c1 (hsc.1 hh)
          have hcB : cB = [] := List.eq_nil_iff_forall_not_mem.2 fun c hc => by
            have := (h1 c hc).1
            rw [c1] at this; cases this
          rw [hsc', hcB]
          by_cases c2 : G.env s = []
          · have hse : someEnv = false := by
              cases hh : someEnv with
              | false => rfl
              | true => exact absurd c2 (hsome'.1 hh)
            rw [hse]
            have heB : eB = [] := List.eq_nil_iff_forall_not_mem.2 fun c hc => by
              have := (eSub c hc).1
              rw [c2] at this; cases this
            cases hsafe : G.safety with
            | true =>
              simp only [fixAssign, CState.det, Bool.false_eq_true, if_false, Bool.false_and, Bool.not_false,
                Bool.and_true, if_true]
              refine ⟨by simp, fun _ => ?_, by simp, by simp [Active], by simp [Active], by simp [Active], by simp, by simp, eKnown, by simp⟩
              exact mkWin h0 jW (eNil heB) (Or.inl c1) (by simp [hsafe])
            | false =>
              simp only [fixAssign, CState.det, Bool.false_eq_true, if_false, Bool.false_and, Bool.not_false,
                Bool.and_true, if_true]
              refine ⟨by simp, by simp, fun _ => ?_, by simp [Active], by simp [Active], by simp [Active], by simp, by simp, eKnown, by simp⟩
              exact mkLose h0 jL (Or.inr (Or.inr ⟨hsafe, c2, c1⟩))
          · have hse : someEnv = true := hsome'.2 c2
            rw [hse]
            cases hee : eB with
            | nil =>
              simp only [fixAssign, CState.det, Bool.false_eq_true, if_false, Bool.false_and, Bool.not_false,
                Bool.and_true, if_true, Bool.not_true, Bool.and_false, List.isEmpty_nil, Bool.and_self]
              refine ⟨by simp, fun _ => ?_, by simp, by simp [Active], by simp [Active], by simp [Active], by simp, by simp, by simp, by simp⟩
              exact mkWin h0 jW (eNil hee) (Or.inl c1) (fun _ => Or.inl c2)
            | cons a l =>
              simp only [fixAssign, CState.det, Bool.false_eq_true, if_false, Bool.false_and, Bool.not_false,
                Bool.and_true, if_true, Bool.not_true, Bool.and_false, List.isEmpty_cons, Bool.and_self]
              rw [hee] at eSub eAll eKnown
              exact ⟨by simp, by simp, by simp, fun _ => eSub, fun _ => eAll, by simp, by simp,
                fun _ => ⟨Or.inl ⟨c1, c2⟩, by simp⟩, eKnown, by simp⟩
        · have hsc' : someCtrl = true := hsc.2 c1
          rw [hsc']
          cases hcc : cB with
          | nil =>
            simp only [fixAssign, CState.det, Bool.false_eq_true, if_false, Bool.not_false, Bool.and_true,
              List.isEmpty_nil, Bool.and_self, if_true]
            refine ⟨by simp, by simp, fun _ => ?_, by simp [Active], by simp [Active], by simp [Active], by simp, by simp, eKnown, by simp⟩
            refine mkLose h0 jL (Or.inr (Or.inl ⟨c1, fun c hc => ?_⟩))
            rcases lossC c hc with h | h | h
            · exact Or.inl h
            · exact Or.inr h
            · rw [hcc] at h; cases h
          | cons a l =>
            simp only [fixAssign, CState.det, Bool.false_eq_true, if_false, Bool.not_false, Bool.and_true,
              List.isEmpty_cons, Bool.and_false, Bool.not_true, Bool.false_and]
            rw [← hcc]
            refine ⟨by simp, by simp, by simp, fun _ => eSub, fun _ => eAll, fun _ c hc => (h1 c hc).1,
              fun _ => ⟨by rw [hcc]; simp, lossC, fun c hc => ?_⟩, by simp, eKnown, cKnown⟩
            have := h5 c hc
            exact ⟨this.1, by rw [setState_other _ _ this.1]; exact this.2⟩
      · -- permissive: `MAYBE`
        have h3' : (st3 s).state = .maybe := h3
        rw [h3']
        refine ⟨x2, ?_⟩
        have hne : G.ctrl s ≠ [] := by
          rcases h5 with ⟨_, c, hc, _⟩ | ⟨_, hc, _⟩ <;> exact List.ne_nil_of_mem hc
        rw [hsc.2 hne]
        have reason : (∃ c ∈ G.ctrl s, ((st3.setState s .processed) c).state = .winning) ∨
            (G.safety = true ∧ s ∈ G.ctrl s) := by
          rcases h5 with ⟨_, h⟩ | h
          · exact Or.inl (winC h)
          · exact Or.inr ⟨h.1, h.2.1⟩
        have hbad : (true && !someWin && cB.isEmpty) = false := by
          rcases h5 with ⟨h, _⟩ | ⟨_, _, h⟩
          · rw [show someWin = true from h]; rfl
          · cases cB with
            | nil => cases h
            | cons a l => simp
        unfold fixAssign
        simp only [CState.det, Bool.false_eq_true, if_false, hbad, Bool.not_true, Bool.false_and]
        split
        · rename_i hh
          simp only [Bool.and_eq_true] at hh
          refine ⟨by simp, fun _ => ?_, by simp, by simp [Active], by simp [Active], by simp [Active], by simp, by simp, eKnown, cKnown⟩
          refine mkWin h0 jW (eNil (List.isEmpty_iff.1 hh.1)) (Or.inr reason) (fun _ => Or.inr hne)
        · rename_i hh
          refine ⟨by simp, by simp, by simp, fun _ => eSub, fun _ => eAll, fun _ c hc => (h1 c hc).1, by simp,
            fun _ => ⟨Or.inr reason, fun hsafe he => hh ?_⟩, eKnown, cKnown⟩
          rcases h5 with ⟨h, _⟩ | ⟨h, _⟩
          · rw [show someWin = true from h, he]; rfl
          · rw [hsafe] at h; cases h
    · -- the loop has been left
      have h1' : cB = [] := h1
      have h2' : (st3 s).state = if eB.isEmpty then .winning else .maybe := h2
      rw [h1', h2']
      refine ⟨x2, ?_⟩
      have hne : G.ctrl s ≠ [] := by
        rcases h3 with ⟨_, c, hc, _⟩ | ⟨_, _, hc⟩ <;> exact List.ne_nil_of_mem hc
      rw [hsc.2 hne]
      have reason : (∃ c ∈ G.ctrl s, ((st3.setState s .processed) c).state = .winning) ∨
          (G.safety = true ∧ s ∈ G.ctrl s) := by
        rcases h3 with ⟨_, h⟩ | h
        · exact Or.inl (winC h)
        · exact Or.inr h.2
      cases hee : eB with
      | nil =>
        simp only [List.isEmpty_nil, if_true, fixAssign, CState.det]
        refine ⟨by simp, fun _ => ?_, by simp, by simp [Active], by simp [Active], by simp [Active], by simp, by simp, by simp, by simp⟩
        exact mkWin h0 jW (eNil hee) (Or.inr reason) (fun _ => Or.inr hne)
      | cons a l =>
        have hsw : someWin = true := by
          rcases h3 with ⟨h, _⟩ | ⟨h, h', h''⟩
          · exact h
          · have := hmin ⟨h', h, h''⟩
            rw [hee] at this; cases this
        rw [hsw]
        simp only [List.isEmpty_cons, Bool.false_eq_true, if_false, fixAssign, CState.det, Bool.not_true,
          Bool.and_false, Bool.false_and]
        rw [hee] at eSub eAll eKnown
        exact ⟨by simp, by simp, by simp, fun _ => eSub, fun _ => eAll, by simp, by simp,
          fun _ => ⟨Or.inr reason, by simp⟩, eKnown, by simp⟩

/-- The store and queue after `to_queue` has been called for both buffers. -/
def enqueue (s : σ) (cB eB : List σ) (st : Store σ) (q : List σ) : Store σ × List σ :=
  toQueue false s eB (toQueue true s cB st q).1 (toQueue true s cB st q).2

theorem process_eq (s : σ) (r : RState σ) :
    process G s r =
      (let X := inspect G s r.st
       let back := if X.2.1.det then s :: r.back else r.back
       if !X.2.1.det || G.permissive then
         let Y := enqueue s X.2.2.2 X.2.2.1 (X.1.setState s X.2.1) r.queue
         { r with st := Y.1.put s { Y.1 s with ctrlC := X.2.2.2.length, envC := X.2.2.1.length },
                  queue := Y.2, back := back, inner := false }
       else { r with st := X.1.setState s X.2.1, back := back, inner := false }) := rfl

theorem count_entry (b b' : Bool) (s m : σ) (n : Nat) (h : m ≠ s) :
    (List.replicate n (b', s)).count (b, m) = 0 := by
  rw [List.count_replicate, if_neg]
  simp only [beq_iff_eq, Prod.mk.injEq, not_and]
  exact fun _ h' => h h'.symm

theorem count_entry_ne {b b' : Bool} (s : σ) (n : Nat) (h : b' ≠ b) :
    (List.replicate n (b', s)).count (b, s) = 0 := by
  rw [List.count_replicate, if_neg]
  simp only [beq_iff_eq, Prod.mk.injEq, not_and]
  exact fun h' => absurd h' h

theorem process_inv {r : RState σ} {queue : List σ} {s : σ}
    (I : Inv G m0 r.st (fun x => (r.st x).deps) queue []) (hb : r.back = [])
    (hs : (r.st s).state.det = false) (hq : ∀ x, x ∈ queue ↔ x = s ∨ x ∈ r.queue) (hqn : r.queue.Nodup)
    (hsq : s ∉ r.queue) (hidle : G.NoIdle m0) : RInv G m0 (process G s r) := by
  have hqs := I.qWait s ((hq s).2 (Or.inl rfl))
  have hs' : (r.st s).state = .unknown := (not_det hs).resolve_right hqs.2.2
  have hks := hqs.1
  have h0 : G.init0 s = .unknown := I.base s hks hs
  have hw1 : (r.st s).waiting = 1 := by
    have h1 := I.unkWait s hs'
    have h2 := hqs.2.1
    omega
  obtain ⟨hx, hc⟩ := inspect_core hks h0 hs' (fun x h => (I.fresh x h).1) I.win I.lose
    (fun h1 h2 => hidle h1 h2 s (I.reach s hks) (init0_unknown h0).1 ((init0_unknown h0).2.1 h1))
  rw [process_eq]
  generalize inspect G s r.st = X at hx hc
  obtain ⟨st3, v, eB, cB⟩ := X
  simp only at hx hc ⊢
  have hks3 : (st3 s).known = true := hx.known hks
  -- fields that only depend on the extension
  have x3 : ∀ x, x ≠ s → ((st3.setState s v) x).state = ((st3.setState s .processed) x).state := by
    intro x hne
    rw [setState_other _ _ hne, setState_other _ _ hne]
  have keepP : ∀ F : Store σ, (∀ x, (F x).state = ((st3.setState s v) x).state) →
      Keeps (st3.setState s .processed) F := by
    intro F hF x hd
    have hne : x ≠ s := by rintro rfl; rw [setState_state] at hd; cases hd
    rw [hF x, x3 x hne]
  have waitE : ∀ x, (st3 x).waiting = (r.st x).waiting := by
    intro x
    by_cases h : x = s
    · subst h; rw [hx.self]
    · rcases hx.other x h with h' | h'
      · rw [h']
      · rw [h'.2.1, (I.fresh x h'.1).2.1]
  have depsE : ∀ x, (st3 x).deps = (r.st x).deps := by
    intro x
    by_cases h : x = s
    · subst h; rw [hx.self]
    · rcases hx.other x h with h' | h'
      · rw [h']
      · rw [h'.2.1]; exact (I.fresh x h'.1).2.2.symm
  have waitV : ∀ x, ((st3.setState s v) x).waiting = (r.st x).waiting := by
    intro x
    by_cases h : x = s
    · subst h; rw [← waitE x]; simp [Store.setState]
    · rw [setState_other _ _ h, waitE]
  have depsV : ∀ x, ((st3.setState s v) x).deps = (r.st x).deps := by
    intro x
    by_cases h : x = s
    · subst h; rw [← depsE x]; simp [Store.setState]
    · rw [setState_other _ _ h, depsE]
  -- no entry mentions `s` before
  have noS : ∀ x b, (b, s) ∉ (r.st x).deps := by
    intro x b h
    exact (I.depAct x b s h).2 hs'
  by_cases hcase : (!v.det || G.permissive) = true
  · rw [if_pos hcase]
    -- the final store
    have R1 := toQueue_res true s cB (st3.setState s v) r.queue
    have R2 := toQueue_res false s eB (toQueue true s cB (st3.setState s v) r.queue).1
      (toQueue true s cB (st3.setState s v) r.queue).2
    change QRes false s eB _ _ (enqueue s cB eB (st3.setState s v) r.queue) at R2
    generalize hY : enqueue s cB eB (st3.setState s v) r.queue = Y at R2
    obtain ⟨sty, Q'⟩ := Y
    simp only
    generalize hY1 : toQueue true s cB (st3.setState s v) r.queue = Y1 at R1 R2
    obtain ⟨st5, Q1⟩ := Y1
    -- read-off
    have fs : ∀ x, (sty x).state = ((st3.setState s v) x).state ∧ (sty x).known = ((st3.setState s v) x).known ∧
        (sty x).envC = ((st3.setState s v) x).envC ∧ (sty x).ctrlC = ((st3.setState s v) x).ctrlC := by
      intro x
      have a := R1.fields x
      have b := R2.fields x
      simp only at a b
      exact ⟨b.1.trans a.1, b.2.1.trans a.2.1, b.2.2.1.trans a.2.2.1, b.2.2.2.trans a.2.2.2⟩
    have ds : ∀ x, (sty x).deps = List.replicate (eB.count x) (false, s) ++
        (List.replicate (cB.count x) (true, s) ++ (r.st x).deps) := by
      intro x
      have a := R1.deps x
      have b := R2.deps x
      simp only at a b
      rw [b, a, depsV x]
    have w1 : ∀ x, (st5 x).waiting = if x ∈ cB ∧ (r.st x).waiting = 0 then 1 else (r.st x).waiting := by
      intro x
      have := R1.wait x
      simp only at this
      rw [this, waitV x]
    have w2 : ∀ x, (sty x).waiting = if x ∈ eB ∧ (st5 x).waiting = 0 then 1 else (st5 x).waiting := R2.wait
    have ww : ∀ x, (sty x).waiting =
        if (x ∈ cB ∨ x ∈ eB) ∧ (r.st x).waiting = 0 then 1 else (r.st x).waiting := by
      intro x
      rw [w2 x, w1 x]
      by_cases h1 : x ∈ cB <;> by_cases h2 : x ∈ eB <;> by_cases h3 : (r.st x).waiting = 0 <;>
        simp [h1, h2, h3]
    let F : Store σ := sty.put s { sty s with ctrlC := cB.length, envC := eB.length }
    have Fst : ∀ x, (F x).state = (sty x).state ∧ (F x).known = (sty x).known ∧ (F x).deps = (sty x).deps ∧
        (F x).waiting = (sty x).waiting := by
      intro x
      by_cases h : x = s
      · subst h; simp [F]
      · simp [F, put_other _ _ h]
    have Fs : (F s).state = v := by
      rw [(Fst s).1, (fs s).1, setState_state]
    have Fstate : ∀ x, (F x).state = ((st3.setState s v) x).state := fun x => by rw [(Fst x).1, (fs x).1]
    have Fne : ∀ x, x ≠ s → (F x).state = ((st3.setState s .processed) x).state := fun x h => by
      rw [Fstate, x3 x h]
    have hkeepF := keepP F Fstate
    have bufK : ∀ x, x ∈ cB ∨ x ∈ eB → (F x).known = true := by
      intro x hx'
      rw [(Fst x).2.1, (fs x).2.1, setState_known]
      rcases hx' with h | h
      · have := hc.cKnown x h; rwa [setState_known] at this
      · have := hc.eKnown x h; rwa [setState_known] at this
    have pushed : ∀ x, x ∈ cB ∨ x ∈ eB → (r.st x).waiting = 0 → x ∈ Q' := by
      intro x hx' h0'
      rcases hx' with h | h
      · exact R2.sub x (R1.pushed x h (by rw [waitV]; exact h0'))
      · by_cases h5 : (st5 x).waiting = 0
        · exact R2.pushed x h h5
        · apply R2.sub
          by_cases hcx : x ∈ cB
          · exact R1.pushed x hcx (by rw [waitV]; exact h0')
          · rw [w1 x, if_neg (by simp [hcx])] at h5
            exact absurd h0' h5
    have waitF : ∀ x, (F x).waiting = (r.st x).waiting ∨
        ((r.st x).waiting = 0 ∧ (F x).waiting = 1 ∧ x ∈ Q' ∧ (F x).known = true) := by
      intro x
      rw [(Fst x).2.2.2]
      by_cases h0' : (r.st x).waiting = 0
      · by_cases hm : x ∈ cB ∨ x ∈ eB
        · right
          refine ⟨h0', ?_, pushed x hm h0', bufK x hm⟩
          rw [ww x, if_pos ⟨hm, h0'⟩]
        · left
          rw [ww x, if_neg (fun h => hm h.1)]
      · left
        rw [ww x, if_neg (fun h => h0' h.2)]
    have qnew : ∀ x ∈ Q', x ∈ r.queue ∨
        ((r.st x).waiting = 0 ∧ (F x).waiting ≠ 0 ∧ (F x).known = true ∧ x ≠ s) := by
      intro x hx'
      have key : (x ∈ cB ∨ x ∈ eB) → (r.st x).waiting = 0 → (r.st x).waiting = 0 ∧ (F x).waiting ≠ 0 ∧
          (F x).known = true ∧ x ≠ s := by
        intro hm h0'
        refine ⟨h0', ?_, bufK x hm, ?_⟩
        · rw [(Fst x).2.2.2]
          rw [ww x, if_pos ⟨hm, h0'⟩]; simp
        · rintro rfl; rw [hw1] at h0'; cases h0'
      rcases R2.new x hx' with h | ⟨h, h'⟩
      · rcases R1.new x h with h | ⟨h, h'⟩
        · exact Or.inl h
        · rw [waitV] at h'
          exact Or.inr (key (Or.inl h) h')
      · right
        have h' : (st5 x).waiting = 0 := h'
        refine key (Or.inr h) ?_
        by_cases h0' : (r.st x).waiting = 0
        · exact h0'
        · rw [w1 x, if_neg (fun h => h0' h.2)] at h'; exact h'
    have qnd : Q'.Nodup := by
      apply R2.nodup
      · apply R1.nodup hqn
        intro x hx'
        rw [waitV]
        exact (I.qWait x ((hq x).2 (Or.inr hx'))).2.1
      · intro x hx'
        rcases R1.new x hx' with h | ⟨h, h'⟩
        · have h2 := (I.qWait x ((hq x).2 (Or.inr h))).2.1
          show (st5 x).waiting ≠ 0
          rw [w1 x, if_neg (fun h => h2 h.2)]; exact h2
        · rw [waitV] at h'
          show (st5 x).waiting ≠ 0
          rw [w1 x, if_pos ⟨h, h'⟩]; simp
    show Inv G m0 F (fun x => (F x).deps) Q' (if v.det then s :: r.back else r.back)
    refine I.processed (q := r.queue) hs' hq hsq hks ?_ ⟨?_, ?_⟩ ?_ ?_ ?_ waitF ?_ qnew qnd ?_ ?_ ?_ ?_ ?_
    · intro x hne
      have hF : F x = sty x := put_other _ _ hne
      have hv : (st3.setState s v) x = st3 x := setState_other _ _ hne
      rcases hx.other x hne with h | h
      · left
        rw [hF, (fs x).1, (fs x).2.1, (fs x).2.2.1, (fs x).2.2.2, hv, h]
        exact ⟨rfl, rfl, rfl, rfl⟩
      · right
        rw [hF, (fs x).1, (fs x).2.1, hv, h.2.1]
        exact ⟨h.1, rfl, rfl, List.mem_append.1 h.2.2⟩
    · rw [(Fst s).2.1, (fs s).2.1, setState_known]; exact hks3
    · rw [Fs]; exact hc.nu
    · intro x b m hm
      rw [(Fst x).2.2.1, ds x, List.count_append, List.count_append, count_entry _ _ _ _ _ hm,
        count_entry _ _ _ _ _ hm]
      omega
    · intro x b m hm
      simp only [(Fst x).2.2.1, ds x, List.mem_append, List.mem_replicate] at hm
      rcases hm with h | h | h
      · exact Or.inr (by simpa using congrArg Prod.snd h.2)
      · exact Or.inr (by simpa using congrArg Prod.snd h.2)
      · exact Or.inl h
    · intro x hx'
      rw [(Fst x).2.2.1, ds x]
      have hnc : x ∉ cB := fun h => by rw [bufK x (Or.inl h)] at hx'; cases hx'
      have hne : x ∉ eB := fun h => by rw [bufK x (Or.inr h)] at hx'; cases hx'
      rw [List.count_eq_zero.2 hnc, List.count_eq_zero.2 hne]
      simp only [List.replicate_zero, List.nil_append]
      have : (r.st x).known = false := by
        rw [(Fst x).2.1, (fs x).2.1, setState_known] at hx'
        cases hh : (r.st x).known with
        | false => rfl
        | true => rw [hx.known hh] at hx'; cases hx'
      exact (I.fresh x this).2.2
    · exact fun x hx' => R2.sub x (R1.sub x hx')
    · rw [Fs]; intro h; rw [if_pos h]; simp
    · intro x hx'
      rw [Fs]
      split at hx'
      · rename_i hd
        rw [hb] at hx'
        simp only [List.mem_singleton] at hx'
        exact ⟨hx', hd⟩
      · rw [hb] at hx'; cases hx'
    · rw [Fs]; intro h; exact (hc.win h).mono hkeepF
    · rw [Fs]; intro h; exact (hc.lose h).mono hkeepF
    · rw [Fs]
      intro ha
      have hpend : ∀ e, e ≠ s → (e ∈ cB ∨ e ∈ eB) → ((st3.setState s .processed) e).state.det = false →
          ((F e).state.det = true → e ∈ (if v.det = true then s :: r.back else r.back)) ∧
          ((F e).state = .unknown → e ∈ Q') := by
        intro e hne hm hd
        rw [Fne e hne]
        refine ⟨fun h => (by rw [hd] at h; cases h), fun h => ?_⟩
        by_cases h0' : (r.st e).waiting = 0
        · exact pushed e hm h0'
        · apply R2.sub; apply R1.sub
          rw [setState_other _ _ hne] at h
          refine ((hq e).1 (I.unkQ e ?_ h0')).resolve_left hne
          rcases hx.other e hne with h' | h'
          · rw [← h']; exact h
          · exact (I.fresh e h'.1).1
      refine ⟨eB, cB, ?_, ?_, ?_, ?_, fun e he => (hc.eSub ha e he).1, hc.cSub ha, ?_, ?_, ?_, ?_⟩
      · simp [F]
      · simp [F]
      · intro x
        rw [(Fst x).2.2.1, ds x, List.count_append, List.count_append, List.count_replicate_self,
          count_entry_ne s _ (by simp), List.count_eq_zero.2 (noS x false)]
        rfl
      · intro x
        rw [(Fst x).2.2.1, ds x, List.count_append, List.count_append, List.count_replicate_self,
          count_entry_ne s _ (by simp), List.count_eq_zero.2 (noS x true)]
        omega
      · intro e he
        rcases hc.eAll ha e he with h | h | h
        · exact Or.inl (hkeepF.win h)
        · exact Or.inr (Or.inl h)
        · exact Or.inr (Or.inr h)
      · intro e he
        obtain ⟨_, h2, h3⟩ := hc.eSub ha e he
        exact hpend e h2 (Or.inr he) h3
      · rw [Fs]
        intro hp
        obtain ⟨h1, h2, h3⟩ := hc.proc hp
        exact ⟨h1, fun c hcc => (h2 c hcc).imp hkeepF.lose id,
          fun c hcc => hpend c (h3 c hcc).1 (Or.inl hcc) (h3 c hcc).2⟩
      · rw [Fs]
        intro hp
        obtain ⟨h1, h2⟩ := hc.may hp
        refine ⟨?_, h2⟩
        rcases h1 with h1 | ⟨c, hcc, h1⟩ | h1
        · exact Or.inl h1
        · exact Or.inr (Or.inl ⟨c, hcc, hkeepF.win h1⟩)
        · exact Or.inr (Or.inr h1)
  · rw [if_neg hcase]
    have hvd : v.det = true := by
      cases hh : v.det with
      | true => rfl
      | false => rw [hh] at hcase; exact absurd rfl hcase
    have hkeepF := keepP (st3.setState s v) (fun _ => rfl)
    show Inv G m0 (st3.setState s v) (fun x => ((st3.setState s v) x).deps) r.queue
      (if v.det then s :: r.back else r.back)
    refine I.processed (q := r.queue) hs' hq hsq hks ?_ ⟨?_, ?_⟩ ?_ ?_ ?_ (fun x => Or.inl (waitV x))
      (fun _ h => h) (fun _ h => Or.inl h) hqn ?_ ?_ ?_ ?_ ?_
    · intro x hne
      rw [setState_other _ _ hne]
      rcases hx.other x hne with h | h
      · left; rw [h]; exact ⟨rfl, rfl, rfl, rfl⟩
      · right; rw [h.2.1]; exact ⟨h.1, rfl, rfl, List.mem_append.1 h.2.2⟩
    · rw [setState_known]; exact hks3
    · rw [setState_state]; exact hc.nu
    · intro x b m _; simp only [depsV]
    · intro x b m hm; rw [depsV] at hm; exact Or.inl hm
    · intro x hx'
      simp only [depsV]
      rw [setState_known] at hx'
      have : (r.st x).known = false := by
        cases hh : (r.st x).known with
        | false => rfl
        | true => rw [hx.known hh] at hx'; cases hx'
      exact (I.fresh x this).2.2
    · intro _; rw [if_pos hvd]; simp
    · intro x hx'
      rw [if_pos hvd, hb] at hx'
      simp only [List.mem_singleton] at hx'
      exact ⟨hx', by rw [setState_state]; exact hvd⟩
    · rw [setState_state]; intro h; exact (hc.win h).mono hkeepF
    · rw [setState_state]; intro h; exact (hc.lose h).mono hkeepF
    · rw [setState_state]; intro h; rw [active_det h] at hvd; cases hvd

/-- A configuration that is not waited for by an undetermined one is dropped. -/
theorem drop_inv {r : RState σ} {queue : List σ} {s : σ}
    (I : Inv G m0 r.st (fun x => (r.st x).deps) queue []) (hs : (r.st s).state.det = false)
    (hq : ∀ x, x ∈ queue ↔ x = s ∨ x ∈ r.queue) (hqn : r.queue.Nodup) (hsq : s ∉ r.queue)
    (hd : ∀ d ∈ (r.st s).deps, (r.st d.2).state.det = true) (hm : s ≠ m0) :
    Inv G m0 (r.st.put s { r.st s with waiting := 0, deps := [] })
      (fun x => ((r.st.put s { r.st s with waiting := 0, deps := [] }) x).deps) r.queue [] := by
  have hqs := I.qWait s ((hq s).2 (Or.inl rfl))
  have hs' : (r.st s).state = .unknown := (not_det hs).resolve_right hqs.2.2
  have hst : ∀ x, ((r.st.put s { r.st s with waiting := 0, deps := [] }) x).state = (r.st x).state := by
    intro x
    by_cases h : x = s
    · subst h; simp
    · rw [put_other _ _ h]
  have hkn : ∀ x, ((r.st.put s { r.st s with waiting := 0, deps := [] }) x).known = (r.st x).known := by
    intro x
    by_cases h : x = s
    · subst h; simp
    · rw [put_other _ _ h]
  have hkeep : Keeps r.st (r.st.put s { r.st s with waiting := 0, deps := [] }) := fun x _ => hst x
  have hcnt : ∀ x b m, Active (r.st m).state →
      (((r.st.put s { r.st s with waiting := 0, deps := [] }) x).deps).count (b, m) = (r.st x).deps.count (b, m) := by
    intro x b m ha
    by_cases h : x = s
    · subst h
      simp only [put_same, List.count_nil]
      symm
      rw [List.count_eq_zero]
      intro hmem
      have := hd _ hmem
      rw [active_det ha] at this; cases this
    · rw [put_other _ _ h]
  constructor
  · intro x hx
    have hne : x ≠ s := by rintro rfl; rw [hkn, hqs.1] at hx; cases hx
    simp only [put_other _ _ hne] at hx ⊢
    exact I.fresh x hx
  · intro x; rw [hkn]; exact I.reach x
  · intro x; rw [hkn, hst]; exact I.base x
  · intro x; rw [hst]; exact fun h => (I.win x h).mono hkeep
  · intro x; rw [hst]; exact fun h => (I.lose x h).mono hkeep
  · intro x; rw [hst]; intro ha
    have hne : x ≠ s := by rintro rfl; rw [hs'] at ha; rcases ha with ha | ha <;> cases ha
    obtain ⟨eP, cP, A⟩ := I.act x ha
    have pend : ∀ {l : List σ} {b : Bool}, (∀ y, l.count y = (r.st y).deps.count (b, x)) → ∀ e ∈ l,
        (((r.st e).state.det = true → e ∈ ([] : List σ)) ∧ ((r.st e).state = .unknown → e ∈ queue)) →
        (((r.st e).state.det = true → e ∈ ([] : List σ)) ∧ ((r.st e).state = .unknown → e ∈ r.queue)) := by
      intro l b hl e he h
      refine ⟨h.1, fun hu => ((hq e).1 (h.2 hu)).resolve_left ?_⟩
      rintro rfl
      have h1 := hl e
      have h2 : (b, x) ∈ (r.st e).deps := by
        rw [← List.count_pos_iff, ← h1]
        exact List.count_pos_iff.2 he
      have := hd _ h2
      rw [active_det ha] at this; cases this
    refine ⟨eP, cP, ?_, ?_, ?_, ?_, A.eSub, A.cSub, ?_, ?_, ?_, ?_⟩
    · rw [put_other _ _ hne]; exact A.envC
    · rw [put_other _ _ hne]; exact A.ctrlC
    · intro y; rw [A.eCount y, hcnt y _ x ha]
    · intro y; rw [A.cCount y, hcnt y _ x ha]
    · intro e; rw [hst]; exact A.env e
    · intro e he; rw [hst]; exact pend A.eCount e he (A.ePend e he)
    · rw [hst]; intro hp
      obtain ⟨h1, h2, h3⟩ := A.proc hp
      exact ⟨h1, fun c => by rw [hst]; exact h2 c, fun c hc => by rw [hst]; exact pend A.cCount c hc (h3 c hc)⟩
    · rw [hst]; intro hp
      obtain ⟨h1, h2⟩ := A.may hp
      refine ⟨?_, h2⟩
      rcases h1 with h1 | ⟨c, hc, h1⟩ | h1
      · exact Or.inl h1
      · exact Or.inr (Or.inl ⟨c, hc, by rw [hst]; exact h1⟩)
      · exact Or.inr (Or.inr h1)
  · intro x b m hx
    rw [hkn, hst]
    by_cases h : x = s
    · subst h; simp only [put_same] at hx; cases hx
    · rw [put_other _ _ h] at hx; exact I.depAct x b m hx
  · exact hqn
  · intro x hx
    have hne : x ≠ s := by rintro rfl; exact hsq hx
    rw [put_other _ _ hne]; exact I.qWait x ((hq x).2 (Or.inr hx))
  · intro x; rw [hst]; intro ha
    have hne : x ≠ s := by rintro rfl; rw [hs'] at ha; rcases ha with ha | ha <;> cases ha
    rw [put_other _ _ hne]; exact I.actWait x ha
  · intro x; rw [hst]; intro hx hw
    have hne : x ≠ s := by rintro rfl; simp at hw
    rw [put_other _ _ hne] at hw
    exact ((hq x).1 (I.unkQ x hx hw)).resolve_left hne
  · intro x; rw [hst]; intro hx
    by_cases h : x = s
    · subst h; simp
    · rw [put_other _ _ h]; exact I.unkWait x hx
  · intro x hx; cases hx
  · rw [put_other _ _ (Ne.symm hm)]; exact I.root

/-- A determined configuration is removed from the queue. -/
theorem skip_inv {r : RState σ} {queue B' : List σ} {s : σ}
    (I : Inv G m0 r.st (fun x => (r.st x).deps) queue []) (hs : (r.st s).state.det = true)
    (hq : ∀ x, x ∈ queue ↔ x = s ∨ x ∈ r.queue) (hqn : r.queue.Nodup)
    (hB : ∀ x ∈ B', (r.st x).state.det = true) :
    Inv G m0 r.st (fun x => (r.st x).deps) r.queue B' := by
  have hmem : ∀ x, (r.st x).state = .unknown → x ∈ queue → x ∈ r.queue := by
    intro x hx h
    refine ((hq x).1 h).resolve_left ?_
    rintro rfl
    rw [hx] at hs; cases hs
  have pend : ∀ e, (((r.st e).state.det = true → e ∈ ([] : List σ)) ∧ ((r.st e).state = .unknown → e ∈ queue)) →
      (((r.st e).state.det = true → e ∈ B') ∧ ((r.st e).state = .unknown → e ∈ r.queue)) := by
    intro e h
    exact ⟨fun h' => (by cases h.1 h'), fun h' => hmem e h' (h.2 h')⟩
  refine ⟨I.fresh, I.reach, I.base, I.win, I.lose, ?_, I.depAct, hqn, ?_, I.actWait, ?_, I.unkWait, hB, I.root⟩
  · intro x hx
    obtain ⟨eP, cP, A⟩ := I.act x hx
    refine ⟨eP, cP, A.envC, A.ctrlC, A.eCount, A.cCount, A.eSub, A.cSub, A.env, ?_, ?_, A.may⟩
    · exact fun e he => pend e (A.ePend e he)
    · intro hp
      obtain ⟨h1, h2, h3⟩ := A.proc hp
      exact ⟨h1, h2, fun c hc => pend c (h3 c hc)⟩
  · exact fun x hx => I.qWait x ((hq x).2 (Or.inr hx))
  · exact fun x hx hw => hmem x hx (I.unkQ x hx hw)

theorem eraseIdx_mem {l : List σ} {i : Nat} {s : σ} (h : l[i]? = some s) (hn : l.Nodup) :
    (∀ x, x ∈ l ↔ x = s ∨ x ∈ l.eraseIdx i) ∧ (l.eraseIdx i).Nodup ∧ s ∉ l.eraseIdx i := by
  induction l generalizing i with
  | nil => simp at h
  | cons a l ih =>
    rw [List.nodup_cons] at hn
    cases i with
    | zero =>
      simp only [List.getElem?_cons_zero, Option.some.injEq] at h
      subst h
      simp [hn.1, hn.2]
    | succ i =>
      simp only [List.getElem?_cons_succ] at h
      obtain ⟨h1, h2, h3⟩ := ih h hn.2
      have hs : s ∈ l := (h1 s).2 (Or.inl rfl)
      refine ⟨fun x => ?_, ?_, ?_⟩
      · simp only [List.mem_cons, List.eraseIdx_cons_succ, h1 x]
        constructor
        · rintro (h | h | h) <;> simp [h]
        · rintro (h | h | h) <;> simp [h]
      · rw [List.eraseIdx_cons_succ, List.nodup_cons]
        exact ⟨fun h' => hn.1 ((h1 a).2 (Or.inr h')), h2⟩
      · rw [List.eraseIdx_cons_succ, List.mem_cons]
        rintro (rfl | h')
        · exact hn.1 hs
        · exact h3 h'

theorem step_inv {r r' : RState σ} (hidle : G.NoIdle m0) (I : RInv G m0 r) (h : step G m0 r = some r') :
    RInv G m0 r' := by
  unfold step at h
  split at h
  · cases h
  · cases hb : r.back with
    | cons next back =>
      rw [hb] at h
      simp only [Option.some.injEq] at h
      subst h
      have I' : Inv G m0 r.st (fun x => (r.st x).deps) r.queue (next :: back) := by rw [← hb]; exact I
      exact back_inv I'
    | nil =>
      rw [hb] at h
      simp only at h
      have I' : Inv G m0 r.st (fun x => (r.st x).deps) r.queue [] := by rw [← hb]; exact I
      cases hg : r.queue[popIdx G r]? with
      | none => rw [hg] at h; cases h
      | some s =>
        rw [hg] at h
        simp only [Option.some.injEq] at h
        subst h
        obtain ⟨h1, h2, h3⟩ := eraseIdx_mem hg I'.nodup
        unfold popStep
        simp only
        split
        · rename_i hd
          refine skip_inv (r := { r with queue := r.queue.eraseIdx (popIdx G r), pops := r.pops + 1 }) I' hd h1 h2 ?_
          intro x hx
          simp only at hx
          split at hx
          · rw [List.mem_singleton.1 hx]; exact hd
          · cases hx
        · rename_i hd
          have hd' : (r.st s).state.det = false := by simpa using hd
          split
          · rename_i hc
            rw [Bool.and_eq_true, List.all_eq_true] at hc
            have := drop_inv (r := { r with queue := r.queue.eraseIdx (popIdx G r), pops := r.pops + 1 }) I' hd' h1 h2 h3
              hc.1 (by simpa using hc.2)
            unfold RInv
            simp only [hb]
            exact this
          · exact process_inv (r := { r with queue := r.queue.eraseIdx (popIdx G r), back := [], pops := r.pops + 1 }) I' rfl hd' h1 h2 h3 hidle

theorem start_inv : RInv G m0 (start G m0) := by
  have hst : ∀ x, x ≠ m0 → (start G m0).st x = {} := by
    intro x hx
    simp [start, getConfig, put_other _ _ hx]
  have h0 : (start G m0).st m0 = { known := true, state := G.init0 m0, waiting := 1 } := by
    simp [start, getConfig]
  have hq : (start G m0).queue = [m0] := rfl
  have hb : (start G m0).back = [] := rfl
  have hna : ∀ x, ¬ Active ((start G m0).st x).state := by
    intro x ha
    by_cases h : x = m0
    · subst h; rw [h0] at ha
      rcases init0_cases G x with h' | h' | h' <;> simp only [h'] at ha <;> rcases ha with ha | ha <;> cases ha
    · rw [hst x h] at ha; rcases ha with ha | ha <;> cases ha
  have hdeps : ∀ x, ((start G m0).st x).deps = [] := by
    intro x
    by_cases h : x = m0
    · subst h; rw [h0]
    · rw [hst x h]
  unfold RInv
  rw [hq, hb]
  constructor
  · intro x hx
    have hne : x ≠ m0 := by rintro rfl; rw [h0] at hx; cases hx
    rw [hst x hne]; exact ⟨rfl, rfl, rfl⟩
  · intro x hx
    by_cases h : x = m0
    · subst h; exact .refl
    · rw [hst x h] at hx; cases hx
  · intro x hx hd
    by_cases h : x = m0
    · subst h; rw [h0] at hd
      rcases init0_cases G x with h' | h' | h'
      · exact h'
      · simp only [h'] at hd; cases hd
      · simp only [h'] at hd; cases hd
    · rw [hst x h] at hx; cases hx
  · intro x hx
    by_cases h : x = m0
    · subst h; rw [h0] at hx; exact init0_win _ hx
    · rw [hst x h] at hx; cases hx
  · intro x hx
    by_cases h : x = m0
    · subst h; rw [h0] at hx; exact init0_lose _ hx
    · rw [hst x h] at hx; cases hx
  · exact fun x hx => absurd hx (hna x)
  · intro x b m hx; rw [hdeps x] at hx; cases hx
  · simp
  · intro x hx
    rw [List.mem_singleton] at hx
    subst hx
    refine ⟨by rw [h0], by rw [h0]; simp, hna x⟩
  · exact fun x hx => absurd hx (hna x)
  · intro x _ hw
    by_cases h : x = m0
    · simp [h]
    · rw [hst x h] at hw; exact absurd rfl hw
  · intro x _
    by_cases h : x = m0
    · subst h; rw [h0]; simp
    · rw [hst x h]; simp
  · intro x hx; cases hx
  · rw [h0]; exact ⟨rfl, by simp⟩

theorem loop_inv (hidle : G.NoIdle m0) : ∀ (fuel : Nat) (r r' : RState σ), RInv G m0 r →
    loop G m0 fuel r = some r' → RInv G m0 r' ∧ step G m0 r' = none
  | 0, _, _, _, h => by simp [loop] at h
  | fuel + 1, r, r', I, h => by
    simp only [loop] at h
    cases hs : step G m0 r with
    | none =>
      rw [hs] at h
      simp only [Option.some.injEq] at h
      subst h
      exact ⟨I, hs⟩
    | some r'' =>
      rw [hs] at h
      exact loop_inv hidle fuel r'' r' (step_inv hidle I hs) h

/-- The loop is left when `meta` is determined, or when nothing is left to do. -/
theorem step_none {r : RState σ} (h : step G m0 r = none) :
    (r.st m0).state.det = true ∨ (r.back = [] ∧ r.queue = []) := by
  unfold step at h
  split at h
  · rename_i hc
    exact Or.inl hc.2.1
  · right
    cases hb : r.back with
    | cons next back => rw [hb] at h; simp at h
    | nil =>
      rw [hb] at h
      simp only at h
      refine ⟨rfl, ?_⟩
      cases hq : r.queue with
      | nil => rfl
      | cons a l =>
        have : popIdx G r < r.queue.length := by
          unfold popIdx
          apply Nat.mod_lt
          rw [hq]; simp
        rw [List.getElem?_eq_getElem this] at h
        cases h

theorem run_correct (hidle : G.NoIdle m0) {fuel : Nat} {b : Bool} (h : run G m0 fuel = some b) :
    b = true ↔ G.Wins m0 := by
  unfold run at h
  cases hl : loop G m0 fuel (start G m0) with
  | none => rw [hl] at h; cases h
  | some r =>
    rw [hl] at h
    simp only [Option.map_some, Option.some.injEq] at h
    obtain ⟨I, hs⟩ := loop_inv hidle fuel _ r start_inv hl
    have hwin : (r.st m0).state = .winning → G.Wins m0 := fun h => I.win_sound h
    have hlose : (r.st m0).state = .losing → ¬ G.Wins m0 := fun h => I.lose_sound h
    have hcases : (r.st m0).state = .winning ∨ (r.st m0).state = .losing ∨
        (((r.st m0).state = .processed ∨ (r.st m0).state = .maybe) ∧ (G.Wins m0 ↔ G.safety = true)) := by
      rcases step_none hs with hd | ⟨h1, h2⟩
      · rcases det_iff.1 hd with h | h
        · exact Or.inr (Or.inl h)
        · exact Or.inl h
      · have I' : Inv G m0 r.st (fun x => (r.st x).deps) [] [] := by
          have := I
          unfold RInv at this
          rwa [h1, h2] at this
        cases hd : (r.st m0).state.det with
        | true =>
          rcases det_iff.1 hd with h | h
          · exact Or.inr (Or.inl h)
          · exact Or.inl h
        | false =>
          rcases not_det hd with hu | ha
          · have := I'.unkQ m0 hu I'.root.2
            cases this
          · exact Or.inr (Or.inr ⟨ha, I'.final_active ha⟩)
    subst h
    unfold answer
    cases hsafe : G.safety with
    | true =>
      simp only [if_true, decide_eq_true_eq]
      rcases hcases with h | h | ⟨h, hw⟩
      · simp [h, hwin h]
      · simp [h, hlose h]
      · rw [hw, hsafe]
        rcases h with h | h <;> simp [h]
    | false =>
      simp only [Bool.false_eq_true, if_false, decide_eq_true_eq]
      rcases hcases with h | h | ⟨h, hw⟩
      · simp [h, hwin h]
      · simp [h, hlose h]
      · rw [hw, hsafe]
        rcases h with h | h <;> simp [h]

end Synth
end Verif
