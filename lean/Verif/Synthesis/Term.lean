import Verif.Synthesis.Step

/-! # Synthesis: the loop terminates on finite games -/

namespace Verif
namespace Synth

set_option linter.unusedSectionVars false
set_option linter.unusedSimpArgs false

variable {σ : Type} [DecidableEq σ]
variable {G : Game σ} {m0 : σ}

/-- What termination rests on; `U` is a list closed under the successors of undecided markings. -/
structure TI (G : Game σ) (U : List σ) (r : RState σ) : Prop where
  base : ∀ x, (r.st x).known = true → (r.st x).state.det = false → G.init0 x = .unknown
  fresh : ∀ x, (r.st x).known = false → (r.st x).state = .unknown ∧ (r.st x).waiting = 0 ∧ (r.st x).deps = []
  dom : ∀ x, (r.st x).known = true → x ∈ U
  que : ∀ x ∈ r.queue, (r.st x).known = true ∧ (r.st x).waiting ≠ 0 ∧ ¬ Active (r.st x).state
  nodup : r.queue.Nodup
  act : ∀ x, Active (r.st x).state → (r.st x).waiting ≠ 0
  dep : ∀ x b m, (b, m) ∈ (r.st x).deps → (r.st m).state ≠ .unknown

/-- The number of markings without successors generated. -/
def cU (U : List σ) (st : Store σ) : Nat := U.countP (fun x => (st x).state = .unknown)

/-- The number of undetermined markings. -/
def cD (U : List σ) (st : Store σ) : Nat := U.countP (fun x => (st x).state.det = false)

theorem countP_lt {p q : σ → Bool} : ∀ {l : List σ} {x : σ}, (∀ y ∈ l, q y = true → p y = true) →
    x ∈ l → p x = true → q x = false → l.countP q < l.countP p
  | [], _, _, hx, _, _ => by cases hx
  | a :: l, x, h, hx, hp, hq => by
    have hle : l.countP q ≤ l.countP p := List.countP_mono_left (fun y hy => h y (List.mem_cons_of_mem _ hy))
    rcases List.mem_cons.1 hx with rfl | hx
    · rw [List.countP_cons_of_pos hp, List.countP_cons_of_neg (by simp [hq])]
      omega
    · have ih := countP_lt (fun y hy => h y (List.mem_cons_of_mem _ hy)) hx hp hq
      rw [List.countP_cons, List.countP_cons]
      by_cases ha : q a = true
      · rw [if_pos ha, if_pos (h a (by simp) ha)]; omega
      · rw [if_neg ha]; omega

theorem fixAssign_nu {safety : Bool} {v : CState} {a b c d e : Bool} (h : v ≠ .unknown) :
    fixAssign safety v a b c d e ≠ .unknown := by
  unfold fixAssign
  repeat' split
  all_goals first | exact h | simp

/-- The part of `inspect_core` that needs no assumption on the game. -/
theorem inspect_basic {st : Store σ} {s : σ} (hk : (st s).known = true) :
    Ext G s (G.env s ++ G.ctrl s) st (inspect G s st).1 ∧ (inspect G s st).2.1 ≠ .unknown ∧
    (∀ e ∈ (inspect G s st).2.2.1, ((inspect G s st).1 e).known = true) ∧
    (∀ e ∈ (inspect G s st).2.2.2, ((inspect G s st).1 e).known = true) := by
  have hk1 : ((st.setState s .processed) s).known = true := by rw [setState_known]; exact hk
  have hE := envLoop_res (G := G) (s := s) (G.env s) (st.setState s .processed) false [] hk1 (setState_state _ _ _)
  unfold inspect
  simp only
  generalize hEe : envLoop G s (G.env s) (st.setState s .processed) false [] = E at hE ⊢
  obtain ⟨st2, someEnv, eB⟩ := E
  simp only at hE ⊢
  have x1 : Ext G s (G.env s ++ G.ctrl s) st st2 :=
    (ext_setState _ _ _ _).trans (hE.ext.mono (fun x hx => List.mem_append_left _ hx))
  have eext : Ext G s (G.env s) (st.setState s .processed) st2 := hE.ext
  have eK : ∀ e ∈ eB, (st2 e).known = true := hE.bufK (by simp)
  by_cases hd : (st2 s).state.det = true
  · rw [if_pos hd]
    refine ⟨x1, ?_, eK, by simp⟩
    apply fixAssign_nu
    simp only
    intro h; rw [h] at hd; cases hd
  · rw [if_neg hd]
    have hp : (st2 s).state = .processed := by
      rcases hE.res with ⟨h, _⟩ | ⟨h, _⟩
      · exfalso; apply hd; rw [show (st2 s).state = .losing from h]; rfl
      · exact h
    have hk2 : (st2 s).known = true := eext.known hk1
    have hC := ctrlLoop_res (G := G) (s := s) (envEmpty := eB.isEmpty) (G.ctrl s) st2 false false [] hk2
      (by rw [hp]; exact Or.inl rfl)
    generalize hCe : ctrlLoop G s eB.isEmpty (G.ctrl s) st2 false false [] = C at hC ⊢
    obtain ⟨st3, someCtrl, someWin, cB⟩ := C
    simp only at hC ⊢
    have cext : Ext G s (G.ctrl s) st2 st3 := hC.ext
    refine ⟨x1.trans (cext.mono (fun x hx => List.mem_append_right _ hx)), ?_,
      fun e he => cext.known (eK e he), ?_⟩
    · apply fixAssign_nu
      rcases hC.res with ⟨_, _, _, _, ⟨h, _⟩ | ⟨h, _⟩⟩ | ⟨_, h, _⟩
      · rw [show (st3 s).state = (st2 s).state from h, hp]; simp
      · rw [show (st3 s).state = .maybe from h]; simp
      · rw [show (st3 s).state = (if eB.isEmpty then .winning else .maybe) from h]; split <;> simp
    · intro c hc
      rcases hC.res with ⟨b, hb, h1, _⟩ | ⟨h, _⟩
      · have : cB = b := by simpa using hb
        subst this
        exact (h1 c hc).2.1
      · rw [show cB = [] from h] at hc; cases hc

/-- The queue and the waiting flags after `to_queue`. -/
theorem enqueue_res (s : σ) (cB eB : List σ) (st : Store σ) (q : List σ) :
    (∀ x, ((enqueue s cB eB st q).1 x).state = (st x).state ∧
      ((enqueue s cB eB st q).1 x).known = (st x).known) ∧
    (∀ x b m, (b, m) ∈ ((enqueue s cB eB st q).1 x).deps → (b, m) ∈ (st x).deps ∨ (m = s ∧ (x ∈ cB ∨ x ∈ eB))) ∧
    (∀ x, ((enqueue s cB eB st q).1 x).waiting = if (x ∈ cB ∨ x ∈ eB) ∧ (st x).waiting = 0 then 1 else (st x).waiting) ∧
    (∀ x ∈ (enqueue s cB eB st q).2, x ∈ q ∨ ((x ∈ cB ∨ x ∈ eB) ∧ (st x).waiting = 0)) ∧
    (q.Nodup → (∀ x ∈ q, (st x).waiting ≠ 0) → (enqueue s cB eB st q).2.Nodup) := by
  have R1 := toQueue_res true s cB st q
  have R2 := toQueue_res false s eB (toQueue true s cB st q).1 (toQueue true s cB st q).2
  change QRes false s eB _ _ (enqueue s cB eB st q) at R2
  generalize enqueue s cB eB st q = Y at R2
  obtain ⟨sty, Q'⟩ := Y
  generalize toQueue true s cB st q = Y1 at R1 R2
  obtain ⟨st5, Q1⟩ := Y1
  have w1 : ∀ x, (st5 x).waiting = if x ∈ cB ∧ (st x).waiting = 0 then 1 else (st x).waiting := R1.wait
  have w2 : ∀ x, (sty x).waiting = if x ∈ eB ∧ (st5 x).waiting = 0 then 1 else (st5 x).waiting := R2.wait
  refine ⟨fun x => ⟨(R2.fields x).1.trans (R1.fields x).1, (R2.fields x).2.1.trans (R1.fields x).2.1⟩, ?_, ?_, ?_, ?_⟩
  · intro x b m h
    have a := R1.deps x
    have b' := R2.deps x
    simp only at a b' h
    rw [b', a] at h
    simp only [List.mem_append, List.mem_replicate] at h
    have cnt : ∀ l : List σ, l.count x ≠ 0 → x ∈ l := fun l h => List.count_pos_iff.1 (Nat.pos_of_ne_zero h)
    rcases h with h | h | h
    · exact Or.inr ⟨by simpa using congrArg Prod.snd h.2, Or.inr (cnt _ h.1)⟩
    · exact Or.inr ⟨by simpa using congrArg Prod.snd h.2, Or.inl (cnt _ h.1)⟩
    · exact Or.inl h
  · intro x
    simp only
    rw [w2 x, w1 x]
    by_cases h1 : x ∈ cB <;> by_cases h2 : x ∈ eB <;> by_cases h3 : (st x).waiting = 0 <;>
      simp [h1, h2, h3]
  · intro x hx
    rcases R2.new x hx with h | ⟨h, h'⟩
    · rcases R1.new x h with h | ⟨h, h'⟩
      · exact Or.inl h
      · exact Or.inr ⟨Or.inl h, h'⟩
    · have h' : (st5 x).waiting = 0 := h'
      refine Or.inr ⟨Or.inr h, ?_⟩
      by_cases h0' : (st x).waiting = 0
      · exact h0'
      · rw [w1 x, if_neg (fun h => h0' h.2)] at h'; exact h'
  · intro hn hw
    apply R2.nodup
    · exact R1.nodup hn hw
    · intro x hx
      show (st5 x).waiting ≠ 0
      rcases R1.new x hx with h | ⟨h, h'⟩
      · rw [w1 x, if_neg (fun h' => hw x h h'.2)]; exact hw x h
      · rw [w1 x, if_pos ⟨h, h'⟩]; simp

theorem process_ti {U : List σ} (hU : ∀ x ∈ U, G.init0 x = .unknown → ∀ y ∈ G.env x ++ G.ctrl x, y ∈ U) {r : RState σ} {queue : List σ} {s : σ}
    (T : TI G U { r with queue := queue }) (hs : (r.st s).state.det = false)
    (hq : ∀ x, x ∈ queue ↔ x = s ∨ x ∈ r.queue) (hqn : r.queue.Nodup) (hsq : s ∉ r.queue) :
    TI G U (process G s r) ∧ cU U (process G s r).st < cU U r.st := by
  have hqs := T.que s ((hq s).2 (Or.inl rfl))
  have hs' : (r.st s).state = .unknown := (not_det hs).resolve_right hqs.2.2
  have hks : (r.st s).known = true := hqs.1
  have hsU : s ∈ U := T.dom s hks
  have hfr : ∀ x, (r.st x).known = false → (r.st x).state = .unknown ∧ (r.st x).waiting = 0 ∧ (r.st x).deps = [] := T.fresh
  have hdep : ∀ x b m, (b, m) ∈ (r.st x).deps → (r.st m).state ≠ .unknown := T.dep
  obtain ⟨hx, hv, hek, hck⟩ := inspect_basic (G := G) (st := r.st) hks
  rw [process_eq]
  generalize inspect G s r.st = X at hx hv hek hck
  obtain ⟨st3, v, eB, cB⟩ := X
  simp only at hx hv hek hck ⊢
  have hks3 : (st3 s).known = true := hx.known hks
  -- the store after `fix_assignment`
  let P := st3.setState s v
  have Ps : (P s).state = v := setState_state _ _ _
  have Pk : ∀ x, (P x).known = (st3 x).known := fun x => setState_known _ _ _ _
  have Pw : ∀ x, (P x).waiting = (r.st x).waiting := by
    intro x
    by_cases h : x = s
    · subst h; simp only [P, Store.setState, put_same]; rw [hx.self]
    · rw [show P x = st3 x from setState_other _ _ h]
      rcases hx.other x h with h' | h'
      · rw [h']
      · rw [h'.2.1]; exact (hfr x h'.1).2.1.symm
  have Pd : ∀ x, (P x).deps = (r.st x).deps := by
    intro x
    by_cases h : x = s
    · subst h; simp only [P, Store.setState, put_same]; rw [hx.self]
    · rw [show P x = st3 x from setState_other _ _ h]
      rcases hx.other x h with h' | h'
      · rw [h']
      · rw [h'.2.1]; exact (hfr x h'.1).2.2.symm
  have Pst : ∀ x, x ≠ s → (P x).state = (r.st x).state ∨ ((r.st x).state = .unknown ∧ (P x).state = G.init0 x) := by
    intro x h
    rw [show P x = st3 x from setState_other _ _ h]
    rcases hx.other x h with h' | h'
    · rw [h']; exact Or.inl rfl
    · rw [h'.2.1]; exact Or.inr ⟨(hfr x h'.1).1, rfl⟩
  have Pdom : ∀ x, (P x).known = true → x ∈ U := by
    intro x h
    rw [Pk] at h
    by_cases hxs : x = s
    · rw [hxs]; exact hsU
    · rcases hx.other x hxs with h' | h'
      · rw [h'] at h; exact T.dom x h
      · exact hU s hsU (T.base s hks hs) x h'.2.2
  have Pfr : ∀ x, (P x).known = false → (r.st x).known = false ∧ x ≠ s ∧ P x = r.st x := by
    intro x h
    rw [Pk] at h
    have hne : x ≠ s := by rintro rfl; rw [hks3] at h; cases h
    rcases hx.other x hne with h' | h'
    · exact ⟨by rw [← h']; exact h, hne, by rw [show P x = st3 x from setState_other _ _ hne, h']⟩
    · rw [h'.2.1] at h; cases h
  have Pnu : ∀ x, (r.st x).state ≠ .unknown → (P x).state ≠ .unknown := by
    intro x h
    by_cases hxs : x = s
    · subst hxs; rw [Ps]; exact hv
    · rcases Pst x hxs with h' | h'
      · rw [h']; exact h
      · exact absurd h'.1 h
  have Pact : ∀ x, x ≠ s → Active (P x).state → Active (r.st x).state := by
    intro x h ha
    rcases Pst x h with h' | h'
    · rw [← h']; exact ha
    · rw [h'.2] at ha
      rcases init0_cases G x with h2 | h2 | h2 <;> rw [h2] at ha <;> rcases ha with ha | ha <;> cases ha
  have Pbase : ∀ x, (P x).known = true → (P x).state.det = false → G.init0 x = .unknown := by
    intro x hk hd
    by_cases hxs : x = s
    · rw [hxs]; exact T.base s hks hs
    · rw [show P x = st3 x from setState_other _ _ hxs] at hk hd
      rcases hx.other x hxs with h' | h'
      · rw [h'] at hk hd; exact T.base x hk hd
      · rw [h'.2.1] at hd
        rcases init0_cases G x with h2 | h2 | h2
        · exact h2
        · simp only [h2] at hd; cases hd
        · simp only [h2] at hd; cases hd
  have hlt : ∀ F : Store σ, (∀ x, (F x).state = (P x).state) → cU U F < cU U r.st := by
    intro F hF
    refine countP_lt (x := s) ?_ hsU (by simpa using hs') ?_
    · intro y _ h
      simp only [decide_eq_true_eq] at h ⊢
      by_cases h' : (r.st y).state = .unknown
      · exact h'
      · rw [hF] at h; exact absurd h (Pnu y h')
    · simp only [decide_eq_false_iff_not]; rw [hF, Ps]; exact hv
  by_cases hcase : (!v.det || G.permissive) = true
  · rw [if_pos hcase]
    obtain ⟨e1, e2, e3, e4, e5⟩ := enqueue_res s cB eB P r.queue
    change TI G U { r with st := (enqueue s cB eB P r.queue).1.put s _, queue := (enqueue s cB eB P r.queue).2, back := _, inner := false } ∧
      cU U ((enqueue s cB eB P r.queue).1.put s _) < _
    generalize enqueue s cB eB P r.queue = Y at e1 e2 e3 e4 e5
    obtain ⟨sty, Q⟩ := Y
    simp only at e1 e2 e3 e4 e5 ⊢
    let F : Store σ := sty.put s { sty s with ctrlC := cB.length, envC := eB.length }
    have Fst : ∀ x, (F x).state = (sty x).state ∧ (F x).known = (sty x).known ∧ (F x).deps = (sty x).deps ∧
        (F x).waiting = (sty x).waiting := by
      intro x
      by_cases h : x = s
      · subst h; simp [F]
      · simp [F, put_other _ _ h]
    have Fs : ∀ x, (F x).state = (P x).state := fun x => (Fst x).1.trans (e1 x).1
    have Fk : ∀ x, (F x).known = (P x).known := fun x => (Fst x).2.1.trans (e1 x).2
    have bufK : ∀ x, x ∈ cB ∨ x ∈ eB → (P x).known = true := by
      intro x h
      rw [Pk]
      rcases h with h | h
      · exact hck x h
      · exact hek x h
    have Fw : ∀ x, (F x).waiting = if (x ∈ cB ∨ x ∈ eB) ∧ (r.st x).waiting = 0 then 1 else (r.st x).waiting := by
      intro x; rw [(Fst x).2.2.2, e3 x, Pw]
    have Fw0 : ∀ x, (r.st x).waiting ≠ 0 → (F x).waiting ≠ 0 := by
      intro x h
      rw [Fw]; split
      · simp
      · exact h
    have hsw : (r.st s).waiting ≠ 0 := hqs.2.1
    refine ⟨⟨fun x hk hd => Pbase x (by rw [← Fk]; exact hk) (by rw [← Fs]; exact hd), ?_, ?_, ?_, ?_, ?_, ?_⟩, hlt F Fs⟩
    · intro x hx'
      change (F x).known = false at hx'
      change (F x).state = _ ∧ (F x).waiting = 0 ∧ (F x).deps = []
      rw [Fk] at hx'
      obtain ⟨h1, h2, h3⟩ := Pfr x hx'
      have hn : ¬ (x ∈ cB ∨ x ∈ eB) := fun h => by rw [bufK x h] at hx'; cases hx'
      refine ⟨by rw [Fs, h3]; exact (hfr x h1).1, ?_, ?_⟩
      · rw [Fw, if_neg (fun h => hn h.1)]; exact (hfr x h1).2.1
      · rw [(Fst x).2.2.1]
        apply List.eq_nil_iff_forall_not_mem.2
        rintro ⟨b, m⟩ hm
        rcases e2 x b m hm with h | h
        · rw [Pd, (hfr x h1).2.2] at h; cases h
        · exact hn h.2
    · intro x hx'
      change (F x).known = true at hx'
      rw [Fk] at hx'; exact Pdom x hx'
    · intro x hx'
      change (F x).known = true ∧ (F x).waiting ≠ 0 ∧ ¬ Active (F x).state
      rcases e4 x hx' with h | ⟨h, h'⟩
      · obtain ⟨a1, a2, a3⟩ := T.que x ((hq x).2 (Or.inr h))
        have hne : x ≠ s := by rintro rfl; exact hsq h
        refine ⟨?_, Fw0 x a2, fun ha => a3 (Pact x hne (by rw [← Fs]; exact ha))⟩
        rw [Fk, Pk]; exact hx.known a1
      · rw [Pw] at h'
        have hne : x ≠ s := by rintro rfl; exact hsw h'
        refine ⟨by rw [Fk]; exact bufK x h, by rw [Fw, if_pos ⟨h, h'⟩]; simp, fun ha => ?_⟩
        exact T.act x (Pact x hne (by rw [← Fs]; exact ha)) h'
    · refine e5 hqn (fun x hx' => ?_)
      rw [Pw]; exact (T.que x ((hq x).2 (Or.inr hx'))).2.1
    · intro x ha
      change Active (F x).state at ha
      apply Fw0
      by_cases hne : x = s
      · subst hne; exact hsw
      · exact T.act x (Pact x hne (by rw [← Fs]; exact ha))
    · intro x b m hm
      change (b, m) ∈ (F x).deps at hm
      change (F m).state ≠ _
      rw [(Fst x).2.2.1] at hm
      rw [Fs]
      rcases e2 x b m hm with h | h
      · rw [Pd] at h; exact Pnu m (hdep x b m h)
      · rw [h.1, Ps]; exact hv
  · rw [if_neg hcase]
    refine ⟨⟨Pbase, ?_, Pdom, ?_, hqn, ?_, ?_⟩, hlt P (fun _ => rfl)⟩
    · intro x hx'
      obtain ⟨h1, h2, h3⟩ := Pfr x hx'
      change (P x).state = _ ∧ (P x).waiting = 0 ∧ (P x).deps = []
      rw [h3]; exact hfr x h1
    · intro x hx'
      obtain ⟨a1, a2, a3⟩ := T.que x ((hq x).2 (Or.inr hx'))
      have hne : x ≠ s := by rintro rfl; exact hsq hx'
      change (P x).known = true ∧ (P x).waiting ≠ 0 ∧ ¬ Active (P x).state
      refine ⟨by rw [Pk]; exact hx.known a1, by rw [Pw]; exact a2, fun ha => a3 (Pact x hne ha)⟩
    · intro x ha
      change (P x).waiting ≠ 0
      rw [Pw]
      by_cases hne : x = s
      · subst hne; exact hqs.2.1
      · exact T.act x (Pact x hne ha)
    · intro x b m hm
      change (b, m) ∈ (P x).deps at hm
      rw [Pd] at hm; exact Pnu m (hdep x b m hm)

theorem depUpdate_nu (v : CState) (b : Bool) (a : Cfg σ) (h : a.state ≠ .unknown) :
    (depUpdate v b a).state ≠ .unknown := by
  unfold depUpdate
  cases b <;> simp only [Bool.false_eq_true, if_false, if_true] <;> repeat' split
  all_goals first | exact h | simp_all

/-- One entry: the invariant is kept, and a push is paid for by a determined marking. -/
theorem depStep_ti {U : List σ} {r : RState σ} (T : TI G U r) (next : σ) (d : Bool × σ) (back : List σ)
    (hd : (r.st d.2).state ≠ .unknown) :
    TI G U { r with st := (depStep next d r.st back).1 } ∧
    (∀ x, (r.st x).state ≠ .unknown → ((depStep next d r.st back).1 x).state ≠ .unknown) ∧
    cU U (depStep next d r.st back).1 ≤ cU U r.st ∧
    cD U (depStep next d r.st back).1 + (depStep next d r.st back).2.length ≤ cD U r.st + back.length := by
  obtain ⟨b, m⟩ := d
  simp only at hd
  unfold depStep
  simp only
  by_cases hdet : (r.st m).state.det = true
  · rw [if_pos hdet]
    exact ⟨T, fun _ h => h, Nat.le_refl _, Nat.le_refl _⟩
  · rw [if_neg hdet]
    have hdet' : (r.st m).state.det = false := by simpa using hdet
    have hact : Active (r.st m).state := (not_det hdet').resolve_left hd
    have hkm : (r.st m).known = true := by
      cases h : (r.st m).known with
      | true => rfl
      | false => exact absurd (T.fresh m h).1 hd
    have hmU : m ∈ U := T.dom m hkm
    have hmq : m ∉ r.queue := fun h => (T.que m h).2.2 hact
    obtain ⟨k1, k2, k3⟩ := depUpdate_keep (r.st next).state b (r.st m)
    have k4 := depUpdate_nu (r.st next).state b (r.st m) hd
    generalize depUpdate (r.st next).state b (r.st m) = a at k1 k2 k3 k4
    have ti : ∀ c : Cfg σ, c.known = (r.st m).known → c.waiting ≠ 0 → c.deps = (r.st m).deps → c.state ≠ .unknown →
        TI G U { r with st := r.st.put m c } ∧
        (∀ x, (r.st x).state ≠ .unknown → ((r.st.put m c) x).state ≠ .unknown) ∧ cU U (r.st.put m c) ≤ cU U r.st := by
      intro c c1 c2 c3 c4
      have mono : ∀ x, (r.st x).state ≠ .unknown → ((r.st.put m c) x).state ≠ .unknown := by
        intro x h
        by_cases hx : x = m
        · subst hx; rw [put_same]; exact c4
        · rw [put_other _ _ hx]; exact h
      refine ⟨⟨?_, ?_, ?_, ?_, T.nodup, ?_, ?_⟩, mono, ?_⟩
      · intro x hk hd
        by_cases hx : x = m
        · rw [hx]; exact T.base m hkm hdet'
        · simp only [put_other _ _ hx] at hk hd; exact T.base x hk hd
      · intro x h
        have hne : x ≠ m := by rintro rfl; simp only [put_same] at h; rw [c1, hkm] at h; cases h
        simp only [put_other _ _ hne] at h ⊢
        exact T.fresh x h
      · intro x h
        by_cases hx : x = m
        · rw [hx]; exact hmU
        · simp only [put_other _ _ hx] at h; exact T.dom x h
      · intro x h
        have hne : x ≠ m := by rintro rfl; exact hmq h
        simp only [put_other _ _ hne]; exact T.que x h
      · intro x h
        by_cases hx : x = m
        · subst hx; simp only [put_same]; exact c2
        · simp only [put_other _ _ hx] at h ⊢; exact T.act x h
      · intro x b' m' h
        simp only at h ⊢
        apply mono
        apply T.dep x b'
        by_cases hx : x = m
        · subst hx; rw [put_same, c3] at h; exact h
        · rw [put_other _ _ hx] at h; exact h
      · apply List.countP_mono_left
        intro x _ h
        simp only [decide_eq_true_eq] at h ⊢
        by_cases h' : (r.st x).state = .unknown
        · exact h'
        · exact absurd h (mono x h')
    split
    · rename_i had
      obtain ⟨t1, t2, t3⟩ := ti { a with waiting := 2 } k1 (by simp) k3 k4
      refine ⟨t1, t2, t3, ?_⟩
      simp only
      have : cD U (r.st.put m { a with waiting := 2 }) < cD U r.st := by
        refine countP_lt (x := m) ?_ hmU (by simpa using hdet') ?_
        · intro y _ h
          simp only [decide_eq_true_eq] at h ⊢
          by_cases hy : y = m
          · subst hy; exact hdet'
          · rw [put_other _ _ hy] at h; exact h
        · simp [had]
      split
      · rw [List.length_cons]; omega
      · omega
    · rename_i had
      obtain ⟨t1, t2, t3⟩ := ti a k1 (by rw [k2]; exact T.act m hact) k3 k4
      refine ⟨t1, t2, t3, ?_⟩
      simp only
      have : cD U (r.st.put m a) ≤ cD U r.st := by
        apply List.countP_mono_left
        intro y _ h
        simp only [decide_eq_true_eq] at h ⊢
        by_cases hy : y = m
        · subst hy; exact hdet'
        · rw [put_other _ _ hy] at h; exact h
      omega

theorem depLoop_ti {U : List σ} (next : σ) : ∀ (l : List (Bool × σ)) (r : RState σ) (back : List σ), TI G U r →
    (∀ d ∈ l, (r.st d.2).state ≠ .unknown) →
    TI G U { r with st := (depLoop next l r.st back).1 } ∧
    cU U (depLoop next l r.st back).1 ≤ cU U r.st ∧
    cD U (depLoop next l r.st back).1 + (depLoop next l r.st back).2.length ≤ cD U r.st + back.length
  | [], r, back, T, _ => ⟨T, Nat.le_refl _, Nat.le_refl _⟩
  | d :: l, r, back, T, h => by
    obtain ⟨t1, t2, t3, t4⟩ := depStep_ti T next d back (h d (by simp))
    obtain ⟨s1, s3, s4⟩ := depLoop_ti next l { r with st := (depStep next d r.st back).1 } (depStep next d r.st back).2 t1
      (fun e he => t2 _ (h e (List.mem_cons_of_mem _ he)))
    simp only [depLoop]
    simp only at s1 s3 s4
    exact ⟨s1, by omega, by omega⟩

/-- The measure: markings without successors generated, queue, undetermined markings and `back`. -/
def measure3 (U : List σ) (r : RState σ) : Nat × Nat × Nat :=
  (cU U r.st, r.queue.length, cD U r.st + r.back.length)

def lt3 (a b : Nat × Nat × Nat) : Prop :=
  a.1 < b.1 ∨ (a.1 ≤ b.1 ∧ (a.2.1 < b.2.1 ∨ (a.2.1 = b.2.1 ∧ a.2.2 < b.2.2)))

theorem ti_congr {U : List σ} {r r' : RState σ} (T : TI G U r) (h1 : r'.st = r.st) (h2 : r'.queue = r.queue) : TI G U r' := by
  obtain ⟨a, b, c, d, e, f, g⟩ := T
  refine ⟨?_, ?_, ?_, ?_, ?_, ?_, ?_⟩ <;> (first | rw [h1] | rw [h2]) <;> first | assumption | (rw [h2]; assumption)

theorem step_ti {U : List σ} (hU : ∀ x ∈ U, G.init0 x = .unknown → ∀ y ∈ G.env x ++ G.ctrl x, y ∈ U) {r r' : RState σ} (T : TI G U r)
    (h : step G m0 r = some r') : TI G U r' ∧ lt3 (measure3 U r') (measure3 U r) := by
  unfold step at h
  split at h
  · cases h
  · cases hb : r.back with
    | cons next back =>
      rw [hb] at h
      simp only [Option.some.injEq] at h
      subst h
      obtain ⟨t1, t3, t4⟩ := depLoop_ti next (r.st next).deps r back T (fun d hd => T.dep next d.1 d.2 hd)
      have hst : ∀ x, (((depLoop next (r.st next).deps r.st back).1.put next
            { (depLoop next (r.st next).deps r.st back).1 next with deps := [] }) x) =
          { (depLoop next (r.st next).deps r.st back).1 x with
            deps := if x = next then [] else ((depLoop next (r.st next).deps r.st back).1 x).deps } := by
        intro x
        by_cases hx : x = next
        · subst hx; simp
        · rw [put_other _ _ hx]; simp [hx]
      unfold dependersToWaiting
      simp only
      generalize depLoop next (r.st next).deps r.st back = D at t1 t3 t4 hst
      obtain ⟨st', back'⟩ := D
      simp only at t1 t3 t4 hst ⊢
      constructor
      · refine ⟨?_, ?_, ?_, ?_, T.nodup, ?_, ?_⟩
        · intro x hk hd
          simp only at hk hd
          rw [hst] at hk hd
          exact t1.base x hk hd
        · intro x hx
          simp only at hx ⊢
          rw [hst] at hx ⊢
          obtain ⟨a1, a2, a3⟩ := t1.fresh x hx
          refine ⟨a1, a2, ?_⟩
          simp only at a3 ⊢
          split
          · rfl
          · exact a3
        · intro x hx
          simp only at hx
          rw [hst] at hx
          exact t1.dom x hx
        · intro x hx
          simp only
          rw [hst]
          exact t1.que x hx
        · intro x hx
          simp only at hx ⊢
          rw [hst] at hx ⊢
          exact t1.act x hx
        · intro x b m hm
          simp only at hm ⊢
          rw [hst] at hm ⊢
          simp only at hm ⊢
          split at hm
          · cases hm
          · exact t1.dep x b m hm
      · right
        have hU' : cU U (st'.put next { st' next with deps := [] }) = cU U st' := by
          unfold cU; congr 1; funext x; rw [hst]
        have hD' : cD U (st'.put next { st' next with deps := [] }) = cD U st' := by
          unfold cD; congr 1; funext x; rw [hst]
        simp only [measure3, hU', hD', hb, List.length_cons]
        exact ⟨t3, Or.inr ⟨trivial, by omega⟩⟩
    | nil =>
      rw [hb] at h
      simp only at h
      cases hg : r.queue[popIdx G r]? with
      | none => rw [hg] at h; cases h
      | some s =>
        rw [hg] at h
        simp only [Option.some.injEq] at h
        subst h
        obtain ⟨h1, h2, h3⟩ := eraseIdx_mem hg T.nodup
        have hlen : (r.queue.eraseIdx (popIdx G r)).length < r.queue.length := by
          obtain ⟨hlt, _⟩ := List.getElem?_eq_some_iff.1 hg
          rw [List.length_eraseIdx_of_lt hlt]; omega
        have hqs := T.que s ((h1 s).2 (Or.inl rfl))
        have hqw : ∀ x ∈ r.queue.eraseIdx (popIdx G r), (r.st x).known = true ∧ (r.st x).waiting ≠ 0 ∧ ¬ Active (r.st x).state :=
          fun x hx => T.que x ((h1 x).2 (Or.inr hx))
        unfold popStep
        simp only
        split
        · refine ⟨⟨T.base, T.fresh, T.dom, hqw, h2, T.act, T.dep⟩, Or.inr ⟨Nat.le_refl _, Or.inl hlen⟩⟩
        · rename_i hd
          have hd' : (r.st s).state.det = false := by simpa using hd
          split
          · rename_i hc
            have hs' : (r.st s).state = .unknown := (not_det hd').resolve_right hqs.2.2
            have hst : ∀ x, (r.st.put s { r.st s with waiting := 0, deps := [] }) x =
                { r.st x with waiting := if x = s then 0 else (r.st x).waiting, deps := if x = s then [] else (r.st x).deps } := by
              intro x
              by_cases hx : x = s
              · subst hx; simp
              · rw [put_other _ _ hx]; simp [hx]
            refine ⟨⟨?_, ?_, ?_, ?_, h2, ?_, ?_⟩, Or.inr ⟨?_, Or.inl hlen⟩⟩
            · intro x hk hd
              simp only at hk hd
              rw [hst] at hk hd
              exact T.base x hk hd
            · intro x hx
              simp only at hx ⊢
              rw [hst] at hx ⊢
              obtain ⟨a1, a2, a3⟩ := T.fresh x hx
              refine ⟨a1, ?_, ?_⟩
              · simp only [a2, ite_self]
              · simp only [a3, ite_self]
            · intro x hx
              simp only at hx
              rw [hst] at hx
              exact T.dom x hx
            · intro x hx
              have hne : x ≠ s := by rintro rfl; exact h3 hx
              simp only [put_other _ _ hne]
              exact hqw x hx
            · intro x hx
              simp only at hx ⊢
              have hne : x ≠ s := by
                rintro rfl; rw [put_same] at hx; simp only [hs'] at hx
                rcases hx with hx | hx <;> cases hx
              rw [put_other _ _ hne] at hx ⊢
              exact T.act x hx
            · intro x b m hm
              simp only at hm ⊢
              rw [hst] at hm ⊢
              simp only at hm ⊢
              split at hm
              · cases hm
              · exact T.dep x b m hm
            · simp only [measure3]
              have : cU U (r.st.put s { r.st s with waiting := 0, deps := [] }) = cU U r.st := by
                unfold cU; congr 1; funext x; rw [hst]
              exact Nat.le_of_eq this
          · obtain ⟨p1, p2⟩ := process_ti hU (r := { r with queue := r.queue.eraseIdx (popIdx G r), back := [], pops := r.pops + 1 })
              (queue := r.queue) (s := s) (ti_congr T rfl rfl) hd' h1 h2 h3
            exact ⟨p1, Or.inl p2⟩

theorem loop_some {U : List σ} (hU : ∀ x ∈ U, G.init0 x = .unknown → ∀ y ∈ G.env x ++ G.ctrl x, y ∈ U) :
    ∀ (a b c : Nat) (r : RState σ), TI G U r → measure3 U r = (a, b, c) → ∃ fuel, (loop G m0 fuel r).isSome := by
  intro a
  induction a using Nat.strongRecOn with
  | _ a iha =>
    intro b
    induction b using Nat.strongRecOn with
    | _ b ihb =>
      intro c
      induction c using Nat.strongRecOn with
      | _ c ihc =>
        intro r T hm
        cases hs : step G m0 r with
        | none => exact ⟨1, by simp [loop, hs]⟩
        | some r' =>
          obtain ⟨T', hlt⟩ := step_ti hU T hs
          rw [hm] at hlt
          have : ∃ fuel, (loop G m0 fuel r').isSome := by
            generalize hm' : measure3 U r' = M at hlt
            obtain ⟨a', b', c'⟩ := M
            simp only [lt3] at hlt
            by_cases ha : a' < a
            · exact iha a' ha b' c' r' T' hm'
            · have haa : a' = a := by omega
              subst haa
              by_cases hb : b' < b
              · exact ihb b' hb c' r' T' hm'
              · have hbb : b' = b := by omega
                subst hbb
                exact ihc c' (by omega) r' T' hm'
          obtain ⟨fuel, hf⟩ := this
          exact ⟨fuel + 1, by simp only [loop, hs]; exact hf⟩

theorem run_some {U : List σ} (hm : m0 ∈ U) (hU : ∀ x ∈ U, G.init0 x = .unknown → ∀ y ∈ G.env x ++ G.ctrl x, y ∈ U) :
    ∃ fuel b, run G m0 fuel = some b := by
  have hst : ∀ x, x ≠ m0 → (start G m0).st x = {} := by
    intro x hx
    simp [start, getConfig, put_other _ _ hx]
  have h0 : (start G m0).st m0 = { known := true, state := G.init0 m0, waiting := 1 } := by
    simp [start, getConfig]
  have hq : (start G m0).queue = [m0] := rfl
  have hna : ∀ x, ¬ Active ((start G m0).st x).state := by
    intro x ha
    by_cases h : x = m0
    · subst h; rw [h0] at ha
      rcases init0_cases G x with h' | h' | h' <;> simp only [h'] at ha <;> rcases ha with ha | ha <;> cases ha
    · rw [hst x h] at ha; rcases ha with ha | ha <;> cases ha
  have T : TI G U (start G m0) := by
    refine ⟨?_, ?_, ?_, ?_, ?_, fun x h => absurd h (hna x), ?_⟩
    · intro x hk hd
      by_cases h : x = m0
      · subst h; rw [h0] at hd
        rcases init0_cases G x with h' | h' | h'
        · exact h'
        · simp only [h'] at hd; cases hd
        · simp only [h'] at hd; cases hd
      · rw [hst x h] at hk; cases hk
    · intro x hx
      have hne : x ≠ m0 := by rintro rfl; rw [h0] at hx; cases hx
      rw [hst x hne]; exact ⟨rfl, rfl, rfl⟩
    · intro x hx
      by_cases h : x = m0
      · rw [h]; exact hm
      · rw [hst x h] at hx; cases hx
    · intro x hx
      rw [hq, List.mem_singleton] at hx
      subst hx
      exact ⟨by rw [h0], by rw [h0]; simp, hna x⟩
    · rw [hq]; simp
    · intro x b m h
      by_cases hx : x = m0
      · subst hx; rw [h0] at h; cases h
      · rw [hst x hx] at h; cases h
  obtain ⟨fuel, hf⟩ := loop_some (m0 := m0) hU _ _ _ _ T rfl
  obtain ⟨r, hr⟩ := Option.isSome_iff_exists.1 hf
  exact ⟨fuel, answer G m0 r, by simp [run, hr]⟩

end Synth
end Verif
