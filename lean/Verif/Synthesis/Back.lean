import Verif.Synthesis.Inv

/-! # Synthesis: `dependers_to_waiting` keeps the invariant -/

namespace Verif
namespace Synth

set_option linter.unusedSectionVars false

variable {σ : Type} [DecidableEq σ]
variable {G : Game σ} {m0 : σ} {st : Store σ} {deps deps' : σ → List (Bool × σ)} {queue B B' : List σ}

@[simp] theorem put_same (st : Store σ) (s : σ) (c : Cfg σ) : st.put s c s = c := by simp [Store.put]

theorem put_other (st : Store σ) {s x : σ} (c : Cfg σ) (h : x ≠ s) : st.put s c x = st x := by
  simp [Store.put, h]

theorem keeps_put {m : σ} {c : Cfg σ} (hm : Active (st m).state) : Keeps st (st.put m c) := by
  intro x hx
  by_cases h : x = m
  · subst h
    rw [active_det hm] at hx; cases hx
  · rw [put_other _ _ h]

/-- Replacing the configuration of an active marking. -/
theorem Inv.update (I : Inv G m0 st deps queue B) {m : σ} (hm : Active (st m).state) (c : Cfg σ)
    (hk : c.known = (st m).known) (hnu : c.state ≠ .unknown) (hw : Active c.state → c.waiting = 1)
    (hw0 : c.waiting ≠ 0)
    (hcnt : ∀ x b s, s ≠ m → (deps' x).count (b, s) = (deps x).count (b, s))
    (hsub : ∀ x, ∀ d ∈ deps' x, d ∈ deps x) (hB : ∀ x ∈ B, x ∈ B')
    (hB2 : ∀ x ∈ B', x ∈ B ∨ (x = m ∧ c.state.det = true)) (hdet : c.state.det = true → m ∈ B')
    (hwin : c.state = .winning → WinJ G st m) (hlose : c.state = .losing → LoseJ G st m)
    (hact : Active c.state → ∃ eP cP, Act G (st.put m c) deps' queue B' m eP cP) :
    Inv G m0 (st.put m c) deps' queue B' := by
  have hkeep : Keeps st (st.put m c) := keeps_put hm
  have hdetm : (st m).state.det = false := active_det hm
  have hkm : (st m).known = true := by
    cases hk' : (st m).known with
    | true => rfl
    | false =>
      rw [(I.fresh m hk').1] at hm
      rcases hm with hm | hm <;> cases hm
  have pend : ∀ e, ((st e).state.det = true → e ∈ B) ∧ ((st e).state = .unknown → e ∈ queue) →
      (((st.put m c) e).state.det = true → e ∈ B') ∧ (((st.put m c) e).state = .unknown → e ∈ queue) := by
    intro e he
    by_cases h : e = m
    · subst h
      simp only [put_same]
      exact ⟨hdet, fun h' => absurd h' hnu⟩
    · rw [put_other _ _ h]
      exact ⟨fun h' => hB e (he.1 h'), he.2⟩
  have nil_of : ∀ x, deps x = [] → deps' x = [] := by
    intro x hx
    apply List.eq_nil_iff_forall_not_mem.2
    intro d hd
    have := hsub x d hd
    rw [hx] at this; cases this
  constructor
  · intro s hs
    by_cases h : s = m
    · subst h
      simp only [put_same] at hs
      rw [hk, hkm] at hs; cases hs
    · rw [put_other _ _ h] at hs ⊢
      have := I.fresh s hs
      exact ⟨this.1, this.2.1, nil_of s this.2.2⟩
  · intro s hs
    by_cases h : s = m
    · subst h; exact I.reach s hkm
    · rw [put_other _ _ h] at hs
      exact I.reach s hs
  · intro s hs hd
    by_cases h : s = m
    · subst h; exact I.base s hkm hdetm
    · rw [put_other _ _ h] at hs hd
      exact I.base s hs hd
  · intro s hs
    by_cases h : s = m
    · subst h; simp only [put_same] at hs; exact (hwin hs).mono hkeep
    · rw [put_other _ _ h] at hs
      exact (I.win s hs).mono hkeep
  · intro s hs
    by_cases h : s = m
    · subst h; simp only [put_same] at hs; exact (hlose hs).mono hkeep
    · rw [put_other _ _ h] at hs
      exact (I.lose s hs).mono hkeep
  · intro s hs
    by_cases h : s = m
    · subst h; simp only [put_same] at hs; exact hact hs
    · rw [put_other _ _ h] at hs
      obtain ⟨eP, cP, A⟩ := I.act s hs
      refine ⟨eP, cP, ?_⟩
      constructor
      · rw [put_other _ _ h]; exact A.envC
      · rw [put_other _ _ h]; exact A.ctrlC
      · intro x; rw [A.eCount x, hcnt x _ _ h]
      · intro x; rw [A.cCount x, hcnt x _ _ h]
      · exact A.eSub
      · exact A.cSub
      · intro e he; exact (A.env e he).imp hkeep.win id
      · intro e he; exact pend e (A.ePend e he)
      · rw [put_other _ _ h]
        intro hp
        obtain ⟨h1, h2, h3⟩ := A.proc hp
        exact ⟨h1, fun c hc => (h2 c hc).imp hkeep.lose id, fun c hc => pend c (h3 c hc)⟩
      · rw [put_other _ _ h]
        intro hp
        obtain ⟨h1, h2⟩ := A.may hp
        refine ⟨?_, h2⟩
        rcases h1 with h1 | ⟨c, hc, h1⟩ | h1
        · exact Or.inl h1
        · exact Or.inr (Or.inl ⟨c, hc, hkeep.win h1⟩)
        · exact Or.inr (Or.inr h1)
  · intro x b s hs
    have := I.depAct x b s (hsub x _ hs)
    by_cases h : s = m
    · subst h; simp only [put_same]; exact ⟨by rw [hk]; exact hkm, hnu⟩
    · rw [put_other _ _ h]; exact this
  · exact I.nodup
  · intro s hs
    have := I.qWait s hs
    have h : s ≠ m := by rintro rfl; exact this.2.2 hm
    rw [put_other _ _ h]; exact this
  · intro s hs
    by_cases h : s = m
    · subst h; simp only [put_same] at hs ⊢; exact hw hs
    · rw [put_other _ _ h] at hs ⊢; exact I.actWait s hs
  · intro s hs hs2
    by_cases h : s = m
    · subst h; simp only [put_same] at hs; exact absurd hs hnu
    · rw [put_other _ _ h] at hs hs2; exact I.unkQ s hs hs2
  · intro s hs
    by_cases h : s = m
    · subst h; simp only [put_same] at hs; exact absurd hs hnu
    · rw [put_other _ _ h] at hs ⊢; exact I.unkWait s hs
  · intro s hs
    by_cases h : s = m
    · subst h
      rcases hB2 s hs with h' | h'
      · have := I.backDet s h'
        rw [hdetm] at this; cases this
      · simp only [put_same]; exact h'.2
    · rw [put_other _ _ h]
      rcases hB2 s hs with h' | h'
      · exact I.backDet s h'
      · exact absurd h'.1 h
  · by_cases h : m0 = m
    · subst h; simp only [put_same]; exact ⟨by rw [hk]; exact hkm, hw0⟩
    · rw [put_other _ _ h]; exact I.root

/-- Dropping depender entries of determined configurations, and enlarging or shrinking the stack. -/
theorem Inv.weaken (I : Inv G m0 st deps queue B)
    (hcnt : ∀ x b s, Active (st s).state → (deps' x).count (b, s) = (deps x).count (b, s))
    (hsub : ∀ x, ∀ d ∈ deps' x, d ∈ deps x)
    (hB : ∀ x ∈ B, x ∈ B' ∨ deps' x = []) (hB2 : ∀ x ∈ B', (st x).state.det = true) :
    Inv G m0 st deps' queue B' := by
  have hmem : ∀ {l : List σ} {b s}, Active (st s).state →
      (∀ x, l.count x = (deps' x).count (b, s)) → ∀ e ∈ l, e ∈ B → e ∈ B' := by
    intro l b s hs hl e he hB'
    rcases hB e hB' with h | h
    · exact h
    · have h1 := hl e
      rw [h] at h1
      simp only [List.count_nil, List.count_eq_zero] at h1
      exact absurd he h1
  constructor
  · intro s hs
    have := I.fresh s hs
    refine ⟨this.1, this.2.1, List.eq_nil_iff_forall_not_mem.2 fun d hd => ?_⟩
    have h := hsub s d hd
    rw [this.2.2] at h; cases h
  · exact I.reach
  · exact I.base
  · exact I.win
  · exact I.lose
  · intro s hs
    obtain ⟨eP, cP, A⟩ := I.act s hs
    have he' : ∀ x, eP.count x = (deps' x).count (false, s) := fun x => by rw [A.eCount x, hcnt x _ s hs]
    have hc' : ∀ x, cP.count x = (deps' x).count (true, s) := fun x => by rw [A.cCount x, hcnt x _ s hs]
    refine ⟨eP, cP, A.envC, A.ctrlC, he', hc', A.eSub, A.cSub, A.env, ?_, ?_, A.may⟩
    · intro e he
      have := A.ePend e he
      exact ⟨fun h => hmem hs he' e he (this.1 h), this.2⟩
    · intro hp
      obtain ⟨h1, h2, h3⟩ := A.proc hp
      exact ⟨h1, h2, fun c hc => ⟨fun h => hmem hs hc' c hc ((h3 c hc).1 h), (h3 c hc).2⟩⟩
  · exact fun x b m h => I.depAct x b m (hsub x _ h)
  · exact I.nodup
  · exact I.qWait
  · exact I.actWait
  · exact I.unkQ
  · exact I.unkWait
  · exact hB2
  · exact I.root

/-! ### One entry -/

theorem depUpdate_keep (v : CState) (b : Bool) (a : Cfg σ) :
    (depUpdate v b a).known = a.known ∧ (depUpdate v b a).waiting = a.waiting ∧
    (depUpdate v b a).deps = a.deps := by
  unfold depUpdate
  cases b <;> simp only [Bool.false_eq_true, if_false, if_true] <;> repeat' split
  all_goals exact ⟨rfl, rfl, rfl⟩

theorem depUpdate_cw (a : Cfg σ) :
    depUpdate .winning true a =
      { a with ctrlC := dec32 a.ctrlC, state := if a.envC = 0 then .winning else .maybe } := by
  unfold depUpdate
  by_cases h : a.envC = 0 <;> simp [h]

theorem depUpdate_cl (a : Cfg σ) (ha : Active a.state) :
    depUpdate .losing true a =
      { a with ctrlC := dec32 a.ctrlC,
               state := if dec32 a.ctrlC = 0 ∧ a.state = .processed then .losing
                        else if a.envC = 0 ∧ dec32 a.ctrlC = 0 ∧ a.state = .maybe then .winning
                        else a.state } := by
  unfold depUpdate
  rcases ha with h | h <;> by_cases h1 : dec32 a.ctrlC = 0 <;> by_cases h2 : a.envC = 0 <;> simp [h, h1, h2]

theorem depUpdate_ew (a : Cfg σ) :
    depUpdate .winning false a =
      { a with envC := dec32 a.envC,
               state := if dec32 a.envC = 0 ∧ a.state = .maybe then .winning else a.state } := by
  unfold depUpdate
  by_cases h : dec32 a.envC = 0 <;> by_cases h1 : a.state = .maybe <;> simp [h, h1]

theorem depUpdate_el (a : Cfg σ) :
    depUpdate .losing false a = { a with envC := dec32 a.envC, state := .losing } := by
  unfold depUpdate
  simp

/-- The remaining entries after the first entry of `next` has been handled. -/
def restOf (deps : σ → List (Bool × σ)) (next : σ) (rest : List (Bool × σ)) : σ → List (Bool × σ) :=
  fun x => if x = next then rest else deps x

theorem restOf_same (deps : σ → List (Bool × σ)) (next : σ) (rest : List (Bool × σ)) :
    restOf deps next rest next = rest := by simp [restOf]

theorem restOf_other (deps : σ → List (Bool × σ)) {next x : σ} (rest : List (Bool × σ)) (h : x ≠ next) :
    restOf deps next rest x = deps x := by simp [restOf, h]

theorem dec32_length {l : List σ} {x : σ} (h : x ∈ l) : dec32 l.length = (l.erase x).length := by
  rw [List.length_erase_of_mem h, dec32, if_neg]
  have := List.length_pos_of_mem h
  omega

theorem count_erase_eq (l : List σ) (y x : σ) (n m : Nat) (h : l.count x = n) (hy : y = x → n = m + 1)
    (hn : y ≠ x → n = m) : (l.erase y).count x = m := by
  rw [List.count_erase, h]
  by_cases hxy : y = x
  · have := hy hxy
    simp only [hxy, beq_self_eq_true, if_true]
    omega
  · rw [beq_eq_false_iff_ne.2 hxy]
    have := hn hxy
    simp only [Bool.false_eq_true, if_false]
    omega

theorem mem_of_count {l : List σ} {x : σ} {n : Nat} (h : l.count x = n + 1) : x ∈ l := by
  apply List.count_pos_iff.1
  omega

theorem restOf_count {next : σ} {d : Bool × σ} {rest : List (Bool × σ)} (hd : deps next = d :: rest)
    (x : σ) (b : Bool) (s : σ) (h : d ≠ (b, s)) :
    (restOf deps next rest x).count (b, s) = (deps x).count (b, s) := by
  by_cases hx : x = next
  · subst hx
    rw [restOf_same, hd, List.count_cons_of_ne h]
  · rw [restOf_other _ _ hx]

theorem restOf_sub {next : σ} {d : Bool × σ} {rest : List (Bool × σ)} (hd : deps next = d :: rest)
    (x : σ) : ∀ e ∈ restOf deps next rest x, e ∈ deps x := by
  intro e he
  by_cases hx : x = next
  · subst hx
    rw [restOf_same] at he
    rw [hd]
    exact List.mem_cons_of_mem _ he
  · rwa [restOf_other _ _ hx] at he

theorem restOf_count_same {next : σ} {b : Bool} {m : σ} {rest : List (Bool × σ)}
    (hd : deps next = (b, m) :: rest) (x : σ) :
    (next = x → (deps x).count (b, m) = (restOf deps next rest x).count (b, m) + 1) ∧
    (next ≠ x → (deps x).count (b, m) = (restOf deps next rest x).count (b, m)) := by
  constructor
  · rintro rfl
    rw [restOf_same, hd, List.count_cons_self]
  · intro h
    rw [restOf_other _ _ (Ne.symm h)]

/-- The new configuration of an active ancestor is justified. -/
theorem depUpdate_ok (I : Inv G m0 st deps queue B) {next : σ} {b : Bool} {m : σ}
    {rest : List (Bool × σ)} (hd : deps next = (b, m) :: rest) (hn : (st next).state.det = true)
    (hm : Active (st m).state) (hB : ∀ x ∈ B, x ∈ B') :
    let c := depUpdate (st next).state b (st m)
    (c.state = .losing ∨ c.state = .winning ∨ Active c.state) ∧
    (c.state = .winning → WinJ G st m) ∧ (c.state = .losing → LoseJ G st m) ∧
    (Active c.state → ∃ eP cP, Act G (st.put m c) (restOf deps next rest) queue B' m eP cP) := by
  obtain ⟨eP, cP, A⟩ := I.act m hm
  have hkm : (st m).known = true := (I.depAct next b m (by rw [hd]; simp)).1
  have h0 : G.init0 m = .unknown := I.base m hkm (active_det hm)
  have hnm : next ≠ m := by
    rintro rfl
    rw [active_det hm] at hn; cases hn
  -- pending lists in the new store
  have pend : ∀ (c : Cfg σ), Active c.state → ∀ e,
      ((st e).state.det = true → e ∈ B) ∧ ((st e).state = .unknown → e ∈ queue) →
      (((st.put m c) e).state.det = true → e ∈ B') ∧ (((st.put m c) e).state = .unknown → e ∈ queue) := by
    intro c hc e he
    by_cases h : e = m
    · subst h
      simp only [put_same]
      refine ⟨fun h => ?_, fun h => ?_⟩
      · rw [active_det hc] at h; cases h
      · rw [h] at hc; rcases hc with hc | hc <;> cases hc
    · rw [put_other _ _ h]
      exact ⟨fun h' => hB e (he.1 h'), he.2⟩
  have hkeep : ∀ c, Keeps st (st.put m c) := fun c => keeps_put hm
  -- the reason for `maybe`
  have mayOK : (st m).state = .maybe → G.ctrl m = [] ∨ (∃ c ∈ G.ctrl m, (st c).state = .winning) ∨
      (G.safety = true ∧ m ∈ G.ctrl m) := by
    intro h
    rcases (A.may h).1 with h | h | h
    · exact Or.inl h.1
    · exact Or.inr (Or.inl h)
    · exact Or.inr (Or.inr h)
  have mayMono : ∀ c, (G.ctrl m = [] ∧ G.env m ≠ [] ∨ (∃ c ∈ G.ctrl m, (st c).state = .winning) ∨
      (G.safety = true ∧ m ∈ G.ctrl m)) → (G.ctrl m = [] ∧ G.env m ≠ [] ∨
      (∃ x ∈ G.ctrl m, ((st.put m c) x).state = .winning) ∨ (G.safety = true ∧ m ∈ G.ctrl m)) := by
    intro c h
    rcases h with h | ⟨x, hx, h⟩ | h
    · exact Or.inl h
    · exact Or.inr (Or.inl ⟨x, hx, (hkeep c).win h⟩)
    · exact Or.inr (Or.inr h)
  -- all environment successors are good once `eP` is empty
  have envOK : eP = [] → ∀ e ∈ G.env m, (st e).state = .winning ∨ (G.safety = true ∧ e = m) := by
    intro h e he
    rcases A.env e he with h' | h' | h'
    · exact Or.inl h'
    · exact Or.inr h'
    · rw [h] at h'; cases h'
  have mayDead : (st m).state = .maybe → G.safety = false → G.env m ≠ [] ∨ G.ctrl m ≠ [] := by
    intro h _
    rcases (A.may h).1 with h | ⟨c, hc, _⟩ | h
    · exact Or.inl h.2
    · exact Or.inr (List.ne_nil_of_mem hc)
    · exact Or.inr (List.ne_nil_of_mem h.2)
  cases b with
  | true =>
    have hcnt := A.cCount next
    rw [hd, List.count_cons_self] at hcnt
    have hmem : next ∈ cP := mem_of_count hcnt
    have hctrl : next ∈ G.ctrl m := A.cSub next hmem
    have hlen : dec32 (st m).ctrlC = (cP.erase next).length := by rw [A.ctrlC]; exact dec32_length hmem
    have hcc : ∀ x, (cP.erase next).count x = (restOf deps next rest x).count (true, m) := by
      intro x
      exact count_erase_eq cP next x _ _ (A.cCount x) (restOf_count_same hd x).1 (restOf_count_same hd x).2
    have hce : ∀ x, eP.count x = (restOf deps next rest x).count (false, m) := by
      intro x
      rw [A.eCount x, restOf_count hd]
      simp
    rcases det_iff.1 hn with hl | hw
    · -- a losing controller successor
      rw [hl]
      simp only
      rw [depUpdate_cl _ hm]
      by_cases c1 : dec32 (st m).ctrlC = 0 ∧ (st m).state = .processed
      · simp only [if_pos c1]
        refine ⟨by simp, by simp, fun _ => ?_, fun h => by rcases h with h | h <;> cases h⟩
        obtain ⟨_, h2, _⟩ := A.proc c1.2
        refine mkLose h0 I.lose (Or.inr (Or.inl ⟨List.ne_nil_of_mem hctrl, fun c hc => ?_⟩))
        rcases h2 c hc with h | h | h
        · exact Or.inl h
        · exact Or.inr h
        · by_cases hcn : c = next
          · rw [hcn]; exact Or.inl hl
          · have := (List.mem_erase_of_ne hcn).2 h
            have h' : cP.erase next = [] := List.length_eq_zero_iff.1 (by rw [← hlen]; exact c1.1)
            rw [h'] at this
            cases this
      · simp only [if_neg c1]
        by_cases c2 : (st m).envC = 0 ∧ dec32 (st m).ctrlC = 0 ∧ (st m).state = .maybe
        · simp only [if_pos c2]
          refine ⟨by simp, fun _ => ?_, by simp, fun h => by rcases h with h | h <;> cases h⟩
          exact mkWin h0 I.win (envOK (List.length_eq_zero_iff.1 (A.envC ▸ c2.1))) (mayOK c2.2.2)
            (mayDead c2.2.2)
        · simp only [if_neg c2]
          refine ⟨Or.inr (Or.inr hm), ?_, ?_, fun _ => ⟨eP, cP.erase next, ?_⟩⟩
          · intro h; rw [h] at hm; rcases hm with hm | hm <;> cases hm
          · intro h; rw [h] at hm; rcases hm with hm | hm <;> cases hm
          · refine ⟨?_, ?_, hce, hcc, A.eSub, ?_, ?_, ?_, ?_, ?_⟩
            · simp only [put_same]; exact A.envC
            · simp only [put_same]; exact hlen
            · exact fun c hc => A.cSub c (List.mem_of_mem_erase hc)
            · exact fun e he => (A.env e he).imp (hkeep _).win id
            · exact fun e he => pend _ (by exact hm) e (A.ePend e he)
            · simp only [put_same]
              intro hp
              obtain ⟨_, h2, h3⟩ := A.proc hp
              refine ⟨?_, fun c hc => ?_, fun c hc => pend _ (by exact hm) c (h3 c (List.mem_of_mem_erase hc))⟩
              · intro h
                exact c1 ⟨by rw [hlen, h]; rfl, hp⟩
              · rcases h2 c hc with h | h | h
                · exact Or.inl ((hkeep _).lose h)
                · exact Or.inr (Or.inl h)
                · by_cases hcn : c = next
                  · rw [hcn]; exact Or.inl ((hkeep _).lose hl)
                  · exact Or.inr (Or.inr ((List.mem_erase_of_ne hcn).2 h))
            · simp only [put_same]
              intro hp
              exact ⟨mayMono _ (A.may hp).1, (A.may hp).2⟩
    · -- a winning controller successor
      rw [hw]
      simp only
      rw [depUpdate_cw]
      by_cases c1 : (st m).envC = 0
      · simp only [if_pos c1]
        refine ⟨by simp, fun _ => ?_, by simp, fun h => by rcases h with h | h <;> cases h⟩
        exact mkWin h0 I.win (envOK (List.length_eq_zero_iff.1 (A.envC ▸ c1)))
          (Or.inr (Or.inl ⟨next, hctrl, hw⟩)) (fun _ => Or.inr (List.ne_nil_of_mem hctrl))
      · simp only [if_neg c1]
        refine ⟨Or.inr (Or.inr (Or.inr rfl)), by simp, by simp, fun hm' => ⟨eP, cP.erase next, ?_⟩⟩
        refine ⟨?_, ?_, hce, hcc, A.eSub, ?_, ?_, ?_, ?_, ?_⟩
        · simp only [put_same]; exact A.envC
        · simp only [put_same]; exact hlen
        · exact fun c hc => A.cSub c (List.mem_of_mem_erase hc)
        · exact fun e he => (A.env e he).imp (hkeep _).win id
        · exact fun e he => pend _ hm' e (A.ePend e he)
        · simp only [put_same]; intro h; cases h
        · simp only [put_same]
          intro _
          refine ⟨Or.inr (Or.inl ⟨next, hctrl, (hkeep _).win hw⟩), fun _ h => c1 ?_⟩
          rw [A.envC, h]; rfl
  | false =>
    have hcnt := A.eCount next
    rw [hd, List.count_cons_self] at hcnt
    have hmem : next ∈ eP := mem_of_count hcnt
    have henv : next ∈ G.env m := A.eSub next hmem
    have hlen : dec32 (st m).envC = (eP.erase next).length := by rw [A.envC]; exact dec32_length hmem
    have hce : ∀ x, (eP.erase next).count x = (restOf deps next rest x).count (false, m) := by
      intro x
      exact count_erase_eq eP next x _ _ (A.eCount x) (restOf_count_same hd x).1 (restOf_count_same hd x).2
    have hcc : ∀ x, cP.count x = (restOf deps next rest x).count (true, m) := by
      intro x
      rw [A.cCount x, restOf_count hd]
      simp
    rcases det_iff.1 hn with hl | hw
    · rw [hl]
      simp only
      rw [depUpdate_el]
      refine ⟨by simp, by simp, fun _ => ?_, fun h => by rcases h with h | h <;> cases h⟩
      exact mkLose h0 I.lose (Or.inl ⟨next, henv, Or.inl hl⟩)
    · rw [hw]
      simp only
      rw [depUpdate_ew]
      have envOK' : eP.erase next = [] → ∀ e ∈ G.env m, (st e).state = .winning ∨
          (G.safety = true ∧ e = m) := by
        intro h e he
        rcases A.env e he with h' | h' | h'
        · exact Or.inl h'
        · exact Or.inr h'
        · by_cases hen : e = next
          · rw [hen]; exact Or.inl hw
          · have := (List.mem_erase_of_ne hen).2 h'
            rw [h] at this; cases this
      by_cases c1 : dec32 (st m).envC = 0 ∧ (st m).state = .maybe
      · simp only [if_pos c1]
        refine ⟨by simp, fun _ => ?_, by simp, fun h => by rcases h with h | h <;> cases h⟩
        exact mkWin h0 I.win (envOK' (List.length_eq_zero_iff.1 (hlen ▸ c1.1))) (mayOK c1.2) (mayDead c1.2)
      · simp only [if_neg c1]
        refine ⟨Or.inr (Or.inr hm), ?_, ?_, fun _ => ⟨eP.erase next, cP, ?_⟩⟩
        · intro h; rw [h] at hm; rcases hm with hm | hm <;> cases hm
        · intro h; rw [h] at hm; rcases hm with hm | hm <;> cases hm
        · refine ⟨?_, ?_, hce, hcc, ?_, A.cSub, ?_, ?_, ?_, ?_⟩
          · simp only [put_same]; exact hlen
          · simp only [put_same]; exact A.ctrlC
          · exact fun c hc => A.eSub c (List.mem_of_mem_erase hc)
          · intro e he
            rcases A.env e he with h | h | h
            · exact Or.inl ((hkeep _).win h)
            · exact Or.inr (Or.inl h)
            · by_cases hen : e = next
              · rw [hen]; exact Or.inl ((hkeep _).win hw)
              · exact Or.inr (Or.inr ((List.mem_erase_of_ne hen).2 h))
          · exact fun e he => pend _ (by exact hm) e (A.ePend e (List.mem_of_mem_erase he))
          · simp only [put_same]
            intro hp
            obtain ⟨h1, h2, h3⟩ := A.proc hp
            exact ⟨h1, fun c hc => (h2 c hc).imp (hkeep _).lose id, fun c hc => pend _ (by exact hm) c (h3 c hc)⟩
          · simp only [put_same]
            intro hp
            refine ⟨mayMono _ (A.may hp).1, fun _ h => c1 ⟨by rw [hlen, h]; rfl, hp⟩⟩

theorem depStep_inv {back : List σ} (I : Inv G m0 st deps queue (B ++ back)) {next : σ} {d : Bool × σ}
    {rest : List (Bool × σ)} (hd : deps next = d :: rest) (hn : (st next).state.det = true) :
    Inv G m0 (depStep next d st back).1 (restOf deps next rest) queue (B ++ (depStep next d st back).2) ∧
    ((depStep next d st back).1 next).state = (st next).state ∧
    (∀ x, ((depStep next d st back).1 x).deps = (st x).deps) := by
  obtain ⟨b, m⟩ := d
  have hda := I.depAct next b m (by rw [hd]; simp)
  unfold depStep
  simp only
  by_cases hdet : (st m).state.det = true
  · rw [if_pos hdet]
    refine ⟨I.weaken ?_ (restOf_sub hd) (fun x hx => Or.inl hx) I.backDet, rfl, fun _ => rfl⟩
    intro x b' s hs
    refine restOf_count hd x b' s fun h => ?_
    have : m = s := congrArg Prod.snd h
    subst this
    rw [active_det hs] at hdet
    cases hdet
  · rw [if_neg hdet]
    have hm : Active (st m).state := (not_det (by simpa using hdet)).resolve_left hda.2
    have hnm : next ≠ m := by
      rintro rfl
      rw [active_det hm] at hn; cases hn
    have hwait := I.actWait m hm
    obtain ⟨hk1, hk2, hk3⟩ := depUpdate_keep (st next).state b (st m)
    have hcount : ∀ x b' s, s ≠ m → (restOf deps next rest x).count (b', s) = (deps x).count (b', s) := by
      intro x b' s hs
      refine restOf_count hd x b' s fun h => hs ?_
      exact (congrArg Prod.snd h).symm
    by_cases hc : (depUpdate (st next).state b (st m)).state.det = true
    · rw [if_pos hc]
      simp only [hk2, hwait, show (1 : Nat) < 2 by decide, if_true]
      obtain ⟨_, h2, h3, _⟩ := depUpdate_ok (B' := B ++ m :: back) I hd hn hm (by
        intro x hx
        simp only [List.mem_append, List.mem_cons] at hx ⊢
        rcases hx with hx | hx <;> simp [hx])
      refine ⟨I.update hm _ hk1 ?_ ?_ (by simp) hcount (restOf_sub hd) ?_ ?_ ?_ h2 h3 ?_, ?_, ?_⟩
      · simp only
        intro h; rw [h] at hc; cases hc
      · simp only
        intro h; rw [active_det h] at hc; cases hc
      · intro x hx
        simp only [List.mem_append, List.mem_cons] at hx ⊢
        rcases hx with hx | hx <;> simp [hx]
      · intro x hx
        simp only [List.mem_append, List.mem_cons] at hx ⊢
        rcases hx with hx | hx | hx
        · exact Or.inl (Or.inl hx)
        · exact Or.inr ⟨hx, hc⟩
        · exact Or.inl (Or.inr hx)
      · intro _; simp
      · simp only
        intro h; rw [active_det h] at hc; cases hc
      · rw [put_other _ _ hnm]
      · intro x
        by_cases hx : x = m
        · subst hx; simp only [put_same]; exact hk3
        · rw [put_other _ _ hx]
    · rw [if_neg hc]
      obtain ⟨h1, h2, h3, h4⟩ := depUpdate_ok (B' := B ++ back) I hd hn hm (fun x hx => hx)
      have ha : Active (depUpdate (st next).state b (st m)).state := by
        rcases h1 with h | h | h
        · rw [h] at hc; exact absurd rfl hc
        · rw [h] at hc; exact absurd rfl hc
        · exact h
      refine ⟨I.update hm _ hk1 ?_ (fun _ => by rw [hk2, hwait]) (by rw [hk2, hwait]; simp) hcount
        (restOf_sub hd) (fun x hx => hx) (fun x hx => Or.inl hx) (fun h => absurd h hc) h2 h3 h4, ?_, ?_⟩
      · intro h; rw [h] at ha; rcases ha with ha | ha <;> cases ha
      · simp only [put_other _ _ hnm]
      · intro x
        by_cases hx : x = m
        · subst hx; simp only [put_same]; exact hk3
        · simp only [put_other _ _ hx]

theorem restOf_restOf (deps : σ → List (Bool × σ)) (next : σ) (l l' : List (Bool × σ)) :
    restOf (restOf deps next l) next l' = restOf deps next l' := by
  funext x
  by_cases h : x = next <;> simp [restOf, h]

theorem depLoop_inv {next : σ} : ∀ (l : List (Bool × σ)) (st : Store σ) (deps : σ → List (Bool × σ))
    (back : List σ), Inv G m0 st deps queue (B ++ back) → deps next = l → (st next).state.det = true →
    Inv G m0 (depLoop next l st back).1 (restOf deps next []) queue (B ++ (depLoop next l st back).2) ∧
    (∀ x, ((depLoop next l st back).1 x).deps = (st x).deps)
  | [], st, deps, back, I, hd, _ => by
    refine ⟨?_, fun _ => rfl⟩
    have : restOf deps next [] = deps := by
      funext x
      by_cases h : x = next
      · subst h; rw [restOf_same, hd]
      · rw [restOf_other _ _ h]
    rw [this]
    exact I
  | d :: ds, st, deps, back, I, hd, hn => by
    obtain ⟨I', h1, h2⟩ := depStep_inv I hd hn
    have := depLoop_inv ds _ (restOf deps next ds) _ I' (restOf_same _ _ _) (by rw [h1]; exact hn)
    rw [restOf_restOf] at this
    simp only [depLoop]
    exact ⟨this.1, fun x => by rw [this.2 x, h2 x]⟩

theorem state_put_deps (st : Store σ) (s x : σ) (l : List (Bool × σ)) :
    (st.put s { st s with deps := l } x).state = (st x).state ∧
    (st.put s { st s with deps := l } x).known = (st x).known ∧
    (st.put s { st s with deps := l } x).waiting = (st x).waiting ∧
    (st.put s { st s with deps := l } x).envC = (st x).envC ∧
    (st.put s { st s with deps := l } x).ctrlC = (st x).ctrlC := by
  by_cases h : x = s
  · subst h; simp
  · simp [put_other _ _ h]

/-- The invariant depends on these components of the store only. -/
theorem Inv.congr {st' : Store σ} (I : Inv G m0 st deps queue B)
    (h : ∀ x, (st' x).state = (st x).state ∧ (st' x).known = (st x).known ∧
      (st' x).waiting = (st x).waiting ∧ (st' x).envC = (st x).envC ∧ (st' x).ctrlC = (st x).ctrlC) :
    Inv G m0 st' deps queue B := by
  have hs : ∀ x, (st' x).state = (st x).state := fun x => (h x).1
  have hk : Keeps st st' := fun x _ => hs x
  constructor
  · intro s; rw [(h s).2.1, hs, (h s).2.2.1]; exact I.fresh s
  · intro s; rw [(h s).2.1]; exact I.reach s
  · intro s; rw [(h s).2.1, hs]; exact I.base s
  · intro s; rw [hs]; exact fun h => (I.win s h).mono hk
  · intro s; rw [hs]; exact fun h => (I.lose s h).mono hk
  · intro s; rw [hs]; intro ha
    obtain ⟨eP, cP, A⟩ := I.act s ha
    refine ⟨eP, cP, ?_, ?_, A.eCount, A.cCount, A.eSub, A.cSub, ?_, ?_, ?_, ?_⟩
    · rw [(h s).2.2.2.1]; exact A.envC
    · rw [(h s).2.2.2.2]; exact A.ctrlC
    · intro e; rw [hs]; exact A.env e
    · intro e; rw [hs]; exact A.ePend e
    · rw [hs]; intro hp
      obtain ⟨h1, h2, h3⟩ := A.proc hp
      exact ⟨h1, fun c => by rw [hs]; exact h2 c, fun c => by rw [hs]; exact h3 c⟩
    · rw [hs]; intro hp
      obtain ⟨h1, h2⟩ := A.may hp
      refine ⟨?_, h2⟩
      rcases h1 with h1 | ⟨c, hc, h1⟩ | h1
      · exact Or.inl h1
      · exact Or.inr (Or.inl ⟨c, hc, by rw [hs]; exact h1⟩)
      · exact Or.inr (Or.inr h1)
  · intro x b m hx; rw [(h m).2.1, hs]; exact I.depAct x b m hx
  · exact I.nodup
  · intro s hq; rw [(h s).2.1, (h s).2.2.1, hs]; exact I.qWait s hq
  · intro s; rw [hs, (h s).2.2.1]; exact I.actWait s
  · intro s; rw [hs, (h s).2.2.1]; exact I.unkQ s
  · intro s; rw [hs, (h s).2.2.1]; exact I.unkWait s
  · intro s hb; rw [hs]; exact I.backDet s hb
  · rw [(h m0).2.1, (h m0).2.2.1]; exact I.root

/-- The invariant at the head of the inner loop. -/
def RInv (G : Game σ) (m0 : σ) (r : RState σ) : Prop :=
  Inv G m0 r.st (fun x => (r.st x).deps) r.queue r.back

theorem back_inv {next : σ} {back : List σ} {st : Store σ}
    (I : Inv G m0 st (fun x => (st x).deps) queue (next :: back)) :
    Inv G m0 (dependersToWaiting next st back).1
      (fun x => ((dependersToWaiting next st back).1 x).deps) queue (dependersToWaiting next st back).2 := by
  have hn := I.backDet next (by simp)
  obtain ⟨I', hdeps⟩ := depLoop_inv (B := [next]) (st next).deps st _ back I rfl hn
  unfold dependersToWaiting
  simp only
  have I2 := I'.weaken (deps' := restOf (fun x => (st x).deps) next []) (B' := (depLoop next (st next).deps st back).2)
    (fun _ _ _ _ => rfl) (fun _ _ h => h) (by
      intro x hx
      simp only [List.cons_append, List.nil_append, List.mem_cons] at hx
      rcases hx with rfl | hx
      · exact Or.inr (restOf_same _ _ _)
      · exact Or.inl hx) (fun x hx => I'.backDet x (by simp [hx]))
  have I3 := I2.congr (state_put_deps _ next · [])
  have : (fun x => (((depLoop next (st next).deps st back).1.put next
      { (depLoop next (st next).deps st back).1 next with deps := [] }) x).deps) =
      restOf (fun x => (st x).deps) next [] := by
    funext x
    by_cases h : x = next
    · subst h; simp [restOf]
    · rw [put_other _ _ h, restOf_other _ _ h, hdeps x]
  rw [this]
  exact I3

end Synth
end Verif
