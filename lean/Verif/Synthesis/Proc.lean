import Verif.Synthesis.Back

/-! # Synthesis: processing a configuration keeps the invariant -/

namespace Verif
namespace Synth

set_option linter.unusedSectionVars false

variable {σ : Type} [DecidableEq σ]
variable {G : Game σ} {m0 : σ}

/-- `st'` is `st` with new configurations from `S`, and possibly another state of `s`. -/
structure Ext (G : Game σ) (s : σ) (S : List σ) (st st' : Store σ) : Prop where
  other : ∀ x, x ≠ s → st' x = st x ∨
    ((st x).known = false ∧ st' x = { known := true, state := G.init0 x } ∧ x ∈ S)
  self : st' s = { st s with state := (st' s).state }

theorem Ext.refl (s : σ) (S : List σ) (st : Store σ) : Ext G s S st st := ⟨fun _ _ => Or.inl rfl, rfl⟩

theorem Ext.trans {s : σ} {S : List σ} {a b c : Store σ} (h1 : Ext G s S a b) (h2 : Ext G s S b c) :
    Ext G s S a c := by
  constructor
  · intro x hx
    rcases h1.other x hx with h | h
    · rw [← h]; exact h2.other x hx
    · rcases h2.other x hx with h' | h'
      · right; rw [h']; exact h
      · rw [h.2.1] at h'; cases h'.1
  · rw [h2.self, h1.self]

theorem Ext.mono {s : σ} {S S' : List σ} {a b : Store σ} (h1 : Ext G s S a b) (h : ∀ x ∈ S, x ∈ S') :
    Ext G s S' a b :=
  ⟨fun x hx => (h1.other x hx).imp id fun h' => ⟨h'.1, h'.2.1, h x h'.2.2⟩, h1.self⟩

theorem Ext.known {s : σ} {S : List σ} {a b : Store σ} (h : Ext G s S a b) {x : σ}
    (hx : (a x).known = true) : (b x).known = true := by
  by_cases hs : x = s
  · subst hs; rw [h.self]; exact hx
  · rcases h.other x hs with h | h
    · rw [h]; exact hx
    · rw [h.2.1]

theorem Ext.same {s : σ} {S : List σ} {a b : Store σ} (h : Ext G s S a b) {x : σ} (hs : x ≠ s)
    (hx : (a x).known = true) : b x = a x := by
  rcases h.other x hs with h | h
  · exact h
  · rw [h.1] at hx; cases hx

theorem ext_setState (s : σ) (S : List σ) (st : Store σ) (v : CState) : Ext G s S st (st.setState s v) := by
  constructor
  · intro x hx; left; simp [Store.setState, Store.put, hx]
  · simp [Store.setState]

theorem ext_getConfig {s c : σ} {S : List σ} (hc : c ∈ S) (st : Store σ) (hs : (st s).known = true) :
    Ext G s S st (getConfig G st c) := by
  unfold getConfig
  by_cases hk : (st c).known = true
  · rw [if_pos hk]; exact Ext.refl s S st
  · rw [if_neg hk]
    have hne : s ≠ c := by rintro rfl; exact hk hs
    constructor
    · intro x hx
      by_cases h : x = c
      · subst h
        right; exact ⟨by simpa using hk, by simp, hc⟩
      · left; rw [put_other _ _ h]
    · simp only [put_other _ _ hne]

theorem getConfig_known (st : Store σ) (c : σ) : ((getConfig G st c) c).known = true := by
  unfold getConfig
  split
  · assumption
  · simp

theorem setState_state (st : Store σ) (s : σ) (v : CState) : (st.setState s v s).state = v := by
  simp [Store.setState]

theorem setState_other (st : Store σ) {s x : σ} (v : CState) (h : x ≠ s) : st.setState s v x = st x := by
  simp [Store.setState, Store.put, h]

theorem setState_known (st : Store σ) (s x : σ) (v : CState) : (st.setState s v x).known = (st x).known := by
  by_cases h : x = s
  · subst h; simp [Store.setState]
  · rw [setState_other _ _ h]

theorem getConfig_self (st : Store σ) {s : σ} (hs : (st s).known = true) : getConfig G st s = st := by
  simp [getConfig, hs]

theorem getConfig_s (st : Store σ) {s c : σ} (hs : (st s).known = true) : getConfig G st c s = st s := by
  by_cases h : s = c
  · subst h; rw [getConfig_self st hs]
  · unfold getConfig
    split
    · rfl
    · rw [put_other _ _ h]

/-- What `get_env_successors` computes. -/
structure EnvRes (G : Game σ) (s : σ) (cs : List σ) (st : Store σ) (sm : Bool) (buf : List σ)
    (r : Store σ × Bool × List σ) : Prop where
  ext : Ext G s cs st r.1
  bufK : (∀ e ∈ buf, (st e).known = true) → ∀ e ∈ r.2.2, (r.1 e).known = true
  res : ((r.1 s).state = .losing ∧
      ∃ e ∈ cs, (e ≠ s ∧ (r.1 e).state = .losing) ∨ (G.safety = false ∧ e = s)) ∨
    ((r.1 s).state = .processed ∧ (r.2.1 = true ↔ sm = true ∨ cs ≠ []) ∧ ∃ b, r.2.2 = buf ++ b ∧
      (∀ e ∈ cs, (r.1 e).state = .winning ∨ (G.safety = true ∧ e = s) ∨ e ∈ b) ∧
      (∀ e ∈ b, e ∈ cs ∧ e ≠ s ∧ (r.1 e).state.det = false ∧ (r.1 e).known = true))

theorem envLoop_res {s : σ} : ∀ (cs : List σ) (st : Store σ) (sm : Bool) (buf : List σ),
    (st s).known = true → (st s).state = .processed → EnvRes G s cs st sm buf (envLoop G s cs st sm buf)
  | [], st, sm, buf, hk, hp => by
    refine ⟨Ext.refl _ _ _, fun h => h, Or.inr ⟨hp, by simp [envLoop], [], by simp [envLoop], by simp, by simp⟩⟩
  | c :: cs, st, sm, buf, hk, hp => by
    have hext : Ext G s (c :: cs) st (getConfig G st c) := ext_getConfig (by simp) st hk
    have hk' : (getConfig G st c s).known = true := hext.known hk
    have hp' : (getConfig G st c s).state = .processed := by rw [getConfig_s st hk]; exact hp
    have hck : (getConfig G st c c).known = true := getConfig_known st c
    have sub : ∀ x ∈ cs, x ∈ c :: cs := fun x hx => List.mem_cons_of_mem _ hx
    -- the recursive cases
    have rec1 : ∀ buf', EnvRes G s cs (getConfig G st c) true buf' (envLoop G s cs (getConfig G st c) true buf') :=
      fun buf' => envLoop_res cs _ true buf' hk' hp'
    have skip : ((getConfig G st c c).state = .winning ∨ (G.safety = true ∧ c = s)) →
        EnvRes G s (c :: cs) st sm buf (envLoop G s cs (getConfig G st c) true buf) := by
      intro hc
      have R := rec1 buf
      refine ⟨hext.trans (R.ext.mono sub), fun h => R.bufK fun e he => hext.known (h e he), ?_⟩
      rcases R.res with ⟨h1, e, he, h2⟩ | ⟨h1, h2, b, h3, h4, h5⟩
      · exact Or.inl ⟨h1, e, sub e he, h2⟩
      · refine Or.inr ⟨h1, by simp [h2], b, h3, fun e he => ?_, fun e he => ⟨sub e (h5 e he).1, (h5 e he).2⟩⟩
        rcases List.mem_cons.1 he with rfl | he
        · rcases hc with hc | hc
          · left
            have hne : e ≠ s := by rintro rfl; rw [hp'] at hc; cases hc
            rw [R.ext.same hne hck]; exact hc
          · exact Or.inr (Or.inl hc)
        · exact h4 e he
    simp only [envLoop]
    split
    · rename_i hl
      have hne : c ≠ s := by rintro rfl; rw [hp'] at hl; cases hl
      refine ⟨hext.trans (ext_setState _ _ _ _), fun h e he => ?_, Or.inl ⟨setState_state _ _ _, c, by simp, Or.inl ⟨hne, ?_⟩⟩⟩
      · show ((getConfig G st c).setState s .losing e).known = true
        rw [setState_known]; exact hext.known (h e he)
      show ((getConfig G st c).setState s .losing c).state = .losing
      rw [setState_other _ _ hne]; exact hl
    · split
      · rename_i hw
        exact skip (Or.inl hw)
      · split
        · rename_i hnl hnw hcs
          split
          · rename_i hs
            exact skip (Or.inr ⟨hs, hcs⟩)
          · rename_i hs
            refine ⟨hext.trans (ext_setState _ _ _ _), fun h e he => ?_,
              Or.inl ⟨setState_state _ _ _, c, by simp, Or.inr ⟨by simpa using hs, hcs⟩⟩⟩
            show ((getConfig G st c).setState s .losing e).known = true
            rw [setState_known]; exact hext.known (h e he)
        · rename_i hnl hnw hcs
          have R := rec1 (buf ++ [c])
          refine ⟨hext.trans (R.ext.mono sub), fun h => R.bufK fun e he => ?_, ?_⟩
          · rcases List.mem_append.1 he with he | he
            · exact hext.known (h e he)
            · rw [List.mem_singleton.1 he]; exact hck
          rcases R.res with ⟨h1, e, he, h2⟩ | ⟨h1, h2, b, h3, h4, h5⟩
          · exact Or.inl ⟨h1, e, sub e he, h2⟩
          · refine Or.inr ⟨h1, by simp [h2], c :: b, by simp [h3], fun e he => ?_, fun e he => ?_⟩
            · rcases List.mem_cons.1 he with rfl | he
              · exact Or.inr (Or.inr (by simp))
              · exact (h4 e he).imp id fun h => h.imp id fun h => List.mem_cons_of_mem _ h
            · rcases List.mem_cons.1 he with rfl | he
              · refine ⟨by simp, hcs, ?_, R.ext.known hck⟩
                rw [R.ext.same hcs hck]
                cases hv : (getConfig G st e e).state <;> simp_all [CState.det]
              · exact ⟨sub e (h5 e he).1, (h5 e he).2⟩

/-- What `get_ctrl_successors` computes. -/
structure CtrlRes (G : Game σ) (s : σ) (envEmpty : Bool) (cs : List σ) (st : Store σ) (sm sw : Bool)
    (buf : List σ) (r : Store σ × Bool × Bool × List σ) : Prop where
  ext : Ext G s cs st r.1
  some : r.2.1 = true ↔ sm = true ∨ cs ≠ []
  res :
    (∃ b, r.2.2.2 = buf ++ b ∧
      (∀ c ∈ b, c ∈ cs ∧ (r.1 c).known = true ∧ (c = s → G.safety = true ∧ G.permissive = true)) ∧
      (∀ c ∈ cs, (c ≠ s ∧ (r.1 c).state = .losing) ∨ (G.safety = false ∧ c = s) ∨ c ∈ b) ∧
      (((r.1 s).state = (st s).state ∧ r.2.2.1 = sw ∧ ∀ c ∈ b, c ≠ s ∧ (r.1 c).state.det = false) ∨
       ((r.1 s).state = .maybe ∧ (sw = true → r.2.2.1 = true) ∧
          ((r.2.2.1 = true ∧ ∃ c ∈ cs, c ≠ s ∧ (r.1 c).state = .winning) ∨
           (G.safety = true ∧ s ∈ cs ∧ s ∈ b))))) ∨
    (r.2.2.2 = [] ∧ (r.1 s).state = (if envEmpty then .winning else .maybe) ∧
      ((r.2.2.1 = true ∧ ∃ c ∈ cs, c ≠ s ∧ (r.1 c).state = .winning) ∨
        (G.permissive = false ∧ G.safety = true ∧ s ∈ cs)))

theorem ctrlLoop_res {s : σ} {envEmpty : Bool} : ∀ (cs : List σ) (st : Store σ) (sm sw : Bool) (buf : List σ),
    (st s).known = true → Active (st s).state →
    CtrlRes G s envEmpty cs st sm sw buf (ctrlLoop G s envEmpty cs st sm sw buf)
  | [], st, sm, sw, buf, hk, hp =>
    ⟨Ext.refl _ _ _, by simp [ctrlLoop], Or.inl ⟨[], by simp [ctrlLoop], by simp, by simp,
      Or.inl ⟨rfl, rfl, by simp⟩⟩⟩
  | c :: cs, st, sm, sw, buf, hk, hp => by
    have hext : Ext G s (c :: cs) st (getConfig G st c) := ext_getConfig (by simp) st hk
    have hk' : (getConfig G st c s).known = true := hext.known hk
    have hps : (getConfig G st c s) = st s := getConfig_s st hk
    have hp' : Active (getConfig G st c s).state := by rw [hps]; exact hp
    have hck : (getConfig G st c c).known = true := getConfig_known st c
    have sub : ∀ x ∈ cs, x ∈ c :: cs := fun x hx => List.mem_cons_of_mem _ hx
    have hset : ∀ v, Ext G s (c :: cs) st ((getConfig G st c).setState s v) :=
      fun v => hext.trans (ext_setState _ _ _ _)
    -- skipping a losing or self successor
    have skip : ((c ≠ s ∧ (getConfig G st c c).state = .losing) ∨ (G.safety = false ∧ c = s)) →
        CtrlRes G s envEmpty (c :: cs) st sm sw buf
          (ctrlLoop G s envEmpty cs (getConfig G st c) true sw buf) := by
      intro hc
      have R := ctrlLoop_res (envEmpty := envEmpty) cs (getConfig G st c) true sw buf hk' hp'
      refine ⟨hext.trans (R.ext.mono sub), by simp [R.some], ?_⟩
      rcases R.res with ⟨b, h1, h2, h3, h4⟩ | ⟨h1, h2, h3⟩
      · refine Or.inl ⟨b, h1, fun x hx => ⟨sub x (h2 x hx).1, (h2 x hx).2⟩, fun x hx => ?_, ?_⟩
        · rcases List.mem_cons.1 hx with rfl | hx
          · rcases hc with hc | hc
            · left; refine ⟨hc.1, ?_⟩
              rw [R.ext.same hc.1 hck]; exact hc.2
            · exact Or.inr (Or.inl hc)
          · exact h3 x hx
        · rcases h4 with ⟨h4, h5, h6⟩ | ⟨h4, h5, h6⟩
          · exact Or.inl ⟨by rw [h4, hps], h5, h6⟩
          · refine Or.inr ⟨h4, h5, ?_⟩
            rcases h6 with ⟨h6, x, hx, h7⟩ | ⟨h6, h7, h8⟩
            · exact Or.inl ⟨h6, x, sub x hx, h7⟩
            · exact Or.inr ⟨h6, sub s h7, h8⟩
      · refine Or.inr ⟨h1, h2, ?_⟩
        rcases h3 with ⟨h3, x, hx, h4⟩ | ⟨h3, h4, h5⟩
        · exact Or.inl ⟨h3, x, sub x hx, h4⟩
        · exact Or.inr ⟨h3, h4, sub s h5⟩
    simp only [ctrlLoop]
    split
    · rename_i hcs
      subst hcs
      split
      · rename_i hsafe
        split
        · rename_i hperm
          -- permissive self loop
          have hk2 : (((getConfig G st c).setState c .maybe) c).known = true := by
            rw [setState_known]; exact hk'
          have R := ctrlLoop_res (envEmpty := envEmpty) cs ((getConfig G st c).setState c .maybe) true sw
            (buf ++ [c]) hk2 (by rw [setState_state]; exact Or.inr rfl)
          refine ⟨(hset .maybe).trans (R.ext.mono sub), by simp [R.some], ?_⟩
          rcases R.res with ⟨b, h1, h2, h3, h4⟩ | ⟨h1, h2, h3⟩
          · refine Or.inl ⟨c :: b, by simp [h1], ?_, ?_, Or.inr ⟨?_, ?_, Or.inr ⟨hsafe, by simp, by simp⟩⟩⟩
            · intro x hx
              rcases List.mem_cons.1 hx with rfl | hx
              · exact ⟨by simp, R.ext.known hk2, fun _ => ⟨hsafe, hperm⟩⟩
              · exact ⟨sub x (h2 x hx).1, (h2 x hx).2⟩
            · intro x hx
              rcases List.mem_cons.1 hx with rfl | hx
              · exact Or.inr (Or.inr (by simp))
              · exact (h3 x hx).imp id fun h => h.imp id fun h => List.mem_cons_of_mem _ h
            · rcases h4 with ⟨h4, _⟩ | ⟨h4, _⟩
              · rw [h4, setState_state]
              · exact h4
            · rcases h4 with ⟨_, h4, _⟩ | ⟨_, h4, _⟩
              · rw [h4]; exact id
              · exact h4
          · refine Or.inr ⟨h1, h2, ?_⟩
            rcases h3 with ⟨h3, x, hx, h4⟩ | ⟨h3, _⟩
            · exact Or.inl ⟨h3, x, sub x hx, h4⟩
            · rw [hperm] at h3; cases h3
        · rename_i hperm
          unfold ctrlBreak
          refine ⟨?_, by simp, Or.inr ⟨rfl, ?_, Or.inr ⟨by simpa using hperm, hsafe, by simp⟩⟩⟩
          · cases envEmpty
            · exact hset .maybe
            · exact (hset .maybe).trans (ext_setState _ _ _ _)
          · cases envEmpty <;> simp [setState_state]
      · rename_i hsafe
        exact skip (Or.inr ⟨by simpa using hsafe, rfl⟩)
    · rename_i hcs
      split
      · rename_i hl
        exact skip (Or.inl ⟨hcs, hl⟩)
      · rename_i hnl
        split
        · rename_i hw
          have hwc : ∀ v, (((getConfig G st c).setState s v) c).state = .winning := by
            intro v; rw [setState_other _ _ hcs]; exact hw
          have hkc : ∀ v, (((getConfig G st c).setState s v) c).known = true := by
            intro v; rw [setState_known]; exact hck
          split
          · rename_i hperm
            have hk2 : (((getConfig G st c).setState s .maybe) s).known = true := by
              rw [setState_known]; exact hk'
            have R := ctrlLoop_res (envEmpty := envEmpty) cs ((getConfig G st c).setState s .maybe) true true
              (buf ++ [c]) hk2 (by rw [setState_state]; exact Or.inr rfl)
            refine ⟨(hset .maybe).trans (R.ext.mono sub), by simp [R.some], ?_⟩
            have hwc' : ((ctrlLoop G s envEmpty cs ((getConfig G st c).setState s .maybe) true true (buf ++ [c])).1 c).state
                = .winning := by
              rw [R.ext.same hcs (hkc _)]; exact hwc _
            rcases R.res with ⟨b, h1, h2, h3, h4⟩ | ⟨h1, h2, h3⟩
            · refine Or.inl ⟨c :: b, by simp [h1], ?_, ?_, Or.inr ⟨?_, ?_, Or.inl ⟨?_, c, by simp, hcs, hwc'⟩⟩⟩
              · intro x hx
                rcases List.mem_cons.1 hx with rfl | hx
                · exact ⟨by simp, R.ext.known (hkc _), fun h => absurd h hcs⟩
                · exact ⟨sub x (h2 x hx).1, (h2 x hx).2⟩
              · intro x hx
                rcases List.mem_cons.1 hx with rfl | hx
                · exact Or.inr (Or.inr (by simp))
                · exact (h3 x hx).imp id fun h => h.imp id fun h => List.mem_cons_of_mem _ h
              · rcases h4 with ⟨h4, _⟩ | ⟨h4, _⟩
                · rw [h4, setState_state]
                · exact h4
              · rcases h4 with ⟨_, h4, _⟩ | ⟨_, h4, _⟩
                · rw [h4]; exact fun _ => rfl
                · exact fun _ => h4 rfl
              · rcases h4 with ⟨_, h4, _⟩ | ⟨_, h4, _⟩
                · exact h4
                · exact h4 rfl
            · refine Or.inr ⟨h1, h2, ?_⟩
              rcases h3 with ⟨h3, x, hx, h4⟩ | ⟨h3, _⟩
              · exact Or.inl ⟨h3, x, sub x hx, h4⟩
              · rw [hperm] at h3; cases h3
          · rename_i hperm
            unfold ctrlBreak
            refine ⟨?_, by simp, Or.inr ⟨rfl, ?_, Or.inl ⟨rfl, c, by simp, hcs, ?_⟩⟩⟩
            · cases envEmpty
              · exact hset .maybe
              · exact (hset .maybe).trans (ext_setState _ _ _ _)
            · cases envEmpty <;> simp [setState_state]
            · cases envEmpty
              · exact hwc _
              · simp only [if_true]; rw [setState_other _ _ hcs]; exact hwc _
        · rename_i hnw
          have R := ctrlLoop_res (envEmpty := envEmpty) cs (getConfig G st c) true sw (buf ++ [c]) hk' hp'
          have hud : (getConfig G st c c).state.det = false := by
            cases hv : (getConfig G st c c).state <;> simp_all [CState.det]
          refine ⟨hext.trans (R.ext.mono sub), by simp [R.some], ?_⟩
          rcases R.res with ⟨b, h1, h2, h3, h4⟩ | ⟨h1, h2, h3⟩
          · refine Or.inl ⟨c :: b, by simp [h1], ?_, ?_, ?_⟩
            · intro x hx
              rcases List.mem_cons.1 hx with rfl | hx
              · exact ⟨by simp, R.ext.known hck, fun h => absurd h hcs⟩
              · exact ⟨sub x (h2 x hx).1, (h2 x hx).2⟩
            · intro x hx
              rcases List.mem_cons.1 hx with rfl | hx
              · exact Or.inr (Or.inr (by simp))
              · exact (h3 x hx).imp id fun h => h.imp id fun h => List.mem_cons_of_mem _ h
            · rcases h4 with ⟨h4, h5, h6⟩ | ⟨h4, h5, h6⟩
              · refine Or.inl ⟨by rw [h4, hps], h5, fun x hx => ?_⟩
                rcases List.mem_cons.1 hx with rfl | hx
                · exact ⟨hcs, by rw [R.ext.same hcs hck]; exact hud⟩
                · exact h6 x hx
              · refine Or.inr ⟨h4, h5, ?_⟩
                rcases h6 with ⟨h6, x, hx, h7⟩ | ⟨h6, h7, h8⟩
                · exact Or.inl ⟨h6, x, sub x hx, h7⟩
                · exact Or.inr ⟨h6, sub s h7, List.mem_cons_of_mem _ h8⟩
          · refine Or.inr ⟨h1, h2, ?_⟩
            rcases h3 with ⟨h3, x, hx, h4⟩ | ⟨h3, h4, h5⟩
            · exact Or.inl ⟨h3, x, sub x hx, h4⟩
            · exact Or.inr ⟨h3, h4, sub s h5⟩

/-- What `to_queue` computes. -/
structure QRes (b : Bool) (s : σ) (cs : List σ) (st : Store σ) (q : List σ) (r : Store σ × List σ) : Prop where
  fields : ∀ x, (r.1 x).state = (st x).state ∧ (r.1 x).known = (st x).known ∧
    (r.1 x).envC = (st x).envC ∧ (r.1 x).ctrlC = (st x).ctrlC
  deps : ∀ x, (r.1 x).deps = List.replicate (cs.count x) (b, s) ++ (st x).deps
  wait : ∀ x, (r.1 x).waiting = if x ∈ cs ∧ (st x).waiting = 0 then 1 else (st x).waiting
  sub : ∀ x ∈ q, x ∈ r.2
  new : ∀ x ∈ r.2, x ∈ q ∨ (x ∈ cs ∧ (st x).waiting = 0)
  pushed : ∀ x ∈ cs, (st x).waiting = 0 → x ∈ r.2
  nodup : q.Nodup → (∀ x ∈ q, (st x).waiting ≠ 0) → r.2.Nodup

theorem toQueue_res (b : Bool) (s : σ) : ∀ (cs : List σ) (st : Store σ) (q : List σ),
    QRes b s cs st q (toQueue b s cs st q)
  | [], st, q => by
    refine ⟨fun _ => ⟨rfl, rfl, rfl, rfl⟩, fun _ => by simp [toQueue], fun _ => by simp [toQueue],
      fun _ h => h, fun _ h => Or.inl h, fun _ h => by simp at h, fun h _ => h⟩
  | c :: cs, st, q => by
    -- the two branches differ in the waiting flag and the queue only
    have go : ∀ (w : Nat) (q' : List σ), (w = if (st c).waiting = 0 then 1 else (st c).waiting) →
        (q' = if (st c).waiting = 0 then q ++ [c] else q) →
        QRes b s (c :: cs) st q (toQueue b s cs (st.put c { st c with waiting := w, deps := (b, s) :: (st c).deps }) q') := by
      intro w q' hw hq
      have R := toQueue_res b s cs (st.put c { st c with waiting := w, deps := (b, s) :: (st c).deps }) q'
      have hw0 : w ≠ 0 := by rw [hw]; split <;> simp_all
      refine ⟨fun x => ?_, fun x => ?_, fun x => ?_, fun x hx => ?_, fun x hx => ?_, fun x hx h0 => ?_, fun hn hq0 => ?_⟩
      · have := R.fields x
        by_cases h : x = c
        · subst h; simpa using this
        · rw [put_other _ _ h] at this; exact this
      · have := R.deps x
        by_cases h : x = c
        · subst h
          rw [this, put_same, List.count_cons_self]
          simp only [List.replicate_succ']
          simp
        · rw [this, put_other _ _ h, List.count_cons_of_ne (Ne.symm h)]
      · have := R.wait x
        by_cases h : x = c
        · subst h
          rw [this, put_same, if_neg (by simp [hw0]), hw]
          simp
        · rw [this, put_other _ _ h]
          simp [h]
      · apply R.sub
        rw [hq]; split <;> simp [hx]
      · rcases R.new x hx with h | ⟨h, h'⟩
        · rw [hq] at h
          split at h
          · rename_i h0
            simp only [List.mem_append, List.mem_singleton] at h
            rcases h with h | rfl
            · exact Or.inl h
            · exact Or.inr ⟨by simp, h0⟩
          · exact Or.inl h
        · by_cases hxc : x = c
          · subst hxc; simp only [put_same] at h'; exact absurd h' hw0
          · rw [put_other _ _ hxc] at h'
            exact Or.inr ⟨List.mem_cons_of_mem _ h, h'⟩
      · by_cases hxc : x = c
        · subst hxc
          apply R.sub
          rw [hq, if_pos h0]; simp
        · refine R.pushed x ?_ (by rw [put_other _ _ hxc]; exact h0)
          exact (List.mem_cons.1 hx).resolve_left hxc
      · apply R.nodup
        · rw [hq]
          split
          · rename_i h0
            rw [List.nodup_append]
            refine ⟨hn, by simp, ?_⟩
            intro a ha b' hb'
            simp only [List.mem_singleton] at hb'
            subst hb'
            rintro rfl
            exact hq0 a ha h0
          · exact hn
        · intro x hx
          by_cases hxc : x = c
          · subst hxc; simp only [put_same]; exact hw0
          · rw [put_other _ _ hxc]
            rw [hq] at hx
            split at hx
            · simp only [List.mem_append, List.mem_singleton] at hx
              rcases hx with hx | hx
              · exact hq0 x hx
              · exact absurd hx hxc
            · exact hq0 x hx
    unfold toQueue
    simp only
    split
    · rename_i h0
      exact go 1 _ (by simp [h0]) (by simp [h0])
    · rename_i h0
      have := go (st c).waiting q (by simp [h0]) (by simp [h0])
      exact this

/-- Adding a processed configuration: `F` is the store after processing `s`. -/
theorem Inv.processed {st F : Store σ} {deps deps' : σ → List (Bool × σ)} {queue q Q' B' : List σ} {s : σ}
    (I : Inv G m0 st deps queue []) (hs : (st s).state = .unknown) (hq : ∀ x, x ∈ queue ↔ x = s ∨ x ∈ q)
    (hsq : s ∉ q) (hks : (st s).known = true)
    (other : ∀ x, x ≠ s → ((F x).state = (st x).state ∧ (F x).known = (st x).known ∧
        (F x).envC = (st x).envC ∧ (F x).ctrlC = (st x).ctrlC) ∨
      ((st x).known = false ∧ (F x).known = true ∧ (F x).state = G.init0 x ∧ (x ∈ G.env s ∨ x ∈ G.ctrl s)))
    (hFs : (F s).known = true ∧ (F s).state ≠ .unknown)
    (cnt : ∀ x b m, m ≠ s → (deps' x).count (b, m) = (deps x).count (b, m))
    (dsub : ∀ x b m, (b, m) ∈ deps' x → (b, m) ∈ deps x ∨ m = s)
    (dfresh : ∀ x, (F x).known = false → deps' x = [])
    (wait : ∀ x, (F x).waiting = (st x).waiting ∨ ((st x).waiting = 0 ∧ (F x).waiting = 1 ∧ x ∈ Q' ∧ (F x).known = true))
    (qsub : ∀ x ∈ q, x ∈ Q')
    (qnew : ∀ x ∈ Q', x ∈ q ∨ ((st x).waiting = 0 ∧ (F x).waiting ≠ 0 ∧ (F x).known = true ∧ x ≠ s))
    (qnd : Q'.Nodup)
    (hB : (F s).state.det = true → s ∈ B') (hB2 : ∀ x ∈ B', x = s ∧ (F s).state.det = true)
    (hwin : (F s).state = .winning → WinJ G F s) (hlose : (F s).state = .losing → LoseJ G F s)
    (hact : Active (F s).state → ∃ eP cP, Act G F deps' Q' B' s eP cP) :
    Inv G m0 F deps' Q' B' := by
  have sw : (st s).waiting = 1 := by
    have h1 := I.unkWait s hs
    have h2 := (I.qWait s ((hq s).2 (Or.inl rfl))).2.1
    omega
  have hFw : (F s).waiting = 1 := by
    rcases wait s with h | h
    · rw [h, sw]
    · rw [sw] at h; cases h.1
  have hkeep : Keeps st F := by
    intro x hx
    have hne : x ≠ s := by rintro rfl; rw [hs] at hx; cases hx
    rcases other x hne with h | h
    · exact h.1
    · rw [(I.fresh x h.1).1] at hx; cases hx
  -- states of the others
  have stateO : ∀ x, x ≠ s → (st x).known = true → (F x).state = (st x).state := by
    intro x hx hk
    rcases other x hx with h | h
    · exact h.1
    · rw [h.1] at hk; cases hk
  have activeO : ∀ x, x ≠ s → Active (F x).state → Active (st x).state ∧ (st x).known = true ∧
      (F x).state = (st x).state ∧ (F x).envC = (st x).envC ∧ (F x).ctrlC = (st x).ctrlC := by
    intro x hx ha
    rcases other x hx with h | h
    · rw [h.1] at ha
      refine ⟨ha, ?_, h.1, h.2.2.1, h.2.2.2⟩
      cases hk : (st x).known with
      | true => rfl
      | false =>
        rw [(I.fresh x hk).1] at ha
        rcases ha with ha | ha <;> cases ha
    · rw [h.2.2.1] at ha
      rcases init0_cases G x with h' | h' | h' <;> rw [h'] at ha <;> rcases ha with ha | ha <;> cases ha
  have pend : ∀ e, (deps e ≠ []) → ((st e).state.det = true → e ∈ ([] : List σ)) ∧ ((st e).state = .unknown → e ∈ queue) →
      ((F e).state.det = true → e ∈ B') ∧ ((F e).state = .unknown → e ∈ Q') := by
    intro e hdep he
    by_cases h : e = s
    · subst h
      exact ⟨hB, fun h' => absurd h' hFs.2⟩
    · have hk : (st e).known = true := by
        cases hk : (st e).known with
        | true => rfl
        | false => exact absurd (I.fresh e hk).2.2 hdep
      rw [stateO e h hk]
      refine ⟨fun h' => (by cases he.1 h'), fun h' => ?_⟩
      exact qsub e (((hq e).1 (he.2 h')).resolve_left h)
  have depne : ∀ {l : List σ} {b m}, (∀ x, l.count x = (deps x).count (b, m)) → ∀ e ∈ l, deps e ≠ [] := by
    intro l b m hl e he h
    have h1 := hl e
    rw [h] at h1
    simp only [List.count_nil, List.count_eq_zero] at h1
    exact h1 he
  constructor
  · intro x hx
    have hne : x ≠ s := by rintro rfl; rw [hFs.1] at hx; cases hx
    rcases other x hne with h | h
    · rw [h.2.1] at hx
      have hf := I.fresh x hx
      refine ⟨by rw [h.1]; exact hf.1, ?_, dfresh x (by rw [h.2.1]; exact hx)⟩
      rcases wait x with h' | h'
      · rw [h']; exact hf.2.1
      · rw [h.2.1, hx] at h'; cases h'.2.2.2
    · rw [h.2.1] at hx; cases hx
  · intro x hx
    by_cases h : x = s
    · subst h; exact I.reach x hks
    · rcases other x h with h' | h'
      · rw [h'.2.1] at hx; exact I.reach x hx
      · rcases h'.2.2.2 with h' | h'
        · exact .env (I.reach s hks) (init0_unknown (I.base s hks (by rw [hs]; rfl))).1 h'
        · exact .ctrl (I.reach s hks) (init0_unknown (I.base s hks (by rw [hs]; rfl))).1 h'
  · intro x hx hd
    by_cases h : x = s
    · subst h; exact I.base x hks (by rw [hs]; rfl)
    · rcases other x h with h' | h'
      · rw [h'.2.1] at hx; rw [h'.1] at hd; exact I.base x hx hd
      · rw [h'.2.2.1] at hd
        rcases init0_cases G x with h2 | h2 | h2
        · exact h2
        · rw [h2] at hd; cases hd
        · rw [h2] at hd; cases hd
  · intro x hx
    by_cases h : x = s
    · subst h; exact hwin hx
    · rcases other x h with h' | h'
      · rw [h'.1] at hx; exact (I.win x hx).mono hkeep
      · rw [h'.2.2.1] at hx; exact init0_win F hx
  · intro x hx
    by_cases h : x = s
    · subst h; exact hlose hx
    · rcases other x h with h' | h'
      · rw [h'.1] at hx; exact (I.lose x hx).mono hkeep
      · rw [h'.2.2.1] at hx; exact init0_lose F hx
  · intro x hx
    by_cases h : x = s
    · subst h; exact hact hx
    · obtain ⟨ha, _, h1, h2, h3⟩ := activeO x h hx
      obtain ⟨eP, cP, A⟩ := I.act x ha
      refine ⟨eP, cP, ?_, ?_, ?_, ?_, A.eSub, A.cSub, ?_, ?_, ?_, ?_⟩
      · rw [h2]; exact A.envC
      · rw [h3]; exact A.ctrlC
      · intro y; rw [A.eCount y, cnt y _ x h]
      · intro y; rw [A.cCount y, cnt y _ x h]
      · exact fun e he => (A.env e he).imp hkeep.win id
      · exact fun e he => pend e (depne A.eCount e he) (A.ePend e he)
      · rw [h1]; intro hp
        obtain ⟨h4, h5, h6⟩ := A.proc hp
        exact ⟨h4, fun c hc => (h5 c hc).imp hkeep.lose id,
          fun c hc => pend c (depne A.cCount c hc) (h6 c hc)⟩
      · rw [h1]; intro hp
        obtain ⟨h4, h5⟩ := A.may hp
        refine ⟨?_, h5⟩
        rcases h4 with h4 | ⟨c, hc, h4⟩ | h4
        · exact Or.inl h4
        · exact Or.inr (Or.inl ⟨c, hc, hkeep.win h4⟩)
        · exact Or.inr (Or.inr h4)
  · intro x b m hm
    by_cases h : m = s
    · subst h; exact hFs
    · have hd := I.depAct x b m ((dsub x b m hm).resolve_right h)
      rcases other m h with h' | h'
      · rw [h'.1, h'.2.1]; exact hd
      · rw [h'.1] at hd; cases hd.1
  · exact qnd
  · intro x hx
    rcases qnew x hx with h | h
    · have hne : x ≠ s := by rintro rfl; exact hsq h
      have := I.qWait x ((hq x).2 (Or.inr h))
      refine ⟨?_, ?_, ?_⟩
      · rcases other x hne with h' | h'
        · rw [h'.2.1]; exact this.1
        · exact h'.2.1
      · rcases wait x with h' | h'
        · rw [h']; exact this.2.1
        · rw [h'.2.1]; simp
      · intro ha
        exact this.2.2 (activeO x hne ha).1
    · refine ⟨h.2.2.1, h.2.1, fun ha => ?_⟩
      have := I.actWait x (activeO x h.2.2.2 ha).1
      rw [h.1] at this; cases this
  · intro x hx
    by_cases h : x = s
    · subst h; exact hFw
    · have := I.actWait x (activeO x h hx).1
      rcases wait x with h' | h'
      · rw [h', this]
      · exact h'.2.1
  · intro x hx hw
    have hne : x ≠ s := by rintro rfl; exact hFs.2 hx
    rcases wait x with h' | h'
    · rcases other x hne with h | h
      · refine qsub x (((hq x).1 (I.unkQ x (by rw [← h.1]; exact hx) (by rw [← h']; exact hw))).resolve_left hne)
      · rw [h', (I.fresh x h.1).2.1] at hw; exact absurd rfl hw
    · exact h'.2.2.1
  · intro x hx
    have hne : x ≠ s := by rintro rfl; exact hFs.2 hx
    rcases wait x with h' | h'
    · rcases other x hne with h | h
      · rw [h']; exact I.unkWait x (by rw [← h.1]; exact hx)
      · rw [h', (I.fresh x h.1).2.1]; omega
    · omega
  · intro x hx
    obtain ⟨rfl, h⟩ := hB2 x hx
    exact h
  · by_cases h : m0 = s
    · subst h; exact ⟨hFs.1, by rw [hFw]; simp⟩
    · have := I.root
      refine ⟨?_, ?_⟩
      · rcases other m0 h with h' | h'
        · rw [h'.2.1]; exact this.1
        · exact h'.2.1
      · rcases wait m0 with h' | h'
        · rw [h']; exact this.2
        · rw [h'.2.1]; simp

end Synth
end Verif
