import Verif.CTL.FixedPointInv

/-!
# The invariant is kept: assignments, dependencies, exploration
-/

namespace Verif
namespace CTL

set_option linter.unusedSectionVars false
set_option linter.unusedSimpArgs false

variable {κ : Type} [DecidableEq κ]

open St

variable {G : Graph κ} {V : κ → Prop} {lev : κ → Nat} {H K X : List (EId κ)} {s : St κ}

/-- Giving a configuration its final value; its dependency set goes to the running function. -/
theorem Inv.assign (h : Inv G V lev H K X s) {c : κ} {a : Asg} (hz : s.asg c = .zero)
    (ha : (a = .one ∧ V c) ∨ (a = .czero ∧ ¬ V c)) :
    Inv G V lev ((s.conf c).deps ++ H) ((s.conf c).deps ++ K) X
      (s.upC c fun r => { r with asg := a, nsuccs := 0, deps := [] }) := by
  generalize hs' : (s.upC c fun r => { r with asg := a, nsuccs := 0, deps := [] }) = s'
  have hasg : ∀ c', s'.asg c' = if c' = c then a else s.asg c' := by
    intro c'; subst hs'; simp only [St.asg, upC_conf]; split <;> rfl
  have hsame : ∀ c', c' ≠ c → s'.conf c' = s.conf c' := by
    intro c' hc; subst hs'; exact upC_ne _ hc _
  have hc0 : (s'.conf c).deps = [] := by subst hs'; simp
  have hdist : ∀ c', (s'.conf c').dist = (s.conf c').dist := by
    intro c'; subst hs'; simp only [upC_conf]; split
    · rename_i h; rw [h]
    · rfl
  have hedge : s'.edge = s.edge := by subst hs'; rfl
  have hW : s'.W = s.W := by subst hs'; rfl
  have hN : s'.N = s.N := by subst hs'; rfl
  have hD : s'.D = s.D := by subst hs'; rfl
  have hopen : s'.isOpen = s.isOpen := by funext e; simp only [St.isOpen, hedge]
  have hane : a = .one ∨ a = .czero := by rcases ha with h | h <;> simp [h.1]
  have hunk : ∀ c', s'.asg c' ≠ .unknown ↔ s.asg c' ≠ .unknown := by
    intro c'; rw [hasg]; split
    · rename_i hc; subst hc; rcases hane with h | h <;> simp [h, hz]
    · rfl
  have hzer : ∀ c', s'.asg c' = .zero → s.asg c' = .zero ∧ c' ≠ c := by
    intro c'; rw [hasg]; split
    · intro h; rcases hane with h' | h' <;> simp [h'] at h
    · rename_i hc; exact fun h => ⟨h, hc⟩
  have hdone : ∀ c', s.isDone c' = true → s'.isDone c' = true := by
    intro c' hd
    rw [isDone_iff] at hd ⊢
    rw [hasg]; split
    · exact hane
    · exact hd
  have hone : ∀ c', s.asg c' = .one → s'.asg c' = .one := by
    intro c' h1; rw [hasg]; split
    · rename_i hc; subst hc; rw [hz] at h1; cases h1
    · exact h1
  have hcz : ∀ c', s.asg c' = .czero → s'.asg c' = .czero := by
    intro c' h1; rw [hasg]; split
    · rename_i hc; subst hc; rw [hz] at h1; cases h1
    · exact h1
  have htot : ∀ e, total G ((s.conf c).deps ++ H) s' e = total G H s e := by
    intro e
    have := depCnt_change (G := G) (s := s) (s' := s') (c := c) (fun t ht => by rw [hsame t ht]) e
      (by rintro (h1 | h1)
          · exact h.depT c e h1
          · rw [hc0] at h1; cases h1)
    simp only [total, hW, hN, hD, List.count_append]
    rw [hc0] at this
    simp only [List.count_nil] at this
    omega
  exact {
    rc := fun e => by rw [hedge, htot]; exact h.rc e
    range := fun e he => by rw [htot] at he; rw [hunk]; exact h.range e he
    depT := fun t e he => by
      by_cases hc : t = c
      · subst hc; rw [hc0] at he; cases he
      · rw [hsame t hc] at he; exact h.depT t e he
    one := fun c' h1 => by
      rw [hasg] at h1
      split at h1
      · rename_i hc; subst hc
        rcases ha with h | h
        · exact h.2
        · rw [h.1] at h1; cases h1
      · exact h.one c' h1
    czero := fun c' h1 => by
      rw [hasg] at h1
      split at h1
      · rename_i hc; subst hc
        rcases ha with h | h
        · rw [h.1] at h1; cases h1
        · exact h.2
      · exact h.czero c' h1
    tgt := fun e hr hu hi => by
      rw [hedge] at hr ⊢
      rw [hunk] at hu
      have := h.tgt e hr hu hi
      exact ⟨this.1, fun t ht hn => hone t (this.2 t ht hn)⟩
    ns := fun c' hc' => by
      obtain ⟨h1, h2⟩ := hzer c' hc'
      rw [hsame c' h2, h.ns c' h1, hopen]
    clos := fun e hz' hr ho => by
      rw [hopen] at ho
      have := h.clos e (hzer _ hz').1 hr ho
      unfold Refuted at this ⊢
      split at this
      · rename_i hn; rw [if_pos hn]; exact fun t ht => hone t (this t ht)
      · rename_i hn; rw [if_neg hn]
        obtain ⟨t, ht, htc⟩ := this
        exact ⟨t, ht, hcz t htc⟩
    pend := fun e hz' hr ho hk => by
      rw [hopen] at ho
      simp only [List.mem_append, not_or] at hk
      rcases h.pend e (hzer _ hz').1 hr ho hk.2 with h1 | ⟨h1, t, ht, htz, htd⟩
      · left; simpa only [Listed, hW, hN, hD] using h1
      · right
        have htc : t ≠ c := fun hc => hk.1 (hc ▸ htd)
        exact ⟨h1, t, by rw [hedge]; exact ht, by rw [hasg, if_neg htc]; exact htz,
          by rw [hsame t htc]; exact htd⟩
    wait := fun e hz' hr ho hn hp t ht hd => by
      rw [hopen] at ho
      rw [hedge] at hp ht
      have htc : t ≠ c := by
        rintro rfl
        have : s'.isDone t = true := by rw [isDone_iff, hasg, if_pos rfl]; exact hane
        rw [hd] at this; cases this
      rw [hsame t htc]
      refine h.wait e (hzer _ hz').1 hr ho hn hp t ht ?_
      by_contra hc
      have := hdone t (by simpa using hc)
      rw [hd] at this; cases this
    known := fun e hn hp t ht => by
      rw [hedge] at hp ht
      rw [hunk]
      refine h.known e hn ?_ t ht
      rcases hp with hp | hp
      · exact .inl hp
      · exact .inr ⟨hp.1, fun hk => hp.2 (by simp [hk])⟩
    relW := fun e hm hn hp t ht hz' hz2 => by
      rw [hedge] at hp ht
      rw [hW] at hm
      exact h.relW e hm hn hp t ht (hzer _ hz').1 (hzer _ hz2).1
    relN := fun e hm => by
      rw [hN] at hm
      rw [hedge]
      exact h.relN e hm
    relD := fun e hm hn t ht => by
      rw [hD] at hm
      rw [hedge] at ht
      exact hdone t (h.relD e hm hn t ht)
    uniq := fun e hn => by rw [hW, hN]; exact h.uniq e hn
    dist := fun c' hc' => by rw [hdist]; exact h.dist c' ((hunk c').1 hc')
    distLe := fun c' => by rw [hdist]; exact h.distLe c'
    depD := fun t e he => by
      rw [hdist]
      by_cases htc : t = c
      · rw [htc, hc0] at he; cases he
      · rw [hsame t htc] at he; exact h.depD t e he
    stat := fun e hs => by
      rw [hedge] at hs
      simpa only [Listed, hW, hN, hD] using h.stat e hs }

/-- What a sequence of notifications leaves alone. -/
structure Frame (s s' : St κ) : Prop where
  conf : s'.conf = s.conf
  listed : ∀ e, Listed s e → Listed s' e
  W : s'.W = s.W
  N : s'.N = s.N

theorem Frame.refl (s : St κ) : Frame s s := ⟨rfl, fun _ h => h, rfl, rfl⟩

theorem Frame.trans {s s' s'' : St κ} (h : Frame s s') (h' : Frame s' s'') : Frame s s'' :=
  ⟨h'.conf.trans h.conf, fun e he => h'.listed e (h.listed e he), h'.W.trans h.W, h'.N.trans h.N⟩

theorem releaseIf0_frame (s : St κ) (e : EId κ) : Frame s (s.releaseIf0 e) := by
  unfold St.releaseIf0; split
  · exact ⟨rfl, fun _ h => h, rfl, rfl⟩
  · exact Frame.refl s

theorem deref_frame (s : St κ) (e : EId κ) : Frame s (s.deref e) := ⟨rfl, fun _ h => h, rfl, rfl⟩

/-- One round of the loop in `finalAssign`: the edge waits on `D` or its source is finished. -/
theorem Inv.notify {L : List (EId κ)} {e : EId κ} {c : κ} {a : Asg} (hl : G.Layered lev)
    (h : Inv G V lev (e :: L ++ H) (e :: L ++ K) X s) (hHK : ∀ x ∈ K, x ∈ H) (hc : c ∈ G.origTargets e)
    (ha : s.asg c = a) (hao : a = .one ∨ a = .czero) :
    Inv G V lev (L ++ H) (L ++ K) X (s.notifyDep G a e) ∧ Frame s (s.notifyDep G a e) := by
  have hpos : 0 < total G (e :: L ++ H) s e := total_pos_of_mem (by simp)
  obtain ⟨hu, hr⟩ := h.range e hpos
  have hrc : (s.edge e).refcnt ≠ -1 := by have := h.refcnt_pos hpos; omega
  have htgt : G.isNeg e = true → ∀ t ∈ G.origTargets e, t = c := by
    intro hn t ht'
    unfold Graph.isNeg at hn
    unfold Graph.origTargets at ht' hc
    cases ho : G.orig e with
    | none => simp [ho] at hn
    | some x =>
      simp only [ho] at hn ht' hc
      obtain ⟨y, hy, _⟩ := hl.neg e.1 x (List.mem_of_getElem? ho) hn
      rw [hy] at ht' hc
      simp only [List.mem_singleton] at ht' hc
      rw [ht', hc]
  have hdone : G.isNeg e = true → ∀ t ∈ (s.edge e).targets, t = c :=
    fun hn t ht => htgt hn t ((h.tgt e hrc hu hr).1 t ht)
  have hcd : s.isDone c = true := by rw [isDone_iff, ha]; exact hao
  have hfin : ∀ {s1 : St κ}, Inv G V lev (e :: L ++ H) (e :: L ++ K) X s1 → Frame s s1 →
      (s.asg e.1 = .zero → Listed s1 e) →
      Inv G V lev (L ++ H) (L ++ K) X ((s1.deref e).releaseIf0 e) ∧
        Frame s ((s1.deref e).releaseIf0 e) := by
    intro s1 h1 hf hp
    refine ⟨?_, hf.trans ((deref_frame s1 e).trans (releaseIf0_frame _ e))⟩
    have hp' : s1.asg e.1 = .zero → Listed s1 e := by
      intro hz; refine hp ?_
      simpa only [St.asg, hf.conf] using hz
    have h2 : Inv G V lev (L ++ H) (L ++ K) X (s1.deref e) := by
      refine Inv.drop (K := e :: L ++ K) (K' := L ++ K) (by simpa using h1) (fun e' hne => by simp [hne])
        (fun hz _ _ _ => .inl (hp' hz)) ?_
      intro hn _ _ t ht
      have hasg : s1.asg = s.asg := by funext x; simp only [St.asg, hf.conf]
      have hu1 : s1.asg e.1 ≠ .unknown := by rw [hasg]; exact hu
      have hr1 : (s1.edge e).refcnt ≠ -1 := by
        have := h1.held_pos (e := e) (by simp); omega
      rw [hasg, htgt hn t ((h1.tgt e hr1 hu1 hr).1 t ht), ha]
      rcases hao with h | h <;> simp [h]
    exact h2.release0 e (fun hk => by
      simp only [List.mem_append] at hk ⊢
      rcases hk with hk | hk
      · exact .inl hk
      · exact .inr (hHK e hk))
  unfold St.notifyDep
  cases hsd : s.isDone e.1 with
  | true =>
    simp only [if_true]
    refine hfin h (Frame.refl s) (fun hz => ?_)
    rw [zero_not_done hz] at hsd; cases hsd
  | false =>
    have hdt : G.isNeg e = true → ∀ t ∈ (s.edge e).targets, s.isDone t = true := fun hn t ht => by
      rw [hdone hn t ht]; exact hcd
    simp only [Bool.false_eq_true, if_false]
    split
    · have := h.pushD e 2 hpos hdt
      unfold St.pushDependency
      rw [hsd]
      simp only [Bool.false_eq_true, if_false]
      refine hfin this ⟨rfl, fun e' he' => ?_, rfl, rfl⟩ (fun _ => .inr (.inr (List.mem_cons_self ..)))
      rcases he' with h1 | h1 | h1
      · exact .inl h1
      · exact .inr (.inl h1)
      · exact .inr (.inr (List.mem_cons_of_mem _ h1))
    · rename_i hna
      simp only [Bool.or_eq_true, Bool.not_eq_true', decide_eq_true_eq, not_or,
        Bool.not_eq_false] at hna
      have := h.pushD e 3 hpos hdt
      unfold St.pushNegation
      have hdec : ((s.upE e fun r => { r with status := 3 }).ref e).decided e = true := by
        have ha1 : s.asg c = .one := by
          rcases hao with h | h
          · rw [ha, h]
          · exact absurd h hna.2
        unfold St.decided
        simp only [Bool.or_eq_true, List.all_eq_true]
        left
        intro t ht
        have ht' : t ∈ (s.edge e).targets := by simpa [St.ref] using ht
        rw [hdone hna.1 t ht']
        show (s.asg c == .one) = true
        simp [ha1]
      simp only [hdec, if_true]
      refine hfin this ⟨rfl, fun e' he' => ?_, rfl, rfl⟩ (fun _ => .inr (.inr (List.mem_cons_self ..)))
      rcases he' with h1 | h1 | h1
      · exact .inl h1
      · exact .inr (.inl h1)
      · exact .inr (.inr (List.mem_cons_of_mem _ h1))

/-- `finalAssign` keeps the invariant. -/
theorem Inv.finalAssign (hl : G.Layered lev) (h : Inv G V lev H K X s) (hHK : ∀ x ∈ K, x ∈ H) {c : κ}
    {a : Asg} (hz : s.asg c = .zero) (ha : (a = .one ∧ V c) ∨ (a = .czero ∧ ¬ V c)) :
    Inv G V lev H K X (s.finalAssign G c a) ∧
      Frame (s.upC c fun r => { r with asg := a, nsuccs := 0, deps := [] }) (s.finalAssign G c a) := by
  have hao : a = .one ∨ a = .czero := by rcases ha with h | h <;> simp [h.1]
  have key : ∀ (L : List (EId κ)) (s1 : St κ), Inv G V lev (L ++ H) (L ++ K) X s1 →
      (∀ e ∈ L, c ∈ G.origTargets e) → s1.asg c = a →
      Inv G V lev H K X (L.foldl (St.notifyDep G a) s1) ∧ Frame s1 (L.foldl (St.notifyDep G a) s1) := by
    intro L
    induction L with
    | nil => exact fun s1 h1 _ _ => ⟨h1, Frame.refl s1⟩
    | cons e L ih =>
      intro s1 h1 hL h2
      obtain ⟨h3, h4⟩ := h1.notify hl hHK (hL e (by simp)) h2 hao
      obtain ⟨h5, h6⟩ := ih _ h3 (fun e' he' => hL e' (by simp [he'])) (by
        simp only [St.asg, h4.conf]; exact h2)
      exact ⟨h5, h4.trans h6⟩
  refine key _ _ (h.assign hz ha) (fun e he => h.depT c e he) ?_
  simp [St.asg]

end CTL
end Verif
