import Verif.CTL.FixedPointOps2

/-!
# The invariant is kept: closing edges, looking at an edge, exploring
-/

namespace Verif
namespace CTL

set_option linter.unusedSectionVars false
set_option linter.unusedSimpArgs false

variable {κ : Type} [DecidableEq κ]

open St

variable {G : Graph κ} {V : κ → Prop} {lev : κ → Nat} {H K X : List (EId κ)} {s : St κ}

theorem mem_succIds {c : κ} {e : EId κ} : e ∈ succIds G c ↔ e.1 = c ∧ inRange G e := by
  obtain ⟨c', i⟩ := e
  simp only [St.succIds, List.mem_map, List.mem_range, Prod.mk.injEq, inRange]
  constructor
  · rintro ⟨j, hj, rfl, rfl⟩; exact ⟨rfl, hj⟩
  · rintro ⟨rfl, hi⟩; exact ⟨i, hi, rfl, rfl⟩

theorem nodup_succIds (c : κ) : (succIds G c).Nodup := by
  unfold St.succIds
  refine List.Nodup.map ?_ List.nodup_range
  intro i j hij
  simpa using hij

theorem countP_change {α : Type} [DecidableEq α] (p q : α → Bool) (x : α) (hq : ∀ y, y ≠ x → q y = p y)
    (hp : p x = true) (hqx : q x = false) : ∀ l : List α, l.Nodup →
    (x ∈ l → l.countP p = l.countP q + 1) ∧ (x ∉ l → l.countP p = l.countP q)
  | [], _ => by simp
  | y :: l, hn => by
    obtain ⟨hy, hl⟩ := List.nodup_cons.1 hn
    have ih := countP_change p q x hq hp hqx l hl
    by_cases hxy : y = x
    · subst hxy
      refine ⟨fun _ => ?_, fun h => by simp at h⟩
      simp [List.countP_cons, hp, hqx, ih.2 hy]
    · refine ⟨fun hm => ?_, fun hm => ?_⟩
      · simp only [List.mem_cons, Ne.symm hxy, false_or] at hm
        simp only [List.countP_cons, hq y hxy, ih.1 hm]; omega
      · simp only [List.mem_cons, not_or] at hm
        simp only [List.countP_cons, hq y hxy, ih.2 hm.2]

/-- A configuration all of whose edges are refuted has the value false. -/
theorem Inv.notV (hV : G.Solution V) (h : Inv G V lev H K X s) {c : κ} (hz : s.asg c = .zero)
    (hall : ∀ e ∈ succIds G c, s.isOpen e = false) : ¬ V c := by
  intro hc
  obtain ⟨x, hx, hf⟩ := (hV.fix c).1 hc
  obtain ⟨i, hi, hxi⟩ := List.getElem_of_mem hx
  have hr : inRange G (c, i) := hi
  have hor : G.orig (c, i) = some x := by simp [Graph.orig, hi, hxi]
  have := h.clos (c, i) hz hr (hall (c, i) (mem_succIds.2 ⟨rfl, hr⟩))
  simp only [Refuted, Graph.isNeg, Graph.origTargets, hor] at this
  unfold HEdge.Fires at hf
  split at hf
  · rename_i hn
    rw [if_pos hn] at this
    obtain ⟨t, ht, hnt⟩ := hf
    exact hnt (h.one t (this t ht))
  · rename_i hn
    rw [if_neg hn] at this
    obtain ⟨t, ht, hcz⟩ := this
    exact h.czero t hcz (hf t ht)

/-- An edge is found not to make its source true. -/
theorem Inv.close (h : Inv G V lev H K X s) {e : EId κ} (hz : s.asg e.1 = .zero) (hr : inRange G e)
    (ho : s.isOpen e = true) (hf : Refuted G s e) :
    Inv G V lev H K X ((s.upC e.1 fun c => { c with nsuccs := c.nsuccs - 1 }).upE e
      fun r => { r with handled := true }) := by
  generalize hs' : (s.upC e.1 fun c => { c with nsuccs := c.nsuccs - 1 }).upE e
      (fun r => { r with handled := true }) = s'
  have hconf : ∀ c', (s'.conf c').asg = (s.conf c').asg ∧ (s'.conf c').deps = (s.conf c').deps ∧
      (s'.conf c').dist = (s.conf c').dist ∧
      (s'.conf c').nsuccs = if c' = e.1 then (s.conf c').nsuccs - 1 else (s.conf c').nsuccs := by
    intro c'; subst hs'
    simp only [upE_conf, upC_conf]
    split
    · rename_i hc; subst hc; exact ⟨rfl, rfl, rfl, rfl⟩
    · exact ⟨rfl, rfl, rfl, rfl⟩
  have hasg : s'.asg = s.asg := by funext c; exact (hconf c).1
  have hdone : s'.isDone = s.isDone := by funext c; simp only [St.isDone, hasg]
  have hne : ∀ e', e' ≠ e → s'.edge e' = s.edge e' := by
    intro e' hee; subst hs'; rw [upE_ne _ hee]; rfl
  have hsame : s'.edge e = { s.edge e with handled := true } := by subst hs'; simp
  have hedge : ∀ e', (s'.edge e').targets = (s.edge e').targets ∧
      (s'.edge e').processed = (s.edge e').processed ∧ (s'.edge e').status = (s.edge e').status ∧
      (s'.edge e').refcnt = (s.edge e').refcnt := by
    intro e'
    by_cases hee : e' = e
    · subst hee; rw [hsame]; exact ⟨rfl, rfl, rfl, rfl⟩
    · rw [hne e' hee]; exact ⟨rfl, rfl, rfl, rfl⟩
  have hW : s'.W = s.W := by subst hs'; rfl
  have hN : s'.N = s.N := by subst hs'; rfl
  have hD : s'.D = s.D := by subst hs'; rfl
  have hopen : ∀ e', e' ≠ e → s'.isOpen e' = s.isOpen e' := by
    intro e' hee; simp only [St.isOpen, hne e' hee]
  have hoe : s'.isOpen e = false := by simp [St.isOpen, hsame]
  have htot : ∀ e', total G H s' e' = total G H s e' := by
    intro e'
    simp only [total, hW, hN, hD, depCnt_congr (G := G) (fun t => (hconf t).2.1) e']
  have hopen' : ∀ e', s'.isOpen e' = true → e' ≠ e ∧ s.isOpen e' = true := by
    intro e' h1
    have hee : e' ≠ e := by rintro rfl; rw [hoe] at h1; cases h1
    exact ⟨hee, by rw [← hopen e' hee]; exact h1⟩
  have href : ∀ e', Refuted G s' e' ↔ Refuted G s e' := by
    intro e'; unfold Refuted; rw [hasg]
  exact {
    rc := fun e' => by rw [(hedge e').2.2.2, htot]; exact h.rc e'
    range := fun e' he' => by rw [htot] at he'; rw [hasg]; exact h.range e' he'
    depT := fun t e' he' => h.depT t e' (by rw [(hconf t).2.1] at he'; exact he')
    one := by rw [hasg]; exact h.one
    czero := by rw [hasg]; exact h.czero
    tgt := fun e' => by rw [hasg, (hedge e').1, (hedge e').2.2.2]; exact h.tgt e'
    ns := fun c hc => by
      rw [hasg] at hc
      rw [(hconf c).2.2.2, h.ns c hc]
      have := countP_change s.isOpen s'.isOpen e hopen ho hoe (succIds G c) (nodup_succIds c)
      split
      · rename_i hce
        have := this.1 (mem_succIds.2 ⟨hce.symm, hr⟩)
        omega
      · rename_i hce
        exact this.2 fun hm => hce (mem_succIds.1 hm).1.symm
    clos := fun e' hz' hr' ho' => by
      rw [href]
      by_cases hee : e' = e
      · subst hee; exact hf
      · rw [hasg] at hz'; rw [hopen e' hee] at ho'; exact h.clos e' hz' hr' ho'
    pend := fun e' hz' hr' ho' hk => by
      rw [hasg] at hz'
      obtain ⟨_, ho2⟩ := hopen' e' ho'
      rcases h.pend e' hz' hr' ho2 hk with h1 | ⟨h1, t', h2, h3, h4⟩
      · left; simpa only [Listed, hW, hN, hD] using h1
      · exact .inr ⟨h1, t', by rw [(hedge e').1]; exact h2, by rw [hasg]; exact h3,
          by rw [(hconf t').2.1]; exact h4⟩
    wait := fun e' hz' hr' ho' hn hp t' ht' hd' => by
      rw [hasg] at hz'; rw [hdone] at hd'
      obtain ⟨_, ho2⟩ := hopen' e' ho'
      rw [(hedge e').2.1] at hp
      rw [(hedge e').1] at ht'
      rw [(hconf t').2.1]
      exact h.wait e' hz' hr' ho2 hn hp t' ht' hd'
    known := fun e' => by rw [hasg, (hedge e').1, (hedge e').2.1]; exact h.known e'
    relW := fun e' => by rw [hasg, (hedge e').1, (hedge e').2.1, hW]; exact h.relW e'
    relN := fun e' => by rw [(hedge e').2.1, hN]; exact h.relN e'
    relD := fun e' => by rw [hdone, (hedge e').1, hD]; exact h.relD e'
    uniq := by rw [hW, hN]; exact h.uniq
    dist := fun c hc => by rw [hasg] at hc; rw [(hconf c).2.2.1]; exact h.dist c hc
    distLe := fun c => by rw [(hconf c).2.2.1]; exact h.distLe c
    depD := fun t e' he' => by
      rw [(hconf t).2.1] at he'; rw [(hconf t).2.2.1]; exact h.depD t e' he'
    stat := fun e' hs => by
      rw [(hedge e').2.2.1] at hs
      simpa only [Listed, hW, hN, hD] using h.stat e' hs }

/-- What looking at an edge of `c` may change: the value of `c` and the edges waiting for it. -/
structure ConfFrame (c : κ) (s s' : St κ) : Prop where
  W : s'.W = s.W
  N : s'.N = s.N
  asg : ∀ c', c' ≠ c → s'.asg c' = s.asg c'
  deps : ∀ c', c' ≠ c → (s'.conf c').deps = (s.conf c').deps
  self : (s'.asg c = s.asg c ∧ s'.D = s.D ∧ (s'.conf c).deps = (s.conf c).deps) ∨ s'.isDone c = true

theorem ConfFrame.refl (c : κ) (s : St κ) : ConfFrame c s s :=
  ⟨rfl, rfl, fun _ _ => rfl, fun _ _ => rfl, .inl ⟨rfl, rfl, rfl⟩⟩

theorem ConfFrame.trans {c : κ} {s s' s'' : St κ} (h : ConfFrame c s s') (h' : ConfFrame c s' s'') :
    ConfFrame c s s'' := by
  refine ⟨h'.W.trans h.W, h'.N.trans h.N, fun c' hc => (h'.asg c' hc).trans (h.asg c' hc),
    fun c' hc => (h'.deps c' hc).trans (h.deps c' hc), ?_⟩
  rcases h'.self with ⟨h1, h2, h3⟩ | h1
  · rcases h.self with ⟨h4, h5, h6⟩ | h4
    · exact .inl ⟨h1.trans h4, h2.trans h5, h3.trans h6⟩
    · right; rw [isDone_iff, h1, ← isDone_iff]; exact h4
  · exact .inr h1

theorem Frame.toConf {s s' : St κ} (h : Frame s s') (hD : s'.D = s.D) (c : κ) : ConfFrame c s s' :=
  ⟨h.W, h.N, fun _ _ => by simp only [St.asg, h.conf], fun _ _ => by rw [h.conf],
    .inl ⟨by simp only [St.asg, h.conf], hD, by rw [h.conf]⟩⟩

theorem releaseIf0_conf (s : St κ) (e : EId κ) (c : κ) : ConfFrame c s (s.releaseIf0 e) := by
  refine (releaseIf0_frame s e).toConf ?_ c
  unfold St.releaseIf0; split <;> rfl

theorem upE_confFrame (s : St κ) (e : EId κ) (f) (c : κ) : ConfFrame c s (s.upE e f) :=
  ⟨rfl, rfl, fun _ _ => rfl, fun _ _ => rfl, .inl ⟨rfl, rfl, rfl⟩⟩

theorem finalAssign_frame {c : κ} {a : Asg} (hao : a = .one ∨ a = .czero)
    (hf : Frame (s.upC c fun r => { r with asg := a, nsuccs := 0, deps := [] }) (s.finalAssign G c a)) :
    ConfFrame c s (s.finalAssign G c a) ∧ (s.finalAssign G c a).asg c = a := by
  have h1 : (s.finalAssign G c a).asg c = a := by simp only [St.asg, hf.conf, upC_same]
  refine ⟨⟨hf.W, hf.N, fun c' hc => ?_, fun c' hc => ?_, .inr ?_⟩, h1⟩
  · simp only [St.asg, hf.conf, upC_ne _ hc]
  · simp only [hf.conf, upC_ne _ hc]
  · rw [isDone_iff, h1]; exact hao

end CTL
end Verif
