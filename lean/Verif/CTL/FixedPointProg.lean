import Verif.CTL.FixedPointMain

/-!
# Progress of the fixed-point algorithm
-/

namespace Verif
namespace CTL

set_option linter.unusedSectionVars false
set_option linter.unusedSimpArgs false

variable {κ : Type} [DecidableEq κ]

open St

variable {G : Graph κ} {s : St κ}

/-- The edge has been processed or released. -/
def Spent (s : St κ) (e : EId κ) : Prop := (s.edge e).processed = true ∨ (s.edge e).refcnt < 0

/-- Nothing is undone, and only configurations in `T` are newly known. -/
structure Prog (T : κ → Prop) (s s' : St κ) : Prop where
  known : ∀ c, s.asg c ≠ .unknown → s'.asg c ≠ .unknown
  done : ∀ c, s.isDone c = true → s'.isDone c = true
  spent : ∀ e, s.asg e.1 ≠ .unknown → Spent s e → Spent s' e
  new : ∀ c, s'.asg c ≠ .unknown → s.asg c ≠ .unknown ∨ T c

variable {T : κ → Prop}

theorem Prog.refl (s : St κ) : Prog T s s := ⟨fun _ h => h, fun _ h => h, fun _ _ h => h, fun _ h => .inl h⟩

theorem Prog.trans {s s' s'' : St κ} (h : Prog T s s') (h' : Prog T s' s'') : Prog T s s'' :=
  ⟨fun c hc => h'.known c (h.known c hc), fun c hc => h'.done c (h.done c hc),
    fun e he hs => h'.spent e (h.known _ he) (h.spent e he hs), fun c hc => by
      rcases h'.new c hc with h1 | h1
      · exact h.new c h1
      · exact .inr h1⟩

/-- Operations on edges only. -/
theorem Prog.ofConf {s s' : St κ} (hc : s'.asg = s.asg) (he : ∀ e, Spent s e → Spent s' e) : Prog T s s' :=
  ⟨fun c h => by rw [hc]; exact h, fun c h => by rw [isDone, hc]; exact h, fun e _ h => he e h,
    fun c h => .inl (by rw [hc] at h; exact h)⟩

theorem upE_spent {e : EId κ} {f : EdgeSt κ → EdgeSt κ}
    (h : (s.edge e).processed = true ∨ (s.edge e).refcnt < 0 →
      (f (s.edge e)).processed = true ∨ (f (s.edge e)).refcnt < 0) (e' : EId κ) (hs : Spent s e') :
    Spent (s.upE e f) e' := by
  unfold Spent at hs ⊢
  rw [upE_edge]
  split
  · rename_i hee; subst hee; exact h hs
  · exact hs

theorem upE_prog {e : EId κ} {f : EdgeSt κ → EdgeSt κ}
    (h : (s.edge e).processed = true ∨ (s.edge e).refcnt < 0 →
      (f (s.edge e)).processed = true ∨ (f (s.edge e)).refcnt < 0) : Prog T s (s.upE e f) :=
  Prog.ofConf rfl (upE_spent h)

theorem lists_prog {s s' : St κ} (h1 : s'.edge = s.edge) (h2 : s'.conf = s.conf) : Prog T s s' :=
  Prog.ofConf (by funext c; simp only [St.asg, h2]) (fun e h => by unfold Spent; rw [h1]; exact h)

theorem releaseIf0_prog (e : EId κ) : Prog T s (s.releaseIf0 e) := by
  unfold St.releaseIf0
  split
  · exact upE_prog (fun _ => .inr (show (-1 : Int) < 0 by decide))
  · exact Prog.refl s

theorem deref_prog (e : EId κ) : Prog T s (s.deref e) :=
  upE_prog (fun h => by
    rcases h with h | h
    · exact .inl h
    · right; show (s.edge e).refcnt - 1 < 0; omega)

theorem ref_prog {e : EId κ} (h : 0 ≤ (s.edge e).refcnt) : Prog T s (s.ref e) :=
  upE_prog (fun h1 => by
    rcases h1 with h1 | h1
    · exact .inl h1
    · omega)

/-- A push followed by a dereference. -/
theorem push_prog {s1 : St κ} {e : EId κ} (hconf : s1.conf = s.conf)
    (hne : ∀ e', e' ≠ e → s1.edge e' = s.edge e')
    (hsame : (s1.edge e).processed = (s.edge e).processed)
    (hrc : (s1.edge e).refcnt ≤ (s.edge e).refcnt + 1) : Prog T s (s1.deref e) := by
  refine Prog.ofConf (by funext c; simp only [St.asg, St.deref, upE_conf, hconf]) fun e' h => ?_
  unfold Spent at h ⊢
  by_cases hee : e' = e
  · subst hee
    simp only [St.deref, upE_same, hsame]
    rcases h with h | h
    · exact .inl h
    · right; omega
  · simp only [St.deref, upE_ne _ hee, hne e' hee]; exact h

theorem notify_prog (a : Asg) (e : EId κ) : Prog T s (s.notifyDep G a e) := by
  unfold St.notifyDep
  refine Prog.trans (s' := (if s.isDone e.1 then s
    else if !G.isNeg e || a = .czero then s.pushDependency e else s.pushNegation e).deref e) ?_
    (releaseIf0_prog e)
  split
  · exact deref_prog e
  · rename_i hd
    split
    · unfold St.pushDependency
      rw [if_neg hd]
      exact push_prog rfl (fun e' hee => by simp [St.ref, upE_ne _ hee]) (by simp [St.ref]) (by simp [St.ref])
    · unfold St.pushNegation
      simp only
      split <;> exact push_prog rfl (fun e' hee => by simp [St.ref, upE_ne _ hee]) (by simp [St.ref])
        (by simp [St.ref])

theorem foldl_prog {α : Type} {f : St κ → α → St κ} (h : ∀ s a, Prog T s (f s a)) :
    ∀ (l : List α) (s : St κ), Prog T s (l.foldl f s)
  | [], s => Prog.refl s
  | a :: l, s => (h s a).trans (foldl_prog h l (f s a))

theorem foldl_conf {α : Type} {f : St κ → α → St κ} (h : ∀ s a, (f s a).conf = s.conf) :
    ∀ (l : List α) (s : St κ), (l.foldl f s).conf = s.conf
  | [], _ => rfl
  | a :: l, s => by rw [List.foldl_cons, foldl_conf h l, h]

theorem releaseIf0_confEq (e : EId κ) : (s.releaseIf0 e).conf = s.conf := by
  unfold St.releaseIf0; split <;> rfl

theorem notify_conf (a : Asg) (e : EId κ) : (s.notifyDep G a e).conf = s.conf := by
  unfold St.notifyDep
  rw [releaseIf0_confEq]
  show (if s.isDone e.1 then s
    else if !G.isNeg e || a = .czero then s.pushDependency e else s.pushNegation e).conf = s.conf
  split
  · rfl
  · split
    · unfold St.pushDependency; split <;> rfl
    · unfold St.pushNegation; simp only; split <;> rfl

theorem finalAssign_prog {c : κ} {a : Asg} (hao : a = .one ∨ a = .czero) (hk : s.asg c ≠ .unknown) :
    Prog T s (s.finalAssign G c a) ∧ (s.finalAssign G c a).isDone c = true := by
  unfold St.finalAssign
  have h1 : Prog T s (s.upC c fun r => { r with asg := a, nsuccs := 0, deps := [] }) := by
    have hasg : ∀ c', (s.upC c fun r => { r with asg := a, nsuccs := 0, deps := [] }).asg c' =
        if c' = c then a else s.asg c' := by
      intro c'; simp only [St.asg, upC_conf]; split <;> rfl
    refine ⟨fun c' h => ?_, fun c' h => ?_, fun e _ h => h, fun c' h => ?_⟩
    · rw [hasg]; split
      · rcases hao with rfl | rfl <;> simp
      · exact h
    · rw [isDone_iff] at h ⊢
      rw [hasg]; split
      · exact hao
      · exact h
    · rw [hasg] at h
      split at h
      · rename_i hc; rw [hc]; exact .inl hk
      · exact .inl h
  have h2 := foldl_prog (T := T) (f := St.notifyDep G a) (fun s e => notify_prog a e) (s.conf c).deps
    (s.upC c fun r => { r with asg := a, nsuccs := 0, deps := [] })
  refine ⟨h1.trans h2, h2.done c ?_⟩
  rw [isDone_iff]
  simpa [St.asg] using hao

/-- The lists of the strategy are as before. -/
structure SameLists (s s' : St κ) : Prop where
  W : s'.W = s.W
  N : s'.N = s.N
  D : s'.D = s.D

theorem SameLists.refl (s : St κ) : SameLists s s := ⟨rfl, rfl, rfl⟩

theorem SameLists.trans {s s' s'' : St κ} (h : SameLists s s') (h' : SameLists s' s'') : SameLists s s'' :=
  ⟨h'.W.trans h.W, h'.N.trans h.N, h'.D.trans h.D⟩

theorem releaseIf0_lists (e : EId κ) : SameLists s (s.releaseIf0 e) := by
  unfold St.releaseIf0; split <;> exact ⟨rfl, rfl, rfl⟩

theorem markHandled_prog {e : EId κ} {only : Bool} (hk : s.asg e.1 ≠ .unknown) :
    Prog T s (s.markHandled G e only) ∧
      (SameLists s (s.markHandled G e only) ∨ (s.markHandled G e only).isDone e.1 = true) := by
  unfold St.markHandled
  simp only
  have h1 : Prog T s ((s.upC e.1 fun c => { c with nsuccs := c.nsuccs - 1 }).upE e
      fun r => { r with handled := true }) := by
    refine Prog.trans (s' := s.upC e.1 fun c => { c with nsuccs := c.nsuccs - 1 }) ?_ (upE_prog (fun h => h))
    refine Prog.ofConf ?_ (fun e h => h)
    funext c; simp only [St.asg, upC_conf]; split
    · rename_i hc; rw [hc]
    · rfl
  have l1 : SameLists s ((s.upC e.1 fun c => { c with nsuccs := c.nsuccs - 1 }).upE e
      fun r => { r with handled := true }) := ⟨rfl, rfl, rfl⟩
  generalize ((s.upC e.1 fun c => { c with nsuccs := c.nsuccs - 1 }).upE e
      fun r => { r with handled := true }) = s1 at *
  have h2 : Prog T s (if only = true then s1.deref e else s1) := by
    split
    · exact h1.trans (deref_prog e)
    · exact h1
  have l2 : SameLists s (if only = true then s1.deref e else s1) := by
    split
    · exact l1.trans ⟨rfl, rfl, rfl⟩
    · exact l1
  generalize (if only = true then s1.deref e else s1) = s2 at *
  split
  · obtain ⟨h3, h4⟩ := finalAssign_prog (G := G) (T := T) (s := s2) (c := e.1) (a := .czero) (.inr rfl)
      (h2.known _ hk)
    exact ⟨(h2.trans h3).trans (releaseIf0_prog e), .inr ((releaseIf0_prog (T := T) e).done _ h4)⟩
  · exact ⟨h2.trans (releaseIf0_prog e), .inl (l2.trans (releaseIf0_lists e))⟩

theorem checkTail_prog (e : EId κ) (only : Bool) : Prog T s (s.checkTail e only) := by
  unfold St.checkTail
  refine Prog.trans ?_ (releaseIf0_prog e)
  split
  · exact upE_prog (fun _ => .inl rfl)
  · exact Prog.refl s

theorem checkTail_lists (e : EId κ) (only : Bool) : SameLists s (s.checkTail e only) := by
  unfold St.checkTail
  refine SameLists.trans ?_ (releaseIf0_lists e)
  split
  · exact ⟨rfl, rfl, rfl⟩
  · exact SameLists.refl s

theorem addDependency_prog (addr : EId κ → Nat) {t : κ} {e : EId κ} (h : 0 ≤ (s.edge e).refcnt) :
    Prog T s (s.addDependency G addr t e) ∧ SameLists s (s.addDependency G addr t e) ∧
      0 ≤ ((s.addDependency G addr t e).edge e).refcnt ∧
      (s.edge e).refcnt ≤ ((s.addDependency G addr t e).edge e).refcnt ∧
      ((s.addDependency G addr t e).edge e).processed = (s.edge e).processed ∧
      (s.addDependency G addr t e).asg = s.asg := by
  unfold St.addDependency
  split
  · exact ⟨Prog.refl s, SameLists.refl s, h, Int.le_refl _, rfl, rfl⟩
  simp only
  have hasg : ∀ f : ConfSt κ → ConfSt κ, (∀ c, (f c).asg = c.asg) → (s.upC t f).asg = s.asg := by
    intro f hf
    funext c; simp only [St.asg, upC_conf]; split
    · rename_i hc; rw [hc, hf]
    · rfl
  have h1 := hasg (fun c => { c with
    dist := max (if G.isNeg e then (s.conf e.1).dist + 1 else (s.conf e.1).dist) c.dist }) (fun _ => rfl)
  split
  · exact ⟨Prog.ofConf h1 (fun _ h => h), ⟨rfl, rfl, rfl⟩, h, Int.le_refl _, rfl, h1⟩
  · rename_i ds _
    generalize hs1 : (s.upC t fun c => { c with
      dist := max (if G.isNeg e then (s.conf e.1).dist + 1 else (s.conf e.1).dist) c.dist }) = s1 at *
    have hedge1 : s1.edge = s.edge := by subst hs1; rfl
    have h2 : (s1.upC t fun c => { c with deps := ds }).asg = s1.asg := by
      funext c; simp only [St.asg, upC_conf]; split
      · rename_i hc; rw [hc]
      · rfl
    refine ⟨?_, ?_, ?_, ?_, ?_, ?_⟩
    · refine Prog.trans (s' := s1.upC t fun c => { c with deps := ds }) (Prog.ofConf (h2.trans h1) ?_) (ref_prog ?_)
      · intro e' h3; unfold Spent; rw [upC_edge, hedge1]; exact h3
      · rw [upC_edge, hedge1]; exact h
    · subst hs1; exact ⟨rfl, rfl, rfl⟩
    · simp [St.ref, hedge1]; omega
    · simp [St.ref, hedge1]; omega
    · simp [St.ref, hedge1]
    · show (s1.upC t fun c => { c with deps := ds }).asg = s.asg
      exact h2.trans h1

theorem addDeps_prog (addr : EId κ → Nat) {e : EId κ} : ∀ (ts : List κ) {s : St κ}, 0 ≤ (s.edge e).refcnt →
    Prog T s (ts.foldl (fun s t => s.addDependency G addr t e) s) ∧
      SameLists s (ts.foldl (fun s t => s.addDependency G addr t e) s) ∧
      (ts.foldl (fun s t => s.addDependency G addr t e) s).asg = s.asg
  | [], s, _ => ⟨Prog.refl s, SameLists.refl s, rfl⟩
  | t :: ts, s, h => by
    obtain ⟨h1, h2, h3, _, _, h4⟩ := addDependency_prog (G := G) (T := T) addr (t := t) h
    obtain ⟨h5, h6, h7⟩ := addDeps_prog addr ts h3
    exact ⟨h1.trans h5, h2.trans h6, h7.trans h4⟩

theorem dropSucc_prog (e : EId κ) : Prog T s (s.dropSucc e) := by
  unfold St.dropSucc
  refine Prog.trans ?_ (releaseIf0_prog e)
  split
  · exact deref_prog e
  · exact Prog.refl s

theorem pushSucc_prog (e : EId κ) : Prog T s (s.pushSucc G e) := by
  unfold St.pushSucc
  split
  · refine Prog.trans ?_ (releaseIf0_prog e)
    unfold St.pushEdge
    split
    · exact deref_prog e
    · split
      · unfold St.pushNegation
        simp only
        split <;> exact push_prog rfl (fun e' hee => by simp [St.ref, upE_ne _ hee]) (by simp [St.ref])
          (by simp [St.ref])
      · exact push_prog rfl (fun e' hee => by simp [St.ref, upE_ne _ hee]) (by simp [St.ref])
          (by simp [St.ref])
  · exact releaseIf0_prog e

/-- What `checkEdge(e, true)` does. -/
theorem checkOnly_prog (addr : EId κ → Nat) {e : EId κ} (hk : s.asg e.1 ≠ .unknown) :
    Prog T s (s.checkOnly G addr e) := by
  unfold St.checkOnly
  have key : Prog T s (s.checkHead G addr e true).1 := by
    unfold St.checkHead
    split
    · exact Prog.refl s
    split
    · exact releaseIf0_prog e
    simp only
    generalize s.scan none (s.edge e).targets = r
    have h1 : Prog T s (s.upE e fun x => { x with targets := r.targets }) := upE_prog (fun h => h)
    generalize (s.upE e fun x => { x with targets := r.targets }) = s1 at *
    have hk1 := h1.known _ hk
    repeat' split
    all_goals first
      | exact h1
      | exact h1.trans (markHandled_prog hk1).1
      | exact h1.trans (finalAssign_prog (.inl rfl) hk1).1
      | (rename_i h; exact absurd trivial h)
  split
  · rename_i s1 heq
    rw [heq] at key; exact key
  · rename_i s1 n heq1 heq2
    rw [heq2] at key
    exact key.trans (checkTail_prog e true)

theorem preCheck_prog (addr : EId κ → Nat) (c : κ) : ∀ (es : List (EId κ)) {s : St κ},
    (∀ e ∈ es, e.1 = c) → s.asg c ≠ .unknown → Prog T s (s.preCheck G addr c es)
  | [], s, _, _ => Prog.refl s
  | e :: es, s, he, hk => by
    unfold St.preCheck
    simp only
    have h1 : Prog T s (s.checkOnly G addr e) := checkOnly_prog addr (by rw [he e (by simp)]; exact hk)
    split
    · exact h1
    · exact h1.trans (preCheck_prog addr c es (fun e' h' => he e' (by simp [h'])) (h1.known _ hk))

theorem explore_prog (addr : EId κ → Nat) {c : κ} (hc : s.asg c = .unknown) (hT : T c) :
    Prog T s (s.explore G addr c) ∧ (s.explore G addr c).asg c ≠ .unknown := by
  have h1 : Prog T s (s.exploreInit G c) := by
    have hasg : ∀ c', (s.exploreInit G c).asg c' = if c' = c then .zero else s.asg c' := by
      intro c'; simp only [St.asg, exploreInit_conf]; split <;> rfl
    refine ⟨fun c' h => ?_, fun c' h => ?_, fun e h hs => ?_, fun c' h => ?_⟩
    · rw [hasg]; split
      · simp
      · exact h
    · rw [isDone_iff] at h ⊢
      rw [hasg, if_neg]
      · exact h
      · rintro rfl; rw [hc] at h; rcases h with h | h <;> cases h
    · unfold Spent at hs ⊢
      rw [exploreInit_edge_out]
      · exact hs
      · intro hm; rw [(mem_succIds.1 hm).1] at h; exact h hc
    · rw [hasg] at h
      split at h
      · rename_i hcc; rw [hcc]; exact .inr hT
      · exact .inl h
  have hk1 : (s.exploreInit G c).asg c ≠ .unknown := by simp [St.asg, exploreInit_conf]
  have h2 : Prog T (s.exploreInit G c) ((s.exploreInit G c).preCheck G addr c (succIds G c).reverse) :=
    preCheck_prog addr c _ (fun e he => (mem_succIds.1 (by simpa using he)).1) hk1
  suffices h : Prog T ((s.exploreInit G c).preCheck G addr c (succIds G c).reverse) (s.explore G addr c) from
    ⟨(h1.trans h2).trans h, h.known c (h2.known c hk1)⟩
  show Prog T ((s.exploreInit G c).preCheck G addr c (succIds G c).reverse)
    (let s := (s.exploreInit G c).preCheck G addr c (succIds G c).reverse
    if s.isDone c then (succIds G c).foldl dropSucc s
    else if (s.conf c).nsuccs = 0 then ((succIds G c).foldl dropSucc s).finalAssign G c .czero
    else (succIds G c).foldl (pushSucc G) s)
  have hk2 := h2.known c hk1
  generalize (s.exploreInit G c).preCheck G addr c (succIds G c).reverse = s1 at *
  simp only
  have h3 : Prog T s1 ((succIds G c).foldl dropSucc s1) := foldl_prog (fun s e => dropSucc_prog e) _ _
  split
  · exact h3
  split
  · exact h3.trans (finalAssign_prog (.inr rfl) (h3.known _ hk2)).1
  · exact foldl_prog (fun s e => pushSucc_prog e) _ _

/-- Strict progress: a configuration finished or newly known, or an edge processed. -/
def Strict (s s' : St κ) (e : EId κ) : Prop :=
  (s.isDone e.1 = false ∧ s'.isDone e.1 = true) ∨
  (∃ c ∈ (s.edge e).targets, s.asg c = .unknown ∧ s'.asg c ≠ .unknown) ∨
  (¬ Spent s e ∧ Spent s' e)

theorem scan_sub (s : St κ) (ts : List κ) : ∀ t ∈ (s.scan none ts).targets, t ∈ ts := (scan_ok s ts none).sub

theorem pushNegation_facts (e : EId κ) : (s.pushNegation e).conf = s.conf ∧
    ((s.pushNegation e).edge e).refcnt = (s.edge e).refcnt + 1 ∧
    ((s.pushNegation e).edge e).processed = (s.edge e).processed ∧
    (∀ e', e' ≠ e → (s.pushNegation e).edge e' = s.edge e') := by
  unfold St.pushNegation
  simp only
  split <;> exact ⟨rfl, by simp [St.ref], by simp [St.ref], fun e' hee => by simp [St.ref, upE_ne _ hee]⟩

theorem pushNegation_prog {e : EId κ} (h : 0 ≤ (s.edge e).refcnt) : Prog T s (s.pushNegation e) := by
  obtain ⟨h1, h2, h3, h4⟩ := pushNegation_facts (s := s) e
  refine Prog.ofConf (by funext c; simp only [St.asg, h1]) (fun e' hs => ?_)
  unfold Spent at hs ⊢
  by_cases hee : e' = e
  · subst hee; rw [h2, h3]
    rcases hs with hs | hs
    · exact .inl hs
    · omega
  · rw [h4 e' hee]; exact hs

theorem checkTail_spent {e : EId κ} (h : 0 < (s.edge e).refcnt) : Spent (s.checkTail e false) e := by
  unfold St.checkTail
  have : (decide ((s.edge e).refcnt > 0) && !false) = true := by simp; exact h
  rw [if_pos this]
  unfold Spent
  unfold St.releaseIf0
  dsimp only
  split
  · right; simp [St.release]
  · left; simp

/-- `checkEdge(e)` makes progress, or leaves the lists alone. -/
theorem checkEdge_prog (addr : EId κ → Nat) {e : EId κ} (hk : s.asg e.1 ≠ .unknown)
    (hrc : 0 < (s.edge e).refcnt) :
    Prog (· ∈ (s.edge e).targets) s (s.checkEdge G addr e) ∧
      (SameLists s (s.checkEdge G addr e) ∨ Strict s (s.checkEdge G addr e) e) := by
  generalize hT : (fun c => c ∈ (s.edge e).targets) = T
  unfold St.checkEdge St.checkHead
  by_cases hh : (s.edge e).handled = true
  · simp only [hh, if_true]
    exact ⟨Prog.refl s, .inl (SameLists.refl s)⟩
  simp only [hh]
  by_cases hd : s.isDone e.1 = true
  · simp only [hd, if_true]
    exact ⟨releaseIf0_prog e, .inl (releaseIf0_lists e)⟩
  have hnd : s.isDone e.1 = false := by simpa using hd
  simp only [hd, Bool.false_eq_true, if_false]
  have hsc := scan_ok s (s.edge e).targets none
  generalize s.scan none (s.edge e).targets = r at *
  have h1 : Prog T s (s.upE e fun x => { x with targets := r.targets }) := upE_prog (fun h => h)
  have l1 : SameLists s (s.upE e fun x => { x with targets := r.targets }) := ⟨rfl, rfl, rfl⟩
  have hrc1 : 0 < ((s.upE e fun x => { x with targets := r.targets }).edge e).refcnt := by
    simp only [upE_same]; exact hrc
  have hp1 : ((s.upE e fun x => { x with targets := r.targets }).edge e).processed = (s.edge e).processed := by
    simp
  have ht1 : ((s.upE e fun x => { x with targets := r.targets }).edge e).targets = r.targets := by simp
  have ha1 : (s.upE e fun x => { x with targets := r.targets }).asg = s.asg := rfl
  generalize (s.upE e fun x => { x with targets := r.targets }) = s1 at *
  have hk1 := h1.known _ hk
  -- the source becomes true
  have hfin : Prog T s ((s1.finalAssign G e.1 .one).checkTail e false) ∧
      (SameLists s ((s1.finalAssign G e.1 .one).checkTail e false) ∨
        Strict s ((s1.finalAssign G e.1 .one).checkTail e false) e) := by
    obtain ⟨h2, h3⟩ := finalAssign_prog (G := G) (T := T) (s := s1) (c := e.1) (a := .one) (.inl rfl) hk1
    exact ⟨(h1.trans h2).trans (checkTail_prog e false),
      .inr (.inl ⟨hnd, (checkTail_prog (T := T) e false).done _ h3⟩)⟩
  -- the edge is closed
  have hclo : Prog T s ((s1.markHandled G e false).checkTail e false) ∧
      (SameLists s ((s1.markHandled G e false).checkTail e false) ∨
        Strict s ((s1.markHandled G e false).checkTail e false) e) := by
    obtain ⟨h2, h3⟩ := markHandled_prog (G := G) (T := T) (s := s1) (e := e) (only := false) hk1
    refine ⟨(h1.trans h2).trans (checkTail_prog e false), ?_⟩
    rcases h3 with h3 | h3
    · exact .inl ((l1.trans h3).trans (checkTail_lists e false))
    · exact .inr (.inl ⟨hnd, (checkTail_prog (T := T) e false).done _ h3⟩)
  -- a target is explored
  have hexp : ∀ (s2 : St κ) (u : κ), Prog T s s2 → s2.asg u = .unknown → u ∈ (s.edge e).targets →
      Prog T s ((s2.explore G addr u).checkTail e false) ∧
      (SameLists s ((s2.explore G addr u).checkTail e false) ∨
        Strict s ((s2.explore G addr u).checkTail e false) e) := by
    intro s2 u h2 hu hut
    obtain ⟨h3, h4⟩ := explore_prog (G := G) (T := T) addr hu (by rw [← hT]; exact hut)
    refine ⟨(h2.trans h3).trans (checkTail_prog e false), .inr (.inr (.inl ⟨u, hut, ?_,
      (checkTail_prog (T := T) e false).known _ h4⟩))⟩
    by_contra hku
    exact h2.known u hku hu
  have hlast : ∀ u, r.last = some u → u ∈ (s.edge e).targets := by
    intro u hu
    rcases hsc.lastMem u hu with h | h
    · exact hsc.sub u h
    · cases h
  cases hng : G.isNeg e
  · simp only [Bool.false_eq_true, if_false]
    by_cases hal : r.allOne = true
    · simp only [hal, if_true]; exact hfin
    simp only [hal]
    by_cases hcz : r.hasCZero = true
    · simp only [hcz, if_true]; exact hclo
    simp only [hcz]
    cases hla : r.last with
    | none => exact ⟨h1.trans (checkTail_prog e false), .inl (l1.trans (checkTail_lists e false))⟩
    | some u =>
      simp only [Bool.false_eq_true, if_false]
      unfold St.posUndecided
      have key : ∃ s2, (if (!(s1.edge e).processed && !s1.isDone u) = true then
          (s1.edge e).targets.foldl (fun s t => s.addDependency G addr t e) s1 else s1) = s2 ∧
          Prog T s s2 ∧ SameLists s s2 := by
        refine ⟨_, rfl, ?_⟩
        split
        · obtain ⟨h2, h3, _⟩ := addDeps_prog (G := G) (T := T) addr (e := e) (s1.edge e).targets
            (s := s1) (by omega)
          exact ⟨h1.trans h2, l1.trans h3⟩
        · exact ⟨h1, l1⟩
      obtain ⟨s2, hs2, h2, l2⟩ := key
      simp only [hs2]
      by_cases hu : s2.asg u = .unknown
      · simp only [hu, if_true]
        exact hexp s2 u h2 hu (hlast u hla)
      · simp only [hu, if_false]
        exact ⟨h2.trans (checkTail_prog e false), .inl (l2.trans (checkTail_lists e false))⟩
  · simp only [if_true]
    by_cases hal : r.allOne = true
    · simp only [hal, if_true]; exact hclo
    simp only [hal]
    by_cases hcz : r.hasCZero = true
    · simp only [hcz, if_true]; exact hfin
    simp only [hcz]
    cases hla : r.last with
    | none => exact ⟨h1.trans (checkTail_prog e false), .inl (l1.trans (checkTail_lists e false))⟩
    | some u =>
      simp only [Bool.false_eq_true, if_false]
      unfold St.negUndecided
      by_cases hc : s1.asg u = .zero ∧ (s1.edge e).processed = true
      · rw [if_pos hc]; exact hfin
      rw [if_neg hc]
      simp only
      cases hp : (s1.edge e).processed with
      | true =>
        simp only [if_true]
        obtain ⟨h2, l2, _, _, _, _⟩ := addDependency_prog (G := G) (T := T) addr (t := u) (e := e) (s := s1)
          (by omega)
        generalize s1.addDependency G addr u e = s2 at *
        by_cases hu : s2.asg u = .unknown
        · simp only [hu, if_true]
          exact hexp s2 u (h1.trans h2) hu (hlast u hla)
        · simp only [hu, if_false]
          exact ⟨(h1.trans h2).trans (checkTail_prog e false),
            .inl ((l1.trans l2).trans (checkTail_lists e false))⟩
      | false =>
        simp only [Bool.false_eq_true, if_false]
        obtain ⟨q1, q2, q3, q4⟩ := pushNegation_facts (s := s1) e
        have h2 := pushNegation_prog (T := T) (s := s1) (e := e) (by omega)
        generalize s1.pushNegation e = s1' at *
        obtain ⟨h3, l3, r3, r4, _, _⟩ := addDependency_prog (G := G) (T := T) addr (t := u) (e := e) (s := s1')
          (by omega)
        generalize s1'.addDependency G addr u e = s2 at *
        have h4 := (h1.trans h2).trans h3
        by_cases hu : s2.asg u = .unknown
        · simp only [hu, if_true]
          exact hexp s2 u h4 hu (hlast u hla)
        · simp only [hu, if_false]
          refine ⟨h4.trans (checkTail_prog e false), .inr (.inr (.inr ⟨?_, checkTail_spent (by omega)⟩))⟩
          rintro (h5 | h5)
          · rw [← hp1, hp] at h5; cases h5
          · omega

theorem handleEdge_prog (addr : EId κ → Nat) {e : EId κ} (hk : s.asg e.1 ≠ .unknown)
    (hrc : 0 ≤ (s.edge e).refcnt) :
    Prog (· ∈ (s.edge e).targets) s (s.handleEdge G addr e) ∧
      (SameLists s (s.handleEdge G addr e) ∨ Strict s (s.handleEdge G addr e) e) := by
  have h0 : Prog (· ∈ (s.edge e).targets) s (s.ref e) := ref_prog hrc
  have ht : ((s.ref e).edge e).targets = (s.edge e).targets := by simp [St.ref]
  have hsp : Spent (s.ref e) e → Spent s e := by
    unfold Spent
    simp only [St.ref, upE_same]
    rintro (h | h)
    · exact .inl h
    · omega
  obtain ⟨h1, h2⟩ := checkEdge_prog (G := G) addr (s := s.ref e) (e := e) hk (by simp [St.ref]; omega)
  rw [ht] at h1
  unfold St.handleEdge
  simp only
  generalize (s.ref e).checkEdge G addr e = s1 at *
  have h3 : Prog (· ∈ (s.edge e).targets) s1 (if (s1.edge e).refcnt > 0 then s1.deref e else s1) := by
    split
    · exact deref_prog e
    · exact Prog.refl _
  have l3 : SameLists s1 (if (s1.edge e).refcnt > 0 then s1.deref e else s1) := by
    split <;> exact ⟨rfl, rfl, rfl⟩
  generalize (if (s1.edge e).refcnt > 0 then s1.deref e else s1) = s2 at *
  have h4 := h3.trans (releaseIf0_prog (T := (· ∈ (s.edge e).targets)) e)
  have l4 := l3.trans (releaseIf0_lists e)
  refine ⟨(h0.trans h1).trans h4, ?_⟩
  rcases h2 with h2 | h2
  · exact .inl (((⟨rfl, rfl, rfl⟩ : SameLists s (s.ref e)).trans h2).trans l4)
  · right
    rcases h2 with ⟨a, b⟩ | ⟨c, a, b, d⟩ | ⟨a, b⟩
    · exact .inl ⟨a, h4.done _ b⟩
    · rw [ht] at a
      exact .inr (.inl ⟨c, a, b, h4.known _ d⟩)
    · exact .inr (.inr ⟨fun h => a (h0.spent e hk h), h4.spent e (h1.known _ hk) b⟩)

end CTL
end Verif
