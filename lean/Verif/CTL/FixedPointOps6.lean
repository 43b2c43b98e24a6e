import Verif.CTL.FixedPointOps5

/-!
# The invariant is kept: one popped edge
-/

namespace Verif
namespace CTL

set_option linter.unusedSectionVars false
set_option linter.unusedSimpArgs false

variable {κ : Type} [DecidableEq κ]

open St

variable {G : Graph κ} {V : κ → Prop} {lev : κ → Nat} {H K X : List (EId κ)} {s : St κ}

/-- What exploring a configuration may change. -/
structure ExploreRes (c : κ) (s s' : St κ) : Prop where
  asg : ∀ c', c' ≠ c → s'.asg c' = s.asg c'
  known : s'.asg c ≠ .unknown
  W : ∀ e ∈ s'.W, e ∈ s.W ∨ e.1 = c
  N : s'.N = s.N

theorem Inv.explore (hl : G.Layered lev) (hV : G.Solution V) (addr : EId κ → Nat) {K0 : List (EId κ)}
    (h : Inv G V lev H K0 X s) {c : κ} (hc : s.asg c = .unknown)
    (hd : (s.conf c).dist = lev c) (hX : ∀ x ∈ X, x.1 ≠ c) (hsub : ∀ e ∈ K, e ∈ K0)
    (hHK : ∀ x ∈ K, x ∈ H)
    (hK : ∀ e ∈ K0, e ∉ K →
      (G.isNeg e = true → Listed s e ∧ ∀ t ∈ (s.edge e).targets, t = c ∨ s.asg t ≠ .unknown) ∧
      (G.isNeg e = false → c ∈ (s.edge e).targets ∧ e ∈ (s.conf c).deps)) :
    Inv G V lev H K X (s.explore G addr c) ∧ ExploreRes c s (s.explore G addr c) := by
  have h0 := h.exploreInit (K := K) hc hd hX hsub hK
  have ht0 : ∀ e, e ∈ succIds G c → total G H s e = 0 := by
    intro e he
    by_contra ht
    exact (h.range e (by omega)).1 (by rw [(mem_succIds.1 he).1]; exact hc)
  have hz0 : (s.exploreInit G c).asg c = .zero := by simp [St.asg, exploreInit_conf]
  have hd0 : ∀ t, ((s.exploreInit G c).conf t).deps = (s.conf t).deps := by
    intro t; rw [exploreInit_conf]; split
    · rename_i h; rw [h]
    · rfl
  have hlive : ∀ e ∈ succIds G c, Live G H (s.exploreInit G c) e := by
    intro e he
    refine ⟨?_, by rw [exploreInit_edge_in he], ?_, by simp [St.isOpen, exploreInit_edge_in he]⟩
    · rw [total_congr (s := s) (s' := s.exploreInit G c) rfl rfl rfl hd0]; exact ht0 e he
    · rw [exploreInit_edge_in he]
      by_contra hs
      have := total_pos_of_listed (G := G) (H := H) (h.stat e hs)
      have := ht0 e he
      omega
  obtain ⟨L, p1, p2, p3, p4, p5, p6⟩ := h0.preCheck hl hV addr hHK (succIds G c).reverse (succIds G c)
    (nodup_succIds c) (List.nodup_reverse.2 (nodup_succIds c)) (fun e he => by simpa using he)
    (fun e he hn => absurd he hn)
    (fun e he => ⟨he, fun hx => hX e hx (mem_succIds.1 he).1⟩) hlive hz0
  have hres0 : ∀ c', c' ≠ c → (s.exploreInit G c).asg c' = s.asg c' := by
    intro c' hcc; simp only [St.asg, exploreInit_conf, if_neg hcc]
  show Inv G V lev H K X (let s := (s.exploreInit G c).preCheck G addr c (succIds G c).reverse
    if s.isDone c then (succIds G c).foldl dropSucc s
    else if (s.conf c).nsuccs = 0 then ((succIds G c).foldl dropSucc s).finalAssign G c .czero
    else (succIds G c).foldl (pushSucc G) s) ∧ ExploreRes c s (let s := (s.exploreInit G c).preCheck G addr c (succIds G c).reverse
    if s.isDone c then (succIds G c).foldl dropSucc s
    else if (s.conf c).nsuccs = 0 then ((succIds G c).foldl dropSucc s).finalAssign G c .czero
    else (succIds G c).foldl (pushSucc G) s)
  generalize (s.exploreInit G c).preCheck G addr c (succIds G c).reverse = s1 at *
  simp only
  have hasg1 : ∀ c', c' ≠ c → s1.asg c' = s.asg c' := fun c' hcc => (p6.asg c' hcc).trans (hres0 c' hcc)
  have hW1 : s1.W = s.W := p6.W
  have hN1 : s1.N = s.N := p6.N
  split
  · rename_i hdn
    obtain ⟨g1, g2, g3⟩ := p1.dropSuccs hHK (succIds G c) L p2 (nodup_succIds c) (fun e he => (p4 e he).1)
      (fun e he hn => p3 e he hn) (fun e he => ⟨(p4 e he).2, fun hz => by
        rw [(mem_succIds.1 (p4 e he).1).1] at hz
        rw [zero_not_done hz] at hdn; cases hdn⟩)
    refine ⟨g1, fun c' hcc => ?_, ?_, fun e he => ?_, ?_⟩
    · simp only [St.asg, g2.conf]; exact hasg1 c' hcc
    · simp only [St.asg, g2.conf]
      intro hu
      have : s1.asg c = .unknown := hu
      rw [unknown_not_done this] at hdn; cases hdn
    · rw [g2.W, hW1] at he; exact .inl he
    · rw [g2.N, hN1]
  · rename_i hdn
    obtain ⟨hz1, hlive1⟩ := p5.resolve_left hdn
    split
    · rename_i hns
      have hcl : ∀ e ∈ succIds G c, s1.isOpen e = false := by
        intro e he
        rw [p1.ns c hz1] at hns
        simpa using List.countP_eq_zero.1 hns e he
      obtain ⟨g1, g2, g3⟩ := p1.dropSuccs hHK (succIds G c) L p2 (nodup_succIds c) (fun e he => (p4 e he).1)
        (fun e he hn => p3 e he hn) (fun e he => ⟨(p4 e he).2, fun _ => hcl e (p4 e he).1⟩)
      have hz2 : ((succIds G c).foldl dropSucc s1).asg c = .zero := by
        simp only [St.asg, g2.conf]; exact hz1
      have hnV : ¬ V c := by
        refine g1.notV hV hz2 fun e he => ?_
        have hns2 : (((succIds G c).foldl dropSucc s1).conf c).nsuccs = 0 := by rw [g2.conf]; exact hns
        rw [g1.ns c hz2] at hns2
        simpa using List.countP_eq_zero.1 hns2 e he
      obtain ⟨k1, k2⟩ := g1.finalAssign hl hHK hz2 (.inr ⟨rfl, hnV⟩)
      obtain ⟨k3, k4⟩ := finalAssign_frame (.inr rfl) k2
      refine ⟨k1, fun c' hcc => ?_, by rw [k4]; simp, fun e he => ?_, ?_⟩
      · rw [k3.asg c' hcc]
        simp only [St.asg, g2.conf]; exact hasg1 c' hcc
      · rw [k3.W, g2.W, hW1] at he; exact .inl he
      · rw [k3.N, g2.N, hN1]
    · obtain ⟨g1, g2, g3, g4, g5, g6⟩ := p1.pushSuccs hHK (succIds G c) L p2 (nodup_succIds c)
        (fun e he => (p4 e he).1) (fun e he hn => p3 e he hn)
        (fun e he => ⟨(p4 e he).2, by rw [(mem_succIds.1 (p4 e he).1).1]; exact hz1, hlive1 e he⟩)
      refine ⟨g1, fun c' hcc => ?_, ?_, fun e he => ?_, g3.trans hN1⟩
      · simp only [St.asg, g2]; exact hasg1 c' hcc
      · simp only [St.asg, g2]
        intro hu
        have : s1.asg c = .unknown := hu
        rw [hz1] at this; cases this
      · rcases g5 e he with he | he
        · rw [hW1] at he; exact .inl he
        · exact .inr (mem_succIds.1 he).1

/-- An edge need no longer be exempt. -/
theorem Inv.unK {e : EId κ} (h : Inv G V lev H (e :: K) X s)
    (hp : s.asg e.1 = .zero → inRange G e → s.isOpen e = true → Listed s e ∨ Waiting G s e)
    (hkn : G.isNeg e = true → e ∈ X → ∀ t ∈ (s.edge e).targets, s.asg t ≠ .unknown) :
    Inv G V lev H K X s :=
  { h with
    pend := fun e' h1 h2 h3 h4 => by
      by_cases hee : e' = e
      · subst hee; exact hp h1 h2 h3
      · exact h.pend e' h1 h2 h3 (by simp [hee, h4])
    known := fun e' h1 h2 => by
      by_cases hee : e' = e
      · subst hee
        rcases h2 with h2 | h2
        · exact h.known e' h1 (.inl h2)
        · exact hkn h1 h2.1
      · refine h.known e' h1 (h2.imp id fun h3 => ⟨h3.1, by simp [hee, h3.2]⟩) }

/-- An edge may be counted as processed. -/
theorem Inv.addX {e : EId κ} (h : Inv G V lev H K X s)
    (hw : s.asg e.1 = .zero → inRange G e → s.isOpen e = true → G.isNeg e = false →
      ∀ t ∈ (s.edge e).targets, s.isDone t = false → e ∈ (s.conf t).deps)
    (hkn : G.isNeg e = true → e ∉ K → ∀ t ∈ (s.edge e).targets, s.asg t ≠ .unknown) :
    Inv G V lev H K (e :: X) s :=
  { h with
    wait := fun e' h1 h2 h3 h4 h5 => by
      by_cases hee : e' = e
      · subst hee; exact hw h1 h2 h3 h4
      · exact h.wait e' h1 h2 h3 h4 (h5.imp id fun h6 => (List.mem_cons.1 h6).resolve_left hee)
    known := fun e' h1 h2 => by
      by_cases hee : e' = e
      · subst hee
        rcases h2 with h2 | h2
        · exact h.known e' h1 (.inl h2)
        · exact hkn h1 h2.2
      · exact h.known e' h1 (h2.imp id fun h3 => ⟨(List.mem_cons.1 h3.1).resolve_left hee, h3.2⟩)
    relN := fun e' hm => ⟨(h.relN e' hm).1, (h.relN e' hm).2.imp id fun h1 => by simp [h1]⟩ }

/-! ### Edges held are not changed by `finalAssign` -/

structure SameEdge (x y : EdgeSt κ) : Prop where
  targets : y.targets = x.targets
  processed : y.processed = x.processed
  handled : y.handled = x.handled

theorem SameEdge.refl (x : EdgeSt κ) : SameEdge x x := ⟨rfl, rfl, rfl⟩

theorem SameEdge.trans {x y z : EdgeSt κ} (h : SameEdge x y) (h' : SameEdge y z) : SameEdge x z :=
  ⟨h'.1.trans h.1, h'.2.trans h.2, h'.3.trans h.3⟩

theorem notify_same (a : Asg) (e : EId κ) :
    ((s.notifyDep G a e).edge e).refcnt = -1 ∨ SameEdge (s.edge e) ((s.notifyDep G a e).edge e) := by
  have hr : ∀ s : St κ, ((s.releaseIf0 e).edge e).refcnt = -1 ∨ SameEdge (s.edge e) ((s.releaseIf0 e).edge e) := by
    intro s
    unfold St.releaseIf0
    split
    · left; simp [St.release]
    · right; exact SameEdge.refl _
  have hd : ∀ s : St κ, SameEdge (s.edge e) ((s.deref e).edge e) := by
    intro s; simp only [St.deref, upE_same]; exact ⟨rfl, rfl, rfl⟩
  have hp : SameEdge (s.edge e) ((if s.isDone e.1 then s
    else if !G.isNeg e || a = .czero then s.pushDependency e else s.pushNegation e).edge e) := by
    split
    · exact SameEdge.refl _
    · split
      · unfold St.pushDependency
        split
        · exact SameEdge.refl _
        · simp only [St.ref, upE_same]; exact ⟨rfl, rfl, rfl⟩
      · unfold St.pushNegation
        simp only
        split <;> (simp only [St.ref, upE_same]; exact ⟨rfl, rfl, rfl⟩)
  unfold St.notifyDep
  rcases hr ((if s.isDone e.1 then s
    else if !G.isNeg e || a = .czero then s.pushDependency e else s.pushNegation e).deref e) with h | h
  · exact .inl h
  · exact .inr ((hp.trans (hd _)).trans h)

theorem Inv.finalAssign_keep (hl : G.Layered lev) (h : Inv G V lev H K X s) (hHK : ∀ x ∈ K, x ∈ H) {c : κ}
    {a : Asg} (hz : s.asg c = .zero) (ha : (a = .one ∧ V c) ∨ (a = .czero ∧ ¬ V c)) {e : EId κ} (he : e ∈ H) :
    SameEdge (s.edge e) ((s.finalAssign G c a).edge e) := by
  have hao : a = .one ∨ a = .czero := by rcases ha with h | h <;> simp [h.1]
  have key : ∀ (L : List (EId κ)) (s1 : St κ), Inv G V lev (L ++ H) (L ++ K) X s1 →
      (∀ e ∈ L, c ∈ G.origTargets e) → s1.asg c = a →
      SameEdge (s1.edge e) ((L.foldl (St.notifyDep G a) s1).edge e) := by
    intro L
    induction L with
    | nil => exact fun s1 h1 _ _ => SameEdge.refl _
    | cons x L ih =>
      intro s1 h1 hL h2
      obtain ⟨h3, h4⟩ := h1.notify hl hHK (hL x (by simp)) h2 hao
      have h5 := ih _ h3 (fun e' he' => hL e' (by simp [he'])) (by simp only [St.asg, h4.conf]; exact h2)
      rw [List.foldl_cons]
      refine SameEdge.trans ?_ h5
      by_cases hee : e = x
      · subst hee
        refine (notify_same a e).resolve_left fun hr => ?_
        have := h3.held_pos (e := e) (List.mem_append_right _ he)
        omega
      · rw [notify_edge_ne hee]; exact SameEdge.refl _
  have h1 := h.assign hz ha
  have h2 := key _ _ h1 (fun e' he' => h.depT c e' he') (by simp [St.asg])
  exact h2

theorem Inv.markHandled_same (hl : G.Layered lev) (hV : G.Solution V) (h : Inv G V lev H K X s)
    (hHK : ∀ x ∈ K, x ∈ H) {e : EId κ} (he : e ∈ H) (hz : s.asg e.1 = .zero) (hr : inRange G e)
    (ho : s.isOpen e = true) (hf : Refuted G s e) :
    ((s.markHandled G e false).edge e).targets = (s.edge e).targets := by
  have h1 := h.close hz hr ho hf
  unfold St.markHandled
  simp only [Bool.false_eq_true, if_false]
  generalize hs1 : (s.upC e.1 fun c => { c with nsuccs := c.nsuccs - 1 }).upE e
      (fun r => { r with handled := true }) = s1 at h1 ⊢
  have hz1 : s1.asg e.1 = .zero := by subst hs1; simpa [St.asg] using hz
  have ht1 : (s1.edge e).targets = (s.edge e).targets := by subst hs1; simp
  rw [releaseIf0_held (h1.closeLast hl hV hHK e.1 hz1).1 he]
  split
  · rename_i h0
    have hnV : ¬ V e.1 := h1.notV hV hz1 fun e' he' => by
      rw [h1.ns _ hz1] at h0
      have := List.countP_eq_zero.1 h0 e' he'
      simpa using this
    rw [(h1.finalAssign_keep hl hHK hz1 (.inr ⟨rfl, hnV⟩) he).targets, ht1]
  · exact ht1

/-! ### The first part of `checkEdge` -/

/-- What is known about an edge that was popped. -/
structure Popped (G : Graph κ) (V : κ → Prop) (s : St κ) (e : EId κ) : Prop where
  lists : G.isNeg e = true → (e ∉ s.W ∧ e ∉ s.N) ∨ ∀ t ∈ (s.edge e).targets, s.isDone t = true
  rel : G.isNeg e = true → (s.edge e).processed = true → ∀ t ∈ (s.edge e).targets, s.asg t = .zero →
    s.asg e.1 = .zero → ¬ V t

def HeadOK (G : Graph κ) (V : κ → Prop) (lev : κ → Nat) (e : EId κ) (r : St κ × Next κ) : Prop :=
  match r with
  | (s, .ret) => Inv G V lev [e] [] [] s
  | (s, .tail) => Inv G V lev [e] [] [e] s ∧ (G.isNeg e = true → (s.edge e).processed = true ∨ e ∉ s.W ∨
      ∀ t ∈ (s.edge e).targets, s.isDone t = true)
  | (s, .explore c) => Inv G V lev [e] [e] [e] s ∧ s.asg c = .unknown ∧ (s.conf c).dist = lev c ∧ e.1 ≠ c ∧
      (G.isNeg e = true → e ∉ s.W ∧ Listed s e ∧ ∀ t ∈ (s.edge e).targets, t = c) ∧
      (G.isNeg e = false → c ∈ (s.edge e).targets ∧ e ∈ (s.conf c).deps)

theorem neg_single (hl : G.Layered lev) {e : EId κ} (hr : inRange G e) (hn : G.isNeg e = true) :
    ∃ t, G.origTargets e = [t] := by
  obtain ⟨x, hx, hm⟩ := orig_of_range hr
  simp only [Graph.isNeg, hx] at hn
  obtain ⟨t, ht, _⟩ := hl.neg _ x hm hn
  exact ⟨t, by simp only [Graph.origTargets, hx]; exact ht⟩

theorem ConfFrame.done {c c' : κ} {s s' : St κ} (h : ConfFrame c s s') (hd : s.isDone c' = true) :
    s'.isDone c' = true := by
  by_cases hc : c' = c
  · subst hc
    rcases h.self with h1 | h1
    · rw [isDone_iff, h1.1, ← isDone_iff]; exact hd
    · exact h1
  · rw [isDone_iff, h.asg c' hc, ← isDone_iff]; exact hd

theorem ConfFrame.known {c c' : κ} {s s' : St κ} (h : ConfFrame c s s') (hd : s.asg c' ≠ .unknown) :
    s'.asg c' ≠ .unknown := by
  by_cases hc : c' = c
  · subst hc
    rcases h.self with h1 | h1
    · rw [h1.1]; exact hd
    · intro hu; rw [unknown_not_done hu] at h1; cases h1
  · rw [h.asg c' hc]; exact hd

theorem done_known {c : κ} (h : s.isDone c = true) : s.asg c ≠ .unknown := by
  intro hu; rw [unknown_not_done hu] at h; cases h

/-- The source of the edge has got its final value. -/
theorem headOK_final (hl : G.Layered lev) {e : EId κ} (h : Inv G V lev [e] [e] [] s)
    (hz : s.asg e.1 = .zero) (hv : V e.1)
    (hkn : G.isNeg e = true → ∀ t ∈ (s.edge e).targets, s.asg t ≠ .unknown)
    (hW : G.isNeg e = true → (s.edge e).processed = true ∨ ∀ t ∈ (s.edge e).targets, s.isDone t = true) :
    HeadOK G V lev e (s.finalAssign G e.1 .one, .tail) := by
  obtain ⟨h1, h2⟩ := h.finalAssign hl (fun _ h => h) hz (.inl ⟨rfl, hv⟩)
  obtain ⟨h3, h4⟩ := finalAssign_frame (.inl rfl) h2
  have h5 := h.finalAssign_keep hl (fun _ h => h) hz (.inl ⟨rfl, hv⟩) (e := e) (by simp)
  have hnz : (s.finalAssign G e.1 .one).asg e.1 ≠ .zero := by rw [h4]; simp
  refine ⟨(h1.unK (fun h => absurd h hnz) (fun _ hx => by cases hx)).addX (fun h => absurd h hnz)
    (fun hn _ t ht => ?_), fun hn => ?_⟩
  · rw [h5.targets] at ht
    exact h3.known (hkn hn t ht)
  · rw [h5.processed, h5.targets]
    rcases hW hn with h6 | h6
    · exact .inl h6
    · exact .inr (.inr fun t ht => h3.done (h6 t ht))

/-- The edge was closed. -/
theorem headOK_closed (hl : G.Layered lev) (hV : G.Solution V) {e : EId κ} (h : Inv G V lev [e] [e] [] s)
    (hz : s.asg e.1 = .zero) (hr : inRange G e) (ho : s.isOpen e = true) (hf : Refuted G s e)
    (hW : G.isNeg e = true → ∀ t ∈ (s.edge e).targets, s.isDone t = true) :
    HeadOK G V lev e (s.markHandled G e false, .tail) := by
  obtain ⟨h1, h2, h3⟩ := h.markHandled_keep hl hV (fun _ h => h) (e := e) (by simp) hz hr ho hf
  have h5 := h.markHandled_same hl hV (fun _ h => h) (e := e) (by simp) hz hr ho hf
  have hd : G.isNeg e = true → ∀ t ∈ ((s.markHandled G e false).edge e).targets,
      (s.markHandled G e false).isDone t = true := by
    intro hn t ht
    rw [h5] at ht
    exact h2.done (hW hn t ht)
  refine ⟨(h1.unK (fun hz _ ho => by rw [h3 hz] at ho; cases ho) (fun _ hx => by cases hx)).addX
    (fun hz _ ho => by rw [h3 hz] at ho; cases ho) (fun hn _ t ht => done_known (hd hn t ht)),
    fun hn => .inr (.inr (hd hn))⟩

theorem headOK_neg (hl : G.Layered lev) (hV : G.Solution V) (addr : EId κ → Nat) {e : EId κ} {u : κ}
    (h : Inv G V lev [e] [e] [] s)
    (hz : s.asg e.1 = .zero) (hr : inRange G e) (hp : Popped G V s e) (hn : G.isNeg e = true)
    (hu : u ∈ (s.edge e).targets) (hud : s.isDone u = false) :
    HeadOK G V lev e (s.negUndecided G addr e u) := by
  obtain ⟨t, ht⟩ := neg_single hl hr hn
  have hrc : 0 < (s.edge e).refcnt := h.held_pos (by simp)
  have hsub := (h.tgt e (by omega) (by rw [hz]; simp) hr).1
  have hall : ∀ x ∈ (s.edge e).targets, x = u := by
    intro x hx
    have h1 := hsub x hx
    have h2 := hsub u hu
    rw [ht, List.mem_singleton] at h1 h2
    rw [h1, h2]
  have hou := hsub u hu
  unfold St.negUndecided
  split
  · rename_i hc
    have hnv := hp.rel hn hc.2 u hu hc.1 hz
    obtain ⟨x, hx, hm⟩ := orig_of_range hr
    have hve : V e.1 := by
      refine (hV.fix _).2 ⟨x, hm, ?_⟩
      unfold HEdge.Fires
      rw [if_pos (by simpa only [Graph.isNeg, hx] using hn)]
      exact ⟨u, by simpa only [Graph.origTargets, hx] using hou, hnv⟩
    exact headOK_final hl h hz hve (fun _ y hy => by rw [hall y hy, hc.1]; simp) (fun _ => .inl hc.2)
  · rename_i hc
    have hnp : (s.edge e).processed = false := by
      by_contra hpr
      have hpr : (s.edge e).processed = true := by simpa using hpr
      rcases not_done hud with h1 | h1
      · exact h.known e hn (.inl hpr) u hu h1
      · exact hc ⟨h1, hpr⟩
    obtain ⟨hnW, hnN⟩ := (hp.lists hn).resolve_right fun hd => by rw [hd u hu] at hud; cases hud
    have h1 : Inv G V lev [e] [e] [e] s := h.addX (fun _ _ _ h2 => by rw [hn] at h2; cases h2)
      (fun _ h2 => absurd (by simp) h2)
    have h2 := h1.pushN e 3 (total_pos_of_mem (by simp)) hn (by simp) hnW hnN
    have hdec : s.decided e = false := by
      unfold St.decided
      rw [Bool.or_eq_false_iff]
      constructor
      · rw [List.all_eq_false]
        refine ⟨u, hu, ?_⟩
        rcases not_done hud with h3 | h3 <;> simp [h3]
      · rw [List.any_eq_false]
        intro y hy
        rw [hall y hy]
        rcases not_done hud with h3 | h3 <;> simp [h3]
    have hpn : s.pushNegation e =
        { ((s.upE e fun r => { r with status := 3 }).ref e) with N := s.N ++ [e] } := by
      unfold St.pushNegation
      simp only
      have : ((s.upE e fun r => { r with status := 3 }).ref e).decided e = s.decided e := by
        unfold St.decided
        simp [St.ref]
      rw [this, hdec]
      simp only [Bool.false_eq_true, if_false]
      rfl
    rw [← hpn] at h2
    have hx : (if (s.edge e).processed = true then s else s.pushNegation e) = s.pushNegation e := by
      rw [hnp]; simp
    simp only [hx]
    have hasg1 : (s.pushNegation e).asg = s.asg := by rw [hpn]; rfl
    have hW1 : (s.pushNegation e).W = s.W := by rw [hpn]; rfl
    have hN1 : (s.pushNegation e).N = s.N ++ [e] := by rw [hpn]
    have ht1 : ((s.pushNegation e).edge e).targets = (s.edge e).targets := by rw [hpn]; simp [St.ref]
    generalize s.pushNegation e = s1 at *
    obtain ⟨h3, h4, h5, h6⟩ := h2.addDep hl addr (e := e) (t := u) (total_pos_of_mem (by simp)) hou
      (by rw [isDone, hasg1]; exact hud)
    have hL : Listed (s1.addDependency G addr u e) e := .inr (.inl (by rw [h5.N, hN1]; simp))
    have hW2 : e ∉ (s1.addDependency G addr u e).W := by rw [h5.W, hW1]; exact hnW
    have ht2 : ((s1.addDependency G addr u e).edge e).targets = (s.edge e).targets := by
      rw [(h5.edge e).1, ht1]
    have hasg2 : (s1.addDependency G addr u e).asg = s.asg := h5.asg.trans hasg1
    generalize s1.addDependency G addr u e = s2 at *
    split
    · rename_i hunk
      refine ⟨h3, hunk, h6, ?_, fun _ => ⟨hW2, hL, fun y hy => hall y (by rw [← ht2]; exact hy)⟩,
        fun h7 => by rw [hn] at h7; cases h7⟩
      intro hc'
      rw [hasg2, ← hc', hz] at hunk; cases hunk
    · rename_i hunk
      exact ⟨h3.unK (fun _ _ _ => .inl hL) (fun _ _ y hy => by
        rw [hall y (by rw [← ht2]; exact hy)]; exact hunk), fun _ => .inr (.inl hW2)⟩

theorem headOK_pos (hl : G.Layered lev) (addr : EId κ → Nat) {e : EId κ} {u : κ}
    (h : Inv G V lev [e] [e] [] s)
    (hz : s.asg e.1 = .zero) (hr : inRange G e) (ho : s.isOpen e = true) (hn : G.isNeg e = false)
    (hu : u ∈ (s.edge e).targets) (hud : ∀ t ∈ (s.edge e).targets, s.isDone t = false) :
    HeadOK G V lev e (s.posUndecided G addr e u) := by
  have hrc : 0 < (s.edge e).refcnt := h.held_pos (by simp)
  have hsub := (h.tgt e (by omega) (by rw [hz]; simp) hr).1
  unfold St.posUndecided
  have key : ∃ s1, (if (!(s.edge e).processed && !s.isDone u) = true then
      (s.edge e).targets.foldl (fun s t => s.addDependency G addr t e) s else s) = s1 ∧
      Inv G V lev [e] [e] [e] s1 ∧ s1.asg = s.asg ∧ (s1.edge e).targets = (s.edge e).targets ∧
      ∀ t ∈ (s.edge e).targets, e ∈ (s1.conf t).deps := by
    by_cases hp : (s.edge e).processed = true
    · refine ⟨s, by rw [hp]; simp, h.addX (fun h1 h2 h3 h4 => h.wait e h1 h2 h3 h4 (.inl hp))
        (fun h1 => by rw [hn] at h1; cases h1), rfl, rfl, fun t ht => ?_⟩
      exact h.wait e hz hr ho hn (.inl hp) t ht (hud t ht)
    · obtain ⟨h1, h2, h3⟩ := h.addDeps hl addr (e := e) (s.edge e).targets (by simp)
        (fun t ht => ⟨hsub t ht, hud t ht⟩)
      refine ⟨_, rfl, ?_⟩
      have hp' : (s.edge e).processed = false := by simpa using hp
      rw [hp', hud u hu]
      simp only [Bool.not_false, Bool.and_self, if_true]
      refine ⟨h1.addX (fun _ _ _ _ t ht _ => (h3 t (by rw [← (h2.edge e).1]; exact ht)).1)
        (fun h1 => by rw [hn] at h1; cases h1), h2.asg, (h2.edge e).1, fun t ht => (h3 t ht).1⟩
  obtain ⟨s1, hs1, h1, h2, h3, h4⟩ := key
  simp only [hs1]
  split
  · rename_i hunk
    refine ⟨h1, hunk, h1.depD u e (h4 u hu), ?_, fun h5 => absurd (hn.symm.trans h5) (by simp),
      fun _ => ⟨by rw [h3]; exact hu, h4 u hu⟩⟩
    intro hc'
    rw [h2, ← hc', hz] at hunk; cases hunk
  · rename_i hunk
    refine ⟨h1.unK (fun _ _ _ => .inr ⟨hn, u, by rw [h3]; exact hu, ?_, h4 u hu⟩)
      (fun h5 => by rw [hn] at h5; cases h5), fun h5 => by rw [hn] at h5; cases h5⟩
    rw [h2] at hunk ⊢
    exact (not_done (hud u hu)).resolve_left hunk

theorem Inv.checkHead (hl : G.Layered lev) (hV : G.Solution V) (addr : EId κ → Nat) {e : EId κ}
    (h : Inv G V lev [e] [e] [] s) (hp : Popped G V s e) :
    HeadOK G V lev e (s.checkHead G addr e false) := by
  obtain ⟨hu, hr⟩ := h.range e (total_pos_of_mem (by simp))
  have hrc : 0 < (s.edge e).refcnt := h.held_pos (by simp)
  unfold St.checkHead
  split
  · rename_i hh
    exact h.unK (fun _ _ ho => by simp [St.isOpen, hh] at ho) (fun _ hx => by cases hx)
  split
  · rename_i hd
    rw [releaseIf0_held h (by simp)]
    exact h.unK (fun hz => by rw [zero_not_done hz] at hd; cases hd) (fun _ hx => by cases hx)
  rename_i hhd hsd
  have hsd : s.isDone e.1 = false := by simpa using hsd
  have hz : s.asg e.1 = .zero := (not_done hsd).resolve_left hu
  have ho : s.isOpen e = true := by
    simp only [St.isOpen, Bool.and_eq_true, Bool.not_eq_true', bne_iff_ne]
    exact ⟨by simpa using hhd, by omega⟩
  have hsc := scan_ok s (s.edge e).targets none
  obtain ⟨f1, f2, f3, f4⟩ := h.scan_facts hV hu hr (by omega) _ hsc
  have h1 := h.setTargets e (s.scan none (s.edge e).targets).targets hsc.sub hsc.one
  have hsub0 := (h.tgt e (by omega) hu hr).1
  generalize s.scan none (s.edge e).targets = r at *
  generalize hs1 : (s.upE e fun x => { x with targets := r.targets }) = s1 at *
  have hz1 : s1.asg e.1 = .zero := by subst hs1; exact hz
  have ho1 : s1.isOpen e = true := by subst hs1; simpa [St.isOpen] using ho
  have href1 : Refuted G s e → Refuted G s1 e := by
    intro hf; subst hs1; exact hf
  have ht1 : (s1.edge e).targets = r.targets := by subst hs1; simp
  have hdone1 : s1.isDone = s.isDone := by subst hs1; rfl
  have hp1 : Popped G V s1 e := by
    refine ⟨fun hn => ?_, fun hn hpr t ht => ?_⟩
    · rcases hp.lists hn with h2 | h2
      · left; subst hs1; exact h2
      · right; rw [ht1, hdone1]; exact fun t ht => h2 t (hsc.sub t ht)
    · rw [ht1] at ht
      have hpr' : (s.edge e).processed = true := by subst hs1; simpa using hpr
      have h2 : s1.asg = s.asg := by subst hs1; rfl
      rw [h2]
      exact hp.rel hn hpr' t (hsc.sub t ht)
  simp only [hs1]
  have hd1 : G.isNeg e = true → r.allOne = true ∨ r.hasCZero = true →
      ∀ t ∈ (s1.edge e).targets, s1.isDone t = true := by
    intro hn hor t ht
    rw [ht1] at ht
    rw [hdone1]
    rcases hor with ha | hc
    · rw [hsc.all ha] at ht; cases ht
    · obtain ⟨t0, h2⟩ := neg_single hl hr hn
      obtain ⟨t', h3, h4⟩ := hsc.cz hc
      have h5 := hsub0 t (hsc.sub t ht)
      have h6 := hsub0 t' (hsc.sub t' h3)
      rw [h2, List.mem_singleton] at h5 h6
      rw [h5, ← h6, isDone_iff]; exact .inr h4
  cases hng : G.isNeg e
  · simp only [Bool.false_eq_true, if_false]
    split
    · rename_i ha
      exact headOK_final hl h1 hz1 (f3 hng ha) (fun h2 => by rw [hng] at h2; cases h2)
        (fun h2 => by rw [hng] at h2; cases h2)
    · rename_i ha
      split
      · rename_i hc
        exact headOK_closed hl hV h1 hz1 hr ho1 (href1 (f4 hng hc)) (fun h2 => by rw [hng] at h2; cases h2)
      · rename_i hc
        have hc' : r.hasCZero = false := by simpa using hc
        obtain ⟨u, hu'⟩ := hsc.lastSome (by simpa using ha) hc'
        have hum := (hsc.lastMem u hu').resolve_right (by simp)
        simp only [hu']
        refine headOK_pos hl addr h1 hz1 hr ho1 hng (by rw [ht1]; exact hum) (fun t ht => ?_)
        rw [hdone1]; exact hsc.und hc' t (by rw [← ht1]; exact ht)
  · simp only [if_true]
    split
    · rename_i ha
      exact headOK_closed hl hV h1 hz1 hr ho1 (href1 (f1 hng ha)) (fun h2 => hd1 h2 (.inl ha))
    · rename_i ha
      split
      · rename_i hc
        exact headOK_final hl h1 hz1 (f2 hng hc) (fun h2 t ht => done_known (hd1 h2 (.inr hc) t ht))
          (fun h2 => .inr (hd1 h2 (.inr hc)))
      · rename_i hc
        have hc' : r.hasCZero = false := by simpa using hc
        obtain ⟨u, hu'⟩ := hsc.lastSome (by simpa using ha) hc'
        have hum := (hsc.lastMem u hu').resolve_right (by simp)
        simp only [hu', Bool.false_eq_true, if_false]
        refine headOK_neg hl hV addr h1 hz1 hr hp1 hng (by rw [ht1]; exact hum) ?_
        rw [hdone1]; exact hsc.und hc' u hum

theorem Inv.checkTail {e : EId κ} (h : Inv G V lev [e] [] [e] s)
    (hW : G.isNeg e = true → (s.edge e).processed = true ∨ e ∉ s.W ∨
      ∀ t ∈ (s.edge e).targets, s.isDone t = true) :
    Inv G V lev [e] [] [] (s.checkTail e false) := by
  have hrc : 0 < (s.edge e).refcnt := h.held_pos (by simp)
  have h1 := h.setProcessed e rfl (by simp) hW
  unfold St.checkTail
  have : (decide ((s.edge e).refcnt > 0) && !false) = true := by simp; exact hrc
  rw [if_pos this]
  rw [releaseIf0_held h1 (by simp)]
  exact h1

/-- `checkEdge` keeps the invariant. -/
theorem Inv.checkEdge (hl : G.Layered lev) (hV : G.Solution V) (addr : EId κ → Nat) {e : EId κ}
    (h : Inv G V lev [e] [e] [] s) (hp : Popped G V s e) :
    Inv G V lev [e] [] [] (s.checkEdge G addr e) := by
  have hh := h.checkHead hl hV addr hp
  unfold St.checkEdge
  generalize s.checkHead G addr e false = r at *
  obtain ⟨s1, n⟩ := r
  cases n with
  | ret => exact hh
  | tail => exact hh.1.checkTail hh.2
  | explore c =>
    obtain ⟨h1, h2, h3, h4, h5, h6⟩ := hh
    obtain ⟨h7, h8⟩ := h1.explore hl hV addr (K := []) h2 h3
      (fun x hx => by rw [List.mem_singleton] at hx; subst hx; exact h4) (by simp) (by simp)
      (fun x hx _ => by
        rw [List.mem_singleton] at hx; subst hx
        exact ⟨fun hn => ⟨(h5 hn).2.1, fun t ht => .inl ((h5 hn).2.2 t ht)⟩, h6⟩)
    refine h7.checkTail fun hn => .inr (.inl fun hm => ?_)
    rcases h8.W e hm with h9 | h9
    · exact (h5 hn).1 h9
    · exact h4 h9

/-- A popped edge. -/
theorem Inv.handleEdge (hl : G.Layered lev) (hV : G.Solution V) (addr : EId κ → Nat) {e : EId κ}
    (h : Inv G V lev [e] [e] [] (s.ref e)) (hp : Popped G V (s.ref e) e) :
    Inv G V lev [] [] [] (s.handleEdge G addr e) := by
  have h1 := h.checkEdge hl hV addr hp
  unfold St.handleEdge
  simp only
  generalize (s.ref e).checkEdge G addr e = s1 at *
  have hrc := h1.held_pos (e := e) (by simp)
  rw [if_pos hrc]
  have h2 : Inv G V lev [] [] [] (s1.deref e) :=
    h1.drop (fun _ _ => Iff.rfl) (fun a b c _ => h1.pend e a b c (by simp)) (fun _ hx => by cases hx)
  exact h2.release0 e (by simp)

end CTL
end Verif
