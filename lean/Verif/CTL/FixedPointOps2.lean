import Verif.CTL.FixedPointOps

/-!
# The invariant is kept: dependencies, looking at an edge
-/

namespace Verif
namespace CTL

set_option linter.unusedSectionVars false
set_option linter.unusedSimpArgs false

variable {κ : Type} [DecidableEq κ]

open St

variable {G : Graph κ} {V : κ → Prop} {lev : κ → Nat} {H K X : List (EId κ)} {s : St κ}

theorem insertDep_none {addr : EId κ → Nat} {e : EId κ} : ∀ {l : List (EId κ)},
    insertDep addr e l = none → e ∈ l
  | [], h => by simp [insertDep] at h
  | d :: ds, h => by
    unfold insertDep at h
    split at h
    · rename_i hd; simp [hd]
    · split at h
      · simp at h
      · simp only [Option.map_eq_none_iff] at h
        exact List.mem_cons_of_mem _ (insertDep_none h)

theorem insertDep_some {addr : EId κ → Nat} {e : EId κ} : ∀ {l l' : List (EId κ)},
    insertDep addr e l = some l' → l'.Perm (e :: l)
  | [], l', h => by simp [insertDep] at h; subst h; exact List.Perm.refl _
  | d :: ds, l', h => by
    unfold insertDep at h
    split at h
    · simp at h
    · split at h
      · simp at h; subst h; exact List.Perm.refl _
      · simp only [Option.map_eq_some_iff] at h
        obtain ⟨l1, h1, rfl⟩ := h
        exact ((insertDep_some h1).cons d).trans (List.Perm.swap e d ds)

theorem orig_of_range {e : EId κ} (h : inRange G e) : ∃ x, G.orig e = some x ∧ x ∈ G.succ e.1 := by
  have h' : e.2 < (G.succ e.1).length := h
  exact ⟨(G.succ e.1)[e.2], by simp [Graph.orig, h'], List.getElem_mem h'⟩

/-- Levels along an edge object. -/
theorem lev_target (hl : G.Layered lev) {e : EId κ} (hr : inRange G e) {t : κ} (ht : t ∈ G.origTargets e) :
    lev t = if G.isNeg e then lev e.1 + 1 else lev e.1 := by
  obtain ⟨x, hx, hm⟩ := orig_of_range hr
  simp only [Graph.origTargets, hx] at ht
  simp only [Graph.isNeg, hx]
  cases hn : x.neg with
  | true =>
    obtain ⟨y, hy, hly⟩ := hl.neg _ x hm hn
    rw [hy] at ht
    simp only [List.mem_singleton] at ht
    simp [ht, hly]
  | false =>
    simp [hl.pos _ x hm hn t ht]

/-- What adding dependencies leaves alone. -/
structure DepFrame (s s' : St κ) : Prop where
  asg : s'.asg = s.asg
  W : s'.W = s.W
  N : s'.N = s.N
  D : s'.D = s.D
  deps : ∀ t e, e ∈ (s.conf t).deps → e ∈ (s'.conf t).deps
  dist : ∀ c, (s.conf c).dist ≤ (s'.conf c).dist
  edge : ∀ e, (s'.edge e).targets = (s.edge e).targets ∧ (s'.edge e).processed = (s.edge e).processed ∧
    (s'.edge e).handled = (s.edge e).handled ∧ s.edge e = { s'.edge e with refcnt := (s.edge e).refcnt }

theorem DepFrame.refl (s : St κ) : DepFrame s s :=
  ⟨rfl, rfl, rfl, rfl, fun _ _ h => h, fun _ => Nat.le_refl _, fun _ => ⟨rfl, rfl, rfl, rfl⟩⟩

theorem DepFrame.trans {s s' s'' : St κ} (h : DepFrame s s') (h' : DepFrame s' s'') : DepFrame s s'' := by
  refine ⟨h'.asg.trans h.asg, h'.W.trans h.W, h'.N.trans h.N, h'.D.trans h.D,
    fun t e he => h'.deps t e (h.deps t e he), fun c => Nat.le_trans (h.dist c) (h'.dist c), fun e => ?_⟩
  obtain ⟨a, b, c, d⟩ := h.edge e
  obtain ⟨a', b', c', d'⟩ := h'.edge e
  refine ⟨a'.trans a, b'.trans b, c'.trans c, ?_⟩
  rw [d, d']

theorem Inv.addDep (hl : G.Layered lev) (h : Inv G V lev H K X s) (addr : EId κ → Nat) {e : EId κ} {t : κ}
    (hpos : 0 < total G H s e) (ht : t ∈ G.origTargets e) (hd : s.isDone t = false) :
    Inv G V lev H K X (s.addDependency G addr t e) ∧ e ∈ ((s.addDependency G addr t e).conf t).deps ∧
      DepFrame s (s.addDependency G addr t e) ∧ ((s.addDependency G addr t e).conf t).dist = lev t := by
  obtain ⟨hu, hr⟩ := h.range e hpos
  have hrf : (s.edge e).refcnt = (total G H s e : Int) := by
    rcases h.rc e with ⟨_, h1⟩ | h1
    · omega
    · exact h1
  have hn1 : s.asg t ≠ .one := by
    intro h1; rw [(isDone_iff s t).2 (.inl h1)] at hd; cases hd
  have hlt := lev_target hl hr ht
  generalize hs0 : s.upC t (fun c => { c with
    dist := max (if G.isNeg e then (s.conf e.1).dist + 1 else (s.conf e.1).dist) c.dist }) = s0
  have hconf0 : ∀ c', (s0.conf c').deps = (s.conf c').deps ∧ (s0.conf c').asg = (s.conf c').asg ∧
      (s0.conf c').nsuccs = (s.conf c').nsuccs ∧
      (s.asg c' ≠ .unknown → (s0.conf c').dist = lev c') ∧ (s0.conf c').dist ≤ lev c' ∧
      (s.conf c').dist ≤ (s0.conf c').dist ∧ (c' = t → (s0.conf c').dist = lev c') := by
    intro c'
    subst hs0
    by_cases hc : c' = t
    · subst hc
      simp only [upC_same, h.dist e.1 hu, ← hlt]
      have h1 := h.distLe c'
      exact ⟨trivial, trivial, trivial, fun _ => by omega, by omega, by omega, fun _ => by omega⟩
    · rw [upC_ne _ hc]
      exact ⟨rfl, rfl, rfl, h.dist c', h.distLe c', Nat.le_refl _, fun h => absurd h hc⟩
  have hasg0 : s0.asg = s.asg := by funext c; exact (hconf0 c).2.1
  have hdone0 : s0.isDone = s.isDone := by funext c; simp only [St.isDone, hasg0]
  have hedge0 : s0.edge = s.edge := by subst hs0; rfl
  have hW0 : s0.W = s.W := by subst hs0; rfl
  have hN0 : s0.N = s.N := by subst hs0; rfl
  have hD0 : s0.D = s.D := by subst hs0; rfl
  have hopen0 : s0.isOpen = s.isOpen := by funext x; simp only [St.isOpen, hedge0]
  have h0 : Inv G V lev H K X s0 := {
    rc := fun e' => by
      rw [hedge0]
      have : total G H s0 e' = total G H s e' := by
        simp only [total, hW0, hN0, hD0, depCnt_congr (G := G) (fun t => (hconf0 t).1) e']
      rw [this]; exact h.rc e'
    range := fun e' he' => by
      have : total G H s0 e' = total G H s e' := by
        simp only [total, hW0, hN0, hD0, depCnt_congr (G := G) (fun t => (hconf0 t).1) e']
      rw [this] at he'; rw [hasg0]; exact h.range e' he'
    depT := fun t' e' he' => h.depT t' e' (by rw [(hconf0 t').1] at he'; exact he')
    one := by rw [hasg0]; exact h.one
    czero := by rw [hasg0]; exact h.czero
    tgt := by rw [hasg0, hedge0]; exact h.tgt
    ns := fun c hc => by rw [hasg0] at hc; rw [(hconf0 c).2.2.1, hopen0]; exact h.ns c hc
    clos := fun e' hz hr ho => by
      rw [hasg0] at hz; rw [hopen0] at ho
      have := h.clos e' hz hr ho
      unfold Refuted at this ⊢
      rw [hasg0]; exact this
    pend := fun e' hz hr ho hk => by
      rw [hasg0] at hz; rw [hopen0] at ho
      rcases h.pend e' hz hr ho hk with h1 | ⟨h1, t', h2, h3, h4⟩
      · left; simpa only [Listed, hW0, hN0, hD0] using h1
      · exact .inr ⟨h1, t', by rw [hedge0]; exact h2, by rw [hasg0]; exact h3, by rw [(hconf0 t').1]; exact h4⟩
    wait := fun e' hz hr ho hn hp t' ht' hd' => by
      rw [hasg0] at hz; rw [hopen0] at ho; rw [hedge0] at hp ht'; rw [hdone0] at hd'
      rw [(hconf0 t').1]; exact h.wait e' hz hr ho hn hp t' ht' hd'
    known := by rw [hasg0, hedge0]; exact h.known
    relW := by rw [hasg0, hedge0, hW0]; exact h.relW
    relN := by rw [hedge0, hN0]; exact h.relN
    relD := by rw [hdone0, hedge0, hD0]; exact h.relD
    uniq := by rw [hW0, hN0]; exact h.uniq
    dist := fun c hc => by rw [hasg0] at hc; exact (hconf0 c).2.2.2.1 hc
    distLe := fun c => (hconf0 c).2.2.2.2.1
    depD := fun t' e' he' => by
      rw [(hconf0 t').1] at he'
      have h1 := h.depD t' e' he'
      have h2 := (hconf0 t').2.2.2.2
      omega
    stat := fun e' hs => by
      rw [hedge0] at hs
      simpa only [Listed, hW0, hN0, hD0] using h.stat e' hs }
  have hf0 : DepFrame s s0 := ⟨hasg0, hW0, hN0, hD0, fun t' e' he' => by rw [(hconf0 t').1]; exact he',
    fun c => (hconf0 c).2.2.2.2.2.1, fun e' => by rw [hedge0]; exact ⟨rfl, rfl, rfl, rfl⟩⟩
  unfold St.addDependency
  rw [if_neg hn1]
  simp only [hs0]
  cases hi : insertDep addr e (s0.conf t).deps with
  | none => exact ⟨h0, insertDep_none hi, hf0, (hconf0 t).2.2.2.2.2.2 rfl⟩
  | some ds =>
    have hperm := insertDep_some hi
    simp only
    have hrange0 := h0.range
    have hpos0 : 0 < total G H s0 e := by
      have : total G H s0 e = total G H s e := by
        simp only [total, hW0, hN0, hD0, depCnt_congr (G := G) (fun t => (hconf0 t).1) e]
      rw [this]; exact hpos
    have hrf0 : (s0.edge e).refcnt = (total G H s0 e : Int) := by
      rcases h0.rc e with ⟨_, h1⟩ | h1
      · omega
      · exact h1
    generalize hs1 : (s0.upC t fun c => { c with deps := ds }).ref e = s1
    have hW1 : s1.W = s0.W := by subst hs1; rfl
    have hN1 : s1.N = s0.N := by subst hs1; rfl
    have hD1 : s1.D = s0.D := by subst hs1; rfl
    have hsame1 : ∀ c', c' ≠ t → s1.conf c' = s0.conf c' := by
      intro c' hc; subst hs1; simp only [St.ref, upE_conf, upC_ne _ hc]
    have ht1 : (s1.conf t).deps = ds := by subst hs1; simp [St.ref]
    have hconf1 : ∀ c', (s1.conf c').asg = (s0.conf c').asg ∧ (s1.conf c').nsuccs = (s0.conf c').nsuccs ∧
        (s1.conf c').dist = (s0.conf c').dist := by
      intro c'
      by_cases hc : c' = t
      · subst hc; subst hs1; simp [St.ref]
      · rw [hsame1 c' hc]; exact ⟨rfl, rfl, rfl⟩
    have hasg1 : s1.asg = s0.asg := by funext c; exact (hconf1 c).1
    have hdone1 : s1.isDone = s0.isDone := by funext c; simp only [St.isDone, hasg1]
    have hdeps1 : ∀ t' e', e' ∈ (s0.conf t').deps → e' ∈ (s1.conf t').deps := by
      intro t' e' he'
      by_cases hc : t' = t
      · subst hc; rw [ht1, hperm.mem_iff]; exact List.mem_cons_of_mem _ he'
      · rw [hsame1 t' hc]; exact he'
    have hedge1 : s1.edge = (s0.ref e).edge := by subst hs1; rfl
    have hedgeF : ∀ e', (s1.edge e').targets = (s0.edge e').targets ∧
        (s1.edge e').processed = (s0.edge e').processed ∧ (s1.edge e').handled = (s0.edge e').handled ∧
        s0.edge e' = { s1.edge e' with refcnt := (s0.edge e').refcnt } := by
      intro e'
      rw [hedge1]
      by_cases hee : e' = e
      · subst hee; simp [St.ref]
      · simp [St.ref, upE_ne _ hee]
    have hne1 : ∀ e', e' ≠ e → s1.edge e' = s0.edge e' := by
      intro e' hee; rw [hedge1]; simp [St.ref, upE_ne _ hee]
    have href1 : (s1.edge e).refcnt = (s0.edge e).refcnt + 1 := by rw [hedge1]; simp [St.ref]
    have hopen1 : s1.isOpen = s0.isOpen := by
      funext e'
      by_cases hee : e' = e
      · subst hee
        simp only [St.isOpen, (hedgeF e').2.2.1, href1]
        have h1 : ((s0.edge e').refcnt != -1) = true := by simp; omega
        have h2 : ((s0.edge e').refcnt + 1 != -1) = true := by simp; omega
        rw [h1, h2]
      · simp only [St.isOpen, hne1 e' hee]
    have hcount : ∀ e', (s1.conf t).deps.count e' = (s0.conf t).deps.count e' + if e' = e then 1 else 0 := by
      intro e'
      rw [ht1, hperm.count_eq]
      simp only [List.count_cons, beq_iff_eq]
      by_cases hee : e = e'
      · simp [hee]
      · simp [hee, Ne.symm hee]
    have htot1 : ∀ e', total G H s1 e' = total G H s0 e' + if e' = e then 1 else 0 := by
      intro e'
      have := depCnt_change (G := G) (s := s0) (s' := s1) (c := t) (fun t' ht' => by rw [hsame1 t' ht']) e'
        (by rintro (h1 | h1)
            · exact h0.depT t e' h1
            · rw [ht1, hperm.mem_iff] at h1
              rcases List.mem_cons.1 h1 with rfl | h1
              · exact ht
              · exact h0.depT t e' h1)
      rw [hcount] at this
      simp only [total, hW1, hN1, hD1]
      omega
    refine ⟨?_, by rw [ht1, hperm.mem_iff]; simp,
      hf0.trans ⟨hasg1, hW1, hN1, hD1, hdeps1, fun c => Nat.le_of_eq (hconf1 c).2.2.symm, hedgeF⟩,
      by rw [(hconf1 t).2.2]; exact (hconf0 t).2.2.2.2.2.2 rfl⟩
    exact {
      rc := fun e' => by
        rw [htot1]
        by_cases hee : e' = e
        · subst hee; right; rw [href1, hrf0]; simp
        · rw [hne1 e' hee]; simpa [hee] using h0.rc e'
      range := fun e' he' => by
        rw [hasg1]
        by_cases hee : e' = e
        · subst hee; exact h0.range e' hpos0
        · rw [htot1] at he'; exact h0.range e' (by simpa [hee] using he')
      depT := fun t' e' he' => by
        by_cases hc : t' = t
        · subst hc
          rw [ht1, hperm.mem_iff] at he'
          rcases List.mem_cons.1 he' with rfl | he'
          · exact ht
          · exact h0.depT t' e' he'
        · rw [hsame1 t' hc] at he'; exact h0.depT t' e' he'
      one := by rw [hasg1]; exact h0.one
      czero := by rw [hasg1]; exact h0.czero
      tgt := fun e' hr' hu' hi' => by
        rw [hasg1] at hu' ⊢
        rw [(hedgeF e').1]
        refine h0.tgt e' ?_ hu' hi'
        by_cases hee : e' = e
        · subst hee; omega
        · rw [hne1 e' hee] at hr'; exact hr'
      ns := fun c hc => by rw [hasg1] at hc; rw [(hconf1 c).2.1, hopen1]; exact h0.ns c hc
      clos := fun e' hz hr ho => by
        rw [hasg1] at hz; rw [hopen1] at ho
        have := h0.clos e' hz hr ho
        unfold Refuted at this ⊢
        rw [hasg1]; exact this
      pend := fun e' hz hr ho hk => by
        rw [hasg1] at hz; rw [hopen1] at ho
        rcases h0.pend e' hz hr ho hk with h1 | ⟨h1, t', h2, h3, h4⟩
        · left; simpa only [Listed, hW1, hN1, hD1] using h1
        · exact .inr ⟨h1, t', by rw [(hedgeF e').1]; exact h2, by rw [hasg1]; exact h3, hdeps1 t' e' h4⟩
      wait := fun e' hz hr ho hn hp t' ht' hd' => by
        rw [hasg1] at hz; rw [hopen1] at ho; rw [hdone1] at hd'
        rw [(hedgeF e').2.1] at hp
        rw [(hedgeF e').1] at ht'
        exact hdeps1 t' e' (h0.wait e' hz hr ho hn hp t' ht' hd')
      known := fun e' hn hp t' ht' => by
        rw [(hedgeF e').2.1] at hp
        rw [(hedgeF e').1] at ht'
        rw [hasg1]; exact h0.known e' hn hp t' ht'
      relW := fun e' hm hn hp t' ht' hz hz2 => by
        rw [hW1] at hm
        rw [(hedgeF e').2.1] at hp
        rw [(hedgeF e').1] at ht'
        rw [hasg1] at hz
        exact h0.relW e' hm hn hp t' ht' hz (by rw [hasg1] at hz2; exact hz2)
      relN := fun e' hm => by
        rw [hN1] at hm
        rw [(hedgeF e').2.1]; exact h0.relN e' hm
      relD := fun e' hm hn t' ht' => by
        rw [hD1] at hm
        rw [(hedgeF e').1] at ht'
        rw [hdone1]; exact h0.relD e' hm hn t' ht'
      uniq := by rw [hW1, hN1]; exact h0.uniq
      dist := fun c hc => by rw [hasg1] at hc; rw [(hconf1 c).2.2]; exact h0.dist c hc
      distLe := fun c => by rw [(hconf1 c).2.2]; exact h0.distLe c
      depD := fun t' e' he' => by
        rw [(hconf1 t').2.2]
        by_cases htc : t' = t
        · exact (hconf0 t').2.2.2.2.2.2 htc
        · rw [hsame1 t' htc] at he'; exact h0.depD t' e' he'
      stat := fun e' hs => by
        have : (s1.edge e').status = (s0.edge e').status := by
          have := (hedgeF e').2.2.2
          rw [this]
        rw [this] at hs
        simpa only [Listed, hW1, hN1, hD1] using h0.stat e' hs }

/-- Adding an edge to the dependency sets of all its targets. -/
theorem Inv.addDeps (hl : G.Layered lev) (addr : EId κ → Nat) {e : EId κ} : ∀ (ts : List κ) {s : St κ},
    Inv G V lev H K X s → e ∈ H → (∀ t ∈ ts, t ∈ G.origTargets e ∧ s.isDone t = false) →
    Inv G V lev H K X (ts.foldl (fun s t => s.addDependency G addr t e) s) ∧
      DepFrame s (ts.foldl (fun s t => s.addDependency G addr t e) s) ∧
      ∀ t ∈ ts, e ∈ ((ts.foldl (fun s t => s.addDependency G addr t e) s).conf t).deps ∧
        ((ts.foldl (fun s t => s.addDependency G addr t e) s).conf t).dist = lev t
  | [], s, h, _, _ => ⟨h, DepFrame.refl s, by simp⟩
  | t :: ts, s, h, he, hts => by
    obtain ⟨h1, h2, h3, h2'⟩ := h.addDep hl addr (total_pos_of_mem he) (hts t (by simp)).1 (hts t (by simp)).2
    have hd : (s.addDependency G addr t e).isDone = s.isDone := by
      funext c; simp only [St.isDone, h3.asg]
    obtain ⟨h4, h5, h6⟩ := Inv.addDeps hl addr ts h1 he (fun t' ht' => by
      rw [hd]; exact hts t' (by simp [ht']))
    refine ⟨h4, h3.trans h5, fun t' ht' => ?_⟩
    rcases List.mem_cons.1 ht' with rfl | ht'
    · refine ⟨h5.deps _ _ h2, Nat.le_antisymm (h4.distLe _) ?_⟩
      rw [← h2']; exact h5.dist _
    · exact h6 t' ht'

/-! ### Looking at the targets -/

structure ScanOK (s : St κ) (last : Option κ) (ts : List κ) (r : Scan κ) : Prop where
  sub : ∀ t ∈ r.targets, t ∈ ts
  one : ∀ t ∈ ts, t ∉ r.targets → s.asg t = .one
  all : r.allOne = true → r.targets = []
  cz : r.hasCZero = true → ∃ t ∈ r.targets, s.asg t = .czero
  und : r.hasCZero = false → ∀ t ∈ r.targets, s.isDone t = false
  lastMem : ∀ u, r.last = some u → u ∈ r.targets ∨ last = some u
  lastSome : r.allOne = false → r.hasCZero = false → ∃ u, r.last = some u
  lastKeep : (∃ u, last = some u) → ∃ u, r.last = some u

theorem scan_ok (s : St κ) : ∀ (ts : List κ) (last : Option κ), ScanOK s last ts (s.scan last ts)
  | [], last => by
    simp only [scan]
    exact ⟨by simp, by simp, by simp, by simp, by simp, fun u h => .inr h, by simp, fun h => h⟩
  | t :: ts, last => by
    unfold scan
    split
    · rename_i h1
      have ih := scan_ok s ts last
      exact ⟨fun t' ht' => List.mem_cons_of_mem _ (ih.sub t' ht'), fun t' ht' hn => by
        rcases List.mem_cons.1 ht' with rfl | ht'
        · exact h1
        · exact ih.one t' ht' hn, ih.all, ih.cz, ih.und, ih.lastMem, ih.lastSome, ih.lastKeep⟩
    · split
      · rename_i h1 h2
        exact ⟨fun _ h => h, fun _ h hn => absurd h hn, by simp, fun _ => ⟨t, by simp, h2⟩, by simp,
          fun u h => .inr h, by simp, fun h => h⟩
      · rename_i h1 h2
        have ih := scan_ok s ts (s.pickLast last t)
        have hpick : ∃ u, s.pickLast last t = some u ∧ (u = t ∨ last = some u) := by
          unfold pickLast
          split
          · exact ⟨t, rfl, .inl rfl⟩
          · rename_i l
            split
            · exact ⟨t, rfl, .inl rfl⟩
            · exact ⟨l, rfl, .inr rfl⟩
        obtain ⟨u0, hu0, hu1⟩ := hpick
        refine ⟨fun t' ht' => ?_, fun t' ht' hn => ?_, by simp, fun hc => ?_, fun hc t' ht' => ?_,
          fun u hu => ?_, fun _ _ => ih.lastKeep ⟨u0, hu0⟩, fun _ => ih.lastKeep ⟨u0, hu0⟩⟩
        · rcases List.mem_cons.1 ht' with rfl | ht'
          · simp
          · exact List.mem_cons_of_mem _ (ih.sub t' ht')
        · simp only [List.mem_cons, not_or] at hn
          rcases List.mem_cons.1 ht' with rfl | ht'
          · exact absurd rfl hn.1
          · exact ih.one t' ht' hn.2
        · obtain ⟨t', h3, h4⟩ := ih.cz hc
          exact ⟨t', List.mem_cons_of_mem _ h3, h4⟩
        · rcases List.mem_cons.1 ht' with rfl | ht'
          · by_contra hd
            have := (isDone_iff s t').1 (by simpa using hd)
            rcases this with h | h
            · exact h1 h
            · exact h2 h
          · exact ih.und hc t' ht'
        · rcases ih.lastMem u hu with h | h
          · exact .inl (List.mem_cons_of_mem _ h)
          · rw [hu0] at h
            cases h
            rcases hu1 with rfl | h
            · exact .inl (by simp)
            · exact .inr h

end CTL
end Verif
