import Verif.CTL.FixedPointOps6

/-!
# The invariant is kept: the main loop
-/

namespace Verif
namespace CTL

set_option linter.unusedSectionVars false
set_option linter.unusedSimpArgs false

variable {κ : Type} [DecidableEq κ]

open St

variable {G : Graph κ} {V : κ → Prop} {lev : κ → Nat} {H K X : List (EId κ)} {s : St κ}

/-- Popping an edge and taking a reference to it. -/
theorem Inv.takeOff (h : Inv G V lev [] [] [] s) {e : EId κ} {W' D' : List (EId κ)}
    (hl : (W' = s.W ∧ s.D = e :: D') ∨ ((e :: W').Perm s.W ∧ D' = s.D)) :
    Inv G V lev [e] [e] []
      ((({ s with W := W', D := D' }.deref e).upE e fun r => { r with status := 0 }).ref e) ∧
    Popped G V ((({ s with W := W', D := D' }.deref e).upE e fun r => { r with status := 0 }).ref e) e := by
  have hmem : Listed s e := by
    rcases hl with h1 | h1
    · right; right; rw [h1.2]; simp
    · left; rw [← h1.1.mem_iff]; simp
  have hpos := total_pos_of_listed (G := G) (H := []) hmem
  obtain ⟨hu, hr⟩ := h.range e hpos
  have hrc : (s.edge e).refcnt = (total G [] s e : Int) := by
    rcases h.rc e with h1 | h1
    · omega
    · exact h1
  have hcnt : ∀ x, W'.count x + D'.count x + (if x = e then 1 else 0) = s.W.count x + s.D.count x := by
    intro x
    have hone : ∀ l : List (EId κ), (e :: l).count x = l.count x + if x = e then 1 else 0 := by
      intro l
      rw [List.count_cons]
      by_cases hxe : x = e
      · simp [hxe]
      · simp [hxe, Ne.symm hxe]
    rcases hl with h1 | h1
    · have := hone D'
      rw [h1.1, h1.2]; omega
    · have := h1.1.count_eq x
      have := hone W'
      rw [h1.2]; omega
  have hW : W'.count e + (if W' = s.W then 0 else 1) = s.W.count e ∨ W' = s.W := by
    rcases hl with h1 | h1
    · exact .inr h1.1
    · by_cases hw : W' = s.W
      · exact .inr hw
      · left
        have := h1.1.count_eq e
        rw [List.count_cons_self] at this
        rw [if_neg hw]; exact this
  have hWle : ∀ x, W'.count x ≤ s.W.count x := by
    intro x
    rcases hl with h1 | h1
    · rw [h1.1]; exact Nat.le_refl _
    · have := h1.1.count_eq x
      have h2 : W'.count x ≤ (e :: W').count x := List.count_le_count_cons
      omega
  have hDle : ∀ x, D'.count x ≤ s.D.count x := by
    intro x
    rcases hl with h1 | h1
    · rw [h1.2]; exact List.count_le_count_cons
    · rw [h1.2]; exact Nat.le_refl _
  have hWm : ∀ x ∈ W', x ∈ s.W := fun x hx => by
    have := List.count_pos_iff.2 hx
    exact List.count_pos_iff.1 (Nat.lt_of_lt_of_le this (hWle x))
  have hDm : ∀ x ∈ D', x ∈ s.D := fun x hx => by
    have := List.count_pos_iff.2 hx
    exact List.count_pos_iff.1 (Nat.lt_of_lt_of_le this (hDle x))
  generalize hs' : ((({ s with W := W', D := D' }.deref e).upE e fun r => { r with status := 0 }).ref e) = s'
  have hedge : s'.edge e = { s.edge e with status := 0 } := by
    subst hs'
    simp [St.ref, St.deref]
  have hne : ∀ e', e' ≠ e → s'.edge e' = s.edge e' := by
    intro e' hne; subst hs'
    simp [St.ref, St.deref, upE_ne _ hne]
  have hconf : s'.conf = s.conf := by subst hs'; rfl
  have hW' : s'.W = W' := by subst hs'; rfl
  have hD' : s'.D = D' := by subst hs'; rfl
  have hN' : s'.N = s.N := by subst hs'; rfl
  have hasg : s'.asg = s.asg := by funext c; simp only [St.asg, hconf]
  have hdone : s'.isDone = s.isDone := by funext c; simp only [St.isDone, hasg]
  have htot : total G [e] s' e = total G [] s e := by
    have := hcnt e
    simp only [total, hW', hD', hN', depCnt_congr (G := G) (s := s) (s' := s') (fun t => by rw [hconf]) e]
    simp at this ⊢
    omega
  have hne1 : ∀ e', e' ≠ e → W'.count e' = s.W.count e' ∧ D'.count e' = s.D.count e' := by
    intro e' hne
    have := hcnt e'
    rw [if_neg hne] at this
    have := hWle e'; have := hDle e'
    omega
  refine ⟨?_, ?_⟩
  · refine h.edgeOp e hconf hne (fun e' hee => by rw [hW']; exact (hne1 e' hee).1) (fun e' _ => by rw [hN'])
      (fun e' hee => by rw [hD']; exact (hne1 e' hee).2)
      (fun e' hee => by simp [List.count_cons, Ne.symm hee]) (fun e' hee => by simp [hee]) (fun _ _ => Iff.rfl)
      ?_ (fun _ => ⟨hu, hr⟩) ?_ ?_ (fun _ _ _ hk => absurd (by simp) hk) ?_ ?_ ?_ ?_ ?_ ?_ ?_
    · rw [htot, hedge]; exact h.rc e
    · rw [hedge]; exact h.tgt e
    · intro _ _; simp only [St.isOpen, hedge]
    · intro h1 h2 h3 h4 h5
      rw [hedge] at h5 ⊢
      exact h.wait e h1 h2 (by simpa only [St.isOpen, hedge] using h3) h4 h5
    · intro h1 h2
      rw [hedge] at h2 ⊢
      rcases h2 with h2 | h2
      · exact h.known e h1 (.inl h2)
      · cases h2.1
    · intro h1 h2 h3
      rw [hW'] at h1
      rw [hedge] at h3 ⊢
      exact h.relW e (hWm e h1) h2 h3
    · intro h1
      rw [hN'] at h1
      rw [hedge]
      exact h.relN e h1
    · intro h1 h2
      rw [hD'] at h1
      rw [hedge]
      exact h.relD e (hDm e h1) h2
    · intro h1
      have := h.uniq e h1
      have := hWle e
      rw [hW', hN']; omega
    · intro h1; rw [hedge] at h1; exact absurd rfl h1
  · refine ⟨fun hn => ?_, fun hn hp t ht hz hz2 => ?_⟩
    · rcases hl with h1 | h1
      · right
        rw [hedge, hdone]
        exact h.relD e (by rw [h1.2]; simp) hn
      · left
        have h2 := h1.1.count_eq e
        rw [List.count_cons_self] at h2
        have h3 := h.uniq e hn
        rw [hW', hN']
        exact ⟨List.count_eq_zero.1 (by omega), List.count_eq_zero.1 (by omega)⟩
    · rw [hedge] at hp ht
      rw [hasg] at hz hz2
      rcases hl with h1 | h1
      · have := h.relD e (by rw [h1.2]; simp) hn t ht
        rw [zero_not_done hz] at this; cases this
      · exact h.relW e (by rw [← h1.1.mem_iff]; simp) hn hp t ht hz hz2

theorem popEdge_none {pick : List (EId κ) → Nat} (h : s.popEdge pick = none) : s.W = [] ∧ s.D = [] := by
  unfold St.popEdge at h
  simp only at h
  split at h
  · cases h
  · rename_i hD
    split at h
    · cases h
    · rename_i hW
      refine ⟨?_, hD⟩
      by_contra hne
      have hlen : 0 < s.W.length := List.length_pos_iff.2 hne
      have := List.getElem?_eq_none_iff.1 hW
      have := Nat.mod_lt (pick s.W) hlen
      omega

/-- One popped edge keeps the invariant. -/
theorem Inv.popHandle (hl : G.Layered lev) (hV : G.Solution V) (addr : EId κ → Nat)
    {pick : List (EId κ) → Nat} {e : EId κ} {s1 : St κ} (h : Inv G V lev [] [] [] s)
    (hp : s.popEdge pick = some (e, s1)) : Inv G V lev [] [] [] (s1.handleEdge G addr e) := by
  unfold St.popEdge at hp
  simp only at hp
  split at hp
  · rename_i e' D' hD
    simp only [Option.some.injEq, Prod.mk.injEq] at hp
    obtain ⟨rfl, rfl⟩ := hp
    obtain ⟨h1, h2⟩ := h.takeOff (e := e') (W' := s.W) (D' := D') (.inl ⟨rfl, hD⟩)
    exact h1.handleEdge hl hV addr h2
  · rename_i hD
    split at hp
    · rename_i e' hW
      simp only [Option.some.injEq, Prod.mk.injEq] at hp
      obtain ⟨rfl, rfl⟩ := hp
      obtain ⟨hi, hie⟩ := List.getElem?_eq_some_iff.1 hW
      have hperm : (e' :: s.W.eraseIdx (pick s.W % s.W.length)).Perm s.W := by
        rw [← hie]; exact List.getElem_cons_eraseIdx_perm hi
      obtain ⟨h1, h2⟩ := h.takeOff (e := e') (D' := s.D) (.inr ⟨hperm, rfl⟩)
      exact h1.handleEdge hl hV addr h2
    · cases hp

/-! ### Moving negated edges -/

theorem splitSkip_perm (p : EId κ → Bool) : ∀ l : List (EId κ),
    ((splitSkip p l).1 ++ (splitSkip p l).2).Perm l
  | [] => by simp [splitSkip]
  | [e] => by unfold splitSkip; split <;> simp
  | e :: f :: es => by
    unfold splitSkip
    split
    · have ih := splitSkip_perm p es
      simp only [List.cons_append]
      refine List.Perm.cons e ?_
      exact List.perm_middle.trans (List.Perm.cons f ih)
    · have ih := splitSkip_perm p (f :: es)
      simp only
      exact List.perm_middle.trans (List.Perm.cons e ih)

theorem splitSkip_mem (p : EId κ → Bool) : ∀ l : List (EId κ), ∀ e ∈ (splitSkip p l).1, p e = true
  | [] => by simp [splitSkip]
  | [e] => by
    unfold splitSkip
    split
    · rename_i h; simpa using h
    · simp
  | e :: f :: es => by
    unfold splitSkip
    split
    · rename_i h
      have ih := splitSkip_mem p es
      intro x hx
      rcases List.mem_cons.1 hx with rfl | hx
      · exact h
      · exact ih x hx
    · exact splitSkip_mem p (f :: es)

/-- Moving edges between the lists. -/
theorem Inv.move (h : Inv G V lev [] [] [] s) {W' N' D' : List (EId κ)}
    (hc : ∀ e, W'.count e + N'.count e + D'.count e = s.W.count e + s.N.count e + s.D.count e)
    (hle : ∀ e, W'.count e + N'.count e ≤ s.W.count e + s.N.count e)
    (hN : ∀ e ∈ N', e ∈ s.N)
    (hW : ∀ e ∈ W', e ∈ s.W ∨ (G.isNeg e = true → (s.edge e).processed = true →
      ∀ t ∈ (s.edge e).targets, s.asg t = .zero → s.asg e.1 = .zero → ¬ V t))
    (hD : ∀ e ∈ D', e ∈ s.D ∨ (G.isNeg e = true → ∀ t ∈ (s.edge e).targets, s.isDone t = true)) :
    Inv G V lev [] [] [] { s with W := W', N := N', D := D' } := by
  have htot : ∀ e, total G [] { s with W := W', N := N', D := D' } e = total G [] s e := by
    intro e
    have := hc e
    simp only [total, depCnt]
    omega
  have hL : ∀ e, Listed s e → Listed { s with W := W', N := N', D := D' } e := by
    intro e he
    have h1 := hc e
    by_contra hn
    simp only [Listed, not_or] at hn
    have a1 := List.count_eq_zero.2 hn.1
    have a2 := List.count_eq_zero.2 hn.2.1
    have a3 := List.count_eq_zero.2 hn.2.2
    rcases he with he | he | he <;> have := List.count_pos_iff.2 he <;> omega
  exact {
    rc := fun e => by rw [htot]; exact h.rc e
    range := fun e => by rw [htot]; exact h.range e
    depT := h.depT
    one := h.one
    czero := h.czero
    tgt := h.tgt
    ns := h.ns
    clos := h.clos
    pend := fun e h1 h2 h3 h4 => (h.pend e h1 h2 h3 h4).imp (hL e) id
    wait := h.wait
    known := h.known
    relW := fun e hm => by
      rcases hW e hm with h1 | h1
      · exact h.relW e h1
      · exact h1
    relN := fun e hm => h.relN e (hN e hm)
    relD := fun e hm => by
      rcases hD e hm with h1 | h1
      · exact h.relD e h1
      · exact h1
    uniq := fun e hn => Nat.le_trans (hle e) (h.uniq e hn)
    dist := h.dist
    distLe := h.distLe
    depD := h.depD
    stat := fun e hs => hL e (h.stat e hs) }

/-- A decided negated edge has only targets with final values. -/
theorem Inv.decided_done (hl : G.Layered lev) (h : Inv G V lev [] [] [] s) {e : EId κ} (hm : e ∈ s.N)
    (hd : s.decided e = true) : ∀ t ∈ (s.edge e).targets, s.isDone t = true := by
  have hpos := total_pos_of_listed (G := G) (H := []) (.inr (.inl hm))
  obtain ⟨hu, hr⟩ := h.range e hpos
  have hrc := h.refcnt_pos hpos
  obtain ⟨t0, ht0⟩ := neg_single hl hr (h.relN e hm).1
  have hsub := (h.tgt e (by omega) hu hr).1
  intro t ht
  unfold St.decided at hd
  rw [Bool.or_eq_true] at hd
  rcases hd with hd | hd
  · rw [List.all_eq_true] at hd
    rw [isDone_iff]
    left; simpa using hd t ht
  · rw [List.any_eq_true] at hd
    obtain ⟨t', h1, h2⟩ := hd
    have h3 := hsub t ht
    have h4 := hsub t' h1
    rw [ht0, List.mem_singleton] at h3 h4
    rw [isDone_iff, h3, ← h4]
    right; simpa using h2

theorem Inv.trivialNegation (hl : G.Layered lev) (h : Inv G V lev [] [] [] s) :
    Inv G V lev [] [] [] s.trivialNegation := by
  have hp := splitSkip_perm s.decided s.N
  have hcnt : ∀ e, (splitSkip s.decided s.N).1.count e + (splitSkip s.decided s.N).2.count e = s.N.count e := by
    intro e; rw [← List.count_append]; exact hp.count_eq e
  unfold St.trivialNegation
  refine h.move (W' := s.W) (fun e => ?_) (fun e => ?_) (fun e he => ?_) (fun e he => .inl he) (fun e he => ?_)
  · rw [List.count_append, List.count_reverse]
    have := hcnt e; omega
  · have := hcnt e; omega
  · exact hp.subset (List.mem_append_right _ he)
  · rcases List.mem_append.1 he with he | he
    · right
      intro _
      have he := List.mem_reverse.1 he
      exact h.decided_done hl (hp.subset (List.mem_append_left _ he)) (splitSkip_mem _ _ e he)
    · exact .inl he

theorem maxDistance_ge (s : St κ) {e : EId κ} (he : e ∈ s.N) (hd : s.isDone e.1 = false) :
    (s.conf e.1).dist ≤ s.maxDistance := by
  have hmono : ∀ (l : List (EId κ)) (m : Nat),
      m ≤ l.foldl (fun m e => if s.isDone e.1 then m else max m (s.conf e.1).dist) m := by
    intro l
    induction l with
    | nil => exact fun m => Nat.le_refl m
    | cons x l ih =>
      intro m
      rw [List.foldl_cons]
      refine Nat.le_trans ?_ (ih _)
      split <;> omega
  have key : ∀ (l : List (EId κ)) (m : Nat), e ∈ l →
      (s.conf e.1).dist ≤ l.foldl (fun m e => if s.isDone e.1 then m else max m (s.conf e.1).dist) m := by
    intro l
    induction l with
    | nil => exact fun m h => by cases h
    | cons x l ih =>
      intro m hm
      rw [List.foldl_cons]
      rcases List.mem_cons.1 hm with rfl | hm
      · refine Nat.le_trans ?_ (hmono l _)
        rw [hd]; exact Nat.le_max_right _ _
      · exact ih _ hm
  exact key s.N 0 he

/-- When no edge is waiting, the unfinished configurations above the level of all delayed negated edges
have the value false. -/
theorem Inv.level_false (hl : G.Layered lev) (hV : G.Solution V) (h : Inv G V lev [] [] [] s)
    (hW : s.W = []) (hD : s.D = []) {d : Nat}
    (hd : ∀ e ∈ s.N, s.asg e.1 = .zero → lev e.1 < d) {c : κ} (hz : s.asg c = .zero) (hc : d ≤ lev c) :
    ¬ V c := by
  intro hv
  have key := hV.least (fun x => V x ∧ ¬ (s.asg x = .zero ∧ d ≤ lev x)) (by
    rintro v ⟨x, hx, hf⟩
    have hfV : x.Fires V V := by
      unfold HEdge.Fires at hf ⊢
      split
      · rename_i hn; rw [if_pos hn] at hf; exact hf
      · rename_i hn; rw [if_neg hn] at hf; exact fun t ht => (hf t ht).1
    refine ⟨(hV.fix v).2 ⟨x, hx, hfV⟩, ?_⟩
    rintro ⟨hz, hlv⟩
    obtain ⟨i, hi, hxi⟩ := List.getElem_of_mem hx
    have hr : inRange G (v, i) := hi
    have hor : G.orig (v, i) = some x := by simp [Graph.orig, hi, hxi]
    have hng : G.isNeg (v, i) = x.neg := by simp only [Graph.isNeg, hor]
    have hot : G.origTargets (v, i) = x.targets := by simp only [Graph.origTargets, hor]
    unfold HEdge.Fires at hf
    cases ho : s.isOpen (v, i) with
    | false =>
      have := h.clos (v, i) hz hr ho
      unfold Refuted at this
      rw [hng, hot] at this
      split at hf
      · rename_i hn
        rw [if_pos hn] at this
        obtain ⟨t, ht, hnt⟩ := hf
        exact hnt (h.one t (this t ht))
      · rename_i hn
        rw [if_neg hn] at this
        obtain ⟨t, ht, hcz⟩ := this
        exact h.czero t hcz (hf t ht).1
    | true =>
      rcases h.pend (v, i) hz hr ho (by simp) with h1 | ⟨h1, t, h2, h3, h4⟩
      · rcases h1 with h1 | h1 | h1
        · rw [hW] at h1; cases h1
        · have := hd _ h1 hz
          simp only at this; omega
        · rw [hD] at h1; cases h1
      · rw [hng] at h1
        rw [if_neg (by rw [h1]; simp)] at hf
        have h5 := h.depT t _ h4
        rw [hot] at h5
        refine (hf t h5).2 ⟨h3, ?_⟩
        rw [hl.pos v x hx h1 t h5]; exact hlv) c hv
  exact key.2 ⟨hz, hc⟩

theorem Inv.releaseNegationEdges (hl : G.Layered lev) (hV : G.Solution V) (h : Inv G V lev [] [] [] s)
    (hW : s.W = []) (hD : s.D = []) :
    Inv G V lev [] [] [] (s.releaseNegationEdges s.maxDistance) := by
  have hp := splitSkip_perm (fun e => decide ((s.conf e.1).dist ≥ s.maxDistance) || s.isDone e.1) s.N
  have hm := splitSkip_mem (fun e => decide ((s.conf e.1).dist ≥ s.maxDistance) || s.isDone e.1) s.N
  unfold St.releaseNegationEdges
  simp only
  generalize splitSkip (fun e => decide ((s.conf e.1).dist ≥ s.maxDistance) || s.isDone e.1) s.N = r at *
  have hcnt : ∀ e, r.1.count e + r.2.count e = s.N.count e := by
    intro e; rw [← List.count_append]; exact hp.count_eq e
  refine h.move (D' := s.D) (fun e => ?_) (fun e => ?_) (fun e he => ?_) (fun e he => ?_)
    (fun e he => .inl he)
  · rw [List.count_append]; have := hcnt e; omega
  · rw [List.count_append]; have := hcnt e; omega
  · exact hp.subset (List.mem_append_right _ he)
  · rcases List.mem_append.1 he with he | he
    · exact .inl he
    · right
      intro hn hpr t ht hz hz2
      have hmN : e ∈ s.N := hp.subset (List.mem_append_left _ he)
      have hpos := total_pos_of_listed (G := G) (H := []) (.inr (.inl hmN))
      obtain ⟨hu, hr⟩ := h.range e hpos
      have hrc := h.refcnt_pos hpos
      have h1 := hm e he
      rw [zero_not_done hz2] at h1
      simp only [Bool.or_false, decide_eq_true_eq, h.dist _ hu] at h1
      have hlt := lev_target hl hr ((h.tgt e (by omega) hu hr).1 t ht)
      rw [hn] at hlt
      simp only [if_true] at hlt
      refine h.level_false hl hV hW hD (d := s.maxDistance + 1) (fun e' he' hz' => ?_) hz (by omega)
      have := maxDistance_ge s he' (zero_not_done hz')
      rw [h.dist e'.1 (by rw [hz']; simp)] at this
      omega

theorem initInv : Inv G V lev [] [] [] ({} : St κ) := by
  have ht : ∀ e, total G [] ({} : St κ) e = 0 := by intro e; simp [total, depCnt]
  exact {
    rc := fun e => .inr (by rw [ht]; rfl)
    range := fun e he => by rw [ht] at he; omega
    depT := fun t e he => by cases he
    one := fun c h => by cases h
    czero := fun c h => by cases h
    tgt := fun e _ h => absurd rfl h
    ns := fun c h => by cases h
    clos := fun e h => by cases h
    pend := fun e h => by cases h
    wait := fun e h => by cases h
    known := fun e _ _ t ht => by cases ht
    relW := fun e he => by cases he
    relN := fun e he => by cases he
    relD := fun e he => by cases he
    uniq := fun e _ => by simp
    dist := fun c h => absurd rfl h
    distLe := fun c => Nat.zero_le _
    depD := fun t e he => by cases he
    stat := fun e h => absurd rfl h }

/-- The state before the loop. -/
theorem Inv.start (hl : G.Layered lev) (hV : G.Solution V) (addr : EId κ → Nat) {root : κ} (h0 : lev root = 0) :
    Inv G V lev [] [] [] (({} : St κ).explore G addr root) ∧
      (({} : St κ).explore G addr root).asg root ≠ .unknown := by
  obtain ⟨h1, h2⟩ := (initInv (G := G) (V := V) (lev := lev)).explore hl hV addr (K := []) (c := root)
    rfl h0.symm (by simp) (by simp) (by simp) (by simp)
  exact ⟨h1, h2.known⟩

/-- When all lists are empty, the unfinished configurations have the value false. -/
theorem Inv.answer (hl : G.Layered lev) (hV : G.Solution V) (h : Inv G V lev [] [] [] s) {c : κ}
    (hk : s.asg c ≠ .unknown) (he : s.isDone c = true ∨ (s.W = [] ∧ s.N = [] ∧ s.D = [])) :
    (s.asg c == .one) = true ↔ V c := by
  have hb : (s.asg c == .one) = true ↔ s.asg c = .one := beq_iff_eq
  rw [hb]
  refine ⟨h.one c, fun hv => ?_⟩
  cases hc : s.asg c with
  | one => rfl
  | unknown => exact absurd hc hk
  | czero => exact absurd hv (h.czero c hc)
  | zero =>
    rcases he with he | ⟨h1, h2, h3⟩
    · rw [zero_not_done hc] at he; cases he
    · exact absurd hv (h.level_false hl hV h1 h3 (d := 0) (fun e hm => by rw [h2] at hm; cases hm) hc
        (Nat.zero_le _))

end CTL
end Verif
