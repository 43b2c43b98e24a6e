import Verif.CTL.LocalInv

/-!
# Soundness and termination of the local fixed-point algorithm
-/

namespace Verif
namespace CTL

set_option linter.unusedSectionVars false
set_option linter.unusedSimpArgs false

variable {κ : Type} [DecidableEq κ]

open St

variable {G : Graph κ} {V : κ → Prop} {lev : κ → Nat} {H K : List (EId κ)} {s : St κ}

/-- What is known about an edge that has just been popped. -/
structure LPopped (G : Graph κ) (V : κ → Prop) (s : St κ) (e : EId κ) : Prop where
  src : s.asg e.1 ≠ .unknown
  range : inRange G e
  rc : 0 ≤ (s.edge e).refcnt
  neg : G.isNeg e = true → (e ∉ s.W ∧ e ∉ s.N) ∨ ∀ t ∈ G.origTargets e, s.asg t = .one
  false : G.isNeg e = true → (s.edge e).processed = true → ∀ t ∈ G.origTargets e, s.asg t = .zero →
    s.asg e.1 = .zero → ¬ V t

theorem LInv.takeOff (h : LInv G V lev [] [] s) {e : EId κ} {W' D' : List (EId κ)}
    (hl : (W' = s.W ∧ s.D = e :: D') ∨ ((e :: W').Perm s.W ∧ D' = s.D)) :
    LInv G V lev [] [e] (({ s with W := W', D := D' }.deref e).upE e fun r => { r with status := 0 }) ∧
    LPopped G V (({ s with W := W', D := D' }.deref e).upE e fun r => { r with status := 0 }) e := by
  have hmem : Listed s e := by
    rcases hl with h1 | h1
    · right; right; rw [h1.2]; simp
    · left; rw [← h1.1.mem_iff]; simp
  have hpos := total_pos_of_listed (G := G) (H := []) hmem
  obtain ⟨hu, hr⟩ := h.range e hpos
  have hrc : (s.edge e).refcnt = (total G [] s e : Int) := by
    rcases h.rc e with h1 | h1
    · omega
    · exact h1
  have hcnt : ∀ x, W'.count x + D'.count x + (if x = e then 1 else 0) = s.W.count x + s.D.count x := by
    intro x
    have hone : ∀ l : List (EId κ), (e :: l).count x = l.count x + if x = e then 1 else 0 := by
      intro l
      rw [List.count_cons]
      by_cases hxe : x = e
      · simp [hxe]
      · simp [hxe, Ne.symm hxe]
    rcases hl with h1 | h1
    · have := hone D'
      rw [h1.1, h1.2]; omega
    · have := h1.1.count_eq x
      have := hone W'
      rw [h1.2]; omega
  have hWle : ∀ x, W'.count x ≤ s.W.count x := by
    intro x
    rcases hl with h1 | h1
    · rw [h1.1]; exact Nat.le_refl _
    · have := h1.1.count_eq x
      have h2 : W'.count x ≤ (e :: W').count x := List.count_le_count_cons
      omega
  have hDle : ∀ x, D'.count x ≤ s.D.count x := by
    intro x
    rcases hl with h1 | h1
    · rw [h1.2]; exact List.count_le_count_cons
    · rw [h1.2]; exact Nat.le_refl _
  have hWm : ∀ x ∈ W', x ∈ s.W := fun x hx => by
    have := List.count_pos_iff.2 hx
    exact List.count_pos_iff.1 (Nat.lt_of_lt_of_le this (hWle x))
  have hDm : ∀ x ∈ D', x ∈ s.D := fun x hx => by
    have := List.count_pos_iff.2 hx
    exact List.count_pos_iff.1 (Nat.lt_of_lt_of_le this (hDle x))
  generalize hs' : (({ s with W := W', D := D' }.deref e).upE e fun r => { r with status := 0 }) = s'
  have hedge : s'.edge e = { s.edge e with status := 0, refcnt := (s.edge e).refcnt - 1 } := by
    subst hs'
    simp [St.deref]
  have hne : ∀ e', e' ≠ e → s'.edge e' = s.edge e' := by
    intro e' hne; subst hs'
    simp [St.deref, upE_ne _ hne]
  have hconf : s'.conf = s.conf := by subst hs'; rfl
  have hW' : s'.W = W' := by subst hs'; rfl
  have hD' : s'.D = D' := by subst hs'; rfl
  have hN' : s'.N = s.N := by subst hs'; rfl
  have hasg : s'.asg = s.asg := by funext c; simp only [St.asg, hconf]
  have htot : total G [] s' e + 1 = total G [] s e := by
    have := hcnt e
    simp only [total, hW', hD', hN', depCnt_congr (G := G) (s := s) (s' := s') (fun t => by rw [hconf]) e]
    simp at this ⊢
    omega
  have hne1 : ∀ e', e' ≠ e → W'.count e' = s.W.count e' ∧ D'.count e' = s.D.count e' := by
    intro e' hne
    have := hcnt e'
    rw [if_neg hne] at this
    have := hWle e'; have := hDle e'
    omega
  refine ⟨?_, ?_⟩
  · refine h.edgeOp e hconf hne (fun e' hee => by rw [hW']; exact (hne1 e' hee).1) (fun e' _ => by rw [hN'])
      (fun e' hee => by rw [hD']; exact (hne1 e' hee).2)
      (fun _ _ => rfl) (fun e' hee => by simp [hee])
      (.inr ?_) (fun _ => ⟨hu, hr⟩) ?_ (fun _ _ hk => absurd (by simp) hk) ?_ ?_ ?_ ?_ ?_ ?_
    · rw [hedge]; simp only; omega
    · intro _; rw [hedge]; exact h.tgt e (by omega)
    · intro h1 h2
      rw [hedge] at h2
      exact h.known e h1 h2
    · intro h1 h2 h3
      rw [hW'] at h1
      rw [hedge] at h3
      exact h.relW e (hWm e h1) h2 h3
    · intro h1
      rw [hN'] at h1
      rw [hedge]
      exact h.relN e h1
    · intro h1 h2
      rw [hD'] at h1
      exact h.relD e (hDm e h1) h2
    · intro h1
      have := h.uniq e h1
      have := hWle e
      rw [hW', hN']; omega
    · intro h1; rw [hedge] at h1; exact absurd rfl h1
  · refine ⟨by rw [hasg]; exact hu, hr, by rw [hedge]; simp only; omega, fun hn => ?_, fun hn hp t ht hz hz2 => ?_⟩
    · rcases hl with h1 | h1
      · right
        rw [hasg]
        exact h.relD e (by rw [h1.2]; simp) hn
      · left
        have h2 := h1.1.count_eq e
        rw [List.count_cons_self] at h2
        have h3 := h.uniq e hn
        rw [hW', hN']
        exact ⟨List.count_eq_zero.1 (by omega), List.count_eq_zero.1 (by omega)⟩
    · rw [hedge] at hp
      rw [hasg] at hz hz2
      rcases hl with h1 | h1
      · have := h.relD e (by rw [h1.2]; simp) hn t ht
        rw [hz] at this; cases this
      · exact h.relW e (by rw [← h1.1.mem_iff]; simp) hn hp t ht hz hz2

theorem LInv.pop {pick : List (EId κ) → Nat} {e : EId κ} {s1 : St κ} (h : LInv G V lev [] [] s)
    (hp : s.popEdge pick = some (e, s1)) : LInv G V lev [] [e] s1 ∧ LPopped G V s1 e := by
  unfold St.popEdge at hp
  simp only at hp
  split at hp
  · rename_i e' D' hD
    simp only [Option.some.injEq, Prod.mk.injEq] at hp
    obtain ⟨rfl, rfl⟩ := hp
    exact h.takeOff (e := e') (W' := s.W) (D' := D') (.inl ⟨rfl, hD⟩)
  · rename_i hD
    split at hp
    · rename_i e' hW
      simp only [Option.some.injEq, Prod.mk.injEq] at hp
      obtain ⟨rfl, rfl⟩ := hp
      obtain ⟨hi, hie⟩ := List.getElem?_eq_some_iff.1 hW
      have hperm : (e' :: s.W.eraseIdx (pick s.W % s.W.length)).Perm s.W := by
        rw [← hie]; exact List.getElem_cons_eraseIdx_perm hi
      exact h.takeOff (e := e') (D' := s.D) (.inr ⟨hperm, rfl⟩)
    · cases hp

/-- The edge is marked as processed and no longer looked at. -/
theorem LInv.finish {e : EId κ} (h : LInv G V lev [] [e] s)
    (hp : s.asg e.1 = .zero → inRange G e → Listed s e ∨ LWait G s e)
    (hk : G.isNeg e = true → ∀ t ∈ G.origTargets e, s.asg t ≠ .unknown)
    (hw : e ∈ s.W → G.isNeg e = true → ∀ t ∈ G.origTargets e, s.asg t = .zero → s.asg e.1 = .zero → ¬ V t) :
    LInv G V lev [] [] (s.upE e fun r => { r with processed := true }) := by
  refine h.edgeOp e rfl (fun e' hne => upE_ne _ hne _) (fun _ _ => rfl) (fun _ _ => rfl) (fun _ _ => rfl)
    (fun _ _ => rfl) (fun e' hne => by simp [hne]) ?_ (h.range e) ?_ (fun hz hr _ => hp hz hr)
    (fun hn _ _ => hk hn) (fun hm hn _ => hw hm hn) ?_ (h.relD e) (h.uniq e) ?_
  · rw [upE_same]; exact h.rc e
  · rw [upE_same]; exact h.tgt e
  · intro hm; exact ⟨(h.relN e hm).1, by rw [upE_same]⟩
  · intro hs; exact h.stat e (by simpa using hs)

/-- A negated edge is delayed and marked as processed. -/
theorem LInv.delay {e : EId κ} (h : LInv G V lev [] [e] s) (hu : s.asg e.1 ≠ .unknown) (hr : inRange G e)
    (hrc : (s.edge e).refcnt ≠ -1) (hn : G.isNeg e = true) (hW : e ∉ s.W) (hN : e ∉ s.N)
    (hz : ∀ t ∈ G.origTargets e, s.asg t = .zero) (hne : G.origTargets e ≠ []) :
    LInv G V lev [] [] ((s.pushNegation e).upE e fun r => { r with processed := true }) := by
  have hrf : (s.edge e).refcnt = (total G [] s e : Int) := by
    rcases h.rc e with ⟨h1, _⟩ | h1
    · exact absurd h1 hrc
    · exact h1
  have htg := h.tgt e hrc hu hr
  have hdec : ((s.upE e fun r => { r with status := 3 }).ref e).decided e = false := by
    unfold St.decided
    have hts : (((s.upE e fun r => { r with status := 3 }).ref e).edge e).targets = G.origTargets e := by
      simpa [St.ref] using htg
    rw [hts]
    simp only [Bool.or_eq_false_iff, List.all_eq_false, List.any_eq_false]
    obtain ⟨t, ht⟩ := List.exists_mem_of_ne_nil _ hne
    refine ⟨⟨t, ht, ?_⟩, fun t ht => ?_⟩
    · show ¬ (s.asg t == .one) = true
      rw [hz t ht]; simp
    · show ¬ (s.asg t == .czero) = true
      rw [hz t ht]; simp
  unfold St.pushNegation
  simp only [hdec, Bool.false_eq_true, if_false]
  generalize hs' : (({ (s.upE e fun r => { r with status := 3 }).ref e with N := s.N ++ [e] } : St κ).upE e
    fun r => { r with processed := true }) = s'
  have hs'' : (({ (s.upE e fun r => { r with status := 3 }).ref e with
    N := ((s.upE e fun r => { r with status := 3 }).ref e).N ++ [e] } : St κ).upE e
    fun r => { r with processed := true }) = s' := hs'
  rw [hs'']
  have hconf : s'.conf = s.conf := by subst hs'; rfl
  have hned : ∀ e', e' ≠ e → s'.edge e' = s.edge e' := by
    intro e' hne; subst hs'; simp [St.ref, upE_ne _ hne]
  have hedge : s'.edge e = { s.edge e with status := 3, refcnt := (s.edge e).refcnt + 1, processed := true } := by
    subst hs'; simp [St.ref]
  have hW' : s'.W = s.W := by subst hs'; rfl
  have hN' : s'.N = s.N ++ [e] := by subst hs'; rfl
  have hD' : s'.D = s.D := by subst hs'; rfl
  have htot : total G [] s' e = total G [] s e + 1 := by
    simp only [total, hW', hN', hD', depCnt_congr (G := G) (s := s) (s' := s') (fun t => by rw [hconf]) e,
      List.count_append, List.count_singleton_self]
    omega
  have hL : Listed s' e := .inr (.inl (by rw [hN']; simp))
  refine h.edgeOp e hconf hned (fun e' _ => by rw [hW'])
    (fun e' hee => by rw [hN', List.count_append]; simp [List.count_cons, Ne.symm hee]) (fun e' _ => by rw [hD'])
    (fun _ _ => rfl) (fun e' hee => by simp [hee]) (.inr ?_) (fun _ => ⟨hu, hr⟩) ?_ (fun _ _ _ => .inl hL)
    (fun _ _ _ t ht => by rw [hz t ht]; simp) (fun hm => by rw [hW'] at hm; exact absurd hm hW)
    (fun _ => ⟨hn, by rw [hedge]⟩) (fun hm => h.relD e (by rw [hD'] at hm; exact hm)) (fun _ => ?_) (fun _ => hL)
  · rw [hedge, htot]; simp only; omega
  · intro _ _ _; rw [hedge]; exact htg
  · rw [hW', hN', List.count_append, List.count_eq_zero.2 hW, List.count_eq_zero.2 hN]; simp

theorem lastUndecided_none {e : EId κ} (h : s.lastUndecided e = none) :
    ∀ t ∈ (s.edge e).targets, s.asg t = .one := by
  have key : ∀ (l : List κ) (a : Option κ),
      l.foldl (fun last c => if s.asg c = .one then last else some c) a = none →
      a = none ∧ ∀ t ∈ l, s.asg t = .one := by
    intro l
    induction l with
    | nil => exact fun a h => ⟨h, by simp⟩
    | cons x l ih =>
      intro a h
      rw [List.foldl_cons] at h
      obtain ⟨h1, h2⟩ := ih _ h
      split at h1
      · rename_i hx
        refine ⟨h1, fun t ht => ?_⟩
        rcases List.mem_cons.1 ht with rfl | ht
        · exact hx
        · exact h2 t ht
      · cases h1
  exact (key _ _ h).2

theorem lastUndecided_some {e : EId κ} {u : κ} (h : s.lastUndecided e = some u) :
    u ∈ (s.edge e).targets ∧ s.asg u ≠ .one := by
  have key : ∀ (l : List κ) (a : Option κ),
      l.foldl (fun last c => if s.asg c = .one then last else some c) a = some u →
      a = some u ∨ (u ∈ l ∧ s.asg u ≠ .one) := by
    intro l
    induction l with
    | nil => exact fun a h => .inl h
    | cons x l ih =>
      intro a h
      rw [List.foldl_cons] at h
      rcases ih _ h with h1 | h1
      · split at h1
        · exact .inl h1
        · rename_i hx
          cases h1
          exact .inr ⟨by simp, hx⟩
      · exact .inr ⟨by simp [h1.1], h1.2⟩
  rcases key _ _ h with h1 | h1
  · cases h1
  · exact h1

theorem fires_of {e : EId κ} (hV : G.Solution V) (hr : inRange G e)
    (h : if G.isNeg e then ∃ t ∈ G.origTargets e, ¬ V t else ∀ t ∈ G.origTargets e, V t) : V e.1 := by
  obtain ⟨x, hx, hm⟩ := orig_of_range hr
  refine (hV.fix e.1).2 ⟨x, hm, ?_⟩
  unfold HEdge.Fires
  simp only [Graph.isNeg, Graph.origTargets, hx] at h
  exact h

theorem LInv.handle (hl : G.Layered lev) (hV : G.Solution V) (addr : EId κ → Nat) {e : EId κ}
    (h : LInv G V lev [] [e] s) (hp : LPopped G V s e) : LInv G V lev [] [] (s.localHandle G addr e) := by
  have hrc : (s.edge e).refcnt ≠ -1 := by have := hp.rc; omega
  have htg := h.tgt e hrc hp.src hp.range
  have hassign : V e.1 → LInv G V lev [] [] ((s.localAssign G e.1).upE e fun r => { r with processed := true }) ∨
      ¬ (G.isNeg e = true → ∀ t ∈ G.origTargets e, s.asg t ≠ .unknown) := by
    intro hv
    by_cases hk : (G.isNeg e = true → ∀ t ∈ G.origTargets e, s.asg t ≠ .unknown)
    · left
      obtain ⟨h1, h2⟩ := h.localAssign hl hp.src hv
      generalize s.localAssign G e.1 = s1 at *
      have hasg : ∀ c, s1.asg c = if c = e.1 then .one else s.asg c := by
        intro c
        simp only [St.asg, h2.conf, upC_conf]
        split <;> rfl
      have h1' : s1.asg e.1 = .one := by rw [hasg, if_pos rfl]
      refine h1.finish (fun hz => by rw [h1'] at hz; cases hz) (fun hn t ht => ?_)
        (fun _ _ t _ _ hz => by rw [h1'] at hz; cases hz)
      rw [hasg]; split
      · simp
      · exact hk hn t ht
    · exact .inr hk
  unfold St.localHandle St.localCheck
  refine LInv.release0 ?_ e
  cases hlu : s.lastUndecided e with
  | none =>
    have hall := lastUndecided_none hlu
    rw [htg] at hall
    simp only
    by_cases hn : G.isNeg e = true
    · rw [if_pos hn]
      refine h.finish (fun _ _ => .inr ?_) (fun _ t ht => by rw [hall t ht]; simp)
        (fun _ _ t ht hz => by rw [hall t ht] at hz; cases hz)
      unfold LWait; rw [if_pos hn]; exact hall
    · rw [if_neg hn]
      refine (hassign (fires_of hV hp.range ?_)).resolve_right (fun hc => hc (fun h => absurd h hn))
      rw [if_neg hn]
      exact fun t ht => h.one t (hall t ht)
  | some u =>
    obtain ⟨hu1, hu2⟩ := lastUndecided_some hlu
    rw [htg] at hu1
    simp only
    by_cases hn : G.isNeg e = true
    · rw [if_pos hn]
      split
      · rename_i hpr
        have hk := h.known e hn hpr hp.src
        refine (hassign ?_).resolve_right (fun hc => hc (fun _ => hk))
        have huz : s.asg u = .zero := by
          cases hc : s.asg u
          · exact absurd hc hu2
          · exact absurd hc (hk u hu1)
          · rfl
          · exact absurd hc (h.nocz u)
        cases hc : s.asg e.1
        · exact h.one _ hc
        · exact absurd hc hp.src
        · refine fires_of hV hp.range ?_
          rw [if_pos hn]
          exact ⟨u, hu1, hp.false hn hpr u hu1 huz hc⟩
        · exact absurd hc (h.nocz _)
      · rename_i hpr
        obtain ⟨hWN1, hWN2⟩ := (hp.neg hn).resolve_right (fun hc => hu2 (hc u hu1))
        obtain ⟨h1, h2, h3, h4, h5, h6, h7⟩ := h.visit hl addr hp.src hp.range hrc hu1 hu2
        obtain ⟨t0, ht0⟩ := neg_single hl hp.range hn
        refine h1.delay (by rw [h4 _ hp.src]; exact hp.src) hp.range h5 hn (fun hm => hWN1 (h6 hm))
          (by rw [h7]; exact hWN2) (fun t ht => ?_) (by rw [ht0]; simp)
        rw [ht0, List.mem_singleton] at ht hu1
        rw [ht, ← hu1]; exact h3
    · rw [if_neg hn]
      obtain ⟨h1, h2, h3, h4, h5, h6, h7⟩ := h.visit hl addr hp.src hp.range hrc hu1 hu2
      refine h1.finish (fun _ _ => .inr ?_) (fun hc => absurd hc hn) (fun _ hc => absurd hc hn)
      unfold LWait; rw [if_neg hn]
      exact ⟨u, hu1, h3, h2⟩

/-! ### Moving negated edges -/

theorem LInv.move (h : LInv G V lev [] [] s) {W' N' D' : List (EId κ)}
    (hc : ∀ e, W'.count e + N'.count e + D'.count e = s.W.count e + s.N.count e + s.D.count e)
    (hle : ∀ e, W'.count e + N'.count e ≤ s.W.count e + s.N.count e)
    (hN : ∀ e ∈ N', e ∈ s.N)
    (hW : ∀ e ∈ W', e ∈ s.W ∨ (G.isNeg e = true → (s.edge e).processed = true →
      ∀ t ∈ G.origTargets e, s.asg t = .zero → s.asg e.1 = .zero → ¬ V t))
    (hD : ∀ e ∈ D', e ∈ s.D ∨ (G.isNeg e = true → ∀ t ∈ G.origTargets e, s.asg t = .one)) :
    LInv G V lev [] [] { s with W := W', N := N', D := D' } := by
  have htot : ∀ e, total G [] { s with W := W', N := N', D := D' } e = total G [] s e := by
    intro e
    have := hc e
    simp only [total, depCnt]
    omega
  have hL : ∀ e, Listed s e → Listed { s with W := W', N := N', D := D' } e := by
    intro e he
    have h1 := hc e
    by_contra hn
    simp only [Listed, not_or] at hn
    have a1 := List.count_eq_zero.2 hn.1
    have a2 := List.count_eq_zero.2 hn.2.1
    have a3 := List.count_eq_zero.2 hn.2.2
    rcases he with he | he | he <;> have := List.count_pos_iff.2 he <;> omega
  exact {
    rc := fun e => by rw [htot]; exact h.rc e
    range := fun e => by rw [htot]; exact h.range e
    depT := h.depT
    one := h.one
    nocz := h.nocz
    tgt := h.tgt
    depOne := h.depOne
    pend := fun e h1 h2 h3 => (h.pend e h1 h2 h3).imp (hL e) id
    known := h.known
    relW := fun e hm => by
      rcases hW e hm with h1 | h1
      · exact h.relW e h1
      · exact h1
    relN := fun e hm => h.relN e (hN e hm)
    relD := fun e hm => by
      rcases hD e hm with h1 | h1
      · exact h.relD e h1
      · exact h1
    uniq := fun e hn => Nat.le_trans (hle e) (h.uniq e hn)
    dist := h.dist
    distLe := h.distLe
    stat := fun e hs => hL e (h.stat e hs) }

theorem LInv.trivialNegation (h : LInv G V lev [] [] s) : LInv G V lev [] [] s.trivialNegation := by
  have hp := splitSkip_perm s.decided s.N
  have hcnt : ∀ e, (splitSkip s.decided s.N).1.count e + (splitSkip s.decided s.N).2.count e = s.N.count e := by
    intro e; rw [← List.count_append]; exact hp.count_eq e
  unfold St.trivialNegation
  refine h.move (W' := s.W) (fun e => ?_) (fun e => ?_) (fun e he => ?_) (fun e he => .inl he) (fun e he => ?_)
  · rw [List.count_append, List.count_reverse]
    have := hcnt e; omega
  · have := hcnt e; omega
  · exact hp.subset (List.mem_append_right _ he)
  · rcases List.mem_append.1 he with he | he
    · right
      intro _ t ht
      have he := List.mem_reverse.1 he
      have hm : e ∈ s.N := hp.subset (List.mem_append_left _ he)
      have hpos := total_pos_of_listed (G := G) (H := []) (.inr (.inl hm))
      obtain ⟨hu, hr⟩ := h.range e hpos
      have hrc := h.refcnt_pos hpos
      have hd := splitSkip_mem _ _ e he
      unfold St.decided at hd
      rw [h.tgt e (by omega) hu hr, Bool.or_eq_true, List.all_eq_true, List.any_eq_true] at hd
      rcases hd with hd | ⟨t', _, hd⟩
      · simpa using hd t ht
      · exact absurd (by simpa using hd) (h.nocz t')
    · exact .inl he

/-- When no edge is waiting, the unfinished configurations above the level of all delayed negated edges
have the value false. -/
theorem LInv.level_false (hl : G.Layered lev) (hV : G.Solution V) (h : LInv G V lev [] [] s)
    (hW : s.W = []) (hD : s.D = []) {d : Nat}
    (hd : ∀ e ∈ s.N, s.asg e.1 = .zero → lev e.1 < d) {c : κ} (hz : s.asg c = .zero) (hc : d ≤ lev c) :
    ¬ V c := by
  intro hv
  have key := hV.least (fun x => V x ∧ ¬ (s.asg x = .zero ∧ d ≤ lev x)) (by
    rintro v ⟨x, hx, hf⟩
    have hfV : x.Fires V V := by
      unfold HEdge.Fires at hf ⊢
      split
      · rename_i hn; rw [if_pos hn] at hf; exact hf
      · rename_i hn; rw [if_neg hn] at hf; exact fun t ht => (hf t ht).1
    refine ⟨(hV.fix v).2 ⟨x, hx, hfV⟩, ?_⟩
    rintro ⟨hz, hlv⟩
    obtain ⟨i, hi, hxi⟩ := List.getElem_of_mem hx
    have hr : inRange G (v, i) := hi
    have hor : G.orig (v, i) = some x := by simp [Graph.orig, hi, hxi]
    have hng : G.isNeg (v, i) = x.neg := by simp only [Graph.isNeg, hor]
    have hot : G.origTargets (v, i) = x.targets := by simp only [Graph.origTargets, hor]
    unfold HEdge.Fires at hf
    rcases h.pend (v, i) hz hr (by simp) with h1 | h1
    · rcases h1 with h1 | h1 | h1
      · rw [hW] at h1; cases h1
      · have := hd _ h1 hz
        simp only at this; omega
      · rw [hD] at h1; cases h1
    · unfold LWait at h1
      rw [hng, hot] at h1
      split at hf
      · rename_i hn
        rw [if_pos hn] at h1
        obtain ⟨t, ht, hnt⟩ := hf
        exact hnt (h.one t (h1 t ht))
      · rename_i hn
        rw [if_neg hn] at h1
        obtain ⟨t, ht, htz, _⟩ := h1
        refine (hf t ht).2 ⟨htz, ?_⟩
        rw [hl.pos v x hx (by simpa using hn) t ht]; exact hlv) c hv
  exact key.2 ⟨hz, hc⟩

theorem LInv.releaseNegationEdges (hl : G.Layered lev) (hV : G.Solution V) (h : LInv G V lev [] [] s)
    (hW : s.W = []) (hD : s.D = []) :
    LInv G V lev [] [] (s.releaseNegationEdges s.maxDistance) := by
  have hp := splitSkip_perm (fun e => decide ((s.conf e.1).dist ≥ s.maxDistance) || s.isDone e.1) s.N
  have hm := splitSkip_mem (fun e => decide ((s.conf e.1).dist ≥ s.maxDistance) || s.isDone e.1) s.N
  unfold St.releaseNegationEdges
  simp only
  generalize splitSkip (fun e => decide ((s.conf e.1).dist ≥ s.maxDistance) || s.isDone e.1) s.N = r at *
  have hcnt : ∀ e, r.1.count e + r.2.count e = s.N.count e := by
    intro e; rw [← List.count_append]; exact hp.count_eq e
  refine h.move (D' := s.D) (fun e => ?_) (fun e => ?_) (fun e he => ?_) (fun e he => ?_)
    (fun e he => .inl he)
  · rw [List.count_append]; have := hcnt e; omega
  · rw [List.count_append]; have := hcnt e; omega
  · exact hp.subset (List.mem_append_right _ he)
  · rcases List.mem_append.1 he with he | he
    · exact .inl he
    · right
      intro hn hpr t ht hz hz2
      have hmN : e ∈ s.N := hp.subset (List.mem_append_left _ he)
      have hpos := total_pos_of_listed (G := G) (H := []) (.inr (.inl hmN))
      obtain ⟨hu, hr⟩ := h.range e hpos
      have h1 := hm e he
      rw [zero_not_done hz2] at h1
      simp only [Bool.or_false, decide_eq_true_eq, h.dist _ hu] at h1
      have hlt := lev_target hl hr ht
      rw [hn] at hlt
      simp only [if_true] at hlt
      refine h.level_false hl hV hW hD (d := s.maxDistance + 1) (fun e' he' hz' => ?_) hz (by omega)
      have := maxDistance_ge s he' (zero_not_done hz')
      rw [h.dist e'.1 (by rw [hz']; simp)] at this
      omega

theorem initLInv : LInv G V lev [] [] ({} : St κ) := by
  have ht : ∀ e, total G [] ({} : St κ) e = 0 := by intro e; simp [total, depCnt]
  exact {
    rc := fun e => .inr (by rw [ht]; rfl)
    range := fun e he => by rw [ht] at he; omega
    depT := fun t e he => by cases he
    one := fun c h => by cases h
    nocz := fun c h => by cases h
    tgt := fun e _ h => absurd rfl h
    depOne := fun t h => by cases h
    pend := fun e h => by cases h
    known := fun e _ h => by cases h
    relW := fun e he => by cases he
    relN := fun e he => by cases he
    relD := fun e he => by cases he
    uniq := fun e _ => by simp
    dist := fun c h => absurd rfl h
    distLe := fun c => Nat.zero_le _
    stat := fun e h => absurd rfl h }

theorem LInv.start {root : κ} (h0 : lev root = 0) : LInv G V lev [] [] (({} : St κ).localExplore G root) ∧
    (({} : St κ).localExplore G root).asg root ≠ .unknown ∧
    ∀ c, (({} : St κ).localExplore G root).asg c ≠ .unknown → c = root := by
  have h1 : LInv G V lev [] [] (({} : St κ).localExplore G root) :=
    (initLInv (G := G) (V := V) (lev := lev)).explore (c := root) rfl h0.symm
  obtain ⟨a, _⟩ := (initLInv (G := G) (V := V) (lev := lev)).explore_eq (c := root) rfl
  refine ⟨h1, by rw [a, if_pos rfl]; simp, fun c hc => ?_⟩
  rw [a] at hc
  split at hc
  · assumption
  · exact absurd rfl hc

theorem noEdges_iff : s.noEdges = true ↔ s.W = [] ∧ s.N = [] ∧ s.D = [] := by
  simp [St.noEdges, and_assoc]

theorem LInv.answer (hl : G.Layered lev) (hV : G.Solution V) (h : LInv G V lev [] [] s) {c : κ}
    (hk : s.asg c ≠ .unknown) (he : s.noEdges = true) : (s.asg c == .one) = true ↔ V c := by
  obtain ⟨hW, hN, hD⟩ := noEdges_iff.1 he
  rw [beq_iff_eq]
  refine ⟨h.one c, fun hv => ?_⟩
  cases hc : s.asg c
  · rfl
  · exact absurd hc hk
  · exact absurd hv (h.level_false hl hV hW hD (d := 0) (by rw [hN]; simp) hc (Nat.zero_le _))
  · exact absurd hc (h.nocz c)

/-! ### Progress of one popped edge -/

variable {T : κ → Prop}

theorem localNotify_prog (e : EId κ) : Prog T s (s.localNotify G e) := by
  unfold St.localNotify
  refine Prog.trans (s' := (if G.isNeg e then s.pushNegation e else s.pushDependency e).deref e) ?_
    (releaseIf0_prog e)
  split
  · unfold St.pushNegation
    simp only
    split <;> exact push_prog rfl (fun e' hee => by simp [St.ref, upE_ne _ hee]) (by simp [St.ref])
      (by simp [St.ref])
  · unfold St.pushDependency
    split
    · exact deref_prog e
    · exact push_prog rfl (fun e' hee => by simp [St.ref, upE_ne _ hee]) (by simp [St.ref]) (by simp [St.ref])

theorem localAssign_prog {c : κ} (hk : s.asg c ≠ .unknown) :
    Prog T s (s.localAssign G c) ∧ (s.localAssign G c).isDone c = true := by
  unfold St.localAssign
  have h1 : Prog T s (s.upC c fun r => { r with asg := .one, deps := [] }) := by
    have hasg : ∀ c', (s.upC c fun r => { r with asg := .one, deps := [] }).asg c' =
        if c' = c then .one else s.asg c' := by
      intro c'; simp only [St.asg, upC_conf]; split <;> rfl
    refine ⟨fun c' h => ?_, fun c' h => ?_, fun e _ h => h, fun c' h => ?_⟩
    · rw [hasg]; split
      · simp
      · exact h
    · rw [isDone_iff] at h ⊢
      rw [hasg]; split
      · exact .inl rfl
      · exact h
    · rw [hasg] at h
      split at h
      · rename_i hc; rw [hc]; exact .inl hk
      · exact .inl h
  have h2 := foldl_prog (T := T) (f := St.localNotify G) (fun s e => localNotify_prog e) (s.conf c).deps
    (s.upC c fun r => { r with asg := .one, deps := [] })
  refine ⟨h1.trans h2, h2.done c ?_⟩
  rw [isDone_iff]
  simp [St.asg]

theorem LInv.explore_prog (h : LInv G V lev H K s) {c : κ} (hu : s.asg c = .unknown) (hT : T c) :
    Prog T s (s.localExplore G c) ∧ (s.localExplore G c).asg c ≠ .unknown := by
  obtain ⟨a, _, _, _, _, f⟩ := h.explore_eq hu
  refine ⟨⟨fun c' h1 => ?_, fun c' h1 => ?_, fun e h1 h2 => ?_, fun c' h1 => ?_⟩, ?_⟩
  · rw [a]; split
    · simp
    · exact h1
  · rw [isDone_iff] at h1 ⊢
    rw [a, if_neg]
    · exact h1
    · rintro rfl; rw [hu] at h1; rcases h1 with h1 | h1 <;> cases h1
  · unfold Spent at h2 ⊢
    rw [f, if_neg]
    · exact h2
    · intro hm
      rw [(mem_succIds.1 hm).1] at h1; exact h1 hu
  · rw [a] at h1
    split at h1
    · rename_i hc; rw [hc]; exact .inr hT
    · exact .inl h1
  · rw [a, if_pos rfl]; simp

theorem LInv.handle_prog (hl : G.Layered lev) (addr : EId κ → Nat) {e : EId κ}
    (h : LInv G V lev [] [e] s) (hp : LPopped G V s e) :
    Prog (· ∈ (s.edge e).targets) s (s.localHandle G addr e) ∧
      (SameLists s (s.localHandle G addr e) ∨ Strict s (s.localHandle G addr e) e) := by
  have hrc : (s.edge e).refcnt ≠ -1 := by have := hp.rc; omega
  have htg := h.tgt e hrc hp.src hp.range
  have tailP : ∀ {T : κ → Prop} {s1 : St κ},
      Prog T s1 ((s1.upE e fun r => { r with processed := true }).releaseIf0 e) := fun {T s1} =>
    Prog.trans (s' := s1.upE e fun r => { r with processed := true }) (upE_prog (fun _ => .inl rfl))
      (releaseIf0_prog e)
  have tailL : ∀ {s1 : St κ},
      SameLists s1 ((s1.upE e fun r => { r with processed := true }).releaseIf0 e) := fun {s1} =>
    SameLists.trans (s' := s1.upE e fun r => { r with processed := true }) ⟨rfl, rfl, rfl⟩ (releaseIf0_lists e)
  have tailS : ∀ {s1 : St κ},
      Spent ((s1.upE e fun r => { r with processed := true }).releaseIf0 e) e := fun {s1} => by
    have := (releaseIf0_prog (T := fun _ => True) (s := s1.upE e fun r => { r with processed := true }) e)
    unfold St.releaseIf0
    split
    · right; simp [St.release]
    · left; simp
  have hassign : Prog (· ∈ (s.edge e).targets) s
        (((s.localAssign G e.1).upE e fun r => { r with processed := true }).releaseIf0 e) ∧
      (SameLists s (((s.localAssign G e.1).upE e fun r => { r with processed := true }).releaseIf0 e) ∨
        Strict s (((s.localAssign G e.1).upE e fun r => { r with processed := true }).releaseIf0 e) e) := by
    obtain ⟨h1, h2⟩ := localAssign_prog (G := G) (T := (· ∈ (s.edge e).targets)) hp.src
    refine ⟨h1.trans tailP, ?_⟩
    cases hd : s.isDone e.1 with
    | false => exact .inr (.inl ⟨hd, (tailP (T := fun _ => True)).done _ h2⟩)
    | true =>
      left
      have hone : s.asg e.1 = .one := by
        rcases (isDone_iff _ _).1 hd with h3 | h3
        · exact h3
        · exact absurd h3 (h.nocz _)
      refine SameLists.trans ?_ tailL
      unfold St.localAssign
      rw [h.depOne _ hone]
      exact ⟨rfl, rfl, rfl⟩
  have hvisit : ∀ u, u ∈ G.origTargets e → s.asg u ≠ .one →
      Prog (· ∈ (s.edge e).targets) s (s.localVisit G addr e u) ∧
      (SameLists s (s.localVisit G addr e u) ∨
        (s.asg u = .unknown ∧ (s.localVisit G addr e u).asg u ≠ .unknown)) := by
    intro u hu1 hu2
    obtain ⟨h1, h2, h3, h4, h5⟩ := h.addDep hl addr hp.src hp.range hrc hu1 hu2
    obtain ⟨p1, p2, _, _, _, p6⟩ := addDependency_prog (G := G) (T := (· ∈ (s.edge e).targets)) addr (t := u)
      hp.rc
    unfold St.localVisit
    simp only
    split
    · rename_i hk
      obtain ⟨q1, q2⟩ := h1.explore_prog (T := (· ∈ (s.edge e).targets)) hk (by rw [htg]; exact hu1)
      rw [p6] at hk
      exact ⟨p1.trans q1, .inr ⟨hk, q2⟩⟩
    · exact ⟨p1, .inl p2⟩
  unfold St.localHandle St.localCheck
  cases hlu : s.lastUndecided e with
  | none =>
    simp only
    by_cases hn : G.isNeg e = true
    · rw [if_pos hn]
      exact ⟨tailP, .inl tailL⟩
    · rw [if_neg hn]; exact hassign
  | some u =>
    obtain ⟨hu1, hu2⟩ := lastUndecided_some hlu
    have hu1' := hu1
    rw [htg] at hu1
    obtain ⟨v1, v2⟩ := hvisit u hu1 hu2
    simp only
    by_cases hn : G.isNeg e = true
    · rw [if_pos hn]
      split
      · exact hassign
      · rename_i hpr
        refine ⟨(v1.trans ?_).trans tailP, .inr (.inr (.inr ⟨?_, tailS⟩))⟩
        · obtain ⟨_, _, _, _, h5, _, _⟩ := h.visit hl addr hp.src hp.range hrc hu1 hu2
          have h6 : 0 ≤ ((s.localVisit G addr e u).edge e).refcnt := by
            obtain ⟨h1, _⟩ := h.visit hl addr hp.src hp.range hrc hu1 hu2
            rcases h1.rc e with h7 | h7
            · exact absurd h7.1 h5
            · omega
          generalize s.localVisit G addr e u = s1 at *
          have h7 : Prog (· ∈ (s.edge e).targets) s1 ((s1.upE e fun r => { r with status := 3 }).ref e) :=
            Prog.trans (s' := s1.upE e fun r => { r with status := 3 }) (upE_prog (fun h => h))
              (ref_prog (by simpa using h6))
          unfold St.pushNegation
          simp only
          split
          · exact h7.trans (lists_prog rfl rfl)
          · exact h7.trans (lists_prog rfl rfl)
        · rintro (h1 | h1)
          · exact hpr h1
          · have := hp.rc; omega
    · rw [if_neg hn]
      refine ⟨v1.trans tailP, ?_⟩
      rcases v2 with v2 | ⟨v2, v3⟩
      · exact .inl (v2.trans tailL)
      · exact .inr (.inr (.inl ⟨u, hu1', v2, (tailP (T := fun _ => True)).known _ v3⟩))

/-! ### The loop -/

/-- The invariant of the loop: that of the data structures, until the root is ONE. -/
def LLoop (G : Graph κ) (V : κ → Prop) (lev : κ → Nat) (root : κ) (s : St κ) : Prop :=
  (s.asg root = .one ∧ V root) ∨ (LInv G V lev [] [] s ∧ s.asg root ≠ .unknown)

theorem localOuter_asg {root : κ} :
    (match s.localOuter root with
      | .answer b => b = (s.asg root == .one)
      | .cont s' _ => s'.asg = s.asg) := by
  unfold St.localOuter
  simp only
  have h1 : ∀ s1 : St κ, (if s1.D.isEmpty = true then s1.releaseNegationEdges s1.maxDistance else s1).asg = s1.asg := by
    intro s1; split <;> rfl
  have h2 : s.trivialNegation.asg = s.asg := rfl
  have h3 := h1 s.trivialNegation
  rw [h2] at h3
  generalize (if s.trivialNegation.D.isEmpty = true then
    s.trivialNegation.releaseNegationEdges s.trivialNegation.maxDistance else s.trivialNegation) = s2 at *
  by_cases he : s2.noEdges = true
  · rw [if_pos he]; simp only; rw [h3]
  · rw [if_neg he]; exact h3

theorem LLoop.step (hl : G.Layered lev) (hV : G.Solution V) (addr : EId κ → Nat)
    {pick : List (EId κ) → Nat} {root : κ} (h : LLoop G V lev root s) :
    match s.localStep G addr pick root with
    | .answer b => b = true ↔ V root
    | .cont s' _ => LLoop G V lev root s' := by
  have dead : ∀ s1 : St κ, s1.asg root = .one → V root →
      match s1.localOuter root with
      | .answer b => b = true ↔ V root
      | .cont s' _ => LLoop G V lev root s' := by
    intro s1 h1 hv
    have := localOuter_asg (s := s1) (root := root)
    cases hst : s1.localOuter root with
    | answer b =>
      rw [hst] at this
      simp only at this ⊢
      rw [this, h1]; simp [hv]
    | cont s' n =>
      rw [hst] at this
      simp only at this ⊢
      exact .inl ⟨by rw [this]; exact h1, hv⟩
  unfold St.localStep
  cases hp : s.popEdge pick with
  | some r =>
    obtain ⟨e, s1⟩ := r
    simp only
    obtain ⟨_, _, _, _, p5, _, _⟩ := popEdge_prog (T := fun _ => True) hp
    have hasg : s1.asg = s.asg := by funext c; simp only [St.asg, p5]
    by_cases h1 : s1.asg root = .one
    · rw [if_pos h1]
      refine dead s1 h1 ?_
      rcases h with h | h
      · exact h.2
      · rw [hasg] at h1; exact h.1.one _ h1
    · rw [if_neg h1]
      rcases h with h | h
      · rw [hasg] at h1; exact absurd h.1 h1
      · obtain ⟨h2, h3⟩ := h.1.pop hp
        refine .inr ⟨h2.handle hl hV addr h3, (h2.handle_prog hl addr h3).1.known root ?_⟩
        rw [hasg]; exact h.2
  | none =>
    obtain ⟨hW, hD⟩ := popEdge_none hp
    simp only
    rcases h with h | ⟨h, hk⟩
    · exact dead s h.1 h.2
    · unfold St.localOuter
      simp only
      have h1 := h.trivialNegation
      have h2 : LInv G V lev [] [] (if s.trivialNegation.D.isEmpty = true then
          s.trivialNegation.releaseNegationEdges s.trivialNegation.maxDistance else s.trivialNegation) := by
        split
        · rename_i hD1
          exact h1.releaseNegationEdges hl hV hW (by simpa using hD1)
        · exact h1
      have h3 : (if s.trivialNegation.D.isEmpty = true then
          s.trivialNegation.releaseNegationEdges s.trivialNegation.maxDistance
          else s.trivialNegation).asg root ≠ .unknown := by
        split <;> exact hk
      generalize (if s.trivialNegation.D.isEmpty = true then
          s.trivialNegation.releaseNegationEdges s.trivialNegation.maxDistance else s.trivialNegation) = s2 at *
      by_cases he : s2.noEdges = true
      · rw [if_pos he]; exact h2.answer hl hV h3 he
      · rw [if_neg he]; exact .inr ⟨h2, h3⟩

theorem LLoop.run_sound (hl : G.Layered lev) (hV : G.Solution V) (addr : EId κ → Nat) {root : κ} :
    ∀ (fuel : Nat) (pick : Nat → List (EId κ) → Nat) (s : St κ) (b : Bool),
      LLoop G V lev root s → s.localRun G addr root fuel pick = some b → (b = true ↔ V root)
  | 0, _, _, _, _, hr => by cases hr
  | fuel + 1, pick, s, b, h, hr => by
    have hs := h.step hl hV addr (pick := pick 0)
    unfold St.localRun at hr
    cases hst : s.localStep G addr (pick 0) root with
    | answer b' =>
      rw [hst] at hs hr
      simp only [Option.some.injEq] at hr
      rw [← hr]; exact hs
    | cont s' cnt' =>
      rw [hst] at hs hr
      exact LLoop.run_sound hl hV addr fuel _ s' b hs hr

theorem localOuter_decreases {root : κ} (R : List κ) :
    match s.localOuter root with
    | .answer _ => True
    | .cont s' _ => s'.asg = s.asg ∧ todo G R s' ≤ todo G R s ∧ pending s' ≤ pending s ∧
        ((s.W = [] ∧ s.D = []) → pending s' < pending s) := by
  unfold St.localOuter
  simp only
  have b1 : todo G R s.trivialNegation ≤ todo G R s :=
    (trivialNegation_prog (T := fun _ => False)).todo_le R
  have hlen := (splitSkip_perm s.decided s.N).length_eq
  rw [List.length_append] at hlen
  have hlen2 := (splitSkip_perm (fun e => decide ((s.trivialNegation.conf e.1).dist ≥
    s.trivialNegation.maxDistance) || s.trivialNegation.isDone e.1) s.trivialNegation.N).length_eq
  rw [List.length_append] at hlen2
  have b2 : pending s.trivialNegation + (splitSkip s.decided s.N).1.length = pending s := by
    unfold pending St.trivialNegation
    simp only [List.length_append, List.length_reverse]
    omega
  have b3 : ∀ s1 : St κ, pending (s1.releaseNegationEdges s1.maxDistance) +
      (splitSkip (fun e => decide ((s1.conf e.1).dist ≥ s1.maxDistance) || s1.isDone e.1) s1.N).1.length =
      pending s1 := by
    intro s1
    have := (splitSkip_perm (fun e => decide ((s1.conf e.1).dist ≥ s1.maxDistance) || s1.isDone e.1) s1.N).length_eq
    rw [List.length_append] at this
    unfold pending St.releaseNegationEdges
    simp only [List.length_append]
    omega
  by_cases hD1 : s.trivialNegation.D.isEmpty = true
  · rw [if_pos hD1]
    have b4 := b3 s.trivialNegation
    have b5 : todo G R (s.trivialNegation.releaseNegationEdges s.trivialNegation.maxDistance) ≤
        todo G R s.trivialNegation := (releaseNegationEdges_prog (T := fun _ => False) _).todo_le R
    by_cases he : (s.trivialNegation.releaseNegationEdges s.trivialNegation.maxDistance).noEdges = true
    · rw [if_pos he]; trivial
    · rw [if_neg he]
      refine ⟨rfl, Nat.le_trans b5 b1, by omega, fun ⟨hW, hD⟩ => ?_⟩
      have hN2 : s.trivialNegation.N ≠ [] := by
        intro h0
        apply he
        rw [noEdges_iff]
        refine ⟨?_, ?_, by show s.trivialNegation.D = []; simpa using hD1⟩
        · unfold St.releaseNegationEdges
          simp only [h0, splitSkip]
          show s.W ++ [] = []
          rw [hW]; rfl
        · unfold St.releaseNegationEdges
          simp only [h0, splitSkip]
      obtain ⟨e, hm, hpe⟩ := maxDistance_attained s.trivialNegation hN2
      have hne : (splitSkip (fun e => decide ((s.trivialNegation.conf e.1).dist ≥
        s.trivialNegation.maxDistance) || s.trivialNegation.isDone e.1) s.trivialNegation.N).1 ≠ [] := by
        intro h0
        have := splitSkip_nil _ _ h0 e hm
        rw [hpe] at this; cases this
      have := List.length_pos_iff.2 hne
      omega
  · rw [if_neg hD1]
    by_cases he : s.trivialNegation.noEdges = true
    · rw [if_pos he]; trivial
    · rw [if_neg he]
      refine ⟨rfl, b1, by omega, fun ⟨hW, hD⟩ => ?_⟩
      have hne : (splitSkip s.decided s.N).1 ≠ [] := by
        intro h0
        apply hD1
        unfold St.trivialNegation
        simp [h0, hD]
      have := List.length_pos_iff.2 hne
      omega

theorem LLoop.step_decreases (hl : G.Layered lev) (addr : EId κ → Nat)
    {pick : List (EId κ) → Nat} {root : κ} (h : LLoop G V lev root s) {R : List κ}
    (hR : Closed G R) (hin : ∀ c, s.asg c ≠ .unknown → c ∈ R) :
    match s.localStep G addr pick root with
    | .answer _ => True
    | .cont s' _ => (∀ c, s'.asg c ≠ .unknown → c ∈ R) ∧
        (todo G R s' < todo G R s ∨ (todo G R s' ≤ todo G R s ∧ pending s' < pending s)) := by
  unfold St.localStep
  cases hp : s.popEdge pick with
  | some r =>
    obtain ⟨e, s1⟩ := r
    simp only
    obtain ⟨p1, _, p3, p4, p5, _, _⟩ := popEdge_prog (T := fun _ => False) hp
    have hasg : s1.asg = s.asg := by funext c; simp only [St.asg, p5]
    have a1 := p1.todo_le (G := G) R
    have hpend : pending s1 < pending s := by unfold pending; rw [p3]; omega
    by_cases h1 : s1.asg root = .one
    · rw [if_pos h1]
      have := localOuter_decreases (G := G) (s := s1) (root := root) R
      cases hst : s1.localOuter root with
      | answer b => trivial
      | cont s' n =>
        rw [hst] at this
        obtain ⟨c1, c2, c3, _⟩ := this
        exact ⟨fun c hc => hin c (by rw [c1, hasg] at hc; exact hc), .inr ⟨by omega, by omega⟩⟩
    · rw [if_neg h1]
      rcases h with h | h
      · rw [hasg] at h1; exact absurd h.1 h1
      · obtain ⟨h2, h3⟩ := h.1.pop hp
        obtain ⟨q1, q2⟩ := h2.handle_prog hl addr h3
        have htR : ∀ c ∈ (s1.edge e).targets, c ∈ R := by
          intro c hc
          have hrc : (s1.edge e).refcnt ≠ -1 := by have := h3.rc; omega
          rw [h2.tgt e hrc h3.src h3.range] at hc
          obtain ⟨x, hx, hm⟩ := orig_of_range h3.range
          refine hR e.1 (hin _ (by rw [← hasg]; exact h3.src)) x hm c ?_
          simpa only [Graph.origTargets, hx] using hc
        refine ⟨fun c hc => ?_, ?_⟩
        · rcases q1.new c hc with h4 | h4
          · exact hin c (by rw [← hasg]; exact h4)
          · exact htR c h4
        · rcases q2 with q2 | q2
          · right
            refine ⟨Nat.le_trans (q1.todo_le R) a1, ?_⟩
            have : pending (s1.localHandle G addr e) = pending s1 := by
              unfold pending; rw [q2.W, q2.N, q2.D]
            omega
          · left
            have a2 := q1.todo_lt (G := G) (R := R) q2 (hin _ (by rw [← hasg]; exact h3.src)) h3.range h3.src htR
            omega
  | none =>
    have hWD := popEdge_none hp
    simp only
    have := localOuter_decreases (G := G) (s := s) (root := root) R
    cases hst : s.localOuter root with
    | answer b => trivial
    | cont s' n =>
      rw [hst] at this
      obtain ⟨c1, c2, _, c4⟩ := this
      exact ⟨fun c hc => hin c (by rw [c1] at hc; exact hc), .inr ⟨c2, c4 hWD⟩⟩

theorem LLoop.run_terminates (hl : G.Layered lev) (hV : G.Solution V) (addr : EId κ → Nat) {root : κ}
    {R : List κ} (hR : Closed G R) : ∀ (m n : Nat) (s : St κ) (pick : Nat → List (EId κ) → Nat),
    LLoop G V lev root s → (∀ c, s.asg c ≠ .unknown → c ∈ R) → todo G R s ≤ m → pending s ≤ n →
    ∃ fuel b, s.localRun G addr root fuel pick = some b := by
  intro m
  induction m using Nat.strongRecOn with
  | _ m ihm =>
    intro n
    induction n using Nat.strongRecOn with
    | _ n ihn =>
      intro s pick h hin hm hn
      have h1 := h.step hl hV addr (pick := pick 0)
      have h2 := h.step_decreases hl addr (pick := pick 0) hR hin
      cases hst : s.localStep G addr (pick 0) root with
      | answer b =>
        exact ⟨1, b, by unfold St.localRun; rw [hst]⟩
      | cont s' cnt' =>
        rw [hst] at h1 h2
        have : ∃ fuel b, s'.localRun G addr root fuel (fun n => pick (n + 1)) = some b := by
          rcases h2.2 with h3 | ⟨h3, h4⟩
          · exact ihm (todo G R s') (by omega) (pending s') s' _ h1 h2.1 (Nat.le_refl _) (Nat.le_refl _)
          · by_cases hlt : todo G R s' < m
            · exact ihm (todo G R s') hlt (pending s') s' _ h1 h2.1 (Nat.le_refl _) (Nat.le_refl _)
            · exact ihn (pending s') (by omega) s' _ h1 h2.1 (by omega) (Nat.le_refl _)
        obtain ⟨fuel, b, hf⟩ := this
        exact ⟨fuel + 1, b, by unfold St.localRun; rw [hst]; exact hf⟩

end CTL
end Verif
