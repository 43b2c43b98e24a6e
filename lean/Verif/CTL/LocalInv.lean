import Verif.CTL.Local
import Verif.CTL.FixedPointRun

/-!
# The invariant of the local fixed-point algorithm
-/

namespace Verif
namespace CTL

set_option linter.unusedSectionVars false
set_option linter.unusedSimpArgs false

variable {κ : Type} [DecidableEq κ]

open St

/-- The edge need not be scheduled: a negated edge with all targets ONE, an ordinary edge that waits for
a target. -/
def LWait (G : Graph κ) (s : St κ) (e : EId κ) : Prop :=
  if G.isNeg e then ∀ t ∈ G.origTargets e, s.asg t = .one
  else ∃ t ∈ G.origTargets e, s.asg t = .zero ∧ e ∈ (s.conf t).deps

/-- The invariant.  `H`: references held by running functions; `K`: edges that are being looked at, which
need not be scheduled. -/
structure LInv (G : Graph κ) (V : κ → Prop) (lev : κ → Nat) (H K : List (EId κ)) (s : St κ) : Prop where
  rc : ∀ e, ((s.edge e).refcnt = -1 ∧ total G H s e = 0) ∨ (s.edge e).refcnt = (total G H s e : Int)
  range : ∀ e, 0 < total G H s e → s.asg e.1 ≠ .unknown ∧ inRange G e
  depT : ∀ t, ∀ e ∈ (s.conf t).deps, t ∈ G.origTargets e
  one : ∀ c, s.asg c = .one → V c
  nocz : ∀ c, s.asg c ≠ .czero
  tgt : ∀ e, (s.edge e).refcnt ≠ -1 → s.asg e.1 ≠ .unknown → inRange G e →
    (s.edge e).targets = G.origTargets e
  depOne : ∀ t, s.asg t = .one → (s.conf t).deps = []
  pend : ∀ e, s.asg e.1 = .zero → inRange G e → e ∉ K → Listed s e ∨ LWait G s e
  known : ∀ e, G.isNeg e = true → (s.edge e).processed = true → s.asg e.1 ≠ .unknown →
    ∀ t ∈ G.origTargets e, s.asg t ≠ .unknown
  relW : ∀ e ∈ s.W, G.isNeg e = true → (s.edge e).processed = true →
    ∀ t ∈ G.origTargets e, s.asg t = .zero → s.asg e.1 = .zero → ¬ V t
  relN : ∀ e ∈ s.N, G.isNeg e = true ∧ (s.edge e).processed = true
  relD : ∀ e ∈ s.D, G.isNeg e = true → ∀ t ∈ G.origTargets e, s.asg t = .one
  uniq : ∀ e, G.isNeg e = true → s.W.count e + s.N.count e ≤ 1
  dist : ∀ c, s.asg c ≠ .unknown → (s.conf c).dist = lev c
  distLe : ∀ c, (s.conf c).dist ≤ lev c
  stat : ∀ e, (s.edge e).status ≠ 0 → Listed s e

variable {G : Graph κ} {V : κ → Prop} {lev : κ → Nat} {H K : List (EId κ)} {s : St κ}

theorem LInv.refcnt_pos (h : LInv G V lev H K s) {e : EId κ} (ht : 0 < total G H s e) :
    0 < (s.edge e).refcnt := by
  rcases h.rc e with ⟨_, h0⟩ | h1
  · omega
  · omega

theorem LInv.held_pos (h : LInv G V lev H K s) {e : EId κ} (he : e ∈ H) : 0 < (s.edge e).refcnt :=
  h.refcnt_pos (total_pos_of_mem he)

/-- The invariant after an operation that touches one edge object and the places that refer to it. -/
theorem LInv.edgeOp {H' K' : List (EId κ)} {s' : St κ} (h : LInv G V lev H K s) (e : EId κ)
    (hconf : s'.conf = s.conf) (hedge : ∀ e', e' ≠ e → s'.edge e' = s.edge e')
    (hW : ∀ e', e' ≠ e → s'.W.count e' = s.W.count e') (hN : ∀ e', e' ≠ e → s'.N.count e' = s.N.count e')
    (hD : ∀ e', e' ≠ e → s'.D.count e' = s.D.count e') (hH : ∀ e', e' ≠ e → H'.count e' = H.count e')
    (hK : ∀ e', e' ≠ e → (e' ∈ K' ↔ e' ∈ K))
    (hrc : ((s'.edge e).refcnt = -1 ∧ total G H' s' e = 0) ∨ (s'.edge e).refcnt = (total G H' s' e : Int))
    (hrange : 0 < total G H' s' e → s.asg e.1 ≠ .unknown ∧ inRange G e)
    (htgt : (s'.edge e).refcnt ≠ -1 → s.asg e.1 ≠ .unknown → inRange G e →
      (s'.edge e).targets = G.origTargets e)
    (hpend : s.asg e.1 = .zero → inRange G e → e ∉ K' → Listed s' e ∨ LWait G s e)
    (hknown : G.isNeg e = true → (s'.edge e).processed = true → s.asg e.1 ≠ .unknown →
      ∀ t ∈ G.origTargets e, s.asg t ≠ .unknown)
    (hrelW : e ∈ s'.W → G.isNeg e = true → (s'.edge e).processed = true →
      ∀ t ∈ G.origTargets e, s.asg t = .zero → s.asg e.1 = .zero → ¬ V t)
    (hrelN : e ∈ s'.N → G.isNeg e = true ∧ (s'.edge e).processed = true)
    (hrelD : e ∈ s'.D → G.isNeg e = true → ∀ t ∈ G.origTargets e, s.asg t = .one)
    (huniq : G.isNeg e = true → s'.W.count e + s'.N.count e ≤ 1)
    (hstat : (s'.edge e).status ≠ 0 → Listed s' e) : LInv G V lev H' K' s' := by
  have hasg : s'.asg = s.asg := by funext c; simp only [St.asg, hconf]
  have hdep : ∀ e', depCnt G s' e' = depCnt G s e' := fun e' => depCnt_congr (by rw [hconf]; simp) e'
  have htot : ∀ e', e' ≠ e → total G H' s' e' = total G H s e' := fun e' hne => by
    simp only [total, hW e' hne, hN e' hne, hD e' hne, hH e' hne, hdep]
  have mW : ∀ e', e' ≠ e → (e' ∈ s'.W ↔ e' ∈ s.W) := fun e' hne => by
    rw [← List.count_pos_iff, ← List.count_pos_iff, hW e' hne]
  have mN : ∀ e', e' ≠ e → (e' ∈ s'.N ↔ e' ∈ s.N) := fun e' hne => by
    rw [← List.count_pos_iff, ← List.count_pos_iff, hN e' hne]
  have mD : ∀ e', e' ≠ e → (e' ∈ s'.D ↔ e' ∈ s.D) := fun e' hne => by
    rw [← List.count_pos_iff, ← List.count_pos_iff, hD e' hne]
  have mL : ∀ e', e' ≠ e → (Listed s' e' ↔ Listed s e') := fun e' hne => by
    simp only [Listed, mW e' hne, mN e' hne, mD e' hne]
  have hwait : ∀ e', LWait G s' e' ↔ LWait G s e' := fun e' => by simp only [LWait, hasg, hconf]
  exact {
    rc := fun e' => by
      by_cases hee : e' = e
      · subst hee; exact hrc
      · rw [hedge e' hee, htot e' hee]; exact h.rc e'
    range := fun e' => by
      rw [hasg]
      by_cases hee : e' = e
      · subst hee; exact hrange
      · rw [htot e' hee]; exact h.range e'
    depT := by rw [hconf]; exact h.depT
    one := by rw [hasg]; exact h.one
    nocz := by rw [hasg]; exact h.nocz
    tgt := fun e' => by
      rw [hasg]
      by_cases hee : e' = e
      · subst hee; exact htgt
      · rw [hedge e' hee]; exact h.tgt e'
    depOne := by rw [hasg, hconf]; exact h.depOne
    pend := fun e' hz hr hk => by
      rw [hasg] at hz
      rw [hwait]
      by_cases hee : e' = e
      · subst hee; exact hpend hz hr hk
      · rw [hK e' hee] at hk
        rw [mL e' hee]
        exact h.pend e' hz hr hk
    known := fun e' hn hp hu t ht => by
      rw [hasg] at hu ⊢
      by_cases hee : e' = e
      · subst hee; exact hknown hn hp hu t ht
      · rw [hedge e' hee] at hp
        exact h.known e' hn hp hu t ht
    relW := fun e' hm hn hp t ht hz hz2 => by
      rw [hasg] at hz hz2
      by_cases hee : e' = e
      · subst hee; exact hrelW hm hn hp t ht hz hz2
      · rw [hedge e' hee] at hp
        rw [mW e' hee] at hm
        exact h.relW e' hm hn hp t ht hz hz2
    relN := fun e' hm => by
      by_cases hee : e' = e
      · subst hee; exact hrelN hm
      · rw [hedge e' hee]
        rw [mN e' hee] at hm
        exact h.relN e' hm
    relD := fun e' hm hn t ht => by
      rw [hasg]
      by_cases hee : e' = e
      · subst hee; exact hrelD hm hn t ht
      · rw [mD e' hee] at hm
        exact h.relD e' hm hn t ht
    uniq := fun e' hn => by
      by_cases hee : e' = e
      · subst hee; exact huniq hn
      · rw [hW e' hee, hN e' hee]; exact h.uniq e' hn
    dist := by rw [hasg, hconf]; exact h.dist
    distLe := by rw [hconf]; exact h.distLe
    stat := fun e' hs => by
      by_cases hee : e' = e
      · subst hee; exact hstat hs
      · rw [hedge e' hee] at hs
        rw [mL e' hee]; exact h.stat e' hs }

/-- `if(e->refcnt == 0) graph->release(e);` -/
theorem LInv.release0 (h : LInv G V lev H K s) (e : EId κ) : LInv G V lev H K (s.releaseIf0 e) := by
  unfold St.releaseIf0
  split
  case isFalse => exact h
  case isTrue h0 =>
  have htot : total G H s e = 0 := by
    rcases h.rc e with ⟨h1, _⟩ | h1
    · omega
    · omega
  have hnl : ¬ Listed s e := fun hl => by have := total_pos_of_listed (G := G) (H := H) hl; omega
  exact h.edgeOp e rfl (fun e' hne => upE_ne _ hne _) (fun _ _ => rfl) (fun _ _ => rfl) (fun _ _ => rfl)
    (fun _ _ => rfl) (fun _ _ => Iff.rfl) (.inl ⟨by simp [St.release], htot⟩)
    (h.range e) (fun hr => by simp [St.release] at hr) (h.pend e)
    (fun _ hp => by simp [St.release] at hp)
    (fun hm => absurd (.inl hm) hnl) (fun hm => absurd (.inr (.inl hm)) hnl)
    (fun hm => absurd (.inr (.inr hm)) hnl) (h.uniq e)
    (fun hs => h.stat e (by simpa [St.release] using hs))

/-- Final value ONE; the dependency set goes to the running function. -/
theorem LInv.assign (h : LInv G V lev H K s) {c : κ} (hk : s.asg c ≠ .unknown) (hv : V c) :
    LInv G V lev ((s.conf c).deps ++ H) ((s.conf c).deps ++ K)
      (s.upC c fun r => { r with asg := .one, deps := [] }) := by
  generalize hs' : (s.upC c fun r => { r with asg := Asg.one, deps := [] }) = s'
  have hasg : ∀ c', s'.asg c' = if c' = c then .one else s.asg c' := by
    intro c'; subst hs'; simp only [St.asg, upC_conf]; split <;> rfl
  have hsame : ∀ c', c' ≠ c → s'.conf c' = s.conf c' := by
    intro c' hc; subst hs'; exact upC_ne _ hc _
  have hc0 : (s'.conf c).deps = [] := by subst hs'; simp
  have hdist : ∀ c', (s'.conf c').dist = (s.conf c').dist := by
    intro c'; subst hs'; simp only [upC_conf]; split
    · rename_i h; rw [h]
    · rfl
  have hedge : s'.edge = s.edge := by subst hs'; rfl
  have hW : s'.W = s.W := by subst hs'; rfl
  have hN : s'.N = s.N := by subst hs'; rfl
  have hD : s'.D = s.D := by subst hs'; rfl
  have hunk : ∀ c', s'.asg c' ≠ .unknown ↔ s.asg c' ≠ .unknown := by
    intro c'; rw [hasg]; split
    · rename_i hc; subst hc; simp [hk]
    · rfl
  have hzer : ∀ c', s'.asg c' = .zero → s.asg c' = .zero ∧ c' ≠ c := by
    intro c'; rw [hasg]; split
    · intro h; cases h
    · rename_i hc; exact fun h => ⟨h, hc⟩
  have hone : ∀ c', s.asg c' = .one → s'.asg c' = .one := by
    intro c' h1; rw [hasg]; split
    · rfl
    · exact h1
  have htot : ∀ e, total G ((s.conf c).deps ++ H) s' e = total G H s e := by
    intro e
    have := depCnt_change (G := G) (s := s) (s' := s') (c := c) (fun t ht => by rw [hsame t ht]) e
      (by rintro (h1 | h1)
          · exact h.depT c e h1
          · rw [hc0] at h1; cases h1)
    simp only [total, hW, hN, hD, List.count_append]
    rw [hc0] at this
    simp only [List.count_nil] at this
    omega
  exact {
    rc := fun e => by rw [hedge, htot]; exact h.rc e
    range := fun e he => by rw [htot] at he; rw [hunk]; exact h.range e he
    depT := fun t e he => by
      by_cases hc : t = c
      · subst hc; rw [hc0] at he; cases he
      · rw [hsame t hc] at he; exact h.depT t e he
    one := fun c' h1 => by
      rw [hasg] at h1
      split at h1
      · rename_i hc; subst hc; exact hv
      · exact h.one c' h1
    nocz := fun c' => by
      rw [hasg]; split
      · simp
      · exact h.nocz c'
    tgt := fun e hr hu hi => by
      rw [hedge] at hr ⊢
      exact h.tgt e hr ((hunk _).1 hu) hi
    depOne := fun t h1 => by
      by_cases hc : t = c
      · subst hc; exact hc0
      · rw [hsame t hc]; rw [hasg, if_neg hc] at h1; exact h.depOne t h1
    pend := fun e hz' hr hk => by
      simp only [List.mem_append, not_or] at hk
      rcases h.pend e (hzer _ hz').1 hr hk.2 with h1 | h1
      · left; simpa only [Listed, hW, hN, hD] using h1
      · right
        unfold LWait at h1 ⊢
        split at h1
        · rename_i hn; rw [if_pos hn]; exact fun t ht => hone t (h1 t ht)
        · rename_i hn; rw [if_neg hn]
          obtain ⟨t, ht, htz, htd⟩ := h1
          have htc : t ≠ c := fun hc => hk.1 (hc ▸ htd)
          exact ⟨t, ht, by rw [hasg, if_neg htc]; exact htz, by rw [hsame t htc]; exact htd⟩
    known := fun e hn hp hu t ht => by
      rw [hedge] at hp
      rw [hunk] at hu ⊢
      exact h.known e hn hp hu t ht
    relW := fun e hm hn hp t ht hz' hz2 => by
      rw [hedge] at hp
      rw [hW] at hm
      exact h.relW e hm hn hp t ht (hzer _ hz').1 (hzer _ hz2).1
    relN := fun e hm => by
      rw [hN] at hm
      rw [hedge]
      exact h.relN e hm
    relD := fun e hm hn t ht => by
      rw [hD] at hm
      exact hone t (h.relD e hm hn t ht)
    uniq := fun e hn => by rw [hW, hN]; exact h.uniq e hn
    dist := fun c' hc' => by rw [hdist]; exact h.dist c' ((hunk c').1 hc')
    distLe := fun c' => by rw [hdist]; exact h.distLe c'
    stat := fun e hs => by
      rw [hedge] at hs
      simpa only [Listed, hW, hN, hD] using h.stat e hs }

/-- Putting a held edge on `D`. -/
theorem LInv.pushD (h : LInv G V lev H K s) (e : EId κ) (n : Nat) (hpos : 0 < total G H s e)
    (hd : G.isNeg e = true → ∀ t ∈ G.origTargets e, s.asg t = .one) :
    LInv G V lev H K { (s.upE e fun r => { r with status := n }).ref e with D := e :: s.D } := by
  have hrf : (s.edge e).refcnt = (total G H s e : Int) := by
    rcases h.rc e with ⟨_, h1⟩ | h1
    · omega
    · exact h1
  generalize hs' : ({ (s.upE e fun r => { r with status := n }).ref e with D := e :: s.D } : St κ) = s'
  have hconf : s'.conf = s.conf := by subst hs'; rfl
  have hne : ∀ e', e' ≠ e → s'.edge e' = s.edge e' := by
    intro e' hne; subst hs'; simp [St.ref, upE_ne _ hne]
  have hedge : s'.edge e = { s.edge e with status := n, refcnt := (s.edge e).refcnt + 1 } := by
    subst hs'; simp [St.ref]
  have hW : s'.W = s.W := by subst hs'; rfl
  have hN : s'.N = s.N := by subst hs'; rfl
  have hD : s'.D = e :: s.D := by subst hs'; rfl
  have htot : total G H s' e = total G H s e + 1 := by
    simp only [total, hW, hN, hD, depCnt_congr (G := G) (s := s) (s' := s') (fun t => by rw [hconf]) e,
      List.count_cons_self]
    omega
  have hL : Listed s' e := .inr (.inr (by rw [hD]; simp))
  refine h.edgeOp e hconf hne (fun e' _ => by rw [hW]) (fun e' _ => by rw [hN])
    (fun e' hee => by rw [hD]; simp [List.count_cons, Ne.symm hee]) (fun _ _ => rfl) (fun _ _ => Iff.rfl)
    (.inr ?_) (fun _ => h.range e hpos) ?_ (fun _ _ _ => .inl hL) ?_ ?_ ?_ (fun _ => hd) ?_ (fun _ => hL)
  · rw [hedge, htot]; simp only; omega
  · intro _ h2 h3; rw [hedge]; exact h.tgt e (by omega) h2 h3
  · intro h1 h2; rw [hedge] at h2; exact h.known e h1 h2
  · intro h1 h2 h3; rw [hW] at h1; rw [hedge] at h3; exact h.relW e h1 h2 h3
  · intro h1; rw [hN] at h1; rw [hedge]; exact h.relN e h1
  · rw [hW, hN]; exact h.uniq e

/-- `--e->refcnt` for a reference held by the running function. -/
theorem LInv.drop {e : EId κ} (h : LInv G V lev (e :: H) K s) {K' : List (EId κ)}
    (hK : ∀ e', e' ≠ e → (e' ∈ K' ↔ e' ∈ K))
    (hp : s.asg e.1 = .zero → inRange G e → e ∉ K' → Listed s e ∨ LWait G s e) :
    LInv G V lev H K' (s.deref e) := by
  have hpos := h.held_pos (List.mem_cons_self ..)
  have htot : total G (e :: H) s e = total G H s e + 1 := by simp [total]; omega
  have hrf : (s.edge e).refcnt = (total G (e :: H) s e : Int) := by
    rcases h.rc e with ⟨h1, _⟩ | h1
    · omega
    · exact h1
  refine h.edgeOp e rfl (fun e' hne => upE_ne _ hne _) (fun _ _ => rfl) (fun _ _ => rfl) (fun _ _ => rfl)
    (fun e' hne => by simp [List.count_cons, Ne.symm hne]) hK
    (.inr ?_) (fun hr => h.range e (by
      have : total G H (s.deref e) e = total G H s e := rfl
      omega)) ?_ hp ?_ ?_ ?_ ?_ (h.uniq e) ?_
  · show (s.deref e |>.edge e).refcnt = (total G H s e : Int)
    simp only [St.deref, upE_same]
    omega
  · intro _ hu hr
    simpa [St.deref] using h.tgt e (by omega) hu hr
  · intro hn hp
    exact h.known e hn (by simpa [St.deref] using hp)
  · intro hm
    simpa [St.deref] using h.relW e hm
  · intro hm
    simpa [St.deref] using h.relN e hm
  · intro hm
    exact h.relD e hm
  · intro hs
    exact h.stat e (by simpa [St.deref] using hs)

/-- One round of the loop in `finalAssign`. -/
theorem LInv.notify {L : List (EId κ)} {e : EId κ} {c : κ} (hl : G.Layered lev)
    (h : LInv G V lev (e :: L ++ H) (e :: L ++ K) s) (hc : c ∈ G.origTargets e) (ha : s.asg c = .one) :
    LInv G V lev (L ++ H) (L ++ K) (s.localNotify G e) ∧ Frame s (s.localNotify G e) := by
  have hpos : 0 < total G (e :: L ++ H) s e := total_pos_of_mem (by simp)
  obtain ⟨hu, hr⟩ := h.range e hpos
  have hrc : (s.edge e).refcnt ≠ -1 := by have := h.refcnt_pos hpos; omega
  have hall : G.isNeg e = true → ∀ t ∈ G.origTargets e, s.asg t = .one := by
    intro hn t ht
    obtain ⟨t0, ht0⟩ := neg_single hl hr hn
    rw [ht0, List.mem_singleton] at ht hc
    rw [ht, ← hc]; exact ha
  have hfin : ∀ {s1 : St κ}, LInv G V lev (e :: L ++ H) (e :: L ++ K) s1 → Frame s s1 →
      (s.asg e.1 = .zero → Listed s1 e) →
      LInv G V lev (L ++ H) (L ++ K) ((s1.deref e).releaseIf0 e) ∧
        Frame s ((s1.deref e).releaseIf0 e) := by
    intro s1 h1 hf hp
    refine ⟨?_, hf.trans ((deref_frame s1 e).trans (releaseIf0_frame _ e))⟩
    refine LInv.release0 (LInv.drop (K := e :: L ++ K) (K' := L ++ K) (by simpa using h1)
      (fun e' hne => by simp [hne]) (fun hz _ _ => .inl (hp ?_))) e
    simpa only [St.asg, hf.conf] using hz
  have hLD : ∀ e', Listed s e' → e' ∈ s.W ∨ e' ∈ s.N ∨ e' ∈ e :: s.D := by
    intro e' he'
    rcases he' with h1 | h1 | h1
    · exact .inl h1
    · exact .inr (.inl h1)
    · exact .inr (.inr (List.mem_cons_of_mem _ h1))
  unfold St.localNotify
  by_cases hn : G.isNeg e = true
  · rw [if_pos hn]
    unfold St.pushNegation
    have hdec : ((s.upE e fun r => { r with status := 3 }).ref e).decided e = true := by
      unfold St.decided
      simp only [Bool.or_eq_true, List.all_eq_true]
      left
      intro t ht
      have ht' : t ∈ (s.edge e).targets := by simpa [St.ref] using ht
      rw [h.tgt e hrc hu hr] at ht'
      show (s.asg t == .one) = true
      simp [hall hn t ht']
    simp only [hdec, if_true]
    exact hfin (h.pushD e 3 hpos hall) ⟨rfl, hLD, rfl, rfl⟩ (fun _ => .inr (.inr (List.mem_cons_self ..)))
  · rw [if_neg hn]
    unfold St.pushDependency
    cases hsd : s.isDone e.1 with
    | true =>
      simp only [if_true]
      refine hfin h (Frame.refl s) (fun hz => ?_)
      rw [zero_not_done hz] at hsd; cases hsd
    | false =>
      simp only [Bool.false_eq_true, if_false]
      exact hfin (h.pushD e 2 hpos hall) ⟨rfl, hLD, rfl, rfl⟩ (fun _ => .inr (.inr (List.mem_cons_self ..)))

/-- `finalAssign` keeps the invariant. -/
theorem LInv.localAssign (hl : G.Layered lev) (h : LInv G V lev H K s) {c : κ} (hk : s.asg c ≠ .unknown)
    (hv : V c) : LInv G V lev H K (s.localAssign G c) ∧
      Frame (s.upC c fun r => { r with asg := .one, deps := [] }) (s.localAssign G c) := by
  have key : ∀ (L : List (EId κ)) (s1 : St κ), LInv G V lev (L ++ H) (L ++ K) s1 →
      (∀ e ∈ L, c ∈ G.origTargets e) → s1.asg c = .one →
      LInv G V lev H K (L.foldl (St.localNotify G) s1) ∧ Frame s1 (L.foldl (St.localNotify G) s1) := by
    intro L
    induction L with
    | nil => exact fun s1 h1 _ _ => ⟨h1, Frame.refl s1⟩
    | cons e L ih =>
      intro s1 h1 hL h2
      obtain ⟨h3, h4⟩ := h1.notify hl (hL e (by simp)) h2
      obtain ⟨h5, h6⟩ := ih _ h3 (fun e' he' => hL e' (by simp [he'])) (by
        simp only [St.asg, h4.conf]; exact h2)
      exact ⟨h5, h4.trans h6⟩
  refine key _ _ (h.assign hk hv) (fun e he => h.depT c e he) ?_
  simp [St.asg]

/-! ### Exploration -/

theorem localPush_fresh {e : EId κ} (h1 : (s.edge e).status = 0) (h2 : s.isDone e.1 = false)
    (h3 : (s.edge e).processed = false) (h4 : (s.edge e).refcnt = 1) :
    s.localPush G e = { s.upE e (fun r => { r with status := 1 }) with W := s.W ++ [e] } := by
  unfold St.localPush St.pushEdge
  rw [h1, h2, h3]
  simp only [gt_iff_lt, Nat.lt_irrefl, decide_false, Bool.or_self, Bool.false_and, Bool.false_eq_true, if_false]
  unfold St.releaseIf0
  rw [if_neg (by simp [St.deref, St.ref, h4])]
  simp only [St.deref, St.ref, St.upE, Function.update_self, Function.update_idem]
  congr 2
  rw [h4]; rfl

theorem localPush_fold : ∀ (L : List (EId κ)) (s : St κ), L.Nodup →
    (∀ e ∈ L, (s.edge e).status = 0 ∧ s.isDone e.1 = false ∧ (s.edge e).processed = false ∧
      (s.edge e).refcnt = 1) →
    (L.foldl (St.localPush G) s).conf = s.conf ∧ (L.foldl (St.localPush G) s).W = s.W ++ L ∧
    (L.foldl (St.localPush G) s).N = s.N ∧ (L.foldl (St.localPush G) s).D = s.D ∧
    ∀ e, (L.foldl (St.localPush G) s).edge e = if e ∈ L then { s.edge e with status := 1 } else s.edge e
  | [], s, _, _ => by simp
  | e :: L, s, hn, hf => by
    obtain ⟨hx, hL⟩ := List.nodup_cons.1 hn
    obtain ⟨f1, f2, f3, f4⟩ := hf e (by simp)
    have hp := localPush_fresh (G := G) f1 f2 f3 f4
    obtain ⟨a, b, c, d, f⟩ := localPush_fold L (s.localPush G e) hL (by
      intro e' he'
      have hne : e' ≠ e := fun h => hx (h ▸ he')
      rw [hp]
      simp only [upE_ne _ hne]
      exact hf e' (by simp [he']))
    rw [List.foldl_cons]
    rw [hp] at a b c d f ⊢
    refine ⟨a, by rw [b]; simp, c, d, fun e' => ?_⟩
    rw [f]
    by_cases hee : e' = e
    · subst hee
      simp [hx]
    · simp [hee, upE_ne _ hee]

theorem succIds_nodup (c : κ) : (succIds G c).Nodup :=
  List.Nodup.map (fun i j h => by simpa using h) List.nodup_range

/-- The state after `explore`. -/
theorem LInv.explore_eq (h : LInv G V lev H K s) {c : κ} (hu : s.asg c = .unknown) :
    (∀ c', (s.localExplore G c).asg c' = if c' = c then .zero else s.asg c') ∧
    (∀ c', ((s.localExplore G c).conf c').deps = (s.conf c').deps ∧
      ((s.localExplore G c).conf c').dist = (s.conf c').dist) ∧
    (s.localExplore G c).W = s.W ++ succIds G c ∧ (s.localExplore G c).N = s.N ∧
    (s.localExplore G c).D = s.D ∧
    ∀ e, (s.localExplore G c).edge e = if e ∈ succIds G c then
      { targets := G.origTargets e, status := 1, refcnt := 1 } else s.edge e := by
  have hst : ∀ e ∈ succIds G c, (s.edge e).status = 0 := by
    intro e he
    obtain ⟨h1, h2⟩ := mem_succIds.1 he
    by_contra hne
    have := (h.range e (total_pos_of_listed (h.stat e hne))).1
    rw [h1] at this; exact this hu
  generalize hs0 : ((s.upC c fun r => { r with asg := Asg.zero }).newEdges G c) = s0
  have hedge0 : ∀ e, s0.edge e = if e ∈ succIds G c then
      { targets := G.origTargets e, status := (s.edge e).status, refcnt := 1 } else s.edge e := by
    intro e
    subst hs0
    simp only [St.newEdges, mem_succIds, inRange]
    by_cases h1 : e.1 = c
    · subst h1; simp
    · simp [h1]
  have hasg0 : ∀ c', s0.asg c' = if c' = c then .zero else s.asg c' := by
    intro c'; subst hs0; simp only [St.asg, St.newEdges, upC_conf]; split <;> rfl
  have hconf0 : ∀ c', (s0.conf c').deps = (s.conf c').deps ∧ (s0.conf c').dist = (s.conf c').dist := by
    intro c'; subst hs0; simp only [St.newEdges, upC_conf]; split
    · rename_i h1; subst h1; exact ⟨rfl, rfl⟩
    · exact ⟨rfl, rfl⟩
  have hf := localPush_fold (G := G) (succIds G c) s0 (succIds_nodup c) (by
    intro e he
    obtain ⟨h1, _⟩ := mem_succIds.1 he
    rw [hedge0, if_pos he]
    exact ⟨hst e he, zero_not_done (by rw [hasg0, if_pos h1]), rfl, rfl⟩)
  obtain ⟨a, b, c1, d, f⟩ := hf
  unfold St.localExplore
  rw [hs0]
  generalize ((succIds G c).foldl (St.localPush G) s0) = s' at *
  refine ⟨fun c' => by rw [← hasg0]; simp only [St.asg, a], fun c' => by rw [a]; exact hconf0 c',
    by rw [b]; subst hs0; rfl, by rw [c1]; subst hs0; rfl, by rw [d]; subst hs0; rfl, fun e => ?_⟩
  rw [f, hedge0]
  split <;> rfl

theorem LInv.explore (h : LInv G V lev H K s) {c : κ} (hu : s.asg c = .unknown)
    (hd : (s.conf c).dist = lev c) : LInv G V lev H K (s.localExplore G c) := by
  obtain ⟨hasg, hconf, hW, hN, hD, hedge⟩ := h.explore_eq hu
  generalize s.localExplore G c = s' at *
  have hne : ∀ e, 0 < total G H s e → e ∉ succIds G c := by
    intro e he hm
    have := (h.range e he).1
    rw [(mem_succIds.1 hm).1] at this; exact this hu
  have htot : ∀ e, total G H s' e = total G H s e + if e ∈ succIds G c then 1 else 0 := by
    intro e
    have hc : (succIds G c).count e = if e ∈ succIds G c then 1 else 0 := by
      split
      · rename_i hm; exact List.count_eq_one_of_mem (succIds_nodup c) hm
      · rename_i hm; exact List.count_eq_zero.2 hm
    simp only [total, hW, hN, hD, depCnt_congr (G := G) (s := s) (s' := s') (fun t => (hconf t).1) e,
      List.count_append, hc]
    omega
  have hsrc : ∀ e, s'.asg e.1 ≠ .unknown → inRange G e → e ∉ succIds G c → s.asg e.1 ≠ .unknown ∧ e.1 ≠ c := by
    intro e h1 h2 h3
    have hc : e.1 ≠ c := fun hc => h3 (mem_succIds.2 ⟨hc, h2⟩)
    rw [hasg, if_neg hc] at h1
    exact ⟨h1, hc⟩
  have hkn : ∀ c', s.asg c' ≠ .unknown → s'.asg c' = s.asg c' := by
    intro c' h1
    rw [hasg, if_neg]
    rintro rfl; exact h1 hu
  have hL : ∀ e, Listed s e → Listed s' e := by
    intro e he
    rcases he with h1 | h1 | h1
    · exact .inl (by rw [hW]; simp [h1])
    · exact .inr (.inl (by rw [hN]; exact h1))
    · exact .inr (.inr (by rw [hD]; exact h1))
  have negR : ∀ e, G.isNeg e = true → inRange G e := by
    intro e hn
    unfold Graph.isNeg at hn
    cases ho : G.orig e with
    | none => simp [ho] at hn
    | some x => exact (List.getElem?_eq_some_iff.1 ho).1
  exact {
    rc := fun e => by
      rw [htot, hedge]
      by_cases hm : e ∈ succIds G c
      · rw [if_pos hm, if_pos hm]
        have : total G H s e = 0 := by
          by_contra h0
          exact hne e (by omega) hm
        right; rw [this]; rfl
      · rw [if_neg hm, if_neg hm]; exact h.rc e
    range := fun e he => by
      rw [htot] at he
      by_cases hm : e ∈ succIds G c
      · obtain ⟨h1, h2⟩ := mem_succIds.1 hm
        exact ⟨by rw [hasg, if_pos h1]; simp, h2⟩
      · rw [if_neg hm] at he
        obtain ⟨h1, h2⟩ := h.range e (by omega)
        exact ⟨by rw [hkn _ h1]; exact h1, h2⟩
    depT := fun t e he => h.depT t e (by rw [(hconf t).1] at he; exact he)
    one := fun c' h1 => by
      rw [hasg] at h1
      split at h1
      · cases h1
      · exact h.one c' h1
    nocz := fun c' => by
      rw [hasg]; split
      · simp
      · exact h.nocz c'
    tgt := fun e hr hk hi => by
      rw [hedge] at hr ⊢
      by_cases hm : e ∈ succIds G c
      · rw [if_pos hm]
      · rw [if_neg hm] at hr ⊢
        exact h.tgt e hr (hsrc e hk hi hm).1 hi
    depOne := fun t h1 => by
      rw [hasg] at h1
      rw [(hconf t).1]
      split at h1
      · cases h1
      · exact h.depOne t h1
    pend := fun e hz hr hk => by
      by_cases hm : e ∈ succIds G c
      · exact .inl (.inl (by rw [hW]; simp [hm]))
      · obtain ⟨h1, h2⟩ := hsrc e (by rw [hz]; simp) hr hm
        rw [hasg, if_neg h2] at hz
        rcases h.pend e hz hr hk with h3 | h3
        · exact .inl (hL e h3)
        · right
          unfold LWait at h3 ⊢
          split at h3
          · rename_i hn; rw [if_pos hn]
            exact fun t ht => by rw [hkn t (by rw [h3 t ht]; simp)]; exact h3 t ht
          · rename_i hn; rw [if_neg hn]
            obtain ⟨t, a, b, d⟩ := h3
            exact ⟨t, a, by rw [hkn t (by rw [b]; simp)]; exact b, by rw [(hconf t).1]; exact d⟩
    known := fun e hn hp hk t ht => by
      rw [hedge] at hp
      by_cases hm : e ∈ succIds G c
      · rw [if_pos hm] at hp; cases hp
      · rw [if_neg hm] at hp
        have := h.known e hn hp (hsrc e hk (negR e hn) hm).1 t ht
        rw [hkn t this]; exact this
    relW := fun e hmem hn hp t ht hz hz2 => by
      rw [hedge] at hp
      by_cases hm : e ∈ succIds G c
      · rw [if_pos hm] at hp; cases hp
      · rw [if_neg hm] at hp
        obtain ⟨h1, h2⟩ := hsrc e (by rw [hz2]; simp) (negR e hn) hm
        have h3 := h.known e hn hp h1 t ht
        rw [hkn t h3] at hz
        rw [hkn _ h1] at hz2
        rw [hW, List.mem_append] at hmem
        exact h.relW e (hmem.resolve_right hm) hn hp t ht hz hz2
    relN := fun e hmem => by
      rw [hN] at hmem
      have hm := hne e (total_pos_of_listed (.inr (.inl hmem)))
      rw [hedge, if_neg hm]; exact h.relN e hmem
    relD := fun e hmem hn t ht => by
      rw [hD] at hmem
      have := h.relD e hmem hn t ht
      rw [hkn t (by rw [this]; simp)]; exact this
    uniq := fun e hn => by
      rw [hW, hN, List.count_append]
      have h1 := h.uniq e hn
      by_cases hm : e ∈ succIds G c
      · have h2 : total G H s e = 0 := by
          by_contra h0
          exact hne e (by omega) hm
        have h3 := List.count_eq_one_of_mem (succIds_nodup c) hm
        unfold total at h2
        omega
      · have := List.count_eq_zero.2 hm
        omega
    dist := fun c' hc' => by
      rw [(hconf c').2]
      by_cases hc : c' = c
      · rw [hc]; exact hd
      · rw [hasg, if_neg hc] at hc'; exact h.dist c' hc'
    distLe := fun c' => by rw [(hconf c').2]; exact h.distLe c'
    stat := fun e hs => by
      rw [hedge] at hs
      by_cases hm : e ∈ succIds G c
      · exact .inl (by rw [hW]; simp [hm])
      · rw [if_neg hm] at hs
        exact hL e (h.stat e hs) }

/-! ### Dependencies -/

theorem LInv.addDep (hl : G.Layered lev) (h : LInv G V lev H K s) (addr : EId κ → Nat) {e : EId κ} {t : κ}
    (hu : s.asg e.1 ≠ .unknown) (hr : inRange G e) (hrc : (s.edge e).refcnt ≠ -1)
    (ht : t ∈ G.origTargets e) (hn1 : s.asg t ≠ .one) :
    LInv G V lev H K (s.addDependency G addr t e) ∧ e ∈ ((s.addDependency G addr t e).conf t).deps ∧
      DepFrame s (s.addDependency G addr t e) ∧ ((s.addDependency G addr t e).conf t).dist = lev t ∧
      ((s.addDependency G addr t e).edge e).refcnt ≠ -1 := by
  have hlt := lev_target hl hr ht
  generalize hs0 : s.upC t (fun c => { c with
    dist := max (if G.isNeg e then (s.conf e.1).dist + 1 else (s.conf e.1).dist) c.dist }) = s0
  have hconf0 : ∀ c', (s0.conf c').deps = (s.conf c').deps ∧ (s0.conf c').asg = (s.conf c').asg ∧
      (s.asg c' ≠ .unknown → (s0.conf c').dist = lev c') ∧ (s0.conf c').dist ≤ lev c' ∧
      (s.conf c').dist ≤ (s0.conf c').dist ∧ (c' = t → (s0.conf c').dist = lev c') := by
    intro c'
    subst hs0
    by_cases hc : c' = t
    · subst hc
      simp only [upC_same, h.dist e.1 hu, ← hlt]
      have h1 := h.distLe c'
      exact ⟨trivial, trivial, fun _ => by omega, by omega, by omega, fun _ => by omega⟩
    · rw [upC_ne _ hc]
      exact ⟨rfl, rfl, h.dist c', h.distLe c', Nat.le_refl _, fun h => absurd h hc⟩
  have hasg0 : s0.asg = s.asg := by funext c; exact (hconf0 c).2.1
  have hedge0 : s0.edge = s.edge := by subst hs0; rfl
  have hW0 : s0.W = s.W := by subst hs0; rfl
  have hN0 : s0.N = s.N := by subst hs0; rfl
  have hD0 : s0.D = s.D := by subst hs0; rfl
  have htot0 : ∀ e', total G H s0 e' = total G H s e' := fun e' => by
    simp only [total, hW0, hN0, hD0, depCnt_congr (G := G) (fun t => (hconf0 t).1) e']
  have h0 : LInv G V lev H K s0 := {
    rc := fun e' => by rw [hedge0, htot0]; exact h.rc e'
    range := fun e' he' => by rw [htot0] at he'; rw [hasg0]; exact h.range e' he'
    depT := fun t' e' he' => h.depT t' e' (by rw [(hconf0 t').1] at he'; exact he')
    one := by rw [hasg0]; exact h.one
    nocz := by rw [hasg0]; exact h.nocz
    tgt := by rw [hasg0, hedge0]; exact h.tgt
    depOne := fun t' h1 => by rw [hasg0] at h1; rw [(hconf0 t').1]; exact h.depOne t' h1
    pend := fun e' hz hr hk => by
      rw [hasg0] at hz
      have hw : LWait G s0 e' ↔ LWait G s e' := by simp only [LWait, hasg0, (hconf0 _).1]
      rw [hw]
      simpa only [Listed, hW0, hN0, hD0] using h.pend e' hz hr hk
    known := by rw [hasg0, hedge0]; exact h.known
    relW := by rw [hasg0, hedge0, hW0]; exact h.relW
    relN := by rw [hedge0, hN0]; exact h.relN
    relD := by rw [hasg0, hD0]; exact h.relD
    uniq := by rw [hW0, hN0]; exact h.uniq
    dist := fun c hc => by rw [hasg0] at hc; exact (hconf0 c).2.2.1 hc
    distLe := fun c => (hconf0 c).2.2.2.1
    stat := fun e' hs => by
      rw [hedge0] at hs
      simpa only [Listed, hW0, hN0, hD0] using h.stat e' hs }
  have hf0 : DepFrame s s0 := ⟨hasg0, hW0, hN0, hD0, fun t' e' he' => by rw [(hconf0 t').1]; exact he',
    fun c => (hconf0 c).2.2.2.2.1, fun e' => by rw [hedge0]; exact ⟨rfl, rfl, rfl, rfl⟩⟩
  unfold St.addDependency
  rw [if_neg hn1]
  simp only [hs0]
  cases hi : insertDep addr e (s0.conf t).deps with
  | none => exact ⟨h0, insertDep_none hi, hf0, (hconf0 t).2.2.2.2.2 rfl, by rw [hedge0]; exact hrc⟩
  | some ds =>
    have hperm := insertDep_some hi
    simp only
    have hrf0 : (s0.edge e).refcnt = (total G H s0 e : Int) := by
      rcases h0.rc e with ⟨h1, _⟩ | h1
      · rw [hedge0] at h1; exact absurd h1 hrc
      · exact h1
    generalize hs1 : (s0.upC t fun c => { c with deps := ds }).ref e = s1
    have hW1 : s1.W = s0.W := by subst hs1; rfl
    have hN1 : s1.N = s0.N := by subst hs1; rfl
    have hD1 : s1.D = s0.D := by subst hs1; rfl
    have hsame1 : ∀ c', c' ≠ t → s1.conf c' = s0.conf c' := by
      intro c' hc; subst hs1; simp only [St.ref, upE_conf, upC_ne _ hc]
    have ht1 : (s1.conf t).deps = ds := by subst hs1; simp [St.ref]
    have hconf1 : ∀ c', (s1.conf c').asg = (s0.conf c').asg ∧ (s1.conf c').dist = (s0.conf c').dist := by
      intro c'
      by_cases hc : c' = t
      · subst hc; subst hs1; simp [St.ref]
      · rw [hsame1 c' hc]; exact ⟨rfl, rfl⟩
    have hasg1 : s1.asg = s0.asg := by funext c; exact (hconf1 c).1
    have hdeps1 : ∀ t' e', e' ∈ (s0.conf t').deps → e' ∈ (s1.conf t').deps := by
      intro t' e' he'
      by_cases hc : t' = t
      · subst hc; rw [ht1, hperm.mem_iff]; exact List.mem_cons_of_mem _ he'
      · rw [hsame1 t' hc]; exact he'
    have hedge1 : s1.edge = (s0.ref e).edge := by subst hs1; rfl
    have hedgeF : ∀ e', (s1.edge e').targets = (s0.edge e').targets ∧
        (s1.edge e').processed = (s0.edge e').processed ∧ (s1.edge e').handled = (s0.edge e').handled ∧
        s0.edge e' = { s1.edge e' with refcnt := (s0.edge e').refcnt } := by
      intro e'
      rw [hedge1]
      by_cases hee : e' = e
      · subst hee; simp [St.ref]
      · simp [St.ref, upE_ne _ hee]
    have hne1 : ∀ e', e' ≠ e → s1.edge e' = s0.edge e' := by
      intro e' hee; rw [hedge1]; simp [St.ref, upE_ne _ hee]
    have href1 : (s1.edge e).refcnt = (s0.edge e).refcnt + 1 := by rw [hedge1]; simp [St.ref]
    have hcount : ∀ e', (s1.conf t).deps.count e' = (s0.conf t).deps.count e' + if e' = e then 1 else 0 := by
      intro e'
      rw [ht1, hperm.count_eq]
      simp only [List.count_cons, beq_iff_eq]
      by_cases hee : e = e'
      · simp [hee]
      · simp [hee, Ne.symm hee]
    have htot1 : ∀ e', total G H s1 e' = total G H s0 e' + if e' = e then 1 else 0 := by
      intro e'
      have := depCnt_change (G := G) (s := s0) (s' := s1) (c := t) (fun t' ht' => by rw [hsame1 t' ht']) e'
        (by rintro (h1 | h1)
            · exact h0.depT t e' h1
            · rw [ht1, hperm.mem_iff] at h1
              rcases List.mem_cons.1 h1 with rfl | h1
              · exact ht
              · exact h0.depT t e' h1)
      rw [hcount] at this
      simp only [total, hW1, hN1, hD1]
      omega
    refine ⟨?_, by rw [ht1, hperm.mem_iff]; simp,
      hf0.trans ⟨hasg1, hW1, hN1, hD1, hdeps1, fun c => Nat.le_of_eq (hconf1 c).2.symm, hedgeF⟩,
      by rw [(hconf1 t).2]; exact (hconf0 t).2.2.2.2.2 rfl, by rw [href1, hrf0]; omega⟩
    exact {
      rc := fun e' => by
        rw [htot1]
        by_cases hee : e' = e
        · subst hee; right; rw [href1, hrf0]; simp
        · rw [hne1 e' hee]; simpa [hee] using h0.rc e'
      range := fun e' he' => by
        rw [hasg1]
        by_cases hee : e' = e
        · subst hee; rw [hasg0]; exact ⟨hu, hr⟩
        · rw [htot1] at he'; exact h0.range e' (by simpa [hee] using he')
      depT := fun t' e' he' => by
        by_cases hc : t' = t
        · subst hc
          rw [ht1, hperm.mem_iff] at he'
          rcases List.mem_cons.1 he' with rfl | he'
          · exact ht
          · exact h0.depT t' e' he'
        · rw [hsame1 t' hc] at he'; exact h0.depT t' e' he'
      one := by rw [hasg1]; exact h0.one
      nocz := by rw [hasg1]; exact h0.nocz
      tgt := fun e' hr' hu' hi' => by
        rw [hasg1] at hu'
        rw [(hedgeF e').1]
        refine h0.tgt e' ?_ hu' hi'
        by_cases hee : e' = e
        · subst hee; omega
        · rw [hne1 e' hee] at hr'; exact hr'
      depOne := fun t' h1 => by
        rw [hasg1] at h1
        by_cases hc : t' = t
        · rw [hasg0, hc] at h1; exact absurd h1 hn1
        · rw [hsame1 t' hc]; exact h0.depOne t' h1
      pend := fun e' hz hr hk => by
        rw [hasg1] at hz
        rcases h0.pend e' hz hr hk with h1 | h1
        · left; simpa only [Listed, hW1, hN1, hD1] using h1
        · right
          unfold LWait at h1 ⊢
          rw [hasg1]
          split at h1
          · rename_i hn; rw [if_pos hn]; exact h1
          · rename_i hn; rw [if_neg hn]
            obtain ⟨t', h2, h3, h4⟩ := h1
            exact ⟨t', h2, h3, hdeps1 t' e' h4⟩
      known := fun e' hn hp hk t' ht' => by
        rw [(hedgeF e').2.1] at hp
        rw [hasg1] at hk ⊢; exact h0.known e' hn hp hk t' ht'
      relW := fun e' hm hn hp t' ht' hz hz2 => by
        rw [hW1] at hm
        rw [(hedgeF e').2.1] at hp
        rw [hasg1] at hz hz2
        exact h0.relW e' hm hn hp t' ht' hz hz2
      relN := fun e' hm => by
        rw [hN1] at hm
        rw [(hedgeF e').2.1]; exact h0.relN e' hm
      relD := fun e' hm hn t' ht' => by
        rw [hD1] at hm
        rw [hasg1]; exact h0.relD e' hm hn t' ht'
      uniq := by rw [hW1, hN1]; exact h0.uniq
      dist := fun c hc => by rw [hasg1] at hc; rw [(hconf1 c).2]; exact h0.dist c hc
      distLe := fun c => by rw [(hconf1 c).2]; exact h0.distLe c
      stat := fun e' hs => by
        have : (s1.edge e').status = (s0.edge e').status := by
          have := (hedgeF e').2.2.2
          rw [this]
        rw [this] at hs
        simpa only [Listed, hW1, hN1, hD1] using h0.stat e' hs }

/-- Adding a dependency and exploring the target. -/
theorem LInv.visit (hl : G.Layered lev) (h : LInv G V lev H K s) (addr : EId κ → Nat) {e : EId κ} {u : κ}
    (hu : s.asg e.1 ≠ .unknown) (hr : inRange G e) (hrc : (s.edge e).refcnt ≠ -1)
    (ht : u ∈ G.origTargets e) (hn1 : s.asg u ≠ .one) :
    LInv G V lev H K (s.localVisit G addr e u) ∧ e ∈ ((s.localVisit G addr e u).conf u).deps ∧
      (s.localVisit G addr e u).asg u = .zero ∧
      (∀ c, s.asg c ≠ .unknown → (s.localVisit G addr e u).asg c = s.asg c) ∧
      ((s.localVisit G addr e u).edge e).refcnt ≠ -1 ∧
      (e ∈ (s.localVisit G addr e u).W → e ∈ s.W) ∧ (s.localVisit G addr e u).N = s.N := by
  obtain ⟨h1, h2, h3, h4, h5⟩ := h.addDep hl addr hu hr hrc ht hn1
  unfold St.localVisit
  simp only
  generalize s.addDependency G addr u e = s1 at *
  split
  · rename_i hk
    obtain ⟨a, b, c, d, _, f⟩ := h1.explore_eq hk
    have hne : e ∉ succIds G u := fun hm => by
      have := (mem_succIds.1 hm).1
      rw [h3.asg, ← this] at hk; exact hu hk
    refine ⟨h1.explore hk h4, by rw [(b u).1]; exact h2, by rw [a, if_pos rfl], fun x hx => ?_, ?_, ?_, ?_⟩
    · rw [a, if_neg, h3.asg]
      rintro rfl; rw [h3.asg] at hk; exact hx hk
    · rw [f, if_neg hne]; exact h5
    · rw [c, List.mem_append, h3.W]
      exact fun h => h.resolve_right hne
    · rw [d, h3.N]
  · rename_i hk
    refine ⟨h1, h2, ?_, fun x _ => by rw [h3.asg], h5, by rw [h3.W]; exact id, h3.N⟩
    have ha := h1.nocz u
    rw [← h3.asg] at hn1
    cases hc : s1.asg u
    · exact absurd hc hn1
    · exact absurd hc hk
    · rfl
    · exact absurd hc ha

end CTL
end Verif
