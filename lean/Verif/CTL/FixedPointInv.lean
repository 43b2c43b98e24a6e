import Verif.CTL.FixedPoint
import Mathlib.Algebra.BigOperators.Group.List.Basic
import Mathlib.Data.List.Dedup
import Mathlib.Data.List.Nodup

/-!
# The invariant of the fixed-point algorithms, and the elementary operations
-/

namespace Verif
namespace CTL

set_option linter.unusedSectionVars false
set_option linter.unusedSimpArgs false

variable {κ : Type} [DecidableEq κ]

namespace St

/-! ### What the elementary operations change -/

@[simp] theorem upE_conf (s : St κ) (e : EId κ) (f) : (s.upE e f).conf = s.conf := rfl
@[simp] theorem upE_asg (s : St κ) (e : EId κ) (f) : (s.upE e f).asg = s.asg := rfl
@[simp] theorem upE_W (s : St κ) (e : EId κ) (f) : (s.upE e f).W = s.W := rfl
@[simp] theorem upE_N (s : St κ) (e : EId κ) (f) : (s.upE e f).N = s.N := rfl
@[simp] theorem upE_D (s : St κ) (e : EId κ) (f) : (s.upE e f).D = s.D := rfl
theorem upE_edge (s : St κ) (e e' : EId κ) (f) :
    (s.upE e f).edge e' = if e' = e then f (s.edge e) else s.edge e' := by
  simp [upE, Function.update_apply]
@[simp] theorem upE_same (s : St κ) (e : EId κ) (f) : (s.upE e f).edge e = f (s.edge e) := by
  simp [upE]
theorem upE_ne (s : St κ) {e e' : EId κ} (h : e' ≠ e) (f) : (s.upE e f).edge e' = s.edge e' := by
  simp [upE_edge, h]
@[simp] theorem upC_edge (s : St κ) (c : κ) (f) : (s.upC c f).edge = s.edge := rfl
@[simp] theorem upC_W (s : St κ) (c : κ) (f) : (s.upC c f).W = s.W := rfl
@[simp] theorem upC_N (s : St κ) (c : κ) (f) : (s.upC c f).N = s.N := rfl
@[simp] theorem upC_D (s : St κ) (c : κ) (f) : (s.upC c f).D = s.D := rfl
theorem upC_conf (s : St κ) (c c' : κ) (f) :
    (s.upC c f).conf c' = if c' = c then f (s.conf c) else s.conf c' := by
  simp [upC, Function.update_apply]
@[simp] theorem upC_same (s : St κ) (c : κ) (f) : (s.upC c f).conf c = f (s.conf c) := by simp [upC]
theorem upC_ne (s : St κ) {c c' : κ} (h : c' ≠ c) (f) : (s.upC c f).conf c' = s.conf c' := by
  simp [upC_conf, h]

theorem isDone_iff (s : St κ) (c : κ) : s.isDone c = true ↔ s.asg c = .one ∨ s.asg c = .czero := by
  simp [isDone]

theorem not_done {s : St κ} {c : κ} (h : s.isDone c = false) : s.asg c = .unknown ∨ s.asg c = .zero := by
  have : ¬ (s.asg c = .one ∨ s.asg c = .czero) := by rw [← isDone_iff, h]; simp
  cases hc : s.asg c <;> simp_all

theorem zero_not_done {s : St κ} {c : κ} (h : s.asg c = .zero) : s.isDone c = false := by
  simp [isDone, h]

theorem unknown_not_done {s : St κ} {c : κ} (h : s.asg c = .unknown) : s.isDone c = false := by
  simp [isDone, h]

/-- An edge that has neither been handled nor released. -/
def isOpen (s : St κ) (e : EId κ) : Bool := !(s.edge e).handled && (s.edge e).refcnt != -1

end St

open St

variable (G : Graph κ) (V : κ → Prop) (lev : κ → Nat)

/-- How often an edge is referred to by dependency sets. -/
def depCnt (s : St κ) (e : EId κ) : Nat :=
  ((G.origTargets e).dedup.map fun t => (s.conf t).deps.count e).sum

/-- How often an edge is referred to, `H` being the references held by the running functions. -/
def total (H : List (EId κ)) (s : St κ) (e : EId κ) : Nat :=
  s.W.count e + s.N.count e + s.D.count e + depCnt G s e + H.count e

/-- The edge is known not to make its source true. -/
def Refuted (s : St κ) (e : EId κ) : Prop :=
  if G.isNeg e then ∀ t ∈ G.origTargets e, s.asg t = .one
  else ∃ t ∈ G.origTargets e, s.asg t = .czero

/-- The edge will be looked at when one of its targets gets a final value. -/
def Waiting (s : St κ) (e : EId κ) : Prop :=
  G.isNeg e = false ∧ ∃ t ∈ (s.edge e).targets, s.asg t = .zero ∧ e ∈ (s.conf t).deps

def inRange (e : EId κ) : Prop := e.2 < (G.succ e.1).length

def Listed (s : St κ) (e : EId κ) : Prop := e ∈ s.W ∨ e ∈ s.N ∨ e ∈ s.D

/-- The invariant.  `H`: references held by running functions; `K`: edges that are being looked at, which
need not be scheduled; `X`: edges to be counted as processed. -/
structure Inv (H K X : List (EId κ)) (s : St κ) : Prop where
  rc : ∀ e, ((s.edge e).refcnt = -1 ∧ total G H s e = 0) ∨ (s.edge e).refcnt = (total G H s e : Int)
  range : ∀ e, 0 < total G H s e → s.asg e.1 ≠ .unknown ∧ inRange G e
  depT : ∀ t, ∀ e ∈ (s.conf t).deps, t ∈ G.origTargets e
  one : ∀ c, s.asg c = .one → V c
  czero : ∀ c, s.asg c = .czero → ¬ V c
  tgt : ∀ e, (s.edge e).refcnt ≠ -1 → s.asg e.1 ≠ .unknown → inRange G e →
    (∀ t ∈ (s.edge e).targets, t ∈ G.origTargets e) ∧
    ∀ t ∈ G.origTargets e, t ∉ (s.edge e).targets → s.asg t = .one
  ns : ∀ c, s.asg c = .zero → (s.conf c).nsuccs = (succIds G c).countP s.isOpen
  clos : ∀ e, s.asg e.1 = .zero → inRange G e → s.isOpen e = false → Refuted G s e
  pend : ∀ e, s.asg e.1 = .zero → inRange G e → s.isOpen e = true → e ∉ K → Listed s e ∨ Waiting G s e
  wait : ∀ e, s.asg e.1 = .zero → inRange G e → s.isOpen e = true → G.isNeg e = false →
    ((s.edge e).processed = true ∨ e ∈ X) → ∀ t ∈ (s.edge e).targets, s.isDone t = false →
    e ∈ (s.conf t).deps
  known : ∀ e, G.isNeg e = true → ((s.edge e).processed = true ∨ (e ∈ X ∧ e ∉ K)) →
    ∀ t ∈ (s.edge e).targets, s.asg t ≠ .unknown
  relW : ∀ e ∈ s.W, G.isNeg e = true → (s.edge e).processed = true →
    ∀ t ∈ (s.edge e).targets, s.asg t = .zero → s.asg e.1 = .zero → ¬ V t
  relN : ∀ e ∈ s.N, G.isNeg e = true ∧ ((s.edge e).processed = true ∨ e ∈ X)
  relD : ∀ e ∈ s.D, G.isNeg e = true → ∀ t ∈ (s.edge e).targets, s.isDone t = true
  uniq : ∀ e, G.isNeg e = true → s.W.count e + s.N.count e ≤ 1
  dist : ∀ c, s.asg c ≠ .unknown → (s.conf c).dist = lev c
  distLe : ∀ c, (s.conf c).dist ≤ lev c
  depD : ∀ t, ∀ e ∈ (s.conf t).deps, (s.conf t).dist = lev t
  stat : ∀ e, (s.edge e).status ≠ 0 → Listed s e

variable {G V lev} {H K X : List (EId κ)} {s : St κ}

/-! ### Sums -/

theorem sum_change {α : Type} [DecidableEq α] (f g : α → Nat) (c : α) (h : ∀ x, x ≠ c → f x = g x) :
    ∀ l : List α, l.Nodup → (c ∈ l → (l.map f).sum + g c = (l.map g).sum + f c) ∧
      (c ∉ l → (l.map f).sum = (l.map g).sum)
  | [], _ => by simp
  | x :: l, hn => by
    obtain ⟨hx, hl⟩ := List.nodup_cons.1 hn
    have ih := sum_change f g c h l hl
    by_cases hc : x = c
    · subst hc
      refine ⟨fun _ => ?_, fun h => by simp at h⟩
      simp only [List.map_cons, List.sum_cons]
      have := ih.2 hx; omega
    · refine ⟨fun hm => ?_, fun hm => ?_⟩
      · simp only [List.mem_cons, show c ≠ x from Ne.symm hc, false_or] at hm
        simp only [List.map_cons, List.sum_cons]
        have := ih.1 hm; have := h x hc; omega
      · simp only [List.mem_cons, not_or] at hm
        simp only [List.map_cons, List.sum_cons, ih.2 hm.2, h x hc]

theorem depCnt_congr {s s' : St κ} (h : ∀ t, (s'.conf t).deps = (s.conf t).deps) (e : EId κ) :
    depCnt G s' e = depCnt G s e := by simp only [depCnt, h]

/-- Changing the dependency set of one configuration. -/
theorem depCnt_change {s s' : St κ} {c : κ} (h : ∀ t, t ≠ c → (s'.conf t).deps = (s.conf t).deps)
    (e : EId κ) (hc : e ∈ (s.conf c).deps ∨ e ∈ (s'.conf c).deps → c ∈ G.origTargets e) :
    depCnt G s' e + (s.conf c).deps.count e = depCnt G s e + (s'.conf c).deps.count e := by
  have := sum_change (fun t => (s'.conf t).deps.count e) (fun t => (s.conf t).deps.count e) c
    (fun x hx => by simp only [h x hx]) (G.origTargets e).dedup (List.nodup_dedup _)
  by_cases hm : c ∈ G.origTargets e
  · exact this.1 (List.mem_dedup.2 hm)
  · have h1 := this.2 (fun h => hm (List.mem_dedup.1 h))
    have h2 : (s.conf c).deps.count e = 0 := List.count_eq_zero.2 fun h => hm (hc (.inl h))
    have h3 : (s'.conf c).deps.count e = 0 := List.count_eq_zero.2 fun h => hm (hc (.inr h))
    simp only [depCnt] at h1 ⊢
    omega

theorem le_sum_of_mem (x : Nat) : ∀ l : List Nat, x ∈ l → x ≤ l.sum
  | [], h => by simp at h
  | y :: l, h => by
    simp only [List.sum_cons]
    rcases List.mem_cons.1 h with rfl | h
    · omega
    · have := le_sum_of_mem x l h; omega

theorem depCnt_pos {s : St κ} {e : EId κ} {t : κ} (ht : t ∈ G.origTargets e) (he : e ∈ (s.conf t).deps) :
    0 < depCnt G s e := by
  have h1 : 0 < (s.conf t).deps.count e := List.count_pos_iff.2 he
  have h2 : (s.conf t).deps.count e ≤ depCnt G s e :=
    le_sum_of_mem _ _ (List.mem_map.2 ⟨t, List.mem_dedup.2 ht, rfl⟩)
  omega

theorem total_pos_of_listed {e : EId κ} (h : Listed s e) : 0 < total G H s e := by
  unfold total
  rcases h with h | h | h <;> have := List.count_pos_iff.2 h <;> omega

theorem total_pos_of_mem {e : EId κ} (h : e ∈ H) : 0 < total G H s e := by
  unfold total
  have := List.count_pos_iff.2 h; omega

/-- An open edge of an unfinished configuration has references. -/
theorem Inv.pend_total (h : Inv G V lev H K X s) {e : EId κ} (hz : s.asg e.1 = .zero) (hr : inRange G e)
    (ho : s.isOpen e = true) (hk : e ∉ K) : 0 < total G H s e := by
  rcases h.pend e hz hr ho hk with hl | ⟨_, t, ht, _, hd⟩
  · exact total_pos_of_listed hl
  · have := depCnt_pos (h.depT t e hd) hd
    unfold total; omega

theorem Inv.refcnt_pos (h : Inv G V lev H K X s) {e : EId κ} (ht : 0 < total G H s e) :
    0 < (s.edge e).refcnt := by
  rcases h.rc e with ⟨_, h0⟩ | h1
  · omega
  · omega

theorem Inv.held_pos (h : Inv G V lev H K X s) {e : EId κ} (he : e ∈ H) : 0 < (s.edge e).refcnt :=
  h.refcnt_pos (total_pos_of_mem he)

/-! ### Operations on one edge -/

/-- The invariant after an operation that touches one edge object and the places that refer to it. -/
theorem Inv.edgeOp {H' K' X' : List (EId κ)} {s' : St κ} (h : Inv G V lev H K X s) (e : EId κ)
    (hconf : s'.conf = s.conf) (hedge : ∀ e', e' ≠ e → s'.edge e' = s.edge e')
    (hW : ∀ e', e' ≠ e → s'.W.count e' = s.W.count e') (hN : ∀ e', e' ≠ e → s'.N.count e' = s.N.count e')
    (hD : ∀ e', e' ≠ e → s'.D.count e' = s.D.count e') (hH : ∀ e', e' ≠ e → H'.count e' = H.count e')
    (hK : ∀ e', e' ≠ e → (e' ∈ K' ↔ e' ∈ K)) (hX : ∀ e', e' ≠ e → (e' ∈ X' ↔ e' ∈ X))
    (hrc : ((s'.edge e).refcnt = -1 ∧ total G H' s' e = 0) ∨ (s'.edge e).refcnt = (total G H' s' e : Int))
    (hrange : 0 < total G H' s' e → s.asg e.1 ≠ .unknown ∧ inRange G e)
    (htgt : (s'.edge e).refcnt ≠ -1 → s.asg e.1 ≠ .unknown → inRange G e →
      (∀ t ∈ (s'.edge e).targets, t ∈ G.origTargets e) ∧
      ∀ t ∈ G.origTargets e, t ∉ (s'.edge e).targets → s.asg t = .one)
    (hopen : s.asg e.1 = .zero → inRange G e → s'.isOpen e = s.isOpen e)
    (hpend : s.asg e.1 = .zero → inRange G e → s'.isOpen e = true → e ∉ K' → Listed s' e ∨ Waiting G s' e)
    (hwait : s.asg e.1 = .zero → inRange G e → s'.isOpen e = true → G.isNeg e = false →
      ((s'.edge e).processed = true ∨ e ∈ X') → ∀ t ∈ (s'.edge e).targets, s.isDone t = false →
      e ∈ (s.conf t).deps)
    (hknown : G.isNeg e = true → ((s'.edge e).processed = true ∨ (e ∈ X' ∧ e ∉ K')) →
      ∀ t ∈ (s'.edge e).targets, s.asg t ≠ .unknown)
    (hrelW : e ∈ s'.W → G.isNeg e = true → (s'.edge e).processed = true →
      ∀ t ∈ (s'.edge e).targets, s.asg t = .zero → s.asg e.1 = .zero → ¬ V t)
    (hrelN : e ∈ s'.N → G.isNeg e = true ∧ ((s'.edge e).processed = true ∨ e ∈ X'))
    (hrelD : e ∈ s'.D → G.isNeg e = true → ∀ t ∈ (s'.edge e).targets, s.isDone t = true)
    (huniq : G.isNeg e = true → s'.W.count e + s'.N.count e ≤ 1)
    (hstat : (s'.edge e).status ≠ 0 → Listed s' e) : Inv G V lev H' K' X' s' := by
  have hasg : s'.asg = s.asg := by funext c; simp only [St.asg, hconf]
  have hdone : s'.isDone = s.isDone := by funext c; simp only [St.isDone, hasg]
  have hdep : ∀ e', depCnt G s' e' = depCnt G s e' := fun e' => depCnt_congr (by rw [hconf]; simp) e'
  have htot : ∀ e', e' ≠ e → total G H' s' e' = total G H s e' := fun e' hne => by
    simp only [total, hW e' hne, hN e' hne, hD e' hne, hH e' hne, hdep]
  have mW : ∀ e', e' ≠ e → (e' ∈ s'.W ↔ e' ∈ s.W) := fun e' hne => by
    rw [← List.count_pos_iff, ← List.count_pos_iff, hW e' hne]
  have mN : ∀ e', e' ≠ e → (e' ∈ s'.N ↔ e' ∈ s.N) := fun e' hne => by
    rw [← List.count_pos_iff, ← List.count_pos_iff, hN e' hne]
  have mD : ∀ e', e' ≠ e → (e' ∈ s'.D ↔ e' ∈ s.D) := fun e' hne => by
    rw [← List.count_pos_iff, ← List.count_pos_iff, hD e' hne]
  have mL : ∀ e', e' ≠ e → (Listed s' e' ↔ Listed s e') := fun e' hne => by
    simp only [Listed, mW e' hne, mN e' hne, mD e' hne]
  have hop : ∀ e', s.asg e'.1 = .zero → inRange G e' → s'.isOpen e' = s.isOpen e' := by
    intro e' hz hr
    by_cases hee : e' = e
    · subst hee; exact hopen hz hr
    · simp only [St.isOpen, hedge e' hee]
  exact {
    rc := fun e' => by
      by_cases hee : e' = e
      · subst hee; exact hrc
      · rw [hedge e' hee, htot e' hee]; exact h.rc e'
    range := fun e' => by
      rw [hasg]
      by_cases hee : e' = e
      · subst hee; exact hrange
      · rw [htot e' hee]; exact h.range e'
    depT := by rw [hconf]; exact h.depT
    one := by rw [hasg]; exact h.one
    czero := by rw [hasg]; exact h.czero
    tgt := fun e' => by
      rw [hasg]
      by_cases hee : e' = e
      · subst hee; exact htgt
      · rw [hedge e' hee]; exact h.tgt e'
    ns := fun c hc => by
      rw [hasg] at hc
      rw [hconf, h.ns c hc]
      refine List.countP_congr fun e' he' => ?_
      simp only [St.succIds, List.mem_map, List.mem_range] at he'
      obtain ⟨i, hi, rfl⟩ := he'
      rw [hop (c, i) hc hi]
    clos := fun e' hz hr ho => by
      rw [hasg] at hz
      rw [hop e' hz hr] at ho
      have := h.clos e' hz hr ho
      unfold Refuted at this ⊢
      rw [hasg]; exact this
    pend := fun e' hz hr ho hk => by
      rw [hasg] at hz
      by_cases hee : e' = e
      · subst hee; exact hpend hz hr ho hk
      · rw [hop e' hz hr] at ho
        rw [hK e' hee] at hk
        rw [mL e' hee]
        rcases h.pend e' hz hr ho hk with h2 | ⟨h2, t, h3, h4, h5⟩
        · exact .inl h2
        · exact .inr ⟨h2, t, by rw [hedge e' hee]; exact h3, by rw [hasg]; exact h4, by rw [hconf]; exact h5⟩
    wait := fun e' hz hr ho hn hp t ht hd => by
      rw [hasg] at hz
      rw [hdone] at hd
      rw [hconf]
      by_cases hee : e' = e
      · subst hee; exact hwait hz hr ho hn hp t ht hd
      · rw [hop e' hz hr] at ho
        rw [hedge e' hee] at hp ht
        rw [hX e' hee] at hp
        exact h.wait e' hz hr ho hn hp t ht hd
    known := fun e' hn hp t ht => by
      rw [hasg]
      by_cases hee : e' = e
      · subst hee; exact hknown hn hp t ht
      · rw [hedge e' hee] at hp ht
        rw [hX e' hee, hK e' hee] at hp
        exact h.known e' hn hp t ht
    relW := fun e' hm hn hp t ht hz hz2 => by
      rw [hasg] at hz hz2
      by_cases hee : e' = e
      · subst hee; exact hrelW hm hn hp t ht hz hz2
      · rw [hedge e' hee] at hp ht
        rw [mW e' hee] at hm
        exact h.relW e' hm hn hp t ht hz hz2
    relN := fun e' hm => by
      by_cases hee : e' = e
      · subst hee; exact hrelN hm
      · rw [hedge e' hee, hX e' hee]
        rw [mN e' hee] at hm
        exact h.relN e' hm
    relD := fun e' hm hn t ht => by
      rw [hdone]
      by_cases hee : e' = e
      · subst hee; exact hrelD hm hn t ht
      · rw [hedge e' hee] at ht
        rw [mD e' hee] at hm
        exact h.relD e' hm hn t ht
    uniq := fun e' hn => by
      by_cases hee : e' = e
      · subst hee; exact huniq hn
      · rw [hW e' hee, hN e' hee]; exact h.uniq e' hn
    dist := by rw [hasg, hconf]; exact h.dist
    distLe := by rw [hconf]; exact h.distLe
    depD := by rw [hconf]; exact h.depD
    stat := fun e' hs => by
      by_cases hee : e' = e
      · subst hee; exact hstat hs
      · rw [hedge e' hee] at hs
        rw [mL e' hee]; exact h.stat e' hs }

/-- `if(e->refcnt == 0) graph->release(e);` -/
theorem Inv.release0 (h : Inv G V lev H K X s) (e : EId κ) (hK : e ∈ K → e ∈ H) :
    Inv G V lev H K X (s.releaseIf0 e) := by
  unfold St.releaseIf0
  split
  case isFalse => exact h
  case isTrue h0 =>
  have htot : total G H s e = 0 := by
    rcases h.rc e with ⟨h1, _⟩ | h1
    · omega
    · omega
  have hnl : ¬ Listed s e := fun hl => by have := total_pos_of_listed (G := G) (H := H) hl; omega
  have hnK : e ∉ K := fun hk => by
    have := total_pos_of_mem (G := G) (s := s) (hK hk); omega
  have hop : (s.release e).isOpen e = false := by simp [St.isOpen, St.release]
  refine h.edgeOp e rfl (fun e' hne => upE_ne _ hne _) (fun _ _ => rfl) (fun _ _ => rfl) (fun _ _ => rfl)
    (fun _ _ => rfl) (fun _ _ => Iff.rfl) (fun _ _ => Iff.rfl) (.inl ⟨by simp [St.release], htot⟩)
    (h.range e) (fun hr => by simp [St.release] at hr) ?_ (fun _ _ ho => by simp [hop] at ho)
    (fun _ _ ho => by simp [hop] at ho) (fun _ _ t ht => by simp [St.release] at ht)
    (fun hm => absurd (.inl hm) hnl) (fun hm => absurd (.inr (.inl hm)) hnl)
    (fun hm => absurd (.inr (.inr hm)) hnl) (h.uniq e)
    (fun hs => h.stat e (by simpa [St.release] using hs))
  intro hz hr
  rw [hop]
  by_contra ho
  have := h.pend_total hz hr (by simpa using Ne.symm ho) hnK
  omega

/-- `--e->refcnt` for a reference held by the running function. -/
theorem Inv.drop {e : EId κ} (h : Inv G V lev (e :: H) K X s) {K' : List (EId κ)}
    (hK : ∀ e', e' ≠ e → (e' ∈ K' ↔ e' ∈ K))
    (hp : s.asg e.1 = .zero → inRange G e → s.isOpen e = true → e ∉ K' → Listed s e ∨ Waiting G s e)
    (hkn : G.isNeg e = true → e ∈ X → e ∉ K' → ∀ t ∈ (s.edge e).targets, s.asg t ≠ .unknown) :
    Inv G V lev H K' X (s.deref e) := by
  have hpos := h.held_pos (List.mem_cons_self ..)
  have htot : total G (e :: H) s e = total G H s e + 1 := by simp [total]; omega
  have hrf : (s.edge e).refcnt = (total G (e :: H) s e : Int) := by
    rcases h.rc e with ⟨h1, _⟩ | h1
    · omega
    · exact h1
  have hop : (s.deref e).isOpen e = s.isOpen e := by
    simp only [St.isOpen, St.deref, upE_same]
    have h1 : ((s.edge e).refcnt != -1) = true := by simp; omega
    have h2 : ((s.edge e).refcnt - 1 != -1) = true := by simp; omega
    rw [h1, h2]
  refine h.edgeOp e rfl (fun e' hne => upE_ne _ hne _) (fun _ _ => rfl) (fun _ _ => rfl) (fun _ _ => rfl)
    (fun e' hne => by simp [List.count_cons, Ne.symm hne]) hK (fun _ _ => Iff.rfl)
    (.inr ?_) (fun hr => h.range e (by
      have : total G H (s.deref e) e = total G H s e := rfl
      omega)) ?_ (fun _ _ => hop)
    ?_ ?_ ?_ ?_ ?_ ?_ (h.uniq e) ?_
  · show (s.deref e |>.edge e).refcnt = (total G H s e : Int)
    simp only [St.deref, upE_same]
    omega
  · intro _ hu hr
    simpa [St.deref] using h.tgt e (by omega) hu hr
  · intro hz hr ho hk
    rw [hop] at ho
    rcases hp hz hr ho hk with h1 | ⟨h1, h2⟩
    · exact .inl h1
    · exact .inr ⟨h1, by simpa [St.deref] using h2⟩
  · intro hz hr ho hn
    rw [hop] at ho
    simpa [St.deref] using h.wait e hz hr ho hn
  · intro hn hp t ht
    simp only [St.deref, upE_same] at hp ht
    rcases hp with hp | hp
    · exact h.known e hn (.inl hp) t ht
    · exact hkn hn hp.1 hp.2 t ht
  · intro hm
    simpa [St.deref] using h.relW e hm
  · intro hm
    simpa [St.deref] using h.relN e hm
  · intro hm
    simpa [St.deref] using h.relD e hm
  · intro hs
    exact h.stat e (by simpa [St.deref] using hs)

/-- Changing the targets (erasing those with value ONE). -/
theorem Inv.setTargets (h : Inv G V lev H K X s) (e : EId κ) (ts : List κ)
    (hsub : ∀ t ∈ ts, t ∈ (s.edge e).targets) (hone : ∀ t ∈ (s.edge e).targets, t ∉ ts → s.asg t = .one) :
    Inv G V lev H K X (s.upE e fun r => { r with targets := ts }) := by
  have hop : (s.upE e fun r => { r with targets := ts }).isOpen e = s.isOpen e := by simp [St.isOpen]
  refine h.edgeOp e rfl (fun e' hne => upE_ne _ hne _) (fun _ _ => rfl) (fun _ _ => rfl) (fun _ _ => rfl)
    (fun _ _ => rfl) (fun _ _ => Iff.rfl) (fun _ _ => Iff.rfl) ?_ (h.range e) ?_ (fun _ _ => hop)
    ?_ ?_ ?_ ?_ ?_ ?_ (h.uniq e) ?_
  · rw [upE_same]; exact h.rc e
  · simp only [upE_same]
    intro h1 h2 h3
    have := h.tgt e h1 h2 h3
    refine ⟨fun t ht => this.1 t (hsub t ht), fun t ht hn => ?_⟩
    by_cases hm : t ∈ (s.edge e).targets
    · exact hone t hm hn
    · exact this.2 t ht hm
  · intro hz hr ho hk
    rw [hop] at ho
    rcases h.pend e hz hr ho hk with h1 | ⟨h1, t, h2, h3, h4⟩
    · exact .inl h1
    · refine .inr ⟨h1, t, ?_, h3, h4⟩
      simp only [upE_same]
      by_contra hn
      rw [hone t h2 hn] at h3; cases h3
  · intro hz hr ho hn hp t ht
    rw [hop] at ho
    simp only [upE_same] at hp ht
    exact h.wait e hz hr ho hn hp t (hsub t ht)
  · intro hn hp t ht
    simp only [upE_same] at hp ht
    exact h.known e hn hp t (hsub t ht)
  · intro hm hn hp t ht
    simp only [upE_same] at hp ht
    exact h.relW e hm hn hp t (hsub t ht)
  · intro hm
    simpa using h.relN e hm
  · intro hm hn t ht
    simp only [upE_same] at ht
    exact h.relD e hm hn t (hsub t ht)
  · intro hs
    exact h.stat e (by simpa using hs)

/-- Putting an edge on the stack `D`. -/
theorem Inv.pushD (h : Inv G V lev H K X s) (e : EId κ) (st : Nat)
    (ht : 0 < total G H s e) (hD : G.isNeg e = true → ∀ t ∈ (s.edge e).targets, s.isDone t = true) :
    Inv G V lev H K X
      { ((s.upE e fun r => { r with status := st }).ref e) with D := e :: s.D } := by
  have hrf : (s.edge e).refcnt = (total G H s e : Int) := by
    rcases h.rc e with ⟨_, h1⟩ | h1
    · omega
    · exact h1
  have hedge : ({ ((s.upE e fun r => { r with status := st }).ref e) with D := e :: s.D } : St κ).edge e =
      { s.edge e with status := st, refcnt := (s.edge e).refcnt + 1 } := by simp [St.ref]
  have hop : ({ ((s.upE e fun r => { r with status := st }).ref e) with D := e :: s.D } : St κ).isOpen e =
      s.isOpen e := by
    unfold St.isOpen
    rw [hedge]
    show (!(s.edge e).handled && (s.edge e).refcnt + 1 != -1) = _
    have h1 : ((s.edge e).refcnt != -1) = true := by simp; omega
    have h2 : ((s.edge e).refcnt + 1 != -1) = true := by simp; omega
    rw [h1, h2]
  have hl : Listed ({ ((s.upE e fun r => { r with status := st }).ref e) with D := e :: s.D } : St κ) e :=
    .inr (.inr (List.mem_cons_self ..))
  have hr := h.range e ht
  refine h.edgeOp e rfl ?_ (fun _ _ => rfl) (fun _ _ => rfl)
    (fun e' hne => by simp [List.count_cons, Ne.symm hne])
    (fun _ _ => rfl) (fun _ _ => Iff.rfl) (fun _ _ => Iff.rfl) (.inr ?_) (fun _ => hr) ?_ (fun _ _ => hop)
    (fun _ _ _ _ => .inl hl) ?_ ?_ ?_ ?_ ?_ (h.uniq e) (fun _ => hl)
  · intro e' hne
    simp [St.ref, upE_ne _ hne]
  · rw [hedge]
    show (s.edge e).refcnt + 1 = _
    rw [hrf]
    have : total G H ({ ((s.upE e fun r => { r with status := st }).ref e) with D := e :: s.D } : St κ) e =
        total G H s e + 1 := by
      have : depCnt G ({ ((s.upE e fun r => { r with status := st }).ref e) with D := e :: s.D } : St κ) e =
        depCnt G s e := rfl
      simp only [total, this]
      simp [St.ref]; omega
    rw [this]; omega
  · rw [hedge]; intro _ h2 h3
    exact h.tgt e (by omega) h2 h3
  · rw [hedge, hop]; exact h.wait e
  · rw [hedge]; exact h.known e
  · rw [hedge]; exact h.relW e
  · rw [hedge]; exact h.relN e
  · rw [hedge]; exact fun _ => hD

/-- Putting an edge at the end of `N`. -/
theorem Inv.pushN (h : Inv G V lev H K X s) (e : EId κ) (st : Nat)
    (ht : 0 < total G H s e) (hn : G.isNeg e = true) (hx : e ∈ X) (hW : e ∉ s.W) (hN : e ∉ s.N) :
    Inv G V lev H K X
      { ((s.upE e fun r => { r with status := st }).ref e) with N := s.N ++ [e] } := by
  have hrf : (s.edge e).refcnt = (total G H s e : Int) := by
    rcases h.rc e with ⟨_, h1⟩ | h1
    · omega
    · exact h1
  have hedge : ({ ((s.upE e fun r => { r with status := st }).ref e) with N := s.N ++ [e] } : St κ).edge e =
      { s.edge e with status := st, refcnt := (s.edge e).refcnt + 1 } := by simp [St.ref]
  have hop : ({ ((s.upE e fun r => { r with status := st }).ref e) with N := s.N ++ [e] } : St κ).isOpen e =
      s.isOpen e := by
    unfold St.isOpen
    rw [hedge]
    show (!(s.edge e).handled && (s.edge e).refcnt + 1 != -1) = _
    have h1 : ((s.edge e).refcnt != -1) = true := by simp; omega
    have h2 : ((s.edge e).refcnt + 1 != -1) = true := by simp; omega
    rw [h1, h2]
  have hl : Listed ({ ((s.upE e fun r => { r with status := st }).ref e) with N := s.N ++ [e] } : St κ) e :=
    .inr (.inl (by simp))
  have hr := h.range e ht
  refine h.edgeOp e rfl ?_ (fun _ _ => rfl)
    (fun e' hne => by simp [List.count_append, List.count_cons, Ne.symm hne]) (fun _ _ => rfl)
    (fun _ _ => rfl) (fun _ _ => Iff.rfl) (fun _ _ => Iff.rfl) (.inr ?_) (fun _ => hr) ?_ (fun _ _ => hop)
    (fun _ _ _ _ => .inl hl) ?_ ?_ ?_ ?_ ?_ ?_ (fun _ => hl)
  · intro e' hne
    simp [St.ref, upE_ne _ hne]
  · rw [hedge]
    show (s.edge e).refcnt + 1 = _
    rw [hrf]
    have : total G H ({ ((s.upE e fun r => { r with status := st }).ref e) with N := s.N ++ [e] } : St κ) e =
        total G H s e + 1 := by
      have : depCnt G ({ ((s.upE e fun r => { r with status := st }).ref e) with N := s.N ++ [e] } : St κ) e =
        depCnt G s e := rfl
      simp only [total, this]
      simp [St.ref]; omega
    rw [this]; omega
  · rw [hedge]; intro _ h2 h3
    exact h.tgt e (by omega) h2 h3
  · rw [hedge, hop]; exact h.wait e
  · rw [hedge]; exact h.known e
  · rw [hedge]; exact h.relW e
  · exact fun _ => ⟨hn, .inr hx⟩
  · rw [hedge]; exact h.relD e
  · intro _
    have h1 : s.W.count e = 0 := List.count_eq_zero.2 hW
    have h2 : s.N.count e = 0 := List.count_eq_zero.2 hN
    show s.W.count e + (s.N ++ [e]).count e ≤ 1
    simp [h1, h2]

/-- Putting a new edge on `W`. -/
theorem Inv.pushW (h : Inv G V lev H K X s) (e : EId κ) (st : Nat)
    (ht : 0 < total G H s e) (hW : e ∉ s.W) (hN : e ∉ s.N) (hp : (s.edge e).processed = false) :
    Inv G V lev H K X
      { ((s.upE e fun r => { r with status := st }).ref e) with W := s.W ++ [e] } := by
  have hrf : (s.edge e).refcnt = (total G H s e : Int) := by
    rcases h.rc e with ⟨_, h1⟩ | h1
    · omega
    · exact h1
  have hedge : ({ ((s.upE e fun r => { r with status := st }).ref e) with W := s.W ++ [e] } : St κ).edge e =
      { s.edge e with status := st, refcnt := (s.edge e).refcnt + 1 } := by simp [St.ref]
  have hop : ({ ((s.upE e fun r => { r with status := st }).ref e) with W := s.W ++ [e] } : St κ).isOpen e =
      s.isOpen e := by
    unfold St.isOpen
    rw [hedge]
    show (!(s.edge e).handled && (s.edge e).refcnt + 1 != -1) = _
    have h1 : ((s.edge e).refcnt != -1) = true := by simp; omega
    have h2 : ((s.edge e).refcnt + 1 != -1) = true := by simp; omega
    rw [h1, h2]
  have hl : Listed ({ ((s.upE e fun r => { r with status := st }).ref e) with W := s.W ++ [e] } : St κ) e :=
    .inl (by simp)
  have hr := h.range e ht
  refine h.edgeOp e rfl ?_ (fun e' hne => by simp [List.count_append, List.count_cons, Ne.symm hne])
    (fun _ _ => rfl) (fun _ _ => rfl)
    (fun _ _ => rfl) (fun _ _ => Iff.rfl) (fun _ _ => Iff.rfl) (.inr ?_) (fun _ => hr) ?_ (fun _ _ => hop)
    (fun _ _ _ _ => .inl hl) ?_ ?_ ?_ ?_ ?_ ?_ (fun _ => hl)
  · intro e' hne
    simp [St.ref, upE_ne _ hne]
  · rw [hedge]
    show (s.edge e).refcnt + 1 = _
    rw [hrf]
    have : total G H ({ ((s.upE e fun r => { r with status := st }).ref e) with W := s.W ++ [e] } : St κ) e =
        total G H s e + 1 := by
      have : depCnt G ({ ((s.upE e fun r => { r with status := st }).ref e) with W := s.W ++ [e] } : St κ) e =
        depCnt G s e := rfl
      simp only [total, this]
      simp [St.ref]; omega
    rw [this]; omega
  · rw [hedge]; intro _ h2 h3
    exact h.tgt e (by omega) h2 h3
  · rw [hedge, hop]; exact h.wait e
  · rw [hedge]; exact h.known e
  · rw [hedge]
    intro _ _ hp'
    rw [show ({ s.edge e with status := st, refcnt := (s.edge e).refcnt + 1 } : EdgeSt κ).processed =
      (s.edge e).processed from rfl, hp] at hp'
    cases hp'
  · rw [hedge]; exact fun hm => absurd hm hN
  · rw [hedge]; exact h.relD e
  · intro _
    have h1 : s.W.count e = 0 := List.count_eq_zero.2 hW
    have h2 : s.N.count e = 0 := List.count_eq_zero.2 hN
    show (s.W ++ [e]).count e + s.N.count e ≤ 1
    simp [h1, h2]

/-- Setting the flag `processed`. -/
theorem Inv.setProcessed (h : Inv G V lev H K (e :: X) s) (e' : EId κ) (he : e' = e) (hnK : e ∉ K)
    (hW : G.isNeg e = true → (s.edge e).processed = true ∨ e ∉ s.W ∨
      ∀ t ∈ (s.edge e).targets, s.isDone t = true) :
    Inv G V lev H K X (s.upE e' fun r => { r with processed := true }) := by
  subst he
  have hop : (s.upE e' fun r => { r with processed := true }).isOpen e' = s.isOpen e' := by simp [St.isOpen]
  refine h.edgeOp e' rfl (fun _ hne => upE_ne _ hne _) (fun _ _ => rfl) (fun _ _ => rfl) (fun _ _ => rfl)
    (fun _ _ => rfl) (fun _ _ => Iff.rfl) (fun e'' hne => by simp [hne]) ?_ (h.range e') ?_ (fun _ _ => hop)
    ?_ ?_ ?_ ?_ ?_ ?_ (h.uniq e') ?_
  · rw [upE_same]; exact h.rc e'
  · simpa using h.tgt e'
  · intro hz hr ho hk
    rw [hop] at ho
    rcases h.pend e' hz hr ho hk with h1 | ⟨h1, h2⟩
    · exact .inl h1
    · exact .inr ⟨h1, by simpa using h2⟩
  · intro hz hr ho hn _ t ht
    rw [hop] at ho
    simp only [upE_same] at ht
    exact h.wait e' hz hr ho hn (.inr (List.mem_cons_self ..)) t ht
  · intro hn _ t ht
    simp only [upE_same] at ht
    exact h.known e' hn (.inr ⟨List.mem_cons_self .., hnK⟩) t ht
  · intro hm hn _ t ht hz hz2
    simp only [upE_same] at ht
    rcases hW hn with h1 | h1 | h1
    · exact h.relW e' hm hn h1 t ht hz hz2
    · exact absurd hm h1
    · have := h1 t ht
      rw [zero_not_done hz] at this; cases this
  · intro hm
    exact ⟨(h.relN e' hm).1, .inl (by simp)⟩
  · intro hm
    simpa using h.relD e' hm
  · intro hs
    exact h.stat e' (by simpa using hs)

end CTL
end Verif
