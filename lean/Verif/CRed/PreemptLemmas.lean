import Verif.CRed.Preempt
import Verif.CRed.RelLemmas
import Verif.CRed.ParPlaceLemmas

/-!
# Preemptive firing: moving the tokens of a place ahead of time
-/

namespace Verif
namespace CRed
open CPN XCol

/-! ### Nets that differ in the tokens at the start only -/

structure Remark (R R' : Red) : Prop where
  types : R'.net.types = R.net.types
  vty : R'.net.vty = R.net.vty
  trs : R'.net.transitions = R.net.transitions
  inh : R'.net.inhibitors = R.net.inhibitors
  tys : ∀ p, (R'.net.place p).ty = (R.net.place p).ty
  skP : R'.skP = R.skP
  skT : R'.skT = R.skT

theorem Remark.refl (R : Red) : Remark R R := ⟨rfl, rfl, rfl, rfl, fun _ => rfl, rfl, rfl⟩

theorem Remark.trans {R R' R'' : Red} (h : Remark R R') (h' : Remark R' R'') : Remark R R'' :=
  ⟨h'.types.trans h.types, h'.vty.trans h.vty, h'.trs.trans h.trs, h'.inh.trans h.inh, fun p => (h'.tys p).trans (h.tys p),
    h'.skP.trans h.skP, h'.skT.trans h.skT⟩

theorem Remark.tran {R R' : Red} (h : Remark R R') (t : Nat) : R'.net.trans t = R.net.trans t := by
  unfold CNet.trans; rw [h.trs]

theorem Remark.arcs {R R' : Red} (h : Remark R R') (ρ : Nat → Val) (as : List CArc) (p : Nat) (x : Val) :
    arcsTokens R'.net ρ as p x = arcsTokens R.net ρ as p x := by
  unfold arcsTokens; rw [h.types, h.vty]

theorem Remark.total {R R' : Red} (h : Remark R R') (M : CMark) (p : Nat) : R'.net.total M p = R.net.total M p := by
  unfold CNet.total; rw [h.types, h.tys]

theorem Remark.step {R R' : Red} (h : Remark R R') {M L : CMark} {t : Nat} {ρ : Nat → Val} : R'.Step M t ρ L ↔ R.Step M t ρ L := by
  unfold Red.Step CNet.Step CNet.Legal CNet.Enabled
  have hf : R'.net.fire M t ρ = R.net.fire M t ρ := by
    funext p x
    unfold CNet.fire
    rw [h.tran, h.arcs, h.arcs]
  have ht : R'.net.total = R.net.total := by
    funext M p
    exact h.total M p
  have ha : arcsTokens R'.net = arcsTokens R.net := by
    funext ρ as p x
    exact h.arcs ρ as p x
  rw [h.skT, h.trs, h.tran, h.types, h.vty, h.inh, hf, ht, ha]

theorem Remark.canFire {R R' : Red} (h : Remark R R') {M : CMark} {t : Nat} : R'.CanFire M t ↔ R.CanFire M t :=
  exists_congr fun _ => exists_congr fun _ => h.step

/-! ### Moving tokens -/

/-- `k` tokens of each listed value move from `p` to all of `outs` -/
def moved (p : Nat) (outs : List Nat) (k : Nat) (M : CMark) (L : List Val) : CMark := fun q x =>
  if q = p then M q x - k * L.count x else if q ∈ outs then M q x + k * L.count x else M q x

/-- The only consumer of `p` moves `k` tokens of a value of its choice to all of `outs`, and nothing else; nothing inhibits it, and the
places inhibit nothing. -/
structure Mover (R : Red) (p t k : Nat) (outs : List Nat) : Prop where
  lt : t < R.net.transitions.length
  live : t ∉ R.skT
  only : ∀ u, u < R.net.transitions.length → u ≠ t → u ∉ R.post p
  calm : ∀ h ∈ R.net.inhibitors, h.place ≠ p ∧ h.place ∉ outs ∧ h.trans ≠ t
  apart : p ∉ outs
  pos : 0 < k
  acts : ∀ ρ, R.net.Legal t ρ → ∃ v, ∀ q x, arcsTokens R.net ρ (R.net.trans t).inputs q x = (if q = p ∧ x = v then k else 0) ∧
    arcsTokens R.net ρ (R.net.trans t).outputs q x = (if q ∈ outs ∧ x = v then k else 0)
  can : ∀ v ∈ R.net.types.values (R.net.place p).ty, ∃ ρ, R.net.Legal t ρ ∧ ∀ q x,
    arcsTokens R.net ρ (R.net.trans t).inputs q x = (if q = p ∧ x = v then k else 0) ∧
    arcsTokens R.net ρ (R.net.trans t).outputs q x = (if q ∈ outs ∧ x = v then k else 0)

section
variable {R : Red} {p t k : Nat} {outs : List Nat}

theorem moved_nil (M : CMark) : moved p outs k M [] = M := by
  funext q x
  unfold moved
  simp

theorem moved_one (v : Val) (M : CMark) (q : Nat) (x : Val) : moved p outs k M [v] q x =
    if q = p then M q x - (if x = v then k else 0) else if q ∈ outs then M q x + (if x = v then k else 0) else M q x := by
  unfold moved
  by_cases h : x = v
  · simp [h]
  · simp [h, Ne.symm h]

theorem moved_cons (M : CMark) (v : Val) (L : List Val) : moved p outs k (moved p outs k M [v]) L = moved p outs k M (v :: L) := by
  funext q x
  have e : (v :: L).count x = L.count x + [v].count x := by
    rw [List.count_cons, List.count_singleton]
  unfold moved
  rw [e, Nat.mul_add]
  by_cases h1 : q = p
  · simp only [if_pos h1]; omega
  · by_cases h2 : q ∈ outs
    · simp only [if_neg h1, if_pos h2]; omega
    · simp only [if_neg h1, if_neg h2]

theorem moved_congr (M : CMark) {L L' : List Val} (h : ∀ x, L.count x = L'.count x) : moved p outs k M L = moved p outs k M L' := by
  funext q x
  unfold moved
  rw [h]

theorem fire_moved (hm : Mover R p t k outs) {M : CMark} {ρ : Nat → Val} {v : Val}
    (h : ∀ q x, arcsTokens R.net ρ (R.net.trans t).inputs q x = (if q = p ∧ x = v then k else 0) ∧
      arcsTokens R.net ρ (R.net.trans t).outputs q x = (if q ∈ outs ∧ x = v then k else 0)) :
    R.net.fire M t ρ = moved p outs k M [v] := by
  funext q x
  unfold CNet.fire
  rw [(h q x).1, (h q x).2, moved_one]
  by_cases h1 : q = p
  · subst h1
    have := hm.apart
    simp [this]
  · by_cases h2 : q ∈ outs
    · simp [h1, h2]
    · simp [h1, h2]

theorem fire_step (hm : Mover R p t k outs) {M : CMark} {ρ : Nat → Val} {v : Val} (hl : R.net.Legal t ρ)
    (h : ∀ q x, arcsTokens R.net ρ (R.net.trans t).inputs q x = (if q = p ∧ x = v then k else 0) ∧
      arcsTokens R.net ρ (R.net.trans t).outputs q x = (if q ∈ outs ∧ x = v then k else 0))
    (hk : k ≤ M p v) : R.Step M t ρ (moved p outs k M [v]) := by
  refine ⟨hm.live, hm.lt, hl, ⟨fun q x => ?_, fun i hi he => absurd he (hm.calm i hi).2.2⟩, (fire_moved hm h).symm⟩
  rw [(h q x).1]
  split
  · rename_i e; rw [e.1, e.2]; exact hk
  · exact Nat.zero_le _

theorem reach_moved (hm : Mover R p t k outs) (L : List Val) : ∀ M, R.Reach M → (∀ v ∈ L, v ∈ R.net.types.values (R.net.place p).ty) →
    (∀ x, k * L.count x ≤ M p x) → R.Reach (moved p outs k M L) := by
  induction L with
  | nil => intro M h _ _; rw [moved_nil]; exact h
  | cons v L ih =>
    intro M h hv hc
    rw [← moved_cons]
    obtain ⟨ρ, hl, he⟩ := hm.can v (hv v List.mem_cons_self)
    have hck : ∀ x, k * L.count x + (if x = v then k else 0) ≤ M p x := by
      intro x
      have := hc x
      rw [List.count_cons, Nat.mul_add] at this
      by_cases e : x = v
      · subst e; simpa using this
      · simpa [e, Ne.symm e] using this
    have hkv : k ≤ M p v := by have := hck v; rw [if_pos rfl] at this; omega
    refine ih _ (h.step (fire_step hm hl he hkv)) (fun u hu => hv u (List.mem_cons_of_mem _ hu)) fun x => ?_
    rw [moved_one, if_pos rfl]
    have := hck x
    omega

/-- the second marking is the first one with some tokens moved already -/
def Ahead (R : Red) (p : Nat) (outs : List Nat) (k : Nat) (M M' : CMark) : Prop :=
  ∃ L, (∀ v ∈ L, v ∈ R.net.types.values (R.net.place p).ty) ∧ (∀ x, k * L.count x ≤ M p x) ∧ M' = moved p outs k M L

theorem in_other (hm : Mover R p t k outs) {u : Nat} (hu : u < R.net.transitions.length) (hne : u ≠ t) (ρ : Nat → Val) (x : Val) :
    arcsTokens R.net ρ (R.net.trans u).inputs p x = 0 := in_zero hu (hm.only u hu hne) ρ x

theorem moved_other (M : CMark) (L : List Val) {q : Nat} (h1 : q ≠ p) (h2 : q ∉ outs) : moved p outs k M L q = M q := by
  funext x
  unfold moved
  rw [if_neg h1, if_neg h2]

theorem ahead_step (hm : Mover R p t k outs) {M M' K : CMark} (ha : Ahead R p outs k M M') {u : Nat} {ρ : Nat → Val} (hs : R.Step M u ρ K) :
    Ahead R p outs k K M' ∨ ∃ K', R.Step M' u ρ K' ∧ Ahead R p outs k K K' := by
  obtain ⟨L, hv, hc, rfl⟩ := ha
  obtain ⟨h1, h2, h3, h4, rfl⟩ := hs
  by_cases hu : u = t
  · subst hu
    obtain ⟨v, he⟩ := hm.acts ρ h3
    have hkv : k ≤ M p v := by
      have := h4.1 p v
      rw [(he p v).1, if_pos ⟨rfl, rfl⟩] at this
      exact this
    rw [fire_moved hm he]
    by_cases hvL : v ∈ L
    · left
      have hcnt : ∀ x, L.count x = (v :: L.erase v).count x := fun x => (List.perm_cons_erase hvL).count_eq x
      refine ⟨L.erase v, fun w hw => hv w (List.mem_of_mem_erase hw), fun x => ?_, ?_⟩
      · rw [moved_one, if_pos rfl]
        have := hc x
        rw [hcnt, List.count_cons, Nat.mul_add] at this
        by_cases e : x = v
        · subst e; simp at this ⊢; omega
        · simp [e, Ne.symm e] at this ⊢; exact this
      · rw [moved_cons, moved_congr M hcnt]
    · right
      have hcv : L.count v = 0 := List.count_eq_zero.2 hvL
      have hkv' : k ≤ moved p outs k M L p v := by
        unfold moved
        rw [if_pos rfl, hcv]
        simpa using hkv
      refine ⟨_, fire_step hm h3 he hkv', L, hv, fun x => ?_, ?_⟩
      · rw [moved_one, if_pos rfl]
        have := hc x
        by_cases e : x = v
        · subst e; rw [hcv]; simp
        · simp [e]; exact this
      · funext q x
        rw [moved_one]
        unfold moved
        by_cases h1 : q = p
        · simp only [if_pos h1, List.count_singleton]
          by_cases e : x = v
          · subst e; simp [hcv]
          · simp [e, Ne.symm e]
        · by_cases h2 : q ∈ outs
          · simp only [if_neg h1, if_pos h2, List.count_singleton]
            by_cases e : x = v
            · subst e; simp [hcv]
            · simp [e, Ne.symm e]
          · simp only [if_neg h1, if_neg h2]
  · right
    refine ⟨_, ⟨h1, h2, h3, ⟨fun q x => ?_, fun i hi he => ?_⟩, rfl⟩, L, hv, fun x => ?_, ?_⟩
    · have := h4.1 q x
      unfold moved
      by_cases e : q = p
      · subst e; rw [in_other hm h2 hu]; exact Nat.zero_le _
      · rw [if_neg e]
        split <;> omega
    · have := h4.2 i hi he
      rwa [total_same rfl (fun _ => rfl) (moved_other M L (hm.calm i hi).1 (hm.calm i hi).2.1)]
    · unfold CNet.fire
      rw [in_other hm h2 hu]
      have := hc x
      omega
    · funext q x
      unfold CNet.fire moved
      have h5 := h4.1 q x
      dsimp only
      by_cases e : q = p
      · subst e
        simp only [if_true]
        rw [in_other hm h2 hu]
        have := hc x
        omega
      · rw [if_neg e, if_neg e]
        by_cases e' : q ∈ outs
        · simp only [if_pos e']; omega
        · simp only [if_neg e']

/-- the transitions that no moved token can help or hinder -/
theorem ahead_fire (hm : Mover R p t k outs) {M M' : CMark} (ha : Ahead R p outs k M M') {u : Nat} (hu : u ≠ t)
    (ho : ∀ q ∈ outs, u ∉ R.post q) : R.CanFire M' u ↔ R.CanFire M u := by
  obtain ⟨L, hv, hc, rfl⟩ := ha
  have key : ∀ M M' : CMark, (∀ q, q ≠ p → q ∉ outs → M' q = M q) → R.CanFire M u → R.CanFire M' u := by
    rintro M M' hq ⟨ρ, K, h1, h2, h3, h4, _⟩
    refine ⟨ρ, _, h1, h2, h3, ⟨fun q x => ?_, fun i hi he => ?_⟩, rfl⟩
    · by_cases e : q = p
      · subst e; rw [in_other hm h2 hu]; exact Nat.zero_le _
      · by_cases e' : q ∈ outs
        · rw [in_zero h2 (ho q e')]; exact Nat.zero_le _
        · rw [hq q e e']; exact h4.1 q x
    · rw [total_same rfl (fun _ => rfl) (hq i.place (hm.calm i hi).1 (hm.calm i hi).2.1)]
      exact h4.2 i hi he
  exact ⟨key _ _ fun q h1 h2 => (moved_other M L h1 h2).symm, key _ _ fun q h1 h2 => moved_other M L h1 h2⟩

theorem ahead_dead (hm : Mover R p t k outs) {M M' : CMark} (ha : Ahead R p outs k M M') (hd : ∀ u, ¬R.CanFire M u) : M' = M := by
  obtain ⟨L, hv, hc, rfl⟩ := ha
  cases L with
  | nil => exact moved_nil M
  | cons v L =>
    exfalso
    obtain ⟨ρ, hl, he⟩ := hm.can v (hv v List.mem_cons_self)
    have := hc v
    rw [List.count_cons_self, Nat.mul_add, Nat.mul_one] at this
    exact hd t ⟨ρ, _, fire_step hm hl he (by omega)⟩

end

/-! ### Queries -/

/-- a deadlock is mentioned under a negation -/
def qneg : XQ → Bool
  | .and a b => qneg a || qneg b
  | .or a b => qneg a || qneg b
  | .not a => qdead a
  | _ => false

theorem holds_mono {R R' : Red} (ht : R'.net.types = R.net.types) (hy : ∀ p, (R'.net.place p).ty = (R.net.place p).ty)
    {M M' : CMark} (φ : XQ) (hn : qneg φ = false) (hp : ∀ p ∈ qplaces φ, M p = M' p) (hf : ∀ t ∈ qtrans φ, (R'.CanFire M' t ↔ R.CanFire M t))
    (hd : (∀ t, ¬R.CanFire M t) → ∀ t, ¬R'.CanFire M' t) : R.holds M φ → R'.holds M' φ := by
  induction φ with
  | and a b iha ihb =>
    rw [qneg, Bool.or_eq_false_iff] at hn
    rintro ⟨h1, h2⟩
    exact ⟨iha hn.1 (fun p h => hp p (List.mem_append_left _ h)) (fun p h => hf p (List.mem_append_left _ h)) h1,
      ihb hn.2 (fun p h => hp p (List.mem_append_right _ h)) (fun p h => hf p (List.mem_append_right _ h)) h2⟩
  | or a b iha ihb =>
    rw [qneg, Bool.or_eq_false_iff] at hn
    rintro (h1 | h1)
    · exact Or.inl (iha hn.1 (fun p h => hp p (List.mem_append_left _ h)) (fun p h => hf p (List.mem_append_left _ h)) h1)
    · exact Or.inr (ihb hn.2 (fun p h => hp p (List.mem_append_right _ h)) (fun p h => hf p (List.mem_append_right _ h)) h1)
  | dead => exact hd
  | not a _ => exact (holds_congr' ht hy (.not a) hp hf (fun h => by rw [qneg] at hn; rw [qdead, hn] at h; cases h)).2
  | lt a b => exact (holds_congr' ht hy (.lt a b) hp hf (fun h => nomatch h)).2
  | le a b => exact (holds_congr' ht hy (.le a b) hp hf (fun h => nomatch h)).2
  | eq a b => exact (holds_congr' ht hy (.eq a b) hp hf (fun h => nomatch h)).2
  | ne a b => exact (holds_congr' ht hy (.ne a b) hp hf (fun h => nomatch h)).2
  | fire a => exact (holds_congr' ht hy (.fire a) hp hf (fun h => nomatch h)).2

/-- Starting with tokens moved already -/
theorem mover_keeps {R R' : Red} {p t k : Nat} {outs : List Nat} (hm : Mover R p t k outs) (hA : Remark R R')
    (hi : Ahead R p outs k R.net.init R'.net.init) {φ : XQ} (hn : qneg φ = false) (hp : ∀ q ∈ qplaces φ, q ≠ p ∧ q ∉ outs)
    (ht : ∀ u ∈ qtrans φ, u ≠ t ∧ ∀ q ∈ outs, u ∉ R.post q) : Keeps R R' φ := by
  constructor
  · rintro ⟨M, hr, hh⟩
    have key : ∀ M, R.Reach M → ∃ M', R'.Reach M' ∧ Ahead R p outs k M M' := by
      intro M hr
      induction hr with
      | init => exact ⟨_, .init, hi⟩
      | step _ hs ih =>
        obtain ⟨M', h1, h2⟩ := ih
        rcases ahead_step hm h2 hs with h | ⟨K', h3, h4⟩
        · exact ⟨M', h1, h⟩
        · exact ⟨K', h1.step (hA.step.2 h3), h4⟩
    obtain ⟨M', h1, h2⟩ := key M hr
    refine ⟨M', h1, holds_mono hA.types hA.tys φ hn (fun q hq => ?_) (fun u hu => ?_) (fun hd u => ?_) hh⟩
    · obtain ⟨L, _, _, rfl⟩ := h2
      exact (moved_other M L (hp q hq).1 (hp q hq).2).symm
    · rw [hA.canFire]
      exact ahead_fire hm h2 (ht u hu).1 (ht u hu).2
    · rw [hA.canFire, ahead_dead hm h2 hd]
      exact hd u
  · rintro ⟨M, hr, hh⟩
    have key : ∀ M, R'.Reach M → R.Reach M := by
      intro M hr
      induction hr with
      | init =>
        obtain ⟨L, h1, h2, h3⟩ := hi
        rw [h3]
        exact reach_moved hm L _ .init h1 h2
      | step _ hs ih => exact ih.step (hA.step.1 hs)
    exact ⟨M, key M hr, (holds_congr' hA.types hA.tys φ (fun _ _ => rfl) (fun _ _ => hA.canFire)
      (fun _ => forall_congr' fun _ => not_congr hA.canFire)).1 hh⟩

end CRed
end Verif
