import Verif.TAR.AutoInv

/-! # The predicates computed backwards are preconditions -/

namespace Verif
namespace TAR
open PRVec Solver TraceSet

theorem addRange_upper {r r' : Range} {n : Nat} (h : addRange r n = .ok r') : r'.upper ≤ rmax := by
  unfold addRange at h
  split at h
  · cases h
  · split at h
    · cases h
    · cases h
      simp only [Range.add]
      split <;> omega

/-- Before `n` tokens are removed. -/
theorem addRange_has {r r' : Range} {n y : Nat} (hr : r.upper ≤ rmax) (h : addRange r n = .ok r') (hy : n ≤ y)
    (hh : r'.Has y) : r.Has (y - n) := by
  unfold addRange at h
  split at h
  · cases h
  · rename_i h1
    split at h
    · cases h
    · rename_i h2
      cases h
      unfold Range.Has Range.add at hh
      unfold Range.Has
      simp only at hh
      have hrm : rmax = 4294967295 := rfl
      split at hh <;> split at hh <;> omega

theorem addRange_ub {r r' : Range} {n z : Nat} (h : addRange r n = .ok r')
    (hz : r.upper = rmax ∨ z ≤ r.upper) : r'.upper = rmax ∨ z + n ≤ r'.upper := by
  unfold addRange at h
  split at h
  · cases h
  · split at h
    · cases h
    · cases h
      simp only [Range.add]
      split <;> omega

theorem sub_upper {r : Range} {n : Nat} (hr : r.upper ≤ rmax) : (r.sub n).upper ≤ rmax := by
  simp only [Range.sub]; split
  · split <;> omega
  · exact hr

/-- Before `n` tokens are added. -/
theorem sub_has {r : Range} {n y : Nat} (hr : r.upper ≤ rmax) (hn : ¬ r.upper < n) (hh : (r.sub n).Has y) : r.Has (y + n) := by
  unfold Range.Has Range.sub at hh
  unfold Range.Has
  simp only at hh
  split at hh <;> split at hh <;> omega

theorem sub_ub {r : Range} {n z : Nat} (hn : ¬ r.upper < n) (hz : r.upper = rmax ∨ z + n ≤ r.upper) :
    (r.sub n).upper = rmax ∨ z ≤ (r.sub n).upper := by
  simp only [Range.sub]
  split
  · omega
  · omega

/-- Every `y` in `r'` from which `a` tokens are removed and `b` added ends up in `r`. -/
def Tr (r : Range) (a b : Nat) (r' : Range) : Prop := ∀ y, a ≤ y → r'.Has y → r.Has (y - a + b)

/-- The upper bounds of the places restricted by `v` hold after the arcs from the marking `x`. -/
def HX (v : PRVec) (x : Nat → Nat) (w : PRVec) (pr po : List Invariant) : Prop :=
  ∀ p, v.unboundAt p = false →
    arcSum pr p ≤ x p ∧ ((rng w p).upper = rmax ∨ x p - arcSum pr p + arcSum po p ≤ (rng w p).upper)

/-- Handling some arcs. -/
structure Red (n : Nat) (v w : PRVec) (pr po : List Invariant) (w' : PRVec) (pr' po' : List Invariant) : Prop where
  good : Good n w'
  tr : ∀ p, v.unboundAt p = false → ∀ r, Tr (rng w' p) (arcSum pr' p) (arcSum po' p) r →
    Tr (rng w p) (arcSum pr p) (arcSum po p) r
  ub : ∀ x, HX v x w pr po → HX v x w' pr' po'
  same : ∀ p, v.unboundAt p = true → rng w' p = rng w p

theorem Red.refl {n : Nat} {v w : PRVec} {pr po : List Invariant} (g : Good n w) : Red n v w pr po w pr po :=
  ⟨g, fun _ _ _ h => h, fun _ h => h, fun _ _ => rfl⟩

theorem Red.trans {n : Nat} {v w w' w'' : PRVec} {a b a' b' a'' b'' : List Invariant} (h : Red n v w a b w' a' b')
    (h' : Red n v w' a' b' w'' a'' b'') : Red n v w a b w'' a'' b'' :=
  ⟨h'.good, fun p hp r hr => h.tr p hp r (h'.tr p hp r hr), fun x hx => h'.ub x (h.ub x hx),
    fun p hp => (h'.same p hp).trans (h.same p hp)⟩

/-- One place is handled, the others are left alone. -/
theorem Red.at {n : Nat} {v w w' : PRVec} {pr po pr' po' : List Invariant} (q : Nat) (g : Good n w')
    (hother : ∀ p, p ≠ q → rng w' p = rng w p ∧ arcSum pr' p = arcSum pr p ∧ arcSum po' p = arcSum po p)
    (hq : v.unboundAt q = true → rng w' q = rng w q)
    (ht : v.unboundAt q = false → ∀ r, Tr (rng w' q) (arcSum pr' q) (arcSum po' q) r → Tr (rng w q) (arcSum pr q) (arcSum po q) r)
    (hu : v.unboundAt q = false → ∀ x, arcSum pr q ≤ x → (rng w q).upper = rmax ∨ x - arcSum pr q + arcSum po q ≤ (rng w q).upper →
      arcSum pr' q ≤ x ∧ ((rng w' q).upper = rmax ∨ x - arcSum pr' q + arcSum po' q ≤ (rng w' q).upper)) :
    Red n v w pr po w' pr' po' := by
  refine ⟨g, ?_, ?_, ?_⟩
  · intro p hp r hr
    by_cases h : p = q
    · subst h; exact ht hp r hr
    · obtain ⟨h1, h2, h3⟩ := hother p h
      rw [h1, h2, h3] at hr; exact hr
  · intro x hx p hp
    by_cases h : p = q
    · subst h; exact hu hp (x p) (hx p hp).1 (hx p hp).2
    · obtain ⟨h1, h2, h3⟩ := hother p h
      rw [h1, h2, h3]; exact hx p hp
  · intro p hp
    by_cases h : p = q
    · subst h; exact hq hp
    · exact (hother p h).1

theorem addAt_spec {n : Nat} {w w' : PRVec} (g : Good n w) {p k : Nat} (hp : p < n) (h : addAt w p k = .ok w') :
    ∃ r, addRange (rng w p) k = .ok r ∧ Good n w' ∧ ∀ q, rng w' q = if q = p then r else rng w q := by
  unfold addAt at h
  have he : (find? w p).getD {} = rng w p := rfl
  rw [he] at h
  cases hr : addRange (rng w p) k with
  | error e => rw [hr] at h; cases h
  | ok r =>
    rw [hr] at h
    cases h
    refine ⟨r, rfl, good_update g hp (addRange_upper hr), fun q => ?_⟩
    rw [rng_update g.sorted]

theorem arcSum_cons_self (a : Invariant) (l : List Invariant) (hs : (a :: l).Pairwise fun a b => a.place < b.place) :
    arcSum (a :: l) a.place = a.tokens := arcSum_mem hs (by simp)

theorem arcSum_tail_zero {a : Invariant} {l : List Invariant} (hs : (a :: l).Pairwise fun a b => a.place < b.place) {p : Nat}
    (hp : p ≤ a.place) : arcSum l p = 0 := by
  apply arcSum_zero
  intro b hb
  have := (List.pairwise_cons.1 hs).1 b hb
  omega

theorem arcSum_lt_zero {a : Invariant} {l : List Invariant} (hs : (a :: l).Pairwise fun a b => a.place < b.place) {p : Nat}
    (hp : p < a.place) : arcSum (a :: l) p = 0 := by
  rw [arcSum_cons, if_neg (by omega), arcSum_tail_zero hs (by omega)]

theorem arcSum_cons_ne {a : Invariant} {l : List Invariant} {p : Nat} (h : p ≠ a.place) : arcSum (a :: l) p = arcSum l p := by
  rw [arcSum_cons, if_neg (fun he => h he.symm)]; omega

/-- An arc of the preset. -/
theorem red_add {n : Nat} {v w w' : PRVec} {a : Invariant} {pr po : List Invariant} (g : Good n w) (hp : a.place < n)
    (hb : v.unboundAt a.place = false)
    (hs : (a :: pr).Pairwise fun a b => a.place < b.place) (hpo : arcSum po a.place = 0)
    (h : addAt w a.place a.tokens = .ok w') : Red n v w (a :: pr) po w' pr po := by
  obtain ⟨r, hr, g', hrng⟩ := addAt_spec g hp h
  have h1 : rng w' a.place = r := by rw [hrng, if_pos rfl]
  have h2 := arcSum_cons_self a pr hs
  have h3 := arcSum_tail_zero hs (Nat.le_refl a.place)
  have hle := rng_le g a.place
  refine Red.at a.place g' ?_ ?_ ?_ ?_
  · intro p hne
    exact ⟨by rw [hrng, if_neg hne], (arcSum_cons_ne hne).symm, rfl⟩
  · intro hc; rw [hb] at hc; cases hc
  · intro _ R hR
    rw [h1, h3, hpo] at hR
    rw [h2, hpo]
    intro y hy hyR
    have := hR y (Nat.zero_le _) hyR
    exact addRange_has hle hr hy (by simpa using this)
  · intro _ x hx hu
    rw [h1, h3, hpo]
    rw [h2] at hx hu
    rw [hpo] at hu
    refine ⟨Nat.zero_le _, ?_⟩
    have := addRange_ub (z := x - a.tokens) hr (by simpa using hu)
    omega

/-- An arc of the preset at a place that is not restricted. -/
theorem red_skip_pre {n : Nat} {v w : PRVec} {a : Invariant} {pr po : List Invariant} (g : Good n w)
    (hb : v.unboundAt a.place = true) : Red n v w (a :: pr) po w pr po := by
  refine Red.at a.place g ?_ (fun _ => rfl) ?_ ?_
  · intro p hne; exact ⟨rfl, (arcSum_cons_ne hne).symm, rfl⟩
  · intro hc; rw [hb] at hc; cases hc
  · intro hc; rw [hb] at hc; cases hc

theorem red_skip_post {n : Nat} {v w : PRVec} {b : Invariant} {pr po : List Invariant} (g : Good n w)
    (hb : v.unboundAt b.place = true) : Red n v w pr (b :: po) w pr po := by
  refine Red.at b.place g ?_ (fun _ => rfl) ?_ ?_
  · intro p hne; exact ⟨rfl, rfl, (arcSum_cons_ne hne).symm⟩
  · intro hc; rw [hb] at hc; cases hc
  · intro hc; rw [hb] at hc; cases hc

/-- An arc of the postset alone. -/
theorem red_sub {n : Nat} {v w : PRVec} {b : Invariant} {pr po : List Invariant} (g : Good n w) (hp : b.place < n)
    (hb : v.unboundAt b.place = false)
    (hs : (b :: po).Pairwise fun a b => a.place < b.place) (hpr : arcSum pr b.place = 0)
    (hn : ¬ (rng w b.place).upper < b.tokens) :
    Red n v w pr (b :: po) (w.update b.place fun x => x.sub b.tokens) pr po := by
  have h1 : rng (w.update b.place fun x => x.sub b.tokens) b.place = (rng w b.place).sub b.tokens := by
    rw [rng_update g.sorted, if_pos rfl]
  have h2 := arcSum_cons_self b po hs
  have h3 := arcSum_tail_zero hs (Nat.le_refl b.place)
  refine Red.at b.place (good_update g hp (sub_upper (rng_le g _))) ?_ ?_ ?_ ?_
  · intro p hne
    exact ⟨by rw [rng_update g.sorted, if_neg hne], rfl, (arcSum_cons_ne hne).symm⟩
  · intro hc; rw [hb] at hc; cases hc
  · intro _ R hR
    rw [h1, h3, hpr] at hR
    rw [h2, hpr]
    intro y hy hyR
    have := hR y (Nat.zero_le _) hyR
    exact sub_has (rng_le g _) hn (by simpa using this)
  · intro _ x hx hu
    rw [h1, h3, hpr]
    rw [h2, hpr] at hu
    refine ⟨Nat.zero_le _, ?_⟩
    have := sub_ub (z := x) hn (by simpa using hu)
    omega

/-- A place of both sides that loses tokens. -/
theorem red_both_add {n : Nat} {v w w' : PRVec} {a b : Invariant} {pr po : List Invariant} (g : Good n w) (hp : b.place < n)
    (hb : v.unboundAt b.place = false) (hab : a.place = b.place)
    (hsa : (a :: pr).Pairwise fun a b => a.place < b.place) (hsb : (b :: po).Pairwise fun a b => a.place < b.place)
    (hlt : b.tokens < a.tokens) (h : addAt w b.place (a.tokens - b.tokens) = .ok w') :
    Red n v w (a :: pr) (b :: po) w' pr po := by
  obtain ⟨r, hr, g', hrng⟩ := addAt_spec g hp h
  have h1 : rng w' b.place = r := by rw [hrng, if_pos rfl]
  have h2 : arcSum (a :: pr) b.place = a.tokens := hab ▸ arcSum_cons_self a pr hsa
  have h3 : arcSum pr b.place = 0 := arcSum_tail_zero hsa (by omega)
  have h4 := arcSum_cons_self b po hsb
  have h5 := arcSum_tail_zero hsb (Nat.le_refl b.place)
  have hle := rng_le g b.place
  refine Red.at b.place g' ?_ ?_ ?_ ?_
  · intro p hne
    exact ⟨by rw [hrng, if_neg hne], (arcSum_cons_ne (by omega)).symm, (arcSum_cons_ne hne).symm⟩
  · intro hc; rw [hb] at hc; cases hc
  · intro _ R hR
    rw [h1, h3, h5] at hR
    rw [h2, h4]
    intro y hy hyR
    have := addRange_has (y := y) hle hr (by omega) (by simpa using hR y (Nat.zero_le _) hyR)
    rwa [show y - a.tokens + b.tokens = y - (a.tokens - b.tokens) by omega]
  · intro _ x hx hu
    rw [h1, h3, h5]
    rw [h2] at hx hu
    rw [h4] at hu
    refine ⟨Nat.zero_le _, ?_⟩
    have := addRange_ub (z := x - a.tokens + b.tokens) hr hu
    omega

/-- A place of both sides that does not lose tokens. -/
theorem red_both_sub {n : Nat} {v w : PRVec} {a b : Invariant} {pr po : List Invariant} (g : Good n w) (hp : b.place < n)
    (hb : v.unboundAt b.place = false) (hab : a.place = b.place)
    (hsa : (a :: pr).Pairwise fun a b => a.place < b.place) (hsb : (b :: po).Pairwise fun a b => a.place < b.place)
    (hge : a.tokens ≤ b.tokens) (hn : ¬ (rng w b.place).upper < b.tokens - a.tokens) :
    Red n v w (a :: pr) (b :: po) (w.update b.place fun x => x.sub (b.tokens - a.tokens)) pr po := by
  have h1 : rng (w.update b.place fun x => x.sub (b.tokens - a.tokens)) b.place = (rng w b.place).sub (b.tokens - a.tokens) := by
    rw [rng_update g.sorted, if_pos rfl]
  have h2 : arcSum (a :: pr) b.place = a.tokens := hab ▸ arcSum_cons_self a pr hsa
  have h3 : arcSum pr b.place = 0 := arcSum_tail_zero hsa (by omega)
  have h4 := arcSum_cons_self b po hsb
  have h5 := arcSum_tail_zero hsb (Nat.le_refl b.place)
  refine Red.at b.place (good_update g hp (sub_upper (rng_le g _))) ?_ ?_ ?_ ?_
  · intro p hne
    exact ⟨by rw [rng_update g.sorted, if_neg hne], (arcSum_cons_ne (by omega)).symm, (arcSum_cons_ne hne).symm⟩
  · intro hc; rw [hb] at hc; cases hc
  · intro _ R hR
    rw [h1, h3, h5] at hR
    rw [h2, h4]
    intro y hy hyR
    have := sub_has (y := y) (rng_le g _) hn (by simpa using hR y (Nat.zero_le _) hyR)
    rwa [show y - a.tokens + b.tokens = y + (b.tokens - a.tokens) by omega]
  · intro _ x hx hu
    rw [h1, h3, h5]
    rw [h2] at hx hu
    rw [h4] at hu
    refine ⟨Nat.zero_le _, ?_⟩
    have := sub_ub (z := x) hn (by omega)
    omega

/-- The arcs of the preset before place `q`. -/
theorem hoarePre_spec {n : Nat} {v : PRVec} {q : Nat} {po : List Invariant} (hpo : ∀ p < q, arcSum po p = 0) :
    ∀ (pr : List Invariant) (w : PRVec) (r : List Invariant × PRVec),
      pr.Pairwise (fun a b => a.place < b.place) → (∀ a ∈ pr, a.place < n) → Good n w →
      hoarePre v q pr w = .ok r →
      Red n v w pr po r.2 r.1 po ∧ (∃ l, pr = l ++ r.1) ∧ (∀ a ∈ r.1, q ≤ a.place) := by
  intro pr
  induction pr with
  | nil => intro w r _ _ g h; simp only [hoarePre] at h; cases h; exact ⟨Red.refl g, ⟨[], rfl⟩, by simp⟩
  | cons a pr ih =>
    intro w r hs hlt g h
    simp only [hoarePre] at h
    by_cases hq : a.place < q
    · rw [if_pos hq] at h
      have hs' := (List.pairwise_cons.1 hs).2
      have hlt' : ∀ b ∈ pr, b.place < n := fun b hb => hlt b (by simp [hb])
      by_cases hu : v.unboundAt a.place = true
      · rw [if_pos hu] at h
        obtain ⟨h1, ⟨l, h2⟩, h3⟩ := ih w r hs' hlt' g h
        exact ⟨(red_skip_pre g hu).trans h1, ⟨a :: l, by rw [h2]; rfl⟩, h3⟩
      · rw [if_neg hu] at h
        cases hw : addAt w a.place a.tokens with
        | error e => rw [hw] at h; cases h
        | ok w' =>
          rw [hw] at h
          have hr := red_add g (hlt a (by simp)) (by simpa using hu) hs (hpo _ hq) hw
          obtain ⟨h1, ⟨l, h2⟩, h3⟩ := ih w' r hs' hlt' hr.good h
          exact ⟨hr.trans h1, ⟨a :: l, by rw [h2]; rfl⟩, h3⟩
    · rw [if_neg hq] at h
      cases h
      refine ⟨Red.refl g, ⟨[], rfl⟩, ?_⟩
      intro b hb
      rcases List.mem_cons.1 hb with rfl | hb
      · omega
      · have := (List.pairwise_cons.1 hs).1 b hb; omega

/-- What one step backwards gives. -/
def HPost (n : Nat) (v w : PRVec) (pr po : List Invariant) : HStep → Prop
  | .done w' => Red n v w pr po w' [] []
  | .stuck _ _ => ∀ x, ¬ HX v x w pr po

theorem HPost.of_red {n : Nat} {v w w' : PRVec} {pr po pr' po' : List Invariant} {r : HStep}
    (h : Red n v w pr po w' pr' po') (h' : HPost n v w' pr' po' r) : HPost n v w pr po r := by
  cases r with
  | done w'' => exact h.trans h'
  | stuck _ _ => exact fun x hx => h' x (h.ub x hx)

theorem hoarePost_spec {n : Nat} {v : PRVec} (po : List Invariant) : ∀ (pr : List Invariant) (w : PRVec) (r : HStep),
    pr.Pairwise (fun a b => a.place < b.place) → po.Pairwise (fun a b => a.place < b.place) →
    (∀ a ∈ pr, a.place < n ∧ 0 < a.tokens ∧ a.tokens ≤ rmax) → (∀ b ∈ po, b.place < n ∧ 0 < b.tokens ∧ b.tokens ≤ rmax) →
    (∀ a ∈ pr, ∀ b ∈ po, a.place = b.place → (a.direction < 0 ↔ b.tokens < a.tokens)) →
    Good n w → hoarePost v po pr w = .ok r → HPost n v w pr po r := by
  induction po with
  | nil =>
    intro pr
    induction pr with
    | nil =>
      intro w r _ _ _ _ _ g h
      simp only [hoarePost, hoareRest] at h
      cases h
      exact Red.refl g
    | cons a pr ih =>
      intro w r hs hsp hlt hltp hd g h
      rw [hoarePost, hoareRest] at h
      have hs' := (List.pairwise_cons.1 hs).2
      have hlt' := fun b hb => hlt b (List.mem_cons_of_mem a hb)
      by_cases hu : v.unboundAt a.place = true
      · rw [if_pos hu] at h
        exact (ih w r hs' hsp hlt' hltp (by simp) g h).of_red (red_skip_pre g hu)
      · rw [if_neg hu] at h
        cases hw : addAt w a.place a.tokens with
        | error e => rw [hw] at h; cases h
        | ok w' =>
          rw [hw] at h
          have hr := red_add (po := []) g (hlt a (by simp)).1 (by simpa using hu) hs rfl hw
          exact (ih w' r hs' hsp hlt' hltp (by simp) hr.good h).of_red hr
  | cons b po ihpo =>
    intro pr w r hs hsp hlt hltp hd g h
    rw [hoarePost] at h
    have hsp' := (List.pairwise_cons.1 hsp).2
    have hltp' := fun c hc => hltp c (List.mem_cons_of_mem b hc)
    have hd' : ∀ l : List Invariant, (∀ a ∈ l, a ∈ pr) → ∀ a ∈ l, ∀ c ∈ po, a.place = c.place → (a.direction < 0 ↔ c.tokens < a.tokens) :=
      fun l hl a ha c hc => hd a (hl a ha) c (List.mem_cons_of_mem b hc)
    by_cases hu : v.unboundAt b.place = true
    · rw [if_pos hu] at h
      exact (ihpo pr w r hs hsp' hlt hltp' (hd' pr (fun a ha => ha)) g h).of_red (red_skip_post g hu)
    · rw [if_neg hu] at h
      have hub : v.unboundAt b.place = false := by simpa using hu
      cases hx : hoarePre v b.place pr w with
      | error e => rw [hx] at h; cases h
      | ok x =>
        rw [hx] at h
        obtain ⟨hred, ⟨l, hl⟩, hge⟩ := hoarePre_spec (n := n) (po := b :: po) (fun p hp => arcSum_lt_zero hsp hp) pr w x hs
          (fun a ha => (hlt a ha).1) g hx
        refine HPost.of_red hred ?_
        have g' := hred.good
        have hmem : ∀ a ∈ x.1, a ∈ pr := by intro a ha; rw [hl]; exact List.mem_append_right _ ha
        have hsx : x.1.Pairwise (fun a b => a.place < b.place) := by
          rw [hl] at hs; exact (List.pairwise_append.1 hs).2.1
        have hbl := hltp b (by simp)
        have hu' : ((find? x.2 b.place).getD {}).upper = (rng x.2 b.place).upper := rfl
        -- the place is stuck only when the upper bound cannot be met
        simp only [bind, Except.bind, hu'] at h
        cases hx1 : x.1 with
        | nil =>
          rw [hx1] at h
          simp only at h
          split at h
          · rename_i hc
            cases h
            intro y hy
            have := hy b.place hub
            rw [arcSum_cons_self b po hsp] at this
            have hle := rng_le g' b.place
            omega
          · rename_i hc
            have hr := red_sub (pr := []) g' hbl.1 hub hsp rfl hc
            exact (ihpo [] _ r List.Pairwise.nil hsp' (by simp) hltp' (by simp) hr.good h).of_red hr
        | cons a pr' =>
          rw [hx1] at h
          rw [hx1] at hsx
          have hapr : a ∈ pr := hmem a (by rw [hx1]; simp)
          have hmem' : ∀ c ∈ pr', c ∈ pr := fun c hc => hmem c (by rw [hx1]; simp [hc])
          simp only at h
          split at h
          · rename_i hne
            have hge' : b.place < a.place := by
              have := hge a (by rw [hx1]; simp)
              omega
            have hz : arcSum (a :: pr') b.place = 0 := arcSum_lt_zero hsx hge'
            split at h
            · rename_i hc
              cases h
              intro y hy
              have := hy b.place hub
              rw [arcSum_cons_self b po hsp] at this
              have hle := rng_le g' b.place
              omega
            · rename_i hc
              have hr := red_sub (pr := a :: pr') g' hbl.1 hub hsp hz hc
              refine (ihpo (a :: pr') _ r hsx hsp' ?_ hltp' ?_ hr.good h).of_red hr
              · intro c hc; exact hlt c (hmem c (by rw [hx1]; exact hc))
              · exact hd' _ (fun c hc => hmem c (by rw [hx1]; exact hc))
          · rename_i hne
            have hab : a.place = b.place := by omega
            have hdir := hd a hapr b (by simp) hab
            split at h
            · rename_i hneg
              cases hw : addAt x.2 b.place (a.tokens - b.tokens) with
              | error e => rw [hw] at h; cases h
              | ok w' =>
                rw [hw] at h
                have hr := red_both_add g' hbl.1 hub hab hsx hsp (hdir.1 hneg) hw
                exact (ihpo pr' _ r (List.pairwise_cons.1 hsx).2 hsp' (fun c hc => hlt c (hmem' c hc)) hltp' (hd' _ hmem')
                  hr.good h).of_red hr
            · rename_i hneg
              have hge2 : a.tokens ≤ b.tokens := by
                have := fun hlt => hneg (hdir.2 hlt)
                omega
              split at h
              · rename_i hc
                cases h
                intro y hy
                have := hy b.place hub
                rw [arcSum_cons_self b po hsp, ← hab, arcSum_cons_self a pr' hsx] at this
                have hle := rng_le g' b.place
                rw [hab] at this
                omega
              · rename_i hc
                have hr := red_both_sub g' hbl.1 hub hab hsx hsp hge2 hc
                exact (ihpo pr' _ r (List.pairwise_cons.1 hsx).2 hsp' (fun c hc => hlt c (hmem' c hc)) hltp' (hd' _ hmem')
                  hr.good h).of_red hr

end TAR
end Verif
