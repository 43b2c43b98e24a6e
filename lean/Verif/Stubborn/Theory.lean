import Verif.Spec.PetriNet

/-!
# Stubborn sets of a net: the argument

A set of transitions that satisfies `Closed` may be fired first: if a run contains a transition of the set,
the first such transition is enabled at the start and can be moved to the front.
-/

namespace Verif
namespace Stubborn
variable {P T : Type} (N : Net P T)

/-- The closure conditions in marking `M`. -/
structure Closed (M : Marking P) (S : T → Prop) : Prop where
  en : ∀ t, S t → N.Enabled M t → ∀ p,
    (N.post t p < N.pre t p → ∀ u, 0 < N.pre u p → S u) ∧
    (N.pre t p < N.post t p → ∀ u w, N.inh u p = some w → S u)
  dis : ∀ t, S t → ¬ N.Enabled M t → ∃ p,
    (M p < N.pre t p ∧ ∀ u, N.pre u p < N.post u p → S u) ∨
    (∃ w, N.inh t p = some w ∧ w ≤ M p ∧ ∀ u, N.post u p < N.pre u p → S u)

variable {N} {S : T → Prop}

theorem run_le {M M' : Marking P} {us : List T} (hr : N.Run M us M') (hus : ∀ u ∈ us, ¬ S u) {p : P}
    (hp : ∀ u, N.pre u p < N.post u p → S u) : M' p ≤ M p := by
  induction hr with
  | nil => exact Nat.le_refl _
  | @cons m t m' us m'' hs _ ih =>
    have h1 := ih fun u hu => hus u (List.mem_cons_of_mem _ hu)
    have h2 : ¬ N.pre t p < N.post t p := fun h => hus t (List.mem_cons_self ..) (hp t h)
    have h3 := hs.1.1 p
    rw [hs.2] at h1
    simp only [Net.fire] at h1
    omega

theorem run_ge {M M' : Marking P} {us : List T} (hr : N.Run M us M') (hus : ∀ u ∈ us, ¬ S u) {p : P}
    (hp : ∀ u, N.post u p < N.pre u p → S u) : M p ≤ M' p := by
  induction hr with
  | nil => exact Nat.le_refl _
  | @cons m t m' us m'' hs _ ih =>
    have h1 := ih fun u hu => hus u (List.mem_cons_of_mem _ hu)
    have h2 : ¬ N.post t p < N.pre t p := fun h => hus t (List.mem_cons_self ..) (hp t h)
    have h3 := hs.1.1 p
    rw [hs.2] at h1
    simp only [Net.fire] at h1
    omega

/-- A transition of the set that is enabled after transitions outside it was enabled before. -/
theorem Closed.enabled {M : Marking P} (h : Closed N M S) {t : T} (ht : S t) {us : List T} {M' : Marking P}
    (hr : N.Run M us M') (hus : ∀ u ∈ us, ¬ S u) (he : N.Enabled M' t) : N.Enabled M t := by
  refine Classical.byContradiction fun hne => ?_
  obtain ⟨p, ⟨h1, h2⟩ | ⟨w, h1, h2, h3⟩⟩ := h.dis t ht hne
  · have := run_le hr hus h2
    have := he.1 p
    omega
  · have := run_ge hr hus h3
    have := he.2 p w h1
    omega

/-- `M₁` is `M` after `t`, as integers. -/
def Shift (t : T) (M M₁ : Marking P) : Prop := ∀ p, M₁ p + N.pre t p = M p + N.post t p

theorem shift_run {t : T}
    (hen : ∀ p, (N.post t p < N.pre t p → ∀ u, 0 < N.pre u p → S u) ∧
      (N.pre t p < N.post t p → ∀ u w, N.inh u p = some w → S u))
    {M M' : Marking P} {us : List T} (hr : N.Run M us M') (hus : ∀ u ∈ us, ¬ S u)
    {M₁ : Marking P} (hs : Shift (N := N) t M M₁) :
    ∃ M₁', N.Run M₁ us M₁' ∧ Shift (N := N) t M' M₁' := by
  induction hr generalizing M₁ with
  | nil => exact ⟨M₁, .nil _, hs⟩
  | @cons m u m' us m'' hst _ ih =>
    have hu := hus u (List.mem_cons_self ..)
    have he : N.Enabled M₁ u := by
      constructor
      · intro p
        have h1 := hst.1.1 p
        have h2 := hs p
        by_cases hlt : N.post t p < N.pre t p
        · have : ¬ 0 < N.pre u p := fun h => hu ((hen p).1 hlt u h)
          omega
        · omega
      · intro p w hw
        have h1 := hst.1.2 p w hw
        have h2 := hs p
        by_cases hlt : N.pre t p < N.post t p
        · exact (hu ((hen p).2 hlt u w hw)).elim
        · omega
    have hs' : Shift (N := N) t m' (N.fire M₁ u) := by
      intro p
      rw [hst.2]
      have h1 := he.1 p
      have h2 := hst.1.1 p
      have h3 := hs p
      simp only [Net.fire]
      omega
    obtain ⟨M₁', hr', hs''⟩ := ih (fun v hv => hus v (List.mem_cons_of_mem _ hv)) hs'
    exact ⟨M₁', .cons ⟨he, rfl⟩ hr', hs''⟩

theorem run_append {M M' : Marking P} {us vs : List T} (hr : N.Run M (us ++ vs) M') :
    ∃ M₁, N.Run M us M₁ ∧ N.Run M₁ vs M' := by
  induction us generalizing M with
  | nil => exact ⟨M, .nil _, hr⟩
  | cons u us ih =>
    cases hr with
    | cons hs hr =>
      obtain ⟨M₁, h1, h2⟩ := ih hr
      exact ⟨M₁, .cons hs h1, h2⟩

/-- The first transition of the set moves to the front of the run. -/
theorem Closed.front {M : Marking P} (h : Closed N M S) {ts : List T} {M' : Marking P} (hr : N.Run M ts M')
    (hex : ∃ t ∈ ts, S t) :
    ∃ t ts', S t ∧ N.Enabled M t ∧ N.Run (N.fire M t) ts' M' ∧ ts.length = ts'.length + 1 := by
  obtain ⟨us, t, vs, rfl, ht, hus⟩ : ∃ us t vs, ts = us ++ t :: vs ∧ S t ∧ ∀ u ∈ us, ¬ S u := by
    clear hr
    induction ts with
    | nil => simp at hex
    | cons a ts ih =>
      by_cases ha : S a
      · exact ⟨[], a, ts, rfl, ha, by simp⟩
      · obtain ⟨t, ht, hS⟩ := hex
        rcases List.mem_cons.1 ht with rfl | ht
        · exact (ha hS).elim
        · obtain ⟨us, t, vs, rfl, h1, h2⟩ := ih ⟨t, ht, hS⟩
          refine ⟨a :: us, t, vs, rfl, h1, fun u hu => ?_⟩
          rcases List.mem_cons.1 hu with rfl | hu
          · exact ha
          · exact h2 u hu
  obtain ⟨M₁, hr1, hr2⟩ := run_append hr
  cases hr2 with
  | @cons _ _ M₂ _ _ hst hr3 =>
    have he := h.enabled ht hr1 hus hst.1
    obtain ⟨M₁', hr4, hsh⟩ := shift_run (h.en t ht he) hr1 hus (M₁ := N.fire M t) (by
      intro p; have := he.1 p; simp only [Net.fire]; omega)
    have : M₁' = M₂ := by
      funext p
      have h1 := hsh p
      have h2 := hst.1.1 p
      rw [hst.2]
      simp only [Net.fire]
      omega
    subst this
    exact ⟨t, us ++ vs, ht, he, hr4.append _ hr3, by simp; omega⟩

end Stubborn
end Verif
