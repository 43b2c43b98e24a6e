import Verif.PQL.Semantics
import Mathlib.Data.Nat.Find

/-!
# Temporal equivalences used by the query rewriting
-/

namespace Verif
namespace PQL
namespace Rules

variable {T : TS} {π : Nat → Mark}

theorem ef_congr0 {π π' : Nat → Mark} (h : π 0 = π' 0) (x : Cond) : (Cond.EF x).sat T π ↔ (Cond.EF x).sat T π' :=
  Cond.sat_state T h _ rfl

/-- `EF` of something seen later is `EF` of it now. -/
theorem ef_later (hπ : T.IsPath π) (i : Nat) {x : Cond} (h : (Cond.EF x).sat T (suffix π i)) :
    (Cond.EF x).sat T π := by
  obtain ⟨ρ, hρ, h0, j, hj⟩ := h
  exact ⟨glue π i ρ, glue_path hπ hρ h0, glue_zero h0, i + j, by rw [glue_suffix]; exact hj⟩

theorem ef_now (hπ : T.IsPath π) {x : Cond} (h : x.sat T π) : (Cond.EF x).sat T π :=
  ⟨π, hπ, rfl, 0, by rw [suffix_zero]; exact h⟩

theorem now_all {x : Cond} (hx : x.isState = true) (h : x.sat T π) {ρ : Nat → Mark} (h0 : ρ 0 = π 0) :
    x.sat T (suffix ρ 0) := by
  rw [suffix_zero]; exact (Cond.sat_state T h0.symm x hx).1 h

theorem dead_later (hπ : T.IsPath π) (hd : T.Dead (π 0)) (i : Nat) : T.Dead (π i) := by
  have := dead_const hπ hd i
  rw [Nat.zero_add] at this
  rw [this]; exact hd

theorem ef_notdead (hπ : T.IsPath π) : (Cond.EF (.not .dead)).sat T π ↔ (Cond.not .dead).sat T π := by
  constructor
  · rintro ⟨ρ, hρ, h0, i, hi⟩ hd
    have hd : T.Dead (ρ 0) := by rw [h0]; exact hd
    exact hi (dead_later hρ hd i)
  · exact ef_now hπ

theorem af_notdead (hπ : T.IsPath π) : (Cond.AF (.not .dead)).sat T π ↔ (Cond.not .dead).sat T π := by
  constructor
  · intro h hd
    obtain ⟨i, hi⟩ := h π hπ rfl
    exact hi (dead_later hπ hd i)
  · intro h ρ hρ h0
    exact ⟨0, now_all rfl h h0⟩

theorem ef_ef (hπ : T.IsPath π) (x : Cond) : (Cond.EF (.EF x)).sat T π ↔ (Cond.EF x).sat T π := by
  constructor
  · rintro ⟨ρ, hρ, h0, i, hi⟩
    exact (ef_congr0 h0 x).1 (ef_later hρ i hi)
  · exact ef_now hπ

theorem ef_af {x : Cond} (hx : x.isState = true) : (Cond.EF (.AF x)).sat T π ↔ (Cond.EF x).sat T π := by
  constructor
  · rintro ⟨ρ, hρ, h0, i, hi⟩
    obtain ⟨j, hj⟩ := hi (suffix ρ i) (suffix_path hρ i) rfl
    rw [suffix_suffix] at hj
    exact ⟨ρ, hρ, h0, i + j, hj⟩
  · rintro ⟨ρ, hρ, h0, i, hi⟩
    exact ⟨ρ, hρ, h0, i, fun σ _ hs => ⟨0, now_all hx hi hs⟩⟩

theorem ef_eu (x y : Cond) : (Cond.EF (.EU x y)).sat T π ↔ (Cond.EF y).sat T π := by
  constructor
  · rintro ⟨ρ, hρ, h0, i, σ, hσ, hs, j, hj, _⟩
    exact (ef_congr0 h0 y).1 (ef_later hρ i ⟨σ, hσ, hs, j, hj⟩)
  · rintro ⟨ρ, hρ, h0, i, hi⟩
    exact ⟨ρ, hρ, h0, i, suffix ρ i, suffix_path hρ i, rfl, 0, by rw [suffix_zero]; exact hi, by simp⟩

theorem ef_au {x y : Cond} (hy : y.isState = true) : (Cond.EF (.AU x y)).sat T π ↔ (Cond.EF y).sat T π := by
  constructor
  · rintro ⟨ρ, hρ, h0, i, hi⟩
    obtain ⟨j, hj, _⟩ := hi (suffix ρ i) (suffix_path hρ i) rfl
    rw [suffix_suffix] at hj
    exact ⟨ρ, hρ, h0, i + j, hj⟩
  · rintro ⟨ρ, hρ, h0, i, hi⟩
    exact ⟨ρ, hρ, h0, i, fun σ _ hs => ⟨0, now_all hy hi hs, by simp⟩⟩

theorem ef_or (cs : List Cond) : (Cond.EF (.or cs)).sat T π ↔ ∃ c ∈ cs, (Cond.EF c).sat T π := by
  simp only [Cond.sat, satAny_iff]
  constructor
  · rintro ⟨ρ, hρ, h0, i, c, hc, h⟩; exact ⟨c, hc, ρ, hρ, h0, i, h⟩
  · rintro ⟨c, hc, ρ, hρ, h0, i, h⟩; exact ⟨ρ, hρ, h0, i, c, hc, h⟩

theorem f_or (cs : List Cond) : (Cond.F (.or cs)).sat T π ↔ ∃ c ∈ cs, (Cond.F c).sat T π := by
  simp only [Cond.sat, satAny_iff]
  constructor
  · rintro ⟨i, c, hc, h⟩; exact ⟨c, hc, i, h⟩
  · rintro ⟨c, hc, i, h⟩; exact ⟨i, c, hc, h⟩

theorem f_f (x : Cond) : (Cond.F (.F x)).sat T π ↔ (Cond.F x).sat T π := by
  simp only [Cond.sat]
  constructor
  · rintro ⟨i, j, h⟩; rw [suffix_suffix] at h; exact ⟨i + j, h⟩
  · rintro ⟨i, h⟩; exact ⟨i, 0, by rw [suffix_zero]; exact h⟩

theorem f_u (x y : Cond) : (Cond.F (.U x y)).sat T π ↔ (Cond.F y).sat T π := by
  simp only [Cond.sat]
  constructor
  · rintro ⟨i, j, h, _⟩; rw [suffix_suffix] at h; exact ⟨i + j, h⟩
  · rintro ⟨i, h⟩; exact ⟨i, 0, by rw [suffix_zero]; exact h, by simp⟩

theorem u_f (x y : Cond) : (Cond.U x (.F y)).sat T π ↔ (Cond.F y).sat T π := by
  simp only [Cond.sat]
  constructor
  · rintro ⟨i, ⟨j, h⟩, _⟩; rw [suffix_suffix] at h; exact ⟨i + j, h⟩
  · rintro ⟨i, h⟩; exact ⟨0, ⟨i, by rw [suffix_zero]; exact h⟩, by simp⟩

theorem af_af (x : Cond) : (Cond.AF (.AF x)).sat T π ↔ (Cond.AF x).sat T π := by
  constructor
  · intro h ρ hρ h0
    obtain ⟨i, hi⟩ := h ρ hρ h0
    obtain ⟨j, hj⟩ := hi (suffix ρ i) (suffix_path hρ i) rfl
    rw [suffix_suffix] at hj
    exact ⟨i + j, hj⟩
  · intro h ρ _ h0
    exact ⟨0, now_all rfl h h0⟩

theorem af_ef (hπ : T.IsPath π) (x : Cond) : (Cond.AF (.EF x)).sat T π ↔ (Cond.EF x).sat T π := by
  constructor
  · intro h
    obtain ⟨i, hi⟩ := h π hπ rfl
    exact ef_later hπ i hi
  · intro h ρ _ h0
    exact ⟨0, now_all rfl h h0⟩

theorem af_au {x y : Cond} (hy : y.isState = true) : (Cond.AF (.AU x y)).sat T π ↔ (Cond.AF y).sat T π := by
  constructor
  · intro h ρ hρ h0
    obtain ⟨i, hi⟩ := h ρ hρ h0
    obtain ⟨j, hj, _⟩ := hi (suffix ρ i) (suffix_path hρ i) rfl
    rw [suffix_suffix] at hj
    exact ⟨i + j, hj⟩
  · intro h ρ hρ h0
    obtain ⟨i, hi⟩ := h ρ hρ h0
    exact ⟨i, fun σ _ hs => ⟨0, now_all hy hi hs, by simp⟩⟩

/-- splitting off the `EF` operands of a disjunction under `AF` -/
theorem af_or_split (cs pef npef : List Cond) (hc : ∀ c, c ∈ cs ↔ c ∈ pef ∨ c ∈ npef)
    (hef : ∀ c ∈ pef, ∃ x, c = .EF x) :
    (Cond.AF (.or cs)).sat T π ↔ (∃ c ∈ pef, c.sat T π) ∨ (Cond.AF (.or npef)).sat T π := by
  simp only [Cond.sat, satAny_iff]
  constructor
  · intro h
    by_cases he : ∃ c ∈ pef, c.sat T π
    · exact .inl he
    · refine .inr fun ρ hρ h0 => ?_
      obtain ⟨i, c, hm, hs⟩ := h ρ hρ h0
      rcases (hc c).1 hm with hp | hp
      · obtain ⟨x, rfl⟩ := hef c hp
        exact (he ⟨_, hp, (ef_congr0 h0 x).1 (ef_later hρ i hs)⟩).elim
      · exact ⟨i, c, hp, hs⟩
  · rintro (⟨c, hp, hs⟩ | h) ρ hρ h0
    · obtain ⟨x, rfl⟩ := hef c hp
      exact ⟨0, _, (hc _).2 (.inl hp), now_all rfl hs h0⟩
    · obtain ⟨i, c, hp, hs⟩ := h ρ hρ h0
      exact ⟨i, c, (hc c).2 (.inr hp), hs⟩

theorem au_or_split (a : Cond) (cs pef npef : List Cond) (hc : ∀ c, c ∈ cs ↔ c ∈ pef ∨ c ∈ npef)
    (hef : ∀ c ∈ pef, ∃ x, c = .EF x) :
    (Cond.AU a (.or cs)).sat T π ↔ (∃ c ∈ pef, c.sat T π) ∨ (Cond.AU a (.or npef)).sat T π := by
  simp only [Cond.sat, satAny_iff]
  constructor
  · intro h
    by_cases he : ∃ c ∈ pef, c.sat T π
    · exact .inl he
    · refine .inr fun ρ hρ h0 => ?_
      obtain ⟨i, ⟨c, hm, hs⟩, ha⟩ := h ρ hρ h0
      rcases (hc c).1 hm with hp | hp
      · obtain ⟨x, rfl⟩ := hef c hp
        exact (he ⟨_, hp, (ef_congr0 h0 x).1 (ef_later hρ i hs)⟩).elim
      · exact ⟨i, ⟨c, hp, hs⟩, ha⟩
  · rintro (⟨c, hp, hs⟩ | h) ρ hρ h0
    · obtain ⟨x, rfl⟩ := hef c hp
      exact ⟨0, ⟨_, (hc _).2 (.inl hp), now_all rfl hs h0⟩, by simp⟩
    · obtain ⟨i, ⟨c, hp, hs⟩, ha⟩ := h ρ hρ h0
      exact ⟨i, ⟨c, (hc c).2 (.inr hp), hs⟩, ha⟩

theorem eu_or_split (hπ : T.IsPath π) (a : Cond) (cs pef npef : List Cond)
    (hc : ∀ c, c ∈ cs ↔ c ∈ pef ∨ c ∈ npef) (hef : ∀ c ∈ pef, ∃ x, c = .EF x) :
    (Cond.EU a (.or cs)).sat T π ↔ (∃ c ∈ pef, c.sat T π) ∨ (Cond.EU a (.or npef)).sat T π := by
  simp only [Cond.sat, satAny_iff]
  constructor
  · rintro ⟨ρ, hρ, h0, i, ⟨c, hm, hs⟩, ha⟩
    rcases (hc c).1 hm with hp | hp
    · obtain ⟨x, rfl⟩ := hef c hp
      exact .inl ⟨_, hp, (ef_congr0 h0 x).1 (ef_later hρ i hs)⟩
    · exact .inr ⟨ρ, hρ, h0, i, ⟨c, hp, hs⟩, ha⟩
  · rintro (⟨c, hp, hs⟩ | ⟨ρ, hρ, h0, i, ⟨c, hp, hs⟩, ha⟩)
    · exact ⟨π, hπ, rfl, 0, ⟨c, (hc c).2 (.inl hp), by rw [suffix_zero]; exact hs⟩, by simp⟩
    · exact ⟨ρ, hρ, h0, i, ⟨c, (hc c).2 (.inr hp), hs⟩, ha⟩

theorem au_false (hπ : T.IsPath π) (a : Cond) : ¬ (Cond.AU a (.or [])).sat T π := by
  intro h
  obtain ⟨i, h, _⟩ := h π hπ rfl
  simp [Cond.sat, satAny] at h

theorem eu_false (a : Cond) : ¬ (Cond.EU a (.or [])).sat T π := by
  rintro ⟨ρ, _, _, i, h, _⟩
  simp [Cond.sat, satAny] at h

theorem au_notdead (hπ : T.IsPath π) (a : Cond) :
    (Cond.AU a (.not .dead)).sat T π ↔ (Cond.not .dead).sat T π := by
  constructor
  · intro h hd
    obtain ⟨i, hi, _⟩ := h π hπ rfl
    exact hi (dead_later hπ hd i)
  · intro h ρ hρ h0
    exact ⟨0, now_all rfl h h0, by simp⟩

theorem eu_notdead (hπ : T.IsPath π) (a : Cond) :
    (Cond.EU a (.not .dead)).sat T π ↔ (Cond.not .dead).sat T π := by
  constructor
  · rintro ⟨ρ, hρ, h0, i, hi, _⟩ hd
    have hd : T.Dead (ρ 0) := by rw [h0]; exact hd
    exact hi (dead_later hρ hd i)
  · intro h
    exact ⟨π, hπ, rfl, 0, by rw [suffix_zero]; exact h, by simp⟩

theorem until_dead {ρ : Nat → Mark} (hρ : T.IsPath ρ) {b : Cond} {i : Nat} (hi : b.sat T (suffix ρ i))
    (hj : ∀ j, j < i → Cond.dead.sat T (suffix ρ j)) : b.sat T ρ := by
  rcases Nat.eq_zero_or_pos i with rfl | hpos
  · rwa [suffix_zero] at hi
  · have hd : T.Dead (ρ 0) := by
      have := hj 0 hpos
      rwa [suffix_zero] at this
    have := dead_suffix hρ hd i
    rw [Nat.zero_add, suffix_zero] at this
    rwa [this] at hi

theorem au_dead (hπ : T.IsPath π) {b : Cond} (hb : b.isState = true) :
    (Cond.AU .dead b).sat T π ↔ b.sat T π := by
  constructor
  · intro h
    obtain ⟨i, hi, hj⟩ := h π hπ rfl
    exact until_dead hπ hi hj
  · intro h ρ _ h0
    exact ⟨0, now_all hb h h0, by simp⟩

theorem eu_dead (hπ : T.IsPath π) {b : Cond} (hb : b.isState = true) :
    (Cond.EU .dead b).sat T π ↔ b.sat T π := by
  constructor
  · rintro ⟨ρ, hρ, h0, i, hi, hj⟩
    exact (Cond.sat_state T h0 b hb).1 (until_dead hρ hi hj)
  · intro h
    exact ⟨π, hπ, rfl, 0, by rw [suffix_zero]; exact h, by simp⟩

theorem first_alive {ρ : Nat → Mark} (hρ : T.IsPath ρ) {b : Cond} (h : ∃ i, b.sat T (suffix ρ i)) :
    ∃ i, b.sat T (suffix ρ i) ∧ ∀ j, j < i → (Cond.not .dead).sat T (suffix ρ j) := by
  classical
  refine ⟨Nat.find h, Nat.find_spec h, fun j hj hd => ?_⟩
  have hs := dead_suffix hρ (i := j) hd (Nat.find h - j)
  rw [Nat.add_sub_cancel' (Nat.le_of_lt hj)] at hs
  have := Nat.find_spec h
  rw [hs] at this
  exact Nat.find_min h hj this

theorem au_alive (b : Cond) : (Cond.AU (.not .dead) b).sat T π ↔ (Cond.AF b).sat T π := by
  constructor
  · intro h ρ hρ h0
    obtain ⟨i, hi, _⟩ := h ρ hρ h0
    exact ⟨i, hi⟩
  · intro h ρ hρ h0
    exact first_alive hρ (h ρ hρ h0)

theorem eu_alive (b : Cond) : (Cond.EU (.not .dead) b).sat T π ↔ (Cond.EF b).sat T π := by
  constructor
  · rintro ⟨ρ, hρ, h0, i, hi, _⟩
    exact ⟨ρ, hρ, h0, i, hi⟩
  · rintro ⟨ρ, hρ, h0, h⟩
    exact ⟨ρ, hρ, h0, first_alive hρ h⟩

theorem au_af (a x : Cond) : (Cond.AU a (.AF x)).sat T π ↔ (Cond.AF x).sat T π := by
  constructor
  · intro h ρ hρ h0
    obtain ⟨i, hi, _⟩ := h ρ hρ h0
    obtain ⟨j, hj⟩ := hi (suffix ρ i) (suffix_path hρ i) rfl
    rw [suffix_suffix] at hj
    exact ⟨i + j, hj⟩
  · intro h ρ _ h0
    exact ⟨0, now_all rfl h h0, by simp⟩

theorem au_ef (hπ : T.IsPath π) (a x : Cond) : (Cond.AU a (.EF x)).sat T π ↔ (Cond.EF x).sat T π := by
  constructor
  · intro h
    obtain ⟨i, hi, _⟩ := h π hπ rfl
    exact ef_later hπ i hi
  · intro h ρ _ h0
    exact ⟨0, now_all rfl h h0, by simp⟩

theorem eu_ef (hπ : T.IsPath π) (a x : Cond) : (Cond.EU a (.EF x)).sat T π ↔ (Cond.EF x).sat T π := by
  constructor
  · rintro ⟨ρ, hρ, h0, i, hi, _⟩
    exact (ef_congr0 h0 x).1 (ef_later hρ i hi)
  · intro h
    exact ⟨π, hπ, rfl, 0, by rw [suffix_zero]; exact h, by simp⟩

theorem ex_false : ¬ (Cond.EX (.bool false)).sat T π := by
  rintro ⟨ρ, _, _, h⟩; simp [Cond.sat] at h

theorem ex_true : (Cond.EX (.bool true)).sat T π ↔ (Cond.not .dead).sat T π := by
  constructor
  · rintro ⟨ρ, _, hs, _⟩ hd; exact hd _ hs
  · intro h
    simp only [Cond.sat, TS.Dead, not_forall, not_not] at h
    obtain ⟨m', hs⟩ := h
    obtain ⟨ρ, hρ, h0⟩ := TS.exists_path T m'
    exact ⟨ρ, hρ, by rw [h0]; exact hs, rfl⟩

theorem ax_true : (Cond.AX (.bool true)).sat T π := fun _ _ _ => rfl

theorem ax_false : (Cond.AX (.bool false)).sat T π ↔ Cond.dead.sat T π := by
  constructor
  · intro h m' hs
    obtain ⟨ρ, hρ, h0⟩ := TS.exists_path T m'
    have := h ρ hρ (by rw [h0]; exact hs)
    simp [Cond.sat] at this
  · intro h ρ _ hs; exact (h _ hs).elim

end Rules
end PQL
end Verif
