import Verif.PQL.Prepare
import Verif.PQL.EvalLemmas
import Verif.PQL.NetTS

namespace Verif
namespace PQL

theorem notReachAny_eq (cs : List Cond) : notReachAny cs = cs.any (notReach true) := by
  induction cs with
  | nil => rfl
  | cons c cs ih => simp [notReachAny, ih]

/-- Below a quantifier only predicates are accepted. -/
theorem notReach_nested (c : Cond) (h : notReach true c = false) : c.isTemporal = false := by
  induction c using Cond.ind with
  | and cs ih | or cs ih =>
    simp only [notReach, if_true, notReachAny_eq, List.any_eq_false, Bool.not_eq_true] at h
    simp only [Cond.isTemporal, anyTemporal_eq, List.any_eq_false, Bool.not_eq_true]
    exact fun c hc => ih c hc (h c hc)
  | not c ih => exact ih h
  | bool | dead | cmp | cc => rfl
  | E c => unfold notReach at h; split at h <;> simp_all
  | A c => unfold notReach at h; split at h <;> simp_all
  | _ => simp [notReach] at h

/-- Some state reachable from the first one of `π` satisfies `g`. -/
def CanReach (T : TS) (π : Nat → Mark) (g : Cond) : Prop :=
  ∃ π', T.IsPath π' ∧ π' 0 = π 0 ∧ ∃ i, g.sat T (suffix π' i)

theorem not_canReach_not (T : TS) (π : Nat → Mark) (g : Cond) :
    ¬ CanReach T π (.not g) ↔ ∀ π', T.IsPath π' → π' 0 = π 0 → ∀ i, g.sat T (suffix π' i) := by
  unfold CanReach
  constructor
  · intro h π' h1 h2 i
    by_contra hg
    exact h ⟨π', h1, h2, i, hg⟩
  · rintro h ⟨π', h1, h2, i, h3⟩
    exact h3 (h π' h1 h2 i)

/-- What is known of the goal of an accepted query. -/
theorem prepare_spec (T : TS) (c : Cond) (h : notReach false c = false) (neg : Bool) :
    ∃ g fresh inv, prepare neg c = .goal g fresh inv ∧ g.isTemporal = false ∧
      ∀ π, T.IsPath π → (c.sat T π ↔ if inv = neg then CanReach T π g else ¬ CanReach T π g) := by
  induction c using Cond.ind generalizing neg with
  | not c ih =>
    obtain ⟨g, f, i, h1, h2, h3⟩ := ih h (!neg)
    refine ⟨g, f, i, h1, h2, fun π hπ => ?_⟩
    simp only [Cond.sat, h3 π hπ]
    cases i <;> cases neg <;> simp
  | EF c =>
    refine ⟨c, false, neg, rfl, notReach_nested c (by simpa [notReach] using h), fun π hπ => ?_⟩
    simp [Cond.sat, CanReach]
  | AG c =>
    refine ⟨.not c, true, !neg, rfl, notReach_nested c (by simpa [notReach] using h), fun π hπ => ?_⟩
    rw [if_neg (by cases neg <;> simp), not_canReach_not]
    rfl
  | E c =>
    cases c with
    | F d =>
      refine ⟨d, false, neg, rfl, notReach_nested d (by simpa [notReach] using h), fun π hπ => ?_⟩
      simp [Cond.sat, CanReach]
    | _ => simp [notReach] at h
  | A c =>
    cases c with
    | G d =>
      refine ⟨.not d, true, !neg, rfl, notReach_nested d (by simpa [notReach] using h), fun π hπ => ?_⟩
      rw [if_neg (by cases neg <;> simp), not_canReach_not]
      rfl
    | _ => simp [notReach] at h
  | _ => simp [notReach] at h

/-! ### Paths and runs -/

theorem path_reach (N : FlatNet) {π : Nat → Mark} (h : N.ts.IsPath π) (i : Nat) :
    N.toNet.Reach (π 0) (π i) := by
  induction i with
  | zero => exact Net.Reach.refl _ _
  | succ i ih =>
    rcases h i with ⟨t, ht⟩ | ⟨_, he⟩
    · exact ih.step _ ht
    · rw [he]; exact ih

theorem run_path (N : FlatNet) {m m' : Mark} {ts} (h : N.toNet.Run m ts m') :
    ∃ π, N.ts.IsPath π ∧ π 0 = m ∧ ∃ i, π i = m' := by
  induction h with
  | nil m =>
    obtain ⟨π, h1, h2⟩ := TS.exists_path N.ts m
    exact ⟨π, h1, h2, 0, h2⟩
  | @cons m m1 m2 t ts hs _ ih =>
    obtain ⟨π, h1, h2, i, h3⟩ := ih
    exact ⟨prepend m π, prepend_path h1 (by rw [h2]; exact ⟨_, hs⟩), rfl, i + 1, h3⟩

/-- Reachability of a predicate, in terms of runs of the net and of `evaluate`. -/
theorem canReach_iff (N : FlatNet) (hd : ∀ m, N.deadlocked m = true ↔ N.ts.Dead m) (g : Cond)
    (hg : g.isTemporal = false) {π : Nat → Mark} {m0 : Mark} (h0 : π 0 = m0) :
    CanReach N.ts π g ↔ ∃ m, N.toNet.Reach m0 m ∧ evaluate (N.deadlocked m) m g = .rTrue := by
  have key : ∀ m π', N.ts.IsPath π' → π' 0 = m → (evaluate (N.deadlocked m) m g = .rTrue ↔ g.sat N.ts π') := by
    intro m π' h1 h2
    have hs := evaluate_sound (hd m) g π' h1 h2
    have hu := evaluate_definite (N.deadlocked m) m g hg
    constructor
    · exact hs.1
    · intro hsat
      cases he : evaluate (N.deadlocked m) m g with
      | rTrue => rfl
      | rFalse => exact absurd hsat (hs.2 he)
      | rUnknown => exact (hu he).elim
  constructor
  · rintro ⟨π', h1, h2, i, h3⟩
    refine ⟨π' i, ?_, (key _ _ (suffix_path h1 i) rfl).2 h3⟩
    rw [← h0, ← h2]; exact path_reach N h1 i
  · rintro ⟨m, ⟨ts, hr⟩, he⟩
    obtain ⟨π', h1, h2, i, h3⟩ := run_path N hr
    exact ⟨π', h1, by rw [h2, h0], i, (key m _ (suffix_path h1 i) h3).1 he⟩

end PQL
end Verif
