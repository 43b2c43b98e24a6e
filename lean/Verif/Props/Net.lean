import Verif.Net.FlatLemmas
import Verif.Net.Examples

/-!
# C01, C02, C04: successor enumeration, deadlock test, firing

`N.WF` is the layout invariant; `Verif/Props/Builder.lean` proves that every net produced by the
builder satisfies it.  `N.toNet` reads the arc weights off the arrays and `Net.Step`,
`Net.Enabled`, `Net.Dead` are the textbook definitions (`Verif/Spec/PetriNet.lean`).
-/

namespace Verif
open FlatNet

/-- **C01**.  Calling the successor generator until it says "no more" yields (unless the 32-bit
token limit is hit, in which case the error is raised only because some enabled transition would
really put `2^32-1` or more tokens in a place) a list with pairwise different transitions that contains
`(t, m')` exactly when firing the enabled transition `t` from `m` gives `m'`.
`pred` is the optional transition filter accepted by `next`. -/
theorem C01_successor_enumeration_exact (N : FlatNet) (w : N.WF) (m : Nat → Nat)
    (hm : ∀ p, p < N.nplaces → m p < W32) (pred : Nat → Bool)
    (fuel : Nat) (hf : N.ntransitions < fuel) :
    (∃ l, N.enumFrom m pred fuel genInit = .ok (l, true) ∧
      (l.map Prod.fst).Nodup ∧
      (∀ x ∈ l, x.1 < N.ntransitions) ∧
      ∀ (t : Fin N.ntransitions) (m' : Nat → Nat),
        (t.val, m') ∈ l ↔ (pred t = true ∧ N.toNet.Step m t m')) ∨
    (N.enumFrom m pred fuel genInit = .error () ∧
      ∃ (t : Fin N.ntransitions) (p : Nat), p < N.nplaces ∧ pred t = true ∧
        N.toNet.Enabled m t ∧ W32 - 1 ≤ N.toNet.fire m t p) := by
  rcases enumFrom_fuel w m pred fuel genInit (genInit_ok w) (by omega) with ⟨l, hl⟩ | ⟨he, t, ht, hc, hp, hfr⟩
  · left
    obtain ⟨h1, h2, h3⟩ := enumFrom_ok w m pred fuel genInit l true (genInit_ok w) hl
    rw [pos_genInit w] at h3
    refine ⟨l, hl, ?_, fun x hx => (h1 x hx).2.1, fun t m' => ⟨fun hmem => ?_, fun ⟨hp, he, hm'⟩ => ?_⟩⟩
    · rw [List.Nodup, List.pairwise_map]
      exact h2.imp fun h => Nat.ne_of_lt h
    · obtain ⟨_, _, hc, hp, hfr⟩ := h1 _ hmem
      have he := (checkPreset_iff w m t).1 hc
      have hs := fire_spec w m hm t he
      simp only at hfr
      rw [hfr] at hs
      exact ⟨hp, he, hs.1⟩
    · obtain ⟨x, hx, hxt⟩ := h3 rfl t (Nat.zero_le _) t.2 ((checkPreset_iff w m t).2 he) hp
      have hfr := (h1 x hx).2.2.2.2
      have hs := fire_spec w m hm t he
      rw [hxt] at hfr
      rw [hfr] at hs
      have : x = (t.val, m') := by
        ext1
        · exact hxt
        · rw [hm']; exact hs.1
      rwa [← this]
  · right
    refine ⟨he, ⟨t, ht⟩, ?_⟩
    have hen := (checkPreset_iff w m ⟨t, ht⟩).1 hc
    have hs := fire_spec w m hm ⟨t, ht⟩ hen
    simp only at hs
    rw [hfr] at hs
    obtain ⟨p, hp1, hp2⟩ := hs
    exact ⟨p, hp1, hp, hen, hp2⟩

/-- C01, the generator can be interrupted after any number of calls (`fuel`): everything returned so
far is a correct firing and nothing is returned twice. -/
theorem C01_prefix_sound (N : FlatNet) (w : N.WF) (m : Nat → Nat)
    (hm : ∀ p, p < N.nplaces → m p < W32) (pred : Nat → Bool) (fuel : Nat)
    (l : List (Nat × (Nat → Nat))) (b : Bool)
    (h : N.enumFrom m pred fuel genInit = .ok (l, b)) :
    (l.map Prod.fst).Nodup ∧
      ∀ x ∈ l, ∃ t : Fin N.ntransitions, t.val = x.1 ∧ pred t = true ∧ N.toNet.Step m t x.2 := by
  obtain ⟨h1, h2, _⟩ := enumFrom_ok w m pred fuel genInit l b (genInit_ok w) h
  refine ⟨?_, fun x hx => ?_⟩
  · rw [List.Nodup, List.pairwise_map]
    exact h2.imp fun h => Nat.ne_of_lt h
  · obtain ⟨_, hlt, hc, hp, hfr⟩ := h1 x hx
    have he := (checkPreset_iff w m ⟨x.1, hlt⟩).1 hc
    have hs := fire_spec w m hm ⟨x.1, hlt⟩ he
    simp only at hs
    rw [hfr] at hs
    exact ⟨⟨x.1, hlt⟩, rfl, hp, he, hs.1⟩

/-- Non-vacuity of C01: `net3` meets the hypotheses, and from `mark3` the generator reports the
orphan transition 0 and transition 1 but not transition 2. -/
example : (match Examples.net3.enumFrom Examples.mark3 (fun _ => true) 4 genInit with
    | .ok (l, true) => l.map Prod.fst
    | _ => []) = [0, 1] := by decide

example := C01_successor_enumeration_exact Examples.net3 Examples.net3_wf Examples.mark3
  (by intro p _; simp only [Examples.mark3, W32]; split; omega; split <;> omega) (fun _ => true) 4
  (by decide)

/-- **C02**.  The deadlock test answers true exactly when no transition is enabled. -/
theorem C02_deadlock_exact (N : FlatNet) (w : N.WF) (m : Nat → Nat) :
    N.deadlocked m = true ↔ N.toNet.Dead m := by
  have hne : ¬ N.nplaces = 0 := Nat.ne_of_gt w.places_pos
  unfold deadlocked
  simp only [hne, if_false]
  rw [deadAux_iff w m N.nplaces 0 rfl, w.ptr_zero]
  constructor
  · intro h t he
    have := h t (Nat.zero_le _) t.2
    rw [(checkPreset_iff w m t).2 he] at this
    simp at this
  · intro h v _ hv
    cases hc : N.checkPreset m v with
    | false => rfl
    | true => exact absurd ((checkPreset_iff w m ⟨v, hv⟩).1 hc) (h ⟨v, hv⟩)

/-- C02 for the net without places (the layout invariant has no place to hang the transitions
on): every transition is enabled in the only marking, so the net is dead iff it has none. -/
theorem C02_deadlock_exact_no_places (N : FlatNet) (h0 : N.nplaces = 0)
    (hinv : N.invariants = []) (m : Nat → Nat) :
    N.deadlocked m = true ↔ N.toNet.Dead m := by
  have hpre : ∀ t, N.preset t = [] := fun t => by simp [preset, slice, hinv]
  have hall : ∀ t, N.toNet.Enabled m t := fun t => by
    constructor
    · intro p; simp [toNet, hpre]
    · intro p k hk; simp [toNet, hpre] at hk
  simp only [deadlocked, h0, if_true, decide_eq_true_eq]
  constructor
  · intro h t; exact absurd t.2 (by omega)
  · intro h
    by_cases hz : N.ntransitions = 0
    · exact hz
    · exact absurd (hall ⟨0, by omega⟩) (h _)

/-- `fireable` (used by query evaluation and trace replay) agrees with the enabled relation. -/
theorem C02_fireable_exact (N : FlatNet) (w : N.WF) (m : Nat → Nat) (t : Fin N.ntransitions) :
    N.fireable m t = true ↔ N.toNet.Enabled m t := by
  rw [fireable_eq]; exact checkPreset_iff w m t

/-- Non-vacuity of C02: both answers occur. -/
example : Examples.net3.deadlocked Examples.mark3 = false ∧
    Examples.net3.deadlocked (fun p => if p = 2 then 2 else 0) = true := by decide

/-- Finding: with no places the successor generator finds nothing although transitions are
enabled (and `deadlocked` says so).  Here a net with one arc-less transition. -/
theorem C01_no_places_generator_finds_nothing :
    let N : FlatNet := ⟨0, 1, 0, [⟨0, 0⟩, ⟨0, 0⟩], [], [0], [true]⟩
    N.next (fun _ => 0) (fun _ => true) genInit = none ∧ N.deadlocked (fun _ => 0) = false ∧
      N.toNet.Enabled (fun _ => 0) ⟨0, by decide⟩ := by
  refine ⟨by decide, by decide, ?_⟩
  constructor
  · intro p; simp [toNet, preset, slice]
  · intro p k hk; simp [toNet, preset, slice] at hk

/-- **C04**.  Firing an enabled transition in a marking of 32-bit counters gives the exact
arithmetic result in *every* place, again within 32 bits, or raises the error; and the error is
raised only if some place would really hold `2^32 - 1` or more tokens. -/
theorem C04_no_silent_wrap (N : FlatNet) (w : N.WF) (m : Nat → Nat)
    (hm : ∀ p, p < N.nplaces → m p < W32) (t : Fin N.ntransitions) (he : N.toNet.Enabled m t) :
    (∃ m', N.fire m t = some m' ∧
      (∀ p, (m' p : Int) = m p - N.toNet.pre t p + N.toNet.post t p) ∧
      (∀ p, p < N.nplaces → m' p < W32)) ∨
    (N.fire m t = none ∧
      ∃ p, p < N.nplaces ∧ W32 - 1 ≤ m p - N.toNet.pre t p + N.toNet.post t p) := by
  have hs := fire_spec w m hm t he
  cases hr : N.fire m t with
  | none =>
    rw [hr] at hs
    exact .inr ⟨rfl, hs⟩
  | some m' =>
    rw [hr] at hs
    refine .inl ⟨m', rfl, fun p => ?_, hs.2⟩
    rw [hs.1]
    have := he.1 p
    simp only [Net.fire]
    omega

/-- Non-vacuity of C04: a firing that succeeds and one that hits the limit. -/
example : (Examples.net3.fire Examples.mark3 1).map (fun m => [m 0, m 1, m 2]) = some [1, 1, 1] ∧
    (Examples.net3.fire (fun p => if p = 0 then W32 - 2 else 0) 0).isNone = true := by decide

end Verif
