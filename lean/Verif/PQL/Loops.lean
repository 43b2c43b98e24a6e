import Verif.PQL.Stutter

/-!
# Queries that do not see loops

`AddsLoops T T'`: the system `T'` is `T` with steps that do not change the marking.  Queries the checker passes have
the same truth in both, as long as the flag of the checker tells the truth (`aligned`).
-/

namespace Verif
namespace PQL

/-- Specification: `T'` is `T` with some steps that change nothing. -/
def AddsLoops (T T' : TS) : Prop :=
  ∃ L : Mark → Prop, ∀ m m', T'.step m m' ↔ T.step m m' ∨ (m' = m ∧ L m)

mutual
/-- The operands of the CTL operators are state formulas. -/
def Cond.proper : Cond → Bool
  | .bool _ | .dead | .cmp _ _ _ | .cc _ _ => true
  | .not c => c.proper
  | .and cs => properL cs
  | .or cs => properL cs
  | .EX c | .AX c | .EF c | .AF c | .EG c | .AG c => c.proper && c.isState
  | .EU c d | .AU c d => c.proper && c.isState && (d.proper && d.isState)
  | .E c | .A c | .X c | .F c | .G c => c.proper
  | .U c d => c.proper && d.proper
def properL : List Cond → Bool
  | [] => true
  | c :: cs => c.proper && properL cs
end

theorem properL_iff {cs : List Cond} : properL cs = true ↔ ∀ c ∈ cs, c.proper = true := by
  induction cs with
  | nil => simp [properL]
  | cons c cs ih => simp [properL, ih]

mutual
/-- The flag `_negated` of the checker is set whenever an until of a path formula stands below an `A` and an even
number of negations.  `n`: that is the case; `b`: the flag. -/
def Cond.aligned (n b : Bool) : Cond → Bool
  | .bool _ | .dead | .cmp _ _ _ | .cc _ _ => true
  | .not c => c.aligned (!n) (!b)
  | .A c => c.aligned true (!b)
  | .and cs => alignedL n b cs
  | .or cs => alignedL n b cs
  | .EX _ | .AX _ | .EG _ | .AF _ | .AU _ _ | .E _ | .X _ | .F _ | .G _ => true
  | .EF c | .AG c => c.aligned n b
  | .EU c d => c.aligned n b && d.aligned n (c.loopV b).1
  | .U c d => (!n || b) && (c.aligned n b && d.aligned n (c.loopV b).1)
def alignedL (n b : Bool) : List Cond → Bool
  | [] => true
  | c :: cs => c.aligned n b && alignedL n (c.loopV b).1 cs
end

/-- The first `k` states of `π` are states of `σ`, in order, repetitions aside. -/
def Fold (π : Nat → Mark) (k : Nat) (σ : Nat → Mark) (g : Nat → Nat) : Prop :=
  g 0 = 0 ∧ (∀ i, i < k → g (i + 1) = g i ∨ g (i + 1) = g i + 1) ∧ ∀ i, i ≤ k → σ (g i) = π i

theorem Fold.le {π σ : Nat → Mark} {g : Nat → Nat} {k l : Nat} (h : Fold π k σ g) (hl : l ≤ k) : Fold π l σ g :=
  ⟨h.1, fun i hi => h.2.1 i (by omega), fun i hi => h.2.2 i (by omega)⟩

theorem Fold.mono {π σ : Nat → Mark} {g : Nat → Nat} {k : Nat} (h : Fold π k σ g) {i j : Nat} (hij : i ≤ j) (hj : j ≤ k) :
    g i ≤ g j := by
  induction j with
  | zero => have : i = 0 := by omega
            subst this; exact Nat.le_refl _
  | succ j ih =>
    rcases Nat.lt_or_ge j i with hl | hl
    · have : i = j + 1 := by omega
      subst this; exact Nat.le_refl _
    · have := ih hl (by omega)
      have := h.2.1 j (by omega)
      omega

theorem Fold.onto {π σ : Nat → Mark} {g : Nat → Nat} {k : Nat} (h : Fold π k σ g) {i : Nat} (hi : i ≤ k) {j : Nat}
    (hj : j < g i) : ∃ l, l < i ∧ g l = j := by
  induction i with
  | zero => rw [h.1] at hj; omega
  | succ i ih =>
    rcases Nat.lt_or_ge j (g i) with hl | hl
    · obtain ⟨l, h1, h2⟩ := ih (by omega) hl
      exact ⟨l, by omega, h2⟩
    · have := h.2.1 i (by omega)
      exact ⟨i, by omega, by omega⟩

theorem Fold.suffix {π σ : Nat → Mark} {g : Nat → Nat} {k : Nat} {i : Nat} (h : Fold π (i + k) σ g) :
    Fold (PQL.suffix π i) k (PQL.suffix σ (g i)) fun x => g (i + x) - g i := by
  refine ⟨by simp, fun x hx => ?_, fun x hx => ?_⟩
  · have e := h.2.1 (i + x) (by omega)
    have m := h.mono (show i ≤ i + x by omega) (by omega)
    dsimp only
    rw [show i + (x + 1) = i + x + 1 by omega]
    omega
  · have m := h.mono (show i ≤ i + x by omega) (by omega)
    simp only [PQL.suffix]
    rw [show g i + (g (i + x) - g i) = g (i + x) by omega]
    exact h.2.2 _ (by omega)

variable {T T' : TS}

theorem AddsLoops.path (hL : AddsLoops T T') {π : Nat → Mark} (h : T.IsPath π) : T'.IsPath π := by
  obtain ⟨L, hL⟩ := hL
  intro i
  rcases h i with hs | ⟨hd, he⟩
  · exact .inl ((hL _ _).2 (.inl hs))
  · by_cases hl : L (π i)
    · exact .inl ((hL _ _).2 (.inr ⟨he, hl⟩))
    · refine .inr ⟨fun m' hs => ?_, he⟩
      rcases (hL _ _).1 hs with hs | ⟨_, hl'⟩
      · exact hd _ hs
      · exact hl hl'

/-- The steps that change nothing can be left out of the beginning of a path. -/
theorem AddsLoops.fold (hL : AddsLoops T T') {π : Nat → Mark} (h : T'.IsPath π) (k : Nat) :
    ∃ σ g, T.IsPath σ ∧ σ 0 = π 0 ∧ Fold π k σ g := by
  induction k with
  | zero =>
    obtain ⟨σ, hσ, h0⟩ := T.exists_path (π 0)
    exact ⟨σ, fun _ => 0, hσ, h0, rfl, by omega, fun i hi => by
      have : i = 0 := by omega
      subst this; exact h0⟩
  | succ k ih =>
    obtain ⟨σ, g, hσ, h0, hf⟩ := ih
    have hsame : ∀ (hq : π (k + 1) = π k), ∃ σ g, T.IsPath σ ∧ σ 0 = π 0 ∧ Fold π (k + 1) σ g := by
      intro hq
      refine ⟨σ, fun i => if i ≤ k then g i else g k, hσ, h0, ?_, fun i hi => ?_, fun i hi => ?_⟩
      · simp [hf.1]
      · dsimp only
        rcases Nat.lt_or_ge i k with h' | h'
        · rw [if_pos (show i + 1 ≤ k by omega), if_pos (show i ≤ k by omega)]; exact hf.2.1 i h'
        · have : i = k := by omega
          subst this
          rw [if_neg (by omega), if_pos (Nat.le_refl _)]; exact .inl rfl
      · dsimp only
        split
        · next h' => exact hf.2.2 i h'
        · have : i = k + 1 := by omega
          subst this; rw [hq]; exact hf.2.2 k (Nat.le_refl _)
    obtain ⟨L, hL'⟩ := hL
    rcases h k with hs | ⟨_, he⟩
    · rcases (hL' _ _).1 hs with hs | ⟨he, _⟩
      · obtain ⟨τ, hτ, hτ0⟩ := T.exists_path (π (k + 1))
        have hp := prepend_path (m := π k) hτ (by rw [hτ0]; exact hs)
        have hn : prepend (π k) τ 0 = σ (g k) := (hf.2.2 k (Nat.le_refl _)).symm
        refine ⟨glue σ (g k) (prepend (π k) τ), fun i => if i ≤ k then g i else g k + 1, glue_path hσ hp hn,
          by rw [glue_zero hn, h0], ?_, fun i hi => ?_, fun i hi => ?_⟩
        · simp [hf.1]
        · dsimp only
          rcases Nat.lt_or_ge i k with h' | h'
          · rw [if_pos (show i + 1 ≤ k by omega), if_pos (show i ≤ k by omega)]; exact hf.2.1 i h'
          · have : i = k := by omega
            subst this
            rw [if_neg (by omega), if_pos (Nat.le_refl _)]; exact .inr rfl
        · dsimp only
          split
          · next h' =>
            have hm := hf.mono h' (Nat.le_refl _)
            rcases Nat.lt_or_ge (g i) (g k) with h'' | h''
            · rw [glue_lt h'']; exact hf.2.2 i h'
            · have hgi : g i = g k := by omega
              rw [hgi]
              have : glue σ (g k) (prepend (π k) τ) (g k) = π k := by simp [glue, prepend]
              rw [this, ← hf.2.2 k (Nat.le_refl _), ← hgi]; exact hf.2.2 i h'
          · have : i = k + 1 := by omega
            subst this
            simp only [glue, prepend]
            rw [if_neg (by omega), show g k + 1 - g k = 0 + 1 by omega]
            exact hτ0
      · exact hsame he
    · exact hsame he

/-- A path formula the checker passes: if it holds (`n = false`) or does not hold (`n = true`), then a beginning of
the path is the reason. -/
theorem Cond.prefix_reason (T : TS) (c : Cond) : ∀ n b, (c.loopV b).2 = false → c.aligned n b = true →
    ∀ π, (n = false → c.sat T π → ∃ k, ∀ σ g, Fold π k σ g → c.sat T σ) ∧
      (n = true → ¬ c.sat T π → ∃ k, ∀ σ g, Fold π k σ g → ¬ c.sat T σ) := by
  have st : ∀ c : Cond, c.isState = true → ∀ n b, (c.loopV b).2 = false → c.aligned n b = true →
    ∀ π, (n = false → c.sat T π → ∃ k, ∀ σ g, Fold π k σ g → c.sat T σ) ∧
      (n = true → ¬ c.sat T π → ∃ k, ∀ σ g, Fold π k σ g → ¬ c.sat T σ) := by
    intro c hc n b _ _ π
    have key : ∀ σ g, Fold π 0 σ g → (c.sat T σ ↔ c.sat T π) := fun σ g hf => by
      have := hf.2.2 0 (Nat.le_refl _)
      rw [hf.1] at this
      exact Cond.sat_state T this c hc
    exact ⟨fun _ h => ⟨0, fun σ g hf => (key σ g hf).2 h⟩, fun _ h => ⟨0, fun σ g hf hs => h ((key σ g hf).1 hs)⟩⟩
  induction c using Cond.ind with
  | bool | dead | cmp | cc | EX | AX | EF | AF | EG | AG | EU | AU | E | A => exact st _ rfl
  | X | F | G => intro n b h; simp [loopV] at h
  | not c ih =>
    intro n b hv ha π
    have := ih (!n) (!b) hv ha π
    refine ⟨fun hn h => ?_, fun hn h => ?_⟩
    · subst hn
      obtain ⟨k, hk⟩ := this.2 rfl h
      exact ⟨k, fun σ g hf => hk σ g hf⟩
    · subst hn
      obtain ⟨k, hk⟩ := this.1 rfl (Classical.not_not.1 h)
      exact ⟨k, fun σ g hf hs => hs (hk σ g hf)⟩
  | and cs ih =>
    intro n b hv ha π
    simp only [sat, satAll_iff]
    simp only [loopV] at hv
    simp only [aligned] at ha
    induction cs generalizing b with
    | nil => exact ⟨fun _ _ => ⟨0, by simp⟩, fun _ h => (h (by simp)).elim⟩
    | cons c cs ihl =>
      simp only [loopVL, Bool.or_eq_false_iff] at hv
      simp only [alignedL, Bool.and_eq_true] at ha
      have h1 := ih c (by simp) n b hv.1 ha.1 π
      have h2 := ihl (fun c hc => ih c (by simp [hc])) _ hv.2 ha.2
      refine ⟨fun hn h => ?_, fun hn h => ?_⟩
      · obtain ⟨k, hk⟩ := h1.1 hn (h c (by simp))
        obtain ⟨l, hl⟩ := h2.1 hn (fun c hc => h c (by simp [hc]))
        refine ⟨max k l, fun σ g hf d hd => ?_⟩
        rcases List.mem_cons.1 hd with rfl | hd
        · exact hk σ g (hf.le (Nat.le_max_left _ _))
        · exact hl σ g (hf.le (Nat.le_max_right _ _)) d hd
      · by_cases hc : c.sat T π
        · obtain ⟨l, hl⟩ := h2.2 hn (fun hh => h fun d hd => by
            rcases List.mem_cons.1 hd with rfl | hd
            · exact hc
            · exact hh d hd)
          exact ⟨l, fun σ g hf hh => hl σ g hf fun d hd => hh d (by simp [hd])⟩
        · obtain ⟨k, hk⟩ := h1.2 hn hc
          exact ⟨k, fun σ g hf hh => hk σ g hf (hh c (by simp))⟩
  | or cs ih =>
    intro n b hv ha π
    simp only [sat, satAny_iff]
    simp only [loopV] at hv
    simp only [aligned] at ha
    induction cs generalizing b with
    | nil => exact ⟨fun _ h => (by simp at h), fun _ _ => ⟨0, by simp⟩⟩
    | cons c cs ihl =>
      simp only [loopVL, Bool.or_eq_false_iff] at hv
      simp only [alignedL, Bool.and_eq_true] at ha
      have h1 := ih c (by simp) n b hv.1 ha.1 π
      have h2 := ihl (fun c hc => ih c (by simp [hc])) _ hv.2 ha.2
      refine ⟨fun hn h => ?_, fun hn h => ?_⟩
      · obtain ⟨d, hd, hs⟩ := h
        rcases List.mem_cons.1 hd with rfl | hd
        · obtain ⟨k, hk⟩ := h1.1 hn hs
          exact ⟨k, fun σ g hf => ⟨d, by simp, hk σ g hf⟩⟩
        · obtain ⟨l, hl⟩ := h2.1 hn ⟨d, hd, hs⟩
          refine ⟨l, fun σ g hf => ?_⟩
          obtain ⟨e, he, hs⟩ := hl σ g hf
          exact ⟨e, by simp [he], hs⟩
      · obtain ⟨k, hk⟩ := h1.2 hn (fun hh => h ⟨c, by simp, hh⟩)
        obtain ⟨l, hl⟩ := h2.2 hn (fun ⟨d, hd, hh⟩ => h ⟨d, by simp [hd], hh⟩)
        refine ⟨max k l, fun σ g hf => ?_⟩
        rintro ⟨d, hd, hs⟩
        rcases List.mem_cons.1 hd with rfl | hd
        · exact hk σ g (hf.le (Nat.le_max_left _ _)) hs
        · exact hl σ g (hf.le (Nat.le_max_right _ _)) ⟨d, hd, hs⟩
  | U c d ihc ihd =>
    intro n b hv ha π
    simp only [loopV] at hv
    cases b with
    | true => simp at hv
    | false =>
      simp only [Bool.false_eq_true, if_false, Bool.or_eq_false_iff] at hv
      simp only [aligned, Bool.and_eq_true, Bool.or_false, Bool.not_eq_true'] at ha
      obtain ⟨rfl, ha1, ha2⟩ := ha
      refine ⟨fun _ h => ?_, fun hn => by simp at hn⟩
      obtain ⟨i, hi, hj⟩ := h
      obtain ⟨k, hk⟩ := (ihd false _ hv.2 ha2 (suffix π i)).1 rfl hi
      -- one bound for all the states before
      have hb : ∀ i, (∀ j, j < i → c.sat T (suffix π j)) →
          ∃ K, ∀ j, j < i → ∀ σ g, Fold π K σ g → c.sat T (suffix σ (g j)) := by
        intro i
        induction i with
        | zero => exact fun _ => ⟨0, by omega⟩
        | succ i ihi =>
          intro hj
          obtain ⟨K, hK⟩ := ihi fun j h => hj j (by omega)
          obtain ⟨l, hl⟩ := (ihc false _ hv.1 ha1 (suffix π i)).1 rfl (hj i (by omega))
          refine ⟨max K (i + l), fun j hji σ g hf => ?_⟩
          rcases Nat.lt_or_ge j i with h' | h'
          · exact hK j h' σ g (hf.le (Nat.le_max_left _ _))
          · have : j = i := by omega
            subst this
            exact hl _ _ (hf.le (Nat.le_max_right _ _)).suffix
      obtain ⟨K, hK⟩ := hb i hj
      refine ⟨max K (i + k), fun σ g hf => ⟨g i, hk _ _ (hf.le (Nat.le_max_right _ _)).suffix, fun j' hj' => ?_⟩⟩
      obtain ⟨l, hl, rfl⟩ := hf.onto (show i ≤ max K (i + k) by omega) hj'
      exact hK l hl σ g (hf.le (Nat.le_max_left _ _))

/-- The states reached are the same. -/
theorem AddsLoops.until_iff (hL : AddsLoops T T') {C D : Mark → Prop} {m : Mark} :
    (∃ π, T.IsPath π ∧ π 0 = m ∧ ∃ i, D (π i) ∧ ∀ j, j < i → C (π j)) ↔
      ∃ π, T'.IsPath π ∧ π 0 = m ∧ ∃ i, D (π i) ∧ ∀ j, j < i → C (π j) := by
  constructor
  · rintro ⟨π, hp, h0, h⟩
    exact ⟨π, hL.path hp, h0, h⟩
  · rintro ⟨π, hp, h0, i, hi, hj⟩
    obtain ⟨σ, g, hσ, hσ0, hf⟩ := hL.fold hp i
    refine ⟨σ, hσ, hσ0.trans h0, g i, by rw [hf.2.2 i (Nat.le_refl _)]; exact hi, fun j' hj' => ?_⟩
    obtain ⟨l, hl, rfl⟩ := hf.onto (Nat.le_refl _) hj'
    rw [hf.2.2 l (by omega)]; exact hj l hl

theorem sat_at (T : TS) {c : Cond} (hc : c.isState = true) (π : Nat → Mark) (i : Nat) :
    c.sat T (suffix π i) ↔ c.sat T (fun _ => π i) := Cond.sat_state T (by simp [suffix]) c hc

/-- Queries the checker passes have the same truth with and without steps that change nothing, if the flag of the
checker tells the truth. -/
theorem Cond.sat_loops (hL : AddsLoops T T') (c : Cond) : ∀ n b, (c.loopV b).2 = false → c.aligned n b = true →
    c.proper = true → ∀ π, c.sat T π ↔ c.sat T' π := by
  induction c using Cond.ind with
  | bool | cmp | cc => exact fun _ _ _ _ _ _ => Iff.rfl
  | dead | EX | AX | EG | AF | AU | E | X | F | G => intro n b h; simp [loopV] at h
  | not c ih => exact fun n b hv ha hp π => not_congr (ih (!n) (!b) hv ha hp π)
  | and cs ih =>
    intro n b hv ha hp π
    simp only [sat, satAll_iff]
    simp only [loopV] at hv
    simp only [aligned] at ha
    simp only [proper, properL_iff] at hp
    refine forall₂_congr fun c hc => ?_
    induction cs generalizing b with
    | nil => simp at hc
    | cons d cs ihl =>
      simp only [loopVL, Bool.or_eq_false_iff] at hv
      simp only [alignedL, Bool.and_eq_true] at ha
      rcases List.mem_cons.1 hc with rfl | hc
      · exact ih c (by simp) n b hv.1 ha.1 (hp c (by simp)) π
      · exact ihl (fun c hc => ih c (by simp [hc])) _ hv.2 ha.2 (fun c hc => hp c (by simp [hc])) hc
  | or cs ih =>
    intro n b hv ha hp π
    simp only [sat, satAny_iff]
    simp only [loopV] at hv
    simp only [aligned] at ha
    simp only [proper, properL_iff] at hp
    refine exists_congr fun c => and_congr_right fun hc => ?_
    induction cs generalizing b with
    | nil => simp at hc
    | cons d cs ihl =>
      simp only [loopVL, Bool.or_eq_false_iff] at hv
      simp only [alignedL, Bool.and_eq_true] at ha
      rcases List.mem_cons.1 hc with rfl | hc
      · exact ih c (by simp) n b hv.1 ha.1 (hp c (by simp)) π
      · exact ihl (fun c hc => ih c (by simp [hc])) _ hv.2 ha.2 (fun c hc => hp c (by simp [hc])) hc
  | EF c ih =>
    intro n b hv ha hp π
    simp only [proper, Bool.and_eq_true] at hp
    have h := ih n b hv ha hp.1
    have e := hL.until_iff (C := fun _ => True) (D := fun m => c.sat T fun _ => m) (m := π 0)
    simp only [sat, sat_at _ hp.2, ← h]
    simpa using e
  | AG c ih =>
    intro n b hv ha hp π
    simp only [proper, Bool.and_eq_true] at hp
    have h := ih n b hv ha hp.1
    have e := hL.until_iff (C := fun _ => True) (D := fun m => ¬ c.sat T fun _ => m) (m := π 0)
    simp only [sat, sat_at _ hp.2, ← h]
    simpa using not_congr e
  | EU c d ihc ihd =>
    intro n b hv ha hp π
    simp only [proper, Bool.and_eq_true] at hp
    simp only [loopV] at hv
    cases b with
    | true => simp at hv
    | false =>
      simp only [Bool.false_eq_true, if_false, Bool.or_eq_false_iff] at hv
      simp only [aligned, Bool.and_eq_true] at ha
      have h1 := ihc n _ hv.1 ha.1 hp.1.1
      have h2 := ihd n _ hv.2 ha.2 hp.2.1
      have e := hL.until_iff (C := fun m => c.sat T fun _ => m) (D := fun m => d.sat T fun _ => m) (m := π 0)
      simp only [sat, sat_at _ hp.1.2, sat_at _ hp.2.2, ← h1, ← h2]
      exact e
  | U c d ihc ihd =>
    intro n b hv ha hp π
    simp only [proper, Bool.and_eq_true] at hp
    simp only [loopV] at hv
    cases b with
    | true => simp at hv
    | false =>
      simp only [Bool.false_eq_true, if_false, Bool.or_eq_false_iff] at hv
      simp only [aligned, Bool.and_eq_true] at ha
      have h1 := ihc n _ hv.1 ha.2.1 hp.1
      have h2 := ihd n _ hv.2 ha.2.2 hp.2
      simp only [sat, h1, h2]
  | A c ih =>
    intro n b hv ha hp π
    have h := ih true (!b) hv ha hp
    simp only [sat]
    constructor
    · intro hs π' hp' h0
      apply Classical.byContradiction
      intro hc
      rw [← h] at hc
      obtain ⟨k, hk⟩ := (c.prefix_reason T true (!b) hv ha π').2 rfl hc
      obtain ⟨σ, g, hσ, hσ0, hf⟩ := hL.fold hp' k
      exact hk σ g hf (hs σ hσ (hσ0.trans h0))
    · intro hs π' hp' h0
      rw [h]
      exact hs π' (hL.path hp') h0

/-! ### When the flag tells the truth -/

mutual
/-- CTL: no path formulas. -/
def Cond.ctlOnly : Cond → Bool
  | .bool _ | .dead | .cmp _ _ _ | .cc _ _ => true
  | .not c => c.ctlOnly
  | .and cs => ctlOnlyL cs
  | .or cs => ctlOnlyL cs
  | .EX c | .AX c | .EF c | .AF c | .EG c | .AG c => c.ctlOnly
  | .EU c d | .AU c d => c.ctlOnly && d.ctlOnly
  | .E _ | .A _ | .X _ | .F _ | .G _ | .U _ _ => false
def ctlOnlyL : List Cond → Bool
  | [] => true
  | c :: cs => c.ctlOnly && ctlOnlyL cs
end

theorem ctlOnlyL_iff {cs : List Cond} : ctlOnlyL cs = true ↔ ∀ c ∈ cs, c.ctlOnly = true := by
  induction cs with
  | nil => simp [ctlOnlyL]
  | cons c cs ih => simp [ctlOnlyL, ih]

theorem Cond.ctlOnly_state (c : Cond) (h : c.ctlOnly = true) : c.isState = true := by
  induction c using Cond.ind with
  | not c ih => exact ih h
  | and cs ih => exact (isState_all_iff cs).2 fun c hc => ih c hc (ctlOnlyL_iff.1 h c hc)
  | or cs ih => exact (isState_all_iff cs).2 fun c hc => ih c hc (ctlOnlyL_iff.1 h c hc)
  | X | F | G | U => simp [ctlOnly] at h
  | _ => rfl

theorem Cond.ctlOnly_proper (c : Cond) (h : c.ctlOnly = true) : c.proper = true := by
  induction c using Cond.ind with
  | not c ih => exact ih h
  | and cs ih => exact properL_iff.2 fun c hc => ih c hc (ctlOnlyL_iff.1 h c hc)
  | or cs ih => exact properL_iff.2 fun c hc => ih c hc (ctlOnlyL_iff.1 h c hc)
  | X | F | G | U | E | A => simp [ctlOnly] at h
  | EX c ih | AX c ih | EF c ih | AF c ih | EG c ih | AG c ih =>
    simp [proper, ih h, Cond.ctlOnly_state c h]
  | EU c d ih ih' | AU c d ih ih' =>
    simp only [ctlOnly, Bool.and_eq_true] at h
    simp [proper, ih h.1, ih' h.2, Cond.ctlOnly_state c h.1, Cond.ctlOnly_state d h.2]
  | _ => rfl

theorem Cond.ctlOnly_aligned (c : Cond) : ∀ n b, c.ctlOnly = true → c.aligned n b = true := by
  induction c using Cond.ind with
  | not c ih => exact fun n b h => ih _ _ h
  | and cs ih =>
    intro n b h
    simp only [aligned]
    simp only [ctlOnly] at h
    induction cs generalizing b with
    | nil => rfl
    | cons c cs ihl =>
      simp only [ctlOnlyL, Bool.and_eq_true] at h
      simp [alignedL, ih c (by simp) n b h.1, ihl (fun c hc => ih c (by simp [hc])) _ h.2]
  | or cs ih =>
    intro n b h
    simp only [aligned]
    simp only [ctlOnly] at h
    induction cs generalizing b with
    | nil => rfl
    | cons c cs ihl =>
      simp only [ctlOnlyL, Bool.and_eq_true] at h
      simp [alignedL, ih c (by simp) n b h.1, ihl (fun c hc => ih c (by simp [hc])) _ h.2]
  | U | A => intro n b h; simp [ctlOnly] at h
  | EF c ih | AG c ih => exact fun n b h => ih n b h
  | EU c d ih ih' =>
    intro n b h
    simp only [ctlOnly, Bool.and_eq_true] at h
    simp [aligned, ih n b h.1, ih' n _ h.2]
  | _ => exact fun _ _ _ => rfl

mutual
/-- Path formulas without negations and path quantifiers. -/
def Cond.negFree : Cond → Bool
  | .bool _ | .dead | .cmp _ _ _ | .cc _ _ => true
  | .and cs => negFreeL cs
  | .or cs => negFreeL cs
  | .X c | .F c | .G c => c.negFree
  | .U c d => c.negFree && d.negFree
  | _ => false
def negFreeL : List Cond → Bool
  | [] => true
  | c :: cs => c.negFree && negFreeL cs
end

theorem negFreeL_iff {cs : List Cond} : negFreeL cs = true ↔ ∀ c ∈ cs, c.negFree = true := by
  induction cs with
  | nil => simp [negFreeL]
  | cons c cs ih => simp [negFreeL, ih]

theorem Cond.negFree_proper (c : Cond) (h : c.negFree = true) : c.proper = true := by
  induction c using Cond.ind with
  | and cs ih => exact properL_iff.2 fun c hc => ih c hc (negFreeL_iff.1 h c hc)
  | or cs ih => exact properL_iff.2 fun c hc => ih c hc (negFreeL_iff.1 h c hc)
  | X c ih | F c ih | G c ih => exact ih h
  | U c d ih ih' =>
    simp only [negFree, Bool.and_eq_true] at h
    simp [proper, ih h.1, ih' h.2]
  | bool | dead | cmp | cc => rfl
  | _ => simp [negFree] at h

theorem Cond.negFree_flag (c : Cond) (b : Bool) (h : c.negFree = true) : (c.loopV b).1 = b := by
  induction c using Cond.ind with
  | and cs ih =>
    simp only [loopV]
    simp only [negFree] at h
    induction cs with
    | nil => rfl
    | cons c cs ihl =>
      simp only [negFreeL, Bool.and_eq_true] at h
      simp only [loopVL, ih c (by simp) h.1]
      exact ihl (fun c hc => ih c (by simp [hc])) h.2
  | or cs ih =>
    simp only [loopV]
    simp only [negFree] at h
    induction cs with
    | nil => rfl
    | cons c cs ihl =>
      simp only [negFreeL, Bool.and_eq_true] at h
      simp only [loopVL, ih c (by simp) h.1]
      exact ihl (fun c hc => ih c (by simp [hc])) h.2
  | U c d ih ih' =>
    simp only [negFree, Bool.and_eq_true] at h
    cases b with
    | true => rfl
    | false => simp [loopV, ih h.1, ih' h.2]
  | bool | dead | cmp | cc | X | F | G => rfl
  | _ => simp [negFree] at h

theorem Cond.negFree_aligned (c : Cond) (n : Bool) (h : c.negFree = true) : c.aligned n true = true := by
  induction c using Cond.ind with
  | and cs ih =>
    simp only [aligned]
    simp only [negFree] at h
    induction cs with
    | nil => rfl
    | cons c cs ihl =>
      simp only [negFreeL, Bool.and_eq_true] at h
      simp only [alignedL, ih c (by simp) h.1, negFree_flag c true h.1, Bool.true_and]
      exact ihl (fun c hc => ih c (by simp [hc])) h.2
  | or cs ih =>
    simp only [aligned]
    simp only [negFree] at h
    induction cs with
    | nil => rfl
    | cons c cs ihl =>
      simp only [negFreeL, Bool.and_eq_true] at h
      simp only [alignedL, ih c (by simp) h.1, negFree_flag c true h.1, Bool.true_and]
      exact ihl (fun c hc => ih c (by simp [hc])) h.2
  | U c d ih ih' =>
    simp only [negFree, Bool.and_eq_true] at h
    simp [aligned, ih h.1, negFree_flag c true h.1, ih' h.2]
  | bool | dead | cmp | cc | X | F | G => rfl
  | _ => simp [negFree] at h

end PQL
end Verif
