import Verif.LTL.Visible
import Verif.LTL.SafeAutMain
import Verif.PQL.Stutter

/-!
# Stubborn sets that respect visible transitions keep paths up to repetition
-/

namespace Verif
namespace LTL
open PQL Stubborn

/-! ### Walking along two paths -/

/-- Two clocks that show the same times can be read along a common walk. -/
theorem common_walk {V W : Nat → Nat} (h0 : V 0 = W 0) (hv : ∀ i, V (i + 1) = V i ∨ V (i + 1) = V i + 1)
    (hw : ∀ i, W (i + 1) = W i ∨ W (i + 1) = W i + 1) (hvw : ∀ i, ∃ j, V i = W j) (hwv : ∀ j, ∃ i, W j = V i) :
    ∃ a b : Nat → Nat, a 0 = 0 ∧ b 0 = 0 ∧ (∀ k, a (k + 1) = a k ∨ a (k + 1) = a k + 1) ∧
      (∀ k, b (k + 1) = b k ∨ b (k + 1) = b k + 1) ∧ (∀ i, ∃ k, a k = i) ∧ (∀ j, ∃ k, b k = j) ∧
      ∀ k, V (a k) = W (b k) := by
  let nx : Nat × Nat → Nat × Nat := fun x =>
    if V (x.1 + 1) = V x.1 then (if W (x.2 + 1) = W x.2 then (x.1 + 1, x.2 + 1) else (x.1 + 1, x.2))
    else (if W (x.2 + 1) = W x.2 then (x.1, x.2 + 1) else (x.1 + 1, x.2 + 1))
  let s : Nat → Nat × Nat := fun k => Nat.rec (0, 0) (fun _ x => nx x) k
  have hs : ∀ k, s (k + 1) = nx (s k) := fun _ => rfl
  have hnx : ∀ x : Nat × Nat, V x.1 = W x.2 → V (nx x).1 = W (nx x).2 ∧
      ((nx x).1 = x.1 ∨ (nx x).1 = x.1 + 1) ∧ ((nx x).2 = x.2 ∨ (nx x).2 = x.2 + 1) ∧
      ((nx x).1 = x.1 → V (x.1 + 1) = V x.1 + 1 ∧ (nx x).2 = x.2 + 1) ∧
      ((nx x).2 = x.2 → W (x.2 + 1) = W x.2 + 1 ∧ (nx x).1 = x.1 + 1) := by
    intro x hx
    have h1 := hv x.1
    have h2 := hw x.2
    by_cases c1 : V (x.1 + 1) = V x.1 <;> by_cases c2 : W (x.2 + 1) = W x.2
    · have e : nx x = (x.1 + 1, x.2 + 1) := by simp only [nx, if_pos c1, if_pos c2]
      rw [e]; dsimp only; omega
    · have e : nx x = (x.1 + 1, x.2) := by simp only [nx, if_pos c1, if_neg c2]
      rw [e]; dsimp only; omega
    · have e : nx x = (x.1, x.2 + 1) := by simp only [nx, if_neg c1, if_pos c2]
      rw [e]; dsimp only; omega
    · have e : nx x = (x.1 + 1, x.2 + 1) := by simp only [nx, if_neg c1, if_neg c2]
      rw [e]; dsimp only; omega
  have heq : ∀ k, V (s k).1 = W (s k).2 := by
    intro k
    induction k with
    | zero => exact h0
    | succ k ih => rw [hs]; exact (hnx _ ih).1
  have wmono : ∀ {k l : Nat}, k ≤ l → W k ≤ W l := fun h => walk_mono hw h
  have vmono : ∀ {k l : Nat}, k ≤ l → V k ≤ V l := fun h => walk_mono hv h
  -- neither stands still for ever
  have ga : ∀ k, ∃ l, (s l).1 = (s k).1 + 1 := by
    intro k
    refine Classical.byContradiction fun hno => ?_
    have stay : ∀ l, (s (k + l)).1 = (s k).1 ∧ (s (k + l)).2 = (s k).2 + l := by
      intro l
      induction l with
      | zero => exact ⟨rfl, rfl⟩
      | succ l ih =>
        have hn := hnx _ (heq (k + l))
        rw [← hs] at hn
        have e : (s (k + l + 1)).1 = (s (k + l)).1 := by
          rcases hn.2.1 with h | h
          · exact h
          · exact (hno ⟨k + l + 1, by rw [h, ih.1]⟩).elim
        have := hn.2.2.2.1 e
        exact ⟨by rw [← ih.1]; exact e, by rw [show k + (l + 1) = k + l + 1 by omega, this.2, ih.2]; omega⟩
    have hinc : V ((s k).1 + 1) = V (s k).1 + 1 := by
      have hn := hnx _ (heq k)
      rw [← hs] at hn
      exact (hn.2.2.2.1 (stay 1).1).1
    obtain ⟨j, hj⟩ := hvw ((s k).1 + 1)
    have h1 := heq (k + j)
    rw [(stay j).1, (stay j).2] at h1
    have := wmono (show j ≤ (s k).2 + j by omega)
    omega
  have gb : ∀ k, ∃ l, (s l).2 = (s k).2 + 1 := by
    intro k
    refine Classical.byContradiction fun hno => ?_
    have stay : ∀ l, (s (k + l)).2 = (s k).2 ∧ (s (k + l)).1 = (s k).1 + l := by
      intro l
      induction l with
      | zero => exact ⟨rfl, rfl⟩
      | succ l ih =>
        have hn := hnx _ (heq (k + l))
        rw [← hs] at hn
        have e : (s (k + l + 1)).2 = (s (k + l)).2 := by
          rcases hn.2.2.1 with h | h
          · exact h
          · exact (hno ⟨k + l + 1, by rw [h, ih.1]⟩).elim
        have := hn.2.2.2.2 e
        exact ⟨by rw [← ih.1]; exact e, by rw [show k + (l + 1) = k + l + 1 by omega, this.2, ih.2]; omega⟩
    have hinc : W ((s k).2 + 1) = W (s k).2 + 1 := by
      have hn := hnx _ (heq k)
      rw [← hs] at hn
      exact (hn.2.2.2.2 (stay 1).1).1
    obtain ⟨j, hj⟩ := hwv ((s k).2 + 1)
    have h1 := heq (k + j)
    rw [(stay j).1, (stay j).2] at h1
    have := vmono (show j ≤ (s k).1 + j by omega)
    omega
  refine ⟨fun k => (s k).1, fun k => (s k).2, rfl, rfl, fun k => ?_, fun k => ?_, fun i => ?_, fun j => ?_, heq⟩
  · have := (hnx _ (heq k)).2.1; rw [← hs] at this; exact this
  · have := (hnx _ (heq k)).2.2.1; rw [← hs] at this; exact this
  · induction i with
    | zero => exact ⟨0, rfl⟩
    | succ i ih => obtain ⟨k, hk⟩ := ih; obtain ⟨l, hl⟩ := ga k; exact ⟨l, hl.trans (congrArg (· + 1) hk)⟩
  · induction j with
    | zero => exact ⟨0, rfl⟩
    | succ i ih => obtain ⟨k, hk⟩ := ih; obtain ⟨l, hl⟩ := gb k; exact ⟨l, hl.trans (congrArg (· + 1) hk)⟩

/-! ### Moving a transition of the set to the front of an infinite run -/

section
variable {P T : Type} (N : Net P T)

/-- A step, or the repetition of a deadlock. -/
def OStep (m : Marking P) : Option T → Marking P → Prop
  | some t, m' => N.Step m t m'
  | none, m' => N.Dead m ∧ m' = m

/-- What is required of the set chosen in a marking: it contains all enabled transitions, or it is closed, has an
enabled transition that no transition outside it disables, and none of its enabled transitions is visible. -/
def SetOK (vis : T → Bool) (m : Marking P) (S : T → Prop) : Prop :=
  (∀ t, N.Enabled m t → S t) ∨
  (Closed N m S ∧ (∃ t, S t ∧ N.Enabled m t ∧ ∀ u, ¬ S u → ∀ p, 0 < N.pre t p → N.pre u p ≤ N.post u p) ∧
    ∀ t, S t → N.Enabled m t → vis t = false)

variable {N} {vis : T → Bool} {V : P → Prop} {Y : Nat → Marking P} {top : Nat → Prop}

/-- A run, with a clock that counts visible transitions; the marking on the places of `V` is the one that `Y` gives for the
time, and the times reached are those of `top`. -/
structure Rem (N : Net P T) (vis : T → Bool) (V : P → Prop) (Y : Nat → Marking P) (top : Nat → Prop)
    (ρ : Nat → Marking P) (τ : Nat → Option T) (W : Nat → Nat) : Prop where
  step : ∀ i, OStep N (ρ i) (τ i) (ρ (i + 1))
  inc : ∀ i, W (i + 1) = W i + if (τ i).any vis then 1 else 0
  lab : ∀ i p, V p → ρ i p = Y (W i) p
  top : ∀ n, W 0 ≤ n → ((∃ i, W i = n) ↔ top n)

theorem dead_stay {ρ : Nat → Marking P} {τ : Nat → Option T} (h : ∀ i, OStep N (ρ i) (τ i) (ρ (i + 1))) {i : Nat}
    (hd : N.Dead (ρ i)) : ∀ k, τ (i + k) = none ∧ ρ (i + k) = ρ i := by
  have key : ∀ i, N.Dead (ρ i) → τ i = none ∧ ρ (i + 1) = ρ i := by
    intro i hi
    have := h i
    cases hτ : τ i with
    | none => rw [hτ] at this; exact ⟨rfl, this.2⟩
    | some t => rw [hτ] at this; exact (hi t this.1).elim
  have all : ∀ k, ρ (i + k) = ρ i := by
    intro k
    induction k with
    | zero => rfl
    | succ k ih => rw [← ih]; exact (key (i + k) (by rw [ih]; exact hd)).2
  exact fun k => ⟨(key (i + k) (by rw [all k]; exact hd)).1, all k⟩

theorem Rem.tail {ρ τ W} (h : Rem N vis V Y top ρ τ W) :
    Rem N vis V Y top (fun i => ρ (i + 1)) (fun i => τ (i + 1)) (fun i => W (i + 1)) where
  step := fun i => h.step (i + 1)
  inc := fun i => h.inc (i + 1)
  lab := fun i => h.lab (i + 1)
  top := fun n hn => by
    rw [← h.top n (by have := h.inc 0; simp only [Nat.zero_add] at hn; rw [this] at hn; omega)]
    constructor
    · rintro ⟨i, hi⟩; exact ⟨i + 1, hi⟩
    · rintro ⟨i, hi⟩
      cases i with
      | zero =>
        refine ⟨0, ?_⟩
        have := h.inc 0
        simp only [Nat.zero_add] at hn this ⊢
        omega
      | succ i => exact ⟨i, hi⟩

/-- What one step gives: a step of the reduced system (or both are dead), the rest of the run, and what becomes of a
visible transition at position `d`. -/
structure Adv (N : Net P T) (vis : T → Bool) (V : P → Prop) (Y : Nat → Marking P) (top : Nat → Prop) (S : T → Prop)
    (ρ : Nat → Marking P) (τ : Nat → Option T) (W : Nat → Nat) (ρ' : Nat → Marking P) (τ' : Nat → Option T)
    (W' : Nat → Nat) : Prop where
  rem : Rem N vis V Y top ρ' τ' W'
  step : (∃ t, S t ∧ N.Step (ρ 0) t (ρ' 0)) ∨ (N.Dead (ρ 0) ∧ ρ' 0 = ρ 0)
  clock : W' 0 = W 0 ∨ W' 0 = W 0 + 1
  next : ∀ d v, τ d = some v → vis v = true → W' 0 = W 0 + 1 ∨
    ∃ d', d' ≤ d ∧ τ' d' = some v ∧ (S v → d' < d)

theorem adv_tail {S : T → Prop} {ρ τ W} (h : Rem N vis V Y top ρ τ W) (hS : ∀ t, τ 0 = some t → S t)
    : Adv N vis V Y top S ρ τ W (fun i => ρ (i + 1)) (fun i => τ (i + 1)) (fun i => W (i + 1)) where
  rem := h.tail
  step := by
    have := h.step 0
    cases hτ : τ 0 with
    | none => rw [hτ] at this; exact .inr this
    | some t => rw [hτ] at this; exact .inl ⟨t, hS t hτ, this⟩
  clock := by have := h.inc 0; show W (0 + 1) = W 0 ∨ W (0 + 1) = W 0 + 1; rw [this]; split <;> simp
  next := by
    intro d v hd hv
    cases d with
    | zero => left; show W (0 + 1) = _; rw [h.inc 0, hd]; simp [hv]
    | succ d => exact .inr ⟨d, by omega, hd, fun _ => by omega⟩

theorem shift_lab (hV : ∀ t p, vis t = false → V p → N.pre t p = N.post t p) {t : T} (ht : vis t = false) {m : Marking P}
    {p : P} (hp : V p) : shiftTo N t m p = m p := by
  have := hV t p ht hp
  simp only [shiftTo]; omega

theorem advance_vis {S : T → Prop} {ρ τ W} (h : Rem N vis V Y top ρ τ W) (hS : SetOK N vis (ρ 0) S)
    (hV : ∀ t p, vis t = false → V p → N.pre t p = N.post t p) (hinh : ∀ t p, N.inh t p = none) :
    ∃ ρ' τ' W', Adv N vis V Y top S ρ τ W ρ' τ' W' := by
  classical
  rcases hS with hall | ⟨hc, ⟨t, ht, het, hkey⟩, hinv⟩
  · exact ⟨_, _, _, adv_tail h fun t ht => hall t (by have := h.step 0; rw [ht] at this; exact this.1)⟩
  by_cases hex : ∃ j u, τ j = some u ∧ S u
  · -- the first transition of the set
    have hex' : ∃ j, ∃ u, τ j = some u ∧ S u := hex
    obtain ⟨u, hju, hu⟩ := Nat.find_spec hex'
    have hmin : ∀ i, i < Nat.find hex' → ∀ v, τ i = some v → ¬ S v := fun i hi v hv hs => Nat.find_min hex' hi ⟨v, hv, hs⟩
    generalize Nat.find hex' = j at hju hmin
    have hsome : ∀ i, i < j → τ i = some ((τ i).getD u) := by
      intro i hi
      cases hτ : τ i with
      | some v => rfl
      | none =>
        have hs := h.step i
        rw [hτ] at hs
        have := (dead_stay h.step hs.1 (j - i)).1
        rw [show i + (j - i) = j by omega, hju] at this
        cases this
    have hst : ∀ i, i < j → N.Step (ρ i) ((τ i).getD u) (ρ (i + 1)) := fun i hi => by
      have := h.step i
      rw [hsome i hi] at this
      exact this
    have hnS : ∀ i, i < j → ¬ S ((τ i).getD u) := fun i hi => hmin i hi _ (hsome i hi)
    have hstj : N.Step (ρ j) u (ρ (j + 1)) := by have := h.step j; rw [hju] at this; exact this
    have he : N.Enabled (ρ 0) u := by
      refine hc.enabled hu (run_range_lt j hst) ?_ hstj.1
      intro v hv
      obtain ⟨i, hi, rfl⟩ := List.mem_map.1 hv
      exact hnS i (List.mem_range.1 hi)
    have hvu := hinv u hu he
    obtain ⟨-, hsh⟩ := shift_steps_lt (t := u) j hst (hc.en u hu he) he hnS
    have hWj : W (j + 1) = W j := by rw [h.inc j, hju]; simp [hvu]
    refine ⟨fun i => if i ≤ j then shiftTo N u (ρ i) else ρ (i + 1), fun i => if i < j then τ i else τ (i + 1),
      fun i => if i ≤ j then W i else W (i + 1), ⟨?_, ?_, ?_, ?_⟩, .inl ⟨u, hu, ?_⟩, ?_, ?_⟩
    · intro i
      rcases Nat.lt_trichotomy i j with hi | hi | hi
      · simp only [if_pos (show i ≤ j by omega), if_pos (show i + 1 ≤ j by omega), if_pos hi]
        rw [hsome i hi]; exact hsh i hi
      · subst hi
        simp only [if_pos (Nat.le_refl _), if_neg (show ¬ i + 1 ≤ i by omega), if_neg (Nat.lt_irrefl _)]
        rw [shiftTo_fire hstj.1, ← hstj.2]
        exact h.step (i + 1)
      · simp only [if_neg (show ¬ i ≤ j by omega), if_neg (show ¬ i + 1 ≤ j by omega), if_neg (show ¬ i < j by omega)]
        exact h.step (i + 1)
    · intro i
      rcases Nat.lt_trichotomy i j with hi | hi | hi
      · simp only [if_pos (show i ≤ j by omega), if_pos (show i + 1 ≤ j by omega), if_pos hi]
        exact h.inc i
      · subst hi
        simp only [if_pos (Nat.le_refl _), if_neg (show ¬ i + 1 ≤ i by omega), if_neg (Nat.lt_irrefl _)]
        rw [← hWj]
        exact h.inc (i + 1)
      · simp only [if_neg (show ¬ i ≤ j by omega), if_neg (show ¬ i + 1 ≤ j by omega), if_neg (show ¬ i < j by omega)]
        exact h.inc (i + 1)
    · intro i p hp
      by_cases hi : i ≤ j
      · simp only [if_pos hi]
        rw [shift_lab hV hvu hp]; exact h.lab i p hp
      · simp only [if_neg hi]
        exact h.lab (i + 1) p hp
    · intro n hn
      simp only [if_pos (Nat.zero_le j)] at hn
      rw [← h.top n hn]
      constructor
      · rintro ⟨i, hi⟩
        by_cases hij : i ≤ j
        · simp only [if_pos hij] at hi; exact ⟨i, hi⟩
        · simp only [if_neg hij] at hi; exact ⟨i + 1, hi⟩
      · rintro ⟨i, hi⟩
        by_cases hij : i ≤ j
        · exact ⟨i, by simp only [if_pos hij]; exact hi⟩
        · by_cases hij' : i = j + 1
          · subst hij'
            exact ⟨j, by simp only [if_pos (Nat.le_refl _)]; rw [← hWj]; exact hi⟩
          · refine ⟨i - 1, ?_⟩
            simp only [if_neg (show ¬ i - 1 ≤ j by omega)]
            rw [show i - 1 + 1 = i by omega]; exact hi
    · simp only [if_pos (Nat.zero_le j)]
      rw [shiftTo_fire he]; exact ⟨he, rfl⟩
    · simp only [if_pos (Nat.zero_le j)]; exact .inl trivial
    · intro d v hd hv
      right
      rcases Nat.lt_trichotomy d j with hi | hi | hi
      · exact ⟨d, Nat.le_refl _, by simp only [if_pos hi]; exact hd, fun hs => (hmin d hi v hd hs).elim⟩
      · subst hi
        rw [hju] at hd; cases hd
        rw [hvu] at hv; cases hv
      · refine ⟨d - 1, by omega, ?_, fun _ => by omega⟩
        simp only [if_neg (show ¬ d - 1 < j by omega)]
        rw [show d - 1 + 1 = d by omega]; exact hd
  · -- none: the key transition stays enabled
    have hno : ∀ i v, τ i = some v → ¬ S v := fun i v hv hs => hex ⟨i, v, hv, hs⟩
    have hen : ∀ i, N.Enabled (ρ i) t := by
      intro i
      induction i with
      | zero => exact het
      | succ i ih =>
        have hs := h.step i
        cases hτ : τ i with
        | none => rw [hτ] at hs; exact (hs.1 t ih).elim
        | some v =>
          rw [hτ] at hs
          have hk := hkey v (hno i v hτ)
          refine ⟨fun p => ?_, fun p w hw => by rw [hinh] at hw; cases hw⟩
          have h1 := ih.1 p
          have h2 := hs.1.1 p
          rw [hs.2]
          simp only [Net.fire]
          by_cases hp : 0 < N.pre t p
          · have := hk p hp; omega
          · omega
    have hsome : ∀ i, τ i = some ((τ i).getD t) := by
      intro i
      cases hτ : τ i with
      | some v => rfl
      | none => have hs := h.step i; rw [hτ] at hs; exact (hs.1 t (hen i)).elim
    have hst : ∀ i, N.Step (ρ i) ((τ i).getD t) (ρ (i + 1)) := fun i => by
      have := h.step i
      rw [hsome i] at this
      exact this
    have hvt := hinv t ht het
    have hsh := fun n => shift_steps (t := t) hst (hc.en t ht het) het n fun i _ => hno i _ (hsome i)
    refine ⟨fun i => shiftTo N t (ρ i), τ, W, ⟨?_, h.inc, ?_, h.top⟩, .inl ⟨t, ht, ?_⟩, .inl rfl, ?_⟩
    · intro i
      rw [hsome i]; exact (hsh (i + 1)).2 i (Nat.lt_succ_self _)
    · intro i p hp
      show shiftTo N t (ρ i) p = _
      rw [shift_lab hV hvt hp]; exact h.lab i p hp
    · show N.Step (ρ 0) t (shiftTo N t (ρ 0))
      rw [shiftTo_fire het]; exact ⟨het, rfl⟩
    · intro d v hd _
      exact .inr ⟨d, Nat.le_refl _, hd, fun hs => (hno d v hd hs).elim⟩
end

end LTL
end Verif
