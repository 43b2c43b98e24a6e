import Verif.PQL.Checkers
import Mathlib.Data.Nat.Find

/-!
# Queries without a next operator do not count steps

`Stair R π π'`: the two paths can be walked along together, each step of the walk moving on in one of them or in both,
so that the states stood on are related.  Queries without a next operator have the same truth on such paths.
-/

namespace Verif
namespace PQL

/-- Specification: the paths are the same up to repetition of related states. -/
def Stair (R : Mark → Mark → Prop) (π π' : Nat → Mark) : Prop :=
  ∃ a b : Nat → Nat, a 0 = 0 ∧ b 0 = 0 ∧ (∀ k, a (k + 1) = a k ∨ a (k + 1) = a k + 1) ∧
    (∀ k, b (k + 1) = b k ∨ b (k + 1) = b k + 1) ∧ (∀ i, ∃ k, a k = i) ∧ (∀ j, ∃ k, b k = j) ∧
    ∀ k, R (π (a k)) (π' (b k))

/-- Specification: every path from a state is matched by one from a related state. -/
def StutterSim (R : Mark → Mark → Prop) (T T' : TS) : Prop :=
  ∀ m m', R m m' → ∀ π, T.IsPath π → π 0 = m → ∃ π', T'.IsPath π' ∧ π' 0 = m' ∧ Stair R π π'

/-- Specification: the systems are the same up to repetition of related states. -/
def StutterBisim (R : Mark → Mark → Prop) (T T' : TS) : Prop :=
  StutterSim R T T' ∧ StutterSim (fun x y => R y x) T' T

theorem Stair.flip {R : Mark → Mark → Prop} {π π' : Nat → Mark} (h : Stair R π π') : Stair (fun x y => R y x) π' π := by
  obtain ⟨a, b, h1, h2, h3, h4, h5, h6, h7⟩ := h
  exact ⟨b, a, h2, h1, h4, h3, h6, h5, h7⟩

theorem Stair.head {R : Mark → Mark → Prop} {π π' : Nat → Mark} (h : Stair R π π') : R (π 0) (π' 0) := by
  obtain ⟨a, b, h1, h2, _, _, _, _, h7⟩ := h
  simpa [h1, h2] using h7 0

theorem walk_mono {a : Nat → Nat} (h : ∀ k, a (k + 1) = a k ∨ a (k + 1) = a k + 1) {k l : Nat} (hkl : k ≤ l) : a k ≤ a l := by
  induction l with
  | zero => have : k = 0 := by omega
            subst this; exact Nat.le_refl _
  | succ l ih =>
    rcases Nat.lt_or_ge l k with hl | hl
    · have : k = l + 1 := by omega
      subst this; exact Nat.le_refl _
    · have := ih hl
      have := h l
      omega

/-- The walk from step `k` on. -/
theorem Stair.from {R : Mark → Mark → Prop} {π π' : Nat → Mark} {a b : Nat → Nat}
    (h3 : ∀ k, a (k + 1) = a k ∨ a (k + 1) = a k + 1) (h4 : ∀ k, b (k + 1) = b k ∨ b (k + 1) = b k + 1)
    (h5 : ∀ i, ∃ k, a k = i) (h6 : ∀ j, ∃ k, b k = j) (h7 : ∀ k, R (π (a k)) (π' (b k))) (k : Nat) :
    Stair R (suffix π (a k)) (suffix π' (b k)) := by
  have key : ∀ {a : Nat → Nat}, (∀ k, a (k + 1) = a k ∨ a (k + 1) = a k + 1) → (∀ i, ∃ k, a k = i) →
      (∀ x, a (k + (x + 1)) - a k = a (k + x) - a k ∨ a (k + (x + 1)) - a k = a (k + x) - a k + 1) ∧
      ∀ i, ∃ x, a (k + x) - a k = i := by
    intro a h hs
    refine ⟨fun x => ?_, fun i => ?_⟩
    · have e := h (k + x)
      have m := walk_mono h (show k ≤ k + x by omega)
      rw [show k + (x + 1) = k + x + 1 by omega]
      omega
    · obtain ⟨l, hl⟩ := hs (a k + i)
      rcases Nat.lt_or_ge l k with hlk | hlk
      · have := walk_mono h (Nat.le_of_lt hlk)
        exact ⟨0, by simp; omega⟩
      · exact ⟨l - k, by rw [show k + (l - k) = l by omega]; omega⟩
  obtain ⟨k3, k5⟩ := key h3 h5
  obtain ⟨k4, k6⟩ := key h4 h6
  refine ⟨fun x => a (k + x) - a k, fun x => b (k + x) - b k, by simp, by simp, k3, k4, k5, k6, fun x => ?_⟩
  have m1 := walk_mono h3 (show k ≤ k + x by omega)
  have m2 := walk_mono h4 (show k ≤ k + x by omega)
  simp only [suffix]
  rw [show a k + (a (k + x) - a k) = a (k + x) by omega, show b k + (b (k + x) - b k) = b (k + x) by omega]
  exact h7 _

theorem Stair.suffix {R : Mark → Mark → Prop} {π π' : Nat → Mark} (h : Stair R π π') (i : Nat) :
    ∃ j, Stair R (PQL.suffix π i) (PQL.suffix π' j) ∧
      ∀ j', j' < j → ∃ i', i' < i ∧ Stair R (PQL.suffix π i') (PQL.suffix π' j') := by
  classical
  obtain ⟨a, b, h1, h2, h3, h4, h5, h6, h7⟩ := h
  have hk := Nat.find_spec (h5 i)
  have hmin : ∀ l, l < Nat.find (h5 i) → a l ≠ i := fun l hl => Nat.find_min (h5 i) hl
  generalize Nat.find (h5 i) = k at hk hmin
  refine ⟨b k, hk ▸ Stair.from h3 h4 h5 h6 h7 k, fun j' hj' => ?_⟩
  obtain ⟨l, hl⟩ := h6 j'
  have hlk : l < k := by
    rcases Nat.lt_or_ge l k with h | h
    · exact h
    · have := walk_mono h4 h; omega
  refine ⟨a l, ?_, hl ▸ Stair.from h3 h4 h5 h6 h7 l⟩
  have := walk_mono h3 (Nat.le_of_lt hlk)
  have := hmin l hlk
  omega

variable {R : Mark → Mark → Prop} {T T' : TS}

theorem until_one {C D C' D' : (Nat → Mark) → Prop} (hc : ∀ π π', Stair R π π' → C π → C' π')
    (hd : ∀ π π', Stair R π π' → D π → D' π') {π π' : Nat → Mark} (h : Stair R π π') :
    (∃ i, D (suffix π i) ∧ ∀ j, j < i → C (suffix π j)) → ∃ i, D' (suffix π' i) ∧ ∀ j, j < i → C' (suffix π' j) := by
  rintro ⟨i, hi, hj⟩
  obtain ⟨j, hs, hb⟩ := h.suffix i
  refine ⟨j, hd _ _ hs hi, fun j' hj' => ?_⟩
  obtain ⟨i', hi', hs'⟩ := hb j' hj'
  exact hc _ _ hs' (hj i' hi')

theorem until_iff {C D C' D' : (Nat → Mark) → Prop} (hc : ∀ π π', Stair R π π' → (C π ↔ C' π'))
    (hd : ∀ π π', Stair R π π' → (D π ↔ D' π')) {π π' : Nat → Mark} (h : Stair R π π') :
    (∃ i, D (suffix π i) ∧ ∀ j, j < i → C (suffix π j)) ↔ ∃ i, D' (suffix π' i) ∧ ∀ j, j < i → C' (suffix π' j) :=
  ⟨until_one (fun π π' h => (hc π π' h).1) (fun π π' h => (hd π π' h).1) h,
   until_one (fun π π' h => (hc π' π h.flip).2) (fun π π' h => (hd π' π h.flip).2) h.flip⟩

theorem ev_iff {D D' : (Nat → Mark) → Prop} (hd : ∀ π π', Stair R π π' → (D π ↔ D' π')) {π π' : Nat → Mark}
    (h : Stair R π π') : (∃ i, D (suffix π i)) ↔ ∃ i, D' (suffix π' i) := by
  have := until_iff (C := fun _ => True) (C' := fun _ => True) (fun _ _ _ => Iff.rfl) hd h
  simpa using this

theorem al_iff {D D' : (Nat → Mark) → Prop} (hd : ∀ π π', Stair R π π' → (D π ↔ D' π')) {π π' : Nat → Mark}
    (h : Stair R π π') : (∀ i, D (suffix π i)) ↔ ∀ i, D' (suffix π' i) := by
  have := ev_iff (D := fun π => ¬ D π) (D' := fun π => ¬ D' π) (fun _ _ h => not_congr (hd _ _ h)) h
  simpa using not_congr this

theorem ex_iff (hB : StutterBisim R T T') {Q Q' : (Nat → Mark) → Prop}
    (hQ : ∀ π π', Stair R π π' → (Q π ↔ Q' π')) {m m' : Mark} (h : R m m') :
    (∃ π, T.IsPath π ∧ π 0 = m ∧ Q π) ↔ ∃ π, T'.IsPath π ∧ π 0 = m' ∧ Q' π := by
  constructor
  · rintro ⟨π, hp, h0, hq⟩
    obtain ⟨π', hp', h0', hs⟩ := hB.1 m m' h π hp h0
    exact ⟨π', hp', h0', (hQ _ _ hs).1 hq⟩
  · rintro ⟨π, hp, h0, hq⟩
    obtain ⟨π', hp', h0', hs⟩ := hB.2 m' m h π hp h0
    exact ⟨π', hp', h0', (hQ _ _ hs.flip).2 hq⟩

theorem all_iff (hB : StutterBisim R T T') {Q Q' : (Nat → Mark) → Prop}
    (hQ : ∀ π π', Stair R π π' → (Q π ↔ Q' π')) {m m' : Mark} (h : R m m') :
    (∀ π, T.IsPath π → π 0 = m → Q π) ↔ ∀ π, T'.IsPath π → π 0 = m' → Q' π := by
  have := not_congr (ex_iff hB (Q := fun π => ¬ Q π) (Q' := fun π => ¬ Q' π) (fun _ _ h => not_congr (hQ _ _ h)) h)
  simpa using this

/-! ### The visitors on lists -/

theorem usesE_false {p : Nat} {es : List Expr} : usesE p es = false ↔ ∀ e ∈ es, e.uses p = false := by
  induction es with
  | nil => simp [usesE]
  | cons e es ih => simp [usesE, ih]

theorem usesC_true {p : Nat} {cs : List Cond} : usesC p cs = true ↔ ∃ c ∈ cs, c.uses p = true := by
  induction cs with
  | nil => simp [usesC]
  | cons e es ih => simp [usesC, ih]

theorem nextL_false {cs : List Cond} : nextL cs = false ↔ ∀ c ∈ cs, c.next = false := by
  induction cs with
  | nil => simp [nextL]
  | cons e es ih => simp [nextL, ih]

theorem hasDeadL_true {cs : List Cond} : hasDeadL cs = true ↔ ∃ c ∈ cs, c.hasDead = true := by
  induction cs with
  | nil => simp [hasDeadL]
  | cons e es ih => simp [hasDeadL, ih]

theorem usesE_true {p : Nat} {es : List Expr} : usesE p es = true ↔ ∃ e ∈ es, e.uses p = true := by
  induction es with
  | nil => simp [usesE]
  | cons e es ih => simp [usesE, ih]

/-- The value of an expression depends on the places counted only. -/
theorem Expr.val_uses {m m' : Mark} (e : Expr) (h : ∀ p, e.uses p = true → m p = m' p) : e.val m = e.val m' := by
  induction e using Expr.ind with
  | lit v => rfl
  | id p => simp [val, h p (by simp [uses])]
  | plus k is es ih =>
    have e1 : (is.map fun p => (m p : Int)) = is.map fun p => (m' p : Int) :=
      List.map_congr_left fun p hp => by rw [h p (by simp [uses, hp])]
    have e2 : es.map (Expr.val m) = es.map (Expr.val m') :=
      List.map_congr_left fun e he => ih e he fun p hp => h p (by
        simp only [uses, Bool.or_eq_true]; exact .inr (usesE_true.2 ⟨e, he, hp⟩))
    simp only [val, vals_eq, e1, e2]
  | mul k is es ih =>
    have e1 : (is.map fun p => (m p : Int)) = is.map fun p => (m' p : Int) :=
      List.map_congr_left fun p hp => by rw [h p (by simp [uses, hp])]
    have e2 : es.map (Expr.val m) = es.map (Expr.val m') :=
      List.map_congr_left fun e he => ih e he fun p hp => h p (by
        simp only [uses, Bool.or_eq_true]; exact .inr (usesE_true.2 ⟨e, he, hp⟩))
    simp only [val, vals_eq, e1, e2]
  | sub e es ih0 ih =>
    have e2 : es.map (Expr.val m) = es.map (Expr.val m') :=
      List.map_congr_left fun e he => ih e he fun p hp => h p (by
        simp only [uses, Bool.or_eq_true]; exact .inr (usesE_true.2 ⟨e, he, hp⟩))
    simp only [val, vals_eq, e2, ih0 fun p hp => h p (by simp [uses, hp])]
  | minus e ih => simp only [val, ih fun p hp => h p (by simpa [uses] using hp)]

theorem cc_uses {m m' : Mark} {l : List Cons} (n : Bool) (h : ∀ p, (l.any fun c => c.place == p) = true → m p = m' p) :
    ccHolds m l n ↔ ccHolds m' l n := by
  have e : (∀ c ∈ l, c.holds m) ↔ ∀ c ∈ l, c.holds m' :=
    forall₂_congr fun c hc => by
      simp only [Cons.holds, h c.place (List.any_eq_true.2 ⟨c, hc, by simp⟩)]
  cases n
  · exact e
  · exact not_congr e

/-- Queries without a next operator have the same truth on paths that are the same up to repetition of states that
agree on the places counted. -/
theorem Cond.sat_stair (hB : StutterBisim R T T') (c : Cond) (hn : c.next = false)
    (hu : ∀ m m', R m m' → ∀ p, c.uses p = true → m p = m' p)
    (hd : c.hasDead = true → ∀ m m', R m m' → (T.Dead m ↔ T'.Dead m')) :
    ∀ π π', Stair R π π' → (c.sat T π ↔ c.sat T' π') := by
  induction c using Cond.ind with
  | bool b => exact fun _ _ _ => Iff.rfl
  | dead => exact fun π π' h => hd rfl _ _ h.head
  | cmp o a b =>
    intro π π' h
    have e1 : a.val (π 0) = a.val (π' 0) := a.val_uses fun p hp => hu _ _ h.head p (by simp [uses, hp])
    have e2 : b.val (π 0) = b.val (π' 0) := b.val_uses fun p hp => hu _ _ h.head p (by simp [uses, hp])
    simp only [sat, e1, e2]
  | cc l n => exact fun π π' h => cc_uses n fun p hp => hu _ _ h.head p hp
  | not c ih => exact fun π π' h => not_congr (ih hn hu hd π π' h)
  | and cs ih =>
    intro π π' h
    simp only [sat, satAll_iff]
    exact forall₂_congr fun c hc => ih c hc (nextL_false.1 hn c hc)
      (fun m m' hr p hp => hu m m' hr p (usesC_true.2 ⟨c, hc, hp⟩)) (fun hx => hd (hasDeadL_true.2 ⟨c, hc, hx⟩)) π π' h
  | or cs ih =>
    intro π π' h
    simp only [sat, satAny_iff]
    exact exists_congr fun c => and_congr_right fun hc => ih c hc (nextL_false.1 hn c hc)
      (fun m m' hr p hp => hu m m' hr p (usesC_true.2 ⟨c, hc, hp⟩)) (fun hx => hd (hasDeadL_true.2 ⟨c, hc, hx⟩)) π π' h
  | EX | AX | X => simp [next] at hn
  | EF c ih => exact fun π π' h => ex_iff hB (fun _ _ => ev_iff (ih hn hu hd)) h.head
  | AF c ih => exact fun π π' h => all_iff hB (fun _ _ => ev_iff (ih hn hu hd)) h.head
  | EG c ih => exact fun π π' h => ex_iff hB (fun _ _ => al_iff (ih hn hu hd)) h.head
  | AG c ih => exact fun π π' h => all_iff hB (fun _ _ => al_iff (ih hn hu hd)) h.head
  | E c ih => exact fun π π' h => ex_iff hB (ih hn hu hd) h.head
  | A c ih => exact fun π π' h => all_iff hB (ih hn hu hd) h.head
  | F c ih => exact fun π π' h => ev_iff (ih hn hu hd) h
  | G c ih => exact fun π π' h => al_iff (ih hn hu hd) h
  | EU c d ih ih' | AU c d ih ih' | U c d ih ih' =>
    simp only [next, Bool.or_eq_false_iff] at hn
    have h1 := ih hn.1 (fun m m' hr p hp => hu m m' hr p (by simp [uses, hp])) (fun hx => hd (by simp [hasDead, hx]))
    have h2 := ih' hn.2 (fun m m' hr p hp => hu m m' hr p (by simp [uses, hp])) (fun hx => hd (by simp [hasDead, hx]))
    intro π π' h
    first
      | exact ex_iff hB (fun _ _ => until_iff h1 h2) h.head
      | exact all_iff hB (fun _ _ => until_iff h1 h2) h.head
      | exact until_iff h1 h2 h

end PQL
end Verif
