import Verif.CTL.EncodeLemmas
import Verif.PQL.Semantics
import Mathlib.Data.Nat.Find

/-!
# CTL formulas as statements about states
-/

namespace Verif
namespace CTL
open PQL

/-- Specification: the formula holds in the state `m` (on every path from there; for state formulas, on
some path). -/
def Sat (T : TS) (m : Mark) (c : Cond) : Prop := ∀ π, T.IsPath π → π 0 = m → c.sat T π

variable {T : TS}

theorem sat_iff {c : Cond} (hc : c.isState = true) {π : Nat → Mark} (hπ : T.IsPath π) :
    c.sat T π ↔ Sat T (π 0) c := by
  constructor
  · intro h π' _ h0
    exact (Cond.sat_state T h0 c hc).2 h
  · exact fun h => h π hπ rfl

theorem Sat.of_path {c : Cond} (hc : c.isState = true) {π : Nat → Mark} (h : c.sat T π) {m : Mark} (h0 : π 0 = m) :
    Sat T m c := fun _ _ h1 => (Cond.sat_state T (h1.trans h0.symm) c hc).2 h

theorem Sat_not {c : Cond} (hc : c.isState = true) (m : Mark) : Sat T m (.not c) ↔ ¬ Sat T m c := by
  obtain ⟨π, hπ, h0⟩ := TS.exists_path T m
  constructor
  · intro h h'
    exact h π hπ h0 (h' π hπ h0)
  · intro h π' hπ' h0' hs
    exact h (Sat.of_path hc hs h0')

theorem Sat_and {cs : List Cond} (m : Mark) : Sat T m (.and cs) ↔ ∀ c ∈ cs, Sat T m c := by
  simp only [Sat, Cond.sat, satAll_iff]
  constructor
  · exact fun h c hc π hπ h0 => h π hπ h0 c hc
  · exact fun h π hπ h0 c hc => h c hc π hπ h0

theorem Sat_or {cs : List Cond} (hc : ∀ c ∈ cs, c.isState = true) (m : Mark) :
    Sat T m (.or cs) ↔ ∃ c ∈ cs, Sat T m c := by
  obtain ⟨π, hπ, h0⟩ := TS.exists_path T m
  constructor
  · intro h
    have := h π hπ h0
    simp only [Cond.sat, satAny_iff] at this
    obtain ⟨c, hm, hs⟩ := this
    exact ⟨c, hm, Sat.of_path (hc c hm) hs h0⟩
  · rintro ⟨c, hm, hs⟩ π' hπ' h0'
    simp only [Cond.sat, satAny_iff]
    exact ⟨c, hm, hs π' hπ' h0'⟩

theorem Sat_EX {c : Cond} (hc : c.isState = true) (m : Mark) :
    Sat T m (.EX c) ↔ ∃ m', T.step m m' ∧ Sat T m' c := by
  constructor
  · intro h
    obtain ⟨π, hπ, h0⟩ := TS.exists_path T m
    obtain ⟨π', hπ', hs, hc'⟩ := h π hπ h0
    rw [h0] at hs
    exact ⟨π' 0, hs, Sat.of_path hc hc' rfl⟩
  · rintro ⟨m', hs, h⟩ π hπ h0
    obtain ⟨π', hπ', h0'⟩ := TS.exists_path T m'
    exact ⟨π', hπ', by rw [h0, h0']; exact hs, h π' hπ' h0'⟩

theorem Sat_AX {c : Cond} (hc : c.isState = true) (m : Mark) :
    Sat T m (.AX c) ↔ ∀ m', T.step m m' → Sat T m' c := by
  constructor
  · intro h m' hs π' hπ' h0'
    obtain ⟨π, hπ, h0⟩ := TS.exists_path T m
    exact h π hπ h0 π' hπ' (by rw [h0, h0']; exact hs)
  · intro h π hπ h0 π' hπ' hs
    rw [h0] at hs
    exact h _ hs π' hπ' rfl

/-- `q` is reached in exactly `n` steps through states in `p`. -/
def Until (T : TS) (p q : Mark → Prop) : Nat → Mark → Prop
  | 0, m => q m
  | n + 1, m => p m ∧ ∃ m', T.step m m' ∧ Until T p q n m'

theorem until_of_path {p q : Mark → Prop} : ∀ (i : Nat) (π : Nat → Mark), T.IsPath π → q (π i) →
    (∀ j, j < i → p (π j)) → ∃ n, Until T p q n (π 0)
  | 0, _, _, h, _ => ⟨0, h⟩
  | i + 1, π, hπ, h, hp => by
    rcases hπ 0 with hs | ⟨hd, _⟩
    · obtain ⟨n, hn⟩ := until_of_path i (suffix π 1) (suffix_path hπ 1)
        (by simpa [suffix, Nat.add_comm] using h)
        (fun j hj => by simpa [suffix, Nat.add_comm] using hp (j + 1) (by omega))
      exact ⟨n + 1, hp 0 (by omega), π 1, hs, hn⟩
    · refine ⟨0, ?_⟩
      have := dead_const hπ hd (i + 1)
      rw [Nat.zero_add] at this
      rw [this] at h
      exact h

theorem path_of_until {p q : Mark → Prop} : ∀ (n : Nat) (m : Mark), Until T p q n m →
    ∃ π, T.IsPath π ∧ π 0 = m ∧ q (π n) ∧ ∀ j, j < n → p (π j)
  | 0, m, h => by
    obtain ⟨π, hπ, h0⟩ := TS.exists_path T m
    exact ⟨π, hπ, h0, by rw [h0]; exact h, by omega⟩
  | n + 1, m, ⟨hp, m', hs, h⟩ => by
    obtain ⟨π, hπ, h0, h1, h2⟩ := path_of_until n m' h
    refine ⟨prepend m π, prepend_path hπ (by rw [h0]; exact hs), rfl, h1, fun j hj => ?_⟩
    cases j with
    | zero => exact hp
    | succ j => exact h2 j (by omega)

theorem Sat_EU {c d : Cond} (hc : c.isState = true) (hd : d.isState = true) (m : Mark) :
    Sat T m (.EU c d) ↔ ∃ n, Until T (fun x => Sat T x c) (fun x => Sat T x d) n m := by
  constructor
  · intro h
    obtain ⟨π, hπ, h0⟩ := TS.exists_path T m
    obtain ⟨π', hπ', h0', i, h1, h2⟩ := h π hπ h0
    rw [← h0, ← h0']
    exact until_of_path i π' hπ' ((sat_iff hd (suffix_path hπ' i)).1 h1)
      fun j hj => (sat_iff hc (suffix_path hπ' j)).1 (h2 j hj)
  · rintro ⟨n, hn⟩ π hπ h0
    obtain ⟨π', hπ', h0', h1, h2⟩ := path_of_until n m hn
    exact ⟨π', hπ', by rw [h0, h0'], n, (sat_iff hd (suffix_path hπ' n)).2 h1,
      fun j hj => (sat_iff hc (suffix_path hπ' j)).2 (h2 j hj)⟩

theorem Sat_EF {c : Cond} (hc : c.isState = true) (m : Mark) :
    Sat T m (.EF c) ↔ ∃ n, Until T (fun _ => True) (fun x => Sat T x c) n m := by
  constructor
  · intro h
    obtain ⟨π, hπ, h0⟩ := TS.exists_path T m
    obtain ⟨π', hπ', h0', i, h1⟩ := h π hπ h0
    rw [← h0, ← h0']
    exact until_of_path i π' hπ' ((sat_iff hc (suffix_path hπ' i)).1 h1) fun _ _ => trivial
  · rintro ⟨n, hn⟩ π hπ h0
    obtain ⟨π', hπ', h0', h1, _⟩ := path_of_until n m hn
    exact ⟨π', hπ', by rw [h0, h0'], n, (sat_iff hc (suffix_path hπ' n)).2 h1⟩

/-- On every path from `m` a `q`-state is reached through `p`-states. -/
def AllUntil (T : TS) (p q : Mark → Prop) (m : Mark) : Prop :=
  ∀ π, T.IsPath π → π 0 = m → ∃ i, q (π i) ∧ ∀ j, j < i → p (π j)

theorem allUntil_unfold {p q : Mark → Prop} (m : Mark) : AllUntil T p q m ↔
    q m ∨ (p m ∧ ¬ T.Dead m ∧ ∀ m', T.step m m' → AllUntil T p q m') := by
  constructor
  · intro h
    by_cases hq : q m
    · exact .inl hq
    · right
      refine ⟨?_, ?_, ?_⟩
      · obtain ⟨π, hπ, h0⟩ := TS.exists_path T m
        obtain ⟨i, h1, h2⟩ := h π hπ h0
        cases i with
        | zero => rw [h0] at h1; exact absurd h1 hq
        | succ i => rw [← h0]; exact h2 0 (by omega)
      · intro hd
        obtain ⟨i, h1, _⟩ := h (fun _ => m) (fun _ => .inr ⟨hd, rfl⟩) rfl
        exact hq h1
      · intro m' hs π hπ h0
        obtain ⟨i, h1, h2⟩ := h (prepend m π) (prepend_path hπ (by rw [h0]; exact hs)) rfl
        cases i with
        | zero => exact absurd h1 hq
        | succ i => exact ⟨i, h1, fun j hj => h2 (j + 1) (by omega)⟩
  · rintro (h | ⟨h1, h2, h3⟩) π hπ h0
    · exact ⟨0, by rw [h0]; exact h, by omega⟩
    · rcases hπ 0 with hs | ⟨hd, _⟩
      · rw [h0] at hs
        obtain ⟨i, h4, h5⟩ := h3 _ hs (suffix π 1) (suffix_path hπ 1) rfl
        refine ⟨i + 1, by simpa [suffix, Nat.add_comm] using h4, fun j hj => ?_⟩
        cases j with
        | zero => rw [h0]; exact h1
        | succ j => simpa [suffix, Nat.add_comm] using h5 j (by omega)
      · rw [h0] at hd; exact absurd hd h2

/-- `AllUntil` is the least solution of its equation. -/
theorem allUntil_least {p q : Mark → Prop} {R Q : Mark → Prop} (hR : ∀ m m', R m → T.step m m' → R m')
    (h : ∀ m, R m → AllUntil T p q m →
      (q m ∨ (p m ∧ ¬ T.Dead m ∧ ∀ m', T.step m m' → Q m')) → Q m) :
    ∀ m, R m → AllUntil T p q m → Q m := by
  classical
  intro m hRm hm
  by_contra hQ
  -- a path of states outside `Q`
  let S := {x : Mark // R x ∧ AllUntil T p q x ∧ ¬ Q x}
  have nxt : ∀ x : S, ∃ y : S, T.step x.1 y.1 := by
    rintro ⟨x, h1, h2, h3⟩
    by_contra hno
    push Not at hno
    refine h3 (h x h1 h2 ?_)
    rcases (allUntil_unfold x).1 h2 with h4 | ⟨h4, h5, h6⟩
    · exact .inl h4
    · refine .inr ⟨h4, h5, fun m' hs => ?_⟩
      by_contra hQ'
      exact hno ⟨m', hR x m' h1 hs, h6 m' hs, hQ'⟩ hs
  choose g hg using nxt
  let st : Nat → S := fun i => Nat.rec ⟨m, hRm, hm, hQ⟩ (fun _ x => g x) i
  obtain ⟨i, h1, _⟩ := hm (fun i => (st i).1) (fun i => .inl (hg (st i))) rfl
  have := (st i).2
  exact this.2.2 (h _ this.1 this.2.1 (.inl h1))

theorem Sat_AU {c d : Cond} (hc : c.isState = true) (hd : d.isState = true) (m : Mark) :
    Sat T m (.AU c d) ↔ AllUntil T (fun x => Sat T x c) (fun x => Sat T x d) m := by
  constructor
  · intro h π' hπ' h0'
    obtain ⟨i, h1, h2⟩ := h π' hπ' h0' π' hπ' rfl
    exact ⟨i, (sat_iff hd (suffix_path hπ' i)).1 h1, fun j hj => (sat_iff hc (suffix_path hπ' j)).1 (h2 j hj)⟩
  · intro h π hπ h0 π' hπ' h0'
    obtain ⟨i, h1, h2⟩ := h π' hπ' (h0'.trans h0)
    exact ⟨i, (sat_iff hd (suffix_path hπ' i)).2 h1, fun j hj => (sat_iff hc (suffix_path hπ' j)).2 (h2 j hj)⟩

theorem Sat_AF {c : Cond} (hc : c.isState = true) (m : Mark) :
    Sat T m (.AF c) ↔ AllUntil T (fun _ => True) (fun x => Sat T x c) m := by
  constructor
  · intro h π' hπ' h0'
    obtain ⟨i, h1⟩ := h π' hπ' h0' π' hπ' rfl
    exact ⟨i, (sat_iff hc (suffix_path hπ' i)).1 h1, fun _ _ => trivial⟩
  · intro h π hπ h0 π' hπ' h0'
    obtain ⟨i, h1, _⟩ := h π' hπ' (h0'.trans h0)
    exact ⟨i, (sat_iff hc (suffix_path hπ' i)).2 h1⟩

/-! ### The fragment -/

/-- The heads the dependency graph knows. -/
def okHead : Cond → Bool
  | .EG _ | .AG _ | .E _ | .A _ | .X _ | .F _ | .G _ | .U _ _ => false
  | _ => true

/-- Specification: formulas with the operators that remain after negations have been pushed
inwards: EX, AX, EF, AF, EU, AU and the connectives. -/
def CtlF (φ : Cond) : Prop := ∀ pos f, subAt φ pos = some f → okHead f = true

theorem subAt_append : ∀ (φ : Cond) (p : List Nat) (i : Nat),
    subAt φ (p ++ [i]) = (subAt φ p).bind fun f => (kids f)[i]?
  | φ, [], i => by
    simp only [List.nil_append, subAt, Option.bind_some]
    cases (kids φ)[i]? <;> rfl
  | φ, j :: p, i => by
    simp only [List.cons_append, subAt]
    cases h : (kids φ)[j]? with
    | none => rfl
    | some c => exact subAt_append c p i

theorem CtlF.kid {φ : Cond} (h : CtlF φ) {i : Nat} {c : Cond} (hc : (kids φ)[i]? = some c) : CtlF c := by
  intro pos f hf
  refine h (i :: pos) f ?_
  simp only [subAt, hc]; exact hf

theorem CtlF.kidm {φ : Cond} (h : CtlF φ) {c : Cond} (hc : c ∈ kids φ) : CtlF c := by
  obtain ⟨i, hi⟩ := List.mem_iff_getElem?.1 hc
  exact h.kid hi

theorem CtlF.sub {φ : Cond} (h : CtlF φ) {pos : List Nat} {f : Cond} (hf : subAt φ pos = some f) : CtlF f := by
  induction pos generalizing φ with
  | nil => cases hf; exact h
  | cons i p ih =>
    simp only [subAt] at hf
    cases hc : (kids φ)[i]? with
    | none => rw [hc] at hf; cases hf
    | some c => rw [hc] at hf; exact ih (h.kid hc) hf

theorem CtlF.state {φ : Cond} (h : CtlF φ) : φ.isState = true := by
  have h0 := h [] φ rfl
  induction φ using Cond.ind with
  | and cs ih =>
    simp only [Cond.isState, isState_all_iff]
    exact fun c hc => ih c hc (h.kidm hc) (h.kidm (φ := .and cs) hc [] c rfl)
  | or cs ih =>
    simp only [Cond.isState, isState_all_iff]
    exact fun c hc => ih c hc (h.kidm hc) (h.kidm (φ := .or cs) hc [] c rfl)
  | not c ih =>
    have hk : c ∈ kids (.not c) := by simp [kids]
    exact ih (h.kidm hk) (h.kidm hk [] c rfl)
  | EG | AG | E | A | X | F | G | U => cases h0
  | _ => rfl

/-! ### Negation levels -/

/-- One for a negation. -/
def isN : Cond → Nat
  | .not _ => 1
  | _ => 0

/-- The number of negations above a position. -/
def nots : Cond → List Nat → Nat
  | _, [] => 0
  | φ, i :: p => isN φ + match (kids φ)[i]? with
    | some c => nots c p
    | none => 0

theorem nots_append : ∀ (φ : Cond) (p : List Nat) (i : Nat) (f : Cond), subAt φ p = some f →
    nots φ (p ++ [i]) = nots φ p + isN f
  | φ, [], i, f, h => by
    cases h
    simp only [List.nil_append, nots]
    cases (kids φ)[i]? <;> simp [nots]
  | φ, j :: p, i, f, h => by
    simp only [subAt] at h
    simp only [List.cons_append, nots]
    cases hc : (kids φ)[j]? with
    | none => rw [hc] at h; cases h
    | some c =>
      rw [hc] at h
      simp only
      rw [nots_append c p i f h, Nat.add_assoc]

theorem Cond.kids_ind {P : Cond → Prop} (h : ∀ c, (∀ d ∈ kids c, P d) → P c) (c : Cond) : P c := by
  induction c using Cond.ind with
  | and cs ih => exact h _ ih
  | or cs ih => exact h _ ih
  | bool | dead | cmp | cc => exact h _ (by simp [kids])
  | EU c d h1 h2 | AU c d h1 h2 | U c d h1 h2 =>
    refine h _ fun x hx => ?_
    simp only [kids, List.mem_cons, List.not_mem_nil, or_false] at hx
    rcases hx with rfl | rfl
    · exact h1
    · exact h2
  | _ c ih =>
    refine h _ fun x hx => ?_
    simp only [kids, List.mem_cons, List.not_mem_nil, or_false] at hx
    subst hx
    exact ih

theorem nots_bounded (φ : Cond) : ∃ B, ∀ p, nots φ p ≤ B := by
  induction φ using Cond.kids_ind with
  | h c ih =>
    obtain ⟨B, hB⟩ : ∃ B, ∀ d ∈ kids c, ∀ p, nots d p ≤ B := by
      generalize kids c = l at ih
      induction l with
      | nil => exact ⟨0, by simp⟩
      | cons d l ihl =>
        obtain ⟨B1, h1⟩ := ih d (by simp)
        obtain ⟨B2, h2⟩ := ihl fun x hx => ih x (by simp [hx])
        refine ⟨B1 + B2, fun x hx p => ?_⟩
        rcases List.mem_cons.1 hx with rfl | hx
        · have := h1 p; omega
        · have := h2 x hx p; omega
    refine ⟨isN c + B, fun p => ?_⟩
    cases p with
    | nil => simp [nots]
    | cons i p =>
      simp only [nots]
      cases h : (kids c)[i]? with
      | none => simp
      | some d =>
        have := hB d (List.mem_of_getElem? h) p
        simp only; omega

/-- The graph of a query is layered by negations. -/
theorem dg_layered (D : Gens) (φ : Cond) : (dg D φ).Layered fun v => nots φ v.2 := by
  have hcase : ∀ v, ∀ e ∈ (dg D φ).succ v, ∃ f, subAt φ v.2 = some f ∧ e ∈ succOf D φ v f := by
    intro v e he
    simp only [dg] at he
    cases hf : subAt φ v.2 with
    | none => rw [hf] at he; cases he
    | some f => rw [hf] at he; exact ⟨f, rfl, he⟩
  have hnot : ∀ (v : Conf) (c : Cond), ∀ e ∈ succOf D φ v (.not c), e = ⟨true, [operand v.1 v.2 0]⟩ := by
    intro v c e he
    simp only [succOf, add_new (operand_ne v 0), Bool.false_eq_true, if_false, List.mem_singleton] at he
    exact he
  constructor
  · intro v e he hn t ht
    obtain ⟨f, hf, he⟩ := hcase v e he
    by_cases hN : ∃ c, f = .not c
    · obtain ⟨c, rfl⟩ := hN
      rw [hnot v c e he] at hn; cases hn
    · have h0 : isN f = 0 := by
        cases f <;> first | rfl | exact absurd ⟨_, rfl⟩ hN
      have := (succOf_targets (D := D) (src := v) φ (fun c hc => hN ⟨c, hc⟩) e he).2 t ht
      cases this with
      | here => simp only [operand]; rw [nots_append φ _ _ f hf, h0]; rfl
      | next => rfl
      | nextKid => simp only; rw [nots_append φ _ _ f hf, h0]; rfl
  · intro v e he hn
    obtain ⟨f, hf, he⟩ := hcase v e he
    by_cases hN : ∃ c, f = .not c
    · obtain ⟨c, rfl⟩ := hN
      rw [hnot v c e he]
      refine ⟨_, rfl, ?_⟩
      simp only [operand]; rw [nots_append φ _ _ _ hf]; rfl
    · have := (succOf_targets (D := D) (src := v) φ (fun c hc => hN ⟨c, hc⟩) e he).1
      rw [this] at hn; cases hn

end CTL
end Verif
