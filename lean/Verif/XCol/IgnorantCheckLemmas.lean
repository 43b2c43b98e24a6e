import Verif.XCol.IgnorantCheck
import Verif.PQL.PushNegLemmas

namespace Verif
namespace XCol
open PQL Search

/-! ### Constraints that say enough -/

/-- What a conjunction of constraints must have to do with a truth value `x`: all lower bounds hold if `x` does; and if there are upper bounds
only, then one of them is exceeded unless `x`. -/
structure LS (m : Mark) (l : List Cons) (x : Prop) : Prop where
  ok : l.all Cons.ok = true
  low : x → ∀ c ∈ l, c.lower ≤ m c.place
  up : (∀ c ∈ l, c.lower = 0) → ¬ x → ∃ c ∈ l, c.upper < m c.place

theorem LS.congr {m : Mark} {l : List Cons} {x y : Prop} (h : LS m l x) (e : x ↔ y) : LS m l y :=
  ⟨h.ok, fun hy => h.low (e.2 hy), fun h0 hy => h.up h0 fun hx => hy (e.1 hx)⟩

theorem insertCons_sub (l : List Cons) (c : Cons) : ∀ d ∈ insertCons l c, ∃ e ∈ c :: l, e.place = d.place ∧ d.lower = e.lower := by
  induction l with
  | nil => intro d hd; simp only [insertCons, List.mem_singleton] at hd; exact ⟨c, by simp, by rw [hd], by rw [hd]⟩
  | cons a l ih =>
    intro d hd
    unfold insertCons at hd
    split at hd
    · rcases List.mem_cons.1 hd with rfl | hd
      · exact ⟨d, by simp, rfl, rfl⟩
      · obtain ⟨e, he, h⟩ := ih d hd
        exact ⟨e, by rcases List.mem_cons.1 he with rfl | he <;> simp [*], h⟩
    · split at hd
      · rename_i hp
        rcases List.mem_cons.1 hd with rfl | hd
        · by_cases hle : a.lower ≤ c.lower
          · exact ⟨c, by simp, by simp [Cons.intersect, hp], by simp [Cons.intersect, hle]⟩
          · exact ⟨a, by simp, by simp [Cons.intersect], by simp only [Cons.intersect]; omega⟩
        · exact ⟨d, by simp [hd], rfl, rfl⟩
      · exact ⟨d, by rcases List.mem_cons.1 hd with rfl | hd <;> simp [*], rfl, rfl⟩

theorem insertCons_sup (l : List Cons) (c : Cons) : ∀ e ∈ c :: l, ∃ d ∈ insertCons l c, d.place = e.place ∧ e.lower ≤ d.lower ∧ d.upper ≤ e.upper := by
  induction l with
  | nil => intro e he; exact ⟨e, he, rfl, Nat.le_refl _, Nat.le_refl _⟩
  | cons a l ih =>
    intro e he
    unfold insertCons
    have he' : e = c ∨ e = a ∨ e ∈ l := by simpa using he
    split
    · rcases he' with rfl | rfl | he
      · obtain ⟨d, hd, h⟩ := ih e (by simp); exact ⟨d, by simp [hd], h⟩
      · exact ⟨e, by simp, rfl, Nat.le_refl _, Nat.le_refl _⟩
      · obtain ⟨d, hd, h⟩ := ih e (by simp [he]); exact ⟨d, by simp [hd], h⟩
    · split
      · rename_i hp
        rcases he' with rfl | rfl | he
        · exact ⟨_, List.mem_cons_self, by simp [Cons.intersect, hp], by simp only [Cons.intersect]; omega, by simp only [Cons.intersect]; omega⟩
        · exact ⟨_, List.mem_cons_self, by simp [Cons.intersect], by simp only [Cons.intersect]; omega, by simp only [Cons.intersect]; omega⟩
        · exact ⟨e, by simp [he], rfl, Nat.le_refl _, Nat.le_refl _⟩
      · exact ⟨e, by rcases he' with rfl | rfl | he <;> simp [*], rfl, Nat.le_refl _, Nat.le_refl _⟩

/-- inserting all constraints of a list -/
def insertAll (l : List Cons) (l' : List Cons) : List Cons := l'.foldl insertCons l

theorem insertAll_ok (l' : List Cons) : ∀ l : List Cons, l.all Cons.ok = true → l'.all Cons.ok = true → (insertAll l l').all Cons.ok = true := by
  induction l' with
  | nil => intro l h _; exact h
  | cons c l' ih =>
    intro l h h'
    simp only [List.all_cons, Bool.and_eq_true] at h'
    exact ih _ (insertCons_ok h h'.1) h'.2

theorem insertAll_sub (l' : List Cons) : ∀ l : List Cons, ∀ d ∈ insertAll l l', ∃ e ∈ l ++ l', e.place = d.place ∧ d.lower = e.lower := by
  induction l' with
  | nil => intro l d hd; exact ⟨d, by rw [List.append_nil]; exact hd, rfl, rfl⟩
  | cons c l' ih =>
    intro l d hd
    obtain ⟨e, he, h1, h2⟩ := ih (insertCons l c) d hd
    rcases List.mem_append.1 he with he | he
    · obtain ⟨e', he', h3, h4⟩ := insertCons_sub l c e he
      refine ⟨e', ?_, h3.trans h1, h2.trans h4⟩
      rcases List.mem_cons.1 he' with rfl | he' <;> simp [*]
    · exact ⟨e, by simp [he], h1, h2⟩

theorem insertAll_sup (l' : List Cons) : ∀ l : List Cons, ∀ e ∈ l ++ l', ∃ d ∈ insertAll l l', d.place = e.place ∧ e.lower ≤ d.lower ∧ d.upper ≤ e.upper := by
  induction l' with
  | nil => intro l e he; exact ⟨e, by rw [List.append_nil] at he; exact he, rfl, Nat.le_refl _, Nat.le_refl _⟩
  | cons c l' ih =>
    intro l e he
    have he' : e ∈ c :: l ∨ e ∈ l' := by
      simp only [List.mem_append, List.mem_cons] at he ⊢
      tauto
    rcases he' with he | he
    · obtain ⟨d, hd, h1, h2, h3⟩ := insertCons_sup l c e he
      obtain ⟨d', hd', h4, h5, h6⟩ := ih (insertCons l c) d (List.mem_append_left _ hd)
      exact ⟨d', hd', h4.trans h1, h2.trans h5, h6.trans h3⟩
    · exact ih (insertCons l c) e (List.mem_append_right _ he)

theorem LS.insertAll {m : Mark} {l l' : List Cons} {x y : Prop} (h : LS m l x) (h' : LS m l' y) : LS m (insertAll l l') (x ∧ y) := by
  refine ⟨insertAll_ok _ _ h.ok h'.ok, fun hxy d hd => ?_, fun h0 hn => ?_⟩
  · obtain ⟨e, he, h1, h2⟩ := insertAll_sub l' l d hd
    rw [h2, ← h1]
    rcases List.mem_append.1 he with he | he
    · exact h.low hxy.1 e he
    · exact h'.low hxy.2 e he
  · have hz : ∀ e ∈ l ++ l', e.lower = 0 := fun e he => by
      obtain ⟨d, hd, _, h2, _⟩ := insertAll_sup l' l e he
      have := h0 d hd
      omega
    have : ∃ e ∈ l ++ l', e.upper < m e.place := by
      by_cases hx : x
      · obtain ⟨e, he, h1⟩ := h'.up (fun c hc => hz c (List.mem_append_right _ hc)) fun hy => hn ⟨hx, hy⟩
        exact ⟨e, List.mem_append_right _ he, h1⟩
      · obtain ⟨e, he, h1⟩ := h.up (fun c hc => hz c (List.mem_append_left _ hc)) hx
        exact ⟨e, List.mem_append_left _ he, h1⟩
    obtain ⟨e, he, h1⟩ := this
    obtain ⟨d, hd, h2, _, h3⟩ := insertAll_sup l' l e he
    exact ⟨d, hd, by rw [h2]; omega⟩

theorem mergeOther_pos {l l' : List Cons} {n n' : Bool} (hn : n = n') (h' : l'.all Cons.ok = true) : mergeOther l n l' n' = some (insertAll l l') := by
  subst hn
  unfold mergeOther
  rw [bne_self_eq_false, if_neg (by simp)]
  unfold insertAll
  induction l' generalizing l with
  | nil => rfl
  | cons c l' ih =>
    simp only [List.all_cons, Bool.and_eq_true] at h'
    have ht : c.trivial ≠ true := fun h => ((Cons.ok_iff c).1 h'.1).2.2 ((Cons.trivial_iff c).1 h)
    rw [List.foldlM_cons]
    simp only [mergeStep, Bool.false_eq_true, if_false, ht, and_false]
    exact ih h'.2

theorem mergeOther_neg {l : List Cons} {c : Cons} {n n' : Bool} (hn : n ≠ n') (hc : c.ok = true) (h1 : c.oneSided = true) :
    mergeOther l n [c] n' = some (insertAll l [c.invert]) := by
  obtain ⟨_, h2, h3⟩ := Cons.invert_spec (m := fun _ => 0) (fun _ => Nat.zero_le _) hc h1
  have ht : c.invert.trivial ≠ true := fun h => ((Cons.ok_iff _).1 h2).2.2 ((Cons.trivial_iff _).1 h)
  simp only [Cons.oneSided, Bool.or_eq_true, beq_iff_eq] at h3
  unfold mergeOther
  have hb : (n != n') = true := by simpa using hn
  rw [hb]
  simp only [List.length_singleton, Nat.lt_irrefl, and_false, if_false, List.foldlM_cons, List.foldlM_nil, mergeStep, if_true, ht]
  have hx : ¬ (c.invert.upper ≠ umax ∧ c.invert.lower ≠ 0 ∧ True) := by tauto
  simp only [if_neg hx]
  rfl

theorem LS.invert {m : Mark} {c : Cons} {x : Prop} (h : LS m [c] x) (h1 : c.oneSided = true) : LS m [c.invert] (¬ x) := by
  have hc : c.ok = true := by simpa using h.ok
  obtain ⟨_, h2, _⟩ := Cons.invert_spec (m := fun _ => 0) (fun _ => Nat.zero_le _) hc h1
  refine ⟨by simpa using h2, ?_, ?_⟩
  all_goals
    have hok := (Cons.ok_iff c).1 hc
    simp only [Cons.oneSided, Bool.or_eq_true, beq_iff_eq] at h1
    have ht : c.trivial ≠ true := fun h => hok.2.2 ((Cons.trivial_iff c).1 h)
  · intro hx d hd
    obtain rfl := List.mem_singleton.1 hd
    unfold Cons.invert
    rw [if_neg ht]
    by_cases h0 : c.lower = 0
    · rw [if_pos h0]
      obtain ⟨e, he, h3⟩ := h.up (fun e he => by obtain rfl := List.mem_singleton.1 he; exact h0) hx
      obtain rfl := List.mem_singleton.1 he
      have := Nat.mod_le (e.upper + 1) 4294967296
      show (e.upper + 1) % 4294967296 ≤ m e.place
      omega
    · rw [if_neg h0, if_pos (by tauto)]
      exact Nat.zero_le _
  · intro h0 hx
    refine ⟨_, List.mem_singleton.2 rfl, ?_⟩
    have h0 := h0 _ (List.mem_singleton.2 rfl)
    unfold Cons.invert at h0 ⊢
    rw [if_neg ht] at h0 ⊢
    by_cases hl : c.lower = 0
    · rw [if_pos hl] at h0
      have h0 : (c.upper + 1) % 4294967296 = 0 := h0
      have : c.upper ≠ umax := fun h => hok.2.2 ⟨hl, h⟩
      unfold umax at *
      omega
    · rw [if_neg hl, if_pos (by tauto)]
      have := h.low (by tauto) c (List.mem_singleton.2 rfl)
      show c.lower - 1 < m c.place
      omega

theorem LS.nil {m : Mark} : LS m [] True := ⟨rfl, (fun _ _ h => nomatch h), fun _ h => absurd trivial h⟩

/-! ### Formulas that say enough -/

mutual
/-- A formula without negations says enough about a truth value. -/
def Snd (m : Mark) : Cond → Prop → Prop
  | .bool b, x => b = true ↔ x
  | .cc l n, x => LS m l (xneg n x)
  | .and cs, x => SndL m false cs x
  | .or cs, x => SndL m true cs x
  | _, _ => False
def SndL (m : Mark) (orp : Bool) : List Cond → Prop → Prop
  | [], x => orp = false ↔ x
  | c :: cs, x => ∃ y z, Snd m c y ∧ SndL m orp cs z ∧ (x ↔ J orp y z)
end

mutual
/-- The same for formulas with negations. -/
def Src (m : Mark) : Cond → Prop → Prop
  | .bool b, x => b = true ↔ x
  | .cc l n, x => LS m l (xneg n x)
  | .not c, x => ∃ y, Src m c y ∧ (x ↔ ¬ y)
  | .and cs, x => SrcL m false cs x
  | .or cs, x => SrcL m true cs x
  | _, _ => False
def SrcL (m : Mark) (orp : Bool) : List Cond → Prop → Prop
  | [], x => orp = false ↔ x
  | c :: cs, x => ∃ y z, Src m c y ∧ SrcL m orp cs z ∧ (x ↔ J orp y z)
end

variable {m : Mark}

theorem SndL.congr {orp : Bool} {cs : List Cond} {x y : Prop} (h : SndL m orp cs x) (e : x ↔ y) : SndL m orp cs y := by
  cases cs with
  | nil => unfold SndL at h ⊢; exact h.trans e
  | cons c cs =>
    unfold SndL at h ⊢
    obtain ⟨a, b, h1, h2, h3⟩ := h
    exact ⟨a, b, h1, h2, e.symm.trans h3⟩

theorem Snd.congr {c : Cond} {x y : Prop} (h : Snd m c x) (e : x ↔ y) : Snd m c y := by
  cases c <;> unfold Snd at h ⊢
  case bool b => exact h.trans e
  case cc l n => exact h.congr (by cases n <;> simp [xneg, e])
  case and cs => exact h.congr e
  case or cs => exact h.congr e
  all_goals exact h

theorem SndL.append {orp : Bool} {cs ds : List Cond} {x y : Prop} (h : SndL m orp cs x) (h' : SndL m orp ds y) : SndL m orp (cs ++ ds) (J orp x y) := by
  induction cs generalizing x with
  | nil =>
    unfold SndL at h
    exact h'.congr (by unfold J; cases orp <;> simp at h <;> simp [h])
  | cons c cs ih =>
    unfold SndL at h
    obtain ⟨a, b, h1, h2, h3⟩ := h
    rw [List.cons_append]
    unfold SndL
    refine ⟨a, _, h1, ih h2, ?_⟩
    rw [← J_assoc]
    exact J_congr orp h3 Iff.rfl

theorem SndL.single {orp : Bool} {c : Cond} {x : Prop} (h : Snd m c x) : SndL m orp [c] x := by
  unfold SndL
  refine ⟨x, (orp = false), h, by unfold SndL; exact Iff.rfl, ?_⟩
  unfold J
  cases orp <;> simp

theorem SndL.cons {orp : Bool} {c : Cond} {cs : List Cond} {x y : Prop} (h : Snd m c x) (h' : SndL m orp cs y) : SndL m orp (c :: cs) (J orp x y) := by
  unfold SndL
  exact ⟨x, y, h, h', Iff.rfl⟩

/-! ### The evaluation is right -/

mutual
theorem fe_sound : ∀ (c : Cond) (x : Prop), Snd m c x → (fe m c = .rTrue → x) ∧ (fe m c = .rFalse → ¬ x)
  | .bool b, x, h => by
    unfold Snd at h
    unfold fe
    cases b <;> simp [Res.ofBool] at h ⊢ <;> exact h
  | .cc l n, x, h => by
    unfold Snd at h
    unfold fe
    by_cases hl : lowerFails m l = true
    · rw [if_pos hl]
      unfold lowerFails at hl
      obtain ⟨c, hc, h1⟩ := List.any_eq_true.1 hl
      have h1 := of_decide_eq_true h1
      have hx : ¬ xneg n x := fun hx => by have := h.low hx c hc; omega
      cases n <;> simp [xneg] at hx <;> simp [Res.ofBool, hx]
    · rw [if_neg hl]
      exact ⟨(fun h => nomatch h), (fun h => nomatch h)⟩
  | .and cs, x, h => by
    unfold Snd at h
    unfold fe
    obtain ⟨h1, h2⟩ := feAnd_sound cs x .rTrue h
    exact ⟨fun h => (h1 h).2, fun h => (h2 h).resolve_left (by decide)⟩
  | .or cs, x, h => by
    unfold Snd at h
    unfold fe
    obtain ⟨h1, h2⟩ := feOr_sound cs x .rFalse h
    exact ⟨fun h => (h1 h).resolve_left (by decide), fun h => (h2 h).2⟩
  | .dead, _, h => by unfold Snd at h; exact h.elim
  | .cmp _ _ _, _, h => by unfold Snd at h; exact h.elim
  | .not _, _, h => by unfold Snd at h; exact h.elim
  | .EX _, _, h => by unfold Snd at h; exact h.elim
  | .AX _, _, h => by unfold Snd at h; exact h.elim
  | .EF _, _, h => by unfold Snd at h; exact h.elim
  | .AF _, _, h => by unfold Snd at h; exact h.elim
  | .EG _, _, h => by unfold Snd at h; exact h.elim
  | .AG _, _, h => by unfold Snd at h; exact h.elim
  | .EU _ _, _, h => by unfold Snd at h; exact h.elim
  | .AU _ _, _, h => by unfold Snd at h; exact h.elim
  | .E _, _, h => by unfold Snd at h; exact h.elim
  | .A _, _, h => by unfold Snd at h; exact h.elim
  | .X _, _, h => by unfold Snd at h; exact h.elim
  | .F _, _, h => by unfold Snd at h; exact h.elim
  | .G _, _, h => by unfold Snd at h; exact h.elim
  | .U _ _, _, h => by unfold Snd at h; exact h.elim
theorem feAnd_sound : ∀ (cs : List Cond) (x : Prop) (r : Res), SndL m false cs x →
    (feAnd m r cs = .rTrue → r = .rTrue ∧ x) ∧ (feAnd m r cs = .rFalse → r = .rFalse ∨ ¬ x)
  | [], x, r, h => by
    unfold SndL at h
    unfold feAnd
    simp at h
    simp [h]
  | c :: cs, x, r, h => by
    unfold SndL at h
    obtain ⟨y, z, h1, h2, h3⟩ := h
    obtain ⟨h4, h5⟩ := fe_sound c y h1
    unfold J at h3
    rw [if_neg (by decide)] at h3
    unfold feAnd
    by_cases hf : fe m c = .rFalse
    · rw [if_pos hf]
      exact ⟨(fun h => nomatch h), fun _ => .inr fun hx => h5 hf (h3.1 hx).1⟩
    · rw [if_neg hf]
      obtain ⟨h6, h7⟩ := feAnd_sound cs z (if fe m c = .rUnknown then .rUnknown else r) h2
      by_cases hu : fe m c = .rUnknown
      · rw [if_pos hu] at h6 h7 ⊢
        exact ⟨fun h => (nomatch (h6 h).1), fun h => .inr fun hx => (h7 h).elim (fun h => nomatch h) fun h => h (h3.1 hx).2⟩
      · rw [if_neg hu] at h6 h7 ⊢
        have ht : fe m c = .rTrue := by cases h : fe m c <;> simp_all
        exact ⟨fun h => ⟨(h6 h).1, h3.2 ⟨h4 ht, (h6 h).2⟩⟩, fun h => (h7 h).imp id fun h hx => h (h3.1 hx).2⟩
theorem feOr_sound : ∀ (cs : List Cond) (x : Prop) (r : Res), SndL m true cs x →
    (feOr m r cs = .rTrue → r = .rTrue ∨ x) ∧ (feOr m r cs = .rFalse → r = .rFalse ∧ ¬ x)
  | [], x, r, h => by
    unfold SndL at h
    unfold feOr
    simp at h
    simp [h]
  | c :: cs, x, r, h => by
    unfold SndL at h
    obtain ⟨y, z, h1, h2, h3⟩ := h
    obtain ⟨h4, h5⟩ := fe_sound c y h1
    unfold J at h3
    rw [if_pos rfl] at h3
    unfold feOr
    by_cases hf : fe m c = .rTrue
    · rw [if_pos hf]
      exact ⟨fun _ => .inr (h3.2 (.inl (h4 hf))), (fun h => nomatch h)⟩
    · rw [if_neg hf]
      obtain ⟨h6, h7⟩ := feOr_sound cs z (if fe m c = .rUnknown then .rUnknown else r) h2
      by_cases hu : fe m c = .rUnknown
      · rw [if_pos hu] at h6 h7 ⊢
        exact ⟨fun h => .inr (h3.2 (.inr ((h6 h).resolve_left (by decide)))), fun h => (nomatch (h7 h).1)⟩
      · rw [if_neg hu] at h6 h7 ⊢
        have ht : fe m c = .rFalse := by cases h : fe m c <;> simp_all
        exact ⟨fun h => (h6 h).imp id fun h => h3.2 (.inr h), fun h => ⟨(h7 h).1, fun hx => (h3.1 hx).elim (h5 ht) (h7 h).2⟩⟩
end

/-! ### Never true here and false there -/

mutual
/-- The formulas of the search. -/
def Leafy : Cond → Bool
  | .bool _ => true
  | .cc _ _ => true
  | .and cs => leafyL cs
  | .or cs => leafyL cs
  | _ => false
def leafyL : List Cond → Bool
  | [] => true
  | c :: cs => Leafy c && leafyL cs
end

mutual
theorem Snd.leafy : ∀ (c : Cond) (x : Prop), Snd m c x → Leafy c = true
  | .bool b, x, h => rfl
  | .cc l n, x, h => rfl
  | .and cs, x, h => by unfold Snd at h; unfold Leafy; exact SndL.leafy cs _ x h
  | .or cs, x, h => by unfold Snd at h; unfold Leafy; exact SndL.leafy cs _ x h
  | .dead, _, h => by unfold Snd at h; exact h.elim
  | .cmp _ _ _, _, h => by unfold Snd at h; exact h.elim
  | .not _, _, h => by unfold Snd at h; exact h.elim
  | .EX _, _, h => by unfold Snd at h; exact h.elim
  | .AX _, _, h => by unfold Snd at h; exact h.elim
  | .EF _, _, h => by unfold Snd at h; exact h.elim
  | .AF _, _, h => by unfold Snd at h; exact h.elim
  | .EG _, _, h => by unfold Snd at h; exact h.elim
  | .AG _, _, h => by unfold Snd at h; exact h.elim
  | .EU _ _, _, h => by unfold Snd at h; exact h.elim
  | .AU _ _, _, h => by unfold Snd at h; exact h.elim
  | .E _, _, h => by unfold Snd at h; exact h.elim
  | .A _, _, h => by unfold Snd at h; exact h.elim
  | .X _, _, h => by unfold Snd at h; exact h.elim
  | .F _, _, h => by unfold Snd at h; exact h.elim
  | .G _, _, h => by unfold Snd at h; exact h.elim
  | .U _ _, _, h => by unfold Snd at h; exact h.elim
theorem SndL.leafy : ∀ (cs : List Cond) (orp : Bool) (x : Prop), SndL m orp cs x → leafyL cs = true
  | [], _, _, _ => rfl
  | c :: cs, orp, x, h => by
    unfold SndL at h
    obtain ⟨y, z, h1, h2, _⟩ := h
    unfold leafyL
    rw [Snd.leafy c y h1, SndL.leafy cs orp z h2]
    rfl
end

theorem leafyL_iff (cs : List Cond) : leafyL cs = true ↔ ∀ c ∈ cs, Leafy c = true := by
  induction cs with
  | nil => simp [leafyL]
  | cons c cs ih => simp [leafyL, ih]

theorem Leafy.notTemporal (c : Cond) : Leafy c = true → c.isTemporal = false := by
  induction c using Cond.ind with
  | bool => intro _; rfl
  | cc => intro _; rfl
  | and cs ih =>
    intro h
    unfold Leafy at h
    unfold Cond.isTemporal
    rw [anyTemporal_eq, List.any_eq_false]
    intro c hc
    rw [ih c hc ((leafyL_iff cs).1 h c hc)]
    decide
  | or cs ih =>
    intro h
    unfold Leafy at h
    unfold Cond.isTemporal
    rw [anyTemporal_eq, List.any_eq_false]
    intro c hc
    rw [ih c hc ((leafyL_iff cs).1 h c hc)]
    decide
  | _ => intro h; unfold Leafy at h; cases h

/-- what `feAnd` and `feOr` return -/
theorem feAnd_eq (cs : List Cond) : ∀ r, r ≠ .rFalse → (feAnd m r cs = .rFalse → ∃ c ∈ cs, fe m c = .rFalse) ∧
    (feAnd m r cs = .rTrue → ∀ c ∈ cs, fe m c = .rTrue) := by
  induction cs with
  | nil => intro r hr; unfold feAnd; exact ⟨fun h => absurd h hr, (fun _ _ h => nomatch h)⟩
  | cons c cs ih =>
    intro r hr
    unfold feAnd
    by_cases hf : fe m c = .rFalse
    · rw [if_pos hf]
      exact ⟨fun _ => ⟨c, List.mem_cons_self, hf⟩, (fun h => nomatch h)⟩
    · rw [if_neg hf]
      by_cases hu : fe m c = .rUnknown
      · rw [if_pos hu]
        obtain ⟨h1, _⟩ := ih .rUnknown (by decide)
        refine ⟨fun h => let ⟨d, hd, h2⟩ := h1 h; ⟨d, List.mem_cons_of_mem _ hd, h2⟩, fun h => ?_⟩
        exact absurd h (feAnd_unknown cs)
      · rw [if_neg hu]
        obtain ⟨h1, h2⟩ := ih r hr
        refine ⟨fun h => let ⟨d, hd, h2⟩ := h1 h; ⟨d, List.mem_cons_of_mem _ hd, h2⟩, fun h d hd => ?_⟩
        rcases List.mem_cons.1 hd with rfl | hd
        · cases h : fe m d <;> simp_all
        · exact h2 h d hd
where
  feAnd_unknown (cs : List Cond) : feAnd m .rUnknown cs ≠ .rTrue := by
    induction cs with
    | nil => unfold feAnd; decide
    | cons c cs ih =>
      unfold feAnd
      by_cases hf : fe m c = .rFalse
      · rw [if_pos hf]; decide
      · rw [if_neg hf, ite_self]; exact ih

theorem feOr_eq (cs : List Cond) : ∀ r, r ≠ .rTrue → (feOr m r cs = .rTrue → ∃ c ∈ cs, fe m c = .rTrue) ∧
    (feOr m r cs = .rFalse → ∀ c ∈ cs, fe m c = .rFalse) := by
  induction cs with
  | nil => intro r hr; unfold feOr; exact ⟨fun h => absurd h hr, (fun _ _ h => nomatch h)⟩
  | cons c cs ih =>
    intro r hr
    unfold feOr
    by_cases hf : fe m c = .rTrue
    · rw [if_pos hf]
      exact ⟨fun _ => ⟨c, List.mem_cons_self, hf⟩, (fun h => nomatch h)⟩
    · rw [if_neg hf]
      by_cases hu : fe m c = .rUnknown
      · rw [if_pos hu]
        obtain ⟨h1, _⟩ := ih .rUnknown (by decide)
        refine ⟨fun h => let ⟨d, hd, h2⟩ := h1 h; ⟨d, List.mem_cons_of_mem _ hd, h2⟩, fun h => ?_⟩
        exact absurd h (feOr_unknown cs)
      · rw [if_neg hu]
        obtain ⟨h1, h2⟩ := ih r hr
        refine ⟨fun h => let ⟨d, hd, h2⟩ := h1 h; ⟨d, List.mem_cons_of_mem _ hd, h2⟩, fun h d hd => ?_⟩
        rcases List.mem_cons.1 hd with rfl | hd
        · cases h : fe m d <;> simp_all
        · exact h2 h d hd
where
  feOr_unknown (cs : List Cond) : feOr m .rUnknown cs ≠ .rFalse := by
    induction cs with
    | nil => unfold feOr; decide
    | cons c cs ih =>
      unfold feOr
      by_cases hf : fe m c = .rTrue
      · rw [if_pos hf]; decide
      · rw [if_neg hf, ite_self]; exact ih

/-- A constraint can only make the answer false, a negated one only true: so a formula is not true in one marking and false in another. -/
theorem fe_one_way (m m' : Mark) (c : Cond) : Leafy c = true → fe m c = .rTrue → fe m' c = .rFalse → False := by
  induction c using Cond.ind with
  | bool b => intro _ h h'; unfold fe at h h'; rw [h] at h'; cases h'
  | cc l n =>
    intro _ h h'
    unfold fe at h h'
    cases n <;> [skip; (replace h := h')] <;> (split at h <;> cases h)
  | and cs ih =>
    intro hl h h'
    unfold fe at h h'
    unfold Leafy at hl
    obtain ⟨c, hc, h1⟩ := (feAnd_eq cs .rTrue (by decide)).1 h'
    exact ih c hc ((leafyL_iff cs).1 hl c hc) ((feAnd_eq cs .rTrue (by decide)).2 h c hc) h1
  | or cs ih =>
    intro hl h h'
    unfold fe at h h'
    unfold Leafy at hl
    obtain ⟨c, hc, h1⟩ := (feOr_eq cs .rFalse (by decide)).1 h
    exact ih c hc ((leafyL_iff cs).1 hl c hc) h1 ((feOr_eq cs .rFalse (by decide)).2 h' c hc)
  | _ => intro h; unfold Leafy at h; cases h

/-! ### Building conjunctions and disjunctions -/

theorem xneg_not (n : Bool) (x : Prop) : xneg (!n) x ↔ ¬ xneg n x := by cases n <;> simp [xneg]

theorem merged_truth (orp : Bool) (x y : Prop) : xneg orp (J orp x y) ↔ xneg orp x ∧ xneg orp y := by
  cases orp <;> simp [xneg, J]

theorem tryMergeCC_snd {orp : Bool} {conds : List Cond} {l : List Cons} {n : Bool} {x y : Prop} (h : SndL m orp conds x) (hc : LS m l (xneg n y)) :
    SndL m orp (tryMergeCC orp conds l n) (J orp x y) := by
  have hcc : Snd m (.cc l n) y := by unfold Snd; exact hc
  have hfront : SndL m orp (.cc l n :: conds) (J orp x y) := (SndL.cons hcc h).congr (J_comm orp _ _)
  unfold tryMergeCC
  by_cases h1 : n = orp ∨ ccSingular l = true
  · rw [if_pos h1]
    split
    · rename_i l0 n0 rest
      have hinv : n ≠ orp → ∃ c, l = [c] ∧ c.ok = true ∧ c.oneSided = true ∧ LS m [c.invert] (xneg (!n) y) := fun hne => by
        obtain ⟨c, rfl, h2⟩ := ccSingular_cases (h1.resolve_left hne)
        exact ⟨c, rfl, by simpa using hc.ok, h2, (hc.invert h2).congr (xneg_not n y).symm⟩
      by_cases h2 : n0 = orp
      · rw [if_pos h2]
        unfold SndL at h
        obtain ⟨a, b, h3, h4, h5⟩ := h
        unfold Snd at h3
        have hm : LS m ((mergeOther l0 n0 l n).getD []) (xneg n0 (J orp a y)) := by
          subst h2
          by_cases h6 : n = n0
          · subst h6
            rw [mergeOther_pos rfl hc.ok, Option.getD_some]
            exact (h3.insertAll hc).congr (merged_truth n a y).symm
          · obtain ⟨c, rfl, h7, h8, h9⟩ := hinv h6
            rw [mergeOther_neg (Ne.symm h6) h7 h8, Option.getD_some]
            have hn : (!n) = n0 := by cases n <;> cases n0 <;> simp_all
            rw [hn] at h9
            exact (h3.insertAll h9).congr (merged_truth n0 a y).symm
        unfold SndL
        refine ⟨J orp a y, b, by unfold Snd; exact hm, h4, ?_⟩
        rw [J_assoc, J_comm orp y b, ← J_assoc]
        exact J_congr orp h5 Iff.rfl
      · rw [if_neg h2]
        by_cases h6 : n = orp
        · rw [if_pos h6]
          exact hfront
        · rw [if_neg h6]
          obtain ⟨c, rfl, h7, h8, h9⟩ := hinv h6
          have hm : LS m ((mergeOther [] false [c] n).getD []) y := by
            cases n with
            | false =>
              rw [mergeOther_pos rfl hc.ok, Option.getD_some]
              exact (LS.nil.insertAll hc).congr (by simp [xneg])
            | true =>
              rw [mergeOther_neg (by decide) h7 h8, Option.getD_some]
              exact (LS.nil.insertAll h9).congr (by simp [xneg])
          refine (SndL.cons (x := y) ?_ h).congr (J_comm orp _ _)
          unfold Snd
          exact hm
    · exact hfront
  · rw [if_neg h1]
    exact h.append (SndL.single hcc)

mutual
theorem tryMerge_snd (orp aggr : Bool) : ∀ (c : Cond) (conds : List Cond) (x y : Prop), SndL m orp conds x → Snd m c y →
    SndL m orp (tryMerge orp aggr conds c) (J orp x y)
  | .bool b, conds, x, y, h, hc => by unfold tryMerge; exact h.append (SndL.single hc)
  | .cc l n, conds, x, y, h, hc => by
    unfold tryMerge
    split
    · exact h.append (SndL.single hc)
    · unfold Snd at hc
      exact tryMergeCC_snd h hc
  | .and cs, conds, x, y, h, hc => by
    unfold tryMerge
    split
    · exact h.append (SndL.single hc)
    · rename_i ho
      unfold Snd at hc
      have ho : orp = false := by simpa using ho
      subst ho
      exact tryMergeL_snd false aggr cs conds x y h hc
  | .or cs, conds, x, y, h, hc => by
    unfold tryMerge
    split
    · rename_i ho
      unfold Snd at hc
      subst ho
      exact tryMergeL_snd true aggr cs conds x y h hc
    · exact h.append (SndL.single hc)
  | .dead, _, _, _, _, h => by unfold Snd at h; exact h.elim
  | .cmp _ _ _, _, _, _, _, h => by unfold Snd at h; exact h.elim
  | .not _, _, _, _, _, h => by unfold Snd at h; exact h.elim
  | .EX _, _, _, _, _, h => by unfold Snd at h; exact h.elim
  | .AX _, _, _, _, _, h => by unfold Snd at h; exact h.elim
  | .EF _, _, _, _, _, h => by unfold Snd at h; exact h.elim
  | .AF _, _, _, _, _, h => by unfold Snd at h; exact h.elim
  | .EG _, _, _, _, _, h => by unfold Snd at h; exact h.elim
  | .AG _, _, _, _, _, h => by unfold Snd at h; exact h.elim
  | .EU _ _, _, _, _, _, h => by unfold Snd at h; exact h.elim
  | .AU _ _, _, _, _, _, h => by unfold Snd at h; exact h.elim
  | .E _, _, _, _, _, h => by unfold Snd at h; exact h.elim
  | .A _, _, _, _, _, h => by unfold Snd at h; exact h.elim
  | .X _, _, _, _, _, h => by unfold Snd at h; exact h.elim
  | .F _, _, _, _, _, h => by unfold Snd at h; exact h.elim
  | .G _, _, _, _, _, h => by unfold Snd at h; exact h.elim
  | .U _ _, _, _, _, _, h => by unfold Snd at h; exact h.elim
theorem tryMergeL_snd (orp aggr : Bool) : ∀ (cs conds : List Cond) (x y : Prop), SndL m orp conds x → SndL m orp cs y →
    SndL m orp (tryMergeL orp aggr conds cs) (J orp x y)
  | [], conds, x, y, h, hc => by
    unfold tryMergeL
    unfold SndL at hc
    exact h.congr (by unfold J; cases orp <;> simp at hc <;> simp [hc])
  | c :: cs, conds, x, y, h, hc => by
    unfold SndL at hc
    obtain ⟨a, b, h1, h2, h3⟩ := hc
    unfold tryMergeL
    refine (tryMergeL_snd orp aggr cs _ _ b (tryMerge_snd orp aggr c conds x a h h1) h2).congr ?_
    rw [J_assoc]
    exact J_congr orp Iff.rfl h3.symm
end

theorem SndL.start {orp : Bool} {cs : List Cond} {x : Prop} (aggr : Bool) (h : SndL m orp cs x) : SndL m orp (tryMergeL orp aggr [] cs) x :=
  (tryMergeL_snd orp aggr cs [] (orp = false) x (by unfold SndL; exact Iff.rfl) h).congr (by unfold J; cases orp <;> simp)

theorem postMerge_leafy {cs : List Cond} (h : leafyL cs = true) : postMerge cs = cs := by
  have ht : ∀ c ∈ cs, c.isTemporal = false := fun c hc => Leafy.notTemporal c ((leafyL_iff cs).1 h c hc)
  unfold postMerge
  rw [List.filter_eq_self.2 fun c hc => by rw [ht c hc]; rfl, List.filter_eq_nil_iff.2 fun c hc => by rw [ht c hc]; decide, List.append_nil]

theorem logOperands_snd {orp : Bool} {cs : List Cond} {x : Prop} (h : SndL m orp cs x) : SndL m orp (logOperands orp cs) x := by
  unfold logOperands
  have := h.start false
  rw [postMerge_leafy (SndL.leafy _ _ _ this)]
  exact this

theorem SndL.toSingle {orp : Bool} {c : Cond} {x : Prop} (h : SndL m orp [c] x) : Snd m c x := by
  unfold SndL at h
  obtain ⟨a, b, h1, h2, h3⟩ := h
  unfold SndL at h2
  exact h1.congr (by rw [h3, ← h2]; unfold J; cases orp <;> simp)

theorem SndL.toNil {orp : Bool} {x : Prop} (h : SndL m orp [] x) : Snd m (.bool (!orp)) x := by
  unfold SndL at h
  unfold Snd
  rw [← h]
  cases orp <;> simp

theorem makeLog_snd {orp : Bool} {cs : List Cond} {x : Prop} (h : SndL m orp cs x) : Snd m (makeLog orp cs) x := by
  have hres := logOperands_snd (h.start true)
  unfold makeLog
  split
  · exact h.toNil
  · exact h.toSingle
  · dsimp only
    split
    · rename_i heq
      rw [heq] at hres
      exact hres.toSingle
    · rename_i heq
      rw [heq] at hres
      exact hres.toNil
    · unfold logNode
      split
      · rename_i ho; subst ho; unfold Snd; exact hres
      · rename_i ho
        have ho : orp = false := by simpa using ho
        subst ho; unfold Snd; exact hres

/-! ### Pushing negations -/

theorem filterMap_leafy {ns : List Cond} (h : leafyL ns = true) : ns.filterMap nefArg = [] ∧ ns.filterMap efArg = [] ∧
    ns.filter (fun c => (nefArg c).isNone) = ns ∧ ns.filter (fun c => (efArg c).isNone) = ns := by
  have hl : ∀ c ∈ ns, nefArg c = none ∧ efArg c = none := fun c hc => by
    have := (leafyL_iff ns).1 h c hc
    cases c <;> unfold Leafy at this <;> first | exact ⟨rfl, rfl⟩ | cases this
  refine ⟨List.filterMap_eq_nil_iff.2 fun c hc => (hl c hc).1, List.filterMap_eq_nil_iff.2 fun c hc => (hl c hc).2,
    List.filter_eq_self.2 fun c hc => by rw [(hl c hc).1]; rfl, List.filter_eq_self.2 fun c hc => by rw [(hl c hc).2]; rfl⟩

theorem andResult_snd {ns : List Cond} {x : Prop} (h : SndL m false ns x) : Snd m (andResult ns) x := by
  obtain ⟨h1, _, h2, _⟩ := filterMap_leafy (SndL.leafy _ _ _ h)
  unfold andResult
  rw [h1, h2]
  match ns, h with
  | [], h => exact h.toNil
  | [c], h => exact h.toSingle
  | c :: d :: ns, h => exact makeLog_snd h

theorem orResult_snd {ns : List Cond} {x : Prop} (h : SndL m true ns x) : Snd m (orResult ns) x := by
  obtain ⟨_, h1, _, h2⟩ := filterMap_leafy (SndL.leafy _ _ _ h)
  unfold orResult
  rw [h1, h2]
  match ns, h with
  | [], h => exact h.toNil
  | [c], h => exact h.toSingle
  | c :: d :: ns, h => exact makeLog_snd h

theorem visitOps_snd {v : Visit} (hv : ∀ nested neg c r x, v nested neg c = some r → Src m c x → Snd m r (xneg neg x)) (nested neg orp : Bool)
    (orp' : Bool) (ho : orp' = (orp ^^ neg)) : ∀ (cs : List Cond) (x : Prop) (s : Sum Unit (List Cond)), SrcL m orp' cs x → visitOps v nested neg orp cs = some s →
      (s = .inl () → Snd m (.bool orp) (xneg neg x)) ∧ (∀ ns, s = .inr ns → SndL m orp ns (xneg neg x)) := by
  intro cs
  induction cs with
  | nil =>
    intro x s h hs
    unfold SrcL at h
    unfold visitOps at hs
    obtain rfl := Option.some.inj hs
    refine ⟨(fun h => nomatch h), fun ns hns => ?_⟩
    obtain rfl := Sum.inr.inj hns
    unfold SndL
    subst ho
    cases neg <;> cases orp <;> simp [xneg] at h ⊢ <;> exact h
  | cons c cs ih =>
    intro x s h hs
    unfold SrcL at h
    obtain ⟨y, z, h1, h2, h3⟩ := h
    unfold visitOps at hs
    cases hvc : v nested neg c with
    | none => rw [hvc] at hs; cases hs
    | some n =>
      rw [hvc] at hs
      simp only at hs
      have hn := hv _ _ _ _ _ hvc h1
      have hj : xneg neg x ↔ J orp (xneg neg y) (xneg neg z) := by
        subst ho
        unfold J at h3 ⊢
        cases neg <;> cases orp <;> simp [xneg] at h3 ⊢ <;> rw [h3] <;> tauto
      have hgen : (match visitOps v nested neg orp cs with
          | none => none
          | some (.inl ()) => some (.inl ())
          | some (.inr ns) => some (.inr (n :: ns))) = some s →
          (s = .inl () → Snd m (.bool orp) (xneg neg x)) ∧ (∀ ns, s = .inr ns → SndL m orp ns (xneg neg x)) := by
        intro hs
        cases hr : visitOps v nested neg orp cs with
        | none => rw [hr] at hs; cases hs
        | some s' =>
          rw [hr] at hs
          obtain ⟨h4, h5⟩ := ih z s' h2 hr
          match s' with
          | .inl () =>
            obtain rfl := Option.some.inj hs
            refine ⟨fun _ => ?_, (fun _ h => nomatch h)⟩
            have := h4 rfl
            unfold Snd at this ⊢
            rw [hj, ← this]
            unfold J
            cases orp <;> simp
          | .inr ns' =>
            obtain rfl := Option.some.inj hs
            refine ⟨(fun h => nomatch h), fun ns hns => ?_⟩
            obtain rfl := Sum.inr.inj hns
            exact (SndL.cons hn (h5 _ rfl)).congr hj.symm
      cases n with
      | bool b =>
        simp only at hs
        unfold Snd at hn
        by_cases hb : b = orp
        · rw [if_pos hb] at hs
          obtain rfl := Option.some.inj hs
          refine ⟨fun _ => ?_, (fun _ h => nomatch h)⟩
          subst hb
          unfold Snd
          rw [hj, ← hn]
          unfold J
          cases b <;> simp
        · rw [if_neg hb] at hs
          obtain ⟨h4, h5⟩ := ih z s h2 hs
          have hz : xneg neg x ↔ xneg neg z := by
            rw [hj, ← hn]
            unfold J
            cases b <;> cases orp <;> simp at hb ⊢
          exact ⟨fun h => (h4 h).congr hz.symm, fun ns h => (h5 ns h).congr hz.symm⟩
      | _ => exact hgen hs

theorem rw_id {K : RwCtx} (hK : K.initrw = false) (nested : Bool) (c : Cond) : K.rw nested c = c := by
  unfold RwCtx.rw
  rw [hK, if_neg (by simp)]

theorem pushNegation_snd {K : RwCtx} (hK : K.initrw = false) (fuel : Nat) : ∀ nested neg c r x, pushNegation K fuel nested neg c = some r → Src m c x →
    Snd m r (xneg neg x) := by
  induction fuel with
  | zero => intro _ _ _ _ _ h; cases h
  | succ f ih =>
    intro nested neg c r x h hc
    have hand : ∀ neg orp' cs, orp' = neg → SrcL m orp' cs x → pushAnd (pushNegation K f) nested neg cs = some r → Snd m r (xneg neg x) := by
      intro neg orp' cs ho hs hp
      unfold pushAnd at hp
      obtain ⟨s, h1, h2⟩ := Option.map_eq_some_iff.1 hp
      obtain ⟨h3, h4⟩ := visitOps_snd ih nested neg false orp' (by rw [ho]; simp) cs x s hs h1
      match s with
      | .inl () => subst h2; exact h3 rfl
      | .inr ns => subst h2; exact andResult_snd (h4 ns rfl)
    have hor : ∀ neg orp' cs, orp' = (!neg) → SrcL m orp' cs x → pushOr (pushNegation K f) nested neg cs = some r → Snd m r (xneg neg x) := by
      intro neg orp' cs ho hs hp
      unfold pushOr at hp
      obtain ⟨s, h1, h2⟩ := Option.map_eq_some_iff.1 hp
      obtain ⟨h3, h4⟩ := visitOps_snd ih nested neg true orp' (by rw [ho]; simp) cs x s hs h1
      match s with
      | .inl () => subst h2; exact h3 rfl
      | .inr ns => subst h2; exact orResult_snd (h4 ns rfl)
    have hid : K.rw nested = id := funext (rw_id hK nested)
    unfold pushNegation pushStep at h
    cases c with
    | bool b =>
      simp only [hid, id, Option.some.injEq] at h
      subst h
      unfold Src at hc
      unfold Snd
      rw [← xneg_congr' neg hc]
      cases b <;> cases neg <;> simp [xneg]
    | cc l n =>
      simp only [hid, id, Option.some.injEq] at h
      subst h
      unfold Src at hc
      unfold Snd
      exact hc.congr (by cases n <;> cases neg <;> simp [xneg])
    | not c =>
      simp only [hid, Option.map_id_fun, id] at h
      unfold Src at hc
      obtain ⟨y, h1, h2⟩ := hc
      refine (ih _ _ _ _ _ h h1).congr ?_
      cases neg <;> simp [xneg, h2]
    | and cs =>
      simp only [hid, Option.map_id_fun, id] at h
      unfold Src at hc
      cases neg
      · exact hand false false cs rfl hc h
      · exact hor true false cs rfl hc h
    | or cs =>
      simp only [hid, Option.map_id_fun, id] at h
      unfold Src at hc
      cases neg
      · exact hor false true cs rfl hc h
      · exact hand true true cs rfl hc h
    | _ => unfold Src at hc; exact hc.elim
where
  xneg_congr' (neg : Bool) {P Q : Prop} (h : P ↔ Q) : xneg neg P ↔ xneg neg Q := by
    cases neg <;> simp [xneg, h]

end XCol
end Verif
