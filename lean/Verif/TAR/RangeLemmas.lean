import Verif.TAR.Range

/-! # Lemmas about range vectors -/

namespace Verif
namespace TAR
namespace PRVec

theorem sorted_cons {e : PRange} {v : PRVec} : Sorted (e :: v) ↔ (∀ x ∈ v, e.place < x.place) ∧ Sorted v :=
  List.pairwise_cons

theorem sat_cons {e : PRange} {v : PRVec} {m : Nat → Nat} :
    Sat (e :: v) m ↔ e.range.contains (m e.place) = true ∧ Sat v m := by
  simp [Sat]

theorem sat_nil (m : Nat → Nat) : Sat [] m := by simp [Sat]

theorem contains_iff {r : Range} {v : Nat} : r.contains v = true ↔ r.lower ≤ v ∧ v ≤ r.upper := by
  simp [Range.contains]

theorem contains_default {v : Nat} (h : v ≤ rmax) : Range.contains {} v = true := by
  rw [contains_iff]; exact ⟨Nat.zero_le _, h⟩

theorem find?_none_of {v : PRVec} {p : Nat} (h : ∀ x ∈ v, p < x.place) : find? v p = none := by
  cases v with
  | nil => rfl
  | cons e es =>
    have := h e (by simp)
    simp only [find?]
    rw [if_neg (by omega), if_neg (by omega)]

/-- In a sorted vector the lookup finds the entry of the place. -/
theorem find?_some_iff {v : PRVec} (hs : Sorted v) {p : Nat} {r : Range} :
    find? v p = some r ↔ (⟨p, r⟩ : PRange) ∈ v := by
  induction v with
  | nil => simp [find?]
  | cons e es ih =>
    obtain ⟨h1, h2⟩ := sorted_cons.1 hs
    simp only [find?, List.mem_cons]
    by_cases hlt : e.place < p
    · rw [if_pos hlt, ih h2]
      constructor
      · exact Or.inr
      · rintro (rfl | h)
        · simp at hlt
        · exact h
    · rw [if_neg hlt]
      by_cases heq : e.place = p
      · rw [if_pos heq]
        constructor
        · intro h; cases h; left; cases e; simp at heq; subst heq; rfl
        · rintro (rfl | h)
          · rfl
          · have := h1 _ h; simp at this; omega
      · rw [if_neg heq]
        constructor
        · intro h; simp at h
        · rintro (rfl | h)
          · simp at heq
          · have := h1 _ h; simp at this; omega

theorem mem_update {v : PRVec} {p : Nat} {f : Range → Range} {x : PRange} (h : x ∈ update v p f) :
    x ∈ v ∨ x.place = p := by
  induction v with
  | nil => simp [update] at h; right; rw [h]
  | cons e es ih =>
    simp only [update] at h
    split at h
    · rcases List.mem_cons.1 h with rfl | h
      · left; simp
      · rcases ih h with h | h
        · left; simp [h]
        · exact Or.inr h
    · split at h
      · rcases List.mem_cons.1 h with rfl | h
        · right; assumption
        · left; simp [h]
      · rcases List.mem_cons.1 h with rfl | h
        · right; rfl
        · left; exact h

theorem update_sorted {v : PRVec} (hs : Sorted v) (p : Nat) (f : Range → Range) : Sorted (update v p f) := by
  induction v with
  | nil => simp [update, Sorted]
  | cons e es ih =>
    obtain ⟨h1, h2⟩ := sorted_cons.1 hs
    simp only [update]
    split
    · refine sorted_cons.2 ⟨fun x hx => ?_, ih h2⟩
      rcases mem_update hx with hx | hx
      · exact h1 x hx
      · omega
    · split
      · exact sorted_cons.2 ⟨h1, h2⟩
      · refine sorted_cons.2 ⟨fun x hx => ?_, hs⟩
        rcases List.mem_cons.1 hx with rfl | hx
        · simp; omega
        · have := h1 x hx; simp; omega

theorem find?_update {v : PRVec} (hs : Sorted v) (p q : Nat) (f : Range → Range) :
    find? (update v p f) q = if q = p then some (f ((find? v p).getD {})) else find? v q := by
  induction v with
  | nil =>
    simp only [update, find?]
    by_cases h : q = p
    · subst h; simp
    · rw [if_neg h]; split
      · rfl
      · rw [if_neg (by omega)]
  | cons e es ih =>
    obtain ⟨h1, h2⟩ := sorted_cons.1 hs
    simp only [update]
    by_cases hlt : e.place < p
    · rw [if_pos hlt]
      simp only [find?]
      rw [ih h2, if_pos hlt]
      by_cases hq : q = p
      · subst hq; rw [if_pos hlt]; simp
      · rw [if_neg hq, if_neg hq]
    · rw [if_neg hlt]
      by_cases heq : e.place = p
      · rw [if_pos heq]
        subst heq
        simp only [find?]
        rw [if_neg (Nat.lt_irrefl _)]
        by_cases hq : q = e.place
        · subst hq; simp
        · rw [if_neg hq]
          by_cases hlt' : e.place < q
          · simp [hlt']
          · simp [hlt']; rw [if_neg (by omega), if_neg (by omega)]
      · rw [if_neg heq]
        simp only [find?]
        rw [if_neg hlt, if_neg heq]
        by_cases hq : q = p
        · subst hq; simp
        · rw [if_neg hq]
          by_cases hlt' : p < q
          · rw [if_pos hlt']
          · rw [if_neg hlt', if_neg (by omega), if_neg (by omega), if_neg (by omega)]

/-- The meaning in terms of the lookup. -/
theorem sat_iff_find {v : PRVec} (hs : Sorted v) {m : Nat → Nat} :
    Sat v m ↔ ∀ p r, find? v p = some r → r.contains (m p) = true := by
  constructor
  · intro h p r hr
    exact h _ ((find?_some_iff hs).1 hr)
  · intro h e he
    exact h e.place e.range ((find?_some_iff hs).2 he)

theorem find?_compact {v : PRVec} (hs : Sorted v) (p : Nat) :
    find? (compact v) p = match find? v p with
      | none => none
      | some r => if r.unbound then none else some r := by
  have hs' : Sorted (compact v) := List.Pairwise.filter _ hs
  cases h : find? v p with
  | none =>
    simp only
    cases h' : find? (compact v) p with
    | none => rfl
    | some r =>
      rw [find?_some_iff hs'] at h'
      have := (find?_some_iff hs).2 (List.mem_filter.1 h').1
      rw [h] at this; simp at this
  | some r =>
    simp only
    have hm := (find?_some_iff hs).1 h
    by_cases hu : r.unbound
    · rw [if_pos hu]
      cases h' : find? (compact v) p with
      | none => rfl
      | some r' =>
        rw [find?_some_iff hs'] at h'
        have h1 := (List.mem_filter.1 h').2
        have h2 := (find?_some_iff hs).2 (List.mem_filter.1 h').1
        rw [h] at h2; cases h2
        simp [hu] at h1
    · rw [if_neg hu]
      exact (find?_some_iff hs').2 (List.mem_filter.2 ⟨hm, by simpa using hu⟩)

theorem compact_sorted {v : PRVec} (hs : Sorted v) : Sorted (compact v) := List.Pairwise.filter _ hs

theorem unbound_contains {r : Range} (h : r.unbound = true) {v : Nat} (hv : v ≤ rmax) : r.contains v = true := by
  simp only [Range.unbound, Range.noLower, Range.noUpper, Bool.and_eq_true, beq_iff_eq] at h
  rw [contains_iff]; omega

theorem sat_compact {v : PRVec} {m : Nat → Nat} (hm : ∀ p, m p ≤ rmax) : Sat (compact v) m ↔ Sat v m := by
  constructor
  · intro h e he
    by_cases hu : e.range.unbound = true
    · exact unbound_contains hu (hm _)
    · exact h e (List.mem_filter.2 ⟨he, by simpa using hu⟩)
  · intro h e he
    exact h e (List.mem_filter.1 he).1

theorem mem_andPlace {v : PRVec} {x y : PRange} (h : y ∈ andPlace v x) : y ∈ v ∨ y.place = x.place := by
  induction v with
  | nil => simp [andPlace] at h; exact Or.inr (by rw [h])
  | cons e es ih =>
    simp only [andPlace] at h
    split at h
    · rcases List.mem_cons.1 h with rfl | h
      · exact Or.inl (by simp)
      · rcases ih h with h | h
        · exact Or.inl (by simp [h])
        · exact Or.inr h
    · split at h
      · rcases List.mem_cons.1 h with rfl | h
        · right; assumption
        · left; simp [h]
      · rcases List.mem_cons.1 h with rfl | h
        · right; rfl
        · left; exact h

theorem andPlace_sorted {v : PRVec} (hs : Sorted v) (x : PRange) : Sorted (andPlace v x) := by
  induction v with
  | nil => simp [andPlace, Sorted]
  | cons e es ih =>
    obtain ⟨h1, h2⟩ := sorted_cons.1 hs
    simp only [andPlace]
    split
    · refine sorted_cons.2 ⟨fun y hy => ?_, ih h2⟩
      rcases mem_andPlace hy with hy | hy
      · exact h1 y hy
      · omega
    · split
      · exact sorted_cons.2 ⟨h1, h2⟩
      · refine sorted_cons.2 ⟨fun y hy => ?_, hs⟩
        rcases List.mem_cons.1 hy with rfl | hy
        · omega
        · have := h1 y hy; omega

theorem contains_inter {r o : Range} {v : Nat} :
    (r.inter o).contains v = true ↔ r.contains v = true ∧ o.contains v = true := by
  simp only [contains_iff, Range.inter]; omega

theorem sat_andPlace {v : PRVec} {x : PRange} {m : Nat → Nat} :
    Sat (andPlace v x) m ↔ Sat v m ∧ x.range.contains (m x.place) = true := by
  induction v with
  | nil => simp [andPlace, Sat]
  | cons e es ih =>
    simp only [andPlace]
    split
    · rw [sat_cons, sat_cons, ih]; constructor <;> rintro ⟨a, b⟩ <;> simp_all
    · split
      · rename_i heq
        rw [sat_cons, sat_cons]
        simp only [contains_inter, heq]
        constructor
        · rintro ⟨⟨a, b⟩, c⟩; exact ⟨⟨a, c⟩, b⟩
        · rintro ⟨⟨a, c⟩, b⟩; exact ⟨⟨a, b⟩, c⟩
      · rw [sat_cons]; exact And.comm

theorem sat_andVec : ∀ (v o : PRVec) {m : Nat → Nat}, Sat (andVec v o) m ↔ Sat v m ∧ Sat o m := by
  intro v o m
  fun_induction andVec v o with
  | case1 o => simp [sat_nil]
  | case2 s ss ih => rw [sat_cons, ih, sat_cons]; simp [sat_nil]
  | case3 s ss o os hlt ih =>
    rw [sat_cons, ih, sat_cons, sat_cons]
    constructor
    · rintro ⟨a, b, c⟩; exact ⟨b, a, c⟩
    · rintro ⟨b, a, c⟩; exact ⟨a, b, c⟩
  | case4 s ss o os hlt heq ih =>
    rw [sat_cons, ih, sat_cons, sat_cons]
    simp only [contains_inter, heq]
    constructor
    · rintro ⟨⟨a, b⟩, c, _, d⟩; exact ⟨⟨a, c⟩, b, d⟩
    · rintro ⟨⟨a, c⟩, b, d⟩; exact ⟨⟨a, b⟩, c, b, d⟩
  | case5 s ss o os hlt heq ih =>
    rw [sat_cons, ih, sat_cons, sat_cons, and_assoc]

/-- What `compareLoop` computes. -/
def Incl (v o : PRVec) : Prop := ∀ e ∈ v, ∃ e' ∈ o, e'.place = e.place ∧ (e.range.compare e'.range).1 = true

theorem compare_swap (r o : Range) : r.compare o = ((o.compare r).2, (o.compare r).1) := by
  simp only [Range.compare]

theorem incl_cons_eq {s o : PRange} {ss os : PRVec} (hs : Sorted (s :: ss)) (ho : Sorted (o :: os))
    (h : s.place = o.place) : Incl (s :: ss) (o :: os) ↔ (s.range.compare o.range).1 = true ∧ Incl ss os := by
  obtain ⟨h1, h2⟩ := sorted_cons.1 hs
  obtain ⟨h3, h4⟩ := sorted_cons.1 ho
  constructor
  · intro hi
    refine ⟨?_, fun e he => ?_⟩
    · obtain ⟨e', he', hp, hc⟩ := hi s (by simp)
      rcases List.mem_cons.1 he' with rfl | he'
      · exact hc
      · have := h3 e' he'; omega
    · obtain ⟨e', he', hp, hc⟩ := hi e (by simp [he])
      rcases List.mem_cons.1 he' with rfl | he'
      · have := h1 e he; omega
      · exact ⟨e', he', hp, hc⟩
  · rintro ⟨hc, hi⟩ e he
    rcases List.mem_cons.1 he with rfl | he
    · exact ⟨o, by simp, h.symm, hc⟩
    · obtain ⟨e', he', hp, hc⟩ := hi e he
      exact ⟨e', by simp [he'], hp, hc⟩

theorem incl_cons_lt {s o : PRange} {ss os : PRVec} (ho : Sorted (o :: os))
    (h : s.place < o.place) : ¬ Incl (s :: ss) (o :: os) := by
  intro hi
  obtain ⟨h3, _⟩ := sorted_cons.1 ho
  obtain ⟨e', he', hp, _⟩ := hi s (by simp)
  rcases List.mem_cons.1 he' with rfl | he'
  · omega
  · have := h3 e' he'; omega

theorem incl_cons_right {s o : PRange} {ss os : PRVec} (hs : Sorted (s :: ss))
    (h : o.place < s.place) : Incl (s :: ss) (o :: os) ↔ Incl (s :: ss) os := by
  obtain ⟨h1, _⟩ := sorted_cons.1 hs
  constructor
  · intro hi e he
    obtain ⟨e', he', hp, hc⟩ := hi e he
    rcases List.mem_cons.1 he' with rfl | he'
    · rcases List.mem_cons.1 he with rfl | he
      · omega
      · have := h1 e he; omega
    · exact ⟨e', he', hp, hc⟩
  · intro hi e he
    obtain ⟨e', he', hp, hc⟩ := hi e he
    exact ⟨e', by simp [he'], hp, hc⟩

theorem incl_nil (o : PRVec) : Incl [] o := by simp [Incl]
theorem not_incl_nil (s : PRange) (ss : PRVec) : ¬ Incl (s :: ss) [] := by
  intro h; obtain ⟨_, h, _⟩ := h s (by simp); simp at h

theorem compareLoop_iff : ∀ (v o : PRVec) (incl : Bool × Bool), Sorted v → Sorted o →
    (((compareLoop v o incl).1 = true ↔ incl.1 = true ∧ Incl v o) ∧
     ((compareLoop v o incl).2 = true ↔ incl.2 = true ∧ Incl o v)) := by
  intro v o incl hv ho
  fun_induction compareLoop v o incl with
  | case1 o incl =>
    refine ⟨by simp [incl_nil], ?_⟩
    cases o with
    | nil => simp [incl_nil]
    | cons x xs => simp [not_incl_nil]
  | case2 s ss incl => exact ⟨by simp [not_incl_nil], by simp [incl_nil]⟩
  | case3 s ss o os incl heq r incl' hstop =>
    rw [incl_cons_eq hv ho heq, incl_cons_eq ho hv heq.symm]
    have hsw := compare_swap s.range o.range
    simp only [incl', r, hsw] at hstop ⊢
    simp at hstop
    obtain ⟨a, b⟩ := hstop
    refine ⟨?_, ?_⟩
    · simp; intro h1; rcases a with a | a <;> simp_all
    · simp; intro h1; rcases b with b | b <;> simp_all
  | case4 s ss o os incl heq r incl' hgo ih =>
    obtain ⟨i1, i2⟩ := ih (sorted_cons.1 hv).2 (sorted_cons.1 ho).2
    rw [incl_cons_eq hv ho heq, incl_cons_eq ho hv heq.symm, i1, i2]
    have hsw := compare_swap s.range o.range
    simp only [incl', r, hsw]
    simp [and_assoc]
  | case5 s ss o os incl hne hlt hstop =>
    have h0 := incl_cons_lt (ss := ss) ho hlt
    simp at hstop
    simp [h0, hstop]
  | case6 s ss o os incl hne hlt hgo ih =>
    obtain ⟨i1, i2⟩ := ih (sorted_cons.1 hv).2 ho
    have h0 := incl_cons_lt (ss := ss) ho hlt
    rw [i1, i2, incl_cons_right ho hlt]
    simp [h0]
  | case7 s ss o os incl hne hlt hstop =>
    have h0 := incl_cons_lt (ss := os) hv (show o.place < s.place by omega)
    simp at hstop
    simp [h0, hstop]
  | case8 s ss o os incl hne hlt hgo ih =>
    obtain ⟨i1, i2⟩ := ih hv (sorted_cons.1 ho).2
    have h0 := incl_cons_lt (ss := os) hv (show o.place < s.place by omega)
    rw [i1, i2, incl_cons_right hv (show o.place < s.place by omega)]
    simp [h0]

/-- Entry-wise inclusion is inclusion of the described sets (one direction needs nothing else). -/
theorem sat_of_incl {v o : PRVec} (h : Incl v o) {m : Nat → Nat} (hm : Sat o m) : Sat v m := by
  intro e he
  obtain ⟨e', he', hp, hc⟩ := h e he
  have := hm e' he'
  rw [contains_iff, hp] at this
  simp only [Range.compare, Bool.and_eq_true, decide_eq_true_eq] at hc
  rw [contains_iff]; omega

/-- A marking described by `o` with a given value at one place. -/
def pick (o : PRVec) (q x : Nat) : Nat → Nat := fun p => if p = q then x else lower o p

theorem pick_sat {o : PRVec} (ho : Sorted o) (hs : Sound o) {q x : Nat}
    (hx : ∀ r, find? o q = some r → r.contains x = true) : Sat o (pick o q x) := by
  rw [sat_iff_find ho]
  intro p r hr
  unfold pick
  by_cases h : p = q
  · subst h; rw [if_pos rfl]; exact hx r hr
  · rw [if_neg h, lower, hr]
    have := hs _ ((find?_some_iff ho).1 hr)
    rw [contains_iff]; simp at this ⊢; exact this.1

theorem incl_of_sat {v o : PRVec} (ho : Sorted o) (hc : isCompact v = true) (hsv : Sound v) (hso : Sound o)
    (h : ∀ m : Nat → Nat, (∀ p, m p ≤ rmax) → Sat o m → Sat v m) : Incl v o := by
  have hb : ∀ q x, x ≤ rmax → ∀ p, pick o q x p ≤ rmax := by
    intro q x hx p
    unfold pick
    split
    · exact hx
    · unfold lower
      cases hf : find? o p with
      | none => exact Nat.zero_le _
      | some r => have := hso _ ((find?_some_iff ho).1 hf); simp at this ⊢; omega
  intro e he
  have hne : e.range.unbound = false := by
    have := (List.all_eq_true.1 hc) e he; simpa using this
  have hsd := hsv e he
  cases hf : find? o e.place with
  | none =>
    exfalso
    have key : ∀ x, x ≤ rmax → e.range.contains x = true := by
      intro x hx
      have := h _ (hb e.place x hx) (pick_sat ho hso (fun r hr => by rw [hf] at hr; simp at hr)) e he
      simpa [pick] using this
    have h0 := contains_iff.1 (key 0 (Nat.zero_le _))
    have h1 := contains_iff.1 (key rmax (Nat.le_refl _))
    simp [Range.unbound, Range.noLower, Range.noUpper] at hne
    exact hne (by omega) (by omega)
  | some r =>
    have hm := (find?_some_iff ho).1 hf
    have hsr := hso _ hm
    simp only at hsr
    have key : ∀ x, r.contains x = true → e.range.contains x = true := by
      intro x hx
      have hx' := contains_iff.1 hx
      have := h _ (hb e.place x (by omega)) (pick_sat ho hso (fun r' hr => by rw [hf] at hr; cases hr; exact hx)) e he
      simpa [pick] using this
    refine ⟨_, hm, rfl, ?_⟩
    have h0 := contains_iff.1 (key r.lower (contains_iff.2 ⟨Nat.le_refl _, hsr.1⟩))
    have h1 := contains_iff.1 (key r.upper (contains_iff.2 ⟨hsr.1, Nat.le_refl _⟩))
    simp only [Range.compare, Bool.and_eq_true, decide_eq_true_eq]
    omega

/-! ## `restricts` -/

theorem restricts_false_iff : ∀ (ps : List Nat) (v : PRVec), Sorted v → ps.Pairwise (· ≤ ·) →
    (restricts v ps = false ↔ ∀ p ∈ ps, ∀ e ∈ v, e.place = p → e.range.unbound = true)
  | [], v, _, _ => by simp [restricts]
  | p :: ps, v, hv, hps => by
    obtain ⟨hp1, hp2⟩ := List.pairwise_cons.1 hps
    -- the entries skipped are irrelevant for p and the later places
    have hskip : ∀ q, p ≤ q → ∀ e ∈ v.takeWhile (fun e => decide (e.place < p) || e.range.unbound),
        e.place = q → e.range.unbound = true := by
      intro q hq e he heq
      have := (List.all_eq_true.1 (List.all_takeWhile (p := fun e : PRange => decide (e.place < p) || e.range.unbound) (l := v))) e he
      simp only [Bool.or_eq_true, decide_eq_true_eq] at this
      rcases this with h | h
      · omega
      · exact h
    have hsplit : ∀ e, e ∈ v ↔ e ∈ v.takeWhile (fun e => decide (e.place < p) || e.range.unbound) ∨
        e ∈ v.dropWhile (fun e => decide (e.place < p) || e.range.unbound) := by
      intro e; rw [← List.mem_append, List.takeWhile_append_dropWhile]
    have hall : (∀ q ∈ p :: ps, ∀ e ∈ v, e.place = q → e.range.unbound = true) ↔
        (∀ q ∈ p :: ps, ∀ e ∈ v.dropWhile (fun e => decide (e.place < p) || e.range.unbound),
          e.place = q → e.range.unbound = true) := by
      constructor
      · intro h q hq e he; exact h q hq e ((hsplit e).2 (Or.inr he))
      · intro h q hq e he
        rcases (hsplit e).1 he with he | he
        · refine hskip q ?_ e he
          rcases List.mem_cons.1 hq with rfl | hq
          · exact Nat.le_refl _
          · exact hp1 q hq
        · exact h q hq e he
    rw [hall]
    have hsd : Sorted (v.dropWhile (fun e => decide (e.place < p) || e.range.unbound)) :=
      List.Pairwise.sublist (List.dropWhile_sublist _) hv
    simp only [restricts]
    cases hd : v.dropWhile (fun e => decide (e.place < p) || e.range.unbound) with
    | nil => simp
    | cons e es =>
      simp only
      have hhead : (decide (e.place < p) || e.range.unbound) = false := by
        have := List.head?_dropWhile_not (fun e : PRange => decide (e.place < p) || e.range.unbound) v
        rw [hd] at this; simpa using this
      simp only [Bool.or_eq_false_iff, decide_eq_false_iff_not] at hhead
      by_cases heq : e.place = p
      · rw [if_pos heq]
        constructor
        · intro h; simp at h
        · intro h
          have := h p (by simp) e (by simp) heq
          rw [hhead.2] at this; simp at this
      · rw [if_neg heq, restricts_false_iff ps (e :: es) (hd ▸ hsd) hp2]
        constructor
        · intro h q hq x hx hxq
          rcases List.mem_cons.1 hq with rfl | hq
          · exfalso
            rcases List.mem_cons.1 hx with rfl | hx
            · exact heq hxq
            · have := (sorted_cons.1 (hd ▸ hsd)).1 x hx; omega
          · exact h q hq x hx hxq
        · intro h q hq x hx; exact h q (by simp [hq]) x hx

end PRVec
end TAR
end Verif
