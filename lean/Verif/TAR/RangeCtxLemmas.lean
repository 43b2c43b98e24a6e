import Verif.TAR.Sem
import Verif.PQL.EvalLemmas

/-! # Ranges around a marking on which a query is false -/

namespace Verif
namespace TAR
open PQL PRVec

namespace RCtx
variable {C : RCtx} {n : Nat}

/-- Ranges that do not exclude the marking from above. -/
structure RI (C : RCtx) (n : Nat) (v : PRVec) : Prop where
  good : Good n v
  ub : ∀ p, (rng v p).upper = rmax ∨ C.base p ≤ (rng v p).upper

/-- `v'` is got from `v` by restricting places of `U`. -/
structure Upd (C : RCtx) (n : Nat) (U : Nat → Bool) (v v' : PRVec) : Prop where
  ri : RI C n v'
  ref : Ref v' v
  frame : ∀ p, U p = false → rng v' p = rng v p

theorem RI.nil : RI C n [] := ⟨good_nil n, fun _ => Or.inl rfl⟩

theorem Upd.refl {U : Nat → Bool} {v : PRVec} (h : RI C n v) : Upd C n U v v := ⟨h, Ref.refl v, fun _ _ => rfl⟩

theorem Upd.trans {U U' U'' : Nat → Bool} {v v' v'' : PRVec} (h : Upd C n U v v') (h' : Upd C n U' v' v'')
    (hU : ∀ p, U'' p = false → U p = false ∧ U' p = false) : Upd C n U'' v v'' :=
  ⟨h'.ri, h'.ref.trans h.ref, fun p hp => by rw [h'.frame p (hU p hp).2, h.frame p (hU p hp).1]⟩

theorem Upd.mono {U U' : Nat → Bool} {v v' : PRVec} (h : Upd C n U v v') (hU : ∀ p, U' p = false → U p = false) :
    Upd C n U' v v' := ⟨h.ri, h.ref, fun p hp => h.frame p (hU p hp)⟩

/-- Restricting one place. -/
theorem upd_at {v : PRVec} (h : RI C n v) {p : Nat} (hp : p < n) {f : Range → Range}
    (h1 : (rng v p).lower ≤ (f (rng v p)).lower) (h2 : (f (rng v p)).upper ≤ (rng v p).upper)
    (h3 : (f (rng v p)).upper = rmax ∨ C.base p ≤ (f (rng v p)).upper) :
    Upd C n (fun q => q == p) v (v.update p f) := by
  have hr := fun q => rng_update h.good.sorted p q f
  refine ⟨⟨good_update h.good hp (Nat.le_trans h2 (rng_le h.good p)), ?_⟩, ?_, ?_⟩
  · intro q
    rw [hr]
    by_cases hq : q = p
    · subst hq; rw [if_pos rfl]; exact h3
    · rw [if_neg hq]; exact h.ub q
  · intro q
    rw [hr]
    by_cases hq : q = p
    · subst hq; rw [if_pos rfl]; exact ⟨h1, h2⟩
    · rw [if_neg hq]; exact ⟨Nat.le_refl _, Nat.le_refl _⟩
  · intro q hq
    rw [hr, if_neg (by simpa using hq)]

theorem compact_upd {U : Nat → Bool} {v v' : PRVec} (h : Upd C n U v v') : Upd C n U v v'.compact :=
  ⟨⟨good_compact h.ri.good, fun p => by rw [rng_compact h.ri.good.sorted]; exact h.ri.ub p⟩,
    h.ref.compact h.ri.good.sorted, fun p hp => by rw [rng_compact h.ri.good.sorted]; exact h.frame p hp⟩

/-! ## Expressions -/

theorem u32_of {i : Int} (h0 : 0 ≤ i) (h1 : i ≤ rmax) : (u32 i : Int) = i := by
  unfold u32 rmax at *
  omega

theorem idsSum_mono {m m' : Nat → Nat} : ∀ {is : List Nat}, (∀ p ∈ is, m p ≤ m' p) →
    (is.map fun p => (m p : Int)).sum ≤ (is.map fun p => (m' p : Int)).sum := by
  intro is
  induction is with
  | nil => intro _; simp
  | cons p is ih =>
    intro h
    have h1 := h p (by simp)
    have h2 := ih (fun q hq => h q (by simp [hq]))
    simp only [List.map_cons, List.sum_cons]
    omega

theorem ids_spec (hb : ∀ p, C.base p < rmax) (lt : Bool) : ∀ (is : List Nat) (s : PRVec × Bool), RI C n s.1 →
    (∀ p ∈ is, p < n) → (∀ p ∈ is, C.dirty p = false) →
    (ids C lt is s).2 = s.2 ∧ Upd C n (fun p => is.contains p) s.1 (ids C lt is s).1 ∧
      ∀ m, SatI (ids C lt is s).1 m → ∀ p ∈ is, if lt then m p ≤ C.base p else C.base p ≤ m p := by
  intro is
  induction is with
  | nil => intro s h _ _; exact ⟨rfl, Upd.refl h, fun m _ p hp => by cases hp⟩
  | cons p is ih =>
    intro s h hp hd
    have hdp := hd p (by simp)
    simp only [ids, hdp, Bool.false_eq_true, if_false]
    generalize hf : (fun r : Range => if lt then ({ r with upper := min (C.base p) r.upper } : Range) else { r with lower := max (C.base p) r.lower }) = f
    have hrl := rng_le h.good p
    have hbp := hb p
    have hub := h.ub p
    have h1 := upd_at (f := f) h (hp p (by simp)) (by subst hf; simp only; split <;> simp only <;> omega)
      (by subst hf; simp only; split <;> simp only <;> omega)
      (by subst hf; simp only; split
          · simp only; omega
          · exact hub)
    obtain ⟨h2, h3, h4⟩ := ih (s.1.update p f, s.2) h1.ri (fun q hq => hp q (by simp [hq])) (fun q hq => hd q (by simp [hq]))
    refine ⟨h2, h1.trans h3 ?_, ?_⟩
    · intro q hq
      simp only [List.contains_cons, Bool.or_eq_false_iff] at hq
      exact hq
    · intro m hm q hq
      rcases List.mem_cons.1 hq with rfl | hq
      · have h5 := (h3.ref.sat h1.ri.good hm) q
        rw [rng_update h.good.sorted, if_pos rfl] at h5
        subst hf
        unfold Range.Has at h5
        cases lt with
        | true => simp only [if_true] at h5 ⊢; omega
        | false => simp only [Bool.false_eq_true, if_false] at h5 ⊢; omega
      · exact h4 m hm q hq

theorem ids_dirty (lt : Bool) : ∀ (is : List Nat) (s : PRVec × Bool), (is.any fun p => C.dirty p) = true →
    (ids C lt is s).2 = true := by
  intro is
  induction is with
  | nil => intro s h; cases h
  | cons p is ihi =>
    intro s h
    simp only [ids]
    by_cases hdp : C.dirty p = true
    · rw [if_pos hdp]
    · rw [if_neg hdp]
      exact ihi _ (by simpa [hdp] using h)

/-- The bound demanded of an expression. -/
def Lim (lt : Bool) (limit x : Int) : Prop := if lt then x ≤ limit else limit ≤ x

def isId : Expr → Bool
  | .id _ => true
  | _ => false

theorem exprs_spec_of (lt : Bool) : ∀ (es : List Expr),
    (∀ e ∈ es, ∀ (s : PRVec × Bool), RI C n s.1 → (∀ p, exprUse p e = true → p < n) →
      (expr C lt (e.val C.base) e s).2 = false →
      s.2 = false ∧ Upd C n (fun p => exprUse p e) s.1 (expr C lt (e.val C.base) e s).1 ∧
        ∀ m, SatI (expr C lt (e.val C.base) e s).1 m → Lim lt (e.val C.base) (e.val m)) →
    ∀ (s : PRVec × Bool), RI C n s.1 → (∀ p, exprsUse p es = true → p < n) → (exprs C lt es s).2 = false →
      s.2 = false ∧ Upd C n (fun p => exprsUse p es) s.1 (exprs C lt es s).1 ∧
        ∀ m, SatI (exprs C lt es s).1 m → Lim lt (vals C.base es).sum (vals m es).sum := by
  intro es
  induction es with
  | nil =>
    intro _ s h _ hd
    refine ⟨hd, Upd.refl h, fun m _ => ?_⟩
    unfold Lim; split <;> simp [vals]
  | cons e es ih =>
    intro he s h hp hd
    simp only [exprs, evalExpr_eq] at hd ⊢
    have hpe : ∀ p, exprUse p e = true → p < n := fun p h' => hp p (by simp [exprsUse, h'])
    cases hd1 : (expr C lt (e.val C.base) e s).2 with
    | true => rw [hd1] at hd; simp only [if_true] at hd; rw [hd1] at hd; cases hd
    | false =>
      rw [hd1] at hd
      simp only [Bool.false_eq_true, if_false] at hd ⊢
      obtain ⟨h1, h2, h3⟩ := he e (by simp) s h hpe hd1
      obtain ⟨_, h5, h6⟩ := ih (fun e' he' => he e' (by simp [he'])) _ h2.ri
        (fun p h' => hp p (by simp [exprsUse, h'])) hd
      refine ⟨h1, h2.trans h5 ?_, fun m hm => ?_⟩
      · intro p hp
        simp only [exprsUse, Bool.or_eq_false_iff] at hp
        exact hp
      · have h7 := h3 m (h5.ref.sat h2.ri.good hm)
        have h8 := h6 m hm
        unfold Lim at *
        simp only [vals, List.sum_cons]
        cases lt <;> simp only [if_true, Bool.false_eq_true, if_false] at * <;> omega

theorem expr_spec (hb : ∀ p, C.base p < rmax) (lt : Bool) (e : Expr) : ∀ (limit : Int) (s : PRVec × Bool), RI C n s.1 →
    (∀ p, exprUse p e = true → p < n) → Lim lt limit (e.val C.base) → (lt = true → isId e = true → limit < rmax) →
    (expr C lt limit e s).2 = false →
    s.2 = false ∧ Upd C n (fun p => exprUse p e) s.1 (expr C lt limit e s).1 ∧
      ∀ m, SatI (expr C lt limit e s).1 m → Lim lt limit (e.val m) := by
  induction e using Expr.ind with
  | lit v => intro limit s h _ hl _ hd; exact ⟨hd, Upd.refl h, fun m _ => hl⟩
  | id p =>
    intro limit s h hp hl hi hd
    simp only [expr] at hd ⊢
    cases hdp : C.dirty p with
    | true => rw [hdp] at hd; simp at hd
    | false =>
      rw [hdp] at hd
      simp only [Bool.false_eq_true, if_false] at hd ⊢
      have hpn : p < n := hp p (by simp [exprUse])
      generalize hf : (fun r : Range => if lt then ({ r with upper := min r.upper (u32 limit) } : Range) else { r with lower := max r.lower (u32 limit) }) = f
      have hrl := rng_le h.good p
      have hbp := hb p
      have hub := h.ub p
      have hlt : lt = true → (u32 limit : Int) = limit ∧ C.base p ≤ u32 limit ∧ u32 limit < rmax := by
        intro ht
        have hl' : (C.base p : Int) ≤ limit := by simpa [Lim, ht, Expr.val] using hl
        have h4 := hi ht rfl
        have := u32_of (i := limit) (by omega) (by omega)
        refine ⟨this, by omega, by omega⟩
      have h1 := upd_at (f := f) h hpn (by subst hf; simp only; split <;> simp only <;> omega)
        (by subst hf; simp only; split <;> simp only <;> omega)
        (by subst hf; simp only; split
            · rename_i ht
              have := hlt ht
              simp only; omega
            · exact hub)
      refine ⟨hd, h1.mono (fun q hq => by simpa [exprUse] using hq), fun m hm => ?_⟩
      have h5 := hm p
      rw [rng_update h.good.sorted, if_pos rfl] at h5
      subst hf
      unfold Range.Has at h5
      unfold Lim at hl ⊢
      simp only [Expr.val] at hl ⊢
      cases lt with
      | true =>
        have := hlt rfl
        simp only [if_true] at h5 hl ⊢
        omega
      | false =>
        simp only [Bool.false_eq_true, if_false] at h5 hl ⊢
        by_cases h0 : 0 ≤ limit
        · have := u32_of (i := limit) h0 (by omega)
          omega
        · omega
  | plus k is es ih =>
    intro limit s h hp hl _ hd
    simp only [expr] at hd ⊢
    by_cases hany : (is.any fun p => C.dirty p) = true
    · rw [if_pos hany, ids_dirty lt is s hany] at hd
      cases hd
    · rw [if_neg hany] at hd ⊢
      have hes := exprs_spec_of lt es (fun e he s h hp hd => ih e he (e.val C.base) s h hp
        (by unfold Lim; split <;> exact Int.le_refl _) (by
          intro _ hid
          cases e with
          | id q => have := hb q; simp only [Expr.val]; omega
          | _ => cases hid) hd)
      have hpi : ∀ p ∈ is, p < n := fun p hpm => hp p (by simp [exprUse, hpm])
      have hpe : ∀ p, exprsUse p es = true → p < n := fun p hpm => hp p (by simp [exprUse, hpm])
      have hnd : ∀ p ∈ is, C.dirty p = false := fun p hpm => by
        simp only [List.any_eq_true, not_exists, not_and, Bool.not_eq_true] at hany
        exact hany p hpm
      obtain ⟨h1, h2, h3⟩ := ids_spec hb lt is s h hpi hnd
      obtain ⟨h4, h5, h6⟩ := hes _ h2.ri hpe hd
      refine ⟨h1 ▸ h4, h2.trans h5 ?_, fun m hm => ?_⟩
      · intro p hp
        simp only [exprUse, Bool.or_eq_false_iff] at hp
        exact hp
      · have h7 := h3 m (h5.ref.sat h2.ri.good hm)
        have h8 := h6 m hm
        unfold Lim at *
        simp only [Expr.val] at hl ⊢
        cases lt with
        | true =>
          simp only [if_true] at *
          have := idsSum_mono (m := m) (m' := C.base) h7
          omega
        | false =>
          simp only [Bool.false_eq_true, if_false] at *
          have := idsSum_mono (m := C.base) (m' := m) h7
          omega
  | mul k is es _ => intro limit s h _ _ _ hd; simp [expr] at hd
  | sub e es _ _ => intro limit s h _ _ _ hd; simp [expr] at hd
  | minus e _ => intro limit s h _ _ _ hd; simp [expr] at hd

/-! ## Comparisons -/

theorem expr_flag (lt : Bool) (e : Expr) : ∀ (limit : Int) (s : PRVec × Bool), s.2 = true → (expr C lt limit e s).2 = true := by
  have hids : ∀ (is : List Nat) (s : PRVec × Bool), s.2 = true → (ids C lt is s).2 = true := by
    intro is
    induction is with
    | nil => intro s h; exact h
    | cons p is ih =>
      intro s h
      simp only [ids]
      split
      · rfl
      · exact ih _ h
  induction e using Expr.ind with
  | lit v => intro limit s h; exact h
  | id p =>
    intro limit s h
    simp only [expr]
    split
    · rfl
    · exact h
  | plus k is es ih =>
    intro limit s h
    simp only [expr]
    have key : ∀ (l : List Expr), (∀ e ∈ l, ∀ (limit : Int) (s : PRVec × Bool), s.2 = true → (expr C lt limit e s).2 = true) →
        ∀ s : PRVec × Bool, s.2 = true → (exprs C lt l s).2 = true := by
      intro l
      induction l with
      | nil => intro _ s h; exact h
      | cons e l ihl =>
        intro hl s h
        have := hl e (by simp) (evalExpr C.base e) s h
        simp only [exprs, this, if_true]
    split
    · exact hids is s h
    · exact key es ih _ (hids is s h)
  | mul k is es _ => intro limit s h; rfl
  | sub e es _ _ => intro limit s h; rfl
  | minus e _ => intro limit s h; rfl

theorem cmp_spec (hb : ∀ p, C.base p < rmax) {a b : Expr} {strict : Bool} {s : PRVec × Bool} (h : RI C n s.1)
    (hp : ∀ p, exprUse p a = true ∨ exprUse p b = true → p < n)
    (hlit : a.placeFree = true → a.val C.base < rmax)
    (hf : if strict then b.val C.base ≤ a.val C.base else b.val C.base < a.val C.base)
    (hd : (cmp C a b strict s).2 = false) :
    s.2 = false ∧ Upd C n (fun p => exprUse p a || exprUse p b) s.1 (cmp C a b strict s).1 ∧
      ∀ m, SatI (cmp C a b strict s).1 m → if strict then b.val m ≤ a.val m else b.val m < a.val m := by
  unfold cmp at hd ⊢
  simp only [evalExpr_eq] at hd ⊢
  by_cases hr : b.placeFree = true
  · rw [if_pos hr] at hd ⊢
    obtain ⟨h1, h2, h3⟩ := expr_spec hb false a _ s h (fun p hpa => hp p (Or.inl hpa))
      (by unfold Lim; cases strict <;> simp at hf ⊢ <;> omega) (by intro h; cases h) hd
    refine ⟨h1, h2.mono (fun p hp => by simpa using (Bool.or_eq_false_iff.1 hp).1), fun m hm => ?_⟩
    have h4 := h3 m hm
    rw [val_placeFree C.base m b hr] at h4
    unfold Lim at h4
    cases strict <;> simp at h4 ⊢ <;> omega
  · rw [if_neg hr] at hd ⊢
    by_cases hl : a.placeFree = true
    · rw [if_pos hl] at hd ⊢
      have hv := hlit hl
      obtain ⟨h1, h2, h3⟩ := expr_spec hb true b _ s h (fun p hpa => hp p (Or.inr hpa))
        (by unfold Lim; cases strict <;> simp at hf ⊢ <;> omega) (by intro _ _; cases strict <;> simp <;> omega) hd
      refine ⟨h1, h2.mono (fun p hp => by simpa using (Bool.or_eq_false_iff.1 hp).2), fun m hm => ?_⟩
      have h4 := h3 m hm
      rw [val_placeFree C.base m a hl] at h4
      unfold Lim at h4
      cases strict <;> simp at h4 ⊢ <;> omega
    · rw [if_neg hl] at hd ⊢
      generalize hs1 : expr C false (b.val C.base + if strict then 0 else 1) a s = s1 at hd ⊢
      have hf1 : s1.2 = false := by
        cases hx : s1.2 with
        | false => rfl
        | true => rw [expr_flag true b _ s1 hx] at hd; cases hd
      rw [← hs1] at hf1
      obtain ⟨h1, h2, h3⟩ := expr_spec hb false a _ s h (fun p hpa => hp p (Or.inl hpa))
        (by unfold Lim; cases strict <;> simp at hf ⊢ <;> omega) (by intro h; cases h) hf1
      rw [hs1] at h2 h3
      obtain ⟨_, h5, h6⟩ := expr_spec hb true b _ s1 h2.ri (fun p hpa => hp p (Or.inr hpa))
        (show Lim true (b.val C.base) _ from Int.le_refl _) (by
          intro _ hid
          cases b with
          | id q => have := hb q; simp only [Expr.val]; omega
          | _ => cases hid) hd
      refine ⟨h1, h2.trans h5 (fun p hp => Bool.or_eq_false_iff.1 hp), fun m hm => ?_⟩
      have h7 := h3 m (h5.ref.sat h2.ri.good hm)
      have h8 := h6 m hm
      unfold Lim at h7 h8
      cases strict <;> simp at h7 h8 ⊢ <;> omega

/-! ## Conjunctions of constraints -/

/-- The constraint does not hold. -/
def Viol (m : Nat → Nat) (c : Cons) : Prop := m c.place < c.lower ∨ (c.upper < m c.place ∧ c.upper < rmax)

theorem consI_false {m : Nat → Nat} {l : List Cons} (hl : ∀ c ∈ l, c.upper ≤ rmax) : consI m l = false ↔ ∃ c ∈ l, Viol m c := by
  unfold consI
  rw [List.all_eq_false]
  refine exists_congr fun c => and_congr_right fun hc => ?_
  have := hl c hc
  unfold Viol
  simp only [Bool.and_eq_true, decide_eq_true_eq, Bool.or_eq_true, beq_iff_eq]
  omega

theorem consI_true {m : Nat → Nat} {l : List Cons} : consI m l = true ↔
    ∀ c ∈ l, c.lower ≤ m c.place ∧ (c.upper = rmax ∨ m c.place ≤ c.upper) := by
  unfold consI
  rw [List.all_eq_true]
  simp only [Bool.and_eq_true, decide_eq_true_eq, Bool.or_eq_true, beq_iff_eq]

/-- A range the loop may have picked. -/
def Pick (C : RCtx) (l : List Cons) (pr : PRange) : Prop :=
  ∃ c ∈ l, (C.base c.place < c.lower ∧ pr = ⟨c.place, ⟨0, c.lower - 1⟩⟩) ∨
    (c.upper < C.base c.place ∧ pr = ⟨c.place, ⟨c.upper + 1, rmax⟩⟩)

theorem ccPos_spec {L : List Cons} : ∀ (l : List Cons) (v : PRVec) (pr : PRange × Nat), (∀ c ∈ l, c ∈ L) →
    (∀ c ∈ L, c.place < n ∧ c.lower ≤ rmax ∧ c.upper ≤ rmax ∧ rng v c.place = {}) → RI C n v →
    (pr.2 ≠ 0 → Pick C L pr.1) →
    ∃ v' pr', ccPos C l v pr = (v', some pr') ∧ RI C n v' ∧ (∀ p, rng v' p = rng v p) ∧ (pr'.2 ≠ 0 → Pick C L pr'.1) ∧
      ((∃ c ∈ l, Viol C.base c ∧ C.dirty c.place = false ∧ 0 < C.uses c.place) ∨ pr.2 ≠ 0 → pr'.2 ≠ 0) := by
  intro l
  induction l with
  | nil =>
    intro v pr _ _ h hp
    refine ⟨v, pr, rfl, h, fun _ => rfl, hp, ?_⟩
    rintro (⟨c, hc, _⟩ | h)
    · cases hc
    · exact h
  | cons c l ih =>
    intro v pr hsub hL h hp
    obtain ⟨hc1, hc2, hc3, hc4⟩ := hL c (hsub c (by simp))
    have hupd := upd_at (C := C) h hc1 (f := id) (Nat.le_refl _) (Nat.le_refl _) (h.ub c.place)
    have hrng : ∀ p, rng (v.update c.place id) p = rng v p := by
      intro p; rw [rng_update h.good.sorted]; split
      · rename_i hh; rw [hh]; rfl
      · rfl
    have hL' : ∀ c' ∈ L, c'.place < n ∧ c'.lower ≤ rmax ∧ c'.upper ≤ rmax ∧ rng (v.update c.place id) c'.place = {} := by
      intro c' hc'; rw [hrng]; exact hL c' hc'
    have hsub' : ∀ c' ∈ l, c' ∈ L := fun c' hc' => hsub c' (by simp [hc'])
    simp only [ccPos]
    by_cases h1 : c.lower > C.base c.place
    · rw [if_pos h1, upper_eq, hrng, hc4, if_neg (show ¬ (rmax ≤ c.lower - 1) by unfold rmax at *; omega)]
      generalize hpr : (if (!C.dirty c.place && decide (pr.2 < C.uses c.place)) = true then
        ((⟨c.place, ⟨0, c.lower - 1⟩⟩ : PRange), C.uses c.place) else pr) = pr1
      obtain ⟨v', pr', h2, h3, h4, h5, h6⟩ := ih (v.update c.place id) pr1 hsub' hL' hupd.ri (by
        intro hne
        by_cases hcnd : (!C.dirty c.place && decide (pr.2 < C.uses c.place)) = true
        · rw [if_pos hcnd] at hpr; subst hpr; exact ⟨c, hsub c (by simp), Or.inl ⟨h1, rfl⟩⟩
        · rw [if_neg hcnd] at hpr; subst hpr; exact hp hne)
      refine ⟨v', pr', h2, h3, fun p => by rw [h4, hrng], h5, fun hh => h6 ?_⟩
      have hkeep : pr.2 ≠ 0 → pr1.2 ≠ 0 := by
        intro hne
        by_cases hcnd : (!C.dirty c.place && decide (pr.2 < C.uses c.place)) = true
        · rw [if_pos hcnd] at hpr; subst hpr
          simp only [Bool.and_eq_true, decide_eq_true_eq] at hcnd
          show C.uses c.place ≠ 0
          omega
        · rw [if_neg hcnd] at hpr; subst hpr; exact hne
      rcases hh with ⟨c', hc', hv, hd, hu⟩ | hne
      · rcases List.mem_cons.1 hc' with rfl | hc'
        · right
          by_cases hcnd : (!C.dirty c'.place && decide (pr.2 < C.uses c'.place)) = true
          · rw [if_pos hcnd] at hpr; subst hpr
            show C.uses c'.place ≠ 0
            omega
          · rw [if_neg hcnd] at hpr; subst hpr
            simp only [hd, Bool.not_false, Bool.true_and, decide_eq_true_eq] at hcnd
            omega
        · exact Or.inl ⟨c', hc', hv, hd, hu⟩
      · exact Or.inr (hkeep hne)
    · rw [if_neg h1]
      by_cases h2 : c.upper < C.base c.place
      · rw [if_pos h2, lower_eq, hrng, hc4, if_neg (show ¬ (0 ≥ c.upper + 1) by omega)]
        generalize hpr : (if (!C.dirty c.place && decide (pr.2 < C.uses c.place)) = true then
          ((⟨c.place, ⟨c.upper + 1, rmax⟩⟩ : PRange), C.uses c.place) else pr) = pr1
        obtain ⟨v', pr', h2', h3, h4, h5, h6⟩ := ih (v.update c.place id) pr1 hsub' hL' hupd.ri (by
          intro hne
          by_cases hcnd : (!C.dirty c.place && decide (pr.2 < C.uses c.place)) = true
          · rw [if_pos hcnd] at hpr; subst hpr; exact ⟨c, hsub c (by simp), Or.inr ⟨h2, rfl⟩⟩
          · rw [if_neg hcnd] at hpr; subst hpr; exact hp hne)
        refine ⟨v', pr', h2', h3, fun p => by rw [h4, hrng], h5, fun hh => h6 ?_⟩
        have hkeep : pr.2 ≠ 0 → pr1.2 ≠ 0 := by
          intro hne
          by_cases hcnd : (!C.dirty c.place && decide (pr.2 < C.uses c.place)) = true
          · rw [if_pos hcnd] at hpr; subst hpr
            simp only [Bool.and_eq_true, decide_eq_true_eq] at hcnd
            show C.uses c.place ≠ 0
            omega
          · rw [if_neg hcnd] at hpr; subst hpr; exact hne
        rcases hh with ⟨c', hc', hv, hd, hu⟩ | hne
        · rcases List.mem_cons.1 hc' with rfl | hc'
          · right
            by_cases hcnd : (!C.dirty c'.place && decide (pr.2 < C.uses c'.place)) = true
            · rw [if_pos hcnd] at hpr; subst hpr
              show C.uses c'.place ≠ 0
              omega
            · rw [if_neg hcnd] at hpr; subst hpr
              simp only [hd, Bool.not_false, Bool.true_and, decide_eq_true_eq] at hcnd
              omega
          · exact Or.inl ⟨c', hc', hv, hd, hu⟩
        · exact Or.inr (hkeep hne)
      · rw [if_neg h2]
        obtain ⟨v', pr', h2', h3, h4, h5, h6⟩ := ih v pr hsub' hL h hp
        refine ⟨v', pr', h2', h3, h4, h5, fun hh => h6 ?_⟩
        rcases hh with ⟨c', hc', hv, hd, hu⟩ | hne
        · rcases List.mem_cons.1 hc' with rfl | hc'
          · unfold Viol at hv; omega
          · exact Or.inl ⟨c', hc', hv, hd, hu⟩
        · exact Or.inr hne

theorem ccNeg_spec : ∀ (l : List Cons) (v : PRVec), (l.map (·.place)).Nodup →
    (∀ c ∈ l, c.place < n ∧ c.upper ≤ rmax ∧ rng v c.place = {} ∧ (c.upper = rmax ∨ C.base c.place ≤ c.upper)) → RI C n v →
    (ccNeg C l v).2 = false →
    Upd C n (fun p => l.any fun c => c.place == p) v (ccNeg C l v).1 ∧
      ∀ m, SatI (ccNeg C l v).1 m → ∀ c ∈ l, c.lower ≤ m c.place ∧ (c.upper = rmax ∨ m c.place ≤ c.upper) := by
  intro l
  induction l with
  | nil => intro v _ _ h _; exact ⟨Upd.refl h, fun m _ c hc => by cases hc⟩
  | cons c l ih =>
    intro v hnd hl h hd
    obtain ⟨hc1, hc2, hc3, hc4⟩ := hl c (by simp)
    simp only [List.map_cons, List.nodup_cons, List.mem_map, not_exists, not_and] at hnd
    simp only [ccNeg] at hd ⊢
    cases hdc : C.dirty c.place with
    | true => rw [hdc] at hd; simp at hd
    | false =>
      rw [hdc] at hd
      simp only [Bool.false_eq_true, if_false] at hd ⊢
      have hmin : min c.upper rmax = c.upper := Nat.min_eq_left hc2
      have hupd := upd_at (C := C) h hc1 (f := fun _ => ⟨max c.lower 0, min c.upper rmax⟩)
        (by rw [hc3]; exact Nat.zero_le _) (by rw [hc3]; simp only [hmin]; exact hc2) (by simp only [hmin]; exact hc4)
      have hrng := fun q => rng_update h.good.sorted c.place q (fun _ => (⟨max c.lower 0, min c.upper rmax⟩ : Range))
      obtain ⟨h1, h2⟩ := ih _ hnd.2 (fun c' hc' => by
        obtain ⟨a1, a2, a3, a4⟩ := hl c' (by simp [hc'])
        refine ⟨a1, a2, ?_, a4⟩
        rw [hrng, if_neg (hnd.1 c' hc')]; exact a3) hupd.ri hd
      refine ⟨hupd.trans h1 ?_, fun m hm c' hc' => ?_⟩
      · intro p hp
        simp only [List.any_cons, Bool.or_eq_false_iff] at hp
        refine ⟨?_, hp.2⟩
        have := hp.1
        simp only [beq_eq_false_iff_ne, ne_eq] at this ⊢
        exact fun h => this h.symm
      · rcases List.mem_cons.1 hc' with rfl | hc'
        · have h5 := (h1.ref.sat hupd.ri.good hm) c'.place
          rw [hrng, if_pos rfl] at h5
          unfold Range.Has at h5
          simp only [hmin] at h5
          omega
        · exact h2 m hm c' hc'

theorem cc_spec (hb : ∀ p, C.base p < rmax) {l : List Cons} {neg : Bool} {s : PRVec × Bool} (h : RI C n s.1)
    (hl : ∀ c ∈ l, c.place < n ∧ c.lower ≤ rmax ∧ c.upper ≤ rmax ∧ rng s.1 c.place = {})
    (hnd : neg = true → (l.map (·.place)).Nodup) (hf : (neg ^^ consI C.base l) = false) (hd : (cc C l neg s).2 = false) :
    s.2 = false ∧ Upd C n (fun p => l.any fun c => c.place == p) s.1 (cc C l neg s).1 ∧
      ∀ m, SatI (cc C l neg s).1 m → (neg ^^ consI m l) = false := by
  unfold cc at hd ⊢
  cases neg with
  | true =>
    simp only [if_true, Bool.or_eq_false_iff] at hd ⊢
    have hct : consI C.base l = true := by simpa using hf
    rw [consI_true] at hct
    obtain ⟨h1, h2⟩ := ccNeg_spec l s.1 (hnd rfl) (fun c hc => ⟨(hl c hc).1, (hl c hc).2.2.1, (hl c hc).2.2.2, (hct c hc).2⟩) h hd.2
    refine ⟨hd.1, h1, fun m hm => ?_⟩
    have : consI m l = true := consI_true.2 (h2 m hm)
    rw [this]; rfl
  | false =>
    simp only [Bool.false_eq_true, if_false] at hd ⊢
    obtain ⟨v', pr', h1, h2, h3, h4, _⟩ := ccPos_spec (C := C) (L := l) l s.1 (⟨rmax, {}⟩, 0) (fun c hc => hc) hl h (fun hne => (hne rfl).elim)
    rw [h1] at hd ⊢
    simp only at hd ⊢
    by_cases h0 : pr'.2 = 0
    · rw [if_pos h0] at hd; cases hd
    · rw [if_neg h0] at hd ⊢
      simp only at hd ⊢
      obtain ⟨c, hc, hpick⟩ := h4 h0
      obtain ⟨hc1, hc2, hc3, hc4⟩ := hl c hc
      have hpl : pr'.1.place = c.place := by rcases hpick with ⟨_, hp⟩ | ⟨_, hp⟩ <;> rw [hp]
      have hbc := hb c.place
      have hup := upd_at (C := C) h2 (p := pr'.1.place) (f := fun _ => pr'.1.range) (by rw [hpl]; exact hc1)
        (by rw [hpl, h3, hc4]; exact Nat.zero_le _)
        (by
          rw [hpl, h3, hc4]
          rcases hpick with ⟨_, hp⟩ | ⟨_, hp⟩ <;> rw [hp]
          · simp only; omega)
        (by
          rw [hpl]
          rcases hpick with ⟨_, hp⟩ | ⟨_, hp⟩ <;> rw [hp]
          · simp only; omega
          · exact Or.inl rfl)
      have hup2 : Upd C n (fun p => l.any fun c => c.place == p) s.1 (v'.update pr'.1.place fun _ => pr'.1.range) := by
        refine ⟨hup.ri, fun p => ?_, fun p hp => ?_⟩
        · have := hup.ref p; rw [h3] at this; exact this
        · rw [hup.frame p ?_, h3]
          simp only [beq_eq_false_iff_ne, ne_eq, hpl]
          intro hpc
          rw [List.any_eq_false] at hp
          exact hp c hc (by simp [hpc])
      refine ⟨hd, compact_upd hup2, fun m hm => ?_⟩
      rw [satI_compact hup2.ri.good.sorted] at hm
      have h5 := hm c.place
      rw [rng_update h2.good.sorted, if_pos hpl.symm] at h5
      have : consI m l = false := by
        rw [consI_false (fun c hc => (hl c hc).2.2.1)]
        refine ⟨c, hc, ?_⟩
        unfold Range.Has at h5
        unfold Viol
        rcases hpick with ⟨hv, hp⟩ | ⟨hv, hp⟩
        · rw [hp] at h5
          simp only at h5
          omega
        · rw [hp] at h5
          simp only at h5
          omega
      rw [this]; rfl

/-! ## Deadlock -/

/-- A transition is enabled when no arc of its preset lacks tokens. -/
def En (N : FlatNet) (m : Nat → Nat) (t : Nat) : Prop := ∀ a ∈ N.preset t, a.tokens ≤ m a.place

theorem foldl_add_ge (l : List Nat) : ∀ k, k ≤ l.foldl (· + ·) k ∧ ∀ x ∈ l, x ≤ l.foldl (· + ·) k := by
  induction l with
  | nil => intro k; exact ⟨Nat.le_refl _, by simp⟩
  | cons y l ih =>
    intro k
    obtain ⟨h1, h2⟩ := ih (k + y)
    refine ⟨by simp only [List.foldl_cons]; omega, fun x hx => ?_⟩
    simp only [List.foldl_cons]
    rcases List.mem_cons.1 hx with rfl | hx
    · omega
    · exact h2 x hx

theorem deadCand_spec (hu : ∀ t < C.net.ntransitions, ∀ a ∈ C.net.preset t, 0 < C.uses a.place) : ∀ (k t : Nat) (s : Nat × Nat × Bool),
    t + k = C.net.ntransitions →
    ((s.2.1 ≠ 0 → s.1 < C.net.ntransitions ∧ En C.net C.base s.1) →
      (deadCand C k t s).2.1 ≠ 0 → (deadCand C k t s).1 < C.net.ntransitions ∧ En C.net C.base (deadCand C k t s).1) ∧
    ((deadCand C k t s).2.1 = 0 → (deadCand C k t s).2.2 = false →
      s.2.1 = 0 ∧ s.2.2 = false ∧ ∀ t', t ≤ t' → t' < C.net.ntransitions → En C.net C.base t' → C.net.preset t' = []) := by
  intro k
  induction k with
  | zero =>
    intro t s ht
    exact ⟨fun h => h, fun h1 h2 => ⟨h1, h2, fun t' h3 h4 => by omega⟩⟩
  | succ k ih =>
    intro t s ht
    have htl : t < C.net.ntransitions := by omega
    simp only [deadCand]
    generalize hen : ((C.net.preset t).all fun i => !decide (C.base i.place < i.tokens)) = en
    generalize hdi : ((C.net.preset t).any fun i => C.dirty i.place) = di
    have henI : en = true ↔ En C.net C.base t := by
      rw [← hen, List.all_eq_true]
      unfold En
      refine forall_congr' fun a => forall_congr' fun _ => ?_
      simp
    by_cases hc : (!(en && !di)) = true
    · rw [if_pos hc]
      obtain ⟨h1, h2⟩ := ih (t + 1) (s.1, s.2.1, s.2.2 || di) (by omega)
      refine ⟨fun h => h1 h, fun h3 h4 => ?_⟩
      obtain ⟨h5, h6, h7⟩ := h2 h3 h4
      simp only [Bool.or_eq_false_iff] at h6
      refine ⟨h5, h6.1, fun t' h8 h9 h10 => ?_⟩
      rcases Nat.lt_or_ge t t' with hlt | hge
      · exact h7 t' hlt h9 h10
      · have : t' = t := by omega
        subst this
        rw [henI.2 h10, h6.2] at hc
        simp at hc
    · rw [if_neg hc]
      have hc : en = true ∧ di = false := by cases en <;> cases di <;> simp at hc ⊢
      generalize hsum : ((C.net.preset t).map fun i => C.uses i.place).foldl (· + ·) 0 = sum
      have hsum0 : sum = 0 → C.net.preset t = [] := by
        intro h0
        cases hpr : C.net.preset t with
        | nil => rfl
        | cons a l =>
          have h1 := hu t htl a (by rw [hpr]; simp)
          have h2 := (foldl_add_ge ((C.net.preset t).map fun i => C.uses i.place) 0).2 (C.uses a.place) (by rw [hpr]; simp)
          rw [hsum] at h2
          omega
      generalize hs' : (if sum > s.2.1 then (t, sum, s.2.2 || di) else (s.1, s.2.1, s.2.2 || di)) = s'
      obtain ⟨h1, h2⟩ := ih (t + 1) s' (by omega)
      refine ⟨fun h => h1 ?_, fun h3 h4 => ?_⟩
      · intro hne
        by_cases hgt : sum > s.2.1
        · rw [if_pos hgt] at hs'; subst hs'; exact ⟨htl, henI.1 hc.1⟩
        · rw [if_neg hgt] at hs'; subst hs'; exact h hne
      · obtain ⟨h5, h6, h7⟩ := h2 h3 h4
        by_cases hgt : sum > s.2.1
        · rw [if_pos hgt] at hs'; subst hs'
          simp only at h5
          omega
        · rw [if_neg hgt] at hs'; subst hs'
          simp only [Bool.or_eq_false_iff] at h5 h6
          refine ⟨h5, h6.1, fun t' h8 h9 h10 => ?_⟩
          rcases Nat.lt_or_ge t t' with hlt | hge
          · exact h7 t' hlt h9 h10
          · have : t' = t := by omega
            subst this
            exact hsum0 (by omega)

theorem deadPre_spec : ∀ (l : List Invariant) (v : PRVec), RI C n v → (∀ a ∈ l, a.place < n) →
    Upd C n (fun _ => true) v (deadPre l v) ∧ ∀ m, SatI (deadPre l v) m → ∀ a ∈ l, a.tokens ≤ m a.place := by
  intro l
  induction l with
  | nil => intro v h _; exact ⟨Upd.refl h, fun m _ a ha => by cases ha⟩
  | cons a l ih =>
    intro v h hl
    simp only [deadPre]
    have hu := upd_at (C := C) h (hl a (by simp)) (f := fun r => { r with lower := max a.tokens r.lower })
      (by simp only; omega) (Nat.le_refl _) (h.ub a.place)
    obtain ⟨h1, h2⟩ := ih _ hu.ri (fun b hb => hl b (by simp [hb]))
    refine ⟨hu.trans h1 (fun p hp => by cases hp), fun m hm b hb => ?_⟩
    rcases List.mem_cons.1 hb with rfl | hb
    · have h5 := (h1.ref.sat hu.ri.good hm) b.place
      rw [rng_update h.good.sorted, if_pos rfl] at h5
      unfold Range.Has at h5
      simp only at h5
      omega
    · exact h2 m hm b hb

theorem dead_spec (hu : ∀ t < C.net.ntransitions, ∀ a ∈ C.net.preset t, 0 < C.uses a.place)
    (hpl : ∀ t < C.net.ntransitions, ∀ a ∈ C.net.preset t, a.place < n)
    (hdl : ∀ m, C.net.deadlocked m = false ↔ ∃ t < C.net.ntransitions, En C.net m t) {s : PRVec × Bool} (h : RI C n s.1)
    (hf : C.net.deadlocked C.base = false) (hd : (dead C s).2 = false) :
    s.2 = false ∧ Upd C n (fun _ => true) s.1 (dead C s).1 ∧ ∀ m, SatI (dead C s).1 m → C.net.deadlocked m = false := by
  unfold dead at hd ⊢
  obtain ⟨h1, h2⟩ := deadCand_spec hu C.net.ntransitions 0 (0, 0, false) (by omega)
  generalize deadCand C C.net.ntransitions 0 (0, 0, false) = r at *
  simp only at hd ⊢
  by_cases h0 : r.2.1 ≠ 0
  · rw [if_pos h0] at hd ⊢
    obtain ⟨h3, h4⟩ := h1 (fun hne => (hne rfl).elim) h0
    obtain ⟨h5, h6⟩ := deadPre_spec (C := C) (C.net.preset r.1) s.1 h (hpl r.1 h3)
    exact ⟨hd, h5, fun m hm => (hdl m).2 ⟨r.1, h3, h6 m hm⟩⟩
  · rw [if_neg h0] at hd ⊢
    cases hr : r.2.2 with
    | true => rw [hr] at hd; simp at hd
    | false =>
      rw [hr] at hd
      simp only [Bool.false_eq_true, if_false] at hd ⊢
      obtain ⟨_, _, h7⟩ := h2 (by omega) hr
      obtain ⟨t, ht, he⟩ := (hdl C.base).1 hf
      have hnil := h7 t (Nat.zero_le t) ht he
      refine ⟨hd, Upd.refl h, fun m _ => (hdl m).2 ⟨t, ht, ?_⟩⟩
      intro a ha
      rw [hnil] at ha; cases ha

/-! ## Conditions -/

end RCtx

mutual
/-- Queries over the places below `n`, with 32-bit bounds: what the engine accepts.  A number on the left of a comparison
is below `rmax`. -/
def QOK (n : Nat) : Cond → Prop
  | .dead => True
  | .cmp _ a b => (∀ p, exprUse p a = true ∨ exprUse p b = true → p < n) ∧ (a.placeFree = true → a.val (fun _ => 0) < rmax)
  | .cc l _ => ∀ c ∈ l, c.place < n ∧ c.lower ≤ rmax ∧ c.upper ≤ rmax
  | .and cs => QOKs n cs
  | .or cs => QOKs n cs
  | _ => False
def QOKs (n : Nat) : List Cond → Prop
  | [] => True
  | c :: cs => QOK n c ∧ QOKs n cs
end

mutual
/-- No range is overwritten: the places of a conjunction of constraints are not among those visited before it. -/
def rcSafe (acc : Nat → Bool) : Cond → Bool
  | .cc l neg => (l.all fun c => !acc c.place) && (!neg || decide (l.map (·.place)).Nodup)
  | .and cs => rcAll acc cs
  | .or cs => rcSeq acc cs
  | _ => true
def rcAll (acc : Nat → Bool) : List Cond → Bool
  | [] => true
  | c :: cs => rcSafe acc c && rcAll acc cs
def rcSeq (acc : Nat → Bool) : List Cond → Bool
  | [] => true
  | c :: cs => rcSafe acc c && rcSeq (fun p => acc p || condUse p c) cs
end

theorem QOKs_mem {n : Nat} {cs : List Cond} (h : QOKs n cs) : ∀ c ∈ cs, QOK n c := by
  induction cs with
  | nil => intro c hc; cases hc
  | cons d cs ih =>
    intro c hc
    rcases List.mem_cons.1 hc with rfl | hc
    · exact h.1
    · exact ih h.2 c hc

theorem QOK.supp {n : Nat} {c : Cond} (h : QOK n c) : supp c = true := by
  induction c using Cond.ind with
  | dead => rfl
  | cmp op a b => rfl
  | cc l neg => rfl
  | and cs ih =>
    simp only [TAR.supp, suppAll_eq, List.all_eq_true]
    exact fun c hc => ih c hc (QOKs_mem h c hc)
  | or cs ih =>
    simp only [TAR.supp, suppAll_eq, List.all_eq_true]
    exact fun c hc => ih c hc (QOKs_mem h c hc)
  | _ => exact h.elim

theorem rcAll_mem {acc : Nat → Bool} {cs : List Cond} (h : rcAll acc cs = true) : ∀ c ∈ cs, rcSafe acc c = true := by
  induction cs with
  | nil => intro c hc; cases hc
  | cons d cs ih =>
    simp only [rcAll, Bool.and_eq_true] at h
    intro c hc
    rcases List.mem_cons.1 hc with rfl | hc
    · exact h.1
    · exact ih h.2 c hc

theorem condsUse_mem {p : Nat} {cs : List Cond} (h : condsUse p cs = false) : ∀ c ∈ cs, condUse p c = false := by
  induction cs with
  | nil => intro c hc; cases hc
  | cons d cs ih =>
    simp only [condsUse, Bool.or_eq_false_iff] at h
    intro c hc
    rcases List.mem_cons.1 hc with rfl | hc
    · exact h.1
    · exact ih h.2 c hc

namespace RCtx
variable {C : RCtx} {n : Nat}

/-- What the visitor may assume. -/
structure Env (C : RCtx) (n : Nat) : Prop where
  base : ∀ p, C.base p < rmax
  usesPre : ∀ t < C.net.ntransitions, ∀ a ∈ C.net.preset t, 0 < C.uses a.place
  preLt : ∀ t < C.net.ntransitions, ∀ a ∈ C.net.preset t, a.place < n
  dl : ∀ m, C.net.deadlocked m = false ↔ ∃ t < C.net.ntransitions, En C.net m t

theorem eval_false (E : Env C n) {c : Cond} (h : QOK n c) : eval C c = .rFalse ↔ goalI (C.net.deadlocked C.base) C.base c = false := by
  unfold eval
  rw [evaluateSet_goal (fun p => Nat.le_of_lt (E.base p)) _ c h.supp]
  cases goalI (C.net.deadlocked C.base) C.base c <;> simp [Res.ofBool]

theorem eval_true (E : Env C n) {c : Cond} (h : QOK n c) : eval C c = .rTrue ↔ goalI (C.net.deadlocked C.base) C.base c = true := by
  unfold eval
  rw [evaluateSet_goal (fun p => Nat.le_of_lt (E.base p)) _ c h.supp]
  cases goalI (C.net.deadlocked C.base) C.base c <;> simp [Res.ofBool]

theorem ands_some {v : PRVec} : ∀ (cs : List Cond) (best : Option PRVec) (r : Option PRVec) (w : PRVec),
    ands C cs v best = .ok r → r = some w → best = some w ∨ ∃ c ∈ cs, eval C c = .rFalse ∧ cond C c (v, false) = .ok (w, false) := by
  intro cs
  induction cs with
  | nil => intro best r w h hr; simp only [ands] at h; cases h; exact Or.inl hr
  | cons c cs ih =>
    intro best r w h hr
    simp only [ands] at h
    by_cases hf : eval C c = .rFalse
    · rw [if_pos hf] at h
      cases hc : cond C c (v, false) with
      | error e => rw [hc] at h; cases h
      | ok s =>
        rw [hc] at h
        simp only [bind, Except.bind] at h
        rcases ih _ _ w h hr with hb | ⟨d, hd, h1, h2⟩
        · cases hs : s.2 with
          | true => rw [hs] at hb; exact Or.inl hb
          | false =>
            rw [hs] at hb
            simp only [Bool.false_eq_true, if_false] at hb
            have : better C s.1 best = some s.1 ∨ better C s.1 best = best := by
              unfold better
              cases best with
              | none => exact Or.inl rfl
              | some b =>
                simp only
                split
                · exact Or.inl rfl
                · split
                  · exact Or.inl rfl
                  · exact Or.inr rfl
            rcases this with h3 | h3
            · rw [h3] at hb
              obtain rfl := Option.some.inj hb
              exact Or.inr ⟨c, by simp, hf, by rw [hc, ← hs]⟩
            · rw [h3] at hb; exact Or.inl hb
        · exact Or.inr ⟨d, by simp [hd], h1, h2⟩
    · rw [if_neg hf] at h
      rcases ih _ _ w h hr with hb | ⟨d, hd, h1, h2⟩
      · exact Or.inl hb
      · exact Or.inr ⟨d, by simp [hd], h1, h2⟩

/-- The ranges computed for a query false in the marking exclude the query. -/
theorem cond_spec (E : Env C n) (c : Cond) : ∀ (acc : Nat → Bool) (v : PRVec) (r : PRVec × Bool), QOK n c → rcSafe acc c = true →
    RI C n v → (∀ p, acc p = false → rng v p = {}) → goalI (C.net.deadlocked C.base) C.base c = false →
    cond C c (v, false) = .ok r → r.2 = false →
    Upd C n (fun p => condUse p c) v r.1 ∧ ∀ m, SatI r.1 m → goalI (C.net.deadlocked m) m c = false := by
  induction c using Cond.ind with
  | dead =>
    intro acc v r _ _ h _ hf hr hd
    simp only [cond, Except.ok.injEq] at hr; subst hr
    obtain ⟨_, h2, h3⟩ := dead_spec E.usesPre E.preLt E.dl h hf hd
    exact ⟨h2, h3⟩
  | cmp op a b =>
    intro acc v r hq _ h _ hf hr hd
    have hlit : a.placeFree = true → a.val C.base < rmax := fun hp => by
      rw [val_placeFree C.base (fun _ => 0) a hp]; exact hq.2 hp
    cases op with
    | eq => simp only [cond, Except.ok.injEq] at hr; subst hr; cases hd
    | ne => simp only [cond, Except.ok.injEq] at hr; subst hr; cases hd
    | lt =>
      simp only [cond, Except.ok.injEq] at hr; subst hr
      simp only [goalI, PQL.compare, evalExpr_eq, decide_eq_false_iff_not, Int.not_lt] at hf ⊢
      obtain ⟨_, h2, h3⟩ := cmp_spec E.base (strict := true) h hq.1 hlit (by simpa using hf) hd
      exact ⟨h2, fun m hm => by simpa using h3 m hm⟩
    | le =>
      simp only [cond, Except.ok.injEq] at hr; subst hr
      simp only [goalI, PQL.compare, evalExpr_eq, decide_eq_false_iff_not, Int.not_le] at hf ⊢
      obtain ⟨_, h2, h3⟩ := cmp_spec E.base (strict := false) h hq.1 hlit (by simpa using hf) hd
      exact ⟨h2, fun m hm => by simpa using h3 m hm⟩
  | cc l neg =>
    intro acc v r hq hs h ha hf hr hd
    simp only [cond, Except.ok.injEq] at hr; subst hr
    simp only [rcSafe, Bool.and_eq_true, List.all_eq_true, Bool.not_eq_true', Bool.or_eq_true, decide_eq_true_eq] at hs
    obtain ⟨_, h2, h3⟩ := cc_spec (s := (v, false)) E.base h (fun c hc => ⟨(hq c hc).1, (hq c hc).2.1, (hq c hc).2.2, ha _ (hs.1 c hc)⟩)
      (fun hn => by rcases hs.2 with h | h
                    · rw [hn] at h; cases h
                    · exact h) hf hd
    exact ⟨h2, h3⟩
  | and cs ih =>
    intro acc v r hq hs h ha hf hr hd
    simp only [cond] at hr
    have hnt : ¬ eval C (.and cs) = .rTrue := by rw [eval_true E hq, hf]; decide
    rw [if_neg hnt] at hr
    cases hands : ands C cs v none with
    | error e => rw [hands] at hr; cases hr
    | ok o =>
      rw [hands] at hr
      simp only [bind, Except.bind] at hr
      cases o with
      | none => simp only [pure, Except.pure, Except.ok.injEq] at hr; subst hr; cases hd
      | some w =>
        simp only [pure, Except.pure, Except.ok.injEq] at hr; subst hr
        rcases ands_some cs none _ w hands rfl with hb | ⟨c, hc, hev, hcc⟩
        · cases hb
        · have hqc := QOKs_mem hq c hc
          obtain ⟨h1, h2⟩ := ih c hc acc v _ hqc (rcAll_mem hs c hc) h ha ((eval_false E hqc).1 hev) hcc rfl
          refine ⟨h1.mono (fun p hp => condsUse_mem hp c hc), fun m hm => ?_⟩
          simp only [goalI, goalAll_eq, List.all_eq_false]
          exact ⟨c, hc, by rw [h2 m hm]; decide⟩
  | or cs ih =>
    intro acc v r hq hs h ha hf hr hd
    simp only [cond] at hr
    simp only [goalI, goalAny_eq, List.any_eq_false, Bool.not_eq_true] at hf
    have key : ∀ (l : List Cond) (acc : Nat → Bool) (v : PRVec), (∀ c ∈ l, c ∈ cs) → rcSeq acc l = true → RI C n v →
        (∀ p, acc p = false → rng v p = {}) → ors C l (v, false) = .ok r →
        Upd C n (fun p => condsUse p l) v r.1 ∧ ∀ m, SatI r.1 m → ∀ c ∈ l, goalI (C.net.deadlocked m) m c = false := by
      intro l
      induction l with
      | nil =>
        intro acc v _ _ h _ hr
        simp only [ors, Except.ok.injEq] at hr; subst hr
        exact ⟨Upd.refl h, fun m _ c hc => by cases hc⟩
      | cons c l ihl =>
        intro acc v hsub hs h ha hr
        simp only [rcSeq, Bool.and_eq_true] at hs
        simp only [ors] at hr
        cases hc : cond C c (v, false) with
        | error e => rw [hc] at hr; cases hr
        | ok s =>
          rw [hc] at hr
          simp only [bind, Except.bind] at hr
          cases hs2 : s.2 with
          | true =>
            rw [hs2] at hr
            simp only [if_true, pure, Except.pure, Except.ok.injEq] at hr
            subst hr; rw [hs2] at hd; cases hd
          | false =>
            rw [hs2] at hr
            simp only [Bool.false_eq_true, if_false] at hr
            obtain ⟨h1, h2⟩ := ih c (hsub c (by simp)) acc v s (QOKs_mem hq c (hsub c (by simp))) hs.1 h ha (hf c (hsub c (by simp))) hc hs2
            have hseq : s = (s.1, false) := by rw [← hs2]
            rw [hseq] at hr
            obtain ⟨h3, h4⟩ := ihl _ s.1 (fun d hd => hsub d (by simp [hd])) hs.2 h1.ri (fun p hp => by
              simp only [Bool.or_eq_false_iff] at hp
              rw [h1.frame p hp.2, ha p hp.1]) hr
            refine ⟨h1.trans h3 (fun p hp => by simpa only [condsUse, Bool.or_eq_false_iff] using hp), fun m hm d hd => ?_⟩
            rcases List.mem_cons.1 hd with rfl | hd
            · exact h2 m (h3.ref.sat h1.ri.good hm)
            · exact h4 m hm d hd
    obtain ⟨h1, h2⟩ := key cs acc v (fun c hc => hc) hs h ha hr
    refine ⟨h1, fun m hm => ?_⟩
    simp only [goalI, goalAny_eq, List.any_eq_false, Bool.not_eq_true]
    exact h2 m hm
  | _ => intro acc v r hq; exact hq.elim

/-! ## Without dirty places -/

/-- The context with no dirty place. -/
def clean (C : RCtx) : RCtx := { C with dirty := fun _ => false }

theorem ids_clean (lt : Bool) : ∀ (is : List Nat) (s : PRVec × Bool), (ids C.clean lt is s).2 = s.2 := by
  intro is
  induction is with
  | nil => intro s; rfl
  | cons p is ih =>
    intro s
    simp only [ids]
    rw [if_neg (by simp [clean]), ih]

theorem expr_clean (lt : Bool) (e : Expr) : ∀ (limit : Int) (s s' : PRVec × Bool), (expr C lt limit e s).2 = false → s'.2 = false →
    (expr C.clean lt limit e s').2 = false := by
  induction e using Expr.ind with
  | lit v => intro limit s s' _ h; exact h
  | id p =>
    intro limit s s' _ h
    simp only [expr]
    rw [if_neg (by simp [clean])]
    exact h
  | plus k is es ih =>
    intro limit s s' h h'
    simp only [expr] at h ⊢
    rw [if_neg (by simp [clean])]
    by_cases hany : (is.any fun p => C.dirty p) = true
    · rw [if_pos hany, ids_dirty lt is s hany] at h; cases h
    · rw [if_neg hany] at h
      have key : ∀ (l : List Expr), (∀ e ∈ l, e ∈ es) → ∀ s s' : PRVec × Bool, (exprs C lt l s).2 = false → s'.2 = false →
          (exprs C.clean lt l s').2 = false := by
        intro l
        induction l with
        | nil => intro _ s s' _ h'; exact h'
        | cons e l ihl =>
          intro hsub s s' h h'
          simp only [exprs] at h ⊢
          have he : evalExpr C.clean.base e = evalExpr C.base e := rfl
          rw [he]
          cases hd : (expr C lt (evalExpr C.base e) e s).2 with
          | true => rw [hd] at h; simp only [if_true] at h; rw [hd] at h; cases h
          | false =>
            rw [hd] at h
            simp only [Bool.false_eq_true, if_false] at h
            have h1 := ih e (hsub e (by simp)) (evalExpr C.base e) s s' hd h'
            rw [h1]
            simp only [Bool.false_eq_true, if_false]
            exact ihl (fun e he => hsub e (by simp [he])) _ _ h h1
      exact key es (fun e he => he) _ _ h (by rw [ids_clean]; exact h')
  | mul k is es _ => intro limit s s' h; simp [expr] at h
  | sub e es _ _ => intro limit s s' h; simp [expr] at h
  | minus e _ => intro limit s s' h; simp [expr] at h

theorem cmp_clean {a b : Expr} {strict : Bool} {s s' : PRVec × Bool} (h : (cmp C a b strict s).2 = false) (h' : s'.2 = false) :
    (cmp C.clean a b strict s').2 = false := by
  unfold cmp at h ⊢
  simp only [show C.clean.base = C.base from rfl] at h ⊢
  split
  · rename_i hr
    rw [if_pos hr] at h
    exact expr_clean false a _ s s' h h'
  · rename_i hr
    rw [if_neg hr] at h
    split
    · rename_i hl
      rw [if_pos hl] at h
      exact expr_clean true b _ s s' h h'
    · rename_i hl
      rw [if_neg hl] at h
      refine expr_clean true b _ _ _ h ?_
      refine expr_clean false a _ s s' ?_ h'
      cases hx : (expr C false (evalExpr C.base b + if strict then 0 else 1) a s).2 with
      | false => rfl
      | true => rw [expr_flag true b _ _ hx] at h; cases h

theorem ccPos_clean : ∀ (l : List Cons) (v : PRVec) (pr : PRange × Nat), (∀ c ∈ l, 0 < C.uses c.place) →
    (∃ c ∈ l, Viol C.base c) ∨ pr.2 ≠ 0 →
    (ccPos C.clean l v pr).2 = none ∨ ∃ pr', (ccPos C.clean l v pr).2 = some pr' ∧ pr'.2 ≠ 0 := by
  intro l
  induction l with
  | nil =>
    intro v pr _ h
    rcases h with ⟨c, hc, _⟩ | h
    · cases hc
    · exact Or.inr ⟨pr, rfl, h⟩
  | cons c l ih =>
    intro v pr hu h
    have huc := hu c (by simp)
    have ih' := fun v pr => ih v pr (fun c hc => hu c (by simp [hc]))
    have hpick : ∀ x : PRange, (if (!C.clean.dirty c.place && decide (pr.2 < C.clean.uses c.place)) = true then
        (x, C.clean.uses c.place) else pr).2 ≠ 0 := by
      intro x
      by_cases hc : (!C.clean.dirty c.place && decide (pr.2 < C.clean.uses c.place)) = true
      · rw [if_pos hc]; show C.uses c.place ≠ 0; omega
      · rw [if_neg hc]
        have hc' : ¬ pr.2 < C.uses c.place := fun h => hc (by rw [show C.clean.dirty c.place = false from rfl]; exact decide_eq_true h)
        omega
    simp only [ccPos]
    split
    · split
      · exact Or.inl rfl
      · exact ih' _ _ (Or.inr (hpick _))
    · split
      · split
        · exact Or.inl rfl
        · exact ih' _ _ (Or.inr (hpick _))
      · rename_i h1 h2
        refine ih' _ _ ?_
        rcases h with ⟨c', hc', hv⟩ | h
        · rcases List.mem_cons.1 hc' with rfl | hc'
          · exfalso
            have h1' : ¬ c'.lower > C.base c'.place := h1
            have h2' : ¬ c'.upper < C.base c'.place := h2
            unfold Viol at hv; omega
          · exact Or.inl ⟨c', hc', hv⟩
        · exact Or.inr h

theorem ccNeg_clean : ∀ (l : List Cons) (v : PRVec), (ccNeg C.clean l v).2 = false := by
  intro l
  induction l with
  | nil => intro v; rfl
  | cons c l ih =>
    intro v
    simp only [ccNeg]
    rw [if_neg (by simp [clean])]
    exact ih _

theorem deadCand_clean : ∀ (k t : Nat) (s : Nat × Nat × Bool), (deadCand C.clean k t s).2.2 = s.2.2 := by
  intro k
  induction k with
  | zero => intro t s; rfl
  | succ k ih =>
    intro t s
    have hd : ((C.clean.net.preset t).any fun i => C.clean.dirty i.place) = false := by simp [clean]
    simp only [deadCand, hd, Bool.or_false]
    split
    · rw [ih]
    · rw [ih]; split <;> rfl

theorem ok_of_flag {x : PRVec × Bool} (h : x.2 = false) : ∃ w, (Except.ok x : Except Err (PRVec × Bool)) = .ok (w, false) :=
  ⟨x.1, by rw [← h]⟩

theorem cond_total (c : Cond) : ∀ (C : RCtx) (n : Nat) (s : PRVec × Bool), QOK n c → ∃ r, cond C c s = .ok r := by
  induction c using Cond.ind with
  | dead => intro C n s _; exact ⟨_, rfl⟩
  | cmp op a b => intro C n s _; cases op <;> exact ⟨_, rfl⟩
  | cc l neg => intro C n s _; exact ⟨_, rfl⟩
  | and cs ih =>
    intro C n s hq
    have key : ∀ (l : List Cond), (∀ c ∈ l, c ∈ cs) → ∀ v best, ∃ r, ands C l v best = .ok r := by
      intro l
      induction l with
      | nil => intro _ v best; exact ⟨_, rfl⟩
      | cons c l ihl =>
        intro hsub v best
        simp only [ands]
        split
        · obtain ⟨r, hr⟩ := ih c (hsub c (by simp)) C n (v, false) (QOKs_mem hq c (hsub c (by simp)))
          rw [hr]
          exact ihl (fun d hd => hsub d (by simp [hd])) _ _
        · exact ihl (fun d hd => hsub d (by simp [hd])) _ _
    simp only [cond]
    split
    · exact ⟨_, rfl⟩
    · obtain ⟨r, hr⟩ := key cs (fun c hc => hc) s.1 none
      rw [hr]
      cases r <;> exact ⟨_, rfl⟩
  | or cs ih =>
    intro C n s hq
    have key : ∀ (l : List Cond), (∀ c ∈ l, c ∈ cs) → ∀ s, ∃ r, ors C l s = .ok r := by
      intro l
      induction l with
      | nil => intro _ s; exact ⟨_, rfl⟩
      | cons c l ihl =>
        intro hsub s
        simp only [ors]
        obtain ⟨r, hr⟩ := ih c (hsub c (by simp)) C n s (QOKs_mem hq c (hsub c (by simp)))
        rw [hr]
        simp only [bind, Except.bind]
        split
        · exact ⟨_, rfl⟩
        · exact ihl (fun d hd => hsub d (by simp [hd])) _
    exact key cs (fun c hc => hc) s
  | _ => intro C n s hq; exact hq.elim

theorem ands_keep {v : PRVec} : ∀ (cs : List Cond) (best : PRVec) (r : Option PRVec), ands C cs v (some best) = .ok r → ∃ w, r = some w := by
  intro cs
  induction cs with
  | nil => intro best r h; simp only [ands] at h; cases h; exact ⟨_, rfl⟩
  | cons c cs ih =>
    intro best r h
    simp only [ands] at h
    split at h
    · cases hc : cond C c (v, false) with
      | error e => rw [hc] at h; cases h
      | ok s =>
        rw [hc] at h
        simp only [bind, Except.bind] at h
        have hb : ∃ b, (if s.2 = true then some best else better C s.1 (some best)) = some b := by
          split
          · exact ⟨_, rfl⟩
          · unfold better
            simp only
            split
            · exact ⟨_, rfl⟩
            · split <;> exact ⟨_, rfl⟩
        obtain ⟨b, hb⟩ := hb
        rw [hb] at h
        exact ih _ _ h
    · exact ih _ _ h

theorem ands_found {v : PRVec} : ∀ (cs : List Cond) (best : Option PRVec) (r : Option PRVec), ands C cs v best = .ok r →
    (∃ c ∈ cs, eval C c = .rFalse ∧ ∃ w, cond C c (v, false) = .ok (w, false)) → ∃ w, r = some w := by
  intro cs
  induction cs with
  | nil => rintro best r _ ⟨c, hc, _⟩; cases hc
  | cons c cs ih =>
    rintro best r h ⟨d, hd, hev, w, hw⟩
    simp only [ands] at h
    rcases List.mem_cons.1 hd with rfl | hd
    · rw [if_pos hev, hw] at h
      simp only [bind, Except.bind, Bool.false_eq_true, if_false] at h
      have hb : ∃ b, better C w best = some b := by
        unfold better
        cases best with
        | none => exact ⟨_, rfl⟩
        | some b =>
          simp only
          split
          · exact ⟨_, rfl⟩
          · split <;> exact ⟨_, rfl⟩
      obtain ⟨b, hb⟩ := hb
      rw [hb] at h
      exact ands_keep cs b r h
    · split at h
      · cases hc : cond C c (v, false) with
        | error e => rw [hc] at h; cases h
        | ok s =>
          rw [hc] at h
          simp only [bind, Except.bind] at h
          exact ih _ _ h ⟨d, hd, hev, w, hw⟩
      · exact ih _ _ h ⟨d, hd, hev, w, hw⟩

/-- A query handled with some dirty places is handled with none. -/
theorem cond_clean (E : Env C n) (c : Cond) : ∀ (v w : PRVec) (r : PRVec × Bool), QOK n c →
    (∀ p, condUse p c = true → 0 < C.uses p) → goalI (C.net.deadlocked C.base) C.base c = false →
    cond C c (v, false) = .ok r → r.2 = false → ∃ w', cond C.clean c (w, false) = .ok (w', false) := by
  induction c using Cond.ind with
  | dead =>
    intro v w r _ _ _ hr hd
    simp only [cond]
    have : (dead C.clean (w, false)).2 = false := by
      unfold dead
      simp only [deadCand_clean]
      split <;> rfl
    exact ok_of_flag this
  | cmp op a b =>
    intro v w r _ _ _ hr hd
    cases op with
    | eq => simp only [cond, Except.ok.injEq] at hr; subst hr; cases hd
    | ne => simp only [cond, Except.ok.injEq] at hr; subst hr; cases hd
    | lt =>
      simp only [cond, Except.ok.injEq] at hr; subst hr
      have := cmp_clean (s' := (w, false)) hd rfl
      exact ok_of_flag this
    | le =>
      simp only [cond, Except.ok.injEq] at hr; subst hr
      have := cmp_clean (s' := (w, false)) hd rfl
      exact ok_of_flag this
  | cc l neg =>
    intro v w r hq hu hf hr hd
    have : (cc C.clean l neg (w, false)).2 = false := by
      unfold cc
      cases neg with
      | true => simp [ccNeg_clean]
      | false =>
        simp only [Bool.false_eq_true, if_false]
        have hv : ∃ c ∈ l, Viol C.base c := by
          rw [← consI_false (fun c hc => (hq c hc).2.2)]
          simpa [goalI] using hf
        have := ccPos_clean (C := C) l w (⟨rmax, {}⟩, 0) (fun c hc => hu c.place (by simp only [condUse, List.any_eq_true]; exact ⟨c, hc, by simp⟩)) (Or.inl hv)
        rcases hx : ccPos C.clean l w (⟨rmax, {}⟩, 0) with ⟨v', o⟩
        rw [hx] at this
        rcases this with h | ⟨pr, h, h0⟩
        · simp only at h; subst h; rfl
        · simp only at h; subst h
          simp only
          rw [if_neg h0]
    exact ok_of_flag this
  | and cs ih =>
    intro v w r hq hu hf hr hd
    have hnt : ¬ eval C (.and cs) = .rTrue := by rw [eval_true E hq, hf]; decide
    simp only [cond] at hr ⊢
    rw [if_neg hnt] at hr
    rw [if_neg (show ¬ eval C.clean (.and cs) = .rTrue from hnt)]
    cases hands : ands C cs v none with
    | error e => rw [hands] at hr; cases hr
    | ok o =>
      rw [hands] at hr
      simp only [bind, Except.bind] at hr
      cases o with
      | none => simp only [pure, Except.pure, Except.ok.injEq] at hr; subst hr; cases hd
      | some x =>
        rcases ands_some cs none _ x hands rfl with hb | ⟨c, hc, hev, hcc⟩
        · cases hb
        · have hqc := QOKs_mem hq c hc
          have huc : ∀ p, condUse p c = true → 0 < C.uses p := by
            intro p hp
            refine hu p ?_
            cases hx : condUse p (.and cs) with
            | true => rfl
            | false => rw [condsUse_mem hx c hc] at hp; cases hp
          obtain ⟨w', hw'⟩ := ih c hc v w _ hqc huc ((eval_false E hqc).1 hev) hcc rfl
          obtain ⟨r', hr'⟩ := cond_total (.and cs) C.clean n (w, false) hq
          simp only [cond] at hr'
          rw [if_neg (show ¬ eval C.clean (.and cs) = .rTrue from hnt)] at hr'
          cases hands' : ands C.clean cs w none with
          | error e => rw [hands'] at hr'; cases hr'
          | ok o' =>
            obtain ⟨y, rfl⟩ := ands_found cs none o' hands' ⟨c, hc, hev, w', hw'⟩
            exact ⟨y, rfl⟩
  | or cs ih =>
    intro v w r hq hu hf hr hd
    simp only [cond] at hr ⊢
    simp only [goalI, goalAny_eq, List.any_eq_false, Bool.not_eq_true] at hf
    have key : ∀ (l : List Cond), (∀ c ∈ l, c ∈ cs) → ∀ v w : PRVec, ors C l (v, false) = .ok r → ∃ w', ors C.clean l (w, false) = .ok (w', false) := by
      intro l
      induction l with
      | nil => intro _ v w _; exact ⟨w, rfl⟩
      | cons c l ihl =>
        intro hsub v w hr
        simp only [ors] at hr ⊢
        have hcm := hsub c (by simp)
        have huc : ∀ p, condUse p c = true → 0 < C.uses p := by
          intro p hp
          refine hu p ?_
          cases hx : condUse p (.or cs) with
          | true => rfl
          | false => rw [condsUse_mem hx c hcm] at hp; cases hp
        cases hc : cond C c (v, false) with
        | error e => rw [hc] at hr; cases hr
        | ok s =>
          rw [hc] at hr
          simp only [bind, Except.bind] at hr
          cases hs2 : s.2 with
          | true =>
            rw [hs2] at hr
            simp only [if_true, pure, Except.pure, Except.ok.injEq] at hr
            subst hr; rw [hs2] at hd; cases hd
          | false =>
            rw [hs2] at hr
            simp only [Bool.false_eq_true, if_false] at hr
            obtain ⟨w1, hw1⟩ := ih c hcm v w s (QOKs_mem hq c hcm) huc (hf c hcm) hc hs2
            rw [hw1]
            simp only [bind, Except.bind, Bool.false_eq_true, if_false]
            have hseq : s = (s.1, false) := by rw [← hs2]
            rw [hseq] at hr
            exact ihl (fun d hd => hsub d (by simp [hd])) s.1 w1 hr
    exact key cs (fun c hc => hc) v w hr
  | _ => intro v w r hq; exact hq.elim

end RCtx
end TAR
end Verif
