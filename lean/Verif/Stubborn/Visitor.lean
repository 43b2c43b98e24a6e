import Verif.Stubborn.Lemmas
import Verif.PQL.EvalLemmas
import Verif.Net.FlatLemmas

/-!
# What the visitors guarantee

`Keeps m M' s` says how `M'` can differ from `m` when only transitions outside the set have been fired
in between.  Each visitor is shown to add enough for the expression or condition not to change in the
direction it was called for.
-/

namespace Verif
namespace Stubborn
open PQL

/-- What the bits of `_places_seen` guarantee. -/
structure Keeps (m M' : Nat → Nat) (s : Stub) : Prop where
  pre : ∀ p, s.seenPre p = true → M' p ≤ m p
  post : ∀ p, s.seenPost p = true → m p ≤ M' p

theorem Keeps.mono {m M' : Nat → Nat} {s s' : Stub} (h : Le s s') (hk : Keeps m M' s') : Keeps m M' s :=
  ⟨fun p hp => hk.pre p (h.pre p hp), fun p hp => hk.post p (h.post p hp)⟩

theorem keeps_of_run {N : FlatNet} (hd : N.DirOK) {m M' : Nat → Nat} {en : Nat → Bool} {X : Nat → Prop} {s : Stub}
    (hi : Inv N m en X s) {S : Nat → Prop} (hS : ∀ t, s.stub t = true → S t)
    {us : List (Fin N.ntransitions)} (hr : N.toNet.Run m us M') (hus : ∀ u ∈ us, ¬ S u) : Keeps m M' s := by
  refine ⟨fun p hp => ?_, fun p hp => ?_⟩
  · exact run_le (S := fun u : Fin N.ntransitions => S u) hr hus fun u hu => hS _ (hi.pre p hp _ (mem_preT hd u p hu))
  · refine run_ge (S := fun u : Fin N.ntransitions => S u) hr hus fun u hu => ?_
    obtain ⟨d, hd0, hdm⟩ := mem_postT_decr hd u p hu
    exact hS _ (hi.post p hp _ hdm hd0)

/-! ### Growth -/

theorem closeEnabled_le {N : FlatNet} (t : Nat) (s : Stub) : Le s (closeEnabled N t s) :=
  (closeEnabled_ext (N := N) (m := fun _ => 0) (en := fun _ => false) (X := fun _ => False) t s).1.le

theorem closureLoop_le {N : FlatNet} {m : Nat → Nat} {en : Nat → Bool} : ∀ (n : Nat) (s : Stub),
    Le s (closureLoop N m en n s)
  | 0, s => .refl s
  | n + 1, s => by
    unfold closureLoop
    cases hu : s.unproc with
    | nil => exact .refl s
    | cons t rest =>
      simp only
      have h1 : Le { s with unproc := rest } (closeStep N m en t { s with unproc := rest }) := by
        unfold closeStep
        split
        · exact closeEnabled_le _ _
        · exact (closeDisabled_ext (N := N) (m := m) (en := en) (X := fun _ => False) t _).1.le
      have h2 := closureLoop_le (N := N) (m := m) (en := en) n (closeStep N m en t { s with unproc := rest })
      have h3 := h1.trans h2
      exact ⟨h3.stub, h3.pre, h3.post, h3.inh⟩

namespace Cx
variable {C : Cx}

/-- The set grows and the invariant is kept. -/
abbrev ExtC (C : Cx) (s s' : Stub) : Prop := Ext C.N C.m C.en (fun _ => False) s s'

variable (hen : EnOK C.N C.m C.en)
include hen

theorem finish_ext (s : Stub) : ExtC C s (C.finish s) := by
  unfold finish
  split
  · exact ⟨closureLoop_le _ _, fun hi => (closure_done hen s hi).2.1⟩
  · exact .refl s

theorem pre_ext (p : Nat) (s : Stub) : ExtC C s (C.pre p s) ∧ (C.pre p s).seenPre p = true := by
  unfold pre
  cases hs : s.seenPre p with
  | true => simp only [if_true]; exact ⟨.refl s, hs⟩
  | false =>
    simp only [Bool.false_eq_true, if_false]
    have h1 := presetOf_ext (N := C.N) (m := C.m) (en := C.en) (X := fun _ => False) p s
    have h2 := finish_ext hen (presetOf C.N p s)
    exact ⟨h1.1.trans h2, h2.le.pre p h1.2⟩

theorem post_ext (p : Nat) (s : Stub) : ExtC C s (C.post p s) ∧ (C.post p s).seenPost p = true := by
  unfold post
  cases hs : s.seenPost p with
  | true => simp only [if_true]; exact ⟨.refl s, hs⟩
  | false =>
    simp only [Bool.false_eq_true, if_false]
    have h1 := postsetOf_ext (N := C.N) (m := C.m) (en := C.en) (X := fun _ => False) p s
    have h2 := finish_ext hen (postsetOf C.N p s)
    exact ⟨h1.1.trans h2, h2.le.post p h1.2⟩

/-- Visiting a list of places. -/
theorem pres_ext (ids : List Nat) (s : Stub) : ExtC C s (ids.foldl (fun s p => C.pre p s) s) ∧
    ∀ p ∈ ids, (ids.foldl (fun s p => C.pre p s) s).seenPre p = true := by
  induction ids generalizing s with
  | nil => exact ⟨.refl s, by simp⟩
  | cons p ids ih =>
    have h1 := pre_ext hen p s
    have h2 := ih (C.pre p s)
    refine ⟨h1.1.trans h2.1, fun q hq => ?_⟩
    rcases List.mem_cons.1 hq with rfl | hq
    · exact h2.1.le.pre _ h1.2
    · exact h2.2 q hq

theorem posts_ext (ids : List Nat) (s : Stub) : ExtC C s (ids.foldl (fun s p => C.post p s) s) ∧
    ∀ p ∈ ids, (ids.foldl (fun s p => C.post p s) s).seenPost p = true := by
  induction ids generalizing s with
  | nil => exact ⟨.refl s, by simp⟩
  | cons p ids ih =>
    have h1 := post_ext hen p s
    have h2 := ih (C.post p s)
    refine ⟨h1.1.trans h2.1, fun q hq => ?_⟩
    rcases List.mem_cons.1 hq with rfl | hq
    · exact h2.1.le.post _ h1.2
    · exact h2.2 q hq

theorem boths_ext (ids : List Nat) (s : Stub) : ExtC C s (ids.foldl (fun s p => C.post p (C.pre p s)) s) ∧
    ∀ p ∈ ids, (ids.foldl (fun s p => C.post p (C.pre p s)) s).seenPre p = true ∧
      (ids.foldl (fun s p => C.post p (C.pre p s)) s).seenPost p = true := by
  induction ids generalizing s with
  | nil => exact ⟨.refl s, by simp⟩
  | cons p ids ih =>
    have h1 := pre_ext hen p s
    have h1' := post_ext hen p (C.pre p s)
    have h2 := ih (C.post p (C.pre p s))
    refine ⟨(h1.1.trans h1'.1).trans h2.1, fun q hq => ?_⟩
    rcases List.mem_cons.1 hq with rfl | hq
    · exact ⟨h2.1.le.pre _ (h1'.1.le.pre _ h1.2), h2.1.le.post _ h1'.2⟩
    · exact h2.2 q hq

/-! ### Expressions -/

omit hen in
theorem exprs_ext (es : List Expr) (h : ∀ e ∈ es, ∀ s, ExtC C s (C.incr e s) ∧ ExtC C s (C.decr e s)) (s : Stub) :
    ExtC C s (C.incrAll es s) ∧ ExtC C s (C.decrAll es s) ∧ ExtC C s (C.bothAll es s) := by
  induction es generalizing s with
  | nil => simp only [incrAll, decrAll, bothAll]; exact ⟨.refl s, .refl s, .refl s⟩
  | cons e es ih =>
    have h0 := h e (List.mem_cons_self ..)
    have h' := ih fun x hx => h x (List.mem_cons_of_mem _ hx)
    simp only [incrAll, decrAll, bothAll]
    exact ⟨(h0 s).1.trans (h' _).1, (h0 s).2.trans (h' _).2.1, ((h0 s).1.trans (h0 _).2).trans (h' _).2.2⟩

theorem expr_ext (e : Expr) : ∀ s, ExtC C s (C.incr e s) ∧ ExtC C s (C.decr e s) := by
  induction e using Expr.ind with
  | lit v => intro s; simp only [incr, decr]; exact ⟨.refl s, .refl s⟩
  | id p => intro s; simp only [incr, decr]; exact ⟨(pre_ext hen p s).1, (post_ext hen p s).1⟩
  | plus k ids es ih =>
    intro s; simp only [incr, decr]
    exact ⟨(pres_ext hen ids s).1.trans (exprs_ext es ih _).1,
      (posts_ext hen ids s).1.trans (exprs_ext es ih _).2.1⟩
  | mul k ids es ih =>
    intro s; simp only [incr, decr]
    split
    · exact ⟨(pres_ext hen ids s).1.trans (exprs_ext es ih _).1,
        (posts_ext hen ids s).1.trans (exprs_ext es ih _).2.1⟩
    · exact ⟨(boths_ext hen ids s).1.trans (exprs_ext es ih _).2.2,
        (boths_ext hen ids s).1.trans (exprs_ext es ih _).2.2⟩
  | sub e es h ih =>
    intro s; simp only [incr, decr]
    exact ⟨(h s).1.trans (exprs_ext es ih _).2.1, (h s).2.trans (exprs_ext es ih _).1⟩
  | minus e _ => intro s; simp only [incr, decr]; exact ⟨.refl s, .refl s⟩

theorem incr_ext (e : Expr) (s : Stub) : ExtC C s (C.incr e s) := (expr_ext hen e s).1
theorem decr_ext (e : Expr) (s : Stub) : ExtC C s (C.decr e s) := (expr_ext hen e s).2

end Cx

mutual
/-- Specification: the expressions the visitors treat correctly: the only operand of a product is not
multiplied by a negative number, and `-e` occurs only without places in `e`. -/
def tame : Expr → Bool
  | .lit _ => true
  | .id _ => true
  | .plus _ _ es => tameAll es
  | .mul k ids es => (decide (0 ≤ k) || decide (ids.length + es.length ≠ 1)) && tameAll es
  | .sub e es => tame e && tameAll es
  | .minus e => e.placeFree
def tameAll : List Expr → Bool
  | [] => true
  | e :: es => tame e && tameAll es
end

theorem tameAll_eq (es : List Expr) : tameAll es = es.all tame := by
  induction es with
  | nil => rfl
  | cons e es ih => simp [tameAll, ih]

theorem sum_le {α : Type} (l : List α) (f g : α → Int) (h : ∀ a ∈ l, f a ≤ g a) : (l.map f).sum ≤ (l.map g).sum := by
  induction l with
  | nil => simp
  | cons a l ih =>
    simp only [List.map_cons, List.sum_cons]
    have := h a (List.mem_cons_self ..)
    have := ih fun x hx => h x (List.mem_cons_of_mem _ hx)
    omega

namespace Cx
variable {C : Cx} (hen : EnOK C.N C.m C.en) {M' : Nat → Nat}

/-- What the two visitors guarantee for one expression. -/
def ExprOK (C : Cx) (M' : Nat → Nat) (e : Expr) : Prop :=
  (∀ s, Keeps C.m M' (C.incr e s) → e.val M' ≤ e.val C.m) ∧ (∀ s, Keeps C.m M' (C.decr e s) → e.val C.m ≤ e.val M')

include hen

theorem exprs_ok (es : List Expr) (h : ∀ e ∈ es, ExprOK C M' e) (s : Stub) :
    (Keeps C.m M' (C.incrAll es s) → ∀ e ∈ es, e.val M' ≤ e.val C.m) ∧
    (Keeps C.m M' (C.decrAll es s) → ∀ e ∈ es, e.val C.m ≤ e.val M') ∧
    (Keeps C.m M' (C.bothAll es s) → ∀ e ∈ es, e.val C.m = e.val M') := by
  induction es generalizing s with
  | nil => simp
  | cons e es ih =>
    have h0 := h e (List.mem_cons_self ..)
    have h' := ih fun x hx => h x (List.mem_cons_of_mem _ hx)
    have hx := fun s => exprs_ext es (fun e _ => expr_ext hen e) s
    simp only [incrAll, decrAll, bothAll]
    refine ⟨fun hk x hxm => ?_, fun hk x hxm => ?_, fun hk x hxm => ?_⟩
    · rcases List.mem_cons.1 hxm with rfl | hxm
      · exact h0.1 s (hk.mono (hx _).1.le)
      · exact (h' _).1 hk x hxm
    · rcases List.mem_cons.1 hxm with rfl | hxm
      · exact h0.2 s (hk.mono (hx _).2.1.le)
      · exact (h' _).2.1 hk x hxm
    · rcases List.mem_cons.1 hxm with rfl | hxm
      · have hk' := hk.mono (hx _).2.2.le
        have h1 := h0.1 s (hk'.mono (decr_ext hen _ _).le)
        have h2 := h0.2 _ hk'
        omega
      · exact (h' _).2.2 hk x hxm

theorem expr_ok (e : Expr) (ht : tame e = true) : ExprOK C M' e := by
  induction e using Expr.ind with
  | lit v => exact ⟨fun _ _ => Int.le_refl _, fun _ _ => Int.le_refl _⟩
  | id p =>
    refine ⟨fun s hk => ?_, fun s hk => ?_⟩
    · simp only [incr] at hk; simp only [Expr.val]
      exact_mod_cast hk.pre p (pre_ext hen p s).2
    · simp only [decr] at hk; simp only [Expr.val]
      exact_mod_cast hk.post p (post_ext hen p s).2
  | plus k ids es ih =>
    simp only [tame, tameAll_eq, List.all_eq_true] at ht
    have hes := fun s => exprs_ok hen es (fun e he => ih e he (ht e he)) s
    have hx := fun s => exprs_ext es (fun e _ => expr_ext hen e) s
    refine ⟨fun s hk => ?_, fun s hk => ?_⟩
    · simp only [incr] at hk
      have h1 := (hes _).1 hk
      have h2 := fun p hp => (hk.mono (hx _).1.le).pre p ((pres_ext hen ids s).2 p hp)
      simp only [Expr.val, vals_eq]
      have h3 := sum_le es _ _ h1
      have h4 := sum_le ids (fun p => (M' p : Int)) (fun p => (C.m p : Int)) (fun p hp => by exact_mod_cast h2 p hp)
      omega
    · simp only [decr] at hk
      have h1 := (hes _).2.1 hk
      have h2 := fun p hp => (hk.mono (hx _).2.1.le).post p ((posts_ext hen ids s).2 p hp)
      simp only [Expr.val, vals_eq]
      have h3 := sum_le es _ _ h1
      have h4 := sum_le ids (fun p => (C.m p : Int)) (fun p => (M' p : Int)) (fun p hp => by exact_mod_cast h2 p hp)
      omega
  | mul k ids es ih =>
    simp only [tame, tameAll_eq, List.all_eq_true, Bool.and_eq_true, Bool.or_eq_true, decide_eq_true_eq] at ht
    obtain ⟨hk0, ht⟩ := ht
    have hes := fun s => exprs_ok hen es (fun e he => ih e he (ht e he)) s
    have hx := fun s => exprs_ext es (fun e _ => expr_ext hen e) s
    have hboth : ∀ s, Keeps C.m M' (C.bothAll es (ids.foldl (fun s p => C.post p (C.pre p s)) s)) →
        (Expr.mul k ids es).val M' = (Expr.mul k ids es).val C.m := by
      intro s hk
      have h1 := (hes _).2.2 hk
      have h2 := fun p hp => (hk.mono (hx _).2.2.le).pre p ((boths_ext hen ids s).2 p hp).1
      have h3 := fun p hp => (hk.mono (hx _).2.2.le).post p ((boths_ext hen ids s).2 p hp).2
      simp only [Expr.val, vals_eq]
      rw [List.map_congr_left (g := fun p => (C.m p : Int)) (fun p hp => by
        have := h2 p hp; have := h3 p hp; omega), List.map_congr_left (fun e he => (h1 e he).symm)]
    by_cases hone : ids.length + es.length = 1
    · have hkn : 0 ≤ k := by
        rcases hk0 with h | h
        · exact h
        · exact (h hone).elim
      have hcase : (∃ p, ids = [p] ∧ es = []) ∨ (∃ e, ids = [] ∧ es = [e]) := by
        rcases ids with _ | ⟨p, ids⟩
        · right
          rcases es with _ | ⟨e, es⟩
          · simp at hone
          · simp at hone; exact ⟨e, rfl, by rw [hone]⟩
        · left
          simp at hone
          have h1 : ids = [] := List.length_eq_zero_iff.1 (by omega)
          have h2 : es = [] := List.length_eq_zero_iff.1 (by omega)
          exact ⟨p, by rw [h1], h2⟩
      refine ⟨fun s hk => ?_, fun s hk => ?_⟩
      · simp only [incr, if_pos hone] at hk
        rcases hcase with ⟨p, rfl, rfl⟩ | ⟨e, rfl, rfl⟩
        · have h2 := (hk.mono (hx _).1.le).pre p ((pres_ext hen [p] s).2 p (by simp))
          simp only [Expr.val, vals, List.map_cons, List.map_nil, List.prod_cons, List.prod_nil, Int.mul_one]
          exact Int.mul_le_mul_of_nonneg_left (by exact_mod_cast h2) hkn
        · have h1 := (hes _).1 hk e (by simp)
          simp only [Expr.val, vals, List.map_nil, List.prod_cons, List.prod_nil, Int.mul_one]
          exact Int.mul_le_mul_of_nonneg_left h1 hkn
      · simp only [decr, if_pos hone] at hk
        rcases hcase with ⟨p, rfl, rfl⟩ | ⟨e, rfl, rfl⟩
        · have h2 := (hk.mono (hx _).2.1.le).post p ((posts_ext hen [p] s).2 p (by simp))
          simp only [Expr.val, vals, List.map_cons, List.map_nil, List.prod_cons, List.prod_nil, Int.mul_one]
          exact Int.mul_le_mul_of_nonneg_left (by exact_mod_cast h2) hkn
        · have h1 := (hes _).2.1 hk e (by simp)
          simp only [Expr.val, vals, List.map_nil, List.prod_cons, List.prod_nil, Int.mul_one]
          exact Int.mul_le_mul_of_nonneg_left h1 hkn
    · refine ⟨fun s hk => ?_, fun s hk => ?_⟩
      · simp only [incr, if_neg hone] at hk; exact Int.le_of_eq (hboth s hk)
      · simp only [decr, if_neg hone] at hk; exact Int.le_of_eq (hboth s hk).symm
  | sub e es h ih =>
    simp only [tame, tameAll_eq, List.all_eq_true, Bool.and_eq_true] at ht
    have h := h ht.1
    have hes := fun s => exprs_ok hen es (fun e he => ih e he (ht.2 e he)) s
    have hx := fun s => exprs_ext es (fun e _ => expr_ext hen e) s
    refine ⟨fun s hk => ?_, fun s hk => ?_⟩
    · simp only [incr] at hk
      have h1 := (hes _).2.1 hk
      have h2 := h.1 s (hk.mono (hx _).2.1.le)
      simp only [Expr.val, vals_eq]
      have h3 := sum_le es _ _ h1
      omega
    · simp only [decr] at hk
      have h1 := (hes _).1 hk
      have h2 := h.2 s (hk.mono (hx _).1.le)
      simp only [Expr.val, vals_eq]
      have h3 := sum_le es _ _ h1
      omega
  | minus e _ =>
    simp only [tame] at ht
    have := val_placeFree C.m M' e ht
    simp only [ExprOK, Expr.val, this]
    exact ⟨fun _ _ => Int.le_refl _, fun _ _ => Int.le_refl _⟩

theorem incr_ok {e : Expr} (ht : tame e = true) {s : Stub} (hk : Keeps C.m M' (C.incr e s)) : e.val M' ≤ e.val C.m :=
  (expr_ok hen e ht).1 s hk
theorem decr_ok {e : Expr} (ht : tame e = true) {s : Stub} (hk : Keeps C.m M' (C.decr e s)) : e.val C.m ≤ e.val M' :=
  (expr_ok hen e ht).2 s hk

/-! ### Comparisons -/

theorem wantEq_ext (a b : Int) (e1 e2 : Expr) (s : Stub) : ExtC C s (C.wantEq a b e1 e2 s) := by
  unfold wantEq
  split
  · exact .refl s
  · split
    · exact (decr_ext hen e1 s).trans (incr_ext hen e2 _)
    · exact (incr_ext hen e1 s).trans (decr_ext hen e2 _)

theorem wantNe_ext (a b : Int) (e1 e2 : Expr) (s : Stub) : ExtC C s (C.wantNe a b e1 e2 s) := by
  unfold wantNe
  split
  · exact .refl s
  · exact (((incr_ext hen e1 s).trans (decr_ext hen e1 _)).trans (incr_ext hen e2 _)).trans (decr_ext hen e2 _)

theorem visitCmp_ext (neg : Bool) (a b : Int) (op : Cmp) (e1 e2 : Expr) (s : Stub) :
    ExtC C s (C.visitCmp neg a b op e1 e2 s) := by
  cases op <;> cases neg <;> simp only [visitCmp]
  case lt.false => split; exact .refl s; exact (decr_ext hen e1 s).trans (incr_ext hen e2 _)
  case lt.true => split; exact .refl s; exact (incr_ext hen e1 s).trans (decr_ext hen e2 _)
  case le.false => split; exact .refl s; exact (decr_ext hen e1 s).trans (incr_ext hen e2 _)
  case le.true => split; exact .refl s; exact (incr_ext hen e1 s).trans (decr_ext hen e2 _)
  case eq.false => exact wantEq_ext hen a b e1 e2 s
  case eq.true => exact wantNe_ext hen a b e1 e2 s
  case ne.false => exact wantNe_ext hen a b e1 e2 s
  case ne.true => exact wantEq_ext hen a b e1 e2 s

theorem wantEq_ok {e1 e2 : Expr} (h1 : tame e1 = true) (h2 : tame e2 = true) (hne : e1.val C.m ≠ e2.val C.m) {s : Stub}
    (hk : Keeps C.m M' (C.wantEq (e1.val C.m) (e2.val C.m) e1 e2 s)) : e1.val M' ≠ e2.val M' := by
  unfold wantEq at hk
  rw [if_neg hne] at hk
  split at hk
  · have := incr_ok hen h2 hk
    have := decr_ok hen h1 (hk.mono (incr_ext hen _ _).le)
    omega
  · have := decr_ok hen h2 hk
    have := incr_ok hen h1 (hk.mono (decr_ext hen _ _).le)
    omega

theorem wantNe_ok {e1 e2 : Expr} (h1 : tame e1 = true) (h2 : tame e2 = true) (heq : e1.val C.m = e2.val C.m) {s : Stub}
    (hk : Keeps C.m M' (C.wantNe (e1.val C.m) (e2.val C.m) e1 e2 s)) : e1.val M' = e2.val M' := by
  unfold wantNe at hk
  rw [if_neg (by simpa using heq)] at hk
  have k2 := hk.mono (decr_ext hen _ _).le
  have k3 := k2.mono (incr_ext hen _ _).le
  have k4 := k3.mono (decr_ext hen _ _).le
  have := decr_ok hen h2 hk
  have := incr_ok hen h2 k2
  have := decr_ok hen h1 k3
  have := incr_ok hen h1 k4
  omega

theorem visitCmp_ok {op : Cmp} {e1 e2 : Expr} (h1 : tame e1 = true) (h2 : tame e2 = true) (neg : Bool)
    (hv : op.holds (e1.val C.m) (e2.val C.m) ↔ neg = true) {s : Stub}
    (hk : Keeps C.m M' (C.visitCmp neg (e1.val C.m) (e2.val C.m) op e1 e2 s)) :
    op.holds (e1.val M') (e2.val M') ↔ neg = true := by
  cases op <;> cases neg <;> simp only [visitCmp, Cmp.holds, Bool.false_eq_true, iff_false, iff_true] at hk hv ⊢
  case lt.false =>
    rw [if_neg hv] at hk
    have := incr_ok hen h2 hk
    have := decr_ok hen h1 (hk.mono (incr_ext hen _ _).le)
    omega
  case lt.true =>
    rw [if_neg (by omega)] at hk
    have := decr_ok hen h2 hk
    have := incr_ok hen h1 (hk.mono (decr_ext hen _ _).le)
    omega
  case le.false =>
    rw [if_neg hv] at hk
    have := incr_ok hen h2 hk
    have := decr_ok hen h1 (hk.mono (incr_ext hen _ _).le)
    omega
  case le.true =>
    rw [if_neg (by omega)] at hk
    have := decr_ok hen h2 hk
    have := incr_ok hen h1 (hk.mono (decr_ext hen _ _).le)
    omega
  case eq.false => exact wantEq_ok hen h1 h2 hv hk
  case eq.true => exact wantNe_ok hen h1 h2 hv hk
  case ne.false => simp only [ne_eq, Classical.not_not] at hv ⊢; exact wantNe_ok hen h1 h2 hv hk
  case ne.true => exact wantEq_ok hen h1 h2 hv hk

/-! ### Conjunctions of place constraints -/

theorem ccEnd_ext (k : Option (Nat × Bool)) (s : Stub) : ExtC C s (C.ccEnd k s) := by
  unfold ccEnd
  split
  · exact .refl s
  · exact (pre_ext hen _ s).1
  · exact (post_ext hen _ s).1

theorem ccPos_ext (l : List Cons) (k : Option (Nat × Bool)) (s : Stub) : ExtC C s (C.ccPos l k s) := by
  induction l generalizing k with
  | nil => exact ccEnd_ext hen k s
  | cons c cs ih =>
    simp only [ccPos]
    split
    · exact ih _
    · split
      · exact .refl s
      · exact ih _

theorem ccNegOne_ext (s : Stub) (c : Cons) : ExtC C s (C.ccNegOne s c) := by
  unfold ccNegOne
  split
  · split
    · exact .refl s
    · exact (post_ext hen _ s).1.trans (pre_ext hen _ _).1
  · dsimp only
    have h1 : ExtC C s (if C.m c.place ≥ c.lower ∧ c.lower ≠ 0 then C.post c.place s else s) := by
      split
      · exact (post_ext hen _ s).1
      · exact .refl s
    split
    · exact h1.trans (pre_ext hen _ _).1
    · exact h1

theorem visitCC_ext (neg : Bool) (l : List Cons) (s : Stub) : ExtC C s (C.visitCC neg l s) := by
  unfold visitCC
  split
  · exact foldl_ext _ l (fun s c _ => ccNegOne_ext hen s c) s
  · exact ccPos_ext hen l none s

omit hen in
/-- A candidate is a constraint of the conjunction that does not hold. -/
def CandOK (C : Cx) (L : List Cons) (k : Option (Nat × Bool)) : Prop :=
  ∀ p b, k = some (p, b) → ∃ c ∈ L, c.place = p ∧ (if b then C.m p < c.lower else c.upper < C.m p)

omit hen in
theorem ccCand_ok {L : List Cons} {c : Cons} (hc : c ∈ L) {k : Option (Nat × Bool)} (hk : CandOK C L k)
    (hw : C.m c.place < W32) :
    CandOK C L (C.ccCand c k).1 ∧ ((k ≠ none ∨ ¬ c.holds C.m) → (C.ccCand c k).1 ≠ none) := by
  unfold ccCand
  by_cases h1 : c.lower = c.upper
  · rw [if_pos h1]
    by_cases h2 : C.m c.place = c.lower
    · rw [if_pos h2]
      refine ⟨hk, fun h => h.elim id fun h => (h ⟨by omega, by omega⟩).elim⟩
    · rw [if_neg h2]
      by_cases h3 : C.m c.place > c.lower
      · rw [if_pos h3]
        refine ⟨fun p b hpb => ?_, by simp⟩
        simp only [Option.some.injEq, Prod.mk.injEq] at hpb
        obtain ⟨rfl, rfl⟩ := hpb
        exact ⟨c, hc, rfl, by simp only [Bool.false_eq_true, if_false]; omega⟩
      · rw [if_neg h3]
        refine ⟨fun p b hpb => ?_, by simp⟩
        simp only [Option.some.injEq, Prod.mk.injEq] at hpb
        obtain ⟨rfl, rfl⟩ := hpb
        exact ⟨c, hc, rfl, by simp only [if_true]; omega⟩
  · rw [if_neg h1]
    dsimp only
    by_cases h2 : C.m c.place < c.lower ∧ c.lower ≠ 0
    · rw [if_pos h2]
      by_cases h3 : C.m c.place > c.upper ∧ c.upper ≠ W32 - 1
      · rw [if_pos h3]
        refine ⟨fun p b hpb => ?_, by simp⟩
        simp only [Option.some.injEq, Prod.mk.injEq] at hpb
        obtain ⟨rfl, rfl⟩ := hpb
        exact ⟨c, hc, rfl, by simp only [Bool.false_eq_true, if_false]; exact h3.1⟩
      · rw [if_neg h3]
        refine ⟨fun p b hpb => ?_, by simp⟩
        simp only [Option.some.injEq, Prod.mk.injEq] at hpb
        obtain ⟨rfl, rfl⟩ := hpb
        exact ⟨c, hc, rfl, by simp only [if_true]; exact h2.1⟩
    · rw [if_neg h2]
      by_cases h3 : C.m c.place > c.upper ∧ c.upper ≠ W32 - 1
      · rw [if_pos h3]
        refine ⟨fun p b hpb => ?_, by simp⟩
        simp only [Option.some.injEq, Prod.mk.injEq] at hpb
        obtain ⟨rfl, rfl⟩ := hpb
        exact ⟨c, hc, rfl, by simp only [Bool.false_eq_true, if_false]; exact h3.1⟩
      · rw [if_neg h3]
        refine ⟨hk, fun h => h.elim id fun h => (h ⟨by omega, by omega⟩).elim⟩

omit hen in
theorem candOK_false {L : List Cons} {k : Option (Nat × Bool)} (hk : CandOK C L k) {s : Stub} (hs : ccSeen k s = true)
    (hK : Keeps C.m M' s) : ¬ ∀ c ∈ L, c.holds M' := by
  intro hall
  unfold ccSeen at hs
  split at hs
  · cases hs
  · rename_i p
    obtain ⟨c, hc, rfl, hv⟩ := hk p true rfl
    simp only [if_true] at hv
    have := hK.pre _ hs
    have := (hall c hc).1
    omega
  · rename_i p
    obtain ⟨c, hc, rfl, hv⟩ := hk p false rfl
    simp only [Bool.false_eq_true, if_false] at hv
    have := hK.post _ hs
    have := (hall c hc).2
    omega

theorem ccPos_ok (L : List Cons) : ∀ (l : List Cons) (k : Option (Nat × Bool)) (s : Stub), (∀ c ∈ l, c ∈ L) →
    (∀ c ∈ l, C.m c.place < W32) → CandOK C L k → (k ≠ none ∨ ∃ c ∈ l, ¬ c.holds C.m) →
    Keeps C.m M' (C.ccPos l k s) → ¬ ∀ c ∈ L, c.holds M'
  | [], k, s, _, _, hk, hne, hK => by
    simp only [ccPos] at hK
    have hne : k ≠ none := hne.elim id (by simp)
    rcases k with _ | ⟨p, b⟩
    · exact (hne rfl).elim
    · refine candOK_false hk ?_ hK
      cases b
      · exact (post_ext hen p s).2
      · exact (pre_ext hen p s).2
  | c :: l, k, s, hL, hw, hk, hne, hK => by
    have h := ccCand_ok (hL c (List.mem_cons_self ..)) hk (hw c (List.mem_cons_self ..))
    have hne' : (C.ccCand c k).1 ≠ none ∨ ∃ c ∈ l, ¬ c.holds C.m := by
      rcases hne with hne | ⟨d, hd, hv⟩
      · exact .inl (h.2 (.inl hne))
      · rcases List.mem_cons.1 hd with rfl | hd
        · exact .inl (h.2 (.inr hv))
        · exact .inr ⟨d, hd, hv⟩
    have ih := fun s => ccPos_ok L l (C.ccCand c k).1 s (fun d hd => hL d (List.mem_cons_of_mem _ hd))
      (fun d hd => hw d (List.mem_cons_of_mem _ hd)) h.1 hne'
    simp only [ccPos] at hK
    split at hK
    · exact ih s hK
    · split at hK
      · rename_i hs; exact candOK_false h.1 hs hK
      · exact ih s hK

theorem ccNegOne_ok {s : Stub} {c : Cons} (hc : c.holds C.m) (hw : M' c.place < W32)
    (hK : Keeps C.m M' (C.ccNegOne s c)) : c.holds M' := by
  unfold ccNegOne at hK
  obtain ⟨hl, hu⟩ := hc
  by_cases h1 : c.lower = c.upper
  · rw [if_pos h1, if_neg (by omega)] at hK
    have h2 := hK.pre c.place (pre_ext hen _ _).2
    have h3 := hK.post c.place ((pre_ext hen _ _).1.le.post _ (post_ext hen _ _).2)
    exact ⟨by omega, by omega⟩
  · rw [if_neg h1] at hK
    dsimp only at hK
    have h1 : c.lower = 0 ∨ (if C.m c.place ≥ c.lower ∧ c.lower ≠ 0 then C.post c.place s else s).seenPost c.place =
        true := by
      by_cases h0 : c.lower = 0
      · exact .inl h0
      · rw [if_pos ⟨hl, h0⟩]; exact .inr (post_ext hen _ _).2
    generalize (if C.m c.place ≥ c.lower ∧ c.lower ≠ 0 then C.post c.place s else s) = s1 at hK h1
    by_cases h0 : c.upper = W32 - 1
    · rw [if_neg fun h => h.2 h0] at hK
      refine ⟨?_, by omega⟩
      rcases h1 with h1 | h1
      · omega
      · have := hK.post _ h1
        omega
    · rw [if_pos ⟨hu, h0⟩] at hK
      have h2 := hK.pre c.place (pre_ext hen _ _).2
      refine ⟨?_, by omega⟩
      rcases h1 with h1 | h1
      · omega
      · have := hK.post _ ((pre_ext hen _ _).1.le.post _ h1)
        omega

theorem visitCC_ok (neg : Bool) (l : List Cons) (s : Stub) (hw : ∀ p, C.m p < W32) (hw' : ∀ p, M' p < W32)
    (hv : (∀ c ∈ l, c.holds C.m) ↔ neg = true) (hK : Keeps C.m M' (C.visitCC neg l s)) :
    (∀ c ∈ l, c.holds M') ↔ neg = true := by
  unfold visitCC at hK
  cases neg with
  | true =>
    simp only [if_true, iff_true] at hK hv ⊢
    induction l generalizing s with
    | nil => simp
    | cons c l ih =>
      rw [List.foldl_cons] at hK
      intro d hd
      rcases List.mem_cons.1 hd with rfl | hd
      · exact ccNegOne_ok hen (hv _ (List.mem_cons_self ..)) (hw' _)
          (hK.mono (foldl_ext _ l (fun s c _ => ccNegOne_ext hen s c) _).le)
      · exact ih _ hK (fun e he => hv e (List.mem_cons_of_mem _ he)) d hd
  | false =>
    simp only [Bool.false_eq_true, if_false, iff_false] at hK hv ⊢
    refine ccPos_ok hen l l none s (fun _ h => h) (fun c _ => hw _) (fun p b h => by cases h) (.inr ?_) hK
    exact Classical.byContradiction fun h => hv fun c hc => Classical.byContradiction fun h' => h ⟨c, hc, h'⟩

/-! ### Deadlock -/

theorem postPreset_ext (t : Nat) (s : Stub) : ExtC C s (C.postPreset t s) ∧
    ∀ i ∈ C.N.preset t, if i.inhibitor then (C.postPreset t s).seenPre i.place = true
      else (C.postPreset t s).seenPost i.place = true := by
  unfold postPreset
  have hstep : ∀ s (i : Invariant), ExtC C s (if i.inhibitor then C.pre i.place s else C.post i.place s) ∧
      (if i.inhibitor then (if i.inhibitor then C.pre i.place s else C.post i.place s).seenPre i.place = true
      else (if i.inhibitor then C.pre i.place s else C.post i.place s).seenPost i.place = true) := by
    intro s i
    cases i.inhibitor
    · exact post_ext hen i.place s
    · exact pre_ext hen i.place s
  induction C.N.preset t generalizing s with
  | nil => exact ⟨.refl s, by simp⟩
  | cons i l ih =>
    rw [List.foldl_cons]
    have h1 := hstep s i
    generalize (if i.inhibitor then C.pre i.place s else C.post i.place s) = s1 at h1
    have h2 := ih s1
    refine ⟨h1.1.trans h2.1, fun j hj => ?_⟩
    rcases List.mem_cons.1 hj with rfl | hj
    · have h3 := h1.2
      cases hb : j.inhibitor with
      | true => rw [hb] at h3; simp only [if_true] at h3 ⊢; exact h2.1.le.pre _ h3
      | false =>
        rw [hb] at h3; simp only [Bool.false_eq_true, if_false] at h3 ⊢; exact h2.1.le.post _ h3
    · exact h2.2 j hj

omit hen in
theorem leastDependent_some {t : Nat} (h : C.leastDependent = some t) : t < C.N.ntransitions ∧ C.en t = true := by
  unfold leastDependent at h
  have key : ∀ (l : List Nat) (b : Option Nat), (∀ t ∈ l, t < C.N.ntransitions) →
      (∀ t, b = some t → t < C.N.ntransitions ∧ C.en t = true) →
      ∀ t, l.foldl (fun b t => if C.en t then match b with
        | none => some t
        | some l => if dependencyT C.N t < dependencyT C.N l then some t else b
        else b) b = some t → t < C.N.ntransitions ∧ C.en t = true := by
    intro l
    induction l with
    | nil => intro b _ hb t ht; exact hb t ht
    | cons u l ih =>
      intro b hl hb t ht
      rw [List.foldl_cons] at ht
      refine ih _ (fun x hx => hl x (List.mem_cons_of_mem _ hx)) ?_ t ht
      intro x hx
      cases hu : C.en u with
      | false => rw [hu] at hx; exact hb x (by simpa using hx)
      | true =>
        rw [hu] at hx
        have hux : u < C.N.ntransitions ∧ C.en u = true := ⟨hl u (List.mem_cons_self ..), hu⟩
        rcases b with _ | b
        · simp at hx; exact hx ▸ hux
        · simp only [if_true] at hx
          split at hx
          · simp at hx; exact hx ▸ hux
          · exact hb x hx
  exact key _ none (fun t ht => List.mem_range.1 ht) (by simp) t h

omit hen in
theorem leastDependent_none (h : C.leastDependent = none) : ∀ t, t < C.N.ntransitions → C.en t = false := by
  unfold leastDependent at h
  have key : ∀ (l : List Nat) (b : Option Nat),
      l.foldl (fun b t => if C.en t then match b with
        | none => some t
        | some l => if dependencyT C.N t < dependencyT C.N l then some t else b
        else b) b = none → b = none ∧ ∀ t ∈ l, C.en t = false := by
    intro l
    induction l with
    | nil => intro b hb; exact ⟨hb, by simp⟩
    | cons u l ih =>
      intro b ht
      rw [List.foldl_cons] at ht
      obtain ⟨h1, h2⟩ := ih _ ht
      cases hu : C.en u with
      | false =>
        rw [hu] at h1
        refine ⟨by simpa using h1, fun x hx => ?_⟩
        rcases List.mem_cons.1 hx with rfl | hx
        · exact hu
        · exact h2 x hx
      | true =>
        rw [hu] at h1
        rcases b with _ | b
        · simp at h1
        · simp only [if_true] at h1
          split at h1 <;> cases h1
  exact fun t ht => (key _ none h).2 t (List.mem_range.2 ht)

theorem visitDead_ext (M : Mem) (pos : List Nat) (s : Stub) : ExtC C s (C.visitDead M pos s) := by
  unfold visitDead
  split
  · split
    · exact (postPreset_ext hen _ s).1
    · exact .refl s
  · exact .refl s

/-- `checkPreset` survives. -/
theorem postPreset_ok {t : Nat} {s : Stub} (hc : C.N.checkPreset C.m t = true)
    (hK : Keeps C.m M' (C.postPreset t s)) : C.N.checkPreset M' t = true := by
  have hx := (postPreset_ext hen t s).2
  unfold FlatNet.checkPreset at hc ⊢
  generalize C.postPreset t s = s' at hK hx
  revert hc hx
  induction C.N.preset t with
  | nil => intro _ _; rfl
  | cons i l ih =>
    intro hc hx
    have hi := hx i (List.mem_cons_self ..)
    have hl := fun j hj => hx j (List.mem_cons_of_mem _ hj)
    simp only [FlatNet.checkInvs] at hc ⊢
    by_cases h1 : C.m i.place < i.tokens
    · rw [if_pos h1] at hc
      cases hb : i.inhibitor with
      | false => rw [hb] at hc; simp at hc
      | true =>
        rw [hb] at hc hi
        simp only [if_true] at hi
        have := hK.pre _ hi
        rw [if_pos (by omega)]
        simpa using ih (by simpa using hc) hl
    · rw [if_neg h1] at hc
      cases hb : i.inhibitor with
      | true => rw [hb] at hc; simp at hc
      | false =>
        rw [hb] at hc hi
        simp only [Bool.false_eq_true, if_false] at hi
        have := hK.post _ hi
        rw [if_neg (by omega)]
        simpa using ih (by simpa using hc) hl

end Cx
end Stubborn
end Verif
