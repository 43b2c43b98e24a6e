import Verif.CFP.Visitors
import Verif.CFP.IntervalOps
import Verif.CPN.EvalLemmas

/-!
# Terms, and the intervals of input arcs

The values of the terms of an arc lie in the intervals the visitors find.
-/

namespace Verif
namespace CFP

open CPN

variable {T : Types} {vty : Nat → Nat}

/-- a term without its successors and predecessors -/
def base : CExpr → CExpr
  | .succ e => base e
  | .pred e => base e
  | .dot => .dot
  | .var v => .var v
  | .const c => .const c
  | .tuple es => .tuple es

/-- the number of successors less that of predecessors -/
def off : CExpr → Int
  | .succ e => off e + 1
  | .pred e => off e - 1
  | .dot => 0
  | .var _ => 0
  | .const _ => 0
  | .tuple _ => 0

theorem values_fits {ty : Nat} {x : Val} (h : x ∈ T.values ty) : Fits (T.dims ty) x := by
  obtain ⟨k, hk, rfl⟩ := (mem_values T).1 h
  rw [value_eq T hk]
  exact fits_dec _ _ (by rw [← size_eq]; exact hk)

theorem fits_values {ty : Nat} {x : Val} (h : Fits (T.dims ty) x) : x ∈ T.values ty := by
  obtain ⟨h1, h2⟩ := enc_lt _ _ h
  refine (mem_values T).2 ⟨enc (T.dims ty) x, by rw [size_eq]; exact h1, ?_⟩
  rw [value_eq T (by rw [size_eq]; exact h1), h2]

theorem dims_plain {ty : Nat} (h : T.parts ty = none) : T.dims ty = [T.basic ty] := by unfold Types.dims; rw [h]

theorem size_plain {ty : Nat} (h : T.parts ty = none) : T.size ty = T.basic ty := by unfold Types.size; rw [h]

theorem fits_one {n : Nat} {x : Val} (h : Fits [n] x) : ∃ a, x = [a] ∧ a < n := by
  match x, h with
  | [], h => exact h.elim
  | [a], h => exact ⟨a, rfl, h.1⟩
  | _ :: _ :: _, h => exact h.2.elim

theorem mod_step (n : Nat) (hn : 0 < n) (i : Nat) (o d : Int) :
    (((((i : Int) + o) % n).toNat : Nat) + d : Int) % n = ((i : Int) + (o + d)) % n := by
  have h0 := Int.emod_nonneg ((i : Int) + o) (show (n : Int) ≠ 0 by omega)
  rw [Int.toNat_of_nonneg h0, Int.emod_add_emod, Int.add_assoc]

theorem succ_eq (n : Nat) (hn : 0 < n) (i : Nat) (o : Int) :
    ((((i : Int) + o) % n).toNat + 1) % n = (((i : Int) + (o + 1)) % n).toNat := by
  rw [← mod_step n hn]
  rfl

theorem pred_eq (n : Nat) (hn : 0 < n) (i : Nat) (o : Int) :
    ((((i : Int) + o) % n).toNat + (n - 1)) % n = (((i : Int) + (o - 1)) % n).toNat := by
  have h := mod_step n hn i o (-1)
  rw [Int.sub_eq_add_neg, ← h]
  generalize ((((i : Int) + o) % n).toNat) = a
  have : ((a : Int) + -1) % n = (((a + (n - 1)) % n : Nat) : Int) := by
    have e : ((a : Int) + -1) % n = ((a : Int) + -1 + n) % n := by rw [Int.add_emod_right]
    rw [e]
    have : (a : Int) + -1 + n = ((a + (n - 1) : Nat) : Int) := by omega
    rw [this]; rfl
  rw [this]
  rfl

/-- The value of a plain term. -/
theorem den_base (w : T.WF) {ρ : Nat → Val} : (t : CExpr) → {c : Nat} → HasTy T vty t c → T.parts c = none →
    (∀ v ∈ t.vars, Fits (T.dims (vty v)) (ρ v)) →
    ∃ i, den T vty ρ (base t) = [i] ∧ i < T.basic c ∧ den T vty ρ t = [(((i : Int) + off t) % T.basic c).toNat]
  | .dot, c, h, hp, _ => by
    rw [HasTy] at h
    subst h
    refine ⟨0, by rw [base, den], by rw [w.dot_one]; omega, ?_⟩
    rw [den, off, w.dot_one]; rfl
  | .var v, c, h, hp, hv => by
    rw [HasTy] at h
    subst h
    have := hv v (by rw [CExpr.vars]; exact List.mem_singleton.2 rfl)
    rw [dims_plain hp] at this
    obtain ⟨a, ha, hlt⟩ := fits_one this
    refine ⟨a, by rw [base, den, ha], hlt, ?_⟩
    rw [den, ha, off, Int.add_zero, Int.emod_eq_of_lt (by omega) (by omega)]; rfl
  | .const d, c, h, hp, _ => by
    rw [HasTy] at h
    obtain ⟨rfl, h2⟩ := h
    have e : T.value d = [d.id] := value_plain T (ty := d.ty) hp h2
    rw [size_plain hp] at h2
    refine ⟨d.id, by rw [base, den, e], h2, ?_⟩
    rw [den, e, off, Int.add_zero, Int.emod_eq_of_lt (by omega) (by omega)]; rfl
  | .succ t, c, h, hp, hv => by
    rw [HasTy] at h
    obtain ⟨i, h1, h2, h3⟩ := den_base w t h.1 hp (by rw [CExpr.vars] at hv; exact hv)
    refine ⟨i, by rw [base]; exact h1, h2, ?_⟩
    rw [den, h3, tyOf_of h.1 hp, List.map_cons, List.map_nil, off, succ_eq _ (by omega)]
  | .pred t, c, h, hp, hv => by
    rw [HasTy] at h
    obtain ⟨i, h1, h2, h3⟩ := den_base w t h.1 hp (by rw [CExpr.vars] at hv; exact hv)
    refine ⟨i, by rw [base]; exact h1, h2, ?_⟩
    rw [den, h3, tyOf_of h.1 hp, List.map_cons, List.map_nil, off, pred_eq _ (by omega)]
  | .tuple es, c, h, hp, _ => by
    rw [HasTy] at h
    obtain ⟨cs, h1, _⟩ := h
    rw [hp] at h1; cases h1

theorem visitC_base (cfp : IVec) (t : CExpr) (m : Int) (s : ASt) : s.visitC T cfp m t = s.visitC T cfp (m + off t) (base t) := by
  match t with
  | .dot => rw [base, off, Int.add_zero]
  | .var v => rw [base, off, Int.add_zero]
  | .const c => rw [base, off, Int.add_zero]
  | .succ e => rw [ASt.visitC, visitC_base cfp e, base, off]; congr 1; omega
  | .pred e => rw [ASt.visitC, visitC_base cfp e, base, off]; congr 1; omega
  | .tuple es => rw [base, off, Int.add_zero]

/-- The base of a plain term. -/
theorem base_cases {t : CExpr} {c : Nat} (h : HasTy T vty t c) (hp : T.parts c = none) :
    base t = .dot ∨ (∃ v, base t = .var v ∧ vty v = c) ∨ ∃ d, base t = .const d ∧ d.ty = c ∧ d.id < T.basic c := by
  match t, h with
  | .dot, h => exact Or.inl rfl
  | .var v, h => rw [HasTy] at h; exact Or.inr (Or.inl ⟨v, rfl, h.symm⟩)
  | .const d, h => rw [HasTy] at h; exact Or.inr (Or.inr ⟨d, rfl, h.1.symm, by rw [← size_plain hp]; exact h.2⟩)
  | .succ e, h => rw [HasTy] at h; rw [base]; exact base_cases h.1 hp
  | .pred e, h => rw [HasTy] at h; rw [base]; exact base_cases h.1 hp
  | .tuple es, h => rw [HasTy] at h; obtain ⟨cs, h1, _⟩ := h; rw [hp] at h1; cases h1

/-- Constants of an expression are of plain types. -/
def PlainConsts (T : Types) : CExpr → Prop
  | .const c => T.parts c.ty = none
  | _ => True

instance (T : Types) (e : CExpr) : Decidable (PlainConsts T e) := by
  cases e <;> unfold PlainConsts <;> infer_instance

/-- The state of the visitor is right for a value of the place. -/
structure AOk (dims : List Nat) (x : Val) (s : ASt) : Prop where
  ub : s.ub = false
  ok : s.ok = true
  vec : ∀ w, s.vec = some w → IVec.Has w x ∧ IVec.In dims w

theorem isEmpty_of_has {v : IVec} {x : Val} (h : IVec.Has v x) : v.isEmpty = false := by
  obtain ⟨i, hi, _⟩ := h
  cases v with
  | nil => cases hi
  | cons => rfl

theorem any_ok {dims : List Nat} {x : Val} {s : ASt} {cfp : IVec} (h : AOk dims x s) (hc : IVec.Has cfp x) (hi : IVec.In dims cfp) :
    AOk dims x (s.any cfp) ∧ (s.any cfp).vec ≠ none ∧ (s.any cfp).idx = s.idx := by
  refine ⟨⟨h.ub, ?_, ?_⟩, by unfold ASt.any; simp, rfl⟩
  · show (!cfp.isEmpty) = true
    rw [isEmpty_of_has hc]; rfl
  · intro w hw
    unfold ASt.any at hw
    simp only [Option.some.injEq] at hw
    subst hw
    cases hv : s.vec with
    | none => exact ⟨hc, hi⟩
    | some w => exact h.vec w hv

theorem at_of_has {i : Interval} {x : Val} {k : Nat} (h : Interval.Has i x) (hk : k < x.length) : i.at k (x.getD k 0) = true := by
  have hl := h.length
  have := ((has_iff i x).1 h).2 k (by omega)
  unfold Interval.at
  have e : i.getD k Rng.bad = i.getD k ⟨0, 0⟩ := by
    rw [List.getD_eq_getElem?_getD, List.getD_eq_getElem?_getD, List.getElem?_eq_getElem (by omega)]; rfl
  rw [e]
  unfold Rng.contains
  rw [Bool.and_eq_true]
  exact ⟨decide_eq_true this.1, decide_eq_true this.2⟩

theorem filter_has {v : IVec} {x : Val} {p : Interval → Bool} (h : IVec.Has v x) (hp : ∀ i, Interval.Has i x → p i = true) : IVec.Has (v.filter p) x := by
  obtain ⟨i, hi, hx⟩ := h
  exact ⟨i, List.mem_filter.2 ⟨hi, hp i hx⟩, hx⟩

theorem color_ok {dims : List Nat} {x : Val} {s : ASt} {cfp : IVec} (h : AOk dims x s) (hc : IVec.Has cfp x) (hi : IVec.In dims cfp)
    (hk : s.idx < dims.length) {a : Nat} (ha : x.getD s.idx 0 = a) :
    AOk dims x (s.color cfp a) ∧ (s.color cfp a).vec ≠ none ∧ (s.color cfp a).idx = s.idx := by
  have hsrc : IVec.Has (s.vec.getD cfp) x ∧ IVec.In dims (s.vec.getD cfp) := by
    cases hv : s.vec with
    | none => exact ⟨hc, hi⟩
    | some w => exact h.vec w hv
  have hxl : x.length = dims.length := by
    obtain ⟨i, h1, h2⟩ := hc
    rw [← h2.length, (hi i h1).length]
  have hkept : IVec.Has ((s.vec.getD cfp).filter fun i => i.at s.idx a) x :=
    filter_has hsrc.1 fun i hx => by subst ha; exact at_of_has hx (by omega)
  have hkin : IVec.In dims ((s.vec.getD cfp).filter fun i => i.at s.idx a) := fun i hi => hsrc.2 i (List.mem_filter.1 hi).1
  refine ⟨⟨?_, ?_, ?_⟩, by unfold ASt.color; simp, rfl⟩
  · show (s.ub || (s.vec.getD cfp).any fun i => decide (i.length ≤ s.idx)) = false
    rw [h.ub, Bool.false_or, List.any_eq_false]
    intro i hi'
    have := (hsrc.2 i hi').length
    simp only [decide_eq_true_eq]
    omega
  · show (!List.isEmpty _) = true
    rw [isEmpty_of_has hkept]; rfl
  · intro w hw
    unfold ASt.color at hw
    simp only [Option.some.injEq] at hw
    cases hv : s.vec with
    | none =>
      rw [hv] at hw hkept hkin
      simp only at hw
      subst hw
      exact ⟨IVec.addAll_has_right _ hkept, IVec.In.addAll (fun i hi => by cases hi) hkin⟩
    | some w' =>
      rw [hv] at hw hkept hkin
      simp only at hw
      subst hw
      exact ⟨hkept, hkin⟩

/-- A plain term at a position of the value of the place. -/
theorem term_ok (w : T.WF) {ρ : Nat → Val} {dims : List Nat} {x : Val} {cfp : IVec} (hc : IVec.Has cfp x) (hi : IVec.In dims cfp)
    {t : CExpr} {c : Nat} (ht : HasTy T vty t c) (hp : T.parts c = none) (hv : ∀ v ∈ t.vars, Fits (T.dims (vty v)) (ρ v))
    {s : ASt} (h : AOk dims x s) (hk : s.idx < dims.length) (hx : den T vty ρ t = [x.getD s.idx 0]) :
    AOk dims x (s.visitC T cfp 0 t) ∧ (s.visitC T cfp 0 t).vec ≠ none ∧ (s.visitC T cfp 0 t).idx = s.idx := by
  rw [visitC_base]
  rcases base_cases ht hp with e | ⟨v, e, _⟩ | ⟨d, e, rfl, hd⟩
  · rw [e, ASt.visitC]; exact any_ok h hc hi
  · rw [e, ASt.visitC]; exact any_ok h hc hi
  · rw [e, ASt.visitC]
    apply color_ok h hc hi hk
    obtain ⟨i, h1, h2, h3⟩ := den_base w t ht hp hv
    rw [e, den] at h1
    have e1 : T.value d = [d.id] := value_plain T (ty := d.ty) hp (by rw [size_plain hp]; exact hd)
    rw [e1] at h1
    cases h1
    rw [hx] at h3
    rw [List.cons.injEq] at h3
    rw [h3.1]
    unfold constId
    rw [Int.zero_add, size_plain hp]

theorem getD_append_at {α : Type} (l r : List α) (d : α) : (l ++ r).getD l.length d = r.getD 0 d := by
  rw [List.getD_eq_getElem?_getD, List.getD_eq_getElem?_getD, List.getElem?_append_right (Nat.le_refl _), Nat.sub_self]

/-- The components of a tuple. -/
theorem terms_ok (w : T.WF) {ρ : Nat → Val} {dims : List Nat} {cfp : IVec} (es : List CExpr) (cs : List Nat) (hes : HasTys T vty es cs)
    (hv : ∀ v ∈ CExpr.varsL es, Fits (T.dims (vty v)) (ρ v)) (pre : Val) (hc : IVec.Has cfp (pre ++ denL T vty ρ es)) (hi : IVec.In dims cfp)
    {s : ASt} (h : AOk dims (pre ++ denL T vty ρ es) s) (hk : s.idx = pre.length) (hs : s.vec ≠ none ∨ es ≠ []) :
    AOk dims (pre ++ denL T vty ρ es) (s.visitCs T cfp 0 es) ∧ (s.visitCs T cfp 0 es).vec ≠ none := by
  induction es generalizing cs pre s with
  | nil =>
    rw [ASt.visitCs]
    exact ⟨h, by simpa using hs⟩
  | cons e es ih =>
    rw [HasTys] at hes
    obtain ⟨c, cs', rfl, hp, h1, h2⟩ := hes
    rw [CExpr.varsL] at hv
    have hv1 : ∀ v ∈ e.vars, Fits (T.dims (vty v)) (ρ v) := fun v hh => hv v (List.mem_append_left _ hh)
    obtain ⟨i, _, _, hd⟩ := den_base w e h1 hp hv1
    rw [denL] at hc h ⊢
    have hl : (pre ++ (den T vty ρ e ++ denL T vty ρ es)).length = dims.length := by
      obtain ⟨j, h1, h2⟩ := hc
      rw [← h2.length, (hi j h1).length]
    rw [hd] at hl
    simp only [List.length_append, List.length_cons, List.length_nil] at hl
    have ht := term_ok w hc hi h1 hp hv1 h (by omega) (by
      rw [hk, getD_append_at, hd]; rfl)
    rw [ASt.visitCs]
    rw [ht.1.ok, if_pos rfl]
    have ea : pre ++ (den T vty ρ e ++ denL T vty ρ es) = (pre ++ den T vty ρ e) ++ denL T vty ρ es := by rw [List.append_assoc]
    rw [ea] at hc h ht ⊢
    refine ih cs' h2 (fun v hh => hv v (List.mem_append_right _ hh)) (pre ++ den T vty ρ e) hc ⟨ht.1.ub, rfl, ht.1.vec⟩ ?_ (Or.inl ht.2.1)
    show (s.visitC T cfp 0 e).idx + 1 = _
    rw [ht.2.2, hk, hd]
    simp

/-- A term of the type of the place. -/
theorem leaf_ok (w : T.WF) {ρ : Nat → Val} {ty : Nat} {cfp : IVec} {t : CExpr} (ht : HasTy T vty t ty) (hpl : PlainConsts T t)
    (hne : T.dims ty ≠ []) (hv : ∀ v ∈ t.vars, Fits (T.dims (vty v)) (ρ v)) (hc : IVec.Has cfp (den T vty ρ t)) (hi : IVec.In (T.dims ty) cfp) :
    ∃ vec, (ASt.elems T cfp {} [t]).vec = some vec ∧ (ASt.elems T cfp {} [t]).ok = true ∧ (ASt.elems T cfp {} [t]).ub = false ∧
      IVec.Has vec (den T vty ρ t) ∧ IVec.In (T.dims ty) vec := by
  have h0 : AOk (T.dims ty) (den T vty ρ t) ({} : ASt) := ⟨rfl, rfl, fun w hw => by cases hw⟩
  have key : AOk (T.dims ty) (den T vty ρ t) (ASt.visitC T cfp 0 {} t) ∧ (ASt.visitC T cfp 0 {} t).vec ≠ none := by
    by_cases hp : T.parts ty = none
    · obtain ⟨i, _, _, hd⟩ := den_base w t ht hp hv
      have := term_ok w hc hi ht hp hv h0 (by rw [dims_plain hp]; exact Nat.zero_lt_one) (by rw [hd]; rfl)
      exact ⟨this.1, this.2.1⟩
    · match t, ht with
      | .dot, ht => rw [HasTy] at ht; subst ht; exact absurd w.dot_plain hp
      | .var v, ht => rw [ASt.visitC]; have := any_ok h0 hc hi; exact ⟨this.1, this.2.1⟩
      | .const c, ht => rw [HasTy] at ht; exact absurd (by rw [ht.1]; exact hpl) hp
      | .succ e, ht => rw [HasTy] at ht; exact absurd ht.2 hp
      | .pred e, ht => rw [HasTy] at ht; exact absurd ht.2 hp
      | .tuple es, ht =>
        rw [HasTy] at ht
        obtain ⟨cs, h1, h2⟩ := ht
        rw [ASt.visitC]
        rw [den] at hc h0 ⊢
        rw [CExpr.vars] at hv
        refine terms_ok w es cs h2 hv [] hc hi h0 rfl (Or.inr ?_)
        rintro rfl
        rw [HasTys] at h2
        subst h2
        unfold Types.dims at hne
        rw [h1] at hne
        exact hne rfl
  obtain ⟨h1, h2⟩ := key
  have e : ASt.elems T cfp {} [t] = ASt.visitC T cfp 0 {} t := by
    rw [ASt.elems]
    rw [h1.ok, if_pos rfl, ASt.elems]
  rw [e]
  cases hvec : (ASt.visitC T cfp 0 {} t).vec with
  | none => exact absurd hvec h2
  | some vec =>
    exact ⟨vec, rfl, h1.ok, h1.ub, h1.vec vec hvec⟩

/-! ### Arcs -/

mutual
/-- The terms that are the leaves of an expression; what is subtracted is left out. -/
def leaves : ArcE → List CExpr
  | .num _ es => es
  | .add as => leavesL as
  | .sub a _ => leaves a
  | .scal _ a => leaves a
def leavesL : List ArcE → List CExpr
  | [] => []
  | a :: as => leaves a ++ leavesL as
end

mutual
/-- Expressions whose leaves have one term each, with constants of plain types only. -/
def Flat (T : Types) : ArcE → Prop
  | .num _ es => ∃ t, es = [t] ∧ PlainConsts T t
  | .add as => as ≠ [] ∧ FlatL T as
  | .sub a _ => Flat T a
  | .scal _ a => Flat T a
def FlatL (T : Types) : List ArcE → Prop
  | [] => True
  | a :: as => Flat T a ∧ FlatL T as
end

/-- The lists of boxes belong to the terms. -/
def Pairs (T : Types) (vty : Nat → Nat) (ρ : Nat → Val) (dims : List Nat) : List IVec → List CExpr → Prop
  | [], [] => True
  | v :: vs, t :: ts => (IVec.Has v (den T vty ρ t) ∧ IVec.In dims v) ∧ Pairs T vty ρ dims vs ts
  | _, _ => False

theorem Pairs.append {ρ : Nat → Val} {dims : List Nat} : {vs ws : List IVec} → {ts us : List CExpr} →
    Pairs T vty ρ dims vs ts → Pairs T vty ρ dims ws us → Pairs T vty ρ dims (vs ++ ws) (ts ++ us)
  | [], _, [], _, _, h => h
  | _ :: _, _, _ :: _, _, h, g => ⟨h.1, h.2.append g⟩
  | [], _, _ :: _, _, h, _ => h.elim
  | _ :: _, _, [], _, h, _ => h.elim

theorem Pairs.length {ρ : Nat → Val} {dims : List Nat} : {vs : List IVec} → {ts : List CExpr} → Pairs T vty ρ dims vs ts → vs.length = ts.length
  | [], [], _ => rfl
  | _ :: _, _ :: _, h => by rw [List.length_cons, List.length_cons, h.2.length]
  | [], _ :: _, h => h.elim
  | _ :: _, [], h => h.elim

mutual
theorem leaves_ne : (e : ArcE) → Flat T e → leaves e ≠ []
  | .num n es, h => by rw [Flat] at h; obtain ⟨t, rfl, _⟩ := h; rw [leaves]; simp
  | .add as, h => by rw [Flat] at h; rw [leaves]; exact leavesL_ne as h.1 h.2
  | .sub a b, h => by rw [Flat] at h; rw [leaves]; exact leaves_ne a h
  | .scal k a, h => by rw [Flat] at h; rw [leaves]; exact leaves_ne a h
theorem leavesL_ne : (as : List ArcE) → as ≠ [] → FlatL T as → leavesL as ≠ []
  | [], h, _ => absurd rfl h
  | a :: as, _, h => by
    rw [FlatL] at h
    rw [leavesL]
    exact fun e => leaves_ne a h.1 (List.append_eq_nil_iff.1 e).1
end

mutual
/-- The intervals found for an input arc have the values of its terms. -/
theorem arcFound_ok (w : T.WF) {ρ : Nat → Val} {ty : Nat} (hne : T.dims ty ≠ []) {cfp : IVec} (hi : IVec.In (T.dims ty) cfp) :
    (e : ArcE) → ArcTy T vty ty e → Flat T e → (∀ t ∈ leaves e, IVec.Has cfp (den T vty ρ t)) →
    (∀ t ∈ leaves e, ∀ v ∈ t.vars, Fits (T.dims (vty v)) (ρ v)) →
    ∃ vecs, arcFound T cfp e = .yes vecs ∧ Pairs T vty ρ (T.dims ty) vecs (leaves e)
  | .num n es, ht, hf, hc, hv => by
    rw [Flat] at hf
    obtain ⟨t, rfl, hpl⟩ := hf
    rw [ArcTy] at ht
    rw [leaves] at hc hv
    obtain ⟨vec, h1, h1b, h1c, h2, h3⟩ := leaf_ok w (ht.2 t (List.mem_singleton.2 rfl)) hpl hne (hv t (List.mem_singleton.2 rfl))
      (hc t (List.mem_singleton.2 rfl)) hi
    refine ⟨[vec], ?_, by rw [leaves]; exact ⟨⟨h2, h3⟩, trivial⟩⟩
    rw [arcFound]
    rw [h1, h1b, h1c]
    rfl
  | .add as, ht, hf, hc, hv => by
    rw [Flat] at hf
    rw [ArcTy] at ht
    rw [leaves] at hc hv ⊢
    obtain ⟨vecs, h1, h2⟩ := arcFounds_ok w hne hi as ht hf.2 hc hv []
    exact ⟨vecs, by rw [arcFound]; simpa using h1, h2⟩
  | .sub a b, ht, hf, hc, hv => by
    rw [Flat] at hf
    rw [ArcTy] at ht
    rw [leaves] at hc hv ⊢
    rw [arcFound]
    exact arcFound_ok w hne hi a ht.1 hf hc hv
  | .scal k a, ht, hf, hc, hv => by
    rw [Flat] at hf
    rw [ArcTy] at ht
    rw [leaves] at hc hv ⊢
    rw [arcFound]
    exact arcFound_ok w hne hi a ht hf hc hv
theorem arcFounds_ok (w : T.WF) {ρ : Nat → Val} {ty : Nat} (hne : T.dims ty ≠ []) {cfp : IVec} (hi : IVec.In (T.dims ty) cfp) :
    (as : List ArcE) → ArcTys T vty ty as → FlatL T as → (∀ t ∈ leavesL as, IVec.Has cfp (den T vty ρ t)) →
    (∀ t ∈ leavesL as, ∀ v ∈ t.vars, Fits (T.dims (vty v)) (ρ v)) → (acc : List IVec) →
    ∃ vecs, arcFounds T cfp acc as = .yes (acc ++ vecs) ∧ Pairs T vty ρ (T.dims ty) vecs (leavesL as)
  | [], _, _, _, _, acc => ⟨[], by rw [arcFounds, List.append_nil], by rw [leavesL]; trivial⟩
  | a :: as, ht, hf, hc, hv, acc => by
    rw [FlatL] at hf
    rw [ArcTys] at ht
    rw [leavesL] at hc hv ⊢
    obtain ⟨v1, h1, h2⟩ := arcFound_ok w hne hi a ht.1 hf.1 (fun t hh => hc t (List.mem_append_left _ hh)) (fun t hh => hv t (List.mem_append_left _ hh))
    obtain ⟨v2, h3, h4⟩ := arcFounds_ok w hne hi as ht.2 hf.2 (fun t hh => hc t (List.mem_append_right _ hh)) (fun t hh => hv t (List.mem_append_right _ hh)) (acc ++ v1)
    refine ⟨v1 ++ v2, ?_, h2.append h4⟩
    rw [arcFounds, h1]
    cases v1 with
    | nil =>
      have := h2.length
      exact absurd (List.length_eq_zero_iff.1 this.symm) (leaves_ne a hf.1)
    | cons y ys => simp only; rw [h3, List.append_assoc]
end

end CFP
end Verif
