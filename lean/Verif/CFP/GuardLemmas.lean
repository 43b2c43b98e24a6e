import Verif.CFP.Guard
import Verif.CFP.GenLemmas
import Verif.CFP.IntervalCount

/-!
# The restriction of the intervals by guards keeps the bindings that satisfy the guard
-/

namespace Verif
namespace CFP

open CPN

variable {T : Types} {vty : Nat → Nat}

/-! ### Maps -/

theorem mem_setKey {α : Type} {l : List (Nat × α)} {k : Nat} {a : α} {q : Nat × α} (h : q ∈ setKey l k a) : q = (k, a) ∨ q ∈ l := by
  induction l with
  | nil => rw [setKey, List.mem_singleton] at h; exact Or.inl h
  | cons r l ih =>
    obtain ⟨j, b⟩ := r
    rw [setKey] at h
    split at h
    · rename_i e
      rcases List.mem_cons.1 h with h | h
      · rw [e] at h; exact Or.inl h
      · exact Or.inr (List.mem_cons_of_mem _ h)
    · rcases List.mem_cons.1 h with h | h
      · rw [h]; exact Or.inr List.mem_cons_self
      · rcases ih h with h | h
        · exact Or.inl h
        · exact Or.inr (List.mem_cons_of_mem _ h)

theorem lookup_setKey {α : Type} (l : List (Nat × α)) (k j : Nat) (a : α) : (setKey l k a).lookup j = if j = k then some a else l.lookup j := by
  induction l with
  | nil =>
    rw [setKey, List.lookup_cons]
    by_cases e : j = k
    · rw [if_pos e, beq_iff_eq.2 e]
    · rw [if_neg e, beq_eq_false_iff_ne.2 e]
  | cons r l ih =>
    obtain ⟨i, b⟩ := r
    rw [setKey]
    by_cases e : i = k
    · rw [if_pos e, List.lookup_cons]
      by_cases h : j = k
      · rw [if_pos h, beq_iff_eq.2 (by rw [h, e])]
      · rw [if_neg h, List.lookup_cons, beq_eq_false_iff_ne.2 (by rw [e]; exact h)]
    · rw [if_neg e, List.lookup_cons]
      by_cases h : j = i
      · rw [beq_iff_eq.2 h, List.lookup_cons, beq_iff_eq.2 h, if_neg (by rw [h]; exact e)]
      · rw [beq_eq_false_iff_ne.2 h, ih, List.lookup_cons, beq_eq_false_iff_ne.2 h]

theorem setKey_same {α : Type} (l : List (Nat × α)) (k : Nat) (a b : α) : setKey (setKey l k a) k b = setKey l k b := by
  induction l with
  | nil => simp [setKey]
  | cons r l ih =>
    obtain ⟨j, c⟩ := r
    by_cases e : j = k
    · rw [setKey, if_pos e, setKey, if_pos e, setKey, if_pos e]
    · rw [setKey, if_neg e, setKey, if_neg e, ih, setKey, if_neg e]

theorem setKey_mid {α : Type} (l : List (Nat × α)) (v w : Nat) (a b c : α) (h : v ≠ w) :
    setKey (setKey (setKey l v a) w b) v c = setKey (setKey l v c) w b := by
  induction l with
  | nil => simp [setKey, h]
  | cons r l ih =>
    obtain ⟨j, d⟩ := r
    by_cases e : j = v
    · subst e
      simp [setKey, h]
    · by_cases e2 : j = w
      · subst e2
        simp [setKey, e, setKey_same]
      · simp [setKey, e, e2, ih]

theorem at_setKey (m : VMap) (k j : Nat) (a : IVec) : VMap.at (setKey m k a) j = if j = k then a else m.at j := by
  unfold VMap.at
  rw [lookup_setKey]
  by_cases e : j = k
  · rw [if_pos e, if_pos e]; rfl
  · rw [if_neg e, if_neg e]

/-- The variable has an entry. -/
def VMap.Present (m : VMap) (v : Nat) : Prop := (m.lookup v).isSome = true

theorem present_set {m : VMap} {v w : Nat} {a : IVec} (h : m.Present v) : VMap.Present (setKey m w a) v := by
  unfold VMap.Present
  rw [lookup_setKey]
  by_cases e : v = w
  · rw [if_pos e]; rfl
  · rw [if_neg e]; exact h

/-- What is known of a map: within the types, the variables are there, and if the map allowed `ρ` before it still does. -/
structure MOk (T : Types) (vty : Nat → Nat) (vs : List Nat) (m : VMap) : Prop where
  inn : m.In T vty
  pres : ∀ v ∈ vs, m.Present v

theorem at_in {m : VMap} (h : m.In T vty) (v : Nat) : IVec.In (T.dims (vty v)) (m.at v) := by
  unfold VMap.at
  cases hl : m.lookup v with
  | none => exact nil_in _
  | some w => exact h _ (lookup_mem' hl)

theorem at_has {m : VMap} {ρ : Nat → Val} (h : m.Covers ρ) {v : Nat} (hp : m.Present v) : IVec.Has (m.at v) (ρ v) := by
  unfold VMap.Present at hp
  unfold VMap.at
  cases hl : m.lookup v with
  | none => rw [hl] at hp; cases hp
  | some w => exact h _ (lookup_mem' hl)

theorem In.set {m : VMap} (h : m.In T vty) {v : Nat} {a : IVec} (ha : IVec.In (T.dims (vty v)) a) : VMap.In T vty (setKey m v a) := by
  intro q hq
  rcases mem_setKey hq with rfl | hq
  · exact ha
  · exact h q hq

theorem Covers.set {m : VMap} {ρ : Nat → Val} (h : m.Covers ρ) {v : Nat} {a : IVec} (ha : IVec.Has a (ρ v)) : VMap.Covers (setKey m v a) ρ := by
  intro q hq
  rcases mem_setKey hq with rfl | hq
  · exact ha
  · exact h q hq

theorem MOk.set {vs : List Nat} {m : VMap} (h : MOk T vty vs m) {v : Nat} {a : IVec} (ha : IVec.In (T.dims (vty v)) a) :
    MOk T vty vs (setKey m v a) := ⟨In.set h.inn ha, fun w hw => present_set (h.pres w hw)⟩

/-! ### The sides of a comparison -/

/-- the component of a term at a position -/
def compAt : CExpr → Nat → Option CExpr
  | .tuple es, k => es[k]?
  | .dot, k => if k = 0 then some .dot else none
  | .var v, k => if k = 0 then some (.var v) else none
  | .const c, k => if k = 0 then some (.const c) else none
  | .succ e, k => if k = 0 then some (.succ e) else none
  | .pred e, k => if k = 0 then some (.pred e) else none

/-- the entry of a variable is right: the component at the position is the variable, with that many successors -/
def posOk (T : Types) (vty : Nat → Nat) (e : CExpr) (s : Side) (q : Nat × Nat) : Bool :=
  match (compAt e q.1).map fun t => (base t, off t) with
  | some (.var v, o) => decide (v = q.2) && decide (o = - s.modOf q.2 q.1) && (T.parts (vty v)).isNone &&
      decide (-(T.basic (vty v) : Int) ≤ o) && decide (o ≤ T.basic (vty v))
  | _ => false

/-- the entry of a constant is right -/
def constOk (T : Types) (e : CExpr) (q : Nat × Color) : Bool :=
  match (compAt e q.1).map fun t => (base t, off t) with
  | some (.const d, o) => decide (q.2.id = constId (T.basic d.ty) d.id o) && (T.parts d.ty).isNone
  | some (.dot, _) => decide (q.2.id = 0)
  | _ => false

/-- What the visitors find of an expression is right. -/
def sideOk (T : Types) (vty : Nat → Nat) (e : CExpr) : Bool :=
  ((side T e).pos.all (posOk T vty e (side T e))) && (side T e).consts.all (constOk T e)

/-- What is found says about the value of the expression. -/
structure SideOk (T : Types) (vty : Nat → Nat) (ρ : Nat → Val) (vs : List Nat) (x : Val) (s : Side) : Prop where
  pos : ∀ q ∈ s.pos, q.2 ∈ vs ∧ T.dims (vty q.2) = [T.basic (vty q.2)] ∧ -(T.basic (vty q.2) : Int) ≤ s.modOf q.2 q.1 ∧
    s.modOf q.2 q.1 ≤ T.basic (vty q.2) ∧
    ∃ i, i < T.basic (vty q.2) ∧ ρ q.2 = [i] ∧ x[q.1]? = some ((((i : Int) - s.modOf q.2 q.1) % T.basic (vty q.2)).toNat)
  consts : ∀ q ∈ s.consts, x[q.1]? = some q.2.id

theorem denL_at (w : T.WF) {ρ : Nat → Val} (es : List CExpr) (cs : List Nat) (h : HasTys T vty es cs)
    (hv : ∀ v ∈ CExpr.varsL es, Fits (T.dims (vty v)) (ρ v)) (k : Nat) (t : CExpr) (ht : es[k]? = some t) :
    ∃ c, HasTy T vty t c ∧ T.parts c = none ∧ (∀ v ∈ t.vars, Fits (T.dims (vty v)) (ρ v)) ∧ (denL T vty ρ es)[k]? = (den T vty ρ t)[0]? := by
  induction es generalizing cs k with
  | nil => cases ht
  | cons e es ih =>
    rw [HasTys] at h
    obtain ⟨c, cs', rfl, hp, h1, h2⟩ := h
    rw [CExpr.varsL] at hv
    have hv1 : ∀ v ∈ e.vars, Fits (T.dims (vty v)) (ρ v) := fun v hh => hv v (List.mem_append_left _ hh)
    obtain ⟨i, _, _, hd⟩ := den_base w e h1 hp hv1
    rw [denL, hd]
    cases k with
    | zero =>
      cases ht
      exact ⟨c, h1, hp, hv1, by rw [hd]; rfl⟩
    | succ k => exact ih cs' h2 (fun v hh => hv v (List.mem_append_right _ hh)) k ht

theorem base_ty_var {t : CExpr} {c v : Nat} (h : HasTy T vty t c) (hb : base t = .var v) : c = vty v := by
  match t, h with
  | .dot, _ => rw [base] at hb; cases hb
  | .var u, h => rw [base] at hb; cases hb; rw [HasTy] at h; exact h
  | .const d, _ => rw [base] at hb; cases hb
  | .succ e, h => rw [base] at hb; rw [HasTy] at h; exact base_ty_var h.1 hb
  | .pred e, h => rw [base] at hb; rw [HasTy] at h; exact base_ty_var h.1 hb
  | .tuple es, _ => rw [base] at hb; cases hb

theorem base_ty_const {t : CExpr} {c : Nat} {d : Color} (h : HasTy T vty t c) (hb : base t = .const d) : c = d.ty ∧ d.id < T.size c := by
  match t, h with
  | .dot, _ => rw [base] at hb; cases hb
  | .var u, h => rw [base] at hb; cases hb
  | .const d', h => rw [base] at hb; cases hb; rw [HasTy] at h; exact h
  | .succ e, h => rw [base] at hb; rw [HasTy] at h; exact base_ty_const h.1 hb
  | .pred e, h => rw [base] at hb; rw [HasTy] at h; exact base_ty_const h.1 hb
  | .tuple es, _ => rw [base] at hb; cases hb

theorem base_ty_dot {t : CExpr} {c : Nat} (h : HasTy T vty t c) (hb : base t = .dot) : c = dotTy := by
  match t, h with
  | .dot, h => rw [HasTy] at h; exact h
  | .var u, h => rw [base] at hb; cases hb
  | .const d', h => rw [base] at hb; cases hb
  | .succ e, h => rw [base] at hb; rw [HasTy] at h; exact base_ty_dot h.1 hb
  | .pred e, h => rw [base] at hb; rw [HasTy] at h; exact base_ty_dot h.1 hb
  | .tuple es, _ => rw [base] at hb; cases hb

theorem comp_den (w : T.WF) {ρ : Nat → Val} {e : CExpr} {ty : Nat} (h : HasTy T vty e ty)
    (hv : ∀ v ∈ e.vars, Fits (T.dims (vty v)) (ρ v)) {k : Nat} {t : CExpr} (ht : compAt e k = some t) :
    ∃ c, HasTy T vty t c ∧ (∀ v ∈ t.vars, Fits (T.dims (vty v)) (ρ v)) ∧ (den T vty ρ e)[k]? = (den T vty ρ t)[0]? := by
  cases e with
  | tuple es =>
    rw [HasTy] at h
    obtain ⟨cs, _, h2⟩ := h
    rw [CExpr.vars] at hv
    obtain ⟨c, g1, _, g3, g4⟩ := denL_at w es cs h2 hv k t ht
    exact ⟨c, g1, g3, by rw [den]; exact g4⟩
  | dot => rw [compAt] at ht; split at ht <;> cases ht; rename_i e; rw [e]; exact ⟨ty, h, hv, rfl⟩
  | var v => rw [compAt] at ht; split at ht <;> cases ht; rename_i e; rw [e]; exact ⟨ty, h, hv, rfl⟩
  | const v => rw [compAt] at ht; split at ht <;> cases ht; rename_i e; rw [e]; exact ⟨ty, h, hv, rfl⟩
  | succ v => rw [compAt] at ht; split at ht <;> cases ht; rename_i e; rw [e]; exact ⟨ty, h, hv, rfl⟩
  | pred v => rw [compAt] at ht; split at ht <;> cases ht; rename_i e; rw [e]; exact ⟨ty, h, hv, rfl⟩

theorem compAt_vars {e : CExpr} {k : Nat} {t : CExpr} (ht : compAt e k = some t) {v : Nat} (hv : v ∈ t.vars) : v ∈ e.vars := by
  cases e with
  | tuple es =>
    rw [compAt] at ht
    rw [CExpr.vars]
    have := List.mem_of_getElem? ht
    clear ht
    induction es with
    | nil => cases this
    | cons e es ih =>
      rw [CExpr.varsL]
      rcases List.mem_cons.1 this with rfl | h
      · exact List.mem_append_left _ hv
      · exact List.mem_append_right _ (ih h)
  | dot => rw [compAt] at ht; split at ht <;> cases ht; exact hv
  | var v => rw [compAt] at ht; split at ht <;> cases ht; exact hv
  | const v => rw [compAt] at ht; split at ht <;> cases ht; exact hv
  | succ v => rw [compAt] at ht; split at ht <;> cases ht; exact hv
  | pred v => rw [compAt] at ht; split at ht <;> cases ht; exact hv

theorem base_var_mem {t : CExpr} {v : Nat} (hb : base t = .var v) : v ∈ t.vars := by
  match t with
  | .dot => rw [base] at hb; cases hb
  | .var u => rw [base] at hb; cases hb; rw [CExpr.vars]; exact List.mem_singleton.2 rfl
  | .const d => rw [base] at hb; cases hb
  | .succ e => rw [base] at hb; rw [CExpr.vars]; exact base_var_mem hb
  | .pred e => rw [base] at hb; rw [CExpr.vars]; exact base_var_mem hb
  | .tuple es => rw [base] at hb; cases hb

/-- The check is enough. -/
theorem sideOk_spec (w : T.WF) {ρ : Nat → Val} {e : CExpr} {ty : Nat} (h : HasTy T vty e ty)
    (hv : ∀ v ∈ e.vars, Fits (T.dims (vty v)) (ρ v)) (hs : sideOk T vty e = true) : SideOk T vty ρ e.vars (den T vty ρ e) (side T e) := by
  unfold sideOk at hs
  rw [Bool.and_eq_true, List.all_eq_true, List.all_eq_true] at hs
  refine ⟨fun q hq => ?_, fun q hq => ?_⟩
  · have := hs.1 q hq
    unfold posOk at this
    cases hc : compAt e q.1 with
    | none => rw [hc] at this; cases this
    | some t =>
      rw [hc, Option.map_some] at this
      split at this
      · rename_i v o heq
        cases heq'' : base t <;> (rw [heq''] at heq; cases heq)
        simp only [Bool.and_eq_true, decide_eq_true_eq] at this
        obtain ⟨⟨⟨⟨rfl, h2⟩, h3⟩, h4⟩, h5⟩ := this
        rw [Option.isNone_iff_eq_none] at h3
        obtain ⟨c, g1, g2, g3⟩ := comp_den w h hv hc
        have hcv := base_ty_var g1 heq''
        subst hcv
        obtain ⟨i, d1, d2, d3⟩ := den_base w t g1 h3 g2
        rw [heq'', den] at d1
        refine ⟨compAt_vars hc (base_var_mem heq''), dims_plain h3, by omega, by omega, i, d2, d1, ?_⟩
        rw [g3, d3, h2]
        rfl
      · cases this
  · have := hs.2 q hq
    unfold constOk at this
    cases hc : compAt e q.1 with
    | none => rw [hc] at this; cases this
    | some t =>
      rw [hc, Option.map_some] at this
      obtain ⟨c, g1, g2, g3⟩ := comp_den w h hv hc
      split at this
      · rename_i d o heq
        cases heq'' : base t <;> (rw [heq''] at heq; cases heq)
        simp only [Bool.and_eq_true, decide_eq_true_eq] at this
        obtain ⟨h1, h2⟩ := this
        rw [Option.isNone_iff_eq_none] at h2
        obtain ⟨rfl, hlt⟩ := base_ty_const g1 heq''
        obtain ⟨i, d1, d2, d3⟩ := den_base w t g1 h2 g2
        rw [heq'', den, value_plain T h2 hlt] at d1
        cases d1
        rw [g3, d3, h1]
        rfl
      · rename_i o heq
        cases heq'' : base t <;> (rw [heq''] at heq; cases heq)
        have hd := base_ty_dot g1 heq''
        subst hd
        obtain ⟨i, d1, d2, d3⟩ := den_base w t g1 w.dot_plain g2
        rw [g3, d3, of_decide_eq_true this, w.dot_one]
        simp
      · cases this

/-! ### Equality -/

theorem one_size {n : Nat} {m : Int} (h : -(n : Int) ≤ m) : ∀ k, k < [n].length → -(([n] : List Nat).getD k 0 : Int) ≤ m := by
  intro k hk
  have : k = 0 := by simpa using hk
  subst this
  exact h

theorem modifier_in {n : Nat} {m : Int} {v : IVec} (hv : IVec.In [n] v) (hm : -(n : Int) ≤ m) : IVec.In [n] (v.applyModifier m [n]) :=
  IVec.In.applyModifier hv (one_size hm)

theorem modifier_one {n : Nat} {m : Int} {v : IVec} {i : Nat} (hv : IVec.In [n] v) (hm : -(n : Int) ≤ m) (h : IVec.Has v [i]) :
    IVec.Has (v.applyModifier m [n]) [(((i : Int) + m) % n).toNat] := by
  rw [applyModifier_has hv (one_size hm)]
  refine ⟨[i], h, ?_⟩
  unfold shiftVal
  simp [shiftN_eq hm]

theorem mod_back {n i : Nat} {m : Int} (hi : i < n) : ((((((i : Int) - m) % n).toNat : Nat) + m : Int) % n).toNat = i := by
  rw [Int.sub_eq_add_neg, mod_step n (by omega), show (i : Int) + (-m + m) = i by omega, Int.emod_eq_of_lt (by omega) (by omega)]
  rfl

theorem eqDiagonal_ok {vs : List Nat} {m : VMap} (h : MOk T vty vs m) {v w : Nat} {mv mw : Int} {n : Nat}
    (hv : T.dims (vty v) = [n]) (hw : T.dims (vty w) = [n]) (bv : -(n : Int) ≤ mv ∧ mv ≤ n) (bw : -(n : Int) ≤ mw ∧ mw ≤ n) :
    MOk T vty vs (eqDiagonal T vty v w mv mw m) ∧
    ∀ ρ i j, m.Covers ρ → m.Present v → m.Present w → i < n → j < n → ρ v = [i] → ρ w = [j] →
      (((i : Int) - mv) % n).toNat = (((j : Int) - mw) % n).toNat → (v ≠ w ∨ (mv = 0 ∧ mw = 0)) →
      VMap.Covers (eqDiagonal T vty v w mv mw m) ρ := by
  have iv := at_in h.inn v
  have iw := at_in h.inn w
  rw [hv] at iv
  rw [hw] at iw
  have in1 := modifier_in iv (m := -mv) (by omega)
  have in2 := modifier_in iw (m := -mw) (by omega)
  have inn := overlaps_in in1 in2
  unfold eqDiagonal
  rw [hv, hw]
  generalize hN : overlaps ((m.at v).applyModifier (-mv) [n]) ((m.at w).applyModifier (-mw) [n]) = N at inn
  have h1 : MOk T vty vs (setKey (setKey m v N) w N) := (h.set (by rw [hv]; exact inn)).set (by rw [hw]; exact inn)
  have e1 : VMap.at (setKey (setKey m v N) w N) v = N := by
    rw [at_setKey, at_setKey, if_pos rfl]
    split <;> rfl
  have i1 : IVec.In [n] (N.applyModifier mv [n]) := modifier_in inn bv.1
  simp only [e1]
  have h2 : MOk T vty vs (setKey (setKey (setKey m v N) w N) v (N.applyModifier mv [n])) := h1.set (by rw [hv]; exact i1)
  have e2 : VMap.at (setKey (setKey (setKey m v N) w N) v (N.applyModifier mv [n])) w = if w = v then N.applyModifier mv [n] else N := by
    rw [at_setKey, at_setKey, if_pos rfl]
  have i2 : IVec.In [n] ((if w = v then N.applyModifier mv [n] else N).applyModifier mw [n]) := by
    apply modifier_in _ bw.1
    split
    · exact i1
    · exact inn
  rw [e2]
  refine ⟨h2.set (by rw [hw]; exact i2), ?_⟩
  intro ρ i j hc pv pw hi hj rv rw' heq hne
  have a1 := at_has hc pv
  have a2 := at_has hc pw
  rw [rv] at a1
  rw [rw'] at a2
  have b1 := modifier_one iv (m := -mv) (by omega) a1
  have b2 := modifier_one iw (m := -mw) (by omega) a2
  rw [← Int.sub_eq_add_neg] at b1 b2
  rw [← heq] at b2
  have b3 := overlaps_has in1 in2 b1 b2
  rw [hN] at b3
  have c1 : IVec.Has (N.applyModifier mv [n]) (ρ v) := by
    have := modifier_one inn bv.1 b3
    rw [mod_back hi] at this
    rw [rv]; exact this
  have c2 : IVec.Has ((if w = v then N.applyModifier mv [n] else N).applyModifier mw [n]) (ρ w) := by
    by_cases e : w = v
    · rw [if_pos e]
      rcases hne with hne | ⟨rfl, rfl⟩
      · exact absurd e.symm hne
      · rw [e, rv]
        rw [rv] at c1
        have := modifier_one i1 (m := 0) (by omega) c1
        rwa [Int.add_zero, Int.emod_eq_of_lt (by omega) (by omega), Int.toNat_natCast] at this
    · rw [if_neg e]
      rw [heq] at b3
      have := modifier_one inn bw.1 b3
      rw [mod_back hj] at this
      rw [rw']; exact this
  by_cases e : v = w
  · subst e
    rw [setKey_same, setKey_same, setKey_same]
    exact Covers.set hc c2
  · rw [setKey_mid _ _ _ _ _ _ e, setKey_same]
    exact Covers.set (Covers.set hc c1) c2

theorem eqConstant_ok (hn : ∀ v, ∀ n ∈ T.dims (vty v), 0 < n) {vs : List Nat} {m : VMap} (h : MOk T vty vs m) {v : Nat} {mv : Int}
    (hv : T.dims (vty v) = [T.basic (vty v)]) (bv : -(T.basic (vty v) : Int) ≤ mv) {c : Color} :
    MOk T vty vs (eqConstant T vty v mv c m) ∧
    ∀ ρ i, m.Covers ρ → m.Present v → i < T.basic (vty v) → ρ v = [i] → (((i : Int) - mv) % T.basic (vty v)).toNat = c.id →
      VMap.Covers (eqConstant T vty v mv c m) ρ := by
  have hpos : 0 < T.basic (vty v) := hn v _ (by rw [hv]; exact List.mem_singleton.2 rfl)
  have hsz : T.size (vty v) = T.basic (vty v) := by rw [size_eq, hv]; simp
  have iv := at_in h.inn v
  have ic : IVec.In (T.dims (vty v)) [[⟨shiftN 32 (T.size (vty v)) mv c.id, shiftN 32 (T.size (vty v)) mv c.id⟩]] := by
    intro j hj
    rw [List.mem_singleton] at hj
    subst hj
    rw [hv]
    exact ⟨⟨Nat.le_refl _, by rw [hsz]; exact shiftN_lt hpos⟩, trivial⟩
  unfold eqConstant
  refine ⟨h.set (overlaps_in iv ic), ?_⟩
  intro ρ i hc pv hi rv he
  refine Covers.set hc (overlaps_has iv ic (at_has hc pv) ?_)
  refine ⟨_, List.mem_singleton.2 rfl, ?_⟩
  have : shiftN 32 (T.size (vty v)) mv c.id = i := by
    rw [hsz, shiftN_eq bv, ← he]
    exact mod_back hi
  rw [rv, this]
  exact ⟨⟨Nat.le_refl _, Nat.le_refl _⟩, trivial⟩

theorem foldl_inv {α : Type} {P : VMap → Prop} {f : VMap → α → VMap} (l : List α) (hf : ∀ q ∈ l, ∀ m, P m → P (f m q)) (m : VMap) (h : P m) :
    P (l.foldl f m) := by
  induction l generalizing m with
  | nil => exact h
  | cons q l ih => exact ih (fun r hr => hf r (List.mem_cons_of_mem _ hr)) _ (hf q List.mem_cons_self m h)

/-- the shape of an equality for which the restriction is right: a variable that is compared with itself has no modifiers -/
def eqShape (l r : Side) : Bool := l.pos.all fun q =>
  match r.pos.lookup q.1 with
  | some w => decide (q.2 ≠ w) || (decide (l.modOf q.2 q.1 = 0) && decide (r.modOf w q.1 = 0))
  | none => true

theorem restrictEq_ok (hn : ∀ v, ∀ n ∈ T.dims (vty v), 0 < n) {ρ : Nat → Val} {vs : List Nat} {x y : Val} {l r : Side}
    (hl : SideOk T vty ρ vs x l) (hr : SideOk T vty ρ vs y r)
    (hd : ∀ q ∈ l.pos, ∀ w, r.pos.lookup q.1 = some w → T.basic (vty q.2) = T.basic (vty w)) (hsh : eqShape l r = true)
    {m : VMap} (h : MOk T vty vs m) :
    MOk T vty vs (restrictEq T vty l r m) ∧ (m.Covers ρ → x = y → VMap.Covers (restrictEq T vty l r m) ρ) := by
  by_cases hc : m.Covers ρ ∧ x = y
  · have : MOk T vty vs (restrictEq T vty l r m) ∧ VMap.Covers (restrictEq T vty l r m) ρ := by
      obtain ⟨hc, rfl⟩ := hc
      unfold restrictEq
      refine foldl_inv (P := fun m => MOk T vty vs m ∧ m.Covers ρ) _ ?_ _ (foldl_inv (P := fun m => MOk T vty vs m ∧ m.Covers ρ) _ ?_ _ ⟨h, hc⟩)
      · intro q hq m hm
        obtain ⟨g0, g1, g2, g3, i, g4, g5, g6⟩ := hr.pos q hq
        cases hl' : l.consts.lookup q.1 with
        | none => exact hm
        | some c =>
          have k := eqConstant_ok hn hm.1 (v := q.2) (mv := r.modOf q.2 q.1) g1 g2 (c := c)
          have e := hl.consts _ (lookup_mem' hl')
          rw [g6, Option.some.injEq] at e
          exact ⟨k.1, k.2 ρ i hm.2 (hm.1.pres _ g0) g4 g5 e⟩
      · intro q hq m hm
        obtain ⟨g0, g1, g2, g3, i, g4, g5, g6⟩ := hl.pos q hq
        cases hr' : r.pos.lookup q.1 with
        | some w =>
          obtain ⟨f0, f1, f2, f3, j, f4, f5, f6⟩ := hr.pos _ (lookup_mem' hr')
          have hdd := hd q hq w hr'
          simp only at f0 f1 f2 f3 f4 f5 f6
          rw [← hdd] at f1 f2 f3 f4 f6
          have k := eqDiagonal_ok hm.1 (v := q.2) (w := w) g1 f1 ⟨g2, g3⟩ ⟨f2, f3⟩
          rw [g6, Option.some.injEq] at f6
          have hs := List.all_eq_true.1 hsh q hq
          rw [hr'] at hs
          simp only [Bool.or_eq_true, Bool.and_eq_true, decide_eq_true_eq] at hs
          exact ⟨k.1, k.2 ρ i j hm.2 (hm.1.pres _ g0) (hm.1.pres _ f0) g4 f4 g5 f5 f6 hs⟩
        | none =>
          cases hc' : r.consts.lookup q.1 with
          | none => exact hm
          | some c =>
            have k := eqConstant_ok hn hm.1 (v := q.2) (mv := l.modOf q.2 q.1) g1 g2 (c := c)
            have e := hr.consts _ (lookup_mem' hc')
            rw [g6, Option.some.injEq] at e
            exact ⟨k.1, k.2 ρ i hm.2 (hm.1.pres _ g0) g4 g5 e⟩
    exact ⟨this.1, fun _ _ => this.2⟩
  · refine ⟨?_, fun h1 h2 => absurd ⟨h1, h2⟩ hc⟩
    unfold restrictEq
    refine foldl_inv (P := fun m => MOk T vty vs m) _ ?_ _ (foldl_inv (P := fun m => MOk T vty vs m) _ ?_ _ h)
    · intro q hq m hm
      obtain ⟨g0, g1, g2, g3, i, g4, g5, g6⟩ := hr.pos q hq
      cases hl' : l.consts.lookup q.1 with
      | none => exact hm
      | some c => exact (eqConstant_ok hn hm (v := q.2) (mv := r.modOf q.2 q.1) g1 g2 (c := c)).1
    · intro q hq m hm
      obtain ⟨g0, g1, g2, g3, i, g4, g5, g6⟩ := hl.pos q hq
      cases hr' : r.pos.lookup q.1 with
      | some w =>
        obtain ⟨f0, f1, f2, f3, j, f4, f5, f6⟩ := hr.pos _ (lookup_mem' hr')
        have hdd := hd q hq w hr'
        simp only at f0 f1 f2 f3 f4 f5 f6
        rw [← hdd] at f1 f2 f3 f4 f6
        exact (eqDiagonal_ok hm (v := q.2) (w := w) g1 f1 ⟨g2, g3⟩ ⟨f2, f3⟩).1
      | none =>
        cases hc' : r.consts.lookup q.1 with
        | none => exact hm
        | some c => exact (eqConstant_ok hn hm (v := q.2) (mv := l.modOf q.2 q.1) g1 g2 (c := c)).1

/-! ### Order -/

theorem byConstant_ok {vs : List Nat} {m : VMap} (h : MOk T vty vs m) {v : Nat} {c : Color} {upper strict : Bool} :
    MOk T vty vs (byConstant v c upper strict m) ∧
    ∀ ρ i, m.Covers ρ → m.Present v → ρ v = [i] →
      (if upper then (if strict then i < c.id else i ≤ c.id) else (if strict then c.id < i else c.id ≤ i)) →
      VMap.Covers (byConstant v c upper strict m) ρ := by
  have iv := at_in h.inn v
  unfold byConstant
  cases upper with
  | true =>
    refine ⟨h.set (iv.constrainUpper _ _), fun ρ i hc pv rv hlt => Covers.set hc ?_⟩
    refine constrainUpper_has (at_has hc pv) ?_
    rw [rv]
    exact ⟨hlt, trivial⟩
  | false =>
    refine ⟨h.set (iv.constrainLower _ _), fun ρ i hc pv rv hlt => Covers.set hc ?_⟩
    refine constrainLower_has (at_has hc pv) ?_
    rw [rv]
    exact ⟨hlt, trivial⟩

theorem lowerIdsMod_nil (m : Int) (sizes : List Nat) (v : IVec) : v.lowerIdsMod m sizes = [] := by
  unfold IVec.lowerIdsMod
  induction v with
  | nil => rfl
  | cons i v ih => exact ih

theorem upperIdsMod_nil (m : Int) (sizes : List Nat) (v : IVec) : v.upperIdsMod m sizes = [] := by
  unfold IVec.upperIdsMod
  induction v with
  | nil => rfl
  | cons i v ih => exact ih

theorem diagonal_ok {vs : List Nat} {m : VMap} (h : MOk T vty vs m) {v w : Nat} {mv mw : Int} {strict : Bool} :
    MOk T vty vs (diagonal T vty v w mv mw strict m) ∧
    ∀ ρ, m.Covers ρ → m.Present v → m.Present w → VMap.Covers (diagonal T vty v w mv mw strict m) ρ := by
  unfold diagonal
  rw [lowerIdsMod_nil, upperIdsMod_nil]
  have h1 : MOk T vty vs (setKey m v ((m.at v).constrainUpper [] strict)) := h.set ((at_in h.inn v).constrainUpper _ _)
  refine ⟨h1.set ((at_in h1.inn w).constrainLower _ _), ?_⟩
  intro ρ hc pv pw
  have c1 : VMap.Covers (setKey m v ((m.at v).constrainUpper [] strict)) ρ := Covers.set hc (constrainUpper_has (at_has hc pv) trivial)
  exact Covers.set c1 (constrainLower_has (at_has c1 (present_set pw)) trivial)

/-- the shape of an order for which the restriction is right: no modifiers where a variable is compared with a constant -/
def lessShape (l r : Side) : Bool :=
  (l.pos.all fun q => (r.pos.lookup q.1).isSome || (r.consts.lookup q.1).isNone || decide (l.modOf q.2 q.1 = 0)) &&
  r.pos.all fun q => (l.consts.lookup q.1).isNone || decide (r.modOf q.2 q.1 = 0)

theorem restrictLess_in {vs : List Nat} {l r : Side} {strict : Bool}
    {m : VMap} (h : MOk T vty vs m) : MOk T vty vs (restrictLess T vty strict l r m) := by
  unfold restrictLess
  refine foldl_inv (P := fun m => MOk T vty vs m) _ ?_ _ (foldl_inv (P := fun m => MOk T vty vs m) _ ?_ _ h)
  · intro q hq m hm
    cases l.consts.lookup q.1 with
    | none => exact hm
    | some c => exact (byConstant_ok hm).1
  · intro q hq m hm
    cases r.pos.lookup q.1 with
    | some w => exact (diagonal_ok hm).1
    | none =>
      cases r.consts.lookup q.1 with
      | none => exact hm
      | some c => exact (byConstant_ok hm).1

theorem restrictLess_ok {ρ : Nat → Val} {vs : List Nat} {i j : Nat} {l r : Side} {strict : Bool}
    (hl : SideOk T vty ρ vs [i] l) (hr : SideOk T vty ρ vs [j] r) (hsh : lessShape l r = true)
    {m : VMap} (h : MOk T vty vs m) (hc : m.Covers ρ) (hlt : if strict then i < j else i ≤ j) :
    VMap.Covers (restrictLess T vty strict l r m) ρ := by
  unfold lessShape at hsh
  rw [Bool.and_eq_true, List.all_eq_true, List.all_eq_true] at hsh
  have zero : ∀ {k a b : Nat}, ([a] : Val)[k]? = some b → a = b := by
    intro k a b hk
    cases k with
    | zero => simpa using hk
    | succ k => simp at hk
  have nomod : ∀ {a n : Nat} {mm : Int}, a < n → mm = 0 → (((a : Int) - mm) % n).toNat = a := by
    intro a n mm ha hm
    rw [hm, Int.sub_zero, Int.emod_eq_of_lt (by omega) (by omega)]; rfl
  have : MOk T vty vs (restrictLess T vty strict l r m) ∧ VMap.Covers (restrictLess T vty strict l r m) ρ := by
    unfold restrictLess
    refine foldl_inv (P := fun m => MOk T vty vs m ∧ m.Covers ρ) _ ?_ _ (foldl_inv (P := fun m => MOk T vty vs m ∧ m.Covers ρ) _ ?_ _ ⟨h, hc⟩)
    · intro q hq m hm
      obtain ⟨g0, g1, g2, g3, a, g4, g5, g6⟩ := hr.pos q hq
      have hs := hsh.2 q hq
      cases hl' : l.consts.lookup q.1 with
      | none => exact hm
      | some c =>
        rw [hl'] at hs
        simp only [Option.isNone_some, Bool.false_or, decide_eq_true_eq] at hs
        have k := byConstant_ok hm.1 (v := q.2) (c := c) (upper := false) (strict := strict)
        have e1 := zero (hl.consts _ (lookup_mem' hl'))
        have e2 := zero g6
        rw [nomod g4 hs] at e2
        simp only at e1
        refine ⟨k.1, k.2 ρ a hm.2 (hm.1.pres _ g0) g5 ?_⟩
        rw [← e1, ← e2]
        exact hlt
    · intro q hq m hm
      obtain ⟨g0, g1, g2, g3, a, g4, g5, g6⟩ := hl.pos q hq
      have hs := hsh.1 q hq
      cases hr' : r.pos.lookup q.1 with
      | some w =>
        obtain ⟨f0, _⟩ := hr.pos _ (lookup_mem' hr')
        have k := diagonal_ok hm.1 (v := q.2) (w := w) (mv := l.modOf q.2 q.1) (mw := r.modOf w q.1) (strict := strict)
        exact ⟨k.1, k.2 ρ hm.2 (hm.1.pres _ g0) (hm.1.pres _ f0)⟩
      | none =>
        cases hc' : r.consts.lookup q.1 with
        | none => exact hm
        | some c =>
          rw [hr', hc'] at hs
          simp only [Option.isSome_none, Option.isNone_some, Bool.false_or, decide_eq_true_eq] at hs
          have k := byConstant_ok hm.1 (v := q.2) (c := c) (upper := true) (strict := strict)
          have e1 := zero (hr.consts _ (lookup_mem' hc'))
          have e2 := zero g6
          rw [nomod g4 hs] at e2
          simp only at e1
          refine ⟨k.1, k.2 ρ a hm.2 (hm.1.pres _ g0) g5 ?_⟩
          rw [← e1, ← e2]
          exact hlt
  exact this.2

/-! ### Inequality -/

theorem addAll_one {n : Nat} {v : IVec} {l : List Interval} (hv : IVec.In [n] v) (hl : IVec.In [n] l) {x : Val}
    (h : IVec.Has (IVec.addAll v l) x) : IVec.Has v x ∨ IVec.Has l x := by
  induction l generalizing v with
  | nil => exact Or.inl h
  | cons i l ih =>
    have hi := hl i List.mem_cons_self
    rcases ih (hv.add hi) (fun j hj => hl j (List.mem_cons_of_mem _ hj)) h with h | ⟨j, hj, hx⟩
    · rcases (IVec.add_one hv hi).1 h with h | h
      · exact Or.inl h
      · exact Or.inr ⟨i, List.mem_cons_self, h⟩
    · exact Or.inr ⟨j, List.mem_cons_of_mem _ hj, hx⟩

/-- In one dimension the overlap is exact. -/
theorem overlaps_one {n : Nat} {v w : IVec} (hv : IVec.In [n] v) (hw : IVec.In [n] w) {x : Val} :
    IVec.Has (overlaps v w) x ↔ IVec.Has v x ∧ IVec.Has w x := by
  refine ⟨fun h => ?_, fun h => overlaps_has hv hw h.1 h.2⟩
  unfold overlaps at h
  have hin : IVec.In [n] (((v.map fun i => w.map fun j => i.overlap j).flatten).filter fun i => i.sound) := by
    intro k hk
    obtain ⟨hk, hs⟩ := List.mem_filter.1 hk
    obtain ⟨l, hl, hk⟩ := List.mem_flatten.1 hk
    obtain ⟨i, hi, rfl⟩ := List.mem_map.1 hl
    obtain ⟨j, hj, rfl⟩ := List.mem_map.1 hk
    exact (hv i hi).overlap (hw j hj) hs
  rcases addAll_one (nil_in _) hin h with ⟨_, h, _⟩ | ⟨k, hk, hx⟩
  · cases h
  · obtain ⟨hk, _⟩ := List.mem_filter.1 hk
    obtain ⟨l, hl, hk⟩ := List.mem_flatten.1 hk
    obtain ⟨i, hi, rfl⟩ := List.mem_map.1 hl
    obtain ⟨j, hj, rfl⟩ := List.mem_map.1 hk
    have := (Interval.overlap_has (by rw [(hv i hi).length, (hw j hj).length])).1 hx
    exact ⟨⟨i, hi, this.1⟩, ⟨j, hj, this.2⟩⟩

theorem subtract_in {n : Nat} {o s : Interval} (ho : Interval.In [n] o) (hs : Interval.In [n] s) : IVec.In [n] (o.subtract s) := by
  match o, s, ho, hs with
  | [r], [t], ho, hs =>
    have h1 := ho.1
    have h2 := hs.1
    unfold Interval.subtract
    rw [if_pos (show [r].length = [t].length from rfl)]
    unfold Interval.subtractFrom
    simp only [List.nil_append]
    intro j hj
    have base : ∀ pre : List Rng, Interval.subtractFrom pre [] [] = [] := fun pre => by unfold Interval.subtractFrom; rfl
    simp only [base] at hj
    have fin : ∀ a b : Nat, a ≤ b → b < n → j = [⟨a, b⟩] → Interval.In [n] j := by
      intro a b hab hb e; subst e; exact ⟨⟨hab, hb⟩, trivial⟩
    split at hj
    · rename_i c
      rcases List.mem_cons.1 hj with hj | hj
      · exact fin _ _ c.2 h1.2 hj
      · rcases List.mem_cons.1 hj with hj | hj
        · exact fin _ _ (by omega) (by omega) hj
        · cases hj
    · split at hj
      · split at hj
        · exact fin _ _ (by omega) (by omega) (List.mem_singleton.1 hj)
        · exact fin _ _ (by omega) (by omega) (List.mem_singleton.1 hj)
      · split at hj
        · rename_i c
          split at hj
          · exact fin _ _ c (by omega) (List.mem_singleton.1 hj)
          · exact fin _ _ c (by omega) (List.mem_singleton.1 hj)
        · cases hj
  | [], _, ho, _ => exact ho.elim
  | _, [], _, hs => exact hs.elim
  | _ :: _ :: _, _, ho, _ => exact ho.2.elim
  | _, _ :: _ :: _, _, hs => exact hs.2.elim

theorem invertBox_in {n : Nat} {o : Interval} (ho : Interval.In [n] o) (is : IVec) (hi : IVec.In [n] is) : IVec.In [n] (invertBox o is) := by
  unfold invertBox
  have key : ∀ (is : IVec) (res : IVec), IVec.In [n] is → IVec.In [n] res → IVec.In [n] (is.foldl (fun res i =>
      if res.isEmpty then o.subtract i
      else ((res.map fun c => (o.subtract i).map fun d => c.overlap d).flatten).filter fun j => j.sound) res) := by
    intro is
    induction is with
    | nil => intro res _ h; exact h
    | cons i is ih =>
      intro res his h
      have hi := his i List.mem_cons_self
      refine ih _ (fun j hj => his j (List.mem_cons_of_mem _ hj)) ?_
      simp only
      split
      · exact subtract_in ho hi
      · intro k hk
        obtain ⟨hk, hs⟩ := List.mem_filter.1 hk
        obtain ⟨l, hl, hk⟩ := List.mem_flatten.1 hk
        obtain ⟨c, hc, rfl⟩ := List.mem_map.1 hl
        obtain ⟨d, hd, rfl⟩ := List.mem_map.1 hk
        exact (h c hc).overlap (subtract_in ho hi d hd) hs
  exact key is [] hi (nil_in _)

theorem invertBox_has {n : Nat} {o : Interval} (ho : Interval.In [n] o) (is : IVec) (hi : IVec.In [n] is) {x : Val} (hx : Interval.Has o x)
    (hnx : ∀ i ∈ is, ¬ Interval.Has i x) (hne : is ≠ []) : IVec.Has (invertBox o is) x := by
  unfold invertBox
  have key : ∀ (is : IVec) (res : IVec), IVec.In [n] is → IVec.In [n] res → (∀ i ∈ is, ¬ Interval.Has i x) → (res ≠ [] → IVec.Has res x) →
      (res ≠ [] ∨ is ≠ []) → IVec.Has (is.foldl (fun res i =>
      if res.isEmpty then o.subtract i
      else ((res.map fun c => (o.subtract i).map fun d => c.overlap d).flatten).filter fun j => j.sound) res) x := by
    intro is
    induction is with
    | nil => intro res _ _ _ h h'; exact h (by simpa using h')
    | cons i is ih =>
      intro res his hri hnx h _
      have hi := his i List.mem_cons_self
      have hsub : IVec.Has (o.subtract i) x := (Interval.subtract_has (by rw [ho.length, hi.length])).2 ⟨hx, hnx i List.mem_cons_self⟩
      rw [List.foldl_cons]
      have step : IVec.Has (if res.isEmpty then o.subtract i
          else ((res.map fun c => (o.subtract i).map fun d => c.overlap d).flatten).filter fun j => j.sound) x ∧
          IVec.In [n] (if res.isEmpty then o.subtract i
          else ((res.map fun c => (o.subtract i).map fun d => c.overlap d).flatten).filter fun j => j.sound) := by
        by_cases hr : res = []
        · subst hr
          exact ⟨hsub, subtract_in ho hi⟩
        · have : res.isEmpty = false := by cases res with | nil => exact absurd rfl hr | cons => rfl
          rw [this, if_neg Bool.false_ne_true]
          obtain ⟨c, hc, hcx⟩ := h hr
          obtain ⟨d, hd, hdx⟩ := hsub
          have hov : Interval.Has (c.overlap d) x :=
            (Interval.overlap_has (by rw [(hri c hc).length, (subtract_in ho hi d hd).length])).2 ⟨hcx, hdx⟩
          refine ⟨⟨c.overlap d, List.mem_filter.2 ⟨List.mem_flatten.2 ⟨_, List.mem_map.2 ⟨c, hc, rfl⟩, List.mem_map.2 ⟨d, hd, rfl⟩⟩, hov.sound⟩, hov⟩, ?_⟩
          intro k hk
          obtain ⟨hk, hs⟩ := List.mem_filter.1 hk
          obtain ⟨l, hl, hk⟩ := List.mem_flatten.1 hk
          obtain ⟨c, hc, rfl⟩ := List.mem_map.1 hl
          obtain ⟨d, hd, rfl⟩ := List.mem_map.1 hk
          exact (hri c hc).overlap (subtract_in ho hi d hd) hs
      refine ih _ (fun j hj => his j (List.mem_cons_of_mem _ hj)) step.2 (fun j hj => hnx j (List.mem_cons_of_mem _ hj)) (fun _ => step.1) (Or.inl ?_)
      intro e
      rw [e] at step
      obtain ⟨⟨_, hh, _⟩, _⟩ := step
      cases hh
  exact key is [] hi (nil_in _) hnx (fun h => absurd rfl h) (Or.inr hne)

theorem invert_in {n : Nat} {is old : IVec} (hi : IVec.In [n] is) (ho : IVec.In [n] old) : IVec.In [n] (invertIntervals is old) := by
  refine IVec.In.addAll (nil_in _) fun j hj => ?_
  obtain ⟨l, hl, hj⟩ := List.mem_flatten.1 hj
  obtain ⟨o, hoo, rfl⟩ := List.mem_map.1 hl
  exact invertBox_in (ho o hoo) is hi j hj

/-- The values that are left when boxes are taken away. -/
theorem invert_has {n : Nat} {is old : IVec} (hi : IVec.In [n] is) (ho : IVec.In [n] old) {x : Val} (hx : IVec.Has old x)
    (hnx : ¬ IVec.Has is x) (hne : is ≠ []) : IVec.Has (invertIntervals is old) x := by
  obtain ⟨o, hoo, hox⟩ := hx
  obtain ⟨j, hj, hjx⟩ := invertBox_has (ho o hoo) is hi hox (fun i hi hh => hnx ⟨i, hi, hh⟩) hne
  exact IVec.addAll_has_right [] ⟨j, List.mem_flatten.2 ⟨_, List.mem_map.2 ⟨o, hoo, rfl⟩, hj⟩, hjx⟩

theorem neConstant_in {vs : List Nat} {old m : VMap} (ho : MOk T vty vs old) (h : MOk T vty vs m) {v : Nat} {n : Nat} (hv : T.dims (vty v) = [n]) :
    MOk T vty vs (neConstant old v m) := by
  have io := at_in ho.inn v
  have im := at_in h.inn v
  rw [hv] at io im
  unfold neConstant
  simp only
  split
  · exact h.set (by rw [hv]; exact io)
  · split
    · exact h.set (by rw [hv]; exact invert_in im io)
    · split
      · exact h.set (nil_in _)
      · exact h

theorem total_pos {w : IVec} {x : Val} (h : IVec.Has w x) : 0 < w.total := by
  rw [← length_ivals]
  exact List.length_pos_of_mem ((mem_ivals w x).2 h)

theorem total_two {w : IVec} {x y : Val} (h1 : IVec.Has w x) (h2 : IVec.Has w y) (hne : x ≠ y) : 1 < w.total := by
  rw [← length_ivals]
  have m1 := (mem_ivals w x).2 h1
  have m2 := (mem_ivals w y).2 h2
  match hw : w.vals with
  | [] => rw [hw] at m1; cases m1
  | [a] =>
    rw [hw, List.mem_singleton] at m1 m2
    exact absurd (m1.trans m2.symm) hne
  | _ :: _ :: _ => simp

/-- A variable that differs from a constant. -/
theorem ne_covers (hn : ∀ v, ∀ n ∈ T.dims (vty v), 0 < n) {ρ : Nat → Val} {vs : List Nat} {old : VMap} (ho : MOk T vty vs old) (hc : old.Covers ρ)
    {v i : Nat} {mv : Int} {c : Color} (hv : T.dims (vty v) = [T.basic (vty v)]) (bv : -(T.basic (vty v) : Int) ≤ mv) (pv : old.Present v)
    (hi : i < T.basic (vty v)) (rv : ρ v = [i]) (hid : c.id < T.basic (vty v)) (hne : (((i : Int) - mv) % T.basic (vty v)).toNat ≠ c.id)
    (hsm : (old.at v).total < W32) : VMap.Covers (neConstant old v (eqConstant T vty v mv c old)) ρ := by
  have hpos : 0 < T.basic (vty v) := by omega
  have hsz : T.size (vty v) = T.basic (vty v) := by rw [size_eq, hv]; simp
  have iv := at_in ho.inn v
  have hx := at_has hc pv
  unfold eqConstant
  simp only
  generalize ha : shiftN 32 (T.size (vty v)) mv c.id = a
  have hia : i ≠ a := by
    rintro rfl
    apply hne
    rw [hsz, shiftN_eq bv] at ha
    rw [← ha, Int.sub_eq_add_neg, mod_step _ hpos, show (c.id : Int) + (mv + -mv) = c.id by omega, Int.emod_eq_of_lt (by omega) (by omega)]
    rfl
  have ic : IVec.In [T.basic (vty v)] [[⟨a, a⟩]] := by
    intro j hj
    rw [List.mem_singleton] at hj
    subst hj
    exact ⟨⟨Nat.le_refl _, by rw [← ha, hsz]; exact shiftN_lt hpos⟩, trivial⟩
  rw [hv] at iv
  have hN : ∀ y, IVec.Has (overlaps (old.at v) [[⟨a, a⟩]]) y → IVec.Has (old.at v) y ∧ y = [a] := by
    intro y hy
    obtain ⟨h1, j, hj, h2⟩ := (overlaps_one iv ic).1 hy
    refine ⟨h1, ?_⟩
    rw [List.mem_singleton] at hj
    subst hj
    match y, h2 with
    | [b], h2 => have := h2.1; simp only at this; rw [show b = a by omega]
    | [], h2 => exact h2.elim
    | _ :: _ :: _, h2 => exact h2.2.elim
  have inN := overlaps_in iv ic
  unfold neConstant
  simp only
  rw [at_setKey, if_pos rfl, setKey_same, setKey_same, setKey_same]
  generalize overlaps (old.at v) [[⟨a, a⟩]] = N at *
  have hW : (old.at v).count = (old.at v).total := by rw [count_eq, Nat.mod_eq_of_lt hsm]
  have hWp := total_pos hx
  by_cases c1 : (old.at v).count ≠ 0 ∧ N.count = 0
  · rw [if_pos c1]
    exact Covers.set hc hx
  · rw [if_neg c1]
    have hNc : N.count ≠ 0 := fun h => c1 ⟨by omega, h⟩
    have hNn : N ≠ [] := by rintro rfl; exact hNc rfl
    obtain ⟨b, hb⟩ := List.exists_mem_of_ne_nil N hNn
    have hbl := Interval.lower_mem b (inN b hb).sound
    obtain ⟨hbo, hba⟩ := hN _ ⟨b, hb, hbl⟩
    have htwo := total_two hx hbo (by rw [hba, rv]; simpa using hia)
    rw [if_pos (by omega)]
    refine Covers.set hc (invert_has inN iv hx ?_ hNn)
    intro hh
    have := (hN _ hh).2
    rw [rv] at this
    simp at this
    exact hia this

/-- the shape of an inequality for which the restriction is right: a variable and a constant -/
def neShape (l r : Side) : Bool :=
  match l.pos, r.pos with
  | [q], [] => (r.consts.lookup q.1).isSome
  | [], [q] => (l.consts.lookup q.1).isSome
  | [], [] => true
  | _, _ => false

/-- the number of colours in the intervals does not exceed 32 bits -/
def neSmall (l r : Side) (m : VMap) : Bool := (l.pos ++ r.pos).all fun q => decide ((m.at q.2).total < W32)

theorem restrictNe_in (hn : ∀ v, ∀ n ∈ T.dims (vty v), 0 < n) {ρ : Nat → Val} {vs : List Nat} {x y : Val} {l r : Side}
    (hl : SideOk T vty ρ vs x l) (hr : SideOk T vty ρ vs y r) (hsh : neShape l r = true)
    {m : VMap} (h : MOk T vty vs m) : MOk T vty vs (restrictNe T vty l r m) := by
  have he : ∀ q ∈ l.pos, ∀ w, r.pos.lookup q.1 = some w → False := by
    intro q hq w hw
    unfold neShape at hsh
    split at hsh
    · rename_i e1 e2; rw [e2] at hw; cases hw
    · rename_i e1 e2; rw [e1] at hq; cases hq
    · rename_i e1 e2; rw [e1] at hq; cases hq
    · cases hsh
  have h1 := (restrictEq_ok hn hl hr (fun q hq w hw => (he q hq w hw).elim) (by
    unfold eqShape
    rw [List.all_eq_true]
    intro q hq
    cases hw : r.pos.lookup q.1 with
    | none => rfl
    | some w => exact (he q hq w hw).elim) h).1
  unfold restrictNe
  refine foldl_inv (P := fun m => MOk T vty vs m) _ ?_ _ (foldl_inv (P := fun m => MOk T vty vs m) _ ?_ _ h1)
  · intro q hq m' hm
    split
    · exact neConstant_in h hm (hr.pos q hq).2.1
    · exact hm
  · intro q hq m' hm
    cases hw : r.pos.lookup q.1 with
    | some w => exact (he q hq w hw).elim
    | none => exact neConstant_in h hm (hl.pos q hq).2.1

theorem restrictNe_ok (hn : ∀ v, ∀ n ∈ T.dims (vty v), 0 < n) {ρ : Nat → Val} {vs : List Nat} {i j n : Nat} {l r : Side}
    (hl : SideOk T vty ρ vs [i] l) (hr : SideOk T vty ρ vs [j] r) (hsh : neShape l r = true) (hi : i < n) (hj : j < n)
    (hbl : ∀ q ∈ l.pos, T.basic (vty q.2) = n) (hbr : ∀ q ∈ r.pos, T.basic (vty q.2) = n)
    {m : VMap} (h : MOk T vty vs m) (hc : m.Covers ρ) (hne : i ≠ j) (hsm : neSmall l r m = true) :
    VMap.Covers (restrictNe T vty l r m) ρ := by
  have zero : ∀ {k a b : Nat}, ([a] : Val)[k]? = some b → a = b := by
    intro k a b hk
    cases k with
    | zero => simpa using hk
    | succ k => simp at hk
  unfold neSmall at hsm
  rw [List.all_eq_true] at hsm
  unfold neShape at hsh
  split at hsh
  · rename_i q e1 e2
    obtain ⟨g0, g1, g2, g3, a, g4, g5, g6⟩ := hl.pos q (by rw [e1]; exact List.mem_singleton.2 rfl)
    cases hk : r.consts.lookup q.1 with
    | none => rw [hk] at hsh; cases hsh
    | some c =>
      have ec := zero (hr.consts _ (lookup_mem' hk))
      simp only at ec
      have ex := zero g6
      have hb := hbl q (by rw [e1]; exact List.mem_singleton.2 rfl)
      have := ne_covers hn h hc (v := q.2) (mv := l.modOf q.2 q.1) (c := c) g1 g2 (h.pres _ g0) g4 g5 (by omega) (by omega)
        (of_decide_eq_true (hsm q (by rw [e1]; exact List.mem_cons_self)))
      unfold restrictNe restrictEq
      rw [e1, e2]
      simp only [List.foldl_cons, List.foldl_nil, List.lookup_nil, hk]
      exact this
  · rename_i q e1 e2
    obtain ⟨g0, g1, g2, g3, a, g4, g5, g6⟩ := hr.pos q (by rw [e2]; exact List.mem_singleton.2 rfl)
    cases hk : l.consts.lookup q.1 with
    | none => rw [hk] at hsh; cases hsh
    | some c =>
      have ec := zero (hl.consts _ (lookup_mem' hk))
      simp only at ec
      have ex := zero g6
      have hb := hbr q (by rw [e2]; exact List.mem_singleton.2 rfl)
      have := ne_covers hn h hc (v := q.2) (mv := r.modOf q.2 q.1) (c := c) g1 g2 (h.pres _ g0) g4 g5 (by omega) (by omega)
        (of_decide_eq_true (hsm q (by rw [e1, e2]; exact List.mem_cons_self)))
      unfold restrictNe restrictEq
      rw [e1, e2]
      simp only [List.foldl_cons, List.foldl_nil, List.lookup_nil, hk, Option.isNone_none, if_true]
      exact this
  · rename_i e1 e2
    unfold restrictNe restrictEq
    rw [e1, e2]
    exact hc
  · cases hsh

end CFP
end Verif
