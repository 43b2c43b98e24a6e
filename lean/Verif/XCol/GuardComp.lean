import Verif.XCol.CompLemmas

/-!
# Compiled guards have the truth of the guards
-/

namespace Verif
namespace XCol
open Colored CPN OffsetsProps

variable {T : Types} {vty : Nat → Nat}

/-- Constants of product types do not occur in guards. -/
def guardConst (T : Types) : Guard → Prop
  | .lt _ _ => True
  | .le _ _ => True
  | .eq a b => constOK T a ∧ constOK T b
  | .ne a b => constOK T a ∧ constOK T b
  | .and g h => guardConst T g ∧ guardConst T h
  | .or g h => guardConst T g ∧ guardConst T h

/-- the colour before the offset -/
def GV.base (b : Bind) (g : GV) : Nat := if g.isVar then b g.value else g.value

theorem gvVars_cons (c : GV) (cs : List GV) : gvVars (c :: cs) = gvVars [c] ++ gvVars cs := by
  unfold gvVars
  by_cases h : c.isVar = true <;> simp [h]

theorem gv_result (b : Bind) (g : GV) (h : 0 < g.max) : g.result.get b = (addColorOffset (g.base b) g.offset g.max).toNat ∧ gvVars [g.result] = gvVars [g] := by
  obtain ⟨iv, va, off, mx⟩ := g
  cases iv <;> exact ⟨rfl, rfl⟩

theorem visit_ok (w : TFit T) {b : Bind} : (e : CExpr) → {ty : Nat} → {g : GV} → T.parts ty = none → HasTy T vty e ty →
    Bound T vty b e.vars → visitGV T vty e = some g → g.max = T.basic ty ∧
      den T vty (asg T vty b) e = [(addColorOffset (g.base b) g.offset g.max).toNat] ∧ gvVars [g] = e.vars
  | .dot, ty, g, hp, h, _, hg => by simp [visitGV] at hg
  | .var v, ty, g, hp, h, hb, hg => by
    rw [HasTy] at h
    subst h
    rw [visitGV] at hg
    obtain rfl := Option.some.inj hg
    have hv := hb v (by simp [CExpr.vars])
    refine ⟨size_plain hp, ?_, rfl⟩
    simp only [GV.base, if_true]
    rw [off_zero hv]
    rw [size_plain hp] at hv
    rw [den, asg, dims_plain hp]
    simp [unrank, Nat.mod_eq_of_lt hv]
  | .const c, ty, g, hp, h, _, hg => by
    rw [HasTy] at h
    obtain ⟨rfl, hc⟩ := h
    rw [visitGV] at hg
    obtain rfl := Option.some.inj hg
    refine ⟨size_plain hp, ?_, rfl⟩
    simp only [GV.base, Bool.false_eq_true, if_false]
    rw [off_zero hc, den]
    exact value_plain T hp hc
  | .succ e, ty, g, hp, h, hb, hg => by
    rw [HasTy] at h
    rw [visitGV] at hg
    rw [CExpr.vars] at hb
    cases h0 : visitGV T vty e with
    | none => simp [h0] at hg
    | some g0 =>
      rw [h0] at hg
      obtain rfl := Option.some.inj hg
      obtain ⟨h1, h2, h3⟩ := visit_ok w e hp h.1 hb h0
      refine ⟨h1, ?_, ?_⟩
      · rw [den, h2, tyOf_of h.1 hp]
        simp only [List.map_cons, List.map_nil]
        rw [h1] at *
        have := off_succ (g0.base b) g0.offset (w.basic_pos hp)
        rw [← this]; rfl
      · rw [CExpr.vars, ← h3]; obtain ⟨iv, va, off, mx⟩ := g0; cases iv <;> rfl
  | .pred e, ty, g, hp, h, hb, hg => by
    rw [HasTy] at h
    rw [visitGV] at hg
    rw [CExpr.vars] at hb
    cases h0 : visitGV T vty e with
    | none => simp [h0] at hg
    | some g0 =>
      rw [h0] at hg
      obtain rfl := Option.some.inj hg
      obtain ⟨h1, h2, h3⟩ := visit_ok w e hp h.1 hb h0
      refine ⟨h1, ?_, ?_⟩
      · rw [den, h2, tyOf_of h.1 hp]
        simp only [List.map_cons, List.map_nil]
        rw [h1] at *
        have := off_pred (g0.base b) g0.offset (w.basic_pos hp)
        rw [← this]; rfl
      · rw [CExpr.vars, ← h3]; obtain ⟨iv, va, off, mx⟩ := g0; cases iv <;> rfl
  | .tuple es, ty, g, hp, h, _, hg => by simp [visitGV] at hg

theorem gv_ok (w : TFit T) {b : Bind} (e : CExpr) {ty : Nat} {g : GV} (hp : T.parts ty = none) (h : HasTy T vty e ty)
    (hb : Bound T vty b e.vars) (hg : compGV T vty e = some g) :
    den T vty (asg T vty b) e = [g.get b] ∧ gvVars [g] = e.vars := by
  unfold compGV at hg
  cases h0 : visitGV T vty e with
  | none => simp [h0] at hg
  | some g0 =>
    rw [h0] at hg
    obtain rfl := Option.some.inj hg
    obtain ⟨h1, h2, h3⟩ := visit_ok w e hp h hb h0
    obtain ⟨r1, r2⟩ := gv_result b g0 (by rw [h1]; exact w.basic_pos hp)
    rw [r1, r2, h2]
    exact ⟨rfl, h3⟩

theorem gvs_ok (w : TFit T) {b : Bind} : (es : List CExpr) → {cs : List Nat} → {gs : List GV} → HasTys T vty es cs →
    Bound T vty b (CExpr.varsL es) → compGVs T vty es = some gs →
    denL T vty (asg T vty b) es = gs.map (GV.get b) ∧ gvVars gs = CExpr.varsL es
  | [], cs, gs, h, _, hg => by
    rw [compGVs] at hg
    obtain rfl := Option.some.inj hg
    exact ⟨by rw [denL]; rfl, rfl⟩
  | e :: es, cs, gs, h, hb, hg => by
    rw [HasTys] at h
    obtain ⟨c, cs', rfl, hp, h1, h2⟩ := h
    rw [CExpr.varsL] at hb
    rw [compGVs] at hg
    cases g1 : compGV T vty e with
    | none => simp [g1] at hg
    | some g =>
      cases g2 : compGVs T vty es with
      | none => simp [g1, g2] at hg
      | some gs' =>
        simp only [g1, g2] at hg
        obtain rfl := Option.some.inj hg
        obtain ⟨a1, a2⟩ := gv_ok w e hp h1 (hb.mono fun v hv => List.mem_append_left _ hv) g1
        obtain ⟨b1, b2⟩ := gvs_ok w es h2 (hb.mono fun v hv => List.mem_append_right _ hv) g2
        refine ⟨?_, ?_⟩
        · rw [denL, a1, b1]; rfl
        · rw [gvVars_cons, a2, b2, CExpr.varsL]

/-- a side of an equality: its components, or its number -/
theorem parse_ok (w : TFit T) {b : Bind} (e : CExpr) {ty : Nat} {gs : List GV} (h : HasTy T vty e ty) (hc : constOK T e)
    (hb : Bound T vty b e.vars) (hg : parseSeq T vty e = some gs) :
    (gs.map (GV.get b) = den T vty (asg T vty b) e ∨ gs.map (GV.get b) = [rank (T.dims ty) (den T vty (asg T vty b) e)]) ∧
      InSizes (T.dims ty) (den T vty (asg T vty b) e) ∧ gvVars gs = e.vars := by
  obtain ⟨_, _, _, _, hin, _⟩ := seq_ok w e h hc hb
  refine ⟨?_, hin, ?_⟩ <;> by_cases hp : T.parts ty = none
  · left
    cases e with
    | tuple es => rw [HasTy] at h; obtain ⟨cs, h1, _⟩ := h; rw [hp] at h1; cases h1
    | _ =>
      rw [parseSeq] at hg
      · obtain ⟨g, g1, rfl⟩ := Option.map_eq_some_iff.1 hg
        rw [(gv_ok w _ hp h hb g1).1]; rfl
      all_goals (intro es he; cases he)
  · cases e with
    | dot => rw [HasTy] at h; subst h; exact absurd w.dot_plain hp
    | var v =>
      rw [HasTy] at h
      subst h
      have hv := hb v (by simp [CExpr.vars])
      right
      rw [den, (asg_spec w hv).2]
      simp only [parseSeq, compGV, visitGV, Option.map_some] at hg
      obtain rfl := Option.some.inj hg
      simp only [List.map_cons, List.map_nil]
      rw [(gv_result b _ (by simp only; omega)).1]
      simp only [GV.base, if_true]
      rw [off_zero hv]
    | const c => rw [HasTy] at h; rw [constOK, ← h.1] at hc; exact absurd hc hp
    | succ e => rw [HasTy] at h; exact absurd h.2 hp
    | pred e => rw [HasTy] at h; exact absurd h.2 hp
    | tuple es =>
      rw [HasTy] at h
      obtain ⟨cs, h1, h2⟩ := h
      rw [CExpr.vars] at hb
      left
      rw [den, (gvs_ok w es h2 hb hg).1]
  · cases e with
    | tuple es => rw [HasTy] at h; obtain ⟨cs, h1, _⟩ := h; rw [hp] at h1; cases h1
    | _ =>
      rw [parseSeq] at hg
      · obtain ⟨g, g1, rfl⟩ := Option.map_eq_some_iff.1 hg
        exact (gv_ok w _ hp h hb g1).2
      all_goals (intro es he; cases he)
  · cases e with
    | dot => rw [HasTy] at h; subst h; exact absurd w.dot_plain hp
    | var v =>
      simp only [parseSeq, compGV, visitGV, Option.map_some] at hg
      obtain rfl := Option.some.inj hg
      rfl
    | const c => rw [HasTy] at h; rw [constOK, ← h.1] at hc; exact absurd hc hp
    | succ e => rw [HasTy] at h; exact absurd h.2 hp
    | pred e => rw [HasTy] at h; exact absurd h.2 hp
    | tuple es =>
      rw [HasTy] at h
      obtain ⟨cs, h1, h2⟩ := h
      rw [CExpr.vars] at hb
      rw [CExpr.vars, (gvs_ok w es h2 hb hg).2]

theorem eqLoop_iff (b : Bind) : ∀ {xs ys : List GV}, xs.length = ys.length → (eqLoop b xs ys = true ↔ xs.map (GV.get b) = ys.map (GV.get b))
  | [], [], _ => by simp [eqLoop]
  | x :: xs, y :: ys, h => by
    rw [eqLoop]
    simp only [List.map_cons, List.cons.injEq]
    by_cases hx : x.get b = y.get b
    · rw [if_neg (by simp [hx]), eqLoop_iff b (by simpa using h)]
      simp [hx]
    · rw [if_pos hx]; simp [hx]
  | [], _ :: _, h => by simp at h
  | _ :: _, [], h => by simp at h

theorem neLoop_eq (b : Bind) : ∀ xs ys : List GV, neLoop b xs ys = !eqLoop b xs ys
  | [], [] => rfl
  | [], _ :: _ => rfl
  | _ :: _, [] => rfl
  | x :: xs, y :: ys => by
    rw [neLoop, eqLoop]
    by_cases hx : x.get b = y.get b
    · rw [if_neg (by simp [hx]), if_neg (by simp [hx]), neLoop_eq b xs ys]
    · rw [if_pos hx, if_pos hx]; rfl

theorem rank_single {ds x : List Nat} (h : InSizes ds x) (hl : x.length = 1) : [rank ds x] = x := by
  match ds, x, h, hl with
  | [d], [i], _, _ => simp [rank]
  | _ :: _ :: _, [i], h, _ => exact h.2.elim
  | [], [i], h, _ => exact h.elim

theorem sides_iff {ds x y xs ys : List Nat} (hx : InSizes ds x) (hy : InSizes ds y) (h1 : xs = x ∨ xs = [rank ds x])
    (h2 : ys = y ∨ ys = [rank ds y]) (hl : xs.length = ys.length) : xs = ys ↔ x = y := by
  have key : ([rank ds x] = [rank ds y] ↔ x = y) := by
    constructor
    · intro h; exact rank_inj hx hy (by simpa using h)
    · intro h; rw [h]
  rcases h1 with rfl | rfl <;> rcases h2 with rfl | rfl
  · exact Iff.rfl
  · rw [← key, rank_single hx (by simpa using hl)]
  · rw [← key, rank_single hy (by simpa using hl.symm)]
  · exact key

theorem eq_ok (w : TFit T) {b : Bind} {x y : CExpr} {ty : Nat} {gs hs : List GV} (hx : HasTy T vty x ty) (hy : HasTy T vty y ty)
    (cx : constOK T x) (cy : constOK T y) (bx : Bound T vty b x.vars) (by' : Bound T vty b y.vars)
    (gx : parseSeq T vty x = some gs) (gy : parseSeq T vty y = some hs) (hl : gs.length = hs.length) :
    (eqLoop b gs hs = true ↔ den T vty (asg T vty b) x = den T vty (asg T vty b) y) ∧
      gvVars gs ++ gvVars hs = x.vars ++ y.vars := by
  obtain ⟨a1, a2, a3⟩ := parse_ok w x hx cx bx gx
  obtain ⟨b1, b2, b3⟩ := parse_ok w y hy cy by' gy
  rw [eqLoop_iff b hl, sides_iff a2 b2 a1 b1 (by simpa using hl), a3, b3]
  exact ⟨Iff.rfl, rfl⟩

/-- A compiled guard holds iff the guard does, and mentions the same variables. -/
theorem guard_ok (w : TFit T) {b : Bind} : (g : Guard) → {x : XGuard} → GuardTy T vty g → guardConst T g →
    Bound T vty b g.vars → compGuard T vty g = some x → (x.eval b = true ↔ g.holds T vty (asg T vty b)) ∧ x.vars = g.vars
  | .lt p q, x, h, hc, hb, hg => by
    rw [GuardTy] at h
    obtain ⟨ty, hp, t1, t2⟩ := h
    rw [Guard.vars] at hb
    rw [compGuard] at hg
    cases g1 : compGV T vty p with
    | none => simp [g1] at hg
    | some c =>
      cases g2 : compGV T vty q with
      | none => simp [g1, g2] at hg
      | some d =>
        simp only [g1, g2] at hg
        obtain rfl := Option.some.inj hg
        obtain ⟨a1, a2⟩ := gv_ok w p hp t1 (hb.mono fun v hv => List.mem_append_left _ hv) g1
        obtain ⟨b1, b2⟩ := gv_ok w q hp t2 (hb.mono fun v hv => List.mem_append_right _ hv) g2
        refine ⟨?_, ?_⟩
        · rw [XGuard.eval, Guard.holds, a1, b1]
          simp
        · rw [XGuard.vars, gvVars_cons, a2, b2, Guard.vars]
  | .le p q, x, h, hc, hb, hg => by
    rw [GuardTy] at h
    obtain ⟨ty, hp, t1, t2⟩ := h
    rw [Guard.vars] at hb
    rw [compGuard] at hg
    cases g1 : compGV T vty p with
    | none => simp [g1] at hg
    | some c =>
      cases g2 : compGV T vty q with
      | none => simp [g1, g2] at hg
      | some d =>
        simp only [g1, g2] at hg
        obtain rfl := Option.some.inj hg
        obtain ⟨a1, a2⟩ := gv_ok w p hp t1 (hb.mono fun v hv => List.mem_append_left _ hv) g1
        obtain ⟨b1, b2⟩ := gv_ok w q hp t2 (hb.mono fun v hv => List.mem_append_right _ hv) g2
        refine ⟨?_, ?_⟩
        · rw [XGuard.eval, Guard.holds, a1, b1]
          simp
        · rw [XGuard.vars, gvVars_cons, a2, b2, Guard.vars]
  | .eq p q, x, h, hc, hb, hg => by
    rw [GuardTy] at h
    obtain ⟨ty, t1, t2⟩ := h
    rw [guardConst] at hc
    rw [Guard.vars] at hb
    rw [compGuard] at hg
    cases g1 : parseSeq T vty p with
    | none => simp [g1] at hg
    | some c =>
      cases g2 : parseSeq T vty q with
      | none => simp [g1, g2] at hg
      | some d =>
        simp only [g1, g2] at hg
        by_cases hl : c.length = d.length
        · rw [if_neg (by simp [hl])] at hg
          obtain rfl := Option.some.inj hg
          exact eq_ok w t1 t2 hc.1 hc.2 (hb.mono fun v hv => List.mem_append_left _ hv)
            (hb.mono fun v hv => List.mem_append_right _ hv) g1 g2 hl
        · rw [if_pos hl] at hg; cases hg
  | .ne p q, x, h, hc, hb, hg => by
    rw [GuardTy] at h
    obtain ⟨ty, t1, t2⟩ := h
    rw [guardConst] at hc
    rw [Guard.vars] at hb
    rw [compGuard] at hg
    cases g1 : parseSeq T vty p with
    | none => simp [g1] at hg
    | some c =>
      cases g2 : parseSeq T vty q with
      | none => simp [g1, g2] at hg
      | some d =>
        simp only [g1, g2] at hg
        by_cases hl : c.length = d.length
        · rw [if_neg (by simp [hl])] at hg
          obtain rfl := Option.some.inj hg
          obtain ⟨e1, e2⟩ := eq_ok w t1 t2 hc.1 hc.2 (hb.mono fun v hv => List.mem_append_left _ hv)
            (hb.mono fun v hv => List.mem_append_right _ hv) g1 g2 hl
          refine ⟨?_, e2⟩
          rw [XGuard.eval, neLoop_eq, Guard.holds, Ne, ← e1]
          simp
        · rw [if_pos hl] at hg; cases hg
  | .and p q, x, h, hc, hb, hg => by
    rw [GuardTy] at h
    rw [guardConst] at hc
    rw [Guard.vars] at hb
    rw [compGuard] at hg
    cases g1 : compGuard T vty p with
    | none => simp [g1] at hg
    | some c =>
      cases g2 : compGuard T vty q with
      | none => simp [g1, g2] at hg
      | some d =>
        simp only [g1, g2] at hg
        obtain rfl := Option.some.inj hg
        obtain ⟨a1, a2⟩ := guard_ok w p h.1 hc.1 (hb.mono fun v hv => List.mem_append_left _ hv) g1
        obtain ⟨b1, b2⟩ := guard_ok w q h.2 hc.2 (hb.mono fun v hv => List.mem_append_right _ hv) g2
        refine ⟨?_, ?_⟩
        · rw [XGuard.eval, Guard.holds, ← a1, ← b1]
          cases c.eval b <;> simp
        · rw [XGuard.vars, a2, b2, Guard.vars]
  | .or p q, x, h, hc, hb, hg => by
    rw [GuardTy] at h
    rw [guardConst] at hc
    rw [Guard.vars] at hb
    rw [compGuard] at hg
    cases g1 : compGuard T vty p with
    | none => simp [g1] at hg
    | some c =>
      cases g2 : compGuard T vty q with
      | none => simp [g1, g2] at hg
      | some d =>
        simp only [g1, g2] at hg
        obtain rfl := Option.some.inj hg
        obtain ⟨a1, a2⟩ := guard_ok w p h.1 hc.1 (hb.mono fun v hv => List.mem_append_left _ hv) g1
        obtain ⟨b1, b2⟩ := guard_ok w q h.2 hc.2 (hb.mono fun v hv => List.mem_append_right _ hv) g2
        refine ⟨?_, ?_⟩
        · rw [XGuard.eval, Guard.holds, ← a1, ← b1]
          cases c.eval b <;> simp
        · rw [XGuard.vars, a2, b2, Guard.vars]

end XCol
end Verif
