import Verif.XCol.CompLemmas

/-!
# Compiled arc expressions denote the multisets of the expressions
-/

namespace Verif
namespace XCol
open Colored CPN OffsetsProps

variable {T : Types} {vty : Nat → Nat}

mutual
/-- Constants of product types do not occur by themselves. -/
def arcConst (T : Types) : ArcE → Prop
  | .num _ es => ∀ e ∈ es, constOK T e
  | .add as => arcConsts T as
  | .sub a b => arcConst T a ∧ arcConst T b
  | .scal _ a => arcConst T a
def arcConsts (T : Types) : List ArcE → Prop
  | [] => True
  | a :: as => arcConst T a ∧ arcConsts T as
end

mutual
/-- The numbers of the expression are positive. -/
def arcPos : ArcE → Prop
  | .num n _ => 0 < n
  | .add as => arcPosL as
  | .sub a b => arcPos a ∧ arcPos b
  | .scal k a => 0 < k ∧ arcPos a
def arcPosL : List ArcE → Prop
  | [] => True
  | a :: as => arcPos a ∧ arcPosL as
end

/-- Outside of subtractions, the sequences have the components of the type and positive numbers. -/
def Shape (T : Types) (vty : Nat → Nat) (dims : List Nat) : Arc → Prop
  | .add l r => Shape T vty dims l ∧ Shape T vty dims r
  | .sub _ _ => True
  | .const _ => True
  | .coll qs sizes k => 0 < k ∧ sizes = dims ∧ ∀ q ∈ qs, SeqFit T vty dims q

/-- the value of a multiset given by the numbers of values -/
def At (T : Types) (ty : Nat) (f : Val → Nat) (c : Nat) : Int := if c < T.size ty then (f (unrank (T.dims ty) c) : Int) else 0

theorem foldl_add (cs : List Arc) : ∀ c : Arc, (c.OK → (∀ a ∈ cs, a.OK) → (cs.foldl .add c).OK) ∧
    (∀ b, c.OK → (∀ a ∈ cs, a.OK) → ∀ x, ((cs.foldl .add c).eval b).val x = (c.eval b).val x + (cs.map fun a => (a.eval b).val x).sum) ∧
    (∀ v, v ∈ (cs.foldl .add c).vars ↔ v ∈ c.vars ∨ ∃ a ∈ cs, v ∈ a.vars) ∧
    (∀ dims, Shape T vty dims c → (∀ a ∈ cs, Shape T vty dims a) → Shape T vty dims (cs.foldl .add c)) := by
  induction cs with
  | nil => intro c; refine ⟨fun h _ => h, fun b _ _ x => by simp, fun v => by simp, fun d h _ => h⟩
  | cons a cs ih =>
    intro c
    obtain ⟨i1, i2, i3, i4⟩ := ih (.add c a)
    refine ⟨fun h hs => ?_, fun b h hs x => ?_, fun v => ?_, fun d h hs => ?_⟩
    · exact i1 ⟨h, hs a (by simp)⟩ fun a' ha' => hs a' (by simp [ha'])
    · have ha := hs a (by simp)
      rw [List.foldl_cons, i2 b ⟨h, ha⟩ (fun a' ha' => hs a' (by simp [ha'])) x]
      simp only [Arc.eval, List.map_cons, List.sum_cons]
      rw [MS.plus_val (eval_good b h).wf (eval_good b ha).wf]
      omega
    · rw [List.foldl_cons, i3]
      simp only [Arc.vars, List.mem_append, List.mem_cons]
      constructor
      · rintro ((h | h) | ⟨a', h1, h2⟩)
        · exact .inl h
        · exact .inr ⟨a, .inl rfl, h⟩
        · exact .inr ⟨a', .inr h1, h2⟩
      · rintro (h | ⟨a', rfl | h1, h2⟩)
        · exact .inl (.inl h)
        · exact .inl (.inr h2)
        · exact .inr ⟨a', h1, h2⟩
    · exact i4 d ⟨h, hs a (by simp)⟩ fun a' ha' => hs a' (by simp [ha'])

theorem num_ok (w : TFit T) {b : Bind} {ty k n : Nat} {e : CExpr} {q : List PC} {sizes : List Nat} (h : HasTy T vty e ty)
    (hc : constOK T e) (hb : Bound T vty b e.vars) (hq : compSeq T vty e = some (q, sizes)) (c : Nat) :
    ((Arc.coll [q] sizes (k * n)).eval b).val c = At T ty (fun x => k * (n * [den T vty (asg T vty b) e].count x)) c := by
  obtain ⟨q', s', h1, h2, h3, h4, _⟩ := seq_ok w e h hc hb
  rw [hq] at h1
  cases h1
  obtain ⟨_, e2, _⟩ := addSeqs_spec b sizes (k * n : Nat) [q] MS.empty MS.empty_wf
  rw [Arc.eval, e2 c]
  have e0 : MS.empty.val c = 0 := rfl
  rw [e0, cnt, cnt, h2]
  have hlt := rank_lt _ _ h3
  rw [← size_eq] at hlt
  unfold At
  by_cases hcs : c < T.size ty
  · rw [if_pos hcs]
    have hu := unrank_spec (T.dims ty) (w.pos ty) c (by rw [← size_eq]; exact hcs)
    by_cases hx : rank (T.dims ty) (den T vty (asg T vty b) e) = c
    · have : den T vty (asg T vty b) e = unrank (T.dims ty) c := by rw [← hx, unrank_rank h3]
      rw [if_pos hx, this]
      simp
    · have : ¬ den T vty (asg T vty b) e = unrank (T.dims ty) c := fun hh => hx (by rw [hh]; exact hu.2)
      rw [if_neg hx]
      dsimp only
      rw [List.count_cons]
      simp [this]
  · rw [if_neg hcs, if_neg (by omega)]
    simp

mutual
theorem arc_val (w : TFit T) {b : Bind} {ty : Nat} : (e : ArcE) → (k : Nat) → (a : Arc) → ArcTy T vty ty e → arcConst T e →
    compArc T vty k e = some a → Bound T vty b e.vars →
    a.OK ∧ ∀ c, (a.eval b).val c = At T ty (fun x => k * tokens T vty (asg T vty b) e x) c
  | .num n es, k, a, h, hc, ha, hb => by
    rw [ArcTy] at h
    rw [arcConst] at hc
    match es, h, hc, ha, hb with
    | [e], h, hc, ha, hb =>
      rw [compArc] at ha
      cases hq : compSeq T vty e with
      | none => simp [hq] at ha
      | some r =>
        obtain ⟨q, sizes⟩ := r
        simp only [hq, Option.map_some] at ha
        obtain rfl := Option.some.inj ha
        refine ⟨trivial, fun c => ?_⟩
        rw [num_ok w (h.2 e (by simp)) (hc e (by simp)) (hb.mono fun v hv => by simp [ArcE.vars, CExpr.varsL, hv]) hq c]
        simp only [tokens, List.map_cons, List.map_nil]
    | [], h, _, _, _ => exact absurd rfl h.1
    | _ :: _ :: _, _, _, ha, _ => simp [compArc] at ha
  | .add as, k, a, h, hc, ha, hb => by
    rw [ArcTy] at h
    rw [arcConst] at hc
    rw [ArcE.vars] at hb
    rw [compArc] at ha
    cases hq : compArcs T vty k as with
    | none => simp [hq] at ha
    | some l =>
      rw [hq] at ha
      cases l with
      | nil => simp at ha
      | cons c cs =>
        simp only at ha
        obtain rfl := Option.some.inj ha
        obtain ⟨h1, h2⟩ := arcs_val w as k (c :: cs) h hc hq hb
        obtain ⟨f1, f2, _, _⟩ := foldl_add (T := T) (vty := vty) cs c
        have o1 := h1 c (by simp)
        have o2 : ∀ a ∈ cs, a.OK := fun a' ha' => h1 a' (by simp [ha'])
        refine ⟨f1 o1 o2, fun x => ?_⟩
        rw [f2 b o1 o2 x]
        have := h2 x
        simp only [List.map_cons, List.sum_cons] at this
        rw [this]
        simp only [tokens]
  | .sub e f, k, a, h, hc, ha, hb => by
    rw [ArcTy] at h
    rw [arcConst] at hc
    rw [ArcE.vars] at hb
    rw [compArc] at ha
    cases h1 : compArc T vty k e with
    | none => simp [h1] at ha
    | some l =>
      cases h2 : compArc T vty k f with
      | none => simp [h1, h2] at ha
      | some r =>
        simp only [h1, h2] at ha
        obtain rfl := Option.some.inj ha
        obtain ⟨l1, l2⟩ := arc_val w e k l h.1 hc.1 h1 (hb.mono fun v hv => List.mem_append_left _ hv)
        obtain ⟨r1, r2⟩ := arc_val w f k r h.2 hc.2 h2 (hb.mono fun v hv => List.mem_append_right _ hv)
        refine ⟨⟨l1, r1⟩, fun c => ?_⟩
        rw [Arc.eval, consume_val b r1 (eval_good b l1), l2, r2]
        unfold At
        split
        · simp only [tokens]
          rw [Nat.mul_sub]
          generalize k * tokens T vty (asg T vty b) e _ = p
          generalize k * tokens T vty (asg T vty b) f _ = q
          omega
        · rfl
  | .scal n e, k, a, h, hc, ha, hb => by
    rw [ArcTy] at h
    rw [arcConst] at hc
    rw [ArcE.vars] at hb
    rw [compArc] at ha
    obtain ⟨l1, l2⟩ := arc_val w e (k * n) a h hc ha hb
    refine ⟨l1, fun c => ?_⟩
    rw [l2]
    simp only [tokens, Nat.mul_assoc]
theorem arcs_val (w : TFit T) {b : Bind} {ty : Nat} : (es : List ArcE) → (k : Nat) → (cs : List Arc) → ArcTys T vty ty es →
    arcConsts T es → compArcs T vty k es = some cs → Bound T vty b (ArcE.varsL es) →
    (∀ a ∈ cs, a.OK) ∧ ∀ c, (cs.map fun a => (a.eval b).val c).sum = At T ty (fun x => k * tokensL T vty (asg T vty b) es x) c
  | [], k, cs, _, _, ha, _ => by
    rw [compArcs] at ha
    obtain rfl := Option.some.inj ha
    refine ⟨(fun a ha => by cases ha), fun c => ?_⟩
    unfold At
    simp [tokensL]
  | e :: es, k, cs, h, hc, ha, hb => by
    rw [ArcTys] at h
    rw [arcConsts] at hc
    rw [ArcE.varsL] at hb
    rw [compArcs] at ha
    cases h1 : compArc T vty k e with
    | none => simp [h1] at ha
    | some l =>
      cases h2 : compArcs T vty k es with
      | none => simp [h1, h2] at ha
      | some r =>
        simp only [h1, h2] at ha
        obtain rfl := Option.some.inj ha
        obtain ⟨l1, l2⟩ := arc_val w e k l h.1 hc.1 h1 (hb.mono fun v hv => List.mem_append_left _ hv)
        obtain ⟨r1, r2⟩ := arcs_val w es k r h.2 hc.2 h2 (hb.mono fun v hv => List.mem_append_right _ hv)
        refine ⟨fun a ha => ?_, fun c => ?_⟩
        · rcases List.mem_cons.1 ha with rfl | ha
          · exact l1
          · exact r1 a ha
        · rw [List.map_cons, List.sum_cons, l2, r2]
          unfold At
          split
          · simp only [tokensL]
            rw [Nat.mul_add]
            push_cast; rfl
          · rfl
end

/-- the binding of every variable to the first colour -/
theorem bound_zero (w : TFit T) (vs : List Nat) : Bound T vty (fun _ => 0) vs := fun v _ => by
  rw [size_eq]
  exact inSizes_pos _ (w.pos _)

mutual
theorem arc_shape (w : TFit T) {ty : Nat} : (e : ArcE) → (k : Nat) → (a : Arc) → ArcTy T vty ty e → arcConst T e →
    compArc T vty k e = some a → (∀ v, v ∈ a.vars ↔ v ∈ e.vars) ∧
      (arcPos e → 0 < k → (∀ v ∈ e.vars, T.parts (vty v) = none) → Shape T vty (T.dims ty) a)
  | .num n es, k, a, h, hc, ha => by
    rw [ArcTy] at h
    rw [arcConst] at hc
    match es, h, hc, ha with
    | [e], h, hc, ha =>
      rw [compArc] at ha
      cases hq : compSeq T vty e with
      | none => simp [hq] at ha
      | some r =>
        obtain ⟨q, sizes⟩ := r
        simp only [hq, Option.map_some] at ha
        obtain rfl := Option.some.inj ha
        obtain ⟨q', s', h1, _, _, h4, h5, _⟩ := seq_ok w e (h.2 e (by simp)) (hc e (by simp)) (bound_zero w _)
        rw [hq] at h1
        cases h1
        have hv : ∀ v, v ∈ e.vars ↔ v ∈ (ArcE.num n [e]).vars := fun v => by simp [ArcE.vars, CExpr.varsL]
        refine ⟨fun v => ?_, fun hp hk hpl => ?_⟩
        · rw [← hv, ← h4]; simp [Arc.vars]
        · obtain ⟨p1, p2⟩ := h5 fun v hv' => hpl v ((hv v).1 hv')
          rw [arcPos] at hp
          refine ⟨Nat.mul_pos hk hp, p1, fun q' hq' => ?_⟩
          simp only [List.mem_singleton] at hq'
          subst hq'
          exact p2
    | [], h, _, _ => exact absurd rfl h.1
    | _ :: _ :: _, _, _, ha => simp [compArc] at ha
  | .add as, k, a, h, hc, ha => by
    rw [ArcTy] at h
    rw [arcConst] at hc
    rw [compArc] at ha
    cases hq : compArcs T vty k as with
    | none => simp [hq] at ha
    | some l =>
      rw [hq] at ha
      cases l with
      | nil => simp at ha
      | cons c cs =>
        simp only at ha
        obtain rfl := Option.some.inj ha
        obtain ⟨h1, h2⟩ := arcs_shape w as k (c :: cs) h hc hq
        obtain ⟨_, _, f3, f4⟩ := foldl_add (T := T) (vty := vty) cs c
        refine ⟨fun v => ?_, fun hp hk hpl => ?_⟩
        · rw [f3, ArcE.vars, ← h1]
          simp
        · rw [arcPos] at hp
          rw [ArcE.vars] at hpl
          have := h2 hp hk hpl
          exact f4 _ (this c (by simp)) fun a' ha' => this a' (by simp [ha'])
  | .sub e f, k, a, h, hc, ha => by
    rw [ArcTy] at h
    rw [arcConst] at hc
    rw [compArc] at ha
    cases h1 : compArc T vty k e with
    | none => simp [h1] at ha
    | some l =>
      cases h2 : compArc T vty k f with
      | none => simp [h1, h2] at ha
      | some r =>
        simp only [h1, h2] at ha
        obtain rfl := Option.some.inj ha
        obtain ⟨l1, _⟩ := arc_shape w e k l h.1 hc.1 h1
        obtain ⟨r1, _⟩ := arc_shape w f k r h.2 hc.2 h2
        refine ⟨fun v => ?_, fun _ _ _ => trivial⟩
        rw [Arc.vars, ArcE.vars, List.mem_append, List.mem_append, l1, r1]
  | .scal n e, k, a, h, hc, ha => by
    rw [ArcTy] at h
    rw [arcConst] at hc
    rw [compArc] at ha
    obtain ⟨l1, l2⟩ := arc_shape w e (k * n) a h hc ha
    rw [ArcE.vars]
    refine ⟨l1, fun hp hk hpl => ?_⟩
    rw [arcPos] at hp
    exact l2 hp.2 (Nat.mul_pos hk hp.1) hpl
theorem arcs_shape (w : TFit T) {ty : Nat} : (es : List ArcE) → (k : Nat) → (cs : List Arc) → ArcTys T vty ty es →
    arcConsts T es → compArcs T vty k es = some cs → (∀ v, (∃ a ∈ cs, v ∈ a.vars) ↔ v ∈ ArcE.varsL es) ∧
      (arcPosL es → 0 < k → (∀ v ∈ ArcE.varsL es, T.parts (vty v) = none) → ∀ a ∈ cs, Shape T vty (T.dims ty) a)
  | [], k, cs, _, _, ha => by
    rw [compArcs] at ha
    obtain rfl := Option.some.inj ha
    exact ⟨fun v => by simp [ArcE.varsL], (fun _ _ _ a ha => by cases ha)⟩
  | e :: es, k, cs, h, hc, ha => by
    rw [ArcTys] at h
    rw [arcConsts] at hc
    rw [compArcs] at ha
    cases h1 : compArc T vty k e with
    | none => simp [h1] at ha
    | some l =>
      cases h2 : compArcs T vty k es with
      | none => simp [h1, h2] at ha
      | some r =>
        simp only [h1, h2] at ha
        obtain rfl := Option.some.inj ha
        obtain ⟨l1, l2⟩ := arc_shape w e k l h.1 hc.1 h1
        obtain ⟨r1, r2⟩ := arcs_shape w es k r h.2 hc.2 h2
        refine ⟨fun v => ?_, fun hp hk hpl a ha => ?_⟩
        · rw [ArcE.varsL, List.mem_append, ← l1, ← r1]
          simp
        · rw [arcPosL] at hp
          rw [ArcE.varsL] at hpl
          rcases List.mem_cons.1 ha with rfl | ha
          · exact l2 hp.1 hk fun v hv => hpl v (List.mem_append_left _ hv)
          · exact r2 hp.2 hk (fun v hv => hpl v (List.mem_append_right _ hv)) a ha
end

theorem mem_varsL {es : List CExpr} {e : CExpr} {v : Nat} (he : e ∈ es) (hv : v ∈ e.vars) : v ∈ CExpr.varsL es := by
  induction es with
  | nil => cases he
  | cons d es ih =>
    rw [CExpr.varsL, List.mem_append]
    rcases List.mem_cons.1 he with rfl | he
    · exact .inl hv
    · exact .inr (ih he)

mutual
/-- The values of an expression are values of its type. -/
theorem tokens_in (w : TFit T) {b : Bind} {ty : Nat} : (e : ArcE) → ArcTy T vty ty e → arcConst T e → Bound T vty b e.vars →
    ∀ x, tokens T vty (asg T vty b) e x ≠ 0 → InSizes (T.dims ty) x
  | .num n es, h, hc, hb, x, hx => by
    rw [ArcTy] at h
    rw [arcConst] at hc
    simp only [tokens] at hx
    have hcount : 0 < (es.map fun e => den T vty (asg T vty b) e).count x := by
      rcases Nat.eq_zero_or_pos ((es.map fun e => den T vty (asg T vty b) e).count x) with h0 | h0
      · rw [h0] at hx; simp at hx
      · exact h0
    obtain ⟨e, he, rfl⟩ := List.mem_map.1 (List.count_pos_iff.1 hcount)
    obtain ⟨_, _, _, _, h3, _⟩ := seq_ok w e (h.2 e he) (hc e he) (hb.mono fun v hv => by rw [ArcE.vars]; exact mem_varsL he hv)
    exact h3
  | .add as, h, hc, hb, x, hx => by
    rw [ArcTy] at h
    rw [arcConst] at hc
    rw [ArcE.vars] at hb
    simp only [tokens] at hx
    exact tokensL_in w as h hc hb x hx
  | .sub e f, h, hc, hb, x, hx => by
    rw [ArcTy] at h
    rw [arcConst] at hc
    rw [ArcE.vars] at hb
    simp only [tokens] at hx
    exact tokens_in w e h.1 hc.1 (hb.mono fun v hv => List.mem_append_left _ hv) x (by omega)
  | .scal k e, h, hc, hb, x, hx => by
    rw [ArcTy] at h
    rw [arcConst] at hc
    rw [ArcE.vars] at hb
    simp only [tokens] at hx
    exact tokens_in w e h hc hb x fun h0 => hx (by rw [h0, Nat.mul_zero])
theorem tokensL_in (w : TFit T) {b : Bind} {ty : Nat} : (es : List ArcE) → ArcTys T vty ty es → arcConsts T es →
    Bound T vty b (ArcE.varsL es) → ∀ x, tokensL T vty (asg T vty b) es x ≠ 0 → InSizes (T.dims ty) x
  | [], _, _, _, x, hx => by simp [tokensL] at hx
  | e :: es, h, hc, hb, x, hx => by
    rw [ArcTys] at h
    rw [arcConsts] at hc
    rw [ArcE.varsL] at hb
    simp only [tokensL] at hx
    by_cases h0 : tokens T vty (asg T vty b) e x = 0
    · exact tokensL_in w es h.2 hc.2 (hb.mono fun v hv => List.mem_append_right _ hv) x (by omega)
    · exact tokens_in w e h.1 hc.1 (hb.mono fun v hv => List.mem_append_left _ hv) x h0
end

mutual
/-- A constant at the top has components of one size (the code reduces all of them with the size of the first). -/
def topOK (T : Types) (ty : Nat) : ArcE → Prop
  | .num _ es => CExpr.varsL es = [] → ∀ s ∈ T.dims ty, s = (T.dims ty).getD 0 0
  | .scal _ a => topOK T ty a
  | .add as => topOKs T ty as
  | .sub _ _ => True
/-- only a sum of one part has that part at the top -/
def topOKs (T : Types) (ty : Nat) : List ArcE → Prop
  | [] => True
  | a :: as => as = [] → topOK T ty a
end

theorem noVar_vars {q : List PC} (h : hasVar q = false) : pcVars q = [] := by
  unfold pcVars
  rw [List.map_eq_nil_iff, List.filter_eq_nil_iff]
  intro c hc
  unfold hasVar at h
  rw [List.any_eq_false] at h
  exact h c hc

theorem seqVals_same (b : Bind) (s : Nat) : ∀ {ss : List Nat} {q : List PC}, q.length = ss.length → (∀ t ∈ ss, t = s) →
    (q.map fun c => c.val b s) = seqVals b ss q
  | [], [], _, _ => rfl
  | t :: ss, c :: q, hl, h => by
    rw [List.map_cons, seqVals, seqVals_same b s (by simpa using hl) fun t ht => h t (by simp [ht]), h t (by simp)]
  | [], _ :: _, hl, _ => by simp at hl
  | _ :: _, [], hl, _ => by simp at hl

theorem foldl_coll {cs : List Arc} : ∀ {c : Arc} {qs : List (List PC)} {sizes : List Nat} {m : Nat},
    cs.foldl .add c = .coll qs sizes m → cs = [] := by
  induction cs with
  | nil => intros; rfl
  | cons a cs ih =>
    intro c qs sizes m h
    rw [List.foldl_cons] at h
    have := ih h
    subst this
    simp at h

mutual
/-- a top collection of one sequence -/
theorem top_coll (w : TFit T) {ty : Nat} : (e : ArcE) → (k : Nat) → {qs : List (List PC)} → {sizes : List Nat} → {m : Nat} →
    ArcTy T vty ty e → arcConst T e → topOK T ty e → compArc T vty k e = some (.coll qs sizes m) →
    ∃ q, qs = [q] ∧ (hasVar q = false → sizes = T.dims ty ∧ (q.map fun c => c.val Bind.none (sizes.getD 0 0)) = seqVals Bind.none sizes q)
  | .num n es, k, qs, sizes, m, h, hc, ht, ha => by
    rw [ArcTy] at h
    rw [arcConst] at hc
    rw [topOK] at ht
    match es, h, hc, ht, ha with
    | [e], h, hc, ht, ha =>
      rw [compArc] at ha
      cases hq : compSeq T vty e with
      | none => simp [hq] at ha
      | some r =>
        obtain ⟨q, ss⟩ := r
        simp only [hq, Option.map_some, Option.some.injEq, Arc.coll.injEq] at ha
        obtain ⟨rfl, rfl, rfl⟩ := ha
        refine ⟨q, rfl, fun hv => ?_⟩
        obtain ⟨q', s', h1, _, _, h4, _, h6⟩ := seq_ok w e (h.2 e (by simp)) (hc e (by simp)) (bound_zero w _)
        rw [hq] at h1
        cases h1
        have hev : e.vars = [] := by rw [← h4]; exact noVar_vars hv
        obtain ⟨p1, p2, p3⟩ := h6 hev
        refine ⟨p1, ?_⟩
        subst p1
        exact seqVals_same _ _ p3 (ht (by simp [CExpr.varsL, hev]))
    | [], h, _, _, _ => exact absurd rfl h.1
    | _ :: _ :: _, _, _, _, ha => simp [compArc] at ha
  | .add as, k, qs, sizes, m, h, hc, ht, ha => by
    rw [ArcTy] at h
    rw [arcConst] at hc
    rw [compArc] at ha
    cases hq : compArcs T vty k as with
    | none => simp [hq] at ha
    | some l =>
      rw [hq] at ha
      cases l with
      | nil => simp at ha
      | cons c cs =>
        simp only [Option.some.injEq] at ha
        have hcs := foldl_coll ha
        subst hcs
        simp only [List.foldl_nil] at ha
        subst ha
        rw [topOK] at ht
        exact top_colls w as k h hc ht hq
  | .sub e f, k, qs, sizes, m, h, hc, ht, ha => by
    rw [compArc] at ha
    cases h1 : compArc T vty k e with
    | none => simp [h1] at ha
    | some l =>
      cases h2 : compArc T vty k f with
      | none => simp [h1, h2] at ha
      | some r => simp [h1, h2] at ha
  | .scal n e, k, qs, sizes, m, h, hc, ht, ha => by
    rw [ArcTy] at h
    rw [arcConst] at hc
    rw [topOK] at ht
    rw [compArc] at ha
    exact top_coll w e (k * n) h hc ht ha
theorem top_colls (w : TFit T) {ty : Nat} : (es : List ArcE) → (k : Nat) → {qs : List (List PC)} → {sizes : List Nat} →
    {m : Nat} → ArcTys T vty ty es → arcConsts T es → topOKs T ty es → compArcs T vty k es = some [.coll qs sizes m] →
    ∃ q, qs = [q] ∧ (hasVar q = false → sizes = T.dims ty ∧ (q.map fun c => c.val Bind.none (sizes.getD 0 0)) = seqVals Bind.none sizes q)
  | [], k, qs, sizes, m, h, hc, ht, ha => by simp [compArcs] at ha
  | e :: es, k, qs, sizes, m, h, hc, ht, ha => by
    rw [ArcTys] at h
    rw [arcConsts] at hc
    rw [compArcs] at ha
    rw [topOKs] at ht
    cases h1 : compArc T vty k e with
    | none => simp [h1] at ha
    | some l =>
      cases h2 : compArcs T vty k es with
      | none => simp [h1, h2] at ha
      | some r =>
        simp only [h1, h2, Option.some.injEq, List.cons.injEq] at ha
        obtain ⟨rfl, rfl⟩ := ha
        have hes : es = [] := by
          cases es with
          | nil => rfl
          | cons e' es =>
            rw [compArcs] at h2
            split at h2 <;> simp at h2
        exact top_coll w e k h.1 hc.1 (ht hes) h1
end

/-- What the code that runs gets from an expression.  The multiset of a compiled expression is that of the expression. -/
theorem compile_ok (w : TFit T) {ty : Nat} {e : ArcE} {a : Arc} (h : ArcTy T vty ty e) (hc : arcConst T e) (ht : topOK T ty e)
    (ha : compile T vty e = some a) :
    a.OK ∧ (∀ v, v ∈ a.vars ↔ v ∈ e.vars) ∧
      (∀ b, Bound T vty b e.vars → ∀ c, (a.eval b).val c = At T ty (tokens T vty (asg T vty b) e) c) ∧
      (arcPos e → (∀ v ∈ e.vars, T.parts (vty v) = none) → Shape T vty (T.dims ty) a) := by
  unfold compile at ha
  cases h1 : compArc T vty 1 e with
  | none => simp [h1] at ha
  | some a0 =>
    rw [h1, Option.bind_some] at ha
    obtain ⟨s1, s2⟩ := arc_shape w e 1 a0 h hc h1
    have v1 := fun b hb => (arc_val w (b := b) e 1 a0 h hc h1 hb)
    have same : a = a0 → _ := fun he : a = a0 => by
      subst he
      refine (⟨(v1 _ (bound_zero w _)).1, s1, fun b hb c => ?_, fun hp hpl => s2 hp (by omega) hpl⟩ : a.OK ∧ (∀ v, v ∈ a.vars ↔ v ∈ e.vars) ∧
      (∀ b, Bound T vty b e.vars → ∀ c, (a.eval b).val c = At T ty (tokens T vty (asg T vty b) e) c) ∧
      (arcPos e → (∀ v ∈ e.vars, T.parts (vty v) = none) → Shape T vty (T.dims ty) a))
      have := (v1 b hb).2 c
      simp only [Nat.one_mul] at this
      exact this
    cases a0 with
    | add l r => simp only [replaceConstants, Option.some.injEq] at ha; exact same ha.symm
    | sub l r => simp only [replaceConstants, Option.some.injEq] at ha; exact same ha.symm
    | const m => simp only [replaceConstants, Option.some.injEq] at ha; exact same ha.symm
    | coll qs sizes m =>
      obtain ⟨q, rfl, hq⟩ := top_coll w e 1 h hc ht h1
      rw [replaceConstants, splitConst] at ha
      cases hv : hasVar q with
      | true =>
        have e0 : MS.empty.card = 0 := rfl
        simp only [hv, if_true, splitConst, e0] at ha
        simp at ha
        exact same ha.symm
      | false =>
        obtain ⟨q1, q2⟩ := hq hv
        simp only [hv, splitConst] at ha
        rw [q2] at ha
        generalize hm : MS.empty.addCount (pack sizes (seqVals Bind.none sizes q)) (m : Int) = M at ha
        simp at ha
        obtain ⟨_, rfl⟩ := ha
        have hev : ∀ b, (Arc.coll [q] sizes m).eval b = M := fun b => by
          rw [Arc.eval, addSeqs, addSeqs, seqColor, seqVals_noVar b Bind.none sizes q hv, ← hm]
        have hnv : ∀ v, v ∉ e.vars := fun v hv' => by
          have := (s1 v).2 hv'
          simp [Arc.vars, noVar_vars hv] at this
        refine ⟨?_, fun v => ?_, fun b hb c => ?_, fun _ _ => trivial⟩
        · have := eval_good (fun _ => 0) (v1 _ (bound_zero w _)).1
          rw [hev] at this
          exact this
        · simp [Arc.vars, hnv v]
        · have := (v1 b hb).2 c
          rw [hev] at this
          simp only [Nat.one_mul] at this
          exact this

end XCol
end Verif
