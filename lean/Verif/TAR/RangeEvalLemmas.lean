import Verif.TAR.RangeCtxLemmas

/-! # Ranges sufficient for a query to be false -/

namespace Verif
namespace TAR
open PQL PRVec

/-- A number. -/
def isLit : Expr → Bool
  | .lit _ => true
  | _ => false

/-- A product, a difference or a negation. -/
def isOp : Expr → Bool
  | .mul _ _ _ => true
  | .sub _ _ => true
  | .minus _ => true
  | _ => false

/-- A place, or a flat sum. -/
def flat : Expr → Bool
  | .id _ => true
  | .plus _ _ es => es.all isOp
  | e => isOp e

/-- Comparisons the visitor handles: a flat sum with a number. -/
def cmpSafe (a b : Expr) : Bool :=
  if b.placeFree then isLit b && flat a && !a.placeFree
  else if a.placeFree then isLit a && flat b && decide (a.val (fun _ => 0) < 2 ^ 31)
  else true

mutual
/-- No conjunction of constraints is met with a lower bound on one of its places, unless the constraint has no upper
bound. -/
def reSafe (acc : Nat → Bool) : Cond → Bool
  | .cmp .lt a b => cmpSafe a b
  | .cmp .le a b => cmpSafe a b
  | .cc l neg => neg || l.all fun c => c.upper == rmax || !acc c.place
  | .and cs => reSeq acc cs
  | .or cs => reSeq acc cs
  | _ => true
def reSeq (acc : Nat → Bool) : List Cond → Bool
  | [] => true
  | c :: cs => reSafe acc c && reSeq (fun p => acc p || condUse p c) cs
end

namespace ECtx
variable {E : ECtx} {n : Nat}

/-- `v'` is got from `v` by restricting places of `U`. -/
structure Upd (n : Nat) (U : Nat → Bool) (v v' : PRVec) : Prop where
  good : Good n v'
  ref : Ref v' v
  frame : ∀ p, U p = false → rng v' p = rng v p

theorem Upd.refl {U : Nat → Bool} {v : PRVec} (h : Good n v) : Upd n U v v := ⟨h, Ref.refl v, fun _ _ => rfl⟩

theorem Upd.trans {U U' U'' : Nat → Bool} {v v' v'' : PRVec} (h : Upd n U v v') (h' : Upd n U' v' v'')
    (hU : ∀ p, U'' p = false → U p = false ∧ U' p = false) : Upd n U'' v v'' :=
  ⟨h'.good, h'.ref.trans h.ref, fun p hp => by rw [h'.frame p (hU p hp).2, h.frame p (hU p hp).1]⟩

theorem Upd.mono {U U' : Nat → Bool} {v v' : PRVec} (h : Upd n U v v') (hU : ∀ p, U' p = false → U p = false) :
    Upd n U' v v' := ⟨h.good, h.ref, fun p hp => h.frame p (hU p hp)⟩

theorem upd_and {v : PRVec} (g : Good n v) {x : PRange} (hp : x.place < n) (hx : x.range.upper ≤ rmax) :
    Upd n (fun q => q == x.place) v (v.andPlace x) :=
  ⟨good_andPlace g hp hx, ref_andPlace g hx, fun q hq => by
    rw [rng_andPlace g hx, if_neg (by simpa using hq)]⟩

theorem u32_le (i : Int) : u32 i ≤ rmax := by unfold u32 rmax; omega

/-! ## Comparisons -/

/-- What a flat sum leaves behind. -/
theorem expr_op {e : Expr} (h : isOp e = true) (s : RE) : (ECtx.expr e s).res = true ∧ (ECtx.expr e s).suff = s.suff := by
  cases e <;> simp [isOp] at h <;> exact ⟨rfl, rfl⟩

theorem exprs_op : ∀ (es : List Expr) (s : RE), es.all isOp = true →
    (ECtx.exprs es s).suff = s.suff ∧ ((ECtx.exprs es s).res = false → es = [] ∧ s.res = false) ∧
      (s.res = true → (ECtx.exprs es s).res = true) := by
  intro es
  induction es with
  | nil => intro s _; exact ⟨rfl, fun h => ⟨rfl, h⟩, fun h => h⟩
  | cons e es ih =>
    intro s h
    simp only [List.all_cons, Bool.and_eq_true] at h
    obtain ⟨h1, h2⟩ := expr_op h.1 s
    obtain ⟨h3, _, h5⟩ := ih (ECtx.expr e s) h.2
    simp only [ECtx.exprs]
    refine ⟨by rw [h3, h2], fun hr => ?_, fun _ => h5 h1⟩
    rw [h5 h1] at hr; cases hr

theorem expr_suff (e : Expr) : ∀ s : RE, (ECtx.expr e s).suff = s.suff ∧ ∀ p ∈ (ECtx.expr e s).places, p ∈ s.places ∨ exprUse p e = true := by
  induction e using Expr.ind with
  | lit v => intro s; exact ⟨rfl, fun p hp => Or.inl hp⟩
  | id q =>
    intro s
    refine ⟨rfl, fun p hp => ?_⟩
    simp only [ECtx.expr, List.mem_append, List.mem_singleton] at hp
    rcases hp with hp | rfl
    · exact Or.inl hp
    · exact Or.inr (by simp [exprUse])
  | plus k is es ih =>
    intro s
    have key : ∀ (l : List Expr), (∀ e ∈ l, e ∈ es) → ∀ s : RE, (ECtx.exprs l s).suff = s.suff ∧
        ∀ p ∈ (ECtx.exprs l s).places, p ∈ s.places ∨ exprsUse p l = true := by
      intro l
      induction l with
      | nil => intro _ s; exact ⟨rfl, fun p hp => Or.inl hp⟩
      | cons e l ihl =>
        intro hsub s
        obtain ⟨h1, h2⟩ := ih e (hsub e (by simp)) s
        obtain ⟨h3, h4⟩ := ihl (fun d hd => hsub d (by simp [hd])) (ECtx.expr e s)
        refine ⟨by rw [ECtx.exprs, h3, h1], fun p hp => ?_⟩
        simp only [ECtx.exprs] at hp
        simp only [exprsUse, Bool.or_eq_true]
        rcases h4 p hp with h | h
        · rcases h2 p h with h | h
          · exact Or.inl h
          · exact Or.inr (Or.inl h)
        · exact Or.inr (Or.inr h)
    obtain ⟨h1, h2⟩ := key es (fun e he => he) s
    refine ⟨h1, fun p hp => ?_⟩
    simp only [ECtx.expr, List.mem_append] at hp
    simp only [exprUse, Bool.or_eq_true, List.contains_iff_mem]
    rcases hp with hp | hp
    · rcases h2 p hp with h | h
      · exact Or.inl h
      · exact Or.inr (Or.inr h)
    · exact Or.inr (Or.inl hp)
  | mul k is es _ => intro s; exact ⟨rfl, fun p hp => Or.inl hp⟩
  | sub e es _ _ => intro s; exact ⟨rfl, fun p hp => Or.inl hp⟩
  | minus e _ => intro s; exact ⟨rfl, fun p hp => Or.inl hp⟩

/-- A flat sum handled without giving up. -/
theorem flat_spec {e : Expr} (h : flat e = true) (hp : e.placeFree = false) {s : RE} (hl : s.lit = 0) (hs : s.places = [])
    (hr : (ECtx.expr e s).res = false) :
    (ECtx.expr e s).places ≠ [] ∧ ∀ m, e.val m = (ECtx.expr e s).lit + ((ECtx.expr e s).places.map fun p => (m p : Int)).sum := by
  cases e with
  | lit v => simp [flat, isOp] at h
  | id p =>
    refine ⟨by simp [ECtx.expr], fun m => ?_⟩
    simp [ECtx.expr, hs, hl, Expr.val]
  | plus k is es =>
    simp only [flat] at h
    obtain ⟨_, h2, _⟩ := exprs_op es s h
    obtain ⟨rfl, _⟩ := h2 hr
    refine ⟨?_, fun m => ?_⟩
    · simp only [ECtx.expr, ECtx.exprs, hs, List.nil_append]
      rintro rfl
      simp [Expr.placeFree, allFree] at hp
    · simp [ECtx.expr, ECtx.exprs, hs, hl, Expr.val, vals]
  | mul k is es => exact absurd hr (by simp [ECtx.expr])
  | sub e es => exact absurd hr (by simp [ECtx.expr])
  | minus e => exact absurd hr (by simp [ECtx.expr])

theorem below_spec (val : Int) : ∀ (ps : List Nat) (s : RE), Good n s.suff → (∀ p ∈ ps, p < n) →
    Upd n (fun p => ps.contains p) s.suff (below val ps s).suff ∧
      ((below val ps s).res = false → s.res = false ∧ ∀ m, SatI (below val ps s).suff m → ∀ p ∈ ps, val ≤ m p) := by
  intro ps
  induction ps with
  | nil => intro s g _; exact ⟨Upd.refl g, fun h => ⟨h, fun m _ p hp => by cases hp⟩⟩
  | cons p ps ih =>
    intro s g hp
    simp only [below]
    by_cases hv : val > s.suff.upper p
    · rw [if_pos hv]
      exact ⟨Upd.refl g, fun h => by cases h⟩
    · rw [if_neg hv]
      have h1 := upd_and g (x := ⟨p, ⟨u32 val, rmax⟩⟩) (hp p (by simp)) (Nat.le_refl _)
      obtain ⟨h2, h3⟩ := ih { s with suff := s.suff.andPlace ⟨p, ⟨u32 val, rmax⟩⟩ } h1.good (fun q hq => hp q (by simp [hq]))
      refine ⟨h1.trans h2 (fun q hq => by simpa only [List.contains_cons, Bool.or_eq_false_iff] using hq), fun hr => ?_⟩
      obtain ⟨h4, h5⟩ := h3 hr
      refine ⟨h4, fun m hm q hq => ?_⟩
      rcases List.mem_cons.1 hq with rfl | hq
      · have h6 := (h2.ref.sat h1.good hm) q
        rw [rng_andPlace g (Nat.le_refl _), if_pos rfl] at h6
        unfold Range.Has Range.inter at h6
        simp only at h6
        rw [upper_eq] at hv
        have := rng_le g q
        by_cases h0 : 0 ≤ val
        · have := RCtx.u32_of h0 (by omega)
          omega
        · omega
      · exact h5 m hm q hq

theorem above_spec (val : Int) : ∀ (ps : List Nat) (s : RE), Good n s.suff → (∀ p ∈ ps, p < n) →
    Upd n (fun p => ps.contains p) s.suff (above val ps s).suff ∧
      ((above val ps s).res = false → ps ≠ [] → val < rmax → FinU (above val ps s).suff) ∧ ((above val ps s).res = false → s.res = false) := by
  intro ps
  induction ps with
  | nil => intro s g _; exact ⟨Upd.refl g, fun _ h => (h rfl).elim, fun h => h⟩
  | cons p ps ih =>
    intro s g hp
    simp only [above]
    by_cases hv : val < s.suff.lower p
    · rw [if_pos hv]
      exact ⟨Upd.refl g, (fun h => by cases h), (fun h => by cases h)⟩
    · rw [if_neg hv]
      have h1 := upd_and g (x := ⟨p, ⟨0, u32 val⟩⟩) (hp p (by simp)) (u32_le val)
      obtain ⟨h2, _, h3⟩ := ih { s with suff := s.suff.andPlace ⟨p, ⟨0, u32 val⟩⟩ } h1.good (fun q hq => hp q (by simp [hq]))
      refine ⟨h1.trans h2 (fun q hq => by simpa only [List.contains_cons, Bool.or_eq_false_iff] using hq), fun hr _ hval => ?_, fun hr => h3 hr⟩
      refine h2.ref.finU ⟨p, ?_⟩
      rw [rng_andPlace g (u32_le val), if_pos rfl]
      unfold Range.inter
      simp only
      rw [lower_eq] at hv
      have := RCtx.u32_of (i := val) (by omega) (by omega)
      omega

theorem sum_ge {m : Nat → Nat} : ∀ {is : List Nat} {p : Nat}, p ∈ is → (m p : Int) ≤ (is.map fun p => (m p : Int)).sum := by
  intro is
  have hnn : ∀ l : List Nat, 0 ≤ (l.map fun p => (m p : Int)).sum := by
    intro l
    induction l with
    | nil => simp
    | cons q l ih => simp only [List.map_cons, List.sum_cons]; omega
  induction is with
  | nil => intro p hp; cases hp
  | cons q is ih =>
    intro p hp
    simp only [List.map_cons, List.sum_cons]
    rcases List.mem_cons.1 hp with rfl | hp
    · have := hnn is; omega
    · have := ih hp; omega

theorem cmp_spec {a b : Expr} {strict : Bool} {s : RE} (g : Good n s.suff) (hp : ∀ p, exprUse p a = true ∨ exprUse p b = true → p < n) :
    Upd n (fun p => exprUse p a || exprUse p b) s.suff (ECtx.cmp a b strict s).suff ∧
      (cmpSafe a b = true → (ECtx.cmp a b strict s).res = false → FinU (ECtx.cmp a b strict s).suff ∨
        ∀ m, SatI (ECtx.cmp a b strict s).suff m → if strict then b.val m ≤ a.val m else b.val m < a.val m) := by
  unfold ECtx.cmp
  simp only
  by_cases hb : b.placeFree = true
  · rw [if_pos hb]
    generalize hs1 : ECtx.expr b { s with places := [] } = s1
    have hs1s : s1.suff = s.suff := by rw [← hs1]; exact (expr_suff b _).1
    obtain ⟨hs2s, hs2p⟩ := expr_suff a { s1 with lit := 0 }
    generalize hs2 : ECtx.expr a { s1 with lit := 0 } = s2 at *
    have hs1p : ∀ p ∈ s1.places, exprUse p b = true := by
      intro p hpm
      rw [← hs1] at hpm
      rcases (expr_suff b { s with places := [] }).2 p hpm with h | h
      · cases h
      · exact h
    have hpl : ∀ p ∈ s2.places, exprUse p a = true ∨ exprUse p b = true := by
      intro p hpm
      rcases hs2p p hpm with h | h
      · exact Or.inr (hs1p p h)
      · exact Or.inl h
    have hsuff : s2.suff = s.suff := by rw [hs2s]; exact hs1s
    obtain ⟨h1, h2⟩ := below_spec (n := n) (s1.lit - s2.lit + if strict then 0 else 1) s2.places s2 (by rw [hsuff]; exact g) (fun p hpm => hp p (hpl p hpm))
    rw [hsuff] at h1
    refine ⟨h1.mono (fun p hp => ?_), fun hsafe hr => Or.inr fun m hm => ?_⟩
    · simp only [Bool.or_eq_false_iff] at hp
      cases hc : s2.places.contains p with
      | false => rfl
      | true =>
        rw [List.contains_iff_mem] at hc
        rcases hpl p hc with h | h
        · rw [hp.1] at h; cases h
        · rw [hp.2] at h; cases h
    · obtain ⟨h3, h4⟩ := h2 hr
      unfold cmpSafe at hsafe
      rw [if_pos hb] at hsafe
      simp only [Bool.and_eq_true, Bool.not_eq_true'] at hsafe
      obtain ⟨⟨hlit, hflat⟩, hnp⟩ := hsafe
      cases b with
      | lit v =>
        simp only [ECtx.expr] at hs1
        have hlit1 : s1.lit = v := by rw [← hs1]
        have hplaces1 : s1.places = [] := by rw [← hs1]
        obtain ⟨h5, h6⟩ := flat_spec hflat hnp (s := { s1 with lit := 0 }) rfl hplaces1 (by rw [hs2]; exact h3)
        rw [hs2] at h5 h6
        obtain ⟨p, hpm⟩ := List.exists_mem_of_ne_nil _ h5
        have h7 := h4 m hm p hpm
        have h8 := sum_ge (m := m) hpm
        rw [h6 m]
        simp only [Expr.val]
        rw [hlit1] at h7
        cases strict <;> simp at h7 ⊢ <;> omega
      | _ => simp [isLit] at hlit
  · rw [if_neg hb]
    by_cases ha : a.placeFree = true
    · rw [if_pos ha]
      generalize hs1 : ECtx.expr a { s with places := [] } = s1
      have hs1s : s1.suff = s.suff := by rw [← hs1]; exact (expr_suff a _).1
      obtain ⟨hs2s, hs2p⟩ := expr_suff b { s1 with lit := 0 }
      generalize hs2 : ECtx.expr b { s1 with lit := 0 } = s2 at *
      have hs1p : ∀ p ∈ s1.places, exprUse p a = true := by
        intro p hpm
        rw [← hs1] at hpm
        rcases (expr_suff a { s with places := [] }).2 p hpm with h | h
        · cases h
        · exact h
      have hpl : ∀ p ∈ s2.places, exprUse p a = true ∨ exprUse p b = true := by
        intro p hpm
        rcases hs2p p hpm with h | h
        · exact Or.inl (hs1p p h)
        · exact Or.inr h
      have hsuff : s2.suff = s.suff := by rw [hs2s]; exact hs1s
      obtain ⟨h1, h2, h3⟩ := above_spec (n := n) (s1.lit + if strict then 1 else 0) s2.places s2 (by rw [hsuff]; exact g) (fun p hpm => hp p (hpl p hpm))
      rw [hsuff] at h1
      refine ⟨h1.mono (fun p hp => ?_), fun hsafe hr => Or.inl ?_⟩
      · simp only [Bool.or_eq_false_iff] at hp
        cases hc : s2.places.contains p with
        | false => rfl
        | true =>
          rw [List.contains_iff_mem] at hc
          rcases hpl p hc with h | h
          · rw [hp.1] at h; cases h
          · rw [hp.2] at h; cases h
      · unfold cmpSafe at hsafe
        rw [if_neg hb, if_pos ha] at hsafe
        simp only [Bool.and_eq_true, decide_eq_true_eq] at hsafe
        obtain ⟨⟨hlit, hflat⟩, hlt⟩ := hsafe
        cases a with
        | lit v =>
          simp only [ECtx.expr] at hs1
          have hlit1 : s1.lit = v := by rw [← hs1]
          have hplaces1 : s1.places = [] := by rw [← hs1]
          obtain ⟨h5, _⟩ := flat_spec hflat (by simpa using hb) (s := { s1 with lit := 0 }) rfl hplaces1 (by rw [hs2]; exact h3 hr)
          rw [hs2] at h5
          refine h2 hr h5 ?_
          simp only [Expr.val] at hlt
          rw [hlit1]
          unfold rmax
          split <;> omega
        | _ => simp [isLit] at hlit
    · rw [if_neg ha]
      exact ⟨Upd.refl g, fun _ hr => by cases hr⟩

/-! ## Conjunctions of constraints -/

theorem ccNeg_spec : ∀ (l : List Cons) (s : RE), Good n s.suff → (∀ c ∈ l, c.place < n ∧ c.upper ≤ rmax) →
    Upd n (fun p => l.any fun c => c.place == p) s.suff (ECtx.ccNeg E l s).suff ∧
      ((ECtx.ccNeg E l s).res = false → ∀ m, SatI (ECtx.ccNeg E l s).suff m → consI m l = true) := by
  intro l
  induction l with
  | nil => intro s g _; exact ⟨Upd.refl g, fun _ m _ => rfl⟩
  | cons c l ih =>
    intro s g hl
    obtain ⟨hc1, hc2⟩ := hl c (by simp)
    simp only [ECtx.ccNeg]
    cases hf : E.ranges.find? c.place with
    | none => exact ⟨Upd.refl g, fun h => by cases h⟩
    | some r =>
      simp only
      by_cases hx : r.upper < c.lower ∨ c.upper < r.lower
      · rw [if_pos hx]; exact ⟨Upd.refl g, fun h => by cases h⟩
      · rw [if_neg hx]
        have h1 := upd_and g (x := ⟨c.place, ⟨c.lower, c.upper⟩⟩) hc1 hc2
        obtain ⟨h2, h3⟩ := ih { s with suff := s.suff.andPlace ⟨c.place, ⟨c.lower, c.upper⟩⟩ } h1.good (fun d hd => hl d (by simp [hd]))
        refine ⟨h1.trans h2 ?_, fun hr m hm => ?_⟩
        · intro p hp
          simp only [List.any_cons, Bool.or_eq_false_iff] at hp
          refine ⟨?_, hp.2⟩
          have := hp.1
          simp only [beq_eq_false_iff_ne, ne_eq] at this ⊢
          exact fun h => this h.symm
        · have h4 := h3 hr m hm
          rw [RCtx.consI_true] at h4 ⊢
          intro d hd
          rcases List.mem_cons.1 hd with rfl | hd
          · have h5 := (h2.ref.sat h1.good hm) d.place
            rw [rng_andPlace g hc2, if_pos rfl, has_inter (rng_le g _) hc2] at h5
            exact h5.2
          · exact h4 d hd

/-- A range the loop may have picked. -/
def Pick (L : List Cons) (t : PRange) : Prop :=
  ∃ c ∈ L, (1 ≤ c.lower ∧ t = ⟨c.place, ⟨0, c.lower - 1⟩⟩) ∨ (c.upper < rmax ∧ t = ⟨c.place, ⟨c.upper + 1, rmax⟩⟩)

theorem ccPos_spec {L : List Cons} (hL : ∀ c ∈ L, c.place < n ∧ c.lower ≤ rmax ∧ c.upper ≤ rmax)
    (hE : ∀ p r, E.ranges.find? p = some r → r.lower ≤ rmax) : ∀ (l : List Cons) (tmp : Option PRange) (s : RE),
    (∀ c ∈ l, c ∈ L) → Good n s.suff → (∀ t, tmp = some t → Pick L t) →
    Upd n (fun p => L.any fun c => c.place == p) s.suff (ECtx.ccPos E l tmp s).suff ∧
      ((∀ c ∈ L, c.upper = rmax ∨ (rng s.suff c.place).lower = 0) → (ECtx.ccPos E l tmp s).res = false →
        FinU (ECtx.ccPos E l tmp s).suff ∨ ∀ m, SatI (ECtx.ccPos E l tmp s).suff m → consI m L = false) := by
  intro l
  have hL' : ∀ c ∈ L, c.upper ≤ rmax := fun c hc => (hL c hc).2.2
  induction l with
  | nil =>
    intro tmp s _ g ht
    simp only [ECtx.ccPos]
    cases tmp with
    | none => exact ⟨Upd.refl g, fun _ h => by cases h⟩
    | some t =>
      simp only
      obtain ⟨c, hc, hpick⟩ := ht t rfl
      obtain ⟨hc1, hc2, hc3⟩ := hL c hc
      have hpl : t.place = c.place := by rcases hpick with ⟨_, h⟩ | ⟨_, h⟩ <;> rw [h]
      have htu : t.range.upper ≤ rmax := by
        rcases hpick with ⟨h0, h⟩ | ⟨_, h⟩ <;> rw [h] <;> simp only <;> omega
      have h1 := upd_and g (x := t) (by rw [hpl]; exact hc1) htu
      refine ⟨h1.mono ?_, fun _ _ => ?_⟩
      · intro p hp
        simp only [beq_eq_false_iff_ne, ne_eq]
        intro hpt
        rw [List.any_eq_false] at hp
        exact hp c hc (by simp [hpt, hpl])
      · rcases hpick with ⟨h0, h⟩ | ⟨h0, h⟩
        · left
          refine ⟨c.place, ?_⟩
          rw [rng_andPlace g htu, if_pos hpl.symm, h]
          unfold Range.inter
          simp only
          omega
        · right
          intro m hm
          rw [RCtx.consI_false hL']
          refine ⟨c, hc, ?_⟩
          have h5 := hm c.place
          rw [rng_andPlace g htu, if_pos hpl.symm, has_inter (rng_le g _) htu, h] at h5
          have h6 := h5.2
          unfold Range.Has at h6
          simp only at h6
          unfold RCtx.Viol
          omega
  | cons c l ih =>
    intro tmp s hsub g ht
    obtain ⟨hc1, hc2, hc3⟩ := hL c (hsub c (by simp))
    have hsub' : ∀ d ∈ l, d ∈ L := fun d hd => hsub d (by simp [hd])
    simp only [ECtx.ccPos]
    cases hf : E.ranges.find? c.place with
    | none => exact ih tmp s hsub' g ht
    | some r =>
      simp only
      by_cases hx : (!(decide (r.lower ≤ c.upper) && decide (c.lower ≤ r.upper))) = true
      · rw [if_pos hx]
        by_cases hlt : r.upper < c.lower
        · rw [if_pos hlt]
          by_cases hsu : s.suff.upper c.place < c.lower
          · rw [if_pos hsu]
            refine ⟨Upd.refl g, fun _ _ => Or.inr fun m hm => ?_⟩
            rw [RCtx.consI_false hL']
            refine ⟨c, hsub c (by simp), Or.inl ?_⟩
            have h5 : (rng s.suff c.place).Has (m c.place) := hm c.place
            rw [upper_eq] at hsu
            unfold Range.Has at h5
            omega
          · rw [if_neg hsu]
            refine ih _ { s with res := false } hsub' g ?_
            intro t htt
            have hnew : Pick L ⟨c.place, ⟨0, c.lower - 1⟩⟩ := ⟨c, hsub c (by simp), Or.inl ⟨by omega, rfl⟩⟩
            cases tmp with
            | none => simp only [Option.some.injEq] at htt; rw [← htt]; exact hnew
            | some t0 =>
              simp only at htt
              split at htt
              · simp only [Option.some.injEq] at htt; rw [← htt]; exact hnew
              · simp only [Option.some.injEq] at htt; rw [← htt]; exact ht t0 rfl
        · rw [if_neg hlt]
          have hcr : c.upper < r.lower := by
            simp only [Bool.not_eq_true', Bool.and_eq_false_iff, decide_eq_false_iff_not] at hx
            omega
          have hcu : c.upper < rmax := Nat.lt_of_lt_of_le hcr (hE _ _ hf)
          by_cases hsl : s.suff.lower c.place > c.lower
          · rw [if_pos hsl]
            refine ⟨Upd.refl g, fun h0 _ => ?_⟩
            rw [lower_eq] at hsl
            rcases h0 c (hsub c (by simp)) with h | h <;> omega
          · rw [if_neg hsl]
            refine ih _ { s with res := false } hsub' g ?_
            intro t htt
            have hnew : Pick L ⟨c.place, ⟨c.upper + 1, rmax⟩⟩ := ⟨c, hsub c (by simp), Or.inr ⟨hcu, rfl⟩⟩
            cases tmp with
            | none => simp only [Option.some.injEq] at htt; rw [← htt]; exact hnew
            | some t0 =>
              simp only at htt
              split at htt
              · simp only [Option.some.injEq] at htt; rw [← htt]; exact hnew
              · simp only [Option.some.injEq] at htt; rw [← htt]; exact ht t0 rfl
      · rw [if_neg hx]
        exact ih tmp s hsub' g ht

/-! ## Conditions -/

theorem cond_upd (hE : ∀ p r, E.ranges.find? p = some r → r.lower ≤ rmax) (c : Cond) : ∀ (s s' : RE), QOK n c → Good n s.suff →
    ECtx.cond E c s = .ok s' → Upd n (fun p => condUse p c) s.suff s'.suff := by
  induction c using Cond.ind with
  | dead => intro s s' _ g h; simp only [ECtx.cond, Except.ok.injEq] at h; subst h; exact Upd.refl g
  | cmp op a b =>
    intro s s' hq g h
    cases op with
    | eq => simp only [ECtx.cond, Except.ok.injEq] at h; subst h; exact Upd.refl g
    | ne => simp only [ECtx.cond, Except.ok.injEq] at h; subst h; exact Upd.refl g
    | lt => simp only [ECtx.cond, Except.ok.injEq] at h; subst h; exact (cmp_spec g hq.1).1
    | le => simp only [ECtx.cond, Except.ok.injEq] at h; subst h; exact (cmp_spec g hq.1).1
  | cc l neg =>
    intro s s' hq g h
    simp only [ECtx.cond, Except.ok.injEq] at h; subst h
    cases neg with
    | true => exact (ccNeg_spec l s g (fun c hc => ⟨(hq c hc).1, (hq c hc).2.2⟩)).1
    | false => exact (ccPos_spec hq hE l none s (fun c hc => hc) g (fun t ht => by cases ht)).1
  | and cs ih =>
    intro s s' hq g h
    simp only [ECtx.cond] at h
    have key : ∀ (l : List Cond), (∀ c ∈ l, c ∈ cs) → ∀ (best : Option PRVec) (x : RE),
        (∀ b, best = some b → Upd n (fun p => condsUse p cs) s.suff b) → Upd n (fun p => condsUse p cs) s.suff x.suff →
        ECtx.ands E s.suff l best x = .ok s' → Upd n (fun p => condsUse p cs) s.suff s'.suff := by
      intro l
      induction l with
      | nil =>
        intro _ best x hb _ h
        simp only [ECtx.ands, Except.ok.injEq] at h
        subst h
        cases best with
        | none => exact Upd.refl g
        | some b => exact hb b rfl
      | cons c l ihl =>
        intro hsub best x hb hx h
        simp only [ECtx.ands] at h
        have hcm := hsub c (by simp)
        cases h1 : ECtx.cond E c x with
        | error e => rw [h1] at h; cases h
        | ok s1 =>
          rw [h1] at h
          simp only [bind, Except.bind] at h
          have hu1 := hx.trans (ih c hcm x s1 (QOKs_mem hq c hcm) hx.good h1) (U'' := fun p => condsUse p cs)
            (fun p hp => ⟨hp, condsUse_mem hp c hcm⟩)
          split at h
          · exact ihl (fun d hd => hsub d (by simp [hd])) _ _ hb hu1 h
          · cases h2 : ECtx.cond E c s1 with
            | error e => rw [h2] at h; cases h
            | ok s2 =>
              rw [h2] at h
              simp only at h
              have hu2 := hu1.trans (ih c hcm s1 s2 (QOKs_mem hq c hcm) hu1.good h2) (U'' := fun p => condsUse p cs)
                (fun p hp => ⟨hp, condsUse_mem hp c hcm⟩)
              refine ihl (fun d hd => hsub d (by simp [hd])) _ _ ?_ ?_ h
              · intro b hbb
                obtain rfl := Option.some.inj hbb
                cases best with
                | none => exact hu2
                | some b0 =>
                  simp only
                  split
                  · exact hu2
                  · exact hb b0 rfl
              · exact Upd.refl g
    exact key cs (fun c hc => hc) none s (fun b hb => by cases hb) (Upd.refl g) h
  | or cs ih =>
    intro s s' hq g h
    simp only [ECtx.cond] at h
    have key : ∀ (l : List Cond), (∀ c ∈ l, c ∈ cs) → ∀ (x : RE), Upd n (fun p => condsUse p cs) s.suff x.suff →
        ECtx.ors E s.suff l x = .ok s' → Upd n (fun p => condsUse p cs) s.suff s'.suff := by
      intro l
      induction l with
      | nil =>
        intro _ x hx h
        simp only [ECtx.ors, Except.ok.injEq] at h
        subst h
        exact hx
      | cons c l ihl =>
        intro hsub x hx h
        simp only [ECtx.ors] at h
        have hcm := hsub c (by simp)
        cases h1 : ECtx.cond E c x with
        | error e => rw [h1] at h; cases h
        | ok s1 =>
          rw [h1] at h
          simp only [bind, Except.bind] at h
          have hu1 := hx.trans (ih c hcm x s1 (QOKs_mem hq c hcm) hx.good h1) (U'' := fun p => condsUse p cs)
            (fun p hp => ⟨hp, condsUse_mem hp c hcm⟩)
          split at h
          · simp only [pure, Except.pure, Except.ok.injEq] at h
            subst h
            exact Upd.refl g
          · exact ihl (fun d hd => hsub d (by simp [hd])) _ hu1 h
    exact key cs (fun c hc => hc) s (Upd.refl g) h
  | _ => intro s s' hq; exact hq.elim

/-- A vector with lower bounds only, sufficient for the query to be false, excludes it. -/
theorem cond_spec (hE : ∀ p r, E.ranges.find? p = some r → r.lower ≤ rmax) (dl : (Nat → Nat) → Bool) (c : Cond) :
    ∀ (acc : Nat → Bool) (s s' : RE), QOK n c → reSafe acc c = true → Good n s.suff →
    (∀ p, acc p = false → (rng s.suff p).lower = 0) → ECtx.cond E c s = .ok s' → s'.res = false →
    FinU s'.suff ∨ ∀ m, SatI s'.suff m → goalI (dl m) m c = false := by
  induction c using Cond.ind with
  | dead => intro acc s s' _ _ _ _ h hr; simp only [ECtx.cond, Except.ok.injEq] at h; subst h; cases hr
  | cmp op a b =>
    intro acc s s' hq hs g ha h hr
    cases op with
    | eq => simp only [ECtx.cond, Except.ok.injEq] at h; subst h; cases hr
    | ne => simp only [ECtx.cond, Except.ok.injEq] at h; subst h; cases hr
    | lt =>
      simp only [ECtx.cond, Except.ok.injEq] at h; subst h
      rcases (cmp_spec (strict := true) g hq.1).2 hs hr with h | h
      · exact Or.inl h
      · refine Or.inr fun m hm => ?_
        have := h m hm
        simp only [goalI, PQL.compare, evalExpr_eq, decide_eq_false_iff_not, Int.not_lt]
        simpa using this
    | le =>
      simp only [ECtx.cond, Except.ok.injEq] at h; subst h
      rcases (cmp_spec (strict := false) g hq.1).2 hs hr with h | h
      · exact Or.inl h
      · refine Or.inr fun m hm => ?_
        have := h m hm
        simp only [goalI, PQL.compare, evalExpr_eq, decide_eq_false_iff_not, Int.not_le]
        simpa using this
  | cc l neg =>
    intro acc s s' hq hs g ha h hr
    simp only [ECtx.cond, Except.ok.injEq] at h; subst h
    cases neg with
    | true =>
      refine Or.inr fun m hm => ?_
      have := (ccNeg_spec (E := E) l s g (fun c hc => ⟨(hq c hc).1, (hq c hc).2.2⟩)).2 hr m hm
      simp [goalI, this]
    | false =>
      simp only [reSafe, Bool.false_or, List.all_eq_true, Bool.or_eq_true, beq_iff_eq, Bool.not_eq_true'] at hs
      rcases (ccPos_spec hq hE l none s (fun c hc => hc) g (fun t ht => by cases ht)).2 (fun c hc => by
        rcases hs c hc with h | h
        · exact Or.inl h
        · exact Or.inr (ha _ h)) hr with h | h
      · exact Or.inl h
      · refine Or.inr fun m hm => ?_
        simp [goalI, h m hm]
  | and cs ih =>
    intro acc s s' hq hs g ha h hr
    simp only [ECtx.cond] at h
    simp only [reSafe] at hs
    have hg : ∀ c ∈ cs, ∀ m, goalI (dl m) m c = false → goalI (dl m) m (.and cs) = false := by
      intro c hc m hf
      simp only [goalI, goalAll_eq, List.all_eq_false]
      exact ⟨c, hc, by rw [hf]; decide⟩
    have key : ∀ (l : List Cond), (∀ c ∈ l, c ∈ cs) → ∀ (acc : Nat → Bool) (best : Option PRVec) (x : RE), reSeq acc l = true →
        (∀ b, best = some b → FinU b ∨ ∀ m, SatI b m → goalI (dl m) m (.and cs) = false) → Good n x.suff →
        (∀ p, acc p = false → (rng x.suff p).lower = 0) → (∀ p, acc p = false → (rng s.suff p).lower = 0) →
        ECtx.ands E s.suff l best x = .ok s' →
        FinU s'.suff ∨ ∀ m, SatI s'.suff m → goalI (dl m) m (.and cs) = false := by
      intro l
      induction l with
      | nil =>
        intro _ acc best x _ hb _ _ _ h
        simp only [ECtx.ands, Except.ok.injEq] at h
        subst h
        cases best with
        | none => cases hr
        | some b => exact hb b rfl
      | cons c l ihl =>
        intro hsub acc best x hs hb gx hx hx0 h
        simp only [ECtx.ands] at h
        simp only [reSeq, Bool.and_eq_true] at hs
        have hcm := hsub c (by simp)
        have hqc := QOKs_mem hq c hcm
        cases h1 : ECtx.cond E c x with
        | error e => rw [h1] at h; cases h
        | ok s1 =>
          rw [h1] at h
          simp only [bind, Except.bind] at h
          have hu1 := cond_upd hE c x s1 hqc gx h1
          cases hr1 : s1.res with
          | true =>
            rw [hr1] at h
            simp only [if_true] at h
            refine ihl (fun d hd => hsub d (by simp [hd])) _ _ s1 hs.2 hb hu1.good ?_ ?_ h
            · intro p hp
              simp only [Bool.or_eq_false_iff] at hp
              rw [hu1.frame p hp.2]; exact hx p hp.1
            · intro p hp
              simp only [Bool.or_eq_false_iff] at hp
              exact hx0 p hp.1
          | false =>
            rw [hr1] at h
            simp only [Bool.false_eq_true, if_false] at h
            cases h2 : ECtx.cond E c s1 with
            | error e => rw [h2] at h; cases h
            | ok s2 =>
              rw [h2] at h
              simp only at h
              have hu2 := cond_upd hE c s1 s2 hqc hu1.good h2
              have hbest : FinU s2.suff ∨ ∀ m, SatI s2.suff m → goalI (dl m) m (.and cs) = false := by
                rcases ih c hcm acc x s1 hqc hs.1 gx hx h1 hr1 with h | h
                · exact Or.inl (hu2.ref.finU h)
                · exact Or.inr fun m hm => hg c hcm m (h m (hu2.ref.sat hu1.good hm))
              refine ihl (fun d hd => hsub d (by simp [hd])) _ _ { s2 with suff := s.suff } hs.2 ?_ g ?_ ?_ h
              · intro b hbb
                obtain rfl := Option.some.inj hbb
                cases best with
                | none => exact hbest
                | some b0 =>
                  simp only
                  split
                  · exact hbest
                  · exact hb b0 rfl
              · intro p hp
                simp only [Bool.or_eq_false_iff] at hp
                exact hx0 p hp.1
              · intro p hp
                simp only [Bool.or_eq_false_iff] at hp
                exact hx0 p hp.1
    exact key cs (fun c hc => hc) acc none s hs (fun b hb => by cases hb) g ha ha h
  | or cs ih =>
    intro acc s s' hq hs g ha h hr
    simp only [ECtx.cond] at h
    simp only [reSafe] at hs
    have key : ∀ (l : List Cond), (∀ c ∈ l, c ∈ cs) → ∀ (acc : Nat → Bool) (x : RE), reSeq acc l = true → Good n x.suff →
        (∀ p, acc p = false → (rng x.suff p).lower = 0) → ECtx.ors E s.suff l x = .ok s' →
        Ref s'.suff x.suff ∧ (FinU s'.suff ∨ ∀ m, SatI s'.suff m → ∀ c ∈ l, goalI (dl m) m c = false) := by
      intro l
      induction l with
      | nil =>
        intro _ acc x _ _ _ h
        simp only [ECtx.ors, Except.ok.injEq] at h
        subst h
        exact ⟨Ref.refl _, Or.inr fun m _ c hc => by cases hc⟩
      | cons c l ihl =>
        intro hsub acc x hs gx hx h
        simp only [ECtx.ors] at h
        simp only [reSeq, Bool.and_eq_true] at hs
        have hcm := hsub c (by simp)
        have hqc := QOKs_mem hq c hcm
        cases h1 : ECtx.cond E c x with
        | error e => rw [h1] at h; cases h
        | ok s1 =>
          rw [h1] at h
          simp only [bind, Except.bind] at h
          have hu1 := cond_upd hE c x s1 hqc gx h1
          cases hr1 : s1.res with
          | true =>
            rw [hr1] at h
            simp only [if_true, pure, Except.pure, Except.ok.injEq] at h
            subst h
            simp [hr1] at hr
          | false =>
            rw [hr1] at h
            simp only [Bool.false_eq_true, if_false] at h
            obtain ⟨h2, h3⟩ := ihl (fun d hd => hsub d (by simp [hd])) _ s1 hs.2 hu1.good (by
              intro p hp
              simp only [Bool.or_eq_false_iff] at hp
              rw [hu1.frame p hp.2]; exact hx p hp.1) h
            refine ⟨h2.trans hu1.ref, ?_⟩
            rcases h3 with h3 | h3
            · exact Or.inl h3
            · rcases ih c hcm acc x s1 hqc hs.1 gx hx h1 hr1 with h4 | h4
              · exact Or.inl (h2.finU h4)
              · refine Or.inr fun m hm d hd => ?_
                rcases List.mem_cons.1 hd with rfl | hd
                · exact h4 m (h2.sat hu1.good hm)
                · exact h3 m hm d hd
    rcases (key cs (fun c hc => hc) acc s hs g ha h).2 with h1 | h1
    · exact Or.inl h1
    · refine Or.inr fun m hm => ?_
      simp only [goalI, goalAny_eq, List.any_eq_false, Bool.not_eq_true]
      exact h1 m hm
  | _ => intro acc s s' hq; exact hq.elim

end ECtx
end TAR
end Verif
