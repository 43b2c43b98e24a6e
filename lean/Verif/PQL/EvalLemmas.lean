import Verif.PQL.Eval

namespace Verif
namespace PQL

/-! ### Expressions -/

theorem evalSum_eq (m : Mark) (es : List Expr) (h : ∀ e ∈ es, evalExpr m e = e.val m) (r : Int) :
    evalSum m r es = r + (es.map (Expr.val m)).sum := by
  induction es generalizing r with
  | nil => simp [evalSum]
  | cons e es ih =>
    rw [evalSum, ih (fun x hx => h x (List.mem_cons_of_mem _ hx)), h e (List.mem_cons_self ..)]
    simp [Int.add_assoc]

theorem evalProd_eq (m : Mark) (es : List Expr) (h : ∀ e ∈ es, evalExpr m e = e.val m) (r : Int) :
    evalProd m r es = r * (es.map (Expr.val m)).prod := by
  induction es generalizing r with
  | nil => simp [evalProd]
  | cons e es ih =>
    rw [evalProd, ih (fun x hx => h x (List.mem_cons_of_mem _ hx)), h e (List.mem_cons_self ..)]
    simp [Int.mul_assoc]

theorem evalSub_eq (m : Mark) (es : List Expr) (h : ∀ e ∈ es, evalExpr m e = e.val m) (r : Int) :
    evalSub m r es = r - (es.map (Expr.val m)).sum := by
  induction es generalizing r with
  | nil => simp [evalSub]
  | cons e es ih =>
    rw [evalSub, ih (fun x hx => h x (List.mem_cons_of_mem _ hx)), h e (List.mem_cons_self ..)]
    simp only [List.map_cons, List.sum_cons]; omega

theorem foldl_add_eq (m : Mark) (ids : List Nat) (k : Int) :
    ids.foldl (fun r p => r + (m p : Int)) k = k + (ids.map fun p => (m p : Int)).sum := by
  induction ids generalizing k with
  | nil => simp
  | cons p ids ih => simp [ih, Int.add_assoc]

theorem foldl_mul_eq (m : Mark) (ids : List Nat) (k : Int) :
    ids.foldl (fun r p => r * (m p : Int)) k = k * (ids.map fun p => (m p : Int)).prod := by
  induction ids generalizing k with
  | nil => simp
  | cons p ids ih => simp [ih, Int.mul_assoc]

theorem evalExpr_eq (m : Mark) (e : Expr) : evalExpr m e = e.val m := by
  induction e using Expr.ind with
  | lit v => rfl
  | id p => rfl
  | plus k ids es ih => rw [evalExpr, evalSum_eq m es ih, foldl_add_eq, Expr.val, vals_eq]
  | mul k ids es ih => rw [evalExpr, evalProd_eq m es ih, foldl_mul_eq, Expr.val, vals_eq]
  | sub e es h ih => rw [evalExpr, evalSub_eq m es ih, h, Expr.val, vals_eq]
  | minus e h => rw [evalExpr, h, Expr.val]

/-- Place-free expressions do not depend on the marking. -/
theorem val_placeFree (m m' : Mark) (e : Expr) (h : e.placeFree = true) : e.val m = e.val m' := by
  induction e using Expr.ind with
  | lit v => rfl
  | id p => simp [Expr.placeFree] at h
  | plus k ids es ih =>
    simp only [Expr.placeFree, allFree_eq, Bool.and_eq_true, List.isEmpty_iff, List.all_eq_true] at h
    obtain ⟨rfl, h⟩ := h
    simp only [Expr.val, vals_eq, List.map_congr_left (fun e he => ih e he (h e he)), List.map_nil]
  | mul k ids es ih =>
    simp only [Expr.placeFree, allFree_eq, Bool.and_eq_true, List.isEmpty_iff, List.all_eq_true] at h
    obtain ⟨rfl, h⟩ := h
    simp only [Expr.val, vals_eq, List.map_congr_left (fun e he => ih e he (h e he)), List.map_nil]
  | sub e es he ih =>
    simp only [Expr.placeFree, allFree_eq, Bool.and_eq_true, List.all_eq_true] at h
    simp only [Expr.val, vals_eq, List.map_congr_left (fun e he => ih e he (h.2 e he)), he h.1]
  | minus e he => simp only [Expr.val, he h]

/-! ### Building sums and products -/

def Comm.val (mulp : Bool) (m : Mark) (c : Comm) : Int :=
  if mulp then c.const * (c.ids.map fun p => (m p : Int)).prod * (c.es.map (Expr.val m)).prod
  else c.const + (c.ids.map fun p => (m p : Int)).sum + (c.es.map (Expr.val m)).sum

theorem handle_val (mulp : Bool) (m : Mark) (c : Comm) (e : Expr) :
    (c.handle mulp e).val mulp m = if mulp then c.val mulp m * e.val m else c.val mulp m + e.val m := by
  unfold Comm.handle
  by_cases hf : e.placeFree = true
  · rw [if_pos hf, evalExpr_eq, val_placeFree (fun _ => 0) m e hf]
    cases mulp <;> simp only [Comm.val, Bool.false_eq_true, if_false, if_true]
    · omega
    · rw [Int.mul_right_comm c.const, Int.mul_right_comm]
  · rw [if_neg hf]
    cases e with
    | lit v => simp [Expr.placeFree] at hf
    | id p =>
      cases mulp <;> simp only [Comm.val, Bool.false_eq_true, if_false, if_true, List.map_append,
        List.map_cons, List.map_nil, List.sum_append, List.prod_append, List.sum_cons, List.prod_cons,
        List.sum_nil, List.prod_nil, Expr.val, Int.mul_one, Int.add_zero]
      · omega
      · rw [← Int.mul_assoc, Int.mul_right_comm]
    | plus k ids es =>
      simp only
      by_cases h0 : ids.length = 0 ∧ es.length = 0
      · rw [List.length_eq_zero_iff, List.length_eq_zero_iff] at h0
        obtain ⟨rfl, rfl⟩ := h0
        simp [Expr.placeFree, allFree] at hf
      · rw [if_neg h0]
        cases mulp <;> simp only [Comm.val, Bool.false_eq_true, if_false, if_true, List.map_append,
          List.map_cons, List.map_nil, List.sum_append, List.prod_append, List.sum_cons, List.prod_cons,
          List.sum_nil, List.prod_nil, Expr.val, Int.mul_one, Int.add_zero, vals_eq, Bool.not_true,
          Bool.not_false]
        · omega
        · simp only [Int.mul_assoc]
    | mul k ids es =>
      simp only
      by_cases h0 : ids.length = 0 ∧ es.length = 0
      · rw [List.length_eq_zero_iff, List.length_eq_zero_iff] at h0
        obtain ⟨rfl, rfl⟩ := h0
        simp [Expr.placeFree, allFree] at hf
      · rw [if_neg h0]
        cases mulp <;> simp only [Comm.val, Bool.false_eq_true, if_false, if_true, List.map_append,
          List.map_cons, List.map_nil, List.sum_append, List.prod_append, List.sum_cons, List.prod_cons,
          List.sum_nil, List.prod_nil, Expr.val, Int.mul_one, Int.add_zero, vals_eq]
        · omega
        · ac_rfl
    | sub e es =>
      cases mulp <;> simp only [Comm.val, Bool.false_eq_true, if_false, if_true, List.map_append,
        List.map_cons, List.map_nil, List.sum_append, List.prod_append, List.sum_cons, List.prod_cons,
        List.sum_nil, List.prod_nil, Int.mul_one, Int.add_zero]
      · omega
      · simp only [Int.mul_assoc]
    | minus e =>
      cases mulp <;> simp only [Comm.val, Bool.false_eq_true, if_false, if_true, List.map_append,
        List.map_cons, List.map_nil, List.sum_append, List.prod_append, List.sum_cons, List.prod_cons,
        List.sum_nil, List.prod_nil, Int.mul_one, Int.add_zero]
      · omega
      · simp only [Int.mul_assoc]

theorem foldl_handle_add (m : Mark) (es : List Expr) (c : Comm) :
    (es.foldl (Comm.handle false) c).val false m = c.val false m + (es.map (Expr.val m)).sum := by
  induction es generalizing c with
  | nil => simp
  | cons e es ih =>
    rw [List.foldl_cons, ih, handle_val]
    simp only [Bool.false_eq_true, if_false, List.map_cons, List.sum_cons]; omega

theorem foldl_handle_mul (m : Mark) (es : List Expr) (c : Comm) :
    (es.foldl (Comm.handle true) c).val true m = c.val true m * (es.map (Expr.val m)).prod := by
  induction es generalizing c with
  | nil => simp
  | cons e es ih =>
    rw [List.foldl_cons, ih, handle_val]
    simp only [if_true, List.map_cons, List.prod_cons, Int.mul_assoc]

theorem mkPlus_val (m : Mark) (es : List Expr) : (mkPlus es).val m = (es.map (Expr.val m)).sum := by
  have h := foldl_handle_add m es { const := 0 }
  simp only [Comm.val, Bool.false_eq_true, if_false, List.map_nil, List.sum_nil, Int.add_zero,
    Int.zero_add] at h
  have hp := (List.mergeSort_perm (es.foldl (Comm.handle false) { const := 0 }).ids
    (fun a b => decide (a ≤ b))).map (fun p => (m p : Int))
  simp only [mkPlus, Expr.val, vals_eq, hp.sum_eq]
  exact h

theorem mkMul_val (m : Mark) (es : List Expr) : (mkMul es).val m = (es.map (Expr.val m)).prod := by
  have h := foldl_handle_mul m es { const := 1 }
  simp only [Comm.val, if_true, List.map_nil, List.prod_nil, Int.mul_one, Int.one_mul] at h
  have hp := (List.mergeSort_perm (es.foldl (Comm.handle true) { const := 1 }).ids
    (fun a b => decide (a ≤ b))).map (fun p => (m p : Int))
  simp only [mkMul, Expr.val, vals_eq, hp.prod_eq]
  exact h

/-! ### Conditions -/

theorem compare_iff (m : Mark) (op : Cmp) (e1 e2 : Expr) :
    compare m op e1 e2 = true ↔ op.holds (e1.val m) (e2.val m) := by
  cases op <;> simp [compare, Cmp.holds, evalExpr_eq]

theorem evalCons_iff (m : Mark) (l : List Cons) : evalCons m l = true ↔ ∀ c ∈ l, c.holds m := by
  induction l with
  | nil => simp [evalCons]
  | cons c l ih =>
    simp only [evalCons]
    split
    · rename_i h
      simp only [ge_iff_le, Bool.and_eq_true, decide_eq_true_eq] at h
      rw [ih]; simp [Cons.holds, h]
    · rename_i h
      simp only [ge_iff_le, Bool.and_eq_true, decide_eq_true_eq, not_and] at h
      simp only [Bool.false_eq_true, List.mem_cons, forall_eq_or_imp, Cons.holds, false_iff, not_and]
      intro h1; exact (h h1.2 h1.1).elim

theorem ccEval_iff (m : Mark) (l : List Cons) (n : Bool) :
    (n ^^ evalCons m l) = true ↔ ccHolds m l n := by
  cases n <;> simp [ccHolds, ← evalCons_iff]

/-- What it means for a three-valued result to be right. -/
def Res.Sound (r : Res) (P : Prop) : Prop := (r = .rTrue → P) ∧ (r = .rFalse → ¬ P)

theorem Res.sound_ofBool {b : Bool} {P : Prop} (h : b = true ↔ P) : (Res.ofBool b).Sound P := by
  cases b <;> simp [Res.ofBool, Res.Sound] at * <;> exact h

theorem Res.sound_unknown (P : Prop) : Res.rUnknown.Sound P := by simp [Res.Sound]

theorem Res.sound_neg {r : Res} {P : Prop} (h : r.Sound P) : r.neg.Sound (¬ P) := by
  cases r <;> simp_all [Res.neg, Res.Sound]

theorem Res.sound_onlyTrue {r : Res} {P Q : Prop} (h : r.Sound P) (hPQ : P → Q) : r.onlyTrue.Sound Q := by
  cases r <;> simp_all [Res.onlyTrue, Res.Sound]

theorem Res.sound_onlyFalse {r : Res} {P Q : Prop} (h : r.Sound P) (hPQ : Q → P) :
    r.onlyFalse.Sound Q := by
  cases r <;> simp_all [Res.onlyFalse, Res.Sound]

theorem Res.sound_until {a b : Res} {P Q R : Prop} (ha : a.Sound P) (hb : b.Sound Q) (h1 : Q → R)
    (h2 : ¬ Q → ¬ P → ¬ R) : (evalUntil a b).Sound R := by
  cases b <;> cases a <;> simp_all [evalUntil, Res.Sound]

/-- The loop of `and`: result from the results of the operands. -/
def andRes (res : Res) : List Res → Res
  | [] => res
  | r :: rs => if r = .rFalse then .rFalse else andRes (if r = .rUnknown then .rUnknown else res) rs

def orRes (res : Res) : List Res → Res
  | [] => res
  | r :: rs => if r = .rTrue then .rTrue else orRes (if r = .rUnknown then .rUnknown else res) rs

theorem evalAnd_eq (dl : Bool) (m : Mark) (cs : List Cond) (r : Res) :
    evalAnd dl m r cs = andRes r (cs.map (evaluate dl m)) := by
  induction cs generalizing r with
  | nil => rfl
  | cons c cs ih => simp [evalAnd, andRes, ih]

theorem evalOr_eq (dl : Bool) (m : Mark) (cs : List Cond) (r : Res) :
    evalOr dl m r cs = orRes r (cs.map (evaluate dl m)) := by
  induction cs generalizing r with
  | nil => rfl
  | cons c cs ih => simp [evalOr, orRes, ih]

theorem evalAndSet_eq (dl : Bool) (m : Mark) (cs : List Cond) (r : Res) :
    evalAndSet dl m r cs = andRes r (cs.map (evaluateSet dl m)) := by
  induction cs generalizing r with
  | nil => rfl
  | cons c cs ih => simp [evalAndSet, andRes, ih]

theorem evalOrSet_eq (dl : Bool) (m : Mark) (cs : List Cond) (r : Res) :
    evalOrSet dl m r cs = orRes r (cs.map (evaluateSet dl m)) := by
  induction cs generalizing r with
  | nil => rfl
  | cons c cs ih => simp [evalOrSet, orRes, ih]

theorem andRes_true (rs : List Res) (r : Res) : andRes r rs = .rTrue ↔ r = .rTrue ∧ ∀ x ∈ rs, x = .rTrue := by
  induction rs generalizing r with
  | nil => simp [andRes]
  | cons x rs ih =>
    cases x <;> simp [andRes, ih]

theorem andRes_false (rs : List Res) (r : Res) (hr : r ≠ .rFalse) : andRes r rs = .rFalse ↔ .rFalse ∈ rs := by
  induction rs generalizing r with
  | nil => simp [andRes, hr]
  | cons x rs ih =>
    cases x <;> simp [andRes, ih, hr]

theorem orRes_false (rs : List Res) (r : Res) : orRes r rs = .rFalse ↔ r = .rFalse ∧ ∀ x ∈ rs, x = .rFalse := by
  induction rs generalizing r with
  | nil => simp [orRes]
  | cons x rs ih =>
    cases x <;> simp [orRes, ih]

theorem orRes_true (rs : List Res) (r : Res) (hr : r ≠ .rTrue) : orRes r rs = .rTrue ↔ .rTrue ∈ rs := by
  induction rs generalizing r with
  | nil => simp [orRes, hr]
  | cons x rs ih =>
    cases x <;> simp [orRes, ih, hr]

theorem andRes_sound {T : TS} {π : Nat → Mark} (cs : List Cond) (f : Cond → Res)
    (h : ∀ c ∈ cs, (f c).Sound (c.sat T π)) : (andRes .rTrue (cs.map f)).Sound (satAll T π cs) := by
  rw [satAll_iff]
  constructor
  · intro he
    rw [andRes_true] at he
    exact fun c hc => (h c hc).1 (he.2 _ (List.mem_map_of_mem hc))
  · intro he hall
    rw [andRes_false _ _ (by simp), List.mem_map] at he
    obtain ⟨c, hc, hf⟩ := he
    exact (h c hc).2 hf (hall c hc)

theorem orRes_sound {T : TS} {π : Nat → Mark} (cs : List Cond) (f : Cond → Res)
    (h : ∀ c ∈ cs, (f c).Sound (c.sat T π)) : (orRes .rFalse (cs.map f)).Sound (satAny T π cs) := by
  rw [satAny_iff]
  constructor
  · intro he
    rw [orRes_true _ _ (by simp), List.mem_map] at he
    obtain ⟨c, hc, hf⟩ := he
    exact ⟨c, hc, (h c hc).1 hf⟩
  · intro he
    rw [orRes_false] at he
    rintro ⟨c, hc, hs⟩
    exact (h c hc).2 (he.2 _ (List.mem_map_of_mem hc)) hs

/-- Early evaluation is sound, for every path from the marking. -/
theorem evaluate_sound {T : TS} {m : Mark} {dl : Bool} (hd : dl = true ↔ T.Dead m) (c : Cond) :
    ∀ π, T.IsPath π → π 0 = m → (evaluate dl m c).Sound (c.sat T π) := by
  induction c using Cond.ind with
  | bool b => intro π _ _; exact Res.sound_ofBool Iff.rfl
  | dead => intro π _ h; simp only [evaluate, Cond.sat, h]; exact Res.sound_ofBool hd
  | cmp op e1 e2 =>
    intro π _ h; simp only [evaluate, Cond.sat, h]; exact Res.sound_ofBool (compare_iff ..)
  | cc l n => intro π _ h; simp only [evaluate, Cond.sat, h]; exact Res.sound_ofBool (ccEval_iff ..)
  | not c ih => intro π hp h; exact Res.sound_neg (ih π hp h)
  | and cs ih =>
    intro π hp h
    simp only [evaluate, Cond.sat, evalAnd_eq]
    exact andRes_sound cs _ fun c hc => ih c hc π hp h
  | or cs ih =>
    intro π hp h
    simp only [evaluate, Cond.sat, evalOr_eq]
    exact orRes_sound cs _ fun c hc => ih c hc π hp h
  | EX | AX | X => intro π _ _; exact Res.sound_unknown _
  | EF c ih =>
    intro π hp h
    exact Res.sound_onlyTrue (ih π hp h) fun hs => ⟨π, hp, rfl, 0, by rw [suffix_zero]; exact hs⟩
  | EG c ih =>
    intro π hp h
    simp only [evaluate]
    refine ⟨fun e => ?_, fun e => ?_⟩
    · cases hr : evaluate dl m c <;> simp [hr, Res.onlyFalse] at e
    · rintro ⟨π', hp', h0, hall⟩
      have hf : evaluate dl m c = .rFalse := by
        cases hr : evaluate dl m c <;> simp [hr, Res.onlyFalse] at e ⊢
      have := hall 0
      rw [suffix_zero] at this
      exact (ih π' hp' (h0.trans h)).2 hf this
  | AF c ih =>
    intro π hp h
    simp only [evaluate]
    refine ⟨fun e => ?_, fun e => ?_⟩
    · intro π' hp' h0
      have hf : evaluate dl m c = .rTrue := by
        cases hr : evaluate dl m c <;> simp [hr, Res.onlyTrue] at e ⊢
      exact ⟨0, by rw [suffix_zero]; exact (ih π' hp' (h0.trans h)).1 hf⟩
    · cases hr : evaluate dl m c <;> simp [hr, Res.onlyTrue] at e
  | AG c ih =>
    intro π hp h
    exact Res.sound_onlyFalse (ih π hp h) fun hs => by
      have := hs π hp rfl 0
      rwa [suffix_zero] at this
  | EU c d ih1 ih2 =>
    intro π hp h
    simp only [evaluate]
    refine ⟨fun e => ?_, fun e => ?_⟩
    · have hf : evaluate dl m d = .rTrue := by
        cases hr : evaluate dl m d <;> cases hc : evaluate dl m c <;> simp [hr, hc, evalUntil] at e ⊢
      exact ⟨π, hp, rfl, 0, by rw [suffix_zero]; exact (ih2 π hp h).1 hf, by simp⟩
    · have hf : evaluate dl m d = .rFalse ∧ evaluate dl m c = .rFalse := by
        cases hr : evaluate dl m d <;> cases hc : evaluate dl m c <;> simp [hr, hc, evalUntil] at e ⊢
      rintro ⟨π', hp', h0, i, hi, hj⟩
      rcases Nat.eq_zero_or_pos i with rfl | hpos
      · rw [suffix_zero] at hi; exact (ih2 π' hp' (h0.trans h)).2 hf.1 hi
      · have := hj 0 hpos
        rw [suffix_zero] at this; exact (ih1 π' hp' (h0.trans h)).2 hf.2 this
  | AU c d ih1 ih2 =>
    intro π hp h
    simp only [evaluate]
    refine ⟨fun e => ?_, fun e => ?_⟩
    · have hf : evaluate dl m d = .rTrue := by
        cases hr : evaluate dl m d <;> cases hc : evaluate dl m c <;> simp [hr, hc, evalUntil] at e ⊢
      intro π' hp' h0
      exact ⟨0, by rw [suffix_zero]; exact (ih2 π' hp' (h0.trans h)).1 hf, by simp⟩
    · have hf : evaluate dl m d = .rFalse ∧ evaluate dl m c = .rFalse := by
        cases hr : evaluate dl m d <;> cases hc : evaluate dl m c <;> simp [hr, hc, evalUntil] at e ⊢
      intro hall
      obtain ⟨i, hi, hj⟩ := hall π hp rfl
      rcases Nat.eq_zero_or_pos i with rfl | hpos
      · rw [suffix_zero] at hi; exact (ih2 π hp h).2 hf.1 hi
      · have := hj 0 hpos
        rw [suffix_zero] at this; exact (ih1 π hp h).2 hf.2 this
  | E c ih =>
    intro π hp h
    exact Res.sound_onlyTrue (ih π hp h) fun hs => ⟨π, hp, rfl, hs⟩
  | A c ih =>
    intro π hp h
    exact Res.sound_onlyFalse (ih π hp h) fun hs => hs π hp rfl
  | F c ih =>
    intro π hp h
    exact Res.sound_onlyTrue (ih π hp h) fun hs => ⟨0, by rw [suffix_zero]; exact hs⟩
  | G c ih =>
    intro π hp h
    exact Res.sound_onlyFalse (ih π hp h) fun hs => by
      have := hs 0
      rwa [suffix_zero] at this
  | U c d ih1 ih2 =>
    intro π hp h
    refine Res.sound_until (ih1 π hp h) (ih2 π hp h) (fun hs => ⟨0, by rw [suffix_zero]; exact hs, by simp⟩) ?_
    rintro hnd hnc ⟨i, hi, hj⟩
    rcases Nat.eq_zero_or_pos i with rfl | hpos
    · rw [suffix_zero] at hi; exact hnd hi
    · have := hj 0 hpos
      rw [suffix_zero] at this; exact hnc this

/-- `evaluateAndSet` returns what `evaluate` returns, or unknown. -/
theorem Res.neg_mono {a b : Res} (h : a = .rUnknown ∨ a = b) : a.neg = .rUnknown ∨ a.neg = b.neg := by
  rcases h with rfl | rfl <;> simp [Res.neg]

/-- `a` is less precise than `b`. -/
def Res.Le (a b : Res) : Prop := a = .rUnknown ∨ a = b

theorem Res.Le.sound {a b : Res} {P : Prop} (h : a.Le b) (hb : b.Sound P) : a.Sound P := by
  rcases h with rfl | rfl
  · exact Res.sound_unknown P
  · exact hb

theorem andRes_le {rs rs' : List Res} (h : List.Forall₂ Res.Le rs rs') {r r' : Res} (hr : r.Le r')
    (hr0 : r' ≠ .rFalse) : (andRes r rs).Le (andRes r' rs') := by
  induction h generalizing r r' with
  | nil => exact hr
  | @cons a b rs rs' hab _ ih =>
    have hrf : r ≠ .rFalse := by rcases hr with rfl | rfl <;> simp_all
    rcases hab with rfl | rfl
    · cases b with
      | rFalse =>
        simp only [andRes, if_true, reduceCtorEq, if_false]
        have := andRes_true rs .rUnknown
        cases hq : andRes .rUnknown rs
        · right; rfl
        · rw [hq] at this; simp at this
        · left; rfl
      | rTrue => simp only [andRes, if_true, reduceCtorEq, if_false]; exact ih (.inl rfl) hr0
      | rUnknown => simp only [andRes, if_true, reduceCtorEq, if_false]; exact ih (.inl rfl) (by simp)
    · cases a with
      | rFalse => simp only [andRes, if_true]; exact .inr rfl
      | rTrue => simp only [andRes, if_true, reduceCtorEq, if_false]; exact ih hr hr0
      | rUnknown => simp only [andRes, if_true, reduceCtorEq, if_false]; exact ih (.inl rfl) (by simp)

theorem orRes_le {rs rs' : List Res} (h : List.Forall₂ Res.Le rs rs') {r r' : Res} (hr : r.Le r')
    (hr0 : r' ≠ .rTrue) : (orRes r rs).Le (orRes r' rs') := by
  induction h generalizing r r' with
  | nil => exact hr
  | @cons a b rs rs' hab _ ih =>
    have hrf : r ≠ .rTrue := by rcases hr with rfl | rfl <;> simp_all
    rcases hab with rfl | rfl
    · cases b with
      | rTrue =>
        simp only [orRes, if_true, reduceCtorEq, if_false]
        have := orRes_false rs .rUnknown
        cases hq : orRes .rUnknown rs
        · rw [hq] at this; simp at this
        · right; rfl
        · left; rfl
      | rFalse => simp only [orRes, if_true, reduceCtorEq, if_false]; exact ih (.inl rfl) hr0
      | rUnknown => simp only [orRes, if_true, reduceCtorEq, if_false]; exact ih (.inl rfl) (by simp)
    · cases a with
      | rTrue => simp only [orRes, if_true]; exact .inr rfl
      | rFalse => simp only [orRes, if_true, reduceCtorEq, if_false]; exact ih hr hr0
      | rUnknown => simp only [orRes, if_true, reduceCtorEq, if_false]; exact ih (.inl rfl) (by simp)

theorem forall₂_map {f g : Cond → Res} (cs : List Cond) (h : ∀ c ∈ cs, (f c).Le (g c)) :
    List.Forall₂ Res.Le (cs.map f) (cs.map g) := by
  induction cs with
  | nil => exact .nil
  | cons c cs ih =>
    exact .cons (h c (List.mem_cons_self ..)) (ih fun x hx => h x (List.mem_cons_of_mem _ hx))

theorem onlyTrue_le {a b : Res} (h : a.Le b) : a.onlyTrue.Le b.onlyTrue := by
  rcases h with rfl | rfl
  · exact .inl rfl
  · exact .inr rfl

theorem onlyFalse_le {a b : Res} (h : a.Le b) : a.onlyFalse.Le b.onlyFalse := by
  rcases h with rfl | rfl
  · exact .inl rfl
  · exact .inr rfl

theorem evalUntil_le {a b c d : Res} (h : a.Le b) (h' : c.Le d) : (evalUntil a c).Le (evalUntil b d) := by
  rcases h with rfl | rfl <;> rcases h' with rfl | rfl
  · exact .inl (by simp [evalUntil])
  · cases c <;> simp [evalUntil, Res.Le]
  · exact .inl (by simp [evalUntil])
  · exact .inr rfl

theorem evaluateSet_le (dl : Bool) (m : Mark) (c : Cond) : (evaluateSet dl m c).Le (evaluate dl m c) := by
  induction c using Cond.ind with
  | not c ih =>
    rcases ih with h | h
    · simp only [evaluateSet, evaluate, h]; exact .inl rfl
    · simp only [evaluateSet, evaluate, h]; exact .inr rfl
  | and cs ih =>
    simp only [evaluateSet, evaluate, evalAndSet_eq, evalAnd_eq]
    exact andRes_le (forall₂_map cs ih) (.inr rfl) (by simp)
  | or cs ih =>
    simp only [evaluateSet, evaluate, evalOrSet_eq, evalOr_eq]
    exact orRes_le (forall₂_map cs ih) (.inr rfl) (by simp)
  | EF c ih | AF c ih | F c ih => exact onlyTrue_le ih
  | EG c ih | AG c ih | G c ih => exact onlyFalse_le ih
  | U c d h1 h2 | EU c d h1 h2 | AU c d h1 h2 => exact evalUntil_le h1 h2
  | E | A | EX | AX | X => exact .inl rfl
  | _ => exact .inr rfl

theorem isTemporal_any (cs : List Cond) (h : anyTemporal cs = false) : ∀ c ∈ cs, c.isTemporal = false := by
  rw [anyTemporal_eq, List.any_eq_false] at h
  simpa using h

/-- Non-temporal formulas always get a definite value. -/
theorem evaluate_definite (dl : Bool) (m : Mark) (c : Cond) (h : c.isTemporal = false) :
    evaluate dl m c ≠ .rUnknown := by
  induction c using Cond.ind with
  | bool b => cases b <;> simp [evaluate, Res.ofBool]
  | dead => cases dl <;> simp [evaluate, Res.ofBool]
  | cmp op e1 e2 => simp only [evaluate, Res.ofBool]; split <;> simp
  | cc l n => simp only [evaluate, Res.ofBool]; split <;> simp
  | not c ih =>
    have := ih h
    simp only [evaluate]
    cases hr : evaluate dl m c <;> simp_all [Res.neg]
  | and cs ih =>
    simp only [evaluate, evalAnd_eq]
    have hall := isTemporal_any cs h
    by_cases hf : Res.rFalse ∈ cs.map (evaluate dl m)
    · rw [(andRes_false _ _ (by simp)).2 hf]; simp
    · rw [(andRes_true _ _).2 ⟨rfl, ?_⟩]; · simp
      intro x hx
      obtain ⟨c, hc, rfl⟩ := List.mem_map.1 hx
      have h1 := ih c hc (hall c hc)
      cases hr : evaluate dl m c
      · rw [hr] at hx; exact (hf hx).elim
      · rfl
      · exact (h1 hr).elim
  | or cs ih =>
    simp only [evaluate, evalOr_eq]
    have hall := isTemporal_any cs h
    by_cases hf : Res.rTrue ∈ cs.map (evaluate dl m)
    · rw [(orRes_true _ _ (by simp)).2 hf]; simp
    · rw [(orRes_false _ _).2 ⟨rfl, ?_⟩]; · simp
      intro x hx
      obtain ⟨c, hc, rfl⟩ := List.mem_map.1 hx
      have h1 := ih c hc (hall c hc)
      cases hr : evaluate dl m c
      · rfl
      · rw [hr] at hx; exact (hf hx).elim
      · exact (h1 hr).elim
  | _ => simp [Cond.isTemporal] at h

end PQL
end Verif
