import Verif.PQL.WF
import Verif.PQL.EvalLemmas

namespace Verif
namespace PQL

/-! ### Constraints -/

theorem Cons.ok_iff (c : Cons) :
    c.ok = true ↔ c.lower ≤ umax ∧ c.upper ≤ umax ∧ ¬ (c.lower = 0 ∧ c.upper = umax) := by
  simp only [Cons.ok, Cons.trivial, Bool.and_eq_true, decide_eq_true_eq, Bool.not_eq_true',
    Bool.and_eq_false_iff, beq_eq_false_iff_ne, ne_eq, and_assoc]
  tauto

theorem Cons.trivial_iff (c : Cons) : c.trivial = true ↔ c.lower = 0 ∧ c.upper = umax := by
  simp [Cons.trivial]

theorem Cons.holds_trivial {m : Mark} (hm : Mark32 m) {c : Cons} (h : c.trivial = true) : c.holds m := by
  rw [Cons.trivial_iff] at h
  exact ⟨by omega, by rw [h.2]; exact hm _⟩

/-- One-sided constraints. -/
def Cons.oneSided (c : Cons) : Bool := c.lower == 0 || c.upper == umax

theorem Cons.invert_spec {m : Mark} (hm : Mark32 m) {c : Cons} (hc : c.ok = true)
    (h1 : c.oneSided = true) :
    (c.invert.holds m ↔ ¬ c.holds m) ∧ c.invert.ok = true ∧ c.invert.oneSided = true := by
  rw [Cons.ok_iff] at hc
  simp only [Cons.oneSided, Bool.or_eq_true, beq_iff_eq] at h1
  have hp := hm c.place
  have ht : c.trivial ≠ true := fun h => hc.2.2 ((Cons.trivial_iff c).1 h)
  unfold Cons.invert
  rw [if_neg ht, Cons.ok_iff]
  by_cases h0 : c.lower = 0
  · rw [if_pos h0]
    simp only [Cons.holds, Cons.oneSided, umax] at *
    have : (c.upper + 1) % 4294967296 = c.upper + 1 := Nat.mod_eq_of_lt (by omega)
    simp [this]
    omega
  · rw [if_neg h0]
    rw [if_pos (by tauto)]
    simp only [Cons.holds, Cons.oneSided, umax] at *
    simp
    omega

theorem Cons.intersect_holds (m : Mark) (c d : Cons) (h : c.place = d.place) :
    (c.intersect d).holds m ↔ c.holds m ∧ d.holds m := by
  simp only [Cons.intersect, Cons.holds, h]; omega

theorem Cons.intersect_ok {c d : Cons} (hc : c.ok = true) (hd : d.ok = true) : (c.intersect d).ok = true := by
  rw [Cons.ok_iff] at *
  simp only [Cons.intersect]; omega

theorem insertCons_holds (m : Mark) (l : List Cons) (c : Cons) :
    (∀ d ∈ insertCons l c, d.holds m) ↔ (∀ d ∈ l, d.holds m) ∧ c.holds m := by
  induction l with
  | nil => simp [insertCons]
  | cons d ds ih =>
    unfold insertCons
    split
    · simp only [List.mem_cons, forall_eq_or_imp, ih, and_assoc]
    · split
      · rename_i h
        simp only [List.mem_cons, forall_eq_or_imp, Cons.intersect_holds m d c h]
        tauto
      · simp only [List.mem_cons, forall_eq_or_imp]
        tauto

theorem insertCons_ok {l : List Cons} {c : Cons} (hl : l.all Cons.ok = true) (hc : c.ok = true) :
    (insertCons l c).all Cons.ok = true := by
  induction l with
  | nil => simp [insertCons, hc]
  | cons d ds ih =>
    simp only [List.all_cons, Bool.and_eq_true] at hl
    unfold insertCons
    split
    · simp [hl.1, ih hl.2]
    · split
      · simp only [List.all_cons, Bool.and_eq_true]; exact ⟨Cons.intersect_ok hl.1 hc, hl.2⟩
      · simp only [List.all_cons, Bool.and_eq_true]; exact ⟨hc, hl⟩

/-- `P` combined with `Q` by the connective. -/
def J (orp : Bool) (P Q : Prop) : Prop := if orp then P ∨ Q else P ∧ Q

theorem ccHolds_cons (m : Mark) (n : Bool) (l : List Cons) (c : Cons)
    (l' : List Cons) (h : (∀ d ∈ l', d.holds m) ↔ (∀ d ∈ l, d.holds m) ∧ c.holds m) :
    ccHolds m l' n ↔ J n (ccHolds m l n) (ccHolds m [c] n) := by
  cases n <;> simp only [ccHolds, J, h, List.mem_singleton, forall_eq, Bool.false_eq_true, if_false, if_true]
  tauto

/-- Merging with the same polarity. -/
theorem mergeOther_same (m : Mark) (hm : Mark32 m) (n : Bool) (l l' : List Cons) :
    ∃ r, mergeOther l n l' n = some r ∧
      ((∀ d ∈ r, d.holds m) ↔ (∀ d ∈ l, d.holds m) ∧ ∀ d ∈ l', d.holds m) ∧
      (l.all Cons.ok = true → l'.all Cons.ok = true → r.all Cons.ok = true) := by
  simp only [mergeOther, bne_self_eq_false, Bool.false_eq_true, false_and, if_false]
  induction l' generalizing l with
  | nil => exact ⟨l, rfl, by simp, fun h _ => h⟩
  | cons c cs ih =>
    rw [List.foldlM_cons]
    by_cases ht : c.trivial = true
    · obtain ⟨r, h1, h2, h3⟩ := ih l
      refine ⟨r, ?_, ?_, ?_⟩
      · simp only [mergeStep, Bool.false_eq_true, if_false, ht, if_true]; exact h1
      · have := Cons.holds_trivial hm ht
        rw [h2]; simp only [List.mem_cons, forall_eq_or_imp, this, true_and]
      · intro hl hl'
        simp only [List.all_cons, Bool.and_eq_true] at hl'
        exact h3 hl hl'.2
    · obtain ⟨r, h1, h2, h3⟩ := ih (insertCons l c)
      refine ⟨r, ?_, ?_, ?_⟩
      · simp only [mergeStep, Bool.false_eq_true, if_false, ht, and_false]; exact h1
      · rw [h2, insertCons_holds]; simp only [List.mem_cons, forall_eq_or_imp, and_assoc]
      · intro hl hl'
        simp only [List.all_cons, Bool.and_eq_true] at hl'
        exact h3 (insertCons_ok hl hl'.1) hl'.2

theorem ccSingular_cases {l : List Cons} (h : ccSingular l = true) : ∃ c, l = [c] ∧ c.oneSided = true := by
  match l, h with
  | [c], h => exact ⟨c, rfl, h⟩

/-- Merging a single one-sided constraint of the other polarity. -/
theorem mergeOther_diff (m : Mark) (hm : Mark32 m) (n : Bool) (l : List Cons) (c : Cons)
    (hc : c.ok = true) (h1 : c.oneSided = true) :
    ∃ r, mergeOther l n [c] (!n) = some r ∧
      ((∀ d ∈ r, d.holds m) ↔ (∀ d ∈ l, d.holds m) ∧ ¬ c.holds m) ∧
      (l.all Cons.ok = true → r.all Cons.ok = true) := by
  obtain ⟨h2, h3, h4⟩ := Cons.invert_spec hm hc h1
  have ht : c.invert.trivial = false := by
    cases h : c.invert.trivial with
    | false => rfl
    | true => exact ((Cons.ok_iff _).1 h3).2.2 ((Cons.trivial_iff _).1 h) |>.elim
  have hn : (n != !n) = true := by cases n <;> rfl
  have hx : ¬ (c.invert.upper ≠ umax ∧ c.invert.lower ≠ 0 ∧ True) := by
    simp only [Cons.oneSided, Bool.or_eq_true, beq_iff_eq] at h4; tauto
  refine ⟨insertCons l c.invert, ?_, ?_, fun hl => insertCons_ok hl h3⟩
  · simp only [mergeOther, hn, List.length_singleton, Nat.lt_irrefl, and_false, if_false,
      List.foldlM_cons, List.foldlM_nil, mergeStep, if_true, ht, Bool.false_eq_true, if_neg hx]
    rfl
  · rw [insertCons_holds, h2]

/-! ### Comparisons -/

theorem toU32_eq {k : Int} (h0 : 0 ≤ k) (h1 : k ≤ 4294967295) : (toU32 k : Int) = k := by
  simp only [toU32]; omega

theorem rawCons_l {m : Mark} (hm : Mark32 m) (op : Cmp) (p : Nat) (k : Int)
    (hk : atomOKl op k = true) :
    ((rawCons op p (toU32 k) false).holds m ↔ if op = .ne then (m p : Int) = k else op.holds (m p) k) ∧
    (rawCons op p (toU32 k) false).ok = true ∧
    (op ≠ .eq → op ≠ .ne → (rawCons op p (toU32 k) false).oneSided = true) := by
  have hmp := hm p
  cases op <;> simp only [atomOKl, decide_eq_true_eq] at hk <;>
    have hk2 := toU32_eq (k := k) (by omega) (by omega) <;>
    generalize toU32 k = v at * <;>
    simp only [Cons.ok_iff, rawCons, Cons.holds, Cmp.holds, Cons.oneSided, Bool.false_eq_true, if_false,
      reduceCtorEq, if_true, beq_self_eq_true, Bool.true_or, ne_eq, not_false_eq_true, not_true_eq_false,
      forall_const, and_true, umax, IsEmpty.forall_iff] at * <;> omega

theorem rawCons_r {m : Mark} (hm : Mark32 m) (op : Cmp) (p : Nat) (k : Int)
    (hk : atomOKr op k = true) :
    ((rawCons op p (toU32 k) true).holds m ↔ if op = .ne then k = (m p : Int) else op.holds k (m p)) ∧
    (rawCons op p (toU32 k) true).ok = true ∧
    (op ≠ .eq → op ≠ .ne → (rawCons op p (toU32 k) true).oneSided = true) := by
  have hmp := hm p
  cases op <;> simp only [atomOKr, decide_eq_true_eq] at hk <;>
    have hk2 := toU32_eq (k := k) (by omega) (by omega) <;>
    generalize toU32 k = v at * <;>
    simp only [Cons.ok_iff, rawCons, Cons.holds, Cmp.holds, Cons.oneSided, if_false,
      reduceCtorEq, if_true, beq_self_eq_true, Bool.or_true, ne_eq, not_false_eq_true, not_true_eq_false,
      forall_const, and_true, umax, IsEmpty.forall_iff] at * <;> omega

theorem consOf_of_raw {m : Mark} (hm : Mark32 m) (neg : Bool) (op : Cmp) (c : Cons) (x y : Int)
    (h1 : c.holds m ↔ if op = .ne then x = y else op.holds x y) (hok : c.ok = true)
    (hone : op ≠ .eq → op ≠ .ne → c.oneSided = true)
    (hop : op = .eq → neg = false) (hop' : op = .ne → neg = true) :
    (ccHolds m [if op ≠ .ne ∧ neg = true then c.invert else c] neg ↔ op.holds x y) ∧
    (if op ≠ .ne ∧ neg = true then c.invert else c).ok = true := by
  by_cases hne : op = .ne
  · subst hne
    have := hop' rfl
    subst this
    simp [ccHolds, h1, hok, Cmp.holds]
  · rw [if_neg hne] at h1
    cases neg
    · simp [ccHolds, h1, hok]
    · have heq : op ≠ .eq := fun h => by simpa using hop h
      obtain ⟨i1, i2, _⟩ := Cons.invert_spec hm hok (hone heq hne)
      simp only [ne_eq, hne, not_false_eq_true, and_self, if_true, ccHolds, List.mem_singleton, forall_eq,
        i1, i2, and_true, not_not]
      exact h1

/-- The constraint made from an admissible place/constant comparison. -/
theorem consOf_spec {m : Mark} (hm : Mark32 m) (neg : Bool) (op : Cmp) (e1 e2 : Expr)
    (ha : isAtom e1 e2 = true) (hk : cmpOK op e1 e2 = true)
    (hop : op = .eq → neg = false) (hop' : op = .ne → neg = true) :
    (ccHolds m [consOf neg op e1 e2] neg ↔ op.holds (e1.val m) (e2.val m)) ∧
    (consOf neg op e1 e2).ok = true := by
  simp only [cmpOK, Bool.and_eq_true, Bool.or_eq_true, Bool.not_eq_true'] at hk
  simp only [isAtom, Bool.or_eq_true, Bool.and_eq_true] at ha
  rcases ha with ⟨ha, hb⟩ | ⟨ha, hb⟩
  · cases e1 with
    | id p =>
      have hk' : atomOKl op (e2.val (fun _ => 0)) = true := by
        rcases hk.1.2 with h | h
        · rw [ha, hb] at h; simp at h
        · exact h
      obtain ⟨r1, r2, r3⟩ := rawCons_l hm op p _ hk'
      have hv := val_placeFree (fun _ => 0) m e2 hb
      have := consOf_of_raw hm neg op _ _ _ r1 r2 r3 hop hop'
      rw [← evalExpr_eq] at this
      have hp : atomParts (.id p) e2 = (p, toU32 (evalExpr (fun _ => 0) e2), false) := rfl
      unfold consOf
      rw [hp, ← hv, ← evalExpr_eq (fun _ => 0) e2]
      exact this
    | _ => simp [Expr.isId] at ha
  · cases e2 with
    | id p =>
      have hk' : atomOKr op (e1.val (fun _ => 0)) = true := by
        rcases hk.2 with h | h
        · rw [ha, hb] at h; simp at h
        · exact h
      obtain ⟨r1, r2, r3⟩ := rawCons_r hm op p _ hk'
      have hv := val_placeFree (fun _ => 0) m e1 hb
      have := consOf_of_raw hm neg op _ _ _ r1 r2 r3 hop hop'
      rw [← evalExpr_eq] at this
      have hp : atomParts e1 (.id p) = (p, toU32 (evalExpr (fun _ => 0) e1), true) := by
        cases e1 <;> first | rfl | simp [Expr.placeFree] at hb
      unfold consOf
      rw [hp, ← hv, ← evalExpr_eq]
      exact this
    | _ => simp [Expr.isId] at ha

/-! ### Lists of operands -/

/-- The operands combined by the connective. -/
def logHolds (orp : Bool) (T : TS) (π : Nat → Mark) (cs : List Cond) : Prop :=
  if orp then ∃ c ∈ cs, c.sat T π else ∀ c ∈ cs, c.sat T π

variable {T : TS} {π : Nat → Mark}

theorem logHolds_nil (orp : Bool) : logHolds orp T π [] ↔ (Cond.bool (!orp)).sat T π := by
  cases orp <;> simp [logHolds, Cond.sat]

theorem logHolds_singleton (orp : Bool) (c : Cond) : logHolds orp T π [c] ↔ c.sat T π := by
  cases orp <;> simp [logHolds]

theorem logHolds_cons (orp : Bool) (c : Cond) (cs : List Cond) :
    logHolds orp T π (c :: cs) ↔ J orp (c.sat T π) (logHolds orp T π cs) := by
  cases orp <;> simp [logHolds, J]

theorem logHolds_append (orp : Bool) (cs ds : List Cond) :
    logHolds orp T π (cs ++ ds) ↔ J orp (logHolds orp T π cs) (logHolds orp T π ds) := by
  cases orp <;> simp only [logHolds, J, List.mem_append, Bool.false_eq_true, if_false, if_true]
  · exact ⟨fun h => ⟨fun c hc => h c (.inl hc), fun c hc => h c (.inr hc)⟩,
      fun h c hc => hc.elim (h.1 c) (h.2 c)⟩
  · constructor
    · rintro ⟨c, h | h, hs⟩
      · exact .inl ⟨c, h, hs⟩
      · exact .inr ⟨c, h, hs⟩
    · rintro (⟨c, h, hs⟩ | ⟨c, h, hs⟩)
      · exact ⟨c, .inl h, hs⟩
      · exact ⟨c, .inr h, hs⟩

theorem logNode_sat (orp : Bool) (cs : List Cond) : (logNode orp cs).sat T π ↔ logHolds orp T π cs := by
  cases orp <;> simp [logNode, logHolds, Cond.sat, satAll_iff, satAny_iff]

theorem J_comm (orp : Bool) (P Q : Prop) : J orp P Q ↔ J orp Q P := by
  cases orp <;> simp [J, and_comm, or_comm]

theorem J_assoc (orp : Bool) (P Q R : Prop) : J orp (J orp P Q) R ↔ J orp P (J orp Q R) := by
  cases orp <;> simp [J, and_assoc, or_assoc]

theorem J_congr (orp : Bool) {P Q P' Q' : Prop} (h : P ↔ P') (h' : Q ↔ Q') : J orp P Q ↔ J orp P' Q' := by
  cases orp <;> simp [J, h, h']

/-- Polarity of a list of constraints read as operands of the connective. -/
theorem ccHolds_J (m : Mark) (orp : Bool) {l l0 l1 : List Cons}
    (h : (∀ d ∈ l, d.holds m) ↔ (∀ d ∈ l0, d.holds m) ∧ ∀ d ∈ l1, d.holds m) :
    ccHolds m l orp ↔ J orp (ccHolds m l0 orp) (ccHolds m l1 orp) := by
  cases orp <;> simp only [ccHolds, J, h, Bool.false_eq_true, if_false, if_true]
  tauto

theorem ccHolds_J' (m : Mark) (orp : Bool) {l l0 l1 : List Cons}
    (h : (∀ d ∈ l, d.holds m) ↔ (∀ d ∈ l0, d.holds m) ∧ ¬ ∀ d ∈ l1, d.holds m) :
    ccHolds m l orp ↔ J orp (ccHolds m l0 orp) (ccHolds m l1 (!orp)) := by
  cases orp <;> simp only [ccHolds, J, h, Bool.false_eq_true, if_false, if_true, Bool.not_true, Bool.not_false]
  tauto

/-- The meaning and the properties of the operand list after merging. -/
structure Merged (orp : Bool) (T : TS) (π : Nat → Mark) (conds : List Cond) (P : Prop) (st : Bool)
    (res : List Cond) : Prop where
  sat : logHolds orp T π res ↔ J orp (logHolds orp T π conds) P
  wf : (∀ c ∈ conds, c.wf = true) → ∀ c ∈ res, c.wf = true
  state : (∀ c ∈ conds, c.isState = true) → st = true → ∀ c ∈ res, c.isState = true

theorem merged_append (orp : Bool) (conds : List Cond) (c : Cond) (hc : c.wf = true) :
    Merged orp T π conds (c.sat T π) c.isState (conds ++ [c]) := by
  refine ⟨?_, ?_, ?_⟩
  · rw [logHolds_append]; exact J_congr orp Iff.rfl (logHolds_singleton orp c)
  · intro h x hx
    rcases List.mem_append.1 hx with hx | hx
    · exact h x hx
    · rw [List.mem_singleton.1 hx]; exact hc
  · intro h hst x hx
    rcases List.mem_append.1 hx with hx | hx
    · exact h x hx
    · rw [List.mem_singleton.1 hx]; exact hst

theorem merged_front (orp : Bool) (conds : List Cond) (c : Cond) (hc : c.wf = true) (P : Prop)
    (hP : c.sat T π ↔ P) : Merged orp T π conds P c.isState (c :: conds) := by
  refine ⟨?_, ?_, ?_⟩
  · rw [logHolds_cons, J_comm]; exact J_congr orp Iff.rfl hP
  · intro h x hx
    rcases List.mem_cons.1 hx with rfl | hx
    · exact hc
    · exact h x hx
  · intro h hst x hx
    rcases List.mem_cons.1 hx with rfl | hx
    · exact hst
    · exact h x hx

theorem tryMergeCC_spec (hm : Mark32 (π 0)) (orp : Bool) (conds : List Cond) (l : List Cons) (n : Bool)
    (hl : l.all Cons.ok = true) :
    Merged orp T π conds (ccHolds (π 0) l n) true (tryMergeCC orp conds l n) := by
  have hwf : (Cond.cc l n).wf = true := hl
  unfold tryMergeCC
  split
  · rename_i hn
    split
    · rename_i l0 n0 rest
      split
      · rename_i hn0
        subst hn0
        -- merged into the first operand
        have key : ∃ r, mergeOther l0 n0 l n = some r ∧
            (ccHolds (π 0) r n0 ↔ J n0 (ccHolds (π 0) l0 n0) (ccHolds (π 0) l n)) ∧
            (l0.all Cons.ok = true → r.all Cons.ok = true) := by
          by_cases hnn : n = n0
          · subst hnn
            obtain ⟨r, h1, h2, h3⟩ := mergeOther_same (π 0) hm n l0 l
            exact ⟨r, h1, ccHolds_J _ _ h2, fun h => h3 h hl⟩
          · have hs := hn.resolve_left hnn
            obtain ⟨c, rfl, hone⟩ := ccSingular_cases hs
            have hn' : n = !n0 := by cases n <;> cases n0 <;> simp_all
            subst hn'
            obtain ⟨r, h1, h2, h3⟩ := mergeOther_diff (π 0) hm n0 l0 c (by simpa using hl) hone
            exact ⟨r, h1, ccHolds_J' _ _ (by rw [h2]; simp), h3⟩
        obtain ⟨r, h1, h2, h3⟩ := key
        rw [h1, Option.getD_some]
        refine ⟨?_, ?_, ?_⟩
        · rw [logHolds_cons, logHolds_cons]
          rw [J_assoc]
          simp only [Cond.sat]
          rw [J_congr n0 h2 Iff.rfl, J_assoc]
          exact J_congr n0 Iff.rfl (J_comm _ _ _)
        · intro h x hx
          rcases List.mem_cons.1 hx with rfl | hx
          · exact h3 (h (.cc l0 n0) (List.mem_cons_self ..))
          · exact h x (List.mem_cons_of_mem _ hx)
        · intro h _ x hx
          rcases List.mem_cons.1 hx with rfl | hx
          · rfl
          · exact h x (List.mem_cons_of_mem _ hx)
      · split
        · exact merged_front orp _ _ hwf _ Iff.rfl
        · rename_i hn0 hnn
          have hs := hn.resolve_left hnn
          obtain ⟨c, rfl, hone⟩ := ccSingular_cases hs
          cases n
          · obtain ⟨r, h1, h2, h3⟩ := mergeOther_same (π 0) hm false [] [c]
            rw [h1, Option.getD_some]
            refine merged_front orp _ (.cc r false) (h3 (by simp) hl) _ ?_
            simp only [Cond.sat, ccHolds]; rw [h2]; simp
          · obtain ⟨r, h1, h2, h3⟩ := mergeOther_diff (π 0) hm false [] c (by simpa using hl) hone
            rw [Bool.not_false] at h1
            rw [h1, Option.getD_some]
            refine merged_front orp _ (.cc r false) (h3 (by simp)) _ ?_
            simp only [Cond.sat, ccHolds]; rw [h2]; simp
    · exact merged_front orp _ _ hwf _ Iff.rfl
  · exact merged_append orp conds _ hwf

theorem Merged.mono_state {orp : Bool} {conds res : List Cond} {P : Prop} {b b' : Bool}
    (h : Merged orp T π conds P b res) (hb : b' = true → b = true) : Merged orp T π conds P b' res :=
  ⟨h.sat, h.wf, fun h1 h2 => h.state h1 (hb h2)⟩

theorem tryMergeL_of (orp aggr : Bool) (cs : List Cond)
    (ih : ∀ c ∈ cs, c.wf = true → ∀ conds, Merged orp T π conds (c.sat T π) c.isState (tryMerge orp aggr conds c))
    (hwf : ∀ c ∈ cs, c.wf = true) (conds : List Cond) :
    Merged orp T π conds (logHolds orp T π cs) (Cond.isState.all cs) (tryMergeL orp aggr conds cs) := by
  induction cs generalizing conds with
  | nil =>
    refine ⟨?_, fun h => h, fun h _ => h⟩
    simp only [tryMergeL]
    cases orp <;> simp [J, logHolds]
  | cons c cs ihl =>
    have h1 := ih c (List.mem_cons_self ..) (hwf c (List.mem_cons_self ..)) conds
    have h2 := ihl (fun x hx => ih x (List.mem_cons_of_mem _ hx))
      (fun x hx => hwf x (List.mem_cons_of_mem _ hx)) (tryMerge orp aggr conds c)
    refine ⟨?_, fun h => h2.wf (h1.wf h), fun h hs => ?_⟩
    · rw [tryMergeL, h2.sat, J_congr orp h1.sat Iff.rfl, J_assoc]
      exact J_congr orp Iff.rfl (logHolds_cons orp c cs).symm
    · simp only [Cond.isState.all, Bool.and_eq_true] at hs
      exact h2.state (h1.state h hs.1) hs.2

theorem tryMerge_spec (hm : Mark32 (π 0)) (orp aggr : Bool) (c : Cond) (hwf : c.wf = true)
    (conds : List Cond) : Merged orp T π conds (c.sat T π) c.isState (tryMerge orp aggr conds c) := by
  induction c using Cond.ind generalizing conds with
  | and cs ih =>
    simp only [tryMerge]
    cases orp
    · simp only [Bool.false_eq_true, if_false]
      have hw : ∀ c ∈ cs, c.wf = true := (wfL_iff cs).1 hwf
      have := tryMergeL_of (T := T) (π := π) false aggr cs (fun c hc _ conds => ih c hc (hw c hc) conds) hw conds
      refine ⟨?_, this.wf, this.state⟩
      rw [this.sat]
      exact J_congr _ Iff.rfl (by simp [logHolds, Cond.sat, satAll_iff])
    · exact merged_append _ _ _ hwf
  | or cs ih =>
    simp only [tryMerge]
    cases orp
    · exact merged_append _ _ _ hwf
    · simp only [if_true]
      have hw : ∀ c ∈ cs, c.wf = true := (wfL_iff cs).1 hwf
      have := tryMergeL_of (T := T) (π := π) true aggr cs (fun c hc _ conds => ih c hc (hw c hc) conds) hw conds
      refine ⟨?_, this.wf, this.state⟩
      rw [this.sat]
      exact J_congr _ Iff.rfl (by simp [logHolds, Cond.sat, satAny_iff])
  | cmp op e1 e2 =>
    simp only [tryMerge]
    split
    · exact merged_append _ _ _ hwf
    · split
      · exact merged_append _ _ _ hwf
      · split
        · exact merged_append _ _ _ hwf
        · rename_i hop ha
          have ha : isAtom e1 e2 = true := by simpa using ha
          have hs := consOf_spec hm orp op e1 e2 ha hwf
            (fun h => by cases orp <;> simp_all) (fun h => by cases orp <;> simp_all)
          have hl : mergeConds [] orp [.cmp op e1 e2] = [consOf orp op e1 e2] := rfl
          rw [hl]
          have := tryMergeCC_spec (T := T) hm orp conds [consOf orp op e1 e2] orp (by simp [hs.2])
          refine ⟨?_, this.wf, fun h _ => this.state h rfl⟩
          rw [this.sat]
          exact J_congr _ Iff.rfl hs.1
  | cc l n =>
    simp only [tryMerge]
    split
    · exact merged_append _ _ _ hwf
    · exact tryMergeCC_spec hm orp conds l n hwf
  | _ => exact merged_append _ _ _ hwf

theorem tryMergeL_spec (hm : Mark32 (π 0)) (orp aggr : Bool) (cs : List Cond) (hwf : ∀ c ∈ cs, c.wf = true)
    (conds : List Cond) :
    Merged orp T π conds (logHolds orp T π cs) (Cond.isState.all cs) (tryMergeL orp aggr conds cs) :=
  tryMergeL_of orp aggr cs (fun c _ hw conds => tryMerge_spec hm orp aggr c hw conds) hwf conds

theorem mem_postMerge (cs : List Cond) (c : Cond) : c ∈ postMerge cs ↔ c ∈ cs := by
  simp only [postMerge, List.mem_append, List.mem_filter]
  cases c.isTemporal <;> simp

theorem logHolds_mem (orp : Bool) {cs ds : List Cond} (h : ∀ c, c ∈ cs ↔ c ∈ ds) :
    logHolds orp T π cs ↔ logHolds orp T π ds := by
  cases orp <;> simp [logHolds, h]

theorem logHolds_start (orp : Bool) (P : Prop) : J orp (logHolds orp T π []) P ↔ P := by
  cases orp <;> simp [J, logHolds]

/-- Meaning of `makeAnd` and `makeOr`. -/
theorem makeLog_spec (hm : Mark32 (π 0)) (orp : Bool) (cs : List Cond) (hwf : ∀ c ∈ cs, c.wf = true) :
    ((makeLog orp cs).sat T π ↔ logHolds orp T π cs) ∧ (makeLog orp cs).wf = true ∧
    ((∀ c ∈ cs, c.isState = true) → (makeLog orp cs).isState = true) := by
  match cs, hwf with
  | [], _ => exact ⟨(logHolds_nil orp).symm, rfl, fun _ => rfl⟩
  | [c], hwf =>
    exact ⟨(logHolds_singleton orp c).symm, hwf c (List.mem_singleton_self c),
      fun h => h c (List.mem_singleton_self c)⟩
  | c :: d :: cs, hwf =>
    simp only [makeLog]
    have h1 := tryMergeL_spec (T := T) hm orp true (c :: d :: cs) hwf []
    have hwf1 := h1.wf (by simp)
    have h2 := tryMergeL_spec (T := T) hm orp false _ hwf1 []
    have hwf2 := h2.wf (by simp)
    have hsat : logHolds orp T π (logOperands orp (tryMergeL orp true [] (c :: d :: cs))) ↔
        logHolds orp T π (c :: d :: cs) := by
      rw [logOperands, logHolds_mem orp (fun c => mem_postMerge _ c), h2.sat, logHolds_start, h1.sat,
        logHolds_start]
    have hwf3 : ∀ x ∈ logOperands orp (tryMergeL orp true [] (c :: d :: cs)), x.wf = true :=
      fun x hx => hwf2 x ((mem_postMerge _ x).1 hx)
    have hst : (∀ x ∈ c :: d :: cs, x.isState = true) →
        ∀ x ∈ logOperands orp (tryMergeL orp true [] (c :: d :: cs)), x.isState = true := by
      intro h x hx
      have h1' := h1.state (by simp) ((isState_all_iff _).2 h)
      exact h2.state (by simp) ((isState_all_iff _).2 h1') x ((mem_postMerge _ x).1 hx)
    revert hsat hwf3 hst
    generalize logOperands orp (tryMergeL orp true [] (c :: d :: cs)) = res
    intro hsat hwf3 hst
    match res, hsat, hwf3, hst with
    | [], hsat, _, _ => exact ⟨by rw [← hsat]; exact (logHolds_nil orp).symm, rfl, fun _ => rfl⟩
    | [x], hsat, hwf3, hst =>
      exact ⟨by rw [← hsat]; exact (logHolds_singleton orp x).symm, hwf3 x (List.mem_singleton_self x),
        fun h => hst h x (List.mem_singleton_self x)⟩
    | x :: y :: l, hsat, hwf3, hst =>
      refine ⟨(logNode_sat orp _).trans hsat, ?_, fun h => ?_⟩
      · cases orp <;> exact (wfL_iff _).2 hwf3
      · cases orp <;> exact (isState_all_iff _).2 (hst h)

theorem makeOr_spec (hm : Mark32 (π 0)) (cs : List Cond) (hwf : ∀ c ∈ cs, c.wf = true) :
    ((makeOr cs).sat T π ↔ ∃ c ∈ cs, c.sat T π) := (makeLog_spec hm true cs hwf).1

theorem makeAnd_spec (hm : Mark32 (π 0)) (cs : List Cond) (hwf : ∀ c ∈ cs, c.wf = true) :
    ((makeAnd cs).sat T π ↔ ∀ c ∈ cs, c.sat T π) := (makeLog_spec hm false cs hwf).1

end PQL
end Verif
