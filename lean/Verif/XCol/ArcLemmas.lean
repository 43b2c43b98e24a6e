import Verif.XCol.Arc
import Verif.XCol.MSLemmas
import Verif.Props.Offsets
import Mathlib.Tactic.Ring

/-!
# Lemmas about compiled arc expressions
-/

namespace Verif
namespace XCol
open Colored

/-- A well-formed multiset without negative entries. -/
structure MS.Good (m : MS) : Prop where
  wf : m.WF
  nn : NonNeg m.counts

theorem MS.Good.val_nonneg {m : MS} (h : m.Good) (x : Nat) : 0 ≤ m.val x := valL_nonneg h.nn x

theorem MS.Good.card_nonneg {m : MS} (h : m.Good) : 0 ≤ m.card := by
  have := sumL_nonneg h.nn
  have h2 := h.wf.card
  omega

theorem MS.good_empty : MS.empty.Good := ⟨MS.empty_wf, fun e he => by cases he⟩

theorem MS.good_of_val {m : MS} (h : m.WF) (hv : ∀ x, 0 ≤ m.val x) : m.Good := ⟨h, nonNeg_of_val h.sorted hv⟩

theorem MS.good_fix {m : MS} (h : m.WF) : m.fixNegative.Good := ⟨MS.fix_wf h, MS.fix_nonneg m⟩

theorem MS.good_plus {m o : MS} (h : m.Good) (ho : o.Good) : (m.plus o).Good :=
  MS.good_of_val (MS.plus_wf h.wf ho.wf) fun x => by
    rw [MS.plus_val h.wf ho.wf]; have := h.val_nonneg x; have := ho.val_nonneg x; omega

theorem MS.plus_card {m o : MS} (_ : m.WF) (ho : o.WF) : (m.plus o).card = m.card + o.card := by
  have := ho.card
  simp only [MS.plus]; omega

theorem MS.card_mono {m o : MS} (h : m.WF) (ho : o.WF) (hle : ∀ x, m.val x ≤ o.val x) : m.card ≤ o.card := by
  rw [h.card, ho.card]
  exact sum_mono h.sorted ho.sorted hle

theorem MS.fixMinus_val {m o : MS} (h : m.Good) (ho : o.Good) (x : Nat) :
    ((m.minus o).fixNegative).val x = max 0 (m.val x - o.val x) := by
  rw [MS.fix_val]
  by_cases hne : m.counts = []
  · have h1 : m.minus o = m := by unfold MS.minus; rw [if_pos hne]
    have h0 : m.val x = 0 := by unfold MS.val; rw [hne]; rfl
    have := ho.val_nonneg x
    rw [h1, h0]; omega
  · rw [MS.minus_val h.wf ho.wf hne]

/-! ## Sequences -/

/-- how many sequences have the colour `x` -/
def cnt (b : Bind) (sizes : List Nat) (x : Nat) : List (List PC) → Nat
  | [] => 0
  | q :: qs => (if seqColor b sizes q = x then 1 else 0) + cnt b sizes x qs

theorem addSeqs_spec (b : Bind) (sizes : List Nat) (k : Int) (qs : List (List PC)) (m : MS) (h : m.WF) :
    (addSeqs b sizes k qs m).WF ∧ (∀ x, (addSeqs b sizes k qs m).val x = m.val x + k * cnt b sizes x qs) ∧
      (addSeqs b sizes k qs m).card = m.card + k * qs.length := by
  induction qs generalizing m with
  | nil => refine ⟨h, fun x => ?_, ?_⟩ <;> simp [addSeqs, cnt]
  | cons q qs ih =>
    obtain ⟨i1, i2, i3⟩ := ih (m.addCount (seqColor b sizes q) k) (MS.addCount_wf h _ _)
    refine ⟨i1, fun x => ?_, ?_⟩
    · show (addSeqs b sizes k qs (m.addCount (seqColor b sizes q) k)).val x = _
      rw [i2 x, MS.addCount_val h, cnt]
      by_cases hx : seqColor b sizes q = x
      · rw [if_pos hx.symm, if_pos hx]; push_cast; ring
      · rw [if_neg (fun h => hx h.symm), if_neg hx]; push_cast; ring
    · show (addSeqs b sizes k qs (m.addCount (seqColor b sizes q) k)).card = _
      rw [i3]
      simp only [MS.addCount, List.length_cons]
      push_cast; ring

/-- The constants of the expression are multisets without negative entries. -/
def Arc.OK : Arc → Prop
  | .add l r => l.OK ∧ r.OK
  | .sub l r => l.OK ∧ r.OK
  | .const m => m.Good
  | .coll _ _ _ => True

theorem arc_spec (b : Bind) (a : Arc) (h : a.OK) : (a.eval b).Good ∧ ∀ out : MS, out.Good →
    (a.consume b out).Good ∧ ∀ x, (a.consume b out).val x = max 0 (out.val x - (a.eval b).val x) := by
  induction a with
  | add l r il ir =>
    obtain ⟨l1, l2⟩ := il h.1
    obtain ⟨r1, r2⟩ := ir h.2
    refine ⟨MS.good_plus l1 r1, fun out ho => ?_⟩
    obtain ⟨a1, a2⟩ := l2 out ho
    obtain ⟨b1, b2⟩ := r2 _ a1
    refine ⟨MS.good_fix b1.wf, fun x => ?_⟩
    simp only [Arc.consume, Arc.eval]
    rw [MS.fix_val, b2, a2, MS.plus_val l1.wf r1.wf]
    have := l1.val_nonneg x
    have := r1.val_nonneg x
    omega
  | sub l r il ir =>
    obtain ⟨l1, _⟩ := il h.1
    obtain ⟨_, r2⟩ := ir h.2
    obtain ⟨e1, _⟩ := r2 _ l1
    refine ⟨e1, fun out ho => ?_⟩
    simp only [Arc.consume, Arc.eval]
    exact ⟨MS.good_fix (MS.minus_wf ho.wf e1.wf), fun x => MS.fixMinus_val ho e1 x⟩
  | const m =>
    have hm : m.Good := h
    refine ⟨hm, fun out ho => ?_⟩
    simp only [Arc.consume, Arc.eval]
    exact ⟨MS.good_fix (MS.minus_wf ho.wf hm.wf), fun x => MS.fixMinus_val ho hm x⟩
  | coll qs sizes k =>
    obtain ⟨e1, e2, _⟩ := addSeqs_spec b sizes k qs MS.empty MS.empty_wf
    have e0 : ∀ x, MS.empty.val x = 0 := fun _ => rfl
    refine ⟨MS.good_of_val e1 fun x => by show 0 ≤ (addSeqs b sizes k qs MS.empty).val x; rw [e2, e0, Int.zero_add]; exact Int.mul_nonneg (by omega) (by omega), fun out ho => ?_⟩
    obtain ⟨c1, c2, _⟩ := addSeqs_spec b sizes (-k) qs out ho.wf
    refine ⟨MS.good_fix c1, fun x => ?_⟩
    simp only [Arc.consume, Arc.eval]
    rw [MS.fix_val, c2, e2, e0]
    congr 1
    ring

theorem eval_good (b : Bind) {a : Arc} (h : a.OK) : (a.eval b).Good := (arc_spec b a h).1

theorem consume_good (b : Bind) {a : Arc} (h : a.OK) {out : MS} (ho : out.Good) : (a.consume b out).Good :=
  ((arc_spec b a h).2 out ho).1

theorem consume_val (b : Bind) {a : Arc} (h : a.OK) {out : MS} (ho : out.Good) (x : Nat) :
    (a.consume b out).val x = max 0 (out.val x - (a.eval b).val x) := ((arc_spec b a h).2 out ho).2 x

theorem produce_spec (b : Bind) (a : Arc) (h : a.OK) : ∀ out : MS, out.Good →
    (a.produce b out).Good ∧ ∀ x, (a.produce b out).val x = out.val x + (a.eval b).val x := by
  induction a with
  | add l r il ir =>
    intro out ho
    obtain ⟨a1, a2⟩ := il h.1 out ho
    obtain ⟨b1, b2⟩ := ir h.2 _ a1
    refine ⟨b1, fun x => ?_⟩
    simp only [Arc.produce, Arc.eval]
    rw [b2, a2, MS.plus_val (eval_good b h.1).wf (eval_good b h.2).wf]
    ring
  | sub l r _ _ =>
    intro out ho
    have e := eval_good b (a := .sub l r) h
    exact ⟨MS.good_plus ho e, fun x => MS.plus_val ho.wf e.wf x⟩
  | const m =>
    intro out ho
    have hm : m.Good := h
    exact ⟨MS.good_plus ho hm, fun x => MS.plus_val ho.wf hm.wf x⟩
  | coll qs sizes k =>
    intro out ho
    obtain ⟨e1, e2, _⟩ := addSeqs_spec b sizes k qs MS.empty MS.empty_wf
    obtain ⟨c1, c2, _⟩ := addSeqs_spec b sizes k qs out ho.wf
    refine ⟨MS.good_of_val c1 fun x => ?_, fun x => ?_⟩
    · show 0 ≤ (addSeqs b sizes k qs out).val x
      rw [c2]
      have h1 := ho.val_nonneg x
      have h2 : (0 : Int) ≤ k * cnt b sizes x qs := Int.mul_nonneg (by omega) (by omega)
      omega
    · simp only [Arc.produce, Arc.eval]
      rw [c2, e2]
      have e0 : MS.empty.val x = 0 := rfl
      rw [e0]; ring

theorem isSubSet_iff (b : Bind) {a : Arc} (h : a.OK) {m : MS} (hm : m.Good) :
    a.isSubSet b m = true ↔ ∀ x, (a.eval b).val x ≤ m.val x :=
  MS.le_spec (eval_good b h).wf hm.wf (eval_good b h).nn hm.nn

/-! ## Numbers of tokens -/

theorem card_bounds (b : Bind) (a : Arc) (h : a.OK) : (a.minCount : Int) ≤ (a.eval b).card ∧ (a.eval b).card ≤ a.upper := by
  induction a with
  | add l r il ir =>
    obtain ⟨l1, l2⟩ := il h.1
    obtain ⟨r1, r2⟩ := ir h.2
    simp only [Arc.eval, Arc.minCount, Arc.upper]
    rw [MS.plus_card (eval_good b h.1).wf (eval_good b h.2).wf]
    push_cast
    omega
  | sub l r il ir =>
    obtain ⟨l1, l2⟩ := il h.1
    obtain ⟨r1, r2⟩ := ir h.2
    have gl := eval_good b h.1
    have gr := eval_good b h.2
    have gc := consume_good b h.2 gl
    simp only [Arc.eval, Arc.minCount, Arc.upper]
    have u1 : (r.consume b (l.eval b)).card ≤ (l.eval b).card := by
      apply MS.card_mono gc.wf gl.wf
      intro x
      rw [consume_val b h.2 gl]
      have := gl.val_nonneg x
      have := gr.val_nonneg x
      omega
    have u2 : (l.eval b).card ≤ (r.consume b (l.eval b)).card + (r.eval b).card := by
      rw [← MS.plus_card gc.wf gr.wf]
      apply MS.card_mono gl.wf (MS.plus_wf gc.wf gr.wf)
      intro x
      rw [MS.plus_val gc.wf gr.wf, consume_val b h.2 gl]
      have := gl.val_nonneg x
      have := gr.val_nonneg x
      omega
    have := gc.card_nonneg
    split <;> constructor <;> omega
  | const m =>
    have := MS.Good.card_nonneg (m := m) h
    simp only [Arc.eval, Arc.minCount, Arc.upper]
    omega
  | coll qs sizes k =>
    obtain ⟨_, _, e3⟩ := addSeqs_spec b sizes k qs MS.empty MS.empty_wf
    simp only [Arc.eval, Arc.minCount, Arc.upper]
    rw [e3]
    have e0 : MS.empty.card = 0 := rfl
    rw [e0]
    push_cast
    constructor <;> apply le_of_eq <;> ring

/-! ## Minimal markings -/

/-- No subtraction occurs. -/
def Arc.noSub : Arc → Bool
  | .add l r => l.noSub && r.noSub
  | .sub _ _ => false
  | .const _ => true
  | .coll _ _ _ => true

/-- No subtraction occurs on the right of a subtraction. -/
def Arc.subOK : Arc → Bool
  | .add l r => l.subOK && r.subOK
  | .sub l r => l.subOK && r.noSub
  | .const _ => true
  | .coll _ _ _ => true

theorem Arc.subOK_of_noSub : ∀ a : Arc, a.noSub = true → a.subOK = true
  | .add l r, h => by
    simp only [Arc.noSub, Bool.and_eq_true, Arc.subOK] at h ⊢
    exact ⟨subOK_of_noSub l h.1, subOK_of_noSub r h.2⟩
  | .sub _ _, h => by simp [Arc.noSub] at h
  | .const _, _ => rfl
  | .coll _ _ _, _ => rfl

theorem seqVals_noVar (b c : Bind) : ∀ (sizes : List Nat) (q : List PC), hasVar q = false → seqVals b sizes q = seqVals c sizes q
  | [], [], _ => rfl
  | [], _ :: _, _ => rfl
  | _ :: _, [], _ => rfl
  | s :: ss, p :: q, h => by
    simp only [hasVar, List.any_cons, Bool.or_eq_false_iff] at h
    simp only [seqVals]
    rw [seqVals_noVar b c ss q h.2]
    congr 1
    simp [PC.val, PC.base, h.1]

theorem collMin_spec (b : Bind) (sizes : List Nat) (k : Nat) (qs : List (List PC)) (m : MS) (n : Nat) (h : m.Good) :
    (collMin sizes k qs (m, n)).1.Good ∧
    (∀ x, (collMin sizes k qs (m, n)).1.val x ≤ m.val x + k * cnt b sizes x qs) ∧
    ∀ x, m.val x + n + k * cnt b sizes x qs ≤ (collMin sizes k qs (m, n)).1.val x + (collMin sizes k qs (m, n)).2 := by
  induction qs generalizing m n with
  | nil => refine ⟨h, fun x => ?_, fun x => ?_⟩ <;> simp [collMin, cnt]
  | cons q qs ih =>
    rw [collMin]
    by_cases hq : hasVar q = true
    · rw [if_pos hq]
      obtain ⟨i1, i2, i3⟩ := ih m (n + k) h
      refine ⟨i1, fun x => ?_, fun x => ?_⟩
      · have := i2 x
        rw [cnt]; push_cast
        split
        · rw [Int.mul_add]; omega
        · rw [Int.mul_add]; omega
      · have := i3 x
        rw [cnt]
        push_cast at this ⊢
        split
        · rw [Int.mul_add]; omega
        · rw [Int.mul_add]; omega
    · rw [if_neg hq]
      have hq : hasVar q = false := by simpa using hq
      have hc : seqColor Bind.none sizes q = seqColor b sizes q := by
        unfold seqColor; rw [seqVals_noVar Bind.none b sizes q hq]
      rw [hc]
      have hg : (m.addCount (seqColor b sizes q) k).Good := by
        apply MS.good_of_val (MS.addCount_wf h.wf _ _)
        intro x
        rw [MS.addCount_val h.wf]
        have := h.val_nonneg x
        split <;> omega
      obtain ⟨i1, i2, i3⟩ := ih _ n hg
      refine ⟨i1, fun x => ?_, fun x => ?_⟩
      · have := i2 x
        rw [MS.addCount_val h.wf] at this
        rw [cnt]
        by_cases hx : seqColor b sizes q = x
        · rw [if_pos hx.symm] at this
          rw [if_pos hx]; push_cast; rw [Int.mul_add]; omega
        · rw [if_neg (fun h => hx h.symm)] at this
          rw [if_neg hx]; push_cast; rw [Int.mul_add]; omega
      · have := i3 x
        rw [MS.addCount_val h.wf] at this
        rw [cnt]
        by_cases hx : seqColor b sizes q = x
        · rw [if_pos hx.symm] at this
          rw [if_pos hx]; push_cast; rw [Int.mul_add]; omega
        · rw [if_neg (fun h => hx h.symm)] at this
          rw [if_neg hx]; push_cast; rw [Int.mul_add]; omega

theorem foldl_less (k : Int) (cs : List Nat) (m : MS) (h : m.WF) :
    (cs.foldl (fun m c => m.addCount c (-k)) m).WF ∧
      ∀ x, (cs.foldl (fun m c => m.addCount c (-k)) m).val x = m.val x - k * cs.count x := by
  induction cs generalizing m with
  | nil => exact ⟨h, fun x => by simp⟩
  | cons c cs ih =>
    obtain ⟨i1, i2⟩ := ih _ (MS.addCount_wf h c (-k))
    refine ⟨i1, fun x => ?_⟩
    rw [List.foldl_cons, i2, MS.addCount_val h, List.count_cons]
    by_cases hx : x = c
    · subst hx; simp; ring
    · have hx' : ¬ c = x := fun h => hx h.symm
      simp [hx, hx']

theorem keys_nodup {m : MS} (h : m.WF) : (m.counts.map (·.1)).Nodup := by
  have := h.sorted
  unfold Sorted at this
  refine List.Pairwise.map (·.1) (fun a b hab => ?_) this
  omega

/-- the marking after taking a number from every entry, colour by colour -/
theorem lessAll_spec {m : MS} (h : m.WF) (k : Nat) : (lessAll m k).WF ∧
    ∀ x, (lessAll m k).val x = if k = 0 then m.val x else if x ∈ m.counts.map (·.1) then max 0 (m.val x - k) else max 0 (m.val x) := by
  unfold lessAll
  by_cases hk : k = 0
  · rw [if_neg (by simpa using hk)]
    exact ⟨h, fun x => by rw [if_pos hk]⟩
  · rw [if_pos hk]
    obtain ⟨f1, f2⟩ := foldl_less k (m.counts.map (·.1)) m h
    refine ⟨MS.fix_wf f1, fun x => ?_⟩
    rw [if_neg hk, MS.fix_val, f2]
    by_cases hx : x ∈ m.counts.map (·.1)
    · rw [if_pos hx, (keys_nodup h).count, if_pos hx]; simp
    · rw [if_neg hx, List.count_eq_zero_of_not_mem hx]; simp

/-- The maximal marking of an expression without subtractions bounds the result from above. -/
theorem max_spec (b : Bind) (a : Arc) (h : a.OK) (hs : a.noSub = true) : a.maxMark.1.Good ∧
    ∀ x, (a.eval b).val x ≤ a.maxMark.1.val x + a.maxMark.2 := by
  induction a with
  | add l r il ir =>
    simp only [Arc.noSub, Bool.and_eq_true] at hs
    obtain ⟨l1, l2⟩ := il h.1 hs.1
    obtain ⟨r1, r2⟩ := ir h.2 hs.2
    refine ⟨MS.good_plus l1 r1, fun x => ?_⟩
    simp only [Arc.eval, Arc.maxMark]
    rw [MS.plus_val (eval_good b h.1).wf (eval_good b h.2).wf, MS.plus_val l1.wf r1.wf]
    have := l2 x
    have := r2 x
    push_cast
    omega
  | sub l r => simp [Arc.noSub] at hs
  | const m =>
    have hm : m.Good := h
    exact ⟨hm, fun x => by simp [Arc.eval, Arc.maxMark]⟩
  | coll qs sizes k =>
    obtain ⟨_, e2, _⟩ := addSeqs_spec b sizes k qs MS.empty MS.empty_wf
    obtain ⟨c1, _, c3⟩ := collMin_spec b sizes k qs MS.empty 0 MS.good_empty
    refine ⟨c1, fun x => ?_⟩
    simp only [Arc.eval, Arc.maxMark]
    rw [e2]
    have := c3 x
    push_cast at this
    omega

/-- The minimal marking bounds the result from below. -/
theorem min_spec (b : Bind) (a : Arc) (h : a.OK) (hs : a.subOK = true) : a.minMark.1.WF ∧
    ∀ x, a.minMark.1.val x ≤ (a.eval b).val x := by
  induction a with
  | add l r il ir =>
    simp only [Arc.subOK, Bool.and_eq_true] at hs
    obtain ⟨l1, l2⟩ := il h.1 hs.1
    obtain ⟨r1, r2⟩ := ir h.2 hs.2
    refine ⟨MS.plus_wf l1 r1, fun x => ?_⟩
    simp only [Arc.eval, Arc.minMark]
    rw [MS.plus_val (eval_good b h.1).wf (eval_good b h.2).wf, MS.plus_val l1 r1]
    have := l2 x
    have := r2 x
    omega
  | sub l r il _ =>
    simp only [Arc.subOK, Bool.and_eq_true] at hs
    obtain ⟨l1, l2⟩ := il h.1 hs.1
    obtain ⟨m1, m2⟩ := max_spec b r h.2 hs.2
    have hw : (l.minMark.1.minus r.maxMark.1).WF := MS.minus_wf l1 m1.wf
    obtain ⟨w1, w2⟩ := lessAll_spec hw r.maxMark.2
    refine ⟨w1, fun x => ?_⟩
    simp only [Arc.eval, Arc.minMark]
    have gl := eval_good b h.1
    have gr := eval_good b h.2
    rw [w2, consume_val b h.2 gl]
    have k1 := l2 x
    have k2 := m2 x
    have k3 := gl.val_nonneg x
    have k4 := gr.val_nonneg x
    have k5 := m1.val_nonneg x
    by_cases hne : l.minMark.1.counts = []
    · have e1 : l.minMark.1.minus r.maxMark.1 = l.minMark.1 := by unfold MS.minus; rw [if_pos hne]
      have e0 : l.minMark.1.val x = 0 := by unfold MS.val; rw [hne]; rfl
      rw [e1, e0, hne]
      split
      · omega
      · rw [if_neg (by simp)]; omega
    · rw [MS.minus_val l1 m1.wf hne]
      split
      · omega
      · split
        · omega
        · rename_i hx
          have : (l.minMark.1.minus r.maxMark.1).val x = 0 := by
            apply valL_not_mem
            intro e he hex
            exact hx (List.mem_map.2 ⟨e, he, hex⟩)
          rw [MS.minus_val l1 m1.wf hne] at this
          omega
  | const m =>
    have hm : m.Good := h
    exact ⟨hm.wf, fun x => le_refl _⟩
  | coll qs sizes k =>
    obtain ⟨_, e2, _⟩ := addSeqs_spec b sizes k qs MS.empty MS.empty_wf
    obtain ⟨c1, c2, _⟩ := collMin_spec b sizes k qs MS.empty 0 MS.good_empty
    refine ⟨c1.wf, fun x => ?_⟩
    simp only [Arc.eval, Arc.minMark]
    rw [e2]
    exact c2 x

end XCol
end Verif
