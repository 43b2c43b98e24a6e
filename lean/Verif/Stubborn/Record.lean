import Verif.Stubborn.Visitor

/-!
# The results stored in the query, and the visitor of conditions
-/

namespace Verif
namespace Stubborn
open PQL

/-! ### What the memory contains after an evaluation -/

mutual
/-- The memory has the results of evaluating the condition in `m`, as far as the evaluation went. -/
def Rec (M : Mem) (dl : Bool) (m : Mark) : List Nat → Cond → Prop
  | pos, .dead => M.sat pos = .ofBool dl
  | pos, .cmp _ e1 e2 => M.ev (pos ++ [0]) = toInt32 (e1.val m) ∧ M.ev (pos ++ [1]) = toInt32 (e2.val m)
  | pos, .not c => M.sat (pos ++ [0]) = evaluateSet dl m c ∧ Rec M dl m (pos ++ [0]) c
  | pos, .and cs => RecAnd M dl m pos 0 cs
  | pos, .or cs => RecOr M dl m pos 0 cs
  | _, _ => True
def RecAnd (M : Mem) (dl : Bool) (m : Mark) : List Nat → Nat → List Cond → Prop
  | _, _, [] => True
  | pos, i, c :: cs => M.sat (pos ++ [i]) = evaluateSet dl m c ∧ Rec M dl m (pos ++ [i]) c ∧
    (evaluateSet dl m c ≠ .rFalse → RecAnd M dl m pos (i + 1) cs)
def RecOr (M : Mem) (dl : Bool) (m : Mark) : List Nat → Nat → List Cond → Prop
  | _, _, [] => True
  | pos, i, c :: cs => M.sat (pos ++ [i]) = evaluateSet dl m c ∧ Rec M dl m (pos ++ [i]) c ∧
    (evaluateSet dl m c ≠ .rTrue → RecOr M dl m pos (i + 1) cs)
end

/-- The two memories agree at a position. -/
def Same (M M' : Mem) (q : List Nat) : Prop := M.sat q = M'.sat q ∧ M.ev q = M'.ev q

theorem Same.trans {A B D : Mem} {q : List Nat} (h : Same A B q) (h' : Same B D q) : Same A D q :=
  ⟨h.1.trans h'.1, h.2.trans h'.2⟩

theorem Same.symm {A B : Mem} {q : List Nat} (h : Same A B q) : Same B A q := ⟨h.1.symm, h.2.symm⟩

theorem pre_app (pos : List Nat) (l : List Nat) : pos <+: pos ++ l := List.prefix_append ..

theorem pre_of_app {pos : List Nat} {i : Nat} {q : List Nat} (h : pos ++ [i] <+: q) : pos <+: q :=
  (pre_app pos [i]).trans h

theorem not_pre {pos : List Nat} {i : Nat} : ¬ pos ++ [i] <+: pos := fun h => by
  have := h.length_le
  simp at this

theorem pre_disj {pos : List Nat} {i j : Nat} (hij : i ≠ j) {q : List Nat} (h : pos ++ [i] <+: q) :
    ¬ pos ++ [j] <+: q := by
  rintro ⟨r, hr⟩
  obtain ⟨r', hr'⟩ := h
  rw [← hr', List.append_assoc, List.append_assoc] at hr
  have := List.append_cancel_left hr
  simp only [List.singleton_append, List.cons.injEq] at this
  exact hij this.1.symm

mutual
theorem rec_congr {M M' : Mem} {dl : Bool} {m : Mark} : ∀ (pos : List Nat) (c : Cond),
    (∀ q, pos <+: q → Same M M' q) → Rec M dl m pos c → Rec M' dl m pos c
  | pos, .dead, h, hr => by
    simp only [Rec] at hr ⊢; rw [← hr]; exact (h pos (List.prefix_refl _)).1.symm
  | pos, .cmp _ e1 e2, h, hr => by
    simp only [Rec] at hr ⊢
    rw [← hr.1, ← hr.2]
    exact ⟨(h _ (pre_app ..)).2.symm, (h _ (pre_app ..)).2.symm⟩
  | pos, .not c, h, hr => by
    simp only [Rec] at hr ⊢
    exact ⟨by rw [← hr.1]; exact (h _ (pre_app ..)).1.symm, rec_congr _ c (fun q hq => h q (pre_of_app hq)) hr.2⟩
  | pos, .and cs, h, hr => by
    simp only [Rec] at hr ⊢; exact recAnd_congr pos 0 cs (fun j _ q hq => h q (pre_of_app hq)) hr
  | pos, .or cs, h, hr => by
    simp only [Rec] at hr ⊢; exact recOr_congr pos 0 cs (fun j _ q hq => h q (pre_of_app hq)) hr
  | _, .bool _, _, _ => by simp only [Rec]
  | _, .cc _ _, _, _ => by simp only [Rec]
  | _, .EX _, _, _ => by simp only [Rec]
  | _, .AX _, _, _ => by simp only [Rec]
  | _, .EF _, _, _ => by simp only [Rec]
  | _, .AF _, _, _ => by simp only [Rec]
  | _, .EG _, _, _ => by simp only [Rec]
  | _, .AG _, _, _ => by simp only [Rec]
  | _, .EU _ _, _, _ => by simp only [Rec]
  | _, .AU _ _, _, _ => by simp only [Rec]
  | _, .E _, _, _ => by simp only [Rec]
  | _, .A _, _, _ => by simp only [Rec]
  | _, .X _, _, _ => by simp only [Rec]
  | _, .F _, _, _ => by simp only [Rec]
  | _, .G _, _, _ => by simp only [Rec]
  | _, .U _ _, _, _ => by simp only [Rec]
theorem recAnd_congr {M M' : Mem} {dl : Bool} {m : Mark} : ∀ (pos : List Nat) (i : Nat) (cs : List Cond),
    (∀ j, i ≤ j → ∀ q, pos ++ [j] <+: q → Same M M' q) → RecAnd M dl m pos i cs → RecAnd M' dl m pos i cs
  | _, _, [], _, _ => by simp only [RecAnd]
  | pos, i, c :: cs, h, hr => by
    simp only [RecAnd] at hr ⊢
    refine ⟨by rw [← hr.1]; exact (h i (Nat.le_refl _) _ (List.prefix_refl _)).1.symm,
      rec_congr _ c (h i (Nat.le_refl _)) hr.2.1, fun hne => ?_⟩
    exact recAnd_congr pos (i + 1) cs (fun j hj => h j (by omega)) (hr.2.2 hne)
theorem recOr_congr {M M' : Mem} {dl : Bool} {m : Mark} : ∀ (pos : List Nat) (i : Nat) (cs : List Cond),
    (∀ j, i ≤ j → ∀ q, pos ++ [j] <+: q → Same M M' q) → RecOr M dl m pos i cs → RecOr M' dl m pos i cs
  | _, _, [], _, _ => by simp only [RecOr]
  | pos, i, c :: cs, h, hr => by
    simp only [RecOr] at hr ⊢
    refine ⟨by rw [← hr.1]; exact (h i (Nat.le_refl _) _ (List.prefix_refl _)).1.symm,
      rec_congr _ c (h i (Nat.le_refl _)) hr.2.1, fun hne => ?_⟩
    exact recOr_congr pos (i + 1) cs (fun j hj => h j (by omega)) (hr.2.2 hne)
end

theorem setSat_same {M : Mem} {pos : List Nat} {r : Res} {q : List Nat} (h : q ≠ pos) : Same M (M.setSat pos r) q := by
  simp [Same, Mem.setSat, h]

theorem setEv_same {M : Mem} {pos : List Nat} {v : Int} {q : List Nat} (h : q ≠ pos) : Same M (M.setEv pos v) q := by
  simp [Same, Mem.setEv, h]

theorem setSat_sat (M : Mem) (pos : List Nat) (r : Res) : (M.setSat pos r).sat pos = r := by simp [Mem.setSat]

mutual
theorem evalMem_spec {dl : Bool} {m : Mark} : ∀ (pos : List Nat) (c : Cond) (M : Mem), c.isTemporal = false →
    (evalMem dl m pos c M).1 = evaluateSet dl m c ∧
    (∀ q, ¬ pos <+: q → Same M (evalMem dl m pos c M).2 q) ∧
    (evalMem dl m pos c M).2.sat pos = evaluateSet dl m c ∧ Rec (evalMem dl m pos c M).2 dl m pos c
  | pos, .bool b, M, _ => by
    simp only [evalMem, evaluateSet, Rec]
    exact ⟨trivial, fun q hq => setSat_same fun h => hq (h ▸ List.prefix_refl _), setSat_sat .., trivial⟩
  | pos, .dead, M, _ => by
    simp only [evalMem, evaluateSet, Rec]
    exact ⟨trivial, fun q hq => setSat_same fun h => hq (h ▸ List.prefix_refl _), setSat_sat .., setSat_sat ..⟩
  | pos, .cmp op e1 e2, M, _ => by
    simp only [evalMem, evaluateSet, Rec]
    refine ⟨trivial, fun q hq => ?_, setSat_sat .., ?_, ?_⟩
    · refine ((setEv_same (fun h => hq ?_)).trans (setEv_same (fun h => hq ?_))).trans
        (setSat_same fun h => hq (h ▸ List.prefix_refl _))
      · rw [h]; exact pre_app ..
      · rw [h]; exact pre_app ..
    · simp [Mem.setSat, Mem.setEv, evalExpr_eq]
    · simp [Mem.setSat, Mem.setEv, evalExpr_eq]
  | pos, .cc l n, M, _ => by
    simp only [evalMem, evaluateSet, Rec]
    exact ⟨trivial, fun q hq => setSat_same fun h => hq (h ▸ List.prefix_refl _), setSat_sat .., trivial⟩
  | pos, .not c, M, ht => by
    simp only [Cond.isTemporal] at ht
    obtain ⟨h1, h2, h3, h4⟩ := evalMem_spec (pos ++ [0]) c M ht
    simp only [evalMem, evaluateSet, Rec]
    rw [h1]
    refine ⟨rfl, fun q hq => ?_, setSat_sat .., ?_⟩
    · exact (h2 q fun h => hq (pre_of_app h)).trans (setSat_same fun h => hq (h ▸ List.prefix_refl _))
    · refine ⟨?_, rec_congr _ c (fun q hq => setSat_same fun h => not_pre (h ▸ hq)) h4⟩
      rw [← (setSat_same (M := (evalMem dl m (pos ++ [0]) c M).2) (pos := pos)
        (fun h => by have := congrArg List.length h; simp at this)).1]
      exact h3
  | pos, .and cs, M, ht => by
    simp only [Cond.isTemporal] at ht
    obtain ⟨h1, h2, h4⟩ := evalAndMem_spec pos 0 .rTrue cs M ht
    simp only [evalMem, evaluateSet, Rec]
    rw [h1]
    refine ⟨rfl, fun q hq => ?_, setSat_sat .., ?_⟩
    · exact (h2 q fun j _ h => hq (pre_of_app h)).trans (setSat_same fun h => hq (h ▸ List.prefix_refl _))
    · exact recAnd_congr _ 0 cs (fun j _ q hq => setSat_same fun h => not_pre (h ▸ hq)) h4
  | pos, .or cs, M, ht => by
    simp only [Cond.isTemporal] at ht
    obtain ⟨h1, h2, h4⟩ := evalOrMem_spec pos 0 .rFalse cs M ht
    simp only [evalMem, evaluateSet, Rec]
    rw [h1]
    refine ⟨rfl, fun q hq => ?_, setSat_sat .., ?_⟩
    · exact (h2 q fun j _ h => hq (pre_of_app h)).trans (setSat_same fun h => hq (h ▸ List.prefix_refl _))
    · exact recOr_congr _ 0 cs (fun j _ q hq => setSat_same fun h => not_pre (h ▸ hq)) h4
  | _, .EX _, _, ht => by simp [Cond.isTemporal] at ht
  | _, .AX _, _, ht => by simp [Cond.isTemporal] at ht
  | _, .EF _, _, ht => by simp [Cond.isTemporal] at ht
  | _, .AF _, _, ht => by simp [Cond.isTemporal] at ht
  | _, .EG _, _, ht => by simp [Cond.isTemporal] at ht
  | _, .AG _, _, ht => by simp [Cond.isTemporal] at ht
  | _, .EU _ _, _, ht => by simp [Cond.isTemporal] at ht
  | _, .AU _ _, _, ht => by simp [Cond.isTemporal] at ht
  | _, .E _, _, ht => by simp [Cond.isTemporal] at ht
  | _, .A _, _, ht => by simp [Cond.isTemporal] at ht
  | _, .X _, _, ht => by simp [Cond.isTemporal] at ht
  | _, .F _, _, ht => by simp [Cond.isTemporal] at ht
  | _, .G _, _, ht => by simp [Cond.isTemporal] at ht
  | _, .U _ _, _, ht => by simp [Cond.isTemporal] at ht
theorem evalAndMem_spec {dl : Bool} {m : Mark} : ∀ (pos : List Nat) (i : Nat) (res : Res) (cs : List Cond) (M : Mem),
    anyTemporal cs = false →
    (evalAndMem dl m pos i res cs M).1 = evalAndSet dl m res cs ∧
    (∀ q, (∀ j, i ≤ j → ¬ pos ++ [j] <+: q) → Same M (evalAndMem dl m pos i res cs M).2 q) ∧
    RecAnd (evalAndMem dl m pos i res cs M).2 dl m pos i cs
  | pos, i, res, [], M, _ => by
    simp only [evalAndMem, evalAndSet, RecAnd]
    exact ⟨trivial, fun q _ => ⟨rfl, rfl⟩, trivial⟩
  | pos, i, res, c :: cs, M, ht => by
    simp only [anyTemporal, Bool.or_eq_false_iff] at ht
    obtain ⟨h1, h2, h3, h4⟩ := evalMem_spec (pos ++ [i]) c M ht.1
    simp only [evalAndMem, evalAndSet, RecAnd]
    rw [h1]
    by_cases hf : evaluateSet dl m c = .rFalse
    · rw [if_pos hf, if_pos hf]
      exact ⟨rfl, fun q hq => h2 q (hq i (Nat.le_refl _)), h3, h4, fun h => (h hf).elim⟩
    · rw [if_neg hf, if_neg hf]
      obtain ⟨k1, k2, k3⟩ := evalAndMem_spec (dl := dl) (m := m) pos (i + 1)
        (if evaluateSet dl m c = .rUnknown then .rUnknown else res) cs (evalMem dl m (pos ++ [i]) c M).2 ht.2
      have hd : ∀ q, pos ++ [i] <+: q → ∀ j, i + 1 ≤ j → ¬ pos ++ [j] <+: q := fun q hq j hj =>
        pre_disj (by omega) hq
      refine ⟨k1, fun q hq => (h2 q (hq i (Nat.le_refl _))).trans (k2 q fun j hj => hq j (by omega)), ?_, ?_,
        fun _ => k3⟩
      · rw [← (k2 _ (hd _ (List.prefix_refl _))).1]; exact h3
      · exact rec_congr _ c (fun q hq => k2 q (hd q hq)) h4
theorem evalOrMem_spec {dl : Bool} {m : Mark} : ∀ (pos : List Nat) (i : Nat) (res : Res) (cs : List Cond) (M : Mem),
    anyTemporal cs = false →
    (evalOrMem dl m pos i res cs M).1 = evalOrSet dl m res cs ∧
    (∀ q, (∀ j, i ≤ j → ¬ pos ++ [j] <+: q) → Same M (evalOrMem dl m pos i res cs M).2 q) ∧
    RecOr (evalOrMem dl m pos i res cs M).2 dl m pos i cs
  | pos, i, res, [], M, _ => by
    simp only [evalOrMem, evalOrSet, RecOr]
    exact ⟨trivial, fun q _ => ⟨rfl, rfl⟩, trivial⟩
  | pos, i, res, c :: cs, M, ht => by
    simp only [anyTemporal, Bool.or_eq_false_iff] at ht
    obtain ⟨h1, h2, h3, h4⟩ := evalMem_spec (pos ++ [i]) c M ht.1
    simp only [evalOrMem, evalOrSet, RecOr]
    rw [h1]
    by_cases hf : evaluateSet dl m c = .rTrue
    · rw [if_pos hf, if_pos hf]
      exact ⟨rfl, fun q hq => h2 q (hq i (Nat.le_refl _)), h3, h4, fun h => (h hf).elim⟩
    · rw [if_neg hf, if_neg hf]
      obtain ⟨k1, k2, k3⟩ := evalOrMem_spec (dl := dl) (m := m) pos (i + 1)
        (if evaluateSet dl m c = .rUnknown then .rUnknown else res) cs (evalMem dl m (pos ++ [i]) c M).2 ht.2
      have hd : ∀ q, pos ++ [i] <+: q → ∀ j, i + 1 ≤ j → ¬ pos ++ [j] <+: q := fun q hq j hj =>
        pre_disj (by omega) hq
      refine ⟨k1, fun q hq => (h2 q (hq i (Nat.le_refl _))).trans (k2 q fun j hj => hq j (by omega)), ?_, ?_,
        fun _ => k3⟩
      · rw [← (k2 _ (hd _ (List.prefix_refl _))).1]; exact h3
      · exact rec_congr _ c (fun q hq => k2 q (hd q hq)) h4
end

/-! ### Conditions -/

mutual
/-- Specification: a condition without temporal operators whose expressions the visitors treat correctly. -/
def tameCond : Cond → Bool
  | .bool _ => true
  | .dead => true
  | .cmp _ e1 e2 => tame e1 && tame e2
  | .cc _ _ => true
  | .not c => tameCond c
  | .and cs => tameConds cs
  | .or cs => tameConds cs
  | _ => false
def tameConds : List Cond → Bool
  | [] => true
  | c :: cs => tameCond c && tameConds cs
end

/-- Specification: a 32-bit signed number. -/
def Int32 (v : Int) : Prop := -2147483648 ≤ v ∧ v < 2147483648

mutual
/-- Specification: the operands of the comparisons are 32-bit signed numbers in marking `m`. -/
def Fit32 (m : Mark) : Cond → Prop
  | .cmp _ e1 e2 => Int32 (e1.val m) ∧ Int32 (e2.val m)
  | .not c => Fit32 m c
  | .and cs => Fits32 m cs
  | .or cs => Fits32 m cs
  | _ => True
def Fits32 (m : Mark) : List Cond → Prop
  | [] => True
  | c :: cs => Fit32 m c ∧ Fits32 m cs
end

theorem toInt32_eq {v : Int} (h : Int32 v) : toInt32 v = v := by
  unfold toInt32
  obtain ⟨h1, h2⟩ := h
  omega

mutual
theorem tame_nontemporal : ∀ (c : Cond), tameCond c = true → c.isTemporal = false
  | .bool _, _ => by simp [Cond.isTemporal]
  | .dead, _ => by simp [Cond.isTemporal]
  | .cmp _ _ _, _ => by simp [Cond.isTemporal]
  | .cc _ _, _ => by simp [Cond.isTemporal]
  | .not c, h => by simp only [tameCond] at h; simp only [Cond.isTemporal]; exact tame_nontemporal c h
  | .and cs, h => by simp only [tameCond] at h; simp only [Cond.isTemporal]; exact tames_nontemporal cs h
  | .or cs, h => by simp only [tameCond] at h; simp only [Cond.isTemporal]; exact tames_nontemporal cs h
  | .EX _, h => by simp [tameCond] at h
  | .AX _, h => by simp [tameCond] at h
  | .EF _, h => by simp [tameCond] at h
  | .AF _, h => by simp [tameCond] at h
  | .EG _, h => by simp [tameCond] at h
  | .AG _, h => by simp [tameCond] at h
  | .EU _ _, h => by simp [tameCond] at h
  | .AU _ _, h => by simp [tameCond] at h
  | .E _, h => by simp [tameCond] at h
  | .A _, h => by simp [tameCond] at h
  | .X _, h => by simp [tameCond] at h
  | .F _, h => by simp [tameCond] at h
  | .G _, h => by simp [tameCond] at h
  | .U _ _, h => by simp [tameCond] at h
theorem tames_nontemporal : ∀ (cs : List Cond), tameConds cs = true → anyTemporal cs = false
  | [], _ => rfl
  | c :: cs, h => by
    simp only [tameConds, Bool.and_eq_true] at h
    simp only [anyTemporal, tame_nontemporal c h.1, tames_nontemporal cs h.2, Bool.or_self]
end

theorem ofBool_eq {a b : Bool} : Res.ofBool a = Res.ofBool b ↔ a = b := by cases a <;> cases b <;> simp [Res.ofBool]

theorem ofBool_iff {a b : Bool} {P : Prop} (h : a = true ↔ P) : Res.ofBool a = Res.ofBool b ↔ (P ↔ b = true) := by
  rw [ofBool_eq, ← h]; cases a <;> cases b <;> simp

theorem neg_ofBool {r : Res} {b : Bool} : r.neg = .ofBool b ↔ r = .ofBool (!b) := by
  cases r <;> cases b <;> simp [Res.neg, Res.ofBool]

/-- Results of non-temporal conditions are definite. -/
theorem evaluateSet_definite (dl : Bool) (m : Mark) (c : Cond) (h : c.isTemporal = false) :
    ∃ b, evaluateSet dl m c = .ofBool b := by
  induction c using Cond.ind with
  | bool b => exact ⟨b, rfl⟩
  | dead => exact ⟨dl, rfl⟩
  | cmp op e1 e2 => exact ⟨_, rfl⟩
  | cc l n => exact ⟨_, rfl⟩
  | not c ih =>
    obtain ⟨b, hb⟩ := ih (by simpa [Cond.isTemporal] using h)
    exact ⟨!b, by simp only [evaluateSet, hb]; exact neg_ofBool.2 (by simp)⟩
  | and cs ih =>
    simp only [Cond.isTemporal] at h
    have hc := fun c hc => ih c hc (isTemporal_any cs h c hc)
    simp only [evaluateSet, evalAndSet_eq]
    cases hr : andRes .rTrue (cs.map (evaluateSet dl m)) with
    | rTrue => exact ⟨true, rfl⟩
    | rFalse => exact ⟨false, rfl⟩
    | rUnknown =>
      exfalso
      have h1 : ¬ Res.rFalse ∈ cs.map (evaluateSet dl m) := fun hm => by
        rw [(andRes_false _ _ (by simp)).2 hm] at hr; cases hr
      have : andRes .rTrue (cs.map (evaluateSet dl m)) = .rTrue := by
        rw [andRes_true]
        refine ⟨rfl, fun x hx => ?_⟩
        obtain ⟨c, hcm, rfl⟩ := List.mem_map.1 hx
        obtain ⟨b, hb⟩ := hc c hcm
        cases b
        · rw [hb] at hx; exact (h1 hx).elim
        · exact hb
      rw [this] at hr; cases hr
  | or cs ih =>
    simp only [Cond.isTemporal] at h
    have hc := fun c hc => ih c hc (isTemporal_any cs h c hc)
    simp only [evaluateSet, evalOrSet_eq]
    cases hr : orRes .rFalse (cs.map (evaluateSet dl m)) with
    | rTrue => exact ⟨true, rfl⟩
    | rFalse => exact ⟨false, rfl⟩
    | rUnknown =>
      exfalso
      have h1 : ¬ Res.rTrue ∈ cs.map (evaluateSet dl m) := fun hm => by
        rw [(orRes_true _ _ (by simp)).2 hm] at hr; cases hr
      have : orRes .rFalse (cs.map (evaluateSet dl m)) = .rFalse := by
        rw [orRes_false]
        refine ⟨rfl, fun x hx => ?_⟩
        obtain ⟨c, hcm, rfl⟩ := List.mem_map.1 hx
        obtain ⟨b, hb⟩ := hc c hcm
        cases b
        · exact hb
        · rw [hb] at hx; exact (h1 hx).elim
      rw [this] at hr; cases hr
  | EX _ _ => simp [Cond.isTemporal] at h
  | AX _ _ => simp [Cond.isTemporal] at h
  | EF _ _ => simp [Cond.isTemporal] at h
  | AF _ _ => simp [Cond.isTemporal] at h
  | EG _ _ => simp [Cond.isTemporal] at h
  | AG _ _ => simp [Cond.isTemporal] at h
  | EU _ _ _ _ => simp [Cond.isTemporal] at h
  | AU _ _ _ _ => simp [Cond.isTemporal] at h
  | E _ _ => simp [Cond.isTemporal] at h
  | A _ _ => simp [Cond.isTemporal] at h
  | X _ _ => simp [Cond.isTemporal] at h
  | F _ _ => simp [Cond.isTemporal] at h
  | G _ _ => simp [Cond.isTemporal] at h
  | U _ _ _ _ => simp [Cond.isTemporal] at h

namespace Cx
variable {C : Cx} {M : Mem}

mutual
theorem visit_ext (hen : EnOK C.N C.m C.en) : ∀ (neg : Bool) (pos : List Nat) (c : Cond) (s : Stub),
    ExtC C s (C.visit M neg pos c s)
  | _, _, .bool _, s => by simp only [visit]; exact .refl s
  | _, pos, .dead, s => by simp only [visit]; exact visitDead_ext hen M pos s
  | _, _, .cmp _ _ _, s => by simp only [visit]; exact visitCmp_ext hen ..
  | _, _, .cc _ _, s => by simp only [visit]; exact visitCC_ext hen ..
  | _, _, .not c, s => by simp only [visit]; exact visit_ext hen _ _ c s
  | neg, pos, .and cs, s => by
    simp only [visit]; split
    · exact visitUnsat_ext hen _ _ _ cs s
    · exact visitAll_ext hen _ _ _ cs s
  | neg, pos, .or cs, s => by
    simp only [visit]; split
    · exact visitAll_ext hen _ _ _ cs s
    · exact visitSat_ext hen _ _ _ cs s
  | _, _, .EX c, s => by simp only [visit]; exact visit_ext hen _ _ c s
  | _, _, .AX c, s => by simp only [visit]; exact visit_ext hen _ _ c s
  | _, _, .EF c, s => by simp only [visit]; exact visit_ext hen _ _ c s
  | _, _, .AF c, s => by simp only [visit]; exact visit_ext hen _ _ c s
  | _, _, .EG c, s => by simp only [visit]; exact visit_ext hen _ _ c s
  | _, _, .AG c, s => by simp only [visit]; exact visit_ext hen _ _ c s
  | _, _, .E c, s => by simp only [visit]; exact visit_ext hen _ _ c s
  | _, _, .A c, s => by simp only [visit]; exact visit_ext hen _ _ c s
  | _, _, .X c, s => by simp only [visit]; exact visit_ext hen _ _ c s
  | _, _, .F c, s => by simp only [visit]; exact visit_ext hen _ _ c s
  | _, _, .G c, s => by simp only [visit]; exact visit_ext hen _ _ c s
  | _, _, .U c d, s => by
    simp only [visit]; exact ((visit_ext hen _ _ c s).trans (visit_ext hen _ _ c _)).trans (visit_ext hen _ _ d _)
  | _, _, .EU c d, s => by
    simp only [visit]; exact ((visit_ext hen _ _ c s).trans (visit_ext hen _ _ c _)).trans (visit_ext hen _ _ d _)
  | _, _, .AU c d, s => by
    simp only [visit]; exact ((visit_ext hen _ _ c s).trans (visit_ext hen _ _ c _)).trans (visit_ext hen _ _ d _)
theorem visitUnsat_ext (hen : EnOK C.N C.m C.en) : ∀ (neg : Bool) (pos : List Nat) (i : Nat) (cs : List Cond)
    (s : Stub), ExtC C s (C.visitUnsat M neg pos i cs s)
  | _, _, _, [], s => by simp only [visitUnsat]; exact .refl s
  | neg, pos, i, c :: cs, s => by
    simp only [visitUnsat]; split
    · exact visit_ext hen _ _ c s
    · exact visitUnsat_ext hen _ _ _ cs s
theorem visitSat_ext (hen : EnOK C.N C.m C.en) : ∀ (neg : Bool) (pos : List Nat) (i : Nat) (cs : List Cond)
    (s : Stub), ExtC C s (C.visitSat M neg pos i cs s)
  | _, _, _, [], s => by simp only [visitSat]; exact .refl s
  | neg, pos, i, c :: cs, s => by
    simp only [visitSat]; split
    · exact visit_ext hen _ _ c s
    · exact visitSat_ext hen _ _ _ cs s
theorem visitAll_ext (hen : EnOK C.N C.m C.en) : ∀ (neg : Bool) (pos : List Nat) (i : Nat) (cs : List Cond)
    (s : Stub), ExtC C s (C.visitAll M neg pos i cs s)
  | _, _, _, [], s => by simp only [visitAll]; exact .refl s
  | neg, pos, i, c :: cs, s => by
    simp only [visitAll]
    exact (visit_ext hen _ _ c s).trans (visitAll_ext hen _ _ _ cs _)
end

/-- What is known when the visitor is used. -/
structure Here (C : Cx) (M' : Nat → Nat) (dl' : Bool) : Prop where
  en : EnOK C.N C.m C.en
  some : ∃ t, t < C.N.ntransitions ∧ C.en t = true
  w : ∀ p, C.m p < W32
  w' : ∀ p, M' p < W32
  dl' : ∀ t, t < C.N.ntransitions → C.N.checkPreset M' t = true → dl' = false

variable {M' : Nat → Nat} {dl' : Bool}

theorem visitDead_ok (h : Here C M' dl') {pos : List Nat} (hr : M.sat pos = .ofBool false) {s : Stub}
    (hK : Keeps C.m M' (C.visitDead M pos s)) : dl' = false := by
  unfold visitDead at hK
  rw [if_pos (by rw [hr]; simp [Res.ofBool])] at hK
  cases hl : C.leastDependent with
  | none =>
    obtain ⟨t, ht, he⟩ := h.some
    rw [leastDependent_none hl t ht] at he
    cases he
  | some t =>
    rw [hl] at hK
    obtain ⟨ht, he⟩ := leastDependent_some hl
    exact h.dl' t ht (postPreset_ok h.en (by rw [← h.en t ht]; exact he) hK)

mutual
/-- After transitions outside the set, the condition still has the value it had. -/
theorem visit_ok (h : Here C M' dl') : ∀ (neg : Bool) (pos : List Nat) (c : Cond) (s : Stub), tameCond c = true →
    Fit32 C.m c → Rec M false C.m pos c → evaluateSet false C.m c = .ofBool neg →
    Keeps C.m M' (C.visit M neg pos c s) → evaluateSet dl' M' c = .ofBool neg
  | _, _, .bool _, _, _, _, _, hv, _ => hv
  | neg, pos, .dead, s, _, _, hr, hv, hK => by
    simp only [visit, Rec, evaluateSet] at *
    rw [ofBool_eq] at hv ⊢
    rw [visitDead_ok h hr hK]; exact hv
  | neg, pos, .cmp op e1 e2, s, ht, hf, hr, hv, hK => by
    simp only [visit, Rec, evaluateSet, tameCond, Fit32, Bool.and_eq_true] at *
    rw [hr.1, hr.2, toInt32_eq hf.1, toInt32_eq hf.2] at hK
    rw [ofBool_iff (compare_iff ..)] at hv ⊢
    exact visitCmp_ok h.en ht.1 ht.2 neg hv hK
  | neg, pos, .cc l n, s, ht, hf, hr, hv, hK => by
    simp only [visit, evaluateSet] at *
    have key : ∀ m : Mark, Res.ofBool (n ^^ evalCons m l) = .ofBool neg ↔ ((∀ c ∈ l, c.holds m) ↔ (neg != n) = true) := by
      intro m
      rw [← evalCons_iff, ofBool_eq]
      cases n <;> cases neg <;> cases evalCons m l <;> simp
    rw [key] at hv ⊢
    exact visitCC_ok h.en _ l s h.w h.w' hv hK
  | neg, pos, .not c, s, ht, hf, hr, hv, hK => by
    simp only [visit, Rec, evaluateSet, tameCond, Fit32] at *
    rw [neg_ofBool] at hv ⊢
    exact visit_ok h _ _ c s ht hf hr.2 hv hK
  | neg, pos, .and cs, s, ht, hf, hr, hv, hK => by
    simp only [visit, Rec, evaluateSet, tameCond, Fit32] at *
    rw [evalAndSet_eq] at hv ⊢
    cases neg with
    | false =>
      simp only [Bool.not_false, if_true] at hK
      simp only [Res.ofBool, Bool.false_eq_true, if_false] at hv ⊢
      rw [andRes_false _ _ (by simp)] at hv ⊢
      exact visitUnsat_ok h _ 0 cs s ht hf hr hv hK
    | true =>
      simp only [Bool.not_true, Bool.false_eq_true, if_false] at hK
      simp only [Res.ofBool, if_true] at hv ⊢
      rw [andRes_true] at hv ⊢
      exact ⟨rfl, visitAll_okAnd h _ 0 cs s ht hf hr hv.2 hK⟩
  | neg, pos, .or cs, s, ht, hf, hr, hv, hK => by
    simp only [visit, Rec, evaluateSet, tameCond, Fit32] at *
    rw [evalOrSet_eq] at hv ⊢
    cases neg with
    | true =>
      simp only [Bool.not_true, Bool.false_eq_true, if_false] at hK
      simp only [Res.ofBool, if_true] at hv ⊢
      rw [orRes_true _ _ (by simp)] at hv ⊢
      exact visitSat_ok h _ 0 cs s ht hf hr hv hK
    | false =>
      simp only [Bool.not_false, if_true] at hK
      simp only [Res.ofBool, Bool.false_eq_true, if_false] at hv ⊢
      rw [orRes_false] at hv ⊢
      exact ⟨rfl, visitAll_okOr h _ 0 cs s ht hf hr hv.2 hK⟩
  | _, _, .EX _, _, ht, _, _, _, _ => by simp [tameCond] at ht
  | _, _, .AX _, _, ht, _, _, _, _ => by simp [tameCond] at ht
  | _, _, .EF _, _, ht, _, _, _, _ => by simp [tameCond] at ht
  | _, _, .AF _, _, ht, _, _, _, _ => by simp [tameCond] at ht
  | _, _, .EG _, _, ht, _, _, _, _ => by simp [tameCond] at ht
  | _, _, .AG _, _, ht, _, _, _, _ => by simp [tameCond] at ht
  | _, _, .EU _ _, _, ht, _, _, _, _ => by simp [tameCond] at ht
  | _, _, .AU _ _, _, ht, _, _, _, _ => by simp [tameCond] at ht
  | _, _, .E _, _, ht, _, _, _, _ => by simp [tameCond] at ht
  | _, _, .A _, _, ht, _, _, _, _ => by simp [tameCond] at ht
  | _, _, .X _, _, ht, _, _, _, _ => by simp [tameCond] at ht
  | _, _, .F _, _, ht, _, _, _, _ => by simp [tameCond] at ht
  | _, _, .G _, _, ht, _, _, _, _ => by simp [tameCond] at ht
  | _, _, .U _ _, _, ht, _, _, _, _ => by simp [tameCond] at ht
theorem visitUnsat_ok (h : Here C M' dl') : ∀ (pos : List Nat) (i : Nat) (cs : List Cond) (s : Stub),
    tameConds cs = true → Fits32 C.m cs → RecAnd M false C.m pos i cs →
    Res.rFalse ∈ cs.map (evaluateSet false C.m) →
    Keeps C.m M' (C.visitUnsat M false pos i cs s) → Res.rFalse ∈ cs.map (evaluateSet dl' M')
  | _, _, [], _, _, _, _, hv, _ => by simp at hv
  | pos, i, c :: cs, s, ht, hf, hr, hv, hK => by
    simp only [tameConds, Fits32, RecAnd, Bool.and_eq_true, visitUnsat] at *
    rw [hr.1] at hK
    obtain ⟨b, hb⟩ := evaluateSet_definite false C.m c (tame_nontemporal c ht.1)
    cases b with
    | false =>
      rw [if_pos (by rw [hb]; simp [Res.ofBool])] at hK
      have := visit_ok h false _ c s ht.1 hf.1 hr.2.1 hb hK
      rw [List.map_cons, this]
      exact List.mem_cons_self ..
    | true =>
      rw [if_neg (by rw [hb]; simp [Res.ofBool])] at hK
      rw [List.map_cons, hb] at hv
      rw [List.map_cons]
      refine List.mem_cons_of_mem _ (visitUnsat_ok h _ _ cs s ht.2 hf.2 (hr.2.2 (by rw [hb]; simp [Res.ofBool])) ?_ hK)
      simpa [Res.ofBool] using hv
theorem visitSat_ok (h : Here C M' dl') : ∀ (pos : List Nat) (i : Nat) (cs : List Cond) (s : Stub),
    tameConds cs = true → Fits32 C.m cs → RecOr M false C.m pos i cs →
    Res.rTrue ∈ cs.map (evaluateSet false C.m) →
    Keeps C.m M' (C.visitSat M true pos i cs s) → Res.rTrue ∈ cs.map (evaluateSet dl' M')
  | _, _, [], _, _, _, _, hv, _ => by simp at hv
  | pos, i, c :: cs, s, ht, hf, hr, hv, hK => by
    simp only [tameConds, Fits32, RecOr, Bool.and_eq_true, visitSat] at *
    rw [hr.1] at hK
    obtain ⟨b, hb⟩ := evaluateSet_definite false C.m c (tame_nontemporal c ht.1)
    cases b with
    | true =>
      rw [if_pos (by rw [hb]; simp [Res.ofBool])] at hK
      have := visit_ok h true _ c s ht.1 hf.1 hr.2.1 hb hK
      rw [List.map_cons, this]
      exact List.mem_cons_self ..
    | false =>
      rw [if_neg (by rw [hb]; simp [Res.ofBool])] at hK
      rw [List.map_cons, hb] at hv
      rw [List.map_cons]
      refine List.mem_cons_of_mem _ (visitSat_ok h _ _ cs s ht.2 hf.2 (hr.2.2 (by rw [hb]; simp [Res.ofBool])) ?_ hK)
      simpa [Res.ofBool] using hv
theorem visitAll_okAnd (h : Here C M' dl') : ∀ (pos : List Nat) (i : Nat) (cs : List Cond) (s : Stub),
    tameConds cs = true → Fits32 C.m cs → RecAnd M false C.m pos i cs →
    (∀ x ∈ cs.map (evaluateSet false C.m), x = .rTrue) →
    Keeps C.m M' (C.visitAll M true pos i cs s) → ∀ x ∈ cs.map (evaluateSet dl' M'), x = .rTrue
  | _, _, [], _, _, _, _, _, _ => by simp
  | pos, i, c :: cs, s, ht, hf, hr, hv, hK => by
    simp only [tameConds, Fits32, RecAnd, Bool.and_eq_true, visitAll, List.map_cons, List.forall_mem_cons] at *
    refine ⟨visit_ok h true _ c s ht.1 hf.1 hr.2.1 hv.1 (hK.mono (visitAll_ext h.en _ _ _ cs _).le), ?_⟩
    exact visitAll_okAnd h _ _ cs _ ht.2 hf.2 (hr.2.2 (by rw [hv.1]; simp)) hv.2 hK
theorem visitAll_okOr (h : Here C M' dl') : ∀ (pos : List Nat) (i : Nat) (cs : List Cond) (s : Stub),
    tameConds cs = true → Fits32 C.m cs → RecOr M false C.m pos i cs →
    (∀ x ∈ cs.map (evaluateSet false C.m), x = .rFalse) →
    Keeps C.m M' (C.visitAll M false pos i cs s) → ∀ x ∈ cs.map (evaluateSet dl' M'), x = .rFalse
  | _, _, [], _, _, _, _, _, _ => by simp
  | pos, i, c :: cs, s, ht, hf, hr, hv, hK => by
    simp only [tameConds, Fits32, RecOr, Bool.and_eq_true, visitAll, List.map_cons, List.forall_mem_cons] at *
    refine ⟨visit_ok h false _ c s ht.1 hf.1 hr.2.1 hv.1 (hK.mono (visitAll_ext h.en _ _ _ cs _).le), ?_⟩
    exact visitAll_okOr h _ _ cs _ ht.2 hf.2 (hr.2.2 (by rw [hv.1]; simp)) hv.2 hK
end

end Cx
end Stubborn
end Verif
