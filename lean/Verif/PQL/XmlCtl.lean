import Verif.PQL.XmlFile
import Verif.PQL.CtlVisit

/-!
# What is read back from XML passes the CTL check
-/

namespace Verif
namespace Xml
open PQL Binary Ctl

theorem tryMergeL_len (orp : Bool) (cs : List Cond)
    (ih : ∀ c ∈ cs, ∀ conds, conds.length ≤ (tryMerge orp false conds c).length ∧
      (plain c = true → conds.length < (tryMerge orp false conds c).length)) (conds : List Cond) :
    conds.length ≤ (tryMergeL orp false conds cs).length ∧
      (cs ≠ [] → (∀ c ∈ cs, plain c = true) → conds.length < (tryMergeL orp false conds cs).length) := by
  induction cs generalizing conds with
  | nil => exact ⟨Nat.le_refl _, fun h => absurd rfl h⟩
  | cons c cs ihl =>
    have h1 := ih c (List.mem_cons_self ..) conds
    have h2 := (ihl (fun x hx => ih x (List.mem_cons_of_mem _ hx)) (tryMerge orp false conds c)).1
    rw [tryMergeL]
    exact ⟨Nat.le_trans h1.1 h2, fun _ h => Nat.lt_of_lt_of_le (h1.2 (h c (List.mem_cons_self ..))) h2⟩

theorem tryMerge_len (orp : Bool) (c : Cond) (conds : List Cond) :
    conds.length ≤ (tryMerge orp false conds c).length ∧
      (plain c = true → conds.length < (tryMerge orp false conds c).length) := by
  have happ : ∀ (conds : List Cond) (d : Cond), conds.length ≤ (conds ++ [d]).length ∧
      (plain d = true → conds.length < (conds ++ [d]).length) := by
    intro conds d
    simp
  have hl : ∀ cs : List Cond, (!cs.isEmpty && plain.all cs) = true → cs ≠ [] ∧ ∀ c ∈ cs, plain c = true := by
    intro cs h
    simp only [Bool.and_eq_true, Bool.not_eq_true', List.isEmpty_eq_false_iff] at h
    exact ⟨h.1, (plain_all cs).1 h.2⟩
  induction c using Cond.ind generalizing conds with
  | and cs ih =>
    simp only [tryMerge]
    cases orp
    · simp only [Bool.false_eq_true, if_false]
      have := tryMergeL_len false cs (fun c hc conds => ih c hc conds) conds
      exact ⟨this.1, fun h => this.2 (hl cs h).1 (hl cs h).2⟩
    · exact happ conds (.and cs)
  | or cs ih =>
    simp only [tryMerge]
    cases orp
    · exact happ conds (.or cs)
    · simp only [if_true]
      have := tryMergeL_len true cs (fun c hc conds => ih c hc conds) conds
      exact ⟨this.1, fun h => this.2 (hl cs h).1 (hl cs h).2⟩
  | bool b => exact happ conds (.bool b)
  | dead => exact happ conds .dead
  | cmp op e1 e2 => exact happ conds (.cmp op e1 e2)
  | cc l n => exact happ conds (.cc l n)
  | not c ih => exact happ conds (.not c)
  | EX c ih => exact happ conds (.EX c)
  | AX c ih => exact happ conds (.AX c)
  | EF c ih => exact happ conds (.EF c)
  | AF c ih => exact happ conds (.AF c)
  | EG c ih => exact happ conds (.EG c)
  | AG c ih => exact happ conds (.AG c)
  | EU c d _ _ => exact happ conds (.EU c d)
  | AU c d _ _ => exact happ conds (.AU c d)
  | E c ih => exact happ conds (.E c)
  | A c ih => exact happ conds (.A c)
  | X c ih => exact happ conds (.X c)
  | F c ih => exact happ conds (.F c)
  | G c ih => exact happ conds (.G c)
  | U c d _ _ => exact happ conds (.U c d)

theorem logOperands_ne (orp : Bool) (cs : List Cond) (hne : cs ≠ []) (h : ∀ c ∈ cs, plain c = true) :
    logOperands orp cs ≠ [] := by
  have h1 := (tryMergeL_len orp cs (fun c _ conds => tryMerge_len orp c conds) []).2 hne h
  obtain ⟨x, hx⟩ := List.exists_mem_of_length_pos (Nat.lt_of_le_of_lt (Nat.zero_le _) h1)
  intro h0
  have : x ∈ logOperands orp cs := by rw [logOperands, mem_postMerge]; exact hx
  rw [h0] at this
  cases this

theorem plain_log {cs : List Cond} : plain (.and cs) = true ↔ cs ≠ [] ∧ ∀ c ∈ cs, plain c = true := by
  simp [plain, plain_all]

theorem plain_log' {cs : List Cond} : plain (.or cs) = true ↔ cs ≠ [] ∧ ∀ c ∈ cs, plain c = true := by
  simp [plain, plain_all]

theorem reLog_plain (orp : Bool) {cs : List Cond} (h : ∀ c ∈ cs, plain c = true) : plain (reLog orp cs) = true := by
  match cs with
  | [] => rfl
  | [c] => exact h c (by simp)
  | c :: d :: cs =>
    have hm := logOperands_mem (P := fun c => plain c = true) (fun cs h => (plain_log.1 h).2)
      (fun cs h => (plain_log'.1 h).2) orp (c :: d :: cs) h
    have hn := logOperands_ne orp (c :: d :: cs) (by simp) h
    rw [reLog_many]
    cases orp
    · exact plain_log.2 ⟨hn, hm⟩
    · exact plain_log'.2 ⟨hn, hm⟩

/-- Nothing that is read back confuses the check. -/
theorem reC_plain (c : Cond) : plain (reC c) = true := by
  have hl : ∀ cs : List Cond, (∀ c ∈ cs, plain (reC c) = true) → ∀ x ∈ cs.map reC, plain x = true := by
    intro cs h x hx
    obtain ⟨c, hc, rfl⟩ := List.mem_map.1 hx
    exact h c hc
  have hconj : ∀ l, plain (reConj l) = true := fun l => reLog_plain false fun x hx => by
    obtain ⟨c, -, hx⟩ := List.mem_flatMap.1 hx
    unfold reCons at hx
    rcases List.mem_append.1 hx with h | h
    · split at h
      · rw [List.mem_singleton.1 h]; rfl
      · cases h
    · split at h
      · rw [List.mem_singleton.1 h]; rfl
      · cases h
  induction c using Cond.ind with
  | bool b | dead | cmp op e1 e2 => rfl
  | cc l n => cases n <;> exact hconj l
  | and cs ih => simp only [reC, reCs_eq]; exact reLog_plain _ (hl cs ih)
  | or cs ih => simp only [reC, reCs_eq]; exact reLog_plain _ (hl cs ih)
  | not c ih | EX c ih | AX c ih | EF c ih | AF c ih | EG c ih | AG c ih => exact ih
  | EU c d ihc ihd | AU c d ihc ihd | U c d ihc ihd => simp only [reC, plain, ihc, ihd, Bool.and_true]
  | E c ih | A c ih | X c ih | F c ih | G c ih => exact ih

end Xml
end Verif
