import Verif.LTL.SpotChain

/-!
# The rewriting of LTL formulas ends

The visitor of src/PetriEngine/PQL/PushNegation.cpp calls itself on formulas that it has just built.  A weight of formulas that no visit
increases shows that this ends for formulas of LTL.
-/

namespace Verif
namespace LTL
open PQL

mutual
/-- The weight.  Negations weigh nothing, and `F` doubles, so that `F a ∨ F b` weighs less than `F (a ∨ b)`. -/
def wt : Cond → Nat
  | .bool _ | .dead | .cmp _ _ _ | .cc _ _ => 1
  | .not c => wt c
  | .and cs | .or cs => 1 + wts cs
  | .X c => 1 + wt c
  | .F c | .G c => 2 * wt c
  | .U c d => 1 + wt c + wt d
  | _ => 1
def wts : List Cond → Nat
  | [] => 0
  | c :: cs => wt c + wts cs
end

/-- what decreases when the weight does not -/
def lead : Cond → Nat
  | .not c => lead c + 1
  | .G _ => 1
  | _ => 0

theorem wt_pos (c : Cond) : 1 ≤ wt c := by
  induction c using Cond.ind <;> simp only [wt] <;> omega

theorem wts_append (a b : List Cond) : wts (a ++ b) = wts a + wts b := by
  induction a with
  | nil => simp [wts]
  | cons c a ih => simp only [List.cons_append, wts, ih]; omega

theorem wt_mem {c : Cond} {cs : List Cond} (h : c ∈ cs) : wt c ≤ wts cs := by
  induction cs with
  | nil => cases h
  | cons d cs ih =>
    rcases List.mem_cons.1 h with rfl | h
    · simp only [wts]; omega
    · have := ih h; simp only [wts]; omega

theorem wts_filter (p : Cond → Bool) (cs : List Cond) : wts (cs.filter p) + wts (cs.filter fun c => !p c) = wts cs := by
  induction cs with
  | nil => rfl
  | cons c cs ih => by_cases h : p c = true <;> simp [h, wts] <;> omega

theorem wts_F (cs : List Cond) : wts (cs.map .F) = 2 * wts cs := by
  induction cs with
  | nil => rfl
  | cons c cs ih => simp only [List.map_cons, wts, wt, ih]; omega

theorem tryMergeCC_wt (orp : Bool) (conds : List Cond) (l : List Cons) (n : Bool) : wts (tryMergeCC orp conds l n) ≤ wts conds + 1 := by
  unfold tryMergeCC
  split
  · split
    · split
      · simp only [wts, wt]; omega
      · split <;> simp only [wts, wt] <;> omega
    · simp only [wts, wt]; omega
  · simp only [wts_append, wts, wt]; omega

theorem tryMerge_wt (orp aggr : Bool) (c : Cond) : ∀ conds : List Cond, wts (tryMerge orp aggr conds c) ≤ wts conds + wt c := by
  have happ : ∀ c (conds : List Cond), wts (conds ++ [c]) ≤ wts conds + wt c := by
    intro c conds
    simp only [wts_append, wts]; omega
  have hlist : ∀ cs : List Cond, (∀ c ∈ cs, ∀ conds : List Cond, wts (tryMerge orp aggr conds c) ≤ wts conds + wt c) →
      ∀ conds : List Cond, wts (tryMergeL orp aggr conds cs) ≤ wts conds + wts cs := by
    intro cs
    induction cs with
    | nil => intro _ conds; simp [tryMergeL, wts]
    | cons c cs ih =>
      intro h conds
      have h1 := ih (fun d hd => h d (by simp [hd])) (tryMerge orp aggr conds c)
      have h2 := h c (by simp) conds
      simp only [tryMergeL, wts]
      omega
  induction c using Cond.ind with
  | and cs ih =>
    intro conds
    simp only [tryMerge]
    split
    · exact happ _ _
    · have := hlist cs ih conds
      simp only [wt]; omega
  | or cs ih =>
    intro conds
    simp only [tryMerge]
    split
    · have := hlist cs ih conds
      simp only [wt]; omega
    · exact happ _ _
  | cmp op e1 e2 =>
    intro conds
    simp only [tryMerge]
    split
    · exact happ _ _
    · split
      · exact happ _ _
      · split
        · exact happ _ _
        · exact tryMergeCC_wt _ _ _ _
  | cc l n =>
    intro conds
    simp only [tryMerge]
    split
    · exact happ _ _
    · exact tryMergeCC_wt _ _ _ _
  | _ => intro conds; exact happ _ _

theorem tryMergeL_wt (orp aggr : Bool) (cs : List Cond) : ∀ conds : List Cond, wts (tryMergeL orp aggr conds cs) ≤ wts conds + wts cs := by
  induction cs with
  | nil => intro conds; simp [tryMergeL, wts]
  | cons c cs ih =>
    intro conds
    have h1 := ih (tryMerge orp aggr conds c)
    have h2 := tryMerge_wt orp aggr c conds
    simp only [tryMergeL, wts]
    omega

theorem makeLog_wt (orp : Bool) (cs : List Cond) : wt (makeLog orp cs) ≤ 1 + wts cs := by
  have h0 : wts (logOperands orp (tryMergeL orp true [] cs)) ≤ wts cs := by
    have h1 := tryMergeL_wt orp true cs []
    have h2 := tryMergeL_wt orp false (tryMergeL orp true [] cs) []
    have h3 := wts_filter (fun c => !c.isTemporal) (tryMergeL orp false [] (tryMergeL orp true [] cs))
    simp only [Bool.not_not] at h3
    simp only [logOperands, postMerge, wts_append]
    simp only [wts] at h1 h2
    omega
  unfold makeLog
  split
  · simp [wt, wts]
  · simp only [wts]; omega
  · simp only
    split
    · rename_i c hc
      rw [hc] at h0
      simp only [wts] at h0 ⊢
      omega
    · simp only [wt]; omega
    · unfold logNode
      split <;> simp only [wt] <;> omega

theorem rw_wt (K : RwCtx) (nested : Bool) (r : Cond) : wt (K.rw nested r) ≤ wt r := by
  unfold RwCtx.rw
  split
  · split
    · exact Nat.le_refl _
    · exact wt_pos r
    · exact wt_pos r
  · exact Nat.le_refl _

theorem negIf_wt (neg : Bool) (c : Cond) : wt (negIf neg c) = wt c := by
  unfold negIf
  split <;> simp only [wt]

theorem pushCmp_wt (neg : Bool) (op : Cmp) (e1 e2 : Expr) : wt (pushCmp neg op e1 e2) = 1 := by
  have hz : ∀ a b e c, pushEqualZero a b e = some c → wt c = 1 := by
    intro a b e c h
    unfold pushEqualZero at h
    simp only at h
    split at h
    · rename_i d hd
      simp only [Option.some.injEq] at h
      subst h
      split at hd
      · simp only [Option.some.injEq] at hd; subst hd; cases e <;> simp [wt]
      · simp at hd
    · split at h
      · simp only [Option.some.injEq] at h; subst h; cases e <;> simp [wt]
      · simp at h
  have hg : ∀ (o : Option Cond) d, (∀ c, o = some c → wt c = 1) → wt d = 1 → wt (o.getD d) = 1 := by
    intro o d h hd
    cases o with
    | none => exact hd
    | some c => exact h c rfl
  unfold pushCmp
  simp only
  split
  · simp only [wt]
  · cases op <;> simp only
    · split <;> simp only [wt]
    · split <;> simp only [wt]
    · exact hg _ _ (hz _ _ _) (by simp only [wt])
    · exact hg _ _ (hz _ _ _) (by simp only [wt])

theorem andResult_wt (ns : List Cond) (h : ∀ n ∈ ns, PathF n = true) : wt (andResult ns) ≤ 1 + wts ns := by
  have h1 : ns.filterMap nefArg = [] := by
    rw [List.filterMap_eq_nil_iff]
    intro n hn
    have := h n hn
    unfold nefArg
    split
    · cases this
    · rfl
  have h2 := wts_filter (fun c => (nefArg c).isNone) ns
  unfold andResult
  rw [h1]
  generalize ns.filter (fun c => (nefArg c).isNone) = b at *
  match b with
  | [] => simp only [wt]; omega
  | [c] => simp only [wts] at h2 ⊢; omega
  | c :: d :: b =>
    have := makeLog_wt false (c :: d :: b)
    simp only [makeAnd]
    omega

theorem orResult_wt (ns : List Cond) (h : ∀ n ∈ ns, PathF n = true) : wt (orResult ns) ≤ 1 + wts ns := by
  have h1 : ns.filterMap efArg = [] := by
    rw [List.filterMap_eq_nil_iff]
    intro n hn
    have := h n hn
    unfold efArg
    split
    · cases this
    · rfl
  have h2 := wts_filter (fun c => (efArg c).isNone) ns
  unfold orResult
  rw [h1]
  generalize ns.filter (fun c => (efArg c).isNone) = b at *
  match b with
  | [] => simp only [wt]; omega
  | [c] => simp only [wts] at h2 ⊢; omega
  | c :: d :: b =>
    have := makeLog_wt true (c :: d :: b)
    simp only [makeOr]
    omega

/-- With enough fuel the visit returns a formula that is not heavier. -/
def Ends (K : RwCtx) (nested neg : Bool) (c : Cond) (k : Nat) : Prop :=
  ∃ r, wt r ≤ k ∧ PathF r = true ∧ ∃ f, ∀ n, f ≤ n → pushNegation K n nested neg c = some r

variable {K : RwCtx} {nested neg : Bool}

theorem Ends.step {c : Cond} {k : Nat} {r : Cond} (hw : wt r ≤ k) (hp : PathF r = true) (f : Nat)
    (h : ∀ n, f ≤ n → pushStep K (pushNegation K n) nested neg c = some r) : Ends K nested neg c k := by
  refine ⟨r, hw, hp, f + 1, fun n hn => ?_⟩
  obtain ⟨m, rfl⟩ : ∃ m, n = m + 1 := ⟨n - 1, by omega⟩
  exact h m (by omega)

theorem visitOps_ends (stop : Bool) (cs : List Cond) (h : ∀ c ∈ cs, Ends K nested neg c (wt c)) :
    ∃ x f, (∀ n, f ≤ n → visitOps (pushNegation K n) nested neg stop cs = some x) ∧
      ∀ ns, x = .inr ns → wts ns ≤ wts cs ∧ ∀ n ∈ ns, PathF n = true := by
  induction cs with
  | nil => exact ⟨.inr [], 0, fun _ _ => rfl, fun ns e => by cases e; simp⟩
  | cons c cs ih =>
    obtain ⟨r, hw, hp, f, hf⟩ := h c (by simp)
    obtain ⟨x, g, hg, hx⟩ := ih fun d hd => h d (by simp [hd])
    have hsub : ∀ ns, x = .inr ns → wts ns ≤ wts (c :: cs) ∧ ∀ n ∈ ns, PathF n = true := fun ns e =>
      ⟨by have := (hx ns e).1; simp only [wts]; omega, (hx ns e).2⟩
    by_cases hb : ∃ b, r = .bool b
    · obtain ⟨b, rfl⟩ := hb
      by_cases hs : b = stop
      · refine ⟨.inl (), f, fun n hn => ?_, fun ns e => by cases e⟩
        simp only [visitOps, hf n hn, hs, if_true]
      · refine ⟨x, f + g, fun n hn => ?_, hsub⟩
        simp only [visitOps, hf n (by omega), hs, if_false]
        exact hg n (by omega)
    · cases x with
      | inl u =>
        refine ⟨.inl (), f + g, fun n hn => ?_, fun ns e => by cases e⟩
        simp only [visitOps, hf n (by omega), hg n (by omega)]
        split
        · exact absurd ⟨_, rfl⟩ hb
        · rfl
      | inr ns =>
        refine ⟨.inr (r :: ns), f + g, fun n hn => ?_, fun ns' e => ?_⟩
        · simp only [visitOps, hf n (by omega), hg n (by omega)]
          split
          · exact absurd ⟨_, rfl⟩ hb
          · rfl
        · cases e
          have := hx ns rfl
          refine ⟨by simp only [wts]; omega, fun n hn => ?_⟩
          rcases List.mem_cons.1 hn with rfl | hn
          · exact hp
          · exact this.2 n hn

theorem pushAnd_ends (cs : List Cond) (h : ∀ c ∈ cs, Ends K nested neg c (wt c)) :
    ∃ r, wt r ≤ 1 + wts cs ∧ PathF r = true ∧ ∃ f, ∀ n, f ≤ n → pushAnd (pushNegation K n) nested neg cs = some r := by
  obtain ⟨x, f, hf, hx⟩ := visitOps_ends false cs h
  cases x with
  | inl u => exact ⟨.bool false, by simp only [wt]; omega, rfl, f, fun n hn => by rw [pushAnd, hf n hn]; rfl⟩
  | inr ns =>
    have := hx ns rfl
    exact ⟨andResult ns, by have := andResult_wt ns this.2; omega, andResult_path ns this.2, f, fun n hn => by rw [pushAnd, hf n hn]; rfl⟩

theorem pushOr_ends (cs : List Cond) (h : ∀ c ∈ cs, Ends K nested neg c (wt c)) :
    ∃ r, wt r ≤ 1 + wts cs ∧ PathF r = true ∧ ∃ f, ∀ n, f ≤ n → pushOr (pushNegation K n) nested neg cs = some r := by
  obtain ⟨x, f, hf, hx⟩ := visitOps_ends true cs h
  cases x with
  | inl u => exact ⟨.bool true, by simp only [wt]; omega, rfl, f, fun n hn => by rw [pushOr, hf n hn]; rfl⟩
  | inr ns =>
    have := hx ns rfl
    exact ⟨orResult ns, by have := orResult_wt ns this.2; omega, orResult_path ns this.2, f, fun n hn => by rw [pushOr, hf n hn]; rfl⟩

/-- the visit of `F c` -/
theorem pushF_ends (c : Cond) (hc : Ends K true false c (wt c))
    (hv : ∀ d, wt d < 2 * wt c → PathF d = true → Ends K nested neg d (wt d)) :
    ∃ r, wt r ≤ 2 * wt c ∧ PathF r = true ∧ ∃ f, ∀ n, f ≤ n → pushF (pushNegation K n) nested neg c = some r := by
  obtain ⟨a, hw, hp, f, hf⟩ := hc
  have stay : ∀ x, wt x ≤ 2 * wt c → PathF x = true → (∀ v : Visit, v true false c = some a → pushF v nested neg c = some (negIf neg x)) →
      ∃ r, wt r ≤ 2 * wt c ∧ PathF r = true ∧ ∃ f, ∀ n, f ≤ n → pushF (pushNegation K n) nested neg c = some r := fun x hx hq hv =>
    ⟨negIf neg x, by rw [negIf_wt]; exact hx, negIf_path hq, f, fun n hn => hv _ (hf n hn)⟩
  have go : ∀ d, wt d < 2 * wt c → PathF d = true → (∀ v : Visit, v true false c = some a → pushF v nested neg c = v nested neg d) →
      ∃ r, wt r ≤ 2 * wt c ∧ PathF r = true ∧ ∃ f, ∀ n, f ≤ n → pushF (pushNegation K n) nested neg c = some r := by
    intro d hd hq hv'
    obtain ⟨r, h1, h2, g, hg⟩ := hv d hd hq
    exact ⟨r, by omega, h2, f + g, fun n hn => by rw [hv' _ (hf n (by omega))]; exact hg n (by omega)⟩
  have hc1 := wt_pos c
  cases a with
  | F x => exact stay (.F x) (by omega) hp fun v h => by simp only [pushF, h]; rfl
  | U x y =>
    rw [PathF, Bool.and_eq_true] at hp
    exact go (.F y) (by simp only [wt] at hw ⊢; omega) hp.2 fun v h => by simp only [pushF, h]; rfl
  | or cs =>
    by_cases ht : anyTemporal cs = true
    · refine go (makeOr (cs.map .F)) ?_ ?_ fun v h => by simp [pushF, h, ht]
      · have := makeLog_wt true (cs.map .F)
        rw [wts_F] at this
        simp only [wt] at hw
        simp only [makeOr]
        omega
      · refine makeLog_closed path_closed true _ fun d hd => ?_
        obtain ⟨x, hx, rfl⟩ := List.mem_map.1 hd
        exact (passes_path.or _).1 hp x hx
    · exact stay (.F (.or cs)) (by simp only [wt] at hw ⊢; omega) hp fun v h => by simp [pushF, h, ht]
  | bool b => exact stay (.F (.bool b)) (by simp only [wt] at hw ⊢; omega) hp fun v h => by simp only [pushF, h]; rfl
  | dead => exact stay (.F (.dead)) (by simp only [wt] at hw ⊢; omega) hp fun v h => by simp only [pushF, h]; rfl
  | cmp o x y => exact stay (.F (.cmp o x y)) (by simp only [wt] at hw ⊢; omega) hp fun v h => by simp only [pushF, h]; rfl
  | cc l n => exact stay (.F (.cc l n)) (by simp only [wt] at hw ⊢; omega) hp fun v h => by simp only [pushF, h]; rfl
  | not x => exact stay (.F (.not x)) (by simp only [wt] at hw ⊢; omega) hp fun v h => by simp only [pushF, h]; rfl
  | and cs => exact stay (.F (.and cs)) (by simp only [wt] at hw ⊢; omega) hp fun v h => by simp only [pushF, h]; rfl
  | X x => exact stay (.F (.X x)) (by simp only [wt] at hw ⊢; omega) hp fun v h => by simp only [pushF, h]; rfl
  | G x => exact stay (.F (.G x)) (by simp only [wt] at hw ⊢; omega) hp fun v h => by simp only [pushF, h]; rfl
  | _ => cases hp

theorem ends (c : Cond) (hc : PathF c = true) (nested neg : Bool) : Ends K nested neg c (wt c) := by
  obtain ⟨k, hk⟩ : ∃ k, wt c = k := ⟨_, rfl⟩
  obtain ⟨j, hj⟩ : ∃ j, lead c = j := ⟨_, rfl⟩
  induction k using Nat.strong_induction_on generalizing j c nested neg with
  | _ k ih1 =>
  induction j using Nat.strong_induction_on generalizing c nested neg with
  | _ j ih2 =>
  have ih : ∀ d, PathF d = true → wt d < wt c → ∀ nested neg, Ends K nested neg d (wt d) := fun d hd h nested neg =>
    ih1 (wt d) (by omega) d hd nested neg rfl _ rfl
  have lift : ∀ {r : Cond} {f : Nat} {g : Visit → Option Cond}, wt r ≤ wt c → PathF r = true →
      (∀ v : Visit, pushStep K v nested neg c = (g v).map (K.rw nested)) → (∀ n, f ≤ n → g (pushNegation K n) = some r) →
      Ends K nested neg c (wt c) := by
    intro r f g h1 h2 h3 h4
    exact Ends.step (Nat.le_trans (rw_wt K nested r) h1) (rw_path h2) f fun n hn => by rw [h3, h4 n hn]; rfl
  cases c with
  | bool b => exact Ends.step (Nat.le_trans (rw_wt K nested _) (by simp only [wt]; omega)) (rw_path rfl) 0 fun n _ => rfl
  | dead => exact Ends.step (Nat.le_trans (rw_wt K nested _) (by rw [negIf_wt])) (rw_path (negIf_path rfl)) 0 fun n _ => rfl
  | cmp op e1 e2 =>
    exact Ends.step (Nat.le_trans (rw_wt K nested _) (by rw [pushCmp_wt]; simp only [wt]; omega)) (rw_path (pushCmp_path _ _ _ _)) 0 fun n _ => rfl
  | cc l n => exact Ends.step (Nat.le_trans (rw_wt K nested _) (by simp only [wt]; omega)) (rw_path rfl) 0 fun n _ => rfl
  | not c =>
    obtain ⟨r, h1, h2, f, hf⟩ := ih2 (lead c) (by simp only [lead] at hj; omega) c hc nested (!neg) (by simpa only [wt] using hk) rfl
    exact lift (g := fun v => v nested (!neg) c) (by simpa only [wt] using h1) h2 (fun v => rfl) hf
  | G c =>
    have hg : Ends K nested (!neg) (.F (.not c)) (wt (.F (.not c))) :=
      ih2 0 (by simp only [lead] at hj; omega) (.F (.not c)) hc nested (!neg) (by simpa only [wt] using hk) rfl
    obtain ⟨r, h1, h2, f, hf⟩ := hg
    exact Ends.step (by simpa only [wt] using h1) h2 f fun n hn => hf n hn
  | and cs =>
    have hcs : ∀ neg, ∀ c ∈ cs, Ends K nested neg c (wt c) := fun neg d hd =>
      ih d ((passes_path.and cs).1 hc d hd) (by have := wt_mem hd; simp only [wt]; omega) nested neg
    cases neg with
    | true =>
      obtain ⟨r, h1, h2, f, hf⟩ := pushOr_ends cs (hcs true)
      exact lift (by simpa only [wt] using h1) h2 (fun v => rfl) hf
    | false =>
      obtain ⟨r, h1, h2, f, hf⟩ := pushAnd_ends cs (hcs false)
      exact lift (by simpa only [wt] using h1) h2 (fun v => rfl) hf
  | or cs =>
    have hcs : ∀ neg, ∀ c ∈ cs, Ends K nested neg c (wt c) := fun neg d hd =>
      ih d ((passes_path.or cs).1 hc d hd) (by have := wt_mem hd; simp only [wt]; omega) nested neg
    cases neg with
    | true =>
      obtain ⟨r, h1, h2, f, hf⟩ := pushAnd_ends cs (hcs true)
      exact lift (by simpa only [wt] using h1) h2 (fun v => rfl) hf
    | false =>
      obtain ⟨r, h1, h2, f, hf⟩ := pushOr_ends cs (hcs false)
      exact lift (by simpa only [wt] using h1) h2 (fun v => rfl) hf
  | X c =>
    obtain ⟨r, h1, h2, f, hf⟩ := ih c hc (by simp only [wt]; omega) true neg
    by_cases hb : ∃ b, r = .bool b
    · obtain ⟨b, rfl⟩ := hb
      exact lift (r := .bool b) (f := f) (g := fun v => pushX v neg c) (by simp only [wt]; omega) rfl (fun v => rfl) fun n hn => by
        simp only [pushX, hf n hn]; rfl
    · exact lift (r := .X r) (f := f) (g := fun v => pushX v neg c) (by simp only [wt]; omega) h2 (fun v => rfl) fun n hn => by
        simp only [pushX, hf n hn, Option.bind_eq_bind, Option.bind_some]
        split
        · exact absurd ⟨_, rfl⟩ hb
        · rfl
  | F c =>
    have hc1 := wt_pos c
    obtain ⟨r, h1, h2, f, hf⟩ := pushF_ends (K := K) (nested := nested) (neg := neg) c (ih c hc (by simp only [wt]; omega) true false)
      fun d hd hp => ih d hp (by simpa only [wt] using hd) nested neg
    exact lift (by simpa only [wt] using h1) h2 (fun v => rfl) hf
  | U c d =>
    have h2 := passes_path.U _ _ hc
    obtain ⟨a, a1, a2, f, hf⟩ := ih c h2.1 (by simp only [wt]; omega) true false
    obtain ⟨b, b1, b2, g, hg⟩ := ih d h2.2 (by simp only [wt]; omega) true false
    by_cases hb : ∃ x, b = .F x
    · obtain ⟨x, rfl⟩ := hb
      exact lift (r := negIf neg (.F x)) (f := f + g) (g := fun v => pushU v neg c d) (by rw [negIf_wt]; simp only [wt] at b1 ⊢; omega)
        (negIf_path b2) (fun v => rfl) fun n hn => by
        simp only [pushU, hf n (by omega), hg n (by omega)]; rfl
    · exact lift (r := negIf neg (.U a b)) (f := f + g) (g := fun v => pushU v neg c d) (by rw [negIf_wt]; simp only [wt]; omega)
        (negIf_path (by rw [PathF, a2, b2]; rfl)) (fun v => rfl) fun n hn => by
        simp only [pushU, hf n (by omega), hg n (by omega), Option.bind_eq_bind, Option.bind_some]
        split
        · exact absurd ⟨_, rfl⟩ hb
        · rfl
  | _ => cases hc

end LTL
end Verif
