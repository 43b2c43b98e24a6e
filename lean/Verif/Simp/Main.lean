import Verif.Simp.SoundCC

/-!
# The simplifier is right
-/

namespace Verif
namespace Simp
open PQL Coll

mutual
/-- No value the simplifier converts to `int` is changed by the conversion: literals, the values of the two sides of a
comparison in the initial marking and their difference, the bounds of place constraints and the tokens of their places. -/
def exactC (m0 : Mark) : Cond → Bool
  | .bool _ => true
  | .dead => true
  | .cmp _ e1 e2 => exactE e1 && exactE e2 && fits (e1.val m0) && fits (e2.val m0) && fits (e2.val m0 - e1.val m0)
  | .cc l _ => l.all fun c => decide (c.lower < 2147483648) && (decide (c.upper < 2147483648) || c.upper == umax) &&
      decide (m0 c.place < 2147483648)
  | .not c => exactC m0 c
  | .and cs => exactL m0 cs
  | .or cs => exactL m0 cs
  | .EX c | .AX c | .EF c | .AF c | .EG c | .AG c => exactC m0 c
  | .EU c d | .AU c d => exactC m0 c && exactC m0 d
  | .E c | .A c => exactC m0 c
  | .X c | .F c | .G c => exactC m0 c
  | .U c d => exactC m0 c && exactC m0 d
def exactL (m0 : Mark) : List Cond → Bool
  | [] => true
  | c :: cs => exactC m0 c && exactL m0 cs
end

theorem exactL_iff (m0 : Mark) (cs : List Cond) : exactL m0 cs = true ↔ ∀ c ∈ cs, exactC m0 c = true := by
  induction cs with
  | nil => simp [exactL]
  | cons c cs ih => simp [exactL, ih]

/-- The constant of an analysable linear form is the value in the initial marking. -/
theorem constraint_const (N : FlatNet) (m0 : Mark) (e : Expr) (he : exactE e = true)
    (hc : (constraint N m0 e).can = true) : (constraint N m0 e).const = e.val m0 := by
  have := constraint_at (N := N) (m0 := m0) (m := m0) (x := fun _ => 0) ⟨fun _ => Int.le_refl _, fun p => by simp⟩ e he hc
  rw [← this, Member.at]
  have hd : ∀ l : List Int, dot l (fun _ => 0) = 0 := by
    intro l
    induction l with
    | nil => rfl
    | cons a l ih => simp [dot, ih]
  rw [hd]; simp

variable {T : TS} {I : Mark → Prop} {Ct : Mark → (Nat → Int) → Prop} {o : Oracle} {Fs : Pred} {r r' : Ret}
  {P Q : (Nat → Mark) → Prop} {st st' : Prop} {n : Nat} {π : List Nat}

theorem simpCmp_spec' (hS : Setting T I Ct o Fs) {N : FlatNet} {m0 : Mark}
    (hCt : ∀ m x, Ct m x → Counts N m0 m x) {op : Cmp} {e1 e2 : Expr} {neg : Bool}
    (hok : cmpOK op e1 e2 = true) (hex : exactC m0 (.cmp op e1 e2) = true)
    (h : simpCmp o n N m0 π neg op e1 e2 = some r) :
    RetOK T I Ct Fs r (fun π => xneg neg ((Cond.cmp op e1 e2).sat T π)) st := by
  simp only [exactC, Bool.and_eq_true] at hex
  obtain ⟨⟨⟨⟨h1, h2⟩, h3⟩, h4⟩, h5⟩ := hex
  by_cases hc : (constraint N m0 e1).can = true ∧ (constraint N m0 e2).can = true
  · refine simpCmp_spec hS hCt hok h1 h2 ?_ h
    rw [fits2, constraint_const N m0 e1 h1 hc.1, constraint_const N m0 e2 h2 hc.2, h3, h4, h5]
    rfl
  · unfold simpCmp at h
    simp only at h
    rw [if_neg (fun hh => hc hh.2)] at h
    exact cmpEnd_spec hS hok
      ⟨inv_empty, inv_empty, fun _ _ _ _ _ _ => sat_empty _, fun _ _ _ _ _ _ => sat_empty _⟩ h

theorem opsHold_and (neg : Bool) (T : TS) (π : Nat → Mark) (cs : List Cond) :
    opsHold neg neg T π cs ↔ xneg neg ((Cond.and cs).sat T π) := by
  simp only [Cond.sat, satAll_iff]
  cases neg
  · simp [opsHold, xneg]
  · simp only [opsHold, xneg, if_true]
    push Not; rfl

theorem opsHold_or (neg : Bool) (T : TS) (π : Nat → Mark) (cs : List Cond) :
    opsHold (!neg) neg T π cs ↔ xneg neg ((Cond.or cs).sat T π) := by
  simp only [Cond.sat, satAny_iff]
  cases neg
  · simp [opsHold, xneg]
  · simp only [opsHold, xneg, Bool.not_true, Bool.false_eq_true, if_false, if_true]
    push Not; rfl

theorem quantN_spec (hS : Setting T I Ct o Fs) (q : QOp) {c : Cond} {neg : Bool}
    (hw : (q.mk c).wf = true)
    (hr : RetOK T I Ct Fs r (fun π => xneg neg (c.sat T π)) (c.isState = true))
    (h : (if neg then quant o n π q.dual.onT q.dual.onF q.dual.mk r else quant o n π q.onT q.onF q.mk r) = some r') :
    RetOK T I Ct Fs r' (fun π => xneg neg ((q.mk c).sat T π)) ((q.mk c).isState = true) := by
  have hwc := (q.wf_mk c).1 hw
  cases neg with
  | false =>
    refine (quant_spec hS q hr hwc.2 (fun hs d => q.state_mk hs) h).change id fun ρ hp hi => ?_
    simp only [xneg, Bool.false_eq_true, if_false]
    rw [q.sat_mk]
  | true =>
    have hd : q.dual.ctl = q.ctl := by cases q <;> rfl
    have hds : (q.mk c).isState = true → ∀ d, (q.dual.mk d).isState = true := by
      intro hs d
      cases q <;> simp [QOp.mk, QOp.dual, Cond.isState] at hs ⊢
    refine (quant_spec hS q.dual hr (by rw [hd]; exact hwc.2) hds h).change id fun ρ hp hi => ?_
    simp only [xneg, if_true]
    rw [q.sat_mk, q.sem_dual]

theorem simplify_good (hS : Setting T I Ct o Fs) {N : FlatNet} {m0 : Mark} (hCt : ∀ m x, Ct m x → Counts N m0 m x)
    (d : Nat) : ∀ (π : List Nat) (neg : Bool) (c : Cond) (r : Ret), simplify o n N m0 d π neg c = some r →
      c.wf = true → exactC m0 c = true →
      RetOK T I Ct Fs r (fun π => xneg neg (c.sat T π)) (c.isState = true) := by
  induction d with
  | zero => intro π neg c r h; simp [simplify] at h
  | succ d ih =>
    intro π neg c r h hw hex
    rw [simplify] at h
    have hq : ∀ (q : QOp) (c : Cond) (f : Ret → Option Ret), (q.mk c).wf = true → exactC m0 c = true →
        andThen (simplify o n N m0 d (0 :: π) neg c) f = some r →
        (∀ r0, f r0 = some r → (if neg then quant o n (1 :: π) q.dual.onT q.dual.onF q.dual.mk r0
          else quant o n (1 :: π) q.onT q.onF q.mk r0) = some r) →
        RetOK T I Ct Fs r (fun π => xneg neg ((q.mk c).sat T π)) ((q.mk c).isState = true) := by
      intro q c f hw hex h hf
      unfold andThen at h
      cases hv : simplify o n N m0 d (0 :: π) neg c with
      | none => rw [hv] at h; simp at h
      | some r0 =>
        rw [hv] at h
        exact quantN_spec hS q hw (ih _ _ _ _ hv ((q.wf_mk c).1 hw).1 hex) (hf r0 h)
    have hu : ∀ (u : UOp) (c e : Cond), (u.mkU c e).wf = true → exactC m0 c = true → exactC m0 e = true →
        simpUntil o n (simplify o n N m0 d) π neg c e u.mkF u.mkU = some r →
        RetOK T I Ct Fs r (fun π => xneg neg ((u.mkU c e).sat T π)) ((u.mkU c e).isState = true) := by
      intro u c e hw h1 h2 h
      obtain ⟨w1, w2, _⟩ := (u.wf_mk c e).1 hw
      refine simpUntil_spec hS u (fun π r hr => ?_) (fun π r hr => ?_) hw h
      · exact (ih _ _ _ _ hr w1 h1).change id fun ρ _ _ => by simp [xneg]
      · exact (ih _ _ _ _ hr w2 h2).change id fun ρ _ _ => by simp [xneg]
    cases c with
    | bool b =>
      simp only [simpStep] at h
      obtain rfl := Option.some.inj h
      refine RetOK.bool fun ρ _ _ => ?_
      cases neg <;> simp [xneg, Cond.sat]
    | dead =>
      simp only [simpStep] at h
      obtain rfl := Option.some.inj h
      refine RetOK.of ((notIf_wf neg).2 rfl) (fun _ => (notIf_state neg).2 rfl) fun ρ _ _ => notIf_sat neg
    | cmp op e1 e2 =>
      simp only [simpStep] at h
      exact simpCmp_spec' hS hCt (by simpa [Cond.wf] using hw) hex h
    | cc l en =>
      simp only [simpStep] at h
      refine simpCC_spec hS hCt hw (fun c hc => ?_) h
      simp only [exactC, List.all_eq_true, Bool.and_eq_true, Bool.or_eq_true, decide_eq_true_eq, beq_iff_eq] at hex
      exact ⟨⟨(hex c hc).1.1, (hex c hc).1.2⟩, (hex c hc).2⟩
    | not c =>
      simp only [simpStep] at h
      refine (ih _ _ _ _ h (by simpa [Cond.wf] using hw) (by simpa [exactC] using hex)).change
        (fun hs => by simpa [Cond.isState] using hs) fun ρ _ _ => ?_
      cases neg <;> simp [xneg, Cond.sat]
    | and cs =>
      simp only [simpStep] at h
      rw [Cond.wf, wfL_iff] at hw
      rw [exactC, exactL_iff] at hex
      split at h
      · obtain rfl := Option.some.inj h
        refine RetOK.of ((notIf_wf neg).2 (makeAnd_wf cs hw)) (fun hs => ?_) fun ρ _ hi => ?_
        · rw [notIf_state]
          rw [Cond.isState, isState_all_iff] at hs
          exact makeAnd_state cs hw hs
        · rw [notIf_sat]
          refine xneg_congr neg ?_
          rw [makeAnd_spec (hS.inv.m32 _ hi) cs hw, Cond.sat, satAll_iff]
      · exact (simpLog_spec hS (fun π c r hc hr => ih _ _ _ _ hr (hw c hc) (hex c hc)) h).change
          (fun hs => by rwa [Cond.isState, isState_all_iff] at hs) fun ρ _ _ => opsHold_and neg T ρ cs
    | or cs =>
      simp only [simpStep] at h
      rw [Cond.wf, wfL_iff] at hw
      rw [exactC, exactL_iff] at hex
      split at h
      · obtain rfl := Option.some.inj h
        refine RetOK.of ((notIf_wf neg).2 (makeOr_wf cs hw)) (fun hs => ?_) fun ρ _ hi => ?_
        · rw [notIf_state]
          rw [Cond.isState, isState_all_iff] at hs
          exact makeOr_state cs hw hs
        · rw [notIf_sat]
          refine xneg_congr neg ?_
          rw [makeOr_spec (hS.inv.m32 _ hi) cs hw, Cond.sat, satAny_iff]
      · exact (simpLog_spec hS (fun π c r hc hr => ih _ _ _ _ hr (hw c hc) (hex c hc)) h).change
          (fun hs => by rwa [Cond.isState, isState_all_iff] at hs) fun ρ _ _ => opsHold_or neg T ρ cs
    | EX c => exact hq .EX c _ hw (by simpa [exactC] using hex) h fun r0 h0 => by cases neg <;> exact h0
    | AX c => exact hq .AX c _ hw (by simpa [exactC] using hex) h fun r0 h0 => by cases neg <;> exact h0
    | EF c => exact hq .EF c _ hw (by simpa [exactC] using hex) h fun r0 h0 => by cases neg <;> exact h0
    | AF c => exact hq .AF c _ hw (by simpa [exactC] using hex) h fun r0 h0 => by cases neg <;> exact h0
    | EG c => exact hq .EG c _ hw (by simpa [exactC] using hex) h fun r0 h0 => by cases neg <;> exact h0
    | AG c => exact hq .AG c _ hw (by simpa [exactC] using hex) h fun r0 h0 => by cases neg <;> exact h0
    | E c => exact hq .E c _ hw (by simpa [exactC] using hex) h fun r0 h0 => by cases neg <;> exact h0
    | A c => exact hq .A c _ hw (by simpa [exactC] using hex) h fun r0 h0 => by cases neg <;> exact h0
    | F c => exact hq .F c _ hw (by simpa [exactC] using hex) h fun r0 h0 => by cases neg <;> exact h0
    | G c => exact hq .G c _ hw (by simpa [exactC] using hex) h fun r0 h0 => by cases neg <;> exact h0
    | X c => exact hq .X c _ hw (by simpa [exactC] using hex) h fun r0 h0 => by cases neg <;> exact h0
    | EU c e =>
      simp only [exactC, Bool.and_eq_true] at hex
      exact hu .EU c e hw hex.1 hex.2 h
    | AU c e =>
      simp only [exactC, Bool.and_eq_true] at hex
      exact hu .AU c e hw hex.1 hex.2 h
    | U c e =>
      simp only [exactC, Bool.and_eq_true] at hex
      exact hu .U c e hw hex.1 hex.2 h

end Simp
end Verif
