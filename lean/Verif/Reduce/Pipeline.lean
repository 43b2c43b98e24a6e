import Verif.Reduce.ModelP
import Verif.Reduce.Keep
import Verif.Reduce.RulesH
import Verif.Reduce.RulesN
import Verif.Reduce.RulesR2
import Verif.Reduce.RulesS

/-!
# The order of the reductions: whatever the clock says, the rules are applied one after the other

Everything that every rule preserves (a preorder on nets) is preserved by a run of the reducer.
-/

namespace Verif
namespace Reduce

variable {R : RNet → RNet → Prop} {Q : Nat → Bool} {F : Flags} {C : Clock}

/-- A rule whose result is related to the net it is applied to, for any number of turns. -/
def RGood (R : RNet → RNet → Prop) (r : Rule) : Prop := ∀ n N, R N (r n N).1

/-- A preorder. -/
structure Pre (R : RNet → RNet → Prop) : Prop where
  refl : ∀ N, R N N
  trans : ∀ {N N' N''}, R N N' → R N' N'' → R N N''

/-- A preorder that all rules respect. -/
structure Fits (R : RNet → RNet → Prop) (Q : Nat → Bool) : Prop extends Pre R where
  A : RGood R (ruleA Q)
  B : ∀ a b, RGood R (ruleB Q a b)
  C : RGood R (ruleC Q)
  D : ∀ a b, RGood R (ruleD Q a b)
  E : RGood R (ruleE Q)
  EP : RGood R (ruleEP Q)
  F : RGood R (ruleF Q)
  FNO : RGood R (ruleFNO Q)
  G : ∀ a b, RGood R (ruleG Q a b)
  H : ∀ a, RGood R (ruleH Q a)
  I : ∀ a, RGood R (ruleI Q a)
  J : RGood R (ruleJ Q)
  L : RGood R ruleL
  M : RGood R (ruleM Q)
  Qu : RGood R (ruleQ Q)
  Rr : ∀ e, RGood R (ruleR Q e)
  S : ∀ a b e, RGood R (ruleS Q a b e)

theorem call_good {r : Rule} (h : RGood R r) (s : PState) : R s.net (call C r s).1.net := h _ _

theorem once_good {r : Rule} (h : RGood R r) (s : PState) : R s.net (once C r s).net := by
  unfold once
  simp only
  split
  · exact call_good h s
  · exact call_good h s

theorem star_good (K : Pre R) {r : Rule} (h : RGood R r) : ∀ (f : Nat) (s s' : PState), star C r f s = some s' →
    R s.net s'.net := by
  intro f
  induction f with
  | zero => intro s s' hs; cases hs
  | succ f ih =>
    intro s s' hs
    rw [star] at hs
    simp only at hs
    split at hs
    · have := ih _ _ hs
      exact K.trans (call_good h s) this
    · obtain rfl := Option.some.inj hs
      exact call_good h s

theorem stars_good (K : Pre R) {f : Nat} : ∀ (rs : List Rule) (s s' : PState), (∀ r ∈ rs, RGood R r) →
    stars C f rs s = some s' → R s.net s'.net := by
  intro rs
  induction rs with
  | nil => intro s s' _ hs; obtain rfl := Option.some.inj hs; exact K.refl _
  | cons r rs ih =>
    intro s s' hr hs
    rw [stars] at hs
    obtain ⟨s1, h1, h2⟩ := Option.bind_eq_some_iff.1 hs
    exact K.trans (star_good K (hr r (by simp)) f s s1 h1) (ih s1 s' (fun r hr' => hr r (by simp [hr'])) h2)

theorem again_net (s : PState) : (again C s).1.net = s.net := by
  unfold again look
  split <;> rfl

theorem mode2_good (K : Pre R) (hA : RGood R (ruleA Q)) (hD : ∀ a b, RGood R (ruleD Q a b)) (hH : ∀ a, RGood R (ruleH Q a))
    {i : Nat} : ∀ (f : Nat) (s s' : PState), mode2 Q F C i f s = some s' → R s.net s'.net := by
  intro f
  induction f with
  | zero => intro s s' hs; cases hs
  | succ f ih =>
    intro s s' hs
    rw [mode2] at hs
    simp only at hs
    have hg : R s.net (again C s).1.net := by rw [again_net]; exact K.refl _
    split at hs
    · split at hs
      · have := ih _ _ hs
        exact K.trans hg this
      · obtain ⟨s1, h1, h2⟩ := Option.bind_eq_some_iff.1 hs
        have h1 := stars_good (R := R) K _ _ _ (by
          intro r hr
          simp only [List.mem_cons, List.not_mem_nil, or_false] at hr
          rcases hr with rfl | rfl | rfl
          · exact hA
          · exact hD _ _
          · exact hH _) h1
        exact K.trans hg (K.trans h1 (ih _ _ h2))
    · obtain rfl := Option.some.inj hs
      exact hg

theorem quiet_R (K : Fits R Q) : ∀ r ∈ quiet Q F, RGood R r := by
  intro r hr
  unfold quiet at hr
  rcases List.mem_append.1 hr with hr | hr
  · rcases List.mem_append.1 hr with hr | hr
    · simp only [List.mem_cons, List.not_mem_nil, or_false] at hr
      rcases hr with rfl | rfl
      · exact K.E
      · exact K.C
    · split at hr
      · simp only [List.mem_cons, List.not_mem_nil, or_false] at hr
        subst hr; exact K.F
      · cases hr
  · split at hr
    · cases hr
    · simp only [List.mem_cons, List.not_mem_nil, or_false] at hr
      rcases hr with rfl | rfl
      · exact K.G _ _
      · exact K.D _ _

theorem quietLoop_good (K : Fits R Q) {i : Nat} : ∀ (f : Nat) (s s' : PState), quietLoop Q F C i f s = some s' →
    R s.net s'.net := by
  intro f
  induction f with
  | zero => intro s s' hs; cases hs
  | succ f ih =>
    intro s s' hs
    rw [quietLoop] at hs
    obtain ⟨s1, h1, h2⟩ := Option.bind_eq_some_iff.1 hs
    have hg : R s.net (again C s1).1.net := by
      have := stars_good (R := R) K.toPre _ _ _ (quiet_R K) h1
      rw [again_net]; exact this
    simp only at h2
    split at h2
    · exact K.trans hg (ih _ _ h2)
    · obtain rfl := Option.some.inj h2; exact hg

theorem moveLoop_good (K : Fits R Q) {i : Nat} : ∀ (f : Nat) (s s' : PState), moveLoop Q F C i f s = some s' →
    R s.net s'.net := by
  intro f
  induction f with
  | zero => intro s s' hs; cases hs
  | succ f ih =>
    intro s s' hs
    rw [moveLoop] at hs
    obtain ⟨s1, h1, hs⟩ := Option.bind_eq_some_iff.1 hs
    obtain ⟨s2, h2, hs⟩ := Option.bind_eq_some_iff.1 hs
    have hg : R s.net (again C s2).1.net := by
      rw [again_net]
      refine K.trans (quietLoop_good K _ _ _ h1) (stars_good (R := R) K.toPre _ _ _ ?_ h2)
      intro r hr
      split at hr
      · cases hr
      · simp only [List.mem_cons, List.not_mem_nil, or_false] at hr
        rcases hr with rfl | rfl
        · exact K.B _ _
        · exact K.A
    simp only at hs
    split at hs
    · exact K.trans hg (ih _ _ hs)
    · obtain rfl := Option.some.inj hs; exact hg

theorem pre1_R (K : Fits R Q) : ∀ r ∈ pre1 Q F, RGood R r := by
  intro r hr
  unfold pre1 at hr
  rcases List.mem_append.1 hr with hr | hr
  · split at hr
    · simp only [List.mem_cons, List.not_mem_nil, or_false] at hr
      subst hr; exact K.I _
    · cases hr
  · simp only [List.mem_cons, List.not_mem_nil, or_false] at hr
    subst hr; exact K.J

theorem last1_good (K : Fits R Q) {i : Nat} (s s' : PState) (h : last1 Q F C i s = some s') : R s.net s'.net := by
  unfold last1 at h
  split at h
  · obtain ⟨s1, h1, rfl⟩ := Option.map_eq_some_iff.1 h
    have hg : R s.net s1.net := stars_good (R := R) K.toPre _ _ _ (by
      intro r hr
      simp only [List.mem_cons, List.not_mem_nil, or_false] at hr
      rcases hr with rfl | rfl
      · exact K.H _
      · exact K.S _ _ _) h1
    split
    · exact K.trans hg (call_good (C := C) (K.Rr 6) s1)
    · exact hg
  · obtain rfl := Option.some.inj h; exact K.refl _

theorem mode1_good (K : Fits R Q) {i : Nat} : ∀ (f : Nat) (rq : Bool) (s s' : PState), mode1 Q F C i f rq s = some s' →
    R s.net s'.net := by
  intro f
  induction f with
  | zero => intro rq s s' hs; cases hs
  | succ f ih =>
    intro rq s s' hs
    rw [mode1] at hs
    obtain ⟨s1, h1, hs⟩ := Option.bind_eq_some_iff.1 hs
    obtain ⟨s2, h2, hs⟩ := Option.bind_eq_some_iff.1 hs
    obtain ⟨s3, h3, hs⟩ := Option.bind_eq_some_iff.1 hs
    obtain ⟨s4, h4, hs⟩ := Option.bind_eq_some_iff.1 hs
    have hg : R s.net s4.net := K.trans (stars_good (R := R) K.toPre _ _ _ (pre1_R K) h1) (K.trans (moveLoop_good K _ _ _ h2)
      (K.trans (star_good K.toPre K.L _ _ _ h3) (last1_good K _ _ h4)))
    simp only at hs
    generalize ho : (if (!s4.changed && !rq && !F.next) = true then call C (ruleQ Q) s4 else (s4, false)) = o at hs
    have hg' : R s.net o.1.net := by
      rw [← ho]
      split
      · exact K.trans hg (call_good K.Qu s4)
      · exact hg
    split at hs
    · exact K.trans hg' (ih _ _ _ hs)
    · have hg2 : R s.net (again C o.1).1.net := by rw [again_net]; exact hg'
      split at hs
      · exact K.trans hg2 (ih _ _ _ hs)
      · obtain rfl := Option.some.inj hs; exact hg2

theorem apply1_good (K : Fits R Q) {i r : Nat} (s s' : PState) (h : apply1 Q F C i r s = some s') : R s.net s'.net := by
  unfold apply1 at h
  split at h
  · exact star_good K.toPre K.A _ _ _ h
  · exact star_good K.toPre (K.B _ _) _ _ _ h
  · exact star_good K.toPre K.C _ _ _ h
  · exact star_good K.toPre (K.D _ _) _ _ _ h
  · exact star_good K.toPre K.EP _ _ _ h
  · exact star_good K.toPre K.F _ _ _ h
  · exact star_good K.toPre (K.G _ _) _ _ _ h
  · exact star_good K.toPre (K.H _) _ _ _ h
  · exact star_good K.toPre (K.I _) _ _ _ h
  · cases h
  · obtain rfl := Option.some.inj h; exact once_good K.L s
  · obtain rfl := Option.some.inj h; exact once_good K.M s
  · obtain rfl := Option.some.inj h; exact once_good K.FNO s
  · obtain rfl := Option.some.inj h; exact once_good K.FNO s
  · obtain rfl := Option.some.inj h; exact once_good K.EP s
  · obtain rfl := Option.some.inj h; exact once_good K.Qu s
  · exact star_good K.toPre (K.Rr _) _ _ _ h
  · obtain rfl := Option.some.inj h; exact once_good (K.S _ _ _) s
  · obtain rfl := Option.some.inj h; exact K.refl _

theorem applyAll_good (K : Fits R Q) {i : Nat} : ∀ (rs : List Nat) (s s' : PState), applyAll Q F C i rs s = some s' →
    R s.net s'.net := by
  intro rs
  induction rs with
  | nil => intro s s' h; obtain rfl := Option.some.inj h; exact K.refl _
  | cons r rs ih =>
    intro s s' h
    rw [applyAll] at h
    obtain ⟨s1, h1, h⟩ := Option.bind_eq_some_iff.1 h
    simp only at h
    have hg : R s.net (look C s1).1.net := apply1_good K s s1 h1
    split at h
    · obtain rfl := Option.some.inj h; exact hg
    · exact K.trans hg (ih _ _ h)

theorem mode3_good (K : Fits R Q) {i : Nat} {rs : List Nat} : ∀ (f : Nat) (s s' : PState), mode3 Q F C i rs f s = some s' →
    R s.net s'.net := by
  intro f
  induction f with
  | zero => intro s s' hs; cases hs
  | succ f ih =>
    intro s s' hs
    rw [mode3] at hs
    simp only at hs
    have hg : R s.net (again C s).1.net := by rw [again_net]; exact K.refl _
    split at hs
    · obtain ⟨s1, h1, h2⟩ := Option.bind_eq_some_iff.1 hs
      have h1 := applyAll_good K _ _ _ h1
      exact K.trans hg (K.trans h1 (ih _ _ h2))
    · obtain rfl := Option.some.inj hs; exact hg

theorem reduce_fits (K : Fits R Q) {mode : Nat} {rs : List Nat} {fuel : Nat} {N N' : RNet}
    (h : reduce Q F C mode rs fuel N = some N') : R N N' := by
  unfold reduce at h
  split at h
  · obtain ⟨s, h1, rfl⟩ := Option.map_eq_some_iff.1 h
    exact mode2_good K.toPre K.A K.D K.H _ _ _ h1
  · split at h
    · obtain ⟨s, h1, rfl⟩ := Option.map_eq_some_iff.1 h
      exact mode1_good K _ _ _ _ h1
    · obtain ⟨s, h1, rfl⟩ := Option.map_eq_some_iff.1 h
      exact mode3_good K _ _ _ h1

theorem good_fits (Q : Nat → Bool) : Fits (Good Q) Q where
  refl := Good.refl Q
  trans := Good.trans
  A := fun n _ => ruleA_good n
  B := fun _ _ n _ => ruleB_good n
  C := fun n _ => ruleC_good n
  D := fun _ _ n _ => ruleD_good n
  E := fun n _ => ruleE_good n
  EP := fun n _ => ruleEP_good n
  F := fun n _ => ruleF_good n
  FNO := fun n _ => ruleFNO_good n
  G := fun a b n _ => ruleG_good a b n
  H := fun _ n _ => ruleH_good n
  I := fun _ n _ => ruleI_good n
  J := fun n _ => ruleJ_good n
  L := fun n _ => ruleL_good n
  M := fun n _ => ruleM_good n
  Qu := fun n _ => ruleQ_good n
  Rr := fun _ _ _ => ruleR_good
  S := fun _ _ _ _ _ => ruleS_good

theorem keep_fits (Q : Nat → Bool) : Fits (Keep Q) Q where
  refl := Keep.refl
  trans := Keep.trans
  A := ruleA_keep
  B := ruleB_keep
  C := ruleC_keep
  D := ruleD_keep
  E := ruleE_keep
  EP := ruleEP_keep
  F := ruleF_keep
  FNO := ruleFNO_keep
  G := ruleG_keep
  H := ruleH_keep
  I := ruleI_keep
  J := ruleJ_keep
  L := ruleL_keep
  M := ruleM_keep
  Qu := ruleQ_keep
  Rr := ruleR_keep
  S := ruleS_keep

theorem reduce_good {mode : Nat} {rs : List Nat} {fuel : Nat} {N N' : RNet} (h : reduce Q F C mode rs fuel N = some N') :
    Good Q N N' := reduce_fits (good_fits Q) h

theorem reduce_keep {mode : Nat} {rs : List Nat} {fuel : Nat} {N N' : RNet} (h : reduce Q F C mode rs fuel N = some N') :
    Keep Q N N' := reduce_fits (keep_fits Q) h

end Reduce
end Verif
