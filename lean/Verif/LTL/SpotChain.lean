import Verif.LTL.SpotBackLemmas
import Verif.PQL.NormalForm
import Verif.PQL.PushNegSound

/-!
# The rewriting between the two calls of spot

The steps of `simplify_ltl_query` (src/VerifyPN.cpp:435-460) that push negations, look at the initial marking and solve linear programs.
-/

namespace Verif
namespace LTL
open PQL

/-- models src/VerifyPN.cpp:435-456: the initial marking is looked at and negations are pushed, the formula is simplified with linear
programs (`lps`; C22), and negations are pushed twice more; `f1`, `f2`, `f3` are the fuel of the visitors -/
def chainMid (K : RwCtx) (f1 f2 f3 : Nat) (lps : Cond → Option Cond) (c : Cond) : Option Cond :=
  (pushNegation K f1 false false (K.rw false c)).bind fun c1 =>
  (lps c1).bind fun c2 =>
  (pushNegation K f2 false false c2).bind fun c3 =>
  pushNegation K f3 false false c3

/-- models src/VerifyPN.cpp:455-460: the initial marking is looked at again (`initialMarkingRW` around the second call of spot) -/
def chainLast (K : RwCtx) (c : Cond) : Option Cond := some (K.rw false c)

/-! ### Pushing negations introduces no quantifiers -/

theorem path_closed : LogClosed fun c => PathF c = true :=
  ⟨fun _ => rfl, fun _ _ => rfl, passes_path.and, passes_path.or⟩

/-- The visitor returns formulas without quantifiers for formulas without quantifiers. -/
def PathVisit (v : Visit) : Prop := ∀ nested neg c r, v nested neg c = some r → PathF c = true → PathF r = true

theorem rw_path {K : RwCtx} {nested : Bool} {r : Cond} (h : PathF r = true) : PathF (K.rw nested r) = true := by
  unfold RwCtx.rw
  split
  · split
    · exact h
    · rfl
    · rfl
  · exact h

theorem negIf_path {neg : Bool} {c : Cond} (h : PathF c = true) : PathF (negIf neg c) = true := by
  unfold negIf
  split <;> exact h

theorem pushCmp_path (neg : Bool) (op : Cmp) (e1 e2 : Expr) : PathF (pushCmp neg op e1 e2) = true := by
  have hz : ∀ a b e c, pushEqualZero a b e = some c → PathF c = true := by
    intro a b e c h
    unfold pushEqualZero at h
    simp only at h
    split at h
    · rename_i d hd
      simp only [Option.some.injEq] at h
      subst h
      split at hd
      · simp only [Option.some.injEq] at hd; subst hd; cases e <;> rfl
      · simp at hd
    · split at h
      · simp only [Option.some.injEq] at h; subst h; cases e <;> rfl
      · simp at h
  have hg : ∀ (o : Option Cond) d, (∀ c, o = some c → PathF c = true) → PathF d = true → PathF (o.getD d) = true := by
    intro o d h hd
    cases o with
    | none => exact hd
    | some c => exact h c rfl
  unfold pushCmp
  simp only
  split
  · rfl
  · cases op <;> simp only
    · split <;> rfl
    · split <;> rfl
    · exact hg _ _ (hz _ _ _) rfl
    · exact hg _ _ (hz _ _ _) rfl

theorem andResult_path (ns : List Cond) (h : ∀ n ∈ ns, PathF n = true) : PathF (andResult ns) = true := by
  have h1 : ns.filterMap nefArg = [] := by
    rw [List.filterMap_eq_nil_iff]
    intro n hn
    have := h n hn
    unfold nefArg
    split
    · cases this
    · rfl
  have h2 : ∀ x ∈ ns.filter (fun c => (nefArg c).isNone), PathF x = true := fun x hx => h x (List.mem_filter.1 hx).1
  unfold andResult
  rw [h1]
  generalize ns.filter (fun c => (nefArg c).isNone) = b at *
  match b with
  | [] => rfl
  | [c] => exact h2 c (by simp)
  | c :: d :: b => exact makeLog_closed path_closed false _ h2

theorem orResult_path (ns : List Cond) (h : ∀ n ∈ ns, PathF n = true) : PathF (orResult ns) = true := by
  have h1 : ns.filterMap efArg = [] := by
    rw [List.filterMap_eq_nil_iff]
    intro n hn
    have := h n hn
    unfold efArg
    split
    · cases this
    · rfl
  have h2 : ∀ x ∈ ns.filter (fun c => (efArg c).isNone), PathF x = true := fun x hx => h x (List.mem_filter.1 hx).1
  unfold orResult
  rw [h1]
  generalize ns.filter (fun c => (efArg c).isNone) = b at *
  match b with
  | [] => rfl
  | [c] => exact h2 c (by simp)
  | c :: d :: b => exact makeLog_closed path_closed true _ h2

section
variable {v : Visit} (hv : PathVisit v)
include hv

theorem visitOps_path {nested neg stop : Bool} : ∀ (cs : List Cond) (ns : List Cond), (∀ c ∈ cs, PathF c = true) →
    visitOps v nested neg stop cs = some (.inr ns) → ∀ n ∈ ns, PathF n = true := by
  intro cs
  induction cs with
  | nil => intro ns _ h; simp [visitOps] at h; subst h; simp
  | cons c cs ih =>
    intro ns hc h
    have hcs : ∀ c ∈ cs, PathF c = true := fun d hd => hc d (by simp [hd])
    simp only [visitOps] at h
    split at h
    · simp at h
    · rename_i n hn
      have hcn := hv _ _ _ _ hn (hc c (by simp))
      split at h
      · split at h
        · simp at h
        · exact ih ns hcs h
      · split at h
        · simp at h
        · simp at h
        · rename_i ns' hns
          simp only [Option.some.injEq, Sum.inr.injEq] at h
          subst h
          intro x hx
          rcases List.mem_cons.1 hx with rfl | hx
          · exact hcn
          · exact ih ns' hcs hns x hx

theorem pushAnd_path {nested neg : Bool} {cs : List Cond} {r : Cond} (h : pushAnd v nested neg cs = some r)
    (hc : ∀ c ∈ cs, PathF c = true) : PathF r = true := by
  unfold pushAnd at h
  rw [Option.map_eq_some_iff] at h
  obtain ⟨x, hx, rfl⟩ := h
  cases x with
  | inl u => rfl
  | inr ns => exact andResult_path ns (visitOps_path hv cs ns hc hx)

theorem pushOr_path {nested neg : Bool} {cs : List Cond} {r : Cond} (h : pushOr v nested neg cs = some r)
    (hc : ∀ c ∈ cs, PathF c = true) : PathF r = true := by
  unfold pushOr at h
  rw [Option.map_eq_some_iff] at h
  obtain ⟨x, hx, rfl⟩ := h
  cases x with
  | inl u => rfl
  | inr ns => exact orResult_path ns (visitOps_path hv cs ns hc hx)

theorem pushU_path {neg : Bool} {c d r : Cond} (h : pushU v neg c d = some r)
    (hc : PathF c = true) (hd : PathF d = true) : PathF r = true := by
  simp only [pushU, Option.bind_eq_bind, Option.bind_eq_some_iff] at h
  obtain ⟨b, hb, a, ha, h⟩ := h
  have hA := hv _ _ _ _ ha hc
  have hB := hv _ _ _ _ hb hd
  split at h
  · cases h; exact negIf_path hB
  · cases h; exact negIf_path (by rw [PathF, hA, hB]; rfl)

theorem pushX_path {neg : Bool} {c r : Cond} (h : pushX v neg c = some r) (hc : PathF c = true) : PathF r = true := by
  simp only [pushX, Option.bind_eq_bind, Option.bind_eq_some_iff] at h
  obtain ⟨a, ha, h⟩ := h
  have hA := hv _ _ _ _ ha hc
  split at h
  · cases h; rfl
  · cases h; exact hA

theorem pushF_path {nested neg : Bool} {c r : Cond} (h : pushF v nested neg c = some r) (hc : PathF c = true) : PathF r = true := by
  simp only [pushF, Option.bind_eq_bind, Option.bind_eq_some_iff] at h
  obtain ⟨a, ha, h⟩ := h
  have hA := hv _ _ _ _ ha hc
  split at h
  · cases h; exact negIf_path hA
  · rw [PathF, Bool.and_eq_true] at hA
    exact hv _ _ _ _ h hA.2
  · split at h
    · refine hv _ _ _ _ h (makeLog_closed path_closed true _ fun c hm => ?_)
      obtain ⟨x, hx, rfl⟩ := List.mem_map.1 hm
      exact (passes_path.or _).1 hA x hx
    · cases h; exact negIf_path hA
  · cases h; exact negIf_path hA

theorem pushStep_path (K : RwCtx) : PathVisit (pushStep K v) := by
  intro nested neg c r h hc
  cases c with
  | bool b => cases h; exact rw_path rfl
  | dead => cases h; exact rw_path (negIf_path rfl)
  | cmp op e1 e2 => cases h; exact rw_path (pushCmp_path _ _ _ _)
  | cc l n => cases h; exact rw_path rfl
  | G c => exact hv _ _ _ _ h hc
  | not c =>
    simp only [pushStep, Option.map_eq_some_iff] at h
    obtain ⟨x, hx, rfl⟩ := h
    exact rw_path (hv _ _ _ _ hx hc)
  | and cs =>
    simp only [pushStep, Option.map_eq_some_iff] at h
    obtain ⟨x, hx, rfl⟩ := h
    apply rw_path
    split at hx
    · exact pushOr_path hv hx ((passes_path.and cs).1 hc)
    · exact pushAnd_path hv hx ((passes_path.and cs).1 hc)
  | or cs =>
    simp only [pushStep, Option.map_eq_some_iff] at h
    obtain ⟨x, hx, rfl⟩ := h
    apply rw_path
    split at hx
    · exact pushAnd_path hv hx ((passes_path.or cs).1 hc)
    · exact pushOr_path hv hx ((passes_path.or cs).1 hc)
  | X c =>
    simp only [pushStep, Option.map_eq_some_iff] at h
    obtain ⟨x, hx, rfl⟩ := h
    exact rw_path (pushX_path hv hx hc)
  | F c =>
    simp only [pushStep, Option.map_eq_some_iff] at h
    obtain ⟨x, hx, rfl⟩ := h
    exact rw_path (pushF_path hv hx hc)
  | U c d =>
    simp only [pushStep, Option.map_eq_some_iff] at h
    obtain ⟨x, hx, rfl⟩ := h
    have h2 := passes_path.U _ _ hc
    exact rw_path (pushU_path hv hx h2.1 h2.2)
  | _ => cases hc
end

theorem pushNegation_path (K : RwCtx) (fuel : Nat) : PathVisit (pushNegation K fuel) := by
  induction fuel with
  | zero => intro nested neg c r h; simp [pushNegation] at h
  | succ f ih => exact pushStep_path ih K

end LTL
end Verif
