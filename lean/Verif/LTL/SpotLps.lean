import Verif.LTL.SpotChain
import Verif.Simp.Main

/-! # The simplification with linear programs introduces no quantifiers -/

namespace Verif
namespace LTL
open PQL Simp

/-- models src/VerifyPN.cpp:449: the formula of the result of `simplify` -/
def lpsStep (o : Oracle) (n : Nat) (N : FlatNet) (m0 : Mark) (depth : Nat) (c : Cond) : Option Cond :=
  (simplify o n N m0 depth [] false c).map Ret.formula

variable {o : Oracle} {n : Nat} {N : FlatNet} {m0 : Nat → Nat} {π : List Nat} {r : Ret}

theorem notIf_path {neg : Bool} {c : Cond} (h : PathF c = true) : PathF (notIf neg c) = true := by
  unfold notIf
  split <;> exact h

theorem cmpOut_path (neg : Bool) (op : Cmp) (e1 e2 : Expr) : PathF (cmpOut neg op e1 e2) = true := by
  unfold cmpOut
  split
  · cases op <;> rfl
  · rfl

theorem endLF_path {f : Cond} {a b : Coll} (hf : PathF f = true) (h : endLF o n π f a b = some r) : PathF r.formula = true := by
  unfold endLF at h
  split at h
  · cases h
  · cases h; rfl
  · split at h
    · cases h
    · cases h; rfl
    · cases h; exact hf

theorem endNF_path {f : Cond} {a b : Coll} (hf : PathF f = true) (h : endNF o n π f a b = some r) : PathF r.formula = true := by
  unfold endNF at h
  split at h
  · cases h
  · cases h; rfl
  · split at h
    · cases h
    · cases h; rfl
    · cases h; exact hf

theorem cmpEnd_path {neg : Bool} {op : Cmp} {e1 e2 : Expr} {a b : Coll} (h : cmpEnd o n π neg op e1 e2 a b = some r) :
    PathF r.formula = true := by
  unfold cmpEnd at h
  split at h
  · exact endNF_path (cmpOut_path ..) h
  · exact endLF_path (cmpOut_path ..) h

theorem simpCmp_path {neg : Bool} {op : Cmp} {e1 e2 : Expr} (h : simpCmp o n N m0 π neg op e1 e2 = some r) : PathF r.formula = true := by
  unfold simpCmp at h
  simp only at h
  split at h
  · split at h
    · cases h; rfl
    · exact cmpEnd_path h
  · exact cmpEnd_path h

theorem ccOut_path (cs : List Cons) (neg : Bool) : PathF (ccOut cs neg) = true := by
  have hm : ∀ (orp : Bool) (a b : Cond), PathF a = true → PathF b = true → PathF (makeLog orp [a, b]) = true := fun orp a b ha hb =>
    makeLog_closed path_closed orp _ fun c hc => by
      rcases List.mem_cons.1 hc with rfl | hc
      · exact ha
      · rw [List.mem_singleton.1 hc]; exact hb
  unfold ccOut
  split
  · simp only
    split
    · split
      · split <;> rfl
      · split <;> rfl
    · split
      · split
        · exact hm _ _ _ rfl rfl
        · exact hm _ _ _ rfl rfl
      · split
        · split <;> rfl
        · split <;> rfl
  · rfl

theorem ccEnd_path {neg : Bool} {ks : List Cons} {ns : List Coll} {l : Coll} (h : ccEnd o n π neg ks ns l = some r) :
    PathF r.formula = true := by
  unfold ccEnd at h
  split at h
  · cases h
  · cases h; rfl
  · split at h
    · cases h
    · split at h
      · cases h; rfl
      · split at h
        · cases h; exact ccOut_path ..
        · cases h; exact ccOut_path ..

theorem simpCC_path {ctx neg : Bool} {cs : List Cons} (h : simpCC o n N m0 π ctx cs neg = some r) : PathF r.formula = true := by
  unfold simpCC at h
  split at h
  · cases h; rfl
  · simp only at h
    split at h
    · cases h; rfl
    · split at h
      · cases h; rfl
      · split at h
        · cases h
        · exact ccEnd_path h

theorem quant_path {onT onF : Cond} {mk : Cond → Cond} {x : Ret} (hT : PathF onT = true) (hF : PathF onF = true)
    (hm : PathF (mk x.formula) = true) (h : quant o n π onT onF mk x = some r) : PathF r.formula = true := by
  unfold quant at h
  split at h
  · cases h
  · cases h; exact hT
  · split at h
    · cases h
    · cases h; exact hF
    · cases h; exact hm

theorem simpList_path {v : List Nat → Cond → Option Ret} {stop : Bool} : ∀ (cs : List Cond) (rs : List Ret),
    (∀ c ∈ cs, ∀ π r, v π c = some r → PathF r.formula = true) → simpList v π stop cs = some (some rs) →
    ∀ x ∈ rs, PathF x.formula = true := by
  intro cs
  induction cs with
  | nil => intro rs _ h; cases h; simp
  | cons c cs ih =>
    intro rs hv h
    rw [simpList] at h
    split at h
    · cases h
    · rename_i x hx
      split at h
      · cases h
      · split at h
        · cases h
        · cases h
        · rename_i rs' hrs
          have ih' := ih rs' (fun d hd => hv d (List.mem_cons_of_mem _ hd)) hrs
          split at h
          · cases h; exact ih'
          · cases h
            intro y hy
            rcases List.mem_cons.1 hy with rfl | hy
            · exact hv c (List.mem_cons_self ..) _ _ hx
            · exact ih' y hy

theorem simpLog_path {v : List Nat → Cond → Option Ret} {orp : Bool} {cs : List Cond}
    (hv : ∀ c ∈ cs, ∀ π r, v π c = some r → PathF r.formula = true) (h : simpLog o n v π orp cs = some r) : PathF r.formula = true := by
  unfold simpLog at h
  split at h
  · cases h
  · cases h; rfl
  · rename_i rs hrs
    have hp := simpList_path cs rs hv hrs
    have hp' : ∀ c ∈ rs.map Ret.formula, PathF c = true := by
      intro c hc
      obtain ⟨x, hx, rfl⟩ := List.mem_map.1 hc
      exact hp x hx
    split at h
    · unfold orEnd at h
      split at h
      · cases h; rfl
      · split at h
        · cases h
        · split at h
          · cases h
          · cases h; rfl
          · cases h; exact makeLog_closed path_closed true _ hp'
    · unfold andEnd at h
      split at h
      · cases h; rfl
      · split at h
        · cases h
        · split at h
          · cases h
          · cases h; rfl
          · cases h; exact makeLog_closed path_closed false _ hp'

theorem simpUntil_path {v : List Nat → Bool → Cond → Option Ret} {neg : Bool} {c d : Cond}
    (hv : ∀ π neg c r, v π neg c = some r → PathF c = true → PathF r.formula = true) (hc : PathF c = true) (hd : PathF d = true)
    (h : simpUntil o n v π neg c d .F .U = some r) : PathF r.formula = true := by
  unfold simpUntil at h
  split at h
  · cases h
  · rename_i r2 h2
    have p2 := hv _ _ _ _ h2 hd
    split at h
    · cases h
    · cases h; rfl
    · split at h
      · cases h
      · cases h; rfl
      · split at h
        · cases h
        · rename_i r1 h1
          have p1 := hv _ _ _ _ h1 hc
          split at h
          · cases h
          · cases h; exact notIf_path p2
          · split at h
            · cases h
            · split at h
              · cases h; exact p2
              · cases h; exact p2
            · cases h; exact notIf_path (by rw [PathF, p1, p2]; rfl)

theorem andThen_path {x : Option Ret} {f : Ret → Option Ret} (h : andThen x f = some r) : ∃ y, x = some y ∧ f y = some r := by
  cases x with
  | none => cases h
  | some y => exact ⟨y, rfl, h⟩

theorem simplify_path (d : Nat) : ∀ (π : List Nat) (neg : Bool) (c : Cond) (r : Ret), simplify o n N m0 d π neg c = some r →
    PathF c = true → PathF r.formula = true := by
  induction d with
  | zero => intro π neg c r h; cases h
  | succ d ih =>
    intro π neg c r h hc
    rw [simplify] at h
    cases c with
    | bool b => cases h; rfl
    | dead => cases h; exact notIf_path rfl
    | cmp op e1 e2 => exact simpCmp_path h
    | cc l k => exact simpCC_path h
    | not c => exact ih _ _ _ _ h hc
    | and cs =>
      have hcs := (passes_path.and cs).1 hc
      rw [simpStep] at h
      split at h
      · cases h; exact notIf_path (makeLog_closed path_closed false _ hcs)
      · exact simpLog_path (fun c hm π r hr => ih _ _ _ _ hr (hcs c hm)) h
    | or cs =>
      have hcs := (passes_path.or cs).1 hc
      rw [simpStep] at h
      split at h
      · cases h; exact notIf_path (makeLog_closed path_closed true _ hcs)
      · exact simpLog_path (fun c hm π r hr => ih _ _ _ _ hr (hcs c hm)) h
    | X c =>
      obtain ⟨y, h1, h2⟩ := andThen_path h
      exact quant_path rfl rfl (ih _ _ _ _ h1 hc) h2
    | F c =>
      obtain ⟨y, h1, h2⟩ := andThen_path h
      exact quant_path rfl rfl (by cases neg <;> exact ih _ _ _ _ h1 hc) h2
    | G c =>
      obtain ⟨y, h1, h2⟩ := andThen_path h
      exact quant_path rfl rfl (by cases neg <;> exact ih _ _ _ _ h1 hc) h2
    | U c e =>
      have h2 := passes_path.U _ _ hc
      exact simpUntil_path (v := simplify o n N m0 d) ih h2.1 h2.2 h
    | _ => cases hc

end LTL
end Verif
