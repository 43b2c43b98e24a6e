import Verif.Simp.Sound

/-!
# The simplifier: connectives and atoms
-/

namespace Verif
namespace Simp
open PQL Coll

variable {T : TS} {I : Mark → Prop} {Ct : Mark → (Nat → Int) → Prop} {o : Oracle} {Fs : Pred} {r r' : Ret}
  {P Q : (Nat → Mark) → Prop} {st st' : Prop} {n : Nat} {π : List Nat}

/-! ### Connectives -/

theorem RetOK.self (h : RetOK T I Ct Fs r P st) (hst : st' → st) :
    RetOK T I Ct Fs r (fun π => r.formula.sat T π) st' :=
  h.change hst fun π hp hi => (h.sat π hp hi).symm

/-- What the visits of the operands deliver. -/
def ListOut (T : TS) (I : Mark → Prop) (Ct : Mark → (Nat → Int) → Prop) (Fs : Pred) (neg stop : Bool)
    (cs : List Cond) : Option (List Ret) → Prop
  | none => ∀ π, T.IsPath π → I (π 0) → (stop = true ↔ opsHold stop neg T π cs)
  | some rs => (∀ r ∈ rs, RetOK T I Ct Fs r (fun π => r.formula.sat T π) (∀ c ∈ cs, c.isState = true)) ∧
      ∀ π, T.IsPath π → I (π 0) → (logHolds stop T π (rs.map Ret.formula) ↔ opsHold stop neg T π cs)

theorem simpList_spec {v : List Nat → Cond → Option Ret} {neg stop : Bool} {cs : List Cond}
    (hv : ∀ π c r, c ∈ cs → v π c = some r → RetOK T I Ct Fs r (fun π => xneg neg (c.sat T π)) (c.isState = true))
    {x : Option (List Ret)} (h : simpList v π stop cs = some x) : ListOut T I Ct Fs neg stop cs x := by
  induction cs generalizing x with
  | nil =>
    simp only [simpList, Option.some.injEq] at h
    subst h
    refine ⟨by simp, fun π _ _ => ?_⟩
    cases stop <;> simp [logHolds, opsHold]
  | cons c cs ih =>
    have ih := fun x => ih (x := x) fun π d r hd => hv π d r (List.mem_cons_of_mem _ hd)
    rw [simpList] at h
    cases hn : v (cs.length :: π) c with
    | none => rw [hn] at h; simp at h
    | some r =>
    rw [hn] at h
    have hr := hv _ c r (List.mem_cons_self ..) hn
    simp only at h
    split at h
    · rename_i hb
      obtain rfl := Option.some.inj h
      rw [isB_iff] at hb
      intro ρ hp hi
      have := hr.sat ρ hp hi
      rw [hb] at this
      simp only [Cond.sat] at this
      rw [opsHold_cons, ← this]
      cases stop <;> simp [J]
    · rename_i hb
      cases hrec : simpList v π stop cs with
      | none => rw [hrec] at h; simp at h
      | some y =>
      rw [hrec] at h
      have hy := ih y hrec
      cases y with
      | none =>
        simp only at h
        obtain rfl := Option.some.inj h
        intro ρ hp hi
        have := hy ρ hp hi
        rw [opsHold_cons]
        cases stop
        · simp only [J, Bool.false_eq_true, if_false, false_iff, not_and] at this ⊢
          exact fun _ => this
        · simp only [J, if_true, true_iff] at this ⊢
          exact .inr this
      | some rs =>
        simp only at h
        split at h
        · rename_i hb2
          obtain rfl := Option.some.inj h
          rw [isB_iff] at hb2
          refine ⟨fun q hq => (hy.1 q hq).change (fun hs c hc => hs c (List.mem_cons_of_mem _ hc)) fun _ _ _ => Iff.rfl,
            fun ρ hp hi => ?_⟩
          rw [hy.2 ρ hp hi, opsHold_cons]
          have := hr.sat ρ hp hi
          rw [hb2] at this
          simp only [Cond.sat] at this
          rw [← this]
          cases stop <;> simp [J]
        · obtain rfl := Option.some.inj h
          refine ⟨fun q hq => ?_, fun ρ hp hi => ?_⟩
          · rcases List.mem_cons.1 hq with rfl | hq
            · exact hr.self fun hs => hs c (List.mem_cons_self ..)
            · exact (hy.1 q hq).change (fun hs c hc => hs c (List.mem_cons_of_mem _ hc)) fun _ _ _ => Iff.rfl
          · rw [List.map_cons, logHolds_cons, opsHold_cons]
            exact J_congr stop (hr.sat ρ hp hi) (hy.2 ρ hp hi)

section
variable (hS : Setting T I Ct o Fs)
include hS

theorem orEnd_spec {rs : List Ret} (hr : ∀ r ∈ rs, RetOK T I Ct Fs r (fun π => r.formula.sat T π) st)
    (h : orEnd o n π rs = some r') :
    RetOK T I Ct Fs r' (fun π => logHolds true T π (rs.map Ret.formula)) st := by
  unfold orEnd at h
  split at h
  · rename_i hnil
    obtain rfl := Option.some.inj h
    subst hnil
    exact RetOK.bool fun ρ _ _ => by simp [logHolds]
  · cases hm : mergeLps (2 * rs.length + 1) 0 (rs.map Ret.neglps) with
    | none => rw [hm] at h; simp at h
    | some neg =>
    rw [hm] at h
    obtain ⟨m1, m2⟩ := mergeLps_spec (Fs := Fs) _ hm fun d hd => by
      obtain ⟨r, hr', rfl⟩ := List.mem_map.1 hd
      exact (hr r hr').invN
    simp only at h
    have hneg : ∀ ρ x, T.IsPath ρ → I (ρ 0) → Ct (ρ 0) x → ¬ logHolds true T ρ (rs.map Ret.formula) → Sat neg x := by
      intro ρ x hp hi hx hnl
      refine m2 x fun d hd => ?_
      obtain ⟨r, hr', rfl⟩ := List.mem_map.1 hd
      refine (hr r hr').neg ρ x hp hi hx fun hsat => hnl ?_
      simp only [logHolds, if_true]
      exact ⟨r.formula, List.mem_map_of_mem hr', hsat⟩
    cases ht : testC o n π neg with
    | none => rw [ht] at h; simp at h
    | some k =>
    obtain ⟨b, neg'⟩ := k
    rw [ht] at h
    have hso := testC_spec hS m1 ht
    cases b with
    | false =>
      simp only at h
      obtain rfl := Option.some.inj h
      refine RetOK.bool fun ρ hp hi => ?_
      simp only [true_iff]
      by_cases hl : logHolds true T ρ (rs.map Ret.formula)
      · exact hl
      · obtain ⟨x, hx⟩ := hS.ex _ hi
        exact absurd (hneg ρ x hp hi hx hl) (hso.no rfl x (hS.fs _ _ hx))
    | true =>
      simp only at h
      obtain rfl := Option.some.inj h
      have hwf : ∀ c ∈ rs.map Ret.formula, c.wf = true := fun c hc => by
        obtain ⟨r, hr', rfl⟩ := List.mem_map.1 hc
        exact (hr r hr').wf
      refine ⟨makeOr_wf _ hwf, fun hs => makeOr_state _ hwf fun c hc => ?_, fun ρ hp hi => ?_, ?_, hso.inv, ?_, ?_⟩
      · obtain ⟨r, hr', rfl⟩ := List.mem_map.1 hc
        exact (hr r hr').state hs
      · exact (makeLog_spec (hS.inv.m32 _ hi) true _ hwf).1
      · refine inv_mkUnion fun c hc => ?_
        obtain ⟨r, hr', rfl⟩ := List.mem_map.1 hc
        exact (hr r hr').invL
      · intro ρ x hp hi hx hl
        simp only [logHolds, if_true] at hl
        obtain ⟨c, hc, hsat⟩ := hl
        obtain ⟨r, hr', rfl⟩ := List.mem_map.1 hc
        exact sat_mkUnion (List.mem_map_of_mem hr') ((hr r hr').pos ρ x hp hi hx hsat)
      · intro ρ x hp hi hx hl
        exact hso.keep x (hS.fs _ _ hx) (hneg ρ x hp hi hx hl)

theorem andEnd_spec {rs : List Ret} (hr : ∀ r ∈ rs, RetOK T I Ct Fs r (fun π => r.formula.sat T π) st)
    (h : andEnd o n π rs = some r') :
    RetOK T I Ct Fs r' (fun π => logHolds false T π (rs.map Ret.formula)) st := by
  unfold andEnd at h
  split at h
  · rename_i hnil
    obtain rfl := Option.some.inj h
    subst hnil
    exact RetOK.bool fun ρ _ _ => by simp [logHolds]
  · cases hm : mergeLps (2 * rs.length + 1) 0 (rs.map Ret.lps) with
    | none => rw [hm] at h; simp at h
    | some lps =>
    rw [hm] at h
    obtain ⟨m1, m2⟩ := mergeLps_spec (Fs := Fs) _ hm fun d hd => by
      obtain ⟨r, hr', rfl⟩ := List.mem_map.1 hd
      exact (hr r hr').invL
    simp only at h
    have hpos : ∀ ρ x, T.IsPath ρ → I (ρ 0) → Ct (ρ 0) x → logHolds false T ρ (rs.map Ret.formula) → Sat lps x := by
      intro ρ x hp hi hx hl
      refine m2 x fun d hd => ?_
      obtain ⟨r, hr', rfl⟩ := List.mem_map.1 hd
      refine (hr r hr').pos ρ x hp hi hx ?_
      simp only [logHolds, Bool.false_eq_true, if_false] at hl
      exact hl _ (List.mem_map_of_mem hr')
    cases ht : testC o n π lps with
    | none => rw [ht] at h; simp at h
    | some k =>
    obtain ⟨b, lps'⟩ := k
    rw [ht] at h
    have hso := testC_spec hS m1 ht
    cases b with
    | false =>
      simp only at h
      obtain rfl := Option.some.inj h
      refine RetOK.bool fun ρ hp hi => ?_
      simp only [Bool.false_eq_true, false_iff]
      intro hl
      obtain ⟨x, hx⟩ := hS.ex _ hi
      exact hso.no rfl x (hS.fs _ _ hx) (hpos ρ x hp hi hx hl)
    | true =>
      simp only at h
      obtain rfl := Option.some.inj h
      have hwf : ∀ c ∈ rs.map Ret.formula, c.wf = true := fun c hc => by
        obtain ⟨r, hr', rfl⟩ := List.mem_map.1 hc
        exact (hr r hr').wf
      refine ⟨makeAnd_wf _ hwf, fun hs => makeAnd_state _ hwf fun c hc => ?_, fun ρ hp hi => ?_, hso.inv, ?_, ?_, ?_⟩
      · obtain ⟨r, hr', rfl⟩ := List.mem_map.1 hc
        exact (hr r hr').state hs
      · exact (makeLog_spec (hS.inv.m32 _ hi) false _ hwf).1
      · refine inv_mkUnion fun c hc => ?_
        obtain ⟨r, hr', rfl⟩ := List.mem_map.1 hc
        exact (hr r hr').invN
      · intro ρ x hp hi hx hl
        exact hso.keep x (hS.fs _ _ hx) (hpos ρ x hp hi hx hl)
      · intro ρ x hp hi hx hl
        simp only [logHolds, Bool.false_eq_true, if_false] at hl
        push Not at hl
        obtain ⟨c, hc, hsat⟩ := hl
        obtain ⟨r, hr', rfl⟩ := List.mem_map.1 hc
        exact sat_mkUnion (List.mem_map_of_mem hr') ((hr r hr').neg ρ x hp hi hx hsat)

theorem simpLog_spec {v : List Nat → Cond → Option Ret} {neg orp : Bool} {cs : List Cond}
    (hv : ∀ π c r, c ∈ cs → v π c = some r → RetOK T I Ct Fs r (fun π => xneg neg (c.sat T π)) (c.isState = true))
    (h : simpLog o n v π orp cs = some r) :
    RetOK T I Ct Fs r (fun π => opsHold orp neg T π cs) (∀ c ∈ cs, c.isState = true) := by
  unfold simpLog at h
  cases hl : simpList v (0 :: π) orp cs with
  | none => rw [hl] at h; simp at h
  | some x =>
  rw [hl] at h
  have hx := simpList_spec hv hl
  cases x with
  | none =>
    simp only at h
    obtain rfl := Option.some.inj h
    exact RetOK.bool hx
  | some rs =>
    simp only at h
    cases orp with
    | true => exact (orEnd_spec hS hx.1 h).change id hx.2
    | false => exact (andEnd_spec hS hx.1 h).change id hx.2

/-! ### Comparisons -/

/-- the programs cover the states where `P` holds, and where it does not -/
structure Cover (T : TS) (I : Mark → Prop) (Ct : Mark → (Nat → Int) → Prop) (Fs : Pred) (lps neglps : Coll)
    (P : (Nat → Mark) → Prop) : Prop where
  invL : InvR Fs lps
  invN : InvR Fs neglps
  pos : ∀ π x, T.IsPath π → I (π 0) → Ct (π 0) x → P π → Sat lps x
  neg : ∀ π x, T.IsPath π → I (π 0) → Ct (π 0) x → ¬ P π → Sat neglps x

theorem endLF_spec {f : Cond} {lps neglps : Coll} (hw : f.wf = true) (hst : f.isState = true)
    (hsat : ∀ π, T.IsPath π → I (π 0) → (f.sat T π ↔ P π)) (hc : Cover T I Ct Fs lps neglps P)
    (h : endLF o n π f lps neglps = some r) : RetOK T I Ct Fs r P st := by
  unfold endLF at h
  have ok : RetOK T I Ct Fs ⟨f, lps, neglps⟩ P st := ⟨hw, fun _ => hst, hsat, hc.invL, hc.invN, hc.pos, hc.neg⟩
  cases h1 : testC o n (0 :: π) lps with
  | none => rw [h1] at h; simp at h
  | some k =>
  obtain ⟨b, lps'⟩ := k
  rw [h1] at h
  have s1 := testC_spec hS hc.invL h1
  cases b with
  | false =>
    simp only at h
    obtain rfl := Option.some.inj h
    exact RetOK.bool fun ρ hp hi => by simpa using ok.never hS (s1.no rfl) hp hi
  | true =>
  simp only at h
  cases h2 : testC o n (1 :: π) neglps with
  | none => rw [h2] at h; simp at h
  | some k =>
  obtain ⟨b, neg'⟩ := k
  rw [h2] at h
  have s2 := testC_spec hS hc.invN h2
  cases b with
  | false =>
    simp only at h
    obtain rfl := Option.some.inj h
    exact RetOK.bool fun ρ hp hi => by simpa using ok.always hS (s2.no rfl) hp hi
  | true =>
    simp only at h
    obtain rfl := Option.some.inj h
    exact ⟨hw, fun _ => hst, hsat, s1.inv, s2.inv,
      fun ρ x hp hi hx hP => s1.keep x (hS.fs _ _ hx) (hc.pos ρ x hp hi hx hP),
      fun ρ x hp hi hx hP => s2.keep x (hS.fs _ _ hx) (hc.neg ρ x hp hi hx hP)⟩

theorem endNF_spec {f : Cond} {lps neglps : Coll} (hw : f.wf = true) (hst : f.isState = true)
    (hsat : ∀ π, T.IsPath π → I (π 0) → (f.sat T π ↔ P π)) (hc : Cover T I Ct Fs lps neglps P)
    (h : endNF o n π f lps neglps = some r) : RetOK T I Ct Fs r P st := by
  unfold endNF at h
  have ok : RetOK T I Ct Fs ⟨f, lps, neglps⟩ P st := ⟨hw, fun _ => hst, hsat, hc.invL, hc.invN, hc.pos, hc.neg⟩
  cases h1 : testC o n (0 :: π) neglps with
  | none => rw [h1] at h; simp at h
  | some k =>
  obtain ⟨b, neg'⟩ := k
  rw [h1] at h
  have s1 := testC_spec hS hc.invN h1
  cases b with
  | false =>
    simp only at h
    obtain rfl := Option.some.inj h
    exact RetOK.bool fun ρ hp hi => by simpa using ok.always hS (s1.no rfl) hp hi
  | true =>
  simp only at h
  cases h2 : testC o n (1 :: π) lps with
  | none => rw [h2] at h; simp at h
  | some k =>
  obtain ⟨b, lps'⟩ := k
  rw [h2] at h
  have s2 := testC_spec hS hc.invL h2
  cases b with
  | false =>
    simp only at h
    obtain rfl := Option.some.inj h
    exact RetOK.bool fun ρ hp hi => by simpa using ok.never hS (s2.no rfl) hp hi
  | true =>
    simp only at h
    obtain rfl := Option.some.inj h
    exact ⟨hw, fun _ => hst, hsat, s2.inv, s1.inv,
      fun ρ x hp hi hx hP => s2.keep x (hS.fs _ _ hx) (hc.pos ρ x hp hi hx hP),
      fun ρ x hp hi hx hP => s1.keep x (hS.fs _ _ hx) (hc.neg ρ x hp hi hx hP)⟩

end

theorem cmpOK_eqne {e1 e2 : Expr} : cmpOK .eq e1 e2 = cmpOK .ne e1 e2 := rfl

theorem cmpOut_spec {op : Cmp} {e1 e2 : Expr} (neg : Bool) (h : cmpOK op e1 e2 = true) :
    (cmpOut neg op e1 e2).wf = true ∧ (cmpOut neg op e1 e2).isState = true ∧
    ∀ π : Nat → Mark, ((cmpOut neg op e1 e2).sat T π ↔ xneg neg ((Cond.cmp op e1 e2).sat T π)) := by
  cases neg
  · exact ⟨h, rfl, fun π => by simp [cmpOut, xneg]⟩
  · cases op
    · exact ⟨cmpOK_flip_lt h, rfl, fun π => by simp [cmpOut, xneg, Cond.sat, Cmp.holds]⟩
    · exact ⟨cmpOK_flip_le h, rfl, fun π => by simp [cmpOut, xneg, Cond.sat, Cmp.holds]⟩
    · exact ⟨h, rfl, fun π => by simp [cmpOut, xneg, Cond.sat, Cmp.holds]⟩
    · exact ⟨h, rfl, fun π => by simp [cmpOut, xneg, Cond.sat, Cmp.holds]⟩

theorem cmpEnd_spec (hS : Setting T I Ct o Fs) {op : Cmp} {e1 e2 : Expr} {neg : Bool} {lps neglps : Coll}
    (hok : cmpOK op e1 e2 = true)
    (hc : Cover T I Ct Fs lps neglps (fun π => xneg neg ((Cond.cmp op e1 e2).sat T π)))
    (h : cmpEnd o n π neg op e1 e2 lps neglps = some r) :
    RetOK T I Ct Fs r (fun π => xneg neg ((Cond.cmp op e1 e2).sat T π)) st := by
  obtain ⟨h1, h2, h3⟩ := cmpOut_spec (T := T) neg hok
  unfold cmpEnd at h
  split at h
  · exact endNF_spec hS h1 h2 (fun π _ _ => h3 π) hc h
  · exact endLF_spec hS h1 h2 (fun π _ _ => h3 π) hc h

/-- The constants of the two sides and their difference are `int`s. -/
def fits2 (m1 m2 : Member) : Bool := fits m1.const && fits m2.const && fits (m2.const - m1.const)

theorem diffConst_eq {m1 m2 : Member} (h : fits2 m1 m2 = true) : diffConst m1 m2 = m2.const - m1.const := by
  simp only [fits2, Bool.and_eq_true] at h
  unfold diffConst Member.constant
  rw [toI32_fits h.1.1, toI32_fits h.1.2, toI32_fits h.2]

theorem single_sub {m1 m2 : Member} (h : fits2 m1 m2 = true) (op : OpT) (x : Nat → Int) :
    Sat (mkSingle (Member.sub m1 m2) (diffConst m1 m2) op) x ↔
      OpT.holds (m1.at x - m2.at x) 0 op := by
  rw [sat_mkSingle, diffConst_eq h]
  simp only [Member.sub, dot_subV, Member.at]
  cases op <;> simp only [OpT.holds] <;> omega

theorem neColl_sat {m1 m2 : Member} (h : fits2 m1 m2 = true) {x : Nat → Int} (hx : m1.at x ≠ m2.at x) :
    Sat (neColl (Member.sub m1 m2) (diffConst m1 m2)) x := by
  refine sat_mkUnion2 ?_
  rw [single_sub h, single_sub h]
  simp only [OpT.holds]
  omega

theorem inv_neColl (d : Member) (c : Int) : InvR Fs (neColl d c) :=
  inv_mkUnion2 (inv_mkSingle _ _ _) (inv_mkSingle _ _ _)

/-- A trivial verdict on a comparison is right for all firing counts. -/
theorem cmpAna_inl {neg : Bool} {op : Cmp} {m1 m2 : Member} (hf : fits2 m1 m2 = true) {b : Bool}
    (h : cmpAna neg op m1 m2 = .inl b) {x : Nat → Int} (hx : ∀ i, 0 ≤ x i) :
    b = true ↔ xneg neg (op.holds (m1.at x) (m2.at x)) := by
  have hf' := hf
  simp only [fits2, Bool.and_eq_true] at hf'
  have hsame : ((m1.isZero && m2.isZero) || Member.sameV m1.vars m2.vars) = true →
      (m1.constant = m2.constant ↔ m1.at x = m2.at x) := by
    intro hz
    have hd : dot m1.vars x = dot m2.vars x := by
      simp only [Bool.or_eq_true, Bool.and_eq_true] at hz
      rcases hz with hz | hz
      · rw [isZero_dot hz.1, isZero_dot hz.2]
      · exact dot_same hz x
    unfold Member.constant Member.at
    rw [toI32_fits hf'.1.1, toI32_fits hf'.1.2, hd]
    omega
  cases op with
  | lt =>
    simp only [cmpAna] at h
    generalize hg : (if neg = true then Member.trivialLess false m2 m1 else Member.trivialLess true m1 m2) = g at h
    cases g with
    | none => simp at h
    | some b' =>
      simp only [Sum.inl.injEq] at h
      subst h
      cases neg
      · simp only [Bool.false_eq_true, if_false] at hg
        have := trivialLess_at hf'.1.1 hf'.1.2 hg hx
        simpa [xneg, Cmp.holds, lessP] using this
      · simp only [if_true] at hg
        have := trivialLess_at hf'.1.2 hf'.1.1 hg hx
        simpa [xneg, Cmp.holds, lessP] using this
  | le =>
    simp only [cmpAna] at h
    generalize hg : (if neg = true then Member.trivialLess true m2 m1 else Member.trivialLess false m1 m2) = g at h
    cases g with
    | none => simp at h
    | some b' =>
      simp only [Sum.inl.injEq] at h
      subst h
      cases neg
      · simp only [Bool.false_eq_true, if_false] at hg
        have := trivialLess_at hf'.1.1 hf'.1.2 hg hx
        simpa [xneg, Cmp.holds, lessP] using this
      · simp only [if_true] at hg
        have := trivialLess_at hf'.1.2 hf'.1.1 hg hx
        simpa [xneg, Cmp.holds, lessP] using this
  | eq =>
    simp only [cmpAna] at h
    split at h
    · rename_i hz
      simp only [Sum.inl.injEq] at h
      subst h
      cases neg <;> simp [xneg, Cmp.holds, hsame hz]
    · split at h <;> cases h
  | ne =>
    simp only [cmpAna] at h
    split at h
    · rename_i hz
      simp only [Sum.inl.injEq] at h
      subst h
      cases neg <;> simp [xneg, Cmp.holds, hsame hz]
    · split at h <;> cases h

/-- The programs of a comparison cover the counts where it holds, and where it does not. -/
theorem cmpAna_inr {neg : Bool} {op : Cmp} {m1 m2 : Member} (hf : fits2 m1 m2 = true) {l k : Coll}
    (h : cmpAna neg op m1 m2 = .inr (l, k)) :
    InvR Fs l ∧ InvR Fs k ∧ ∀ x, (xneg neg (op.holds (m1.at x) (m2.at x)) → Sat l x) ∧
      (¬ xneg neg (op.holds (m1.at x) (m2.at x)) → Sat k x) := by
  cases op with
  | lt =>
    simp only [cmpAna] at h
    generalize (if neg = true then Member.trivialLess false m2 m1 else Member.trivialLess true m1 m2) = g at h
    cases g with
    | some b => simp at h
    | none =>
      simp only [Sum.inr.injEq, Prod.mk.injEq] at h
      obtain ⟨rfl, rfl⟩ := h
      refine ⟨inv_mkSingle _ _ _, inv_mkSingle _ _ _, fun x => ?_⟩
      rw [single_sub hf, single_sub hf]
      cases neg <;> simp only [xneg, Cmp.holds, OpT.holds, Bool.false_eq_true, if_false, if_true] <;> omega
  | le =>
    simp only [cmpAna] at h
    generalize (if neg = true then Member.trivialLess true m2 m1 else Member.trivialLess false m1 m2) = g at h
    cases g with
    | some b => simp at h
    | none =>
      simp only [Sum.inr.injEq, Prod.mk.injEq] at h
      obtain ⟨rfl, rfl⟩ := h
      refine ⟨inv_mkSingle _ _ _, inv_mkSingle _ _ _, fun x => ?_⟩
      rw [single_sub hf, single_sub hf]
      cases neg <;> simp only [xneg, Cmp.holds, OpT.holds, Bool.false_eq_true, if_false, if_true] <;> omega
  | eq =>
    simp only [cmpAna] at h
    split at h
    · cases h
    · cases neg <;> simp only [Bool.false_eq_true, if_false, if_true, Sum.inr.injEq, Prod.mk.injEq] at h <;>
        obtain ⟨rfl, rfl⟩ := h
      · refine ⟨inv_mkSingle _ _ _, inv_neColl _ _, fun x => ⟨fun hx => ?_, fun hx => ?_⟩⟩
        · rw [single_sub hf]
          simp only [xneg, Cmp.holds, OpT.holds, Bool.false_eq_true, if_false] at hx ⊢
          omega
        · exact neColl_sat hf (by simpa [xneg, Cmp.holds] using hx)
      · refine ⟨inv_neColl _ _, inv_mkSingle _ _ _, fun x => ⟨fun hx => ?_, fun hx => ?_⟩⟩
        · exact neColl_sat hf (by simpa [xneg, Cmp.holds] using hx)
        · rw [single_sub hf]
          simp only [xneg, Cmp.holds, OpT.holds, if_true] at hx ⊢
          omega
  | ne =>
    simp only [cmpAna] at h
    split at h
    · cases h
    · cases neg <;> simp only [Bool.false_eq_true, if_false, if_true, Sum.inr.injEq, Prod.mk.injEq] at h <;>
        obtain ⟨rfl, rfl⟩ := h
      · refine ⟨inv_neColl _ _, inv_mkSingle _ _ _, fun x => ⟨fun hx => ?_, fun hx => ?_⟩⟩
        · exact neColl_sat hf (by simpa [xneg, Cmp.holds] using hx)
        · rw [single_sub hf]
          simp only [xneg, Cmp.holds, OpT.holds, Bool.false_eq_true, if_false] at hx ⊢
          omega
      · refine ⟨inv_mkSingle _ _ _, inv_neColl _ _, fun x => ⟨fun hx => ?_, fun hx => ?_⟩⟩
        · rw [single_sub hf]
          simp only [xneg, Cmp.holds, OpT.holds, if_true] at hx ⊢
          omega
        · exact neColl_sat hf (by simpa [xneg, Cmp.holds] using hx)

theorem simpCmp_spec (hS : Setting T I Ct o Fs) {N : FlatNet} {m0 : Mark}
    (hCt : ∀ m x, Ct m x → Counts N m0 m x) {op : Cmp} {e1 e2 : Expr} {neg : Bool}
    (hok : cmpOK op e1 e2 = true) (h1 : exactE e1 = true) (h2 : exactE e2 = true)
    (hf : fits2 (constraint N m0 e1) (constraint N m0 e2) = true)
    (h : simpCmp o n N m0 π neg op e1 e2 = some r) :
    RetOK T I Ct Fs r (fun π => xneg neg ((Cond.cmp op e1 e2).sat T π)) st := by
  unfold simpCmp at h
  simp only at h
  split at h
  · rename_i hc
    obtain ⟨_, c1, c2⟩ := hc
    have hat : ∀ {m x}, Ct m x → (constraint N m0 e1).at x = e1.val m ∧ (constraint N m0 e2).at x = e2.val m :=
      fun hx => ⟨constraint_at (hCt _ _ hx) e1 h1 c1, constraint_at (hCt _ _ hx) e2 h2 c2⟩
    cases ha : cmpAna neg op (constraint N m0 e1) (constraint N m0 e2) with
    | inl b =>
      rw [ha] at h
      simp only at h
      obtain rfl := Option.some.inj h
      refine RetOK.bool fun ρ hp hi => ?_
      obtain ⟨x, hx⟩ := hS.ex _ hi
      have := cmpAna_inl hf ha (hCt _ _ hx).1
      rw [(hat hx).1, (hat hx).2] at this
      exact this
    | inr q =>
      obtain ⟨l, k⟩ := q
      rw [ha] at h
      simp only at h
      obtain ⟨i1, i2, i3⟩ := cmpAna_inr (Fs := Fs) hf ha
      refine cmpEnd_spec hS hok ⟨i1, i2, fun ρ x hp hi hx hP => ?_, fun ρ x hp hi hx hP => ?_⟩ h
      · have := (i3 x).1
        rw [(hat hx).1, (hat hx).2] at this
        exact this hP
      · have := (i3 x).2
        rw [(hat hx).1, (hat hx).2] at this
        exact this hP
  · exact cmpEnd_spec hS hok ⟨inv_empty, inv_empty, fun _ _ _ _ _ _ => sat_empty _, fun _ _ _ _ _ _ => sat_empty _⟩ h

end Simp
end Verif
