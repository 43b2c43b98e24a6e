import Verif.PQL.PushNeg
import Verif.PQL.EvalLemmas

/-!
# The form of rewritten CTL formulas
-/

namespace Verif
namespace PQL

mutual
/-- No path quantifier in front of an LTL formula occurs. -/
def Cond.ctl : Cond → Bool
  | .bool _ => true
  | .dead => true
  | .cmp _ _ _ => true
  | .cc _ _ => true
  | .not c => c.ctl
  | .and cs => ctlL cs
  | .or cs => ctlL cs
  | .EX c | .AX c | .EF c | .AF c | .EG c | .AG c => c.ctl
  | .EU c d | .AU c d => c.ctl && d.ctl
  | .E _ | .A _ => false
  | .X c | .F c | .G c => c.ctl
  | .U c d => c.ctl && d.ctl
def ctlL : List Cond → Bool
  | [] => true
  | c :: cs => c.ctl && ctlL cs
end

theorem ctlL_iff (cs : List Cond) : ctlL cs = true ↔ ∀ c ∈ cs, c.ctl = true := by
  induction cs with
  | nil => simp [ctlL]
  | cons c cs ih => simp [ctlL, ih]

def Cond.isNeg : Cond → Bool
  | .not _ => true
  | _ => false

mutual
/-- Seen as a boolean combination of temporal formulas, the formula contains no `AG`, `EG`, `A`, `E`
and no double negation. -/
def Cond.nf : Cond → Bool
  | .not c => !c.isNeg && c.nf
  | .and cs => nfL cs
  | .or cs => nfL cs
  | .AG _ | .EG _ | .A _ | .E _ => false
  | _ => true
def nfL : List Cond → Bool
  | [] => true
  | c :: cs => c.nf && nfL cs
end

theorem nfL_iff (cs : List Cond) : nfL cs = true ↔ ∀ c ∈ cs, c.nf = true := by
  induction cs with
  | nil => simp [nfL]
  | cons c cs ih => simp [nfL, ih]

/-- A property of conditions that conjunctions and disjunctions have iff their operands do. -/
structure LogClosed (P : Cond → Prop) : Prop where
  bool : ∀ b, P (.bool b)
  cc : ∀ l n, P (.cc l n)
  and : ∀ cs, P (.and cs) ↔ ∀ c ∈ cs, P c
  or : ∀ cs, P (.or cs) ↔ ∀ c ∈ cs, P c

variable {P : Cond → Prop}

theorem tryMergeCC_closed (hP : LogClosed P) (orp : Bool) (conds : List Cond) (l : List Cons) (n : Bool)
    (h : ∀ c ∈ conds, P c) : ∀ c ∈ tryMergeCC orp conds l n, P c := by
  have hcons : ∀ l n (ds : List Cond), (∀ c ∈ ds, P c) → ∀ c ∈ Cond.cc l n :: ds, P c := by
    intro l n ds hd c hc
    rcases List.mem_cons.1 hc with rfl | hc
    · exact hP.cc _ _
    · exact hd c hc
  unfold tryMergeCC
  split
  · split
    · split
      · exact hcons _ _ _ fun c hc => h c (by simp [hc])
      · split
        · exact hcons _ _ _ h
        · exact hcons _ _ _ h
    · exact hcons _ _ _ h
  · intro c hc
    rw [List.mem_append, List.mem_singleton] at hc
    rcases hc with hc | rfl
    · exact h c hc
    · exact hP.cc _ _

theorem tryMerge_closed (hP : LogClosed P) (orp aggr : Bool) (c : Cond) (hc : P c) :
    ∀ conds : List Cond, (∀ c ∈ conds, P c) → ∀ d ∈ tryMerge orp aggr conds c, P d := by
  have happ : ∀ c (conds : List Cond), P c → (∀ c ∈ conds, P c) → ∀ d ∈ conds ++ [c], P d := by
    intro c conds hc h d hd
    rw [List.mem_append, List.mem_singleton] at hd
    rcases hd with hd | rfl
    · exact h d hd
    · exact hc
  have hlist : ∀ cs : List Cond, (∀ c ∈ cs, P c → ∀ conds : List Cond, (∀ c ∈ conds, P c) →
      ∀ d ∈ tryMerge orp aggr conds c, P d) → (∀ c ∈ cs, P c) →
      ∀ conds : List Cond, (∀ c ∈ conds, P c) → ∀ d ∈ tryMergeL orp aggr conds cs, P d := by
    intro cs
    induction cs with
    | nil => intro _ _ conds h; exact h
    | cons c cs ih =>
      intro ih2 hcs conds h
      exact ih (fun d hd => ih2 d (by simp [hd])) (fun d hd => hcs d (by simp [hd])) _
        (ih2 c (by simp) (hcs c (by simp)) conds h)
  induction c using Cond.ind with
  | and cs ih =>
    intro conds h
    simp only [tryMerge]
    split
    · exact happ _ _ hc h
    · exact hlist cs (fun c hm => ih c hm) ((hP.and cs).1 hc) conds h
  | or cs ih =>
    intro conds h
    simp only [tryMerge]
    split
    · exact hlist cs (fun c hm => ih c hm) ((hP.or cs).1 hc) conds h
    · exact happ _ _ hc h
  | cmp op e1 e2 =>
    intro conds h
    simp only [tryMerge]
    split
    · exact happ _ _ hc h
    · split
      · exact happ _ _ hc h
      · split
        · exact happ _ _ hc h
        · exact tryMergeCC_closed hP _ _ _ _ h
  | cc l n =>
    intro conds h
    simp only [tryMerge]
    split
    · exact happ _ _ hc h
    · exact tryMergeCC_closed hP _ _ _ _ h
  | _ => intro conds h; exact happ _ _ hc h

theorem tryMergeL_closed (hP : LogClosed P) (orp aggr : Bool) (cs : List Cond) (hcs : ∀ c ∈ cs, P c) :
    ∀ conds : List Cond, (∀ c ∈ conds, P c) → ∀ d ∈ tryMergeL orp aggr conds cs, P d := by
  induction cs with
  | nil => intro conds h; exact h
  | cons c cs ih =>
    intro conds h
    exact ih (fun d hd => hcs d (by simp [hd])) _ (tryMerge_closed hP orp aggr c (hcs c (by simp)) conds h)

theorem makeLog_closed (hP : LogClosed P) (orp : Bool) (cs : List Cond) (hcs : ∀ c ∈ cs, P c) :
    P (makeLog orp cs) := by
  unfold makeLog
  split
  · exact hP.bool _
  · exact hcs _ (by simp)
  · have h1 : ∀ d ∈ logOperands orp (tryMergeL orp true [] cs), P d := by
      intro d hd
      simp only [logOperands, postMerge, List.mem_append, List.mem_filter] at hd
      have hd' : d ∈ tryMergeL orp false [] (tryMergeL orp true [] cs) := by tauto
      exact tryMergeL_closed hP orp false _ (tryMergeL_closed hP orp true cs hcs [] (by simp)) [] (by simp) d hd'
    simp only
    split
    · rename_i c hc
      exact h1 c (by rw [hc]; simp)
    · exact hP.bool _
    · unfold logNode
      split
      · exact (hP.or _).2 h1
      · exact (hP.and _).2 h1

/-- Both: no path quantifiers, normal form. -/
def Cond.CNF (c : Cond) : Prop := c.ctl = true ∧ c.nf = true

theorem ctl_closed : LogClosed (fun c => c.ctl = true) :=
  ⟨fun _ => rfl, fun _ _ => rfl, ctlL_iff, ctlL_iff⟩

theorem cnf_closed : LogClosed Cond.CNF where
  bool _ := ⟨rfl, rfl⟩
  cc _ _ := ⟨rfl, rfl⟩
  and cs := by
    simp only [Cond.CNF, Cond.ctl, Cond.nf, ctlL_iff, nfL_iff]
    exact ⟨fun h c hc => ⟨h.1 c hc, h.2 c hc⟩, fun h => ⟨fun c hc => (h c hc).1, fun c hc => (h c hc).2⟩⟩
  or cs := by
    simp only [Cond.CNF, Cond.ctl, Cond.nf, ctlL_iff, nfL_iff]
    exact ⟨fun h c hc => ⟨h.1 c hc, h.2 c hc⟩, fun h => ⟨fun c hc => (h c hc).1, fun c hc => (h c hc).2⟩⟩

/-- The visitor puts CTL formulas into normal form. -/
def NFVisit (v : Visit) : Prop := ∀ nested neg c r, v nested neg c = some r → c.ctl = true → r.CNF

theorem rw_cnf {K : RwCtx} {nested : Bool} {r : Cond} (h : r.CNF) : (K.rw nested r).CNF := by
  unfold RwCtx.rw
  split
  · split
    · exact h
    · exact ⟨rfl, rfl⟩
    · exact ⟨rfl, rfl⟩
  · exact h

theorem negIf_cnf {neg : Bool} {c : Cond} (h : c.CNF) (hn : c.isNeg = false) : (negIf neg c).CNF := by
  unfold negIf
  split
  · exact ⟨h.1, by simp [Cond.nf, hn, h.2]⟩
  · exact h

theorem pushCmp_cnf (neg : Bool) (op : Cmp) (e1 e2 : Expr) : (pushCmp neg op e1 e2).CNF := by
  have hz : ∀ a b e c, pushEqualZero a b e = some c → c.CNF := by
    intro a b e c h
    unfold pushEqualZero at h
    simp only at h
    split at h
    · rename_i d hd
      simp only [Option.some.injEq] at h
      subst h
      split at hd
      · simp only [Option.some.injEq] at hd; subst hd; cases e <;> exact ⟨rfl, rfl⟩
      · simp at hd
    · split at h
      · simp only [Option.some.injEq] at h; subst h; cases e <;> exact ⟨rfl, rfl⟩
      · simp at h
  have hg : ∀ (o : Option Cond) d, (∀ c, o = some c → c.CNF) → d.CNF → (o.getD d).CNF := by
    intro o d h hd
    cases o with
    | none => exact hd
    | some c => exact h c rfl
  unfold pushCmp
  simp only
  split
  · exact ⟨rfl, rfl⟩
  · cases op <;> simp only
    · split <;> exact ⟨rfl, rfl⟩
    · split <;> exact ⟨rfl, rfl⟩
    · exact hg _ _ (hz _ _ _) ⟨rfl, rfl⟩
    · exact hg _ _ (hz _ _ _) ⟨rfl, rfl⟩

section
variable {v : Visit} (hv : NFVisit v)
include hv

theorem visitOps_cnf {nested neg stop : Bool} : ∀ (cs : List Cond) (ns : List Cond), (∀ c ∈ cs, c.ctl = true) →
    visitOps v nested neg stop cs = some (.inr ns) → ∀ n ∈ ns, n.CNF := by
  intro cs
  induction cs with
  | nil => intro ns _ h; simp [visitOps] at h; subst h; simp
  | cons c cs ih =>
    intro ns hc h
    have hcs : ∀ c ∈ cs, c.ctl = true := fun d hd => hc d (by simp [hd])
    simp only [visitOps] at h
    split at h
    · simp at h
    · rename_i n hn
      have hcn := hv _ _ _ _ hn (hc c (by simp))
      split at h
      · split at h
        · simp at h
        · exact ih ns hcs h
      · split at h
        · simp at h
        · simp at h
        · rename_i ns' hns
          simp only [Option.some.injEq, Sum.inr.injEq] at h
          subst h
          intro x hx
          rcases List.mem_cons.1 hx with rfl | hx
          · exact hcn
          · exact ih ns' hcs hns x hx

omit hv in
theorem andResult_cnf (ns : List Cond) (h : ∀ n ∈ ns, n.CNF) : (andResult ns).CNF := by
  have h1 : ∀ x ∈ ns.filterMap nefArg, x.ctl = true := by
    intro x hx
    rw [List.mem_filterMap] at hx
    obtain ⟨n, hn, he⟩ := hx
    have := (h n hn).1
    unfold nefArg at he
    split at he
    · simp only [Option.some.injEq] at he; subst he; simpa [Cond.ctl] using this
    · simp at he
  have h2 : ∀ x ∈ ns.filter (fun c => (nefArg c).isNone), x.CNF := fun x hx => h x (List.mem_filter.1 hx).1
  have hor : ∀ l : List Cond, (∀ x ∈ l, x.ctl = true) → (Cond.not (.EF (makeOr l))).CNF := by
    intro l hl
    exact ⟨makeLog_closed ctl_closed true l hl, rfl⟩
  unfold andResult
  generalize ns.filterMap nefArg = a at *
  generalize ns.filter (fun c => (nefArg c).isNone) = b at *
  split
  · exact ⟨rfl, rfl⟩
  · exact h2 _ (by simp)
  · rename_i x
    exact ⟨h1 x (by simp), rfl⟩
  · exact makeLog_closed cnf_closed false _ h2
  · exact hor _ h1
  · refine makeLog_closed cnf_closed false _ ?_
    intro c hc
    rw [List.mem_append, List.mem_singleton] at hc
    rcases hc with hc | rfl
    · exact h2 c hc
    · exact hor _ h1

omit hv in
theorem orResult_cnf (ns : List Cond) (h : ∀ n ∈ ns, n.CNF) : (orResult ns).CNF := by
  have h1 : ∀ x ∈ ns.filterMap efArg, x.ctl = true := by
    intro x hx
    rw [List.mem_filterMap] at hx
    obtain ⟨n, hn, he⟩ := hx
    have := (h n hn).1
    unfold efArg at he
    split at he
    · simp only [Option.some.injEq] at he; subst he; simpa [Cond.ctl] using this
    · simp at he
  have h2 : ∀ x ∈ ns.filter (fun c => (efArg c).isNone), x.CNF := fun x hx => h x (List.mem_filter.1 hx).1
  have hor : ∀ l : List Cond, (∀ x ∈ l, x.ctl = true) → (Cond.EF (makeOr l)).CNF := by
    intro l hl
    exact ⟨makeLog_closed ctl_closed true l hl, rfl⟩
  unfold orResult
  generalize ns.filterMap efArg = a at *
  generalize ns.filter (fun c => (efArg c).isNone) = b at *
  split
  · exact ⟨rfl, rfl⟩
  · exact h2 _ (by simp)
  · rename_i x
    exact ⟨h1 x (by simp), rfl⟩
  · exact makeLog_closed cnf_closed true _ h2
  · exact hor _ h1
  · refine makeLog_closed cnf_closed true _ ?_
    intro c hc
    rw [List.mem_append, List.mem_singleton] at hc
    rcases hc with hc | rfl
    · exact h2 c hc
    · exact hor _ h1

theorem pushAnd_cnf {nested neg : Bool} {cs : List Cond} {r : Cond} (h : pushAnd v nested neg cs = some r)
    (hc : ∀ c ∈ cs, c.ctl = true) : r.CNF := by
  unfold pushAnd at h
  rw [Option.map_eq_some_iff] at h
  obtain ⟨x, hx, rfl⟩ := h
  cases x with
  | inl u => exact ⟨rfl, rfl⟩
  | inr ns => exact andResult_cnf ns (visitOps_cnf hv cs ns hc hx)

theorem pushOr_cnf {nested neg : Bool} {cs : List Cond} {r : Cond} (h : pushOr v nested neg cs = some r)
    (hc : ∀ c ∈ cs, c.ctl = true) : r.CNF := by
  unfold pushOr at h
  rw [Option.map_eq_some_iff] at h
  obtain ⟨x, hx, rfl⟩ := h
  cases x with
  | inl u => exact ⟨rfl, rfl⟩
  | inr ns => exact orResult_cnf ns (visitOps_cnf hv cs ns hc hx)

theorem pushEX_cnf {nested neg : Bool} {c r : Cond} (h : pushEX v nested neg c = some r) (hc : c.ctl = true) :
    r.CNF := by
  simp only [pushEX, Option.bind_eq_bind, Option.bind_eq_some_iff] at h
  obtain ⟨a, ha, h⟩ := h
  have hA := hv _ _ _ _ ha hc
  split at h
  · exact hv _ _ _ _ h hA.1
  · split at h <;> simp only [Option.some.injEq] at h <;> subst h
    · exact ⟨rfl, rfl⟩
    · exact ⟨rfl, rfl⟩
    · exact ⟨hA.1, rfl⟩

theorem pushAX_cnf {nested neg : Bool} {c r : Cond} (h : pushAX v nested neg c = some r) (hc : c.ctl = true) :
    r.CNF := by
  simp only [pushAX, Option.bind_eq_bind, Option.bind_eq_some_iff] at h
  obtain ⟨a, ha, h⟩ := h
  have hA := hv _ _ _ _ ha hc
  split at h
  · exact hv _ _ _ _ h hA.1
  · split at h <;> simp only [Option.some.injEq] at h <;> subst h
    · exact ⟨rfl, rfl⟩
    · exact ⟨rfl, rfl⟩
    · exact ⟨hA.1, rfl⟩

omit hv in
theorem map_ctl {f : Cond → Cond} (hf : ∀ c, c.ctl = true → (f c).ctl = true) {cs : List Cond}
    (h : ctlL cs = true) : ∀ c ∈ cs.map f, c.ctl = true := by
  intro c hc
  rw [List.mem_map] at hc
  obtain ⟨d, hd, rfl⟩ := hc
  exact hf d ((ctlL_iff cs).1 h d hd)

theorem pushEF_cnf {nested neg : Bool} {c r : Cond} (h : pushEF v nested neg c = some r) (hc : c.ctl = true) :
    r.CNF := by
  simp only [pushEF, Option.bind_eq_bind, Option.bind_eq_some_iff] at h
  obtain ⟨a, ha, h⟩ := h
  have hA := (hv _ _ _ _ ha hc).1
  split at h
  · exact hv _ _ _ _ h rfl
  · cases h; exact negIf_cnf ⟨hA, rfl⟩ rfl
  · exact hv _ _ _ _ h hA
  · simp only [Cond.ctl, Bool.and_eq_true] at hA
    exact hv _ _ _ _ h hA.2
  · simp only [Cond.ctl, Bool.and_eq_true] at hA
    exact hv _ _ _ _ h hA.2
  · split at h
    · exact hv _ _ _ _ h (makeLog_closed ctl_closed true _ (map_ctl (f := .EF) (fun _ h => h) hA))
    · cases h; exact negIf_cnf ⟨hA, rfl⟩ rfl
  · cases h; exact negIf_cnf ⟨hA, rfl⟩ rfl

omit hv in
theorem filter_ctl {p : Cond → Bool} {cs : List Cond} (h : ctlL cs = true) : ∀ c ∈ cs.filter p, c.ctl = true :=
  fun c hc => (ctlL_iff cs).1 h c (List.mem_filter.1 hc).1

omit hv in
theorem append_ctl {l : List Cond} {x : Cond} (h : ∀ c ∈ l, c.ctl = true) (hx : x.ctl = true) :
    ∀ c ∈ l ++ [x], c.ctl = true := by
  intro c hc
  rw [List.mem_append, List.mem_singleton] at hc
  rcases hc with hc | rfl
  · exact h c hc
  · exact hx

theorem pushAF_cnf {nested neg : Bool} {c r : Cond} (h : pushAF v nested neg c = some r) (hc : c.ctl = true) :
    r.CNF := by
  simp only [pushAF, Option.bind_eq_bind, Option.bind_eq_some_iff] at h
  obtain ⟨a, ha, h⟩ := h
  have hA := (hv _ _ _ _ ha hc).1
  split at h
  · exact hv _ _ _ _ h rfl
  · cases h; exact negIf_cnf ⟨hA, rfl⟩ rfl
  · cases h; exact negIf_cnf ⟨hA, rfl⟩ rfl
  · split at h
    · cases h; exact negIf_cnf ⟨hA, rfl⟩ rfl
    · exact hv _ _ _ _ h (makeLog_closed ctl_closed true _ (append_ctl (filter_ctl hA)
        (makeLog_closed ctl_closed true _ (filter_ctl hA))))
  · simp only [Cond.ctl, Bool.and_eq_true] at hA
    exact hv _ _ _ _ h hA.2
  · cases h; exact negIf_cnf ⟨hA, rfl⟩ rfl

theorem pushAU_cnf {nested neg : Bool} {c d r : Cond} (h : pushAU v nested neg c d = some r)
    (hc : c.ctl = true) (hd : d.ctl = true) : r.CNF := by
  simp only [pushAU, Option.bind_eq_bind, Option.bind_eq_some_iff] at h
  obtain ⟨b, hb, a, ha, h⟩ := h
  have hA := (hv _ _ _ _ ha hc).1
  have hB := (hv _ _ _ _ hb hd).1
  split at h
  · exact hv _ _ _ _ h hB
  · exact hv _ _ _ _ h hB
  · split at h
    · exact hv _ _ _ _ h hB
    · cases h; exact negIf_cnf ⟨hB, rfl⟩ rfl
    · split at h
      · cases h; exact negIf_cnf ⟨by simp [Cond.ctl, hA]; exact hB, rfl⟩ rfl
      · refine hv _ _ _ _ h (makeLog_closed ctl_closed true _ ?_)
        split
        · exact filter_ctl hB
        · refine append_ctl (filter_ctl hB) ?_
          simp only [Cond.ctl, hc, Bool.true_and]
          exact makeLog_closed ctl_closed true _ (filter_ctl hB)
    · cases h; exact negIf_cnf ⟨by simp [Cond.ctl, hA, hB], rfl⟩ rfl

theorem pushEU_cnf {nested neg : Bool} {c d r : Cond} (h : pushEU v nested neg c d = some r)
    (hc : c.ctl = true) (hd : d.ctl = true) : r.CNF := by
  simp only [pushEU, Option.bind_eq_bind, Option.bind_eq_some_iff] at h
  obtain ⟨b, hb, a, ha, h⟩ := h
  have hA := (hv _ _ _ _ ha hc).1
  have hB := (hv _ _ _ _ hb hd).1
  split at h
  · exact hv _ _ _ _ h hB
  · exact hv _ _ _ _ h hB
  · split at h
    · cases h; exact negIf_cnf ⟨hB, rfl⟩ rfl
    · split at h
      · cases h; exact negIf_cnf ⟨by simp [Cond.ctl, hA]; exact hB, rfl⟩ rfl
      · refine hv _ _ _ _ h (makeLog_closed ctl_closed true _ ?_)
        split
        · exact filter_ctl hB
        · refine append_ctl (filter_ctl hB) ?_
          simp only [Cond.ctl, hc, Bool.true_and]
          exact makeLog_closed ctl_closed true _ (filter_ctl hB)
    · cases h; exact negIf_cnf ⟨by simp [Cond.ctl, hA, hB], rfl⟩ rfl

theorem pushU_cnf {neg : Bool} {c d r : Cond} (h : pushU v neg c d = some r)
    (hc : c.ctl = true) (hd : d.ctl = true) : r.CNF := by
  simp only [pushU, Option.bind_eq_bind, Option.bind_eq_some_iff] at h
  obtain ⟨b, hb, a, ha, h⟩ := h
  have hA := (hv _ _ _ _ ha hc).1
  have hB := (hv _ _ _ _ hb hd).1
  split at h
  · cases h; exact negIf_cnf ⟨hB, rfl⟩ rfl
  · cases h; exact negIf_cnf ⟨by simp [Cond.ctl, hA, hB], rfl⟩ rfl

theorem pushX_cnf {neg : Bool} {c r : Cond} (h : pushX v neg c = some r) (hc : c.ctl = true) : r.CNF := by
  simp only [pushX, Option.bind_eq_bind, Option.bind_eq_some_iff] at h
  obtain ⟨a, ha, h⟩ := h
  have hA := (hv _ _ _ _ ha hc).1
  split at h
  · cases h; exact ⟨rfl, rfl⟩
  · cases h; exact ⟨hA, rfl⟩

theorem pushF_cnf {nested neg : Bool} {c r : Cond} (h : pushF v nested neg c = some r) (hc : c.ctl = true) :
    r.CNF := by
  simp only [pushF, Option.bind_eq_bind, Option.bind_eq_some_iff] at h
  obtain ⟨a, ha, h⟩ := h
  have hA := (hv _ _ _ _ ha hc).1
  split at h
  · cases h; exact negIf_cnf ⟨hA, rfl⟩ rfl
  · simp only [Cond.ctl, Bool.and_eq_true] at hA
    exact hv _ _ _ _ h hA.2
  · split at h
    · exact hv _ _ _ _ h (makeLog_closed ctl_closed true _ (map_ctl (f := .F) (fun _ h => h) hA))
    · cases h; exact negIf_cnf ⟨hA, rfl⟩ rfl
  · cases h; exact negIf_cnf ⟨hA, rfl⟩ rfl

theorem pushStep_cnf (K : RwCtx) : NFVisit (pushStep K v) := by
  intro nested neg c r h hc
  cases c with
  | bool b => cases h; exact rw_cnf ⟨rfl, rfl⟩
  | dead => cases h; exact rw_cnf (negIf_cnf ⟨rfl, rfl⟩ rfl)
  | cmp op e1 e2 => cases h; exact rw_cnf (pushCmp_cnf _ _ _ _)
  | cc l n => cases h; exact rw_cnf ⟨rfl, rfl⟩
  | E c => simp [Cond.ctl] at hc
  | A c => simp [Cond.ctl] at hc
  | EG c => exact hv _ _ _ _ h hc
  | AG c => exact hv _ _ _ _ h hc
  | G c => exact hv _ _ _ _ h hc
  | not c =>
    simp only [pushStep, Option.map_eq_some_iff] at h
    obtain ⟨x, hx, rfl⟩ := h
    exact rw_cnf (hv _ _ _ _ hx hc)
  | and cs =>
    simp only [pushStep, Option.map_eq_some_iff] at h
    obtain ⟨x, hx, rfl⟩ := h
    apply rw_cnf
    split at hx
    · exact pushOr_cnf hv hx ((ctlL_iff cs).1 hc)
    · exact pushAnd_cnf hv hx ((ctlL_iff cs).1 hc)
  | or cs =>
    simp only [pushStep, Option.map_eq_some_iff] at h
    obtain ⟨x, hx, rfl⟩ := h
    apply rw_cnf
    split at hx
    · exact pushAnd_cnf hv hx ((ctlL_iff cs).1 hc)
    · exact pushOr_cnf hv hx ((ctlL_iff cs).1 hc)
  | EX c =>
    simp only [pushStep, Option.map_eq_some_iff] at h
    obtain ⟨x, hx, rfl⟩ := h
    exact rw_cnf (pushEX_cnf hv hx hc)
  | AX c =>
    simp only [pushStep, Option.map_eq_some_iff] at h
    obtain ⟨x, hx, rfl⟩ := h
    exact rw_cnf (pushAX_cnf hv hx hc)
  | EF c =>
    simp only [pushStep, Option.map_eq_some_iff] at h
    obtain ⟨x, hx, rfl⟩ := h
    exact rw_cnf (pushEF_cnf hv hx hc)
  | AF c =>
    simp only [pushStep, Option.map_eq_some_iff] at h
    obtain ⟨x, hx, rfl⟩ := h
    exact rw_cnf (pushAF_cnf hv hx hc)
  | EU c d =>
    simp only [pushStep, Option.map_eq_some_iff] at h
    obtain ⟨x, hx, rfl⟩ := h
    simp only [Cond.ctl, Bool.and_eq_true] at hc
    exact rw_cnf (pushEU_cnf hv hx hc.1 hc.2)
  | AU c d =>
    simp only [pushStep, Option.map_eq_some_iff] at h
    obtain ⟨x, hx, rfl⟩ := h
    simp only [Cond.ctl, Bool.and_eq_true] at hc
    exact rw_cnf (pushAU_cnf hv hx hc.1 hc.2)
  | X c =>
    simp only [pushStep, Option.map_eq_some_iff] at h
    obtain ⟨x, hx, rfl⟩ := h
    exact rw_cnf (pushX_cnf hv hx hc)
  | F c =>
    simp only [pushStep, Option.map_eq_some_iff] at h
    obtain ⟨x, hx, rfl⟩ := h
    exact rw_cnf (pushF_cnf hv hx hc)
  | U c d =>
    simp only [pushStep, Option.map_eq_some_iff] at h
    obtain ⟨x, hx, rfl⟩ := h
    simp only [Cond.ctl, Bool.and_eq_true] at hc
    exact rw_cnf (pushU_cnf hv hx hc.1 hc.2)
end

/-- Rewritten CTL formulas are in normal form. -/
theorem pushNegation_cnf (K : RwCtx) (fuel : Nat) : NFVisit (pushNegation K fuel) := by
  induction fuel with
  | zero => intro nested neg c r h; simp [pushNegation] at h
  | succ f ih => exact pushStep_cnf ih K

end PQL
end Verif
