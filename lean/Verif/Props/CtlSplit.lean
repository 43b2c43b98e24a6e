import Verif.Props.Verdict
import Verif.Props.Rewrite
import Verif.PQL.NormalForm

/-!
# C13: the splitting of CTL queries

`CTL.recursiveSolve` takes boolean combinations apart.  The theorem says that the answers are put
together correctly, given engines that answer correctly (`EnginesOK`); that the reachability search is
such an engine is `C13_search_is_engine`.
-/

namespace Verif
namespace CtlSplitProps
open PQL Search CTL SearchProps VerdictProps Queue StateSet

/-- `EF φ` or `E F φ` -/
def posForm : Cond → Bool
  | .EF _ => true
  | .E (.F _) => true
  | _ => false

/-- `EF φ` or the negation of such a formula -/
def opForm : Cond → Bool
  | .not c => posForm c
  | c => posForm c

mutual
/-- The reachability queries in the boolean combination are `EF φ` or, as operands, `not EF φ`. -/
def canon : Cond → Bool
  | .not c => canon c
  | .and cs => canonL cs
  | .or cs => canonL cs
  | .AG c => !isReachability (.AG c)
  | .A c => !isReachability (.A c)
  | _ => true
def canonL : List Cond → Bool
  | [] => true
  | c :: cs => (if isReachability c then opForm c else canon c) && canonL cs
end

/-- The operand is true: the goal is reachable, or it is not and the operand is a negation. -/
def OpTrue (T : TS) (π : Nat → Mark) (x : Cond × Bool) : Prop :=
  if x.2 then ¬ CanReach T π x.1 else CanReach T π x.1

/-- A results vector is right: definite entries are correct, and if an entry is missing then another one
decides the condition. -/
structure ResultsOK (T : TS) (π : Nat → Mark) (conj : Bool) (gs : List (Cond × Bool)) (rs : List Answer) :
    Prop where
  right : List.Forall₂ (fun x r => r = .unknown ∨ (r = .satisfied ∧ OpTrue T π x) ∨
    (r = .notSatisfied ∧ ¬ OpTrue T π x)) gs rs
  missing : Answer.unknown ∈ rs → decided conj rs = true

/-- The engines answer correctly. -/
structure EnginesOK (T : TS) (π : Nat → Mark) (O : Engines) : Prop where
  one : ∀ g, g.isTemporal = false → (O.search1 g = .satisfied ↔ CanReach T π g)
  many : ∀ conj gs, (∀ x ∈ gs, Cond.isTemporal x.1 = false) → ResultsOK T π conj gs (O.search conj gs)
  ctl : ∀ c, O.ctl c = true ↔ c.sat T π

variable {T : TS} {π : Nat → Mark} {O : Engines}

theorem decided_iff (conj : Bool) (gs : List (Cond × Bool)) (rs : List Answer)
    (h : List.Forall₂ (fun x r => r = .unknown ∨ (r = .satisfied ∧ OpTrue T π x) ∨
      (r = .notSatisfied ∧ ¬ OpTrue T π x)) gs rs) :
    (decided conj rs = true → ∃ x ∈ gs, if conj then ¬ OpTrue T π x else OpTrue T π x) ∧
    (decided conj rs = false → Answer.unknown ∉ rs →
      ∀ x ∈ gs, if conj then OpTrue T π x else ¬ OpTrue T π x) := by
  induction h with
  | nil => simp [decided]
  | @cons x r gs rs hx _ ih =>
    obtain ⟨i1, i2⟩ := ih
    have up : (∃ x ∈ gs, if conj then ¬ OpTrue T π x else OpTrue T π x) →
        ∃ y ∈ x :: gs, if conj then ¬ OpTrue T π y else OpTrue T π y := by
      rintro ⟨y, hy, h⟩; exact ⟨y, by simp [hy], h⟩
    rcases hx with rfl | ⟨rfl, ht⟩ | ⟨rfl, ht⟩
    · simp only [decided, if_true]
      exact ⟨fun h => up (i1 h), fun _ hn => by simp at hn⟩
    · cases conj
      · simp [decided, ht]
      · simp only [decided, reduceCtorEq, if_false, decide_true, Bool.xor_self, Bool.false_eq_true]
        refine ⟨fun h => up (i1 h), fun h hn y hy => ?_⟩
        rcases List.mem_cons.1 hy with rfl | hy
        · exact ht
        · exact i2 h (by simp at hn; exact hn) y hy
    · cases conj
      · simp only [decided, reduceCtorEq, if_false, decide_false, Bool.xor_self, Bool.false_eq_true]
        refine ⟨fun h => up (i1 h), fun h hn y hy => ?_⟩
        rcases List.mem_cons.1 hy with rfl | hy
        · simpa using ht
        · exact i2 h (by simp at hn; exact hn) y hy
      · simp [decided, ht]

/-- The operands of the search and their truth. -/
theorem reachOps_spec (hπ : T.IsPath π) (cs : List Cond) (hc : canonL cs = true) :
    ∃ gs, reachOps cs = some gs ∧ (∀ x ∈ gs, Cond.isTemporal x.1 = false) ∧
      (∀ x ∈ gs, ∃ c ∈ cs, isReachability c = true ∧ (OpTrue T π x ↔ c.sat T π)) ∧
      (∀ c ∈ cs, isReachability c = true → ∃ x ∈ gs, (OpTrue T π x ↔ c.sat T π)) := by
  induction cs with
  | nil => exact ⟨[], rfl, by simp, by simp, by simp⟩
  | cons c cs ih =>
    simp only [canonL, Bool.and_eq_true] at hc
    obtain ⟨hc1, hc2⟩ := hc
    obtain ⟨gs, h1, h2, h3, h4⟩ := ih hc2
    simp only [reachOps]
    by_cases hr : isReachability c = true
    · rw [if_pos hr] at hc1 ⊢
      obtain ⟨g, f, i, hp, hg, hs⟩ := prepare_spec T c (by simpa [isReachability] using hr) false
      rw [hp]
      have hiff : OpTrue T π (g, isNot c) ↔ c.sat T π := by
        rw [hs π hπ]
        have : i = isNot c := by
          revert hc1 hp
          cases c with
          | EF d => simp [prepare, isNot]
          | E d => cases d <;> simp [prepare, isNot, opForm, posForm]
          | not d =>
            cases d with
            | EF d => simp [prepare, isNot]
            | E d => cases d <;> simp [prepare, isNot, opForm, posForm]
            | _ => simp [opForm, posForm]
          | _ => simp [opForm, posForm]
        rw [this]
        unfold OpTrue
        cases isNot c <;> simp
      refine ⟨(g, isNot c) :: gs, by simp [h1], ?_, ?_, ?_⟩
      · intro x hx
        rcases List.mem_cons.1 hx with rfl | hx
        · exact hg
        · exact h2 x hx
      · intro x hx
        rcases List.mem_cons.1 hx with rfl | hx
        · exact ⟨c, by simp, hr, hiff⟩
        · obtain ⟨d, hd, h⟩ := h3 x hx
          exact ⟨d, by simp [hd], h⟩
      · intro d hd hdr
        rcases List.mem_cons.1 hd with rfl | hd
        · exact ⟨_, by simp, hiff⟩
        · obtain ⟨x, hx, h⟩ := h4 d hd hdr
          exact ⟨x, by simp [hx], h⟩
    · rw [if_neg hr]
      refine ⟨gs, h1, h2, ?_, ?_⟩
      · intro x hx
        obtain ⟨d, hd, h⟩ := h3 x hx
        exact ⟨d, by simp [hd], h⟩
      · intro d hd hdr
        rcases List.mem_cons.1 hd with rfl | hd
        · exact absurd hdr hr
        · exact h4 d hd hdr

theorem solveRest_spec (conj : Bool) (cs : List Cond)
    (ih : ∀ c ∈ cs, isReachability c = false → ∃ b, recursiveSolve O c = some b ∧ (b = true ↔ c.sat T π)) :
    ∃ b, solveRest O conj cs = some b ∧
      (b = conj ↔ ∀ c ∈ cs, isReachability c = false → if conj then c.sat T π else ¬ c.sat T π) := by
  induction cs with
  | nil => exact ⟨conj, rfl, by simp⟩
  | cons c cs ihl =>
    obtain ⟨b', h1, h2⟩ := ihl fun d hd => ih d (by simp [hd])
    simp only [solveRest]
    by_cases hr : isReachability c = true
    · rw [if_pos hr]
      refine ⟨b', h1, h2.trans ⟨fun h d hd hdr => ?_, fun h d hd => h d (by simp [hd])⟩⟩
      rcases List.mem_cons.1 hd with rfl | hd
      · rw [hr] at hdr; simp at hdr
      · exact h d hd hdr
    · rw [if_neg hr]
      have hr' : isReachability c = false := by simpa using hr
      obtain ⟨b, e1, e2⟩ := ih c (by simp) hr'
      rw [e1]
      simp only
      by_cases hx : (b ^^ conj) = true
      · rw [if_pos hx]
        refine ⟨!conj, rfl, ?_⟩
        have hno : ¬ (if conj then c.sat T π else ¬ c.sat T π) := by
          cases conj <;> cases b <;> simp_all
        constructor
        · intro h; cases conj <;> simp at h
        · intro h; exact (hno (h c (by simp) hr')).elim
      · rw [if_neg hx]
        refine ⟨b', h1, h2.trans ⟨fun h d hd hdr => ?_, fun h d hd => h d (by simp [hd])⟩⟩
        rcases List.mem_cons.1 hd with rfl | hd
        · cases conj <;> cases b <;> simp_all
        · exact h d hd hdr

theorem logical_spec (hπ : T.IsPath π) (hO : EnginesOK T π O) (conj : Bool) (cs : List Cond)
    (hc : canonL cs = true)
    (ih : ∀ c ∈ cs, isReachability c = false → ∃ b, recursiveSolve O c = some b ∧ (b = true ↔ c.sat T π)) :
    ∃ b, (match reachOps cs with
      | none => none
      | some gs => if decided conj (O.search conj gs) then some (!conj) else solveRest O conj cs) = some b ∧
      (b = conj ↔ ∀ c ∈ cs, if conj then c.sat T π else ¬ c.sat T π) := by
  obtain ⟨gs, h1, h2, h3, h4⟩ := reachOps_spec hπ cs hc
  rw [h1]
  simp only
  obtain ⟨r1, r2⟩ := hO.many conj gs h2
  obtain ⟨d1, d2⟩ := decided_iff conj gs _ r1
  by_cases hd : decided conj (O.search conj gs) = true
  · rw [if_pos hd]
    refine ⟨!conj, rfl, ?_⟩
    obtain ⟨x, hx, hxt⟩ := d1 hd
    obtain ⟨c, hcm, _, hiff⟩ := h3 x hx
    constructor
    · intro h; cases conj <;> simp at h
    · intro h
      have := h c hcm
      cases conj <;> simp_all
  · rw [if_neg hd]
    obtain ⟨b, e1, e2⟩ := solveRest_spec conj cs ih
    refine ⟨b, e1, e2.trans ⟨fun h c hcm => ?_, fun h c hcm _ => h c hcm⟩⟩
    by_cases hr : isReachability c = true
    · obtain ⟨x, hx, hiff⟩ := h4 c hcm hr
      have := d2 (by simpa using hd) (fun h => hd (r2 h)) x hx
      cases conj <;> simp_all
    · exact h c hcm (by simpa using hr)

theorem canon_of_not_reach {c : Cond} (cs : List Cond) (hc : canonL cs = true) (hm : c ∈ cs)
    (hr : isReachability c = false) : canon c = true := by
  induction cs with
  | nil => simp at hm
  | cons d cs ih =>
    simp only [canonL, Bool.and_eq_true] at hc
    rcases List.mem_cons.1 hm with rfl | hm
    · simpa [hr] using hc.1
    · exact ih hc.2 hm

/-- A query that is neither a negation, a conjunction nor a disjunction. -/
theorem solveOther_spec (hπ : T.IsPath π) (hO : EnginesOK T π O) (c : Cond)
    (h : isReachability c = true → posForm c = true) :
    ∃ b, solveOther O c = some b ∧ (b = true ↔ c.sat T π) := by
  unfold solveOther
  by_cases hr : isReachability c = true
  · rw [if_pos hr]
    obtain ⟨g, f, i, hp, hg, hs⟩ := prepare_spec T c (by simpa [isReachability] using hr) false
    rw [hp]
    refine ⟨_, rfl, ?_⟩
    rw [decide_eq_true_iff, hO.one g hg, hs π hπ]
    have : i = false := by
      have hf := h hr
      revert hf hp
      cases c with
      | EF d => simp only [prepare, Prep.goal.injEq]; rintro ⟨_, _, rfl⟩; simp
      | E d => cases d <;> simp [prepare, posForm]
      | _ => simp [posForm]
    rw [this]; simp
  · rw [if_neg hr]
    exact ⟨_, rfl, hO.ctl c⟩

/-- **C13** (splitting of CTL queries).  With engines that answer correctly, `recursiveSolve` answers
every boolean combination of queries correctly, provided the reachability queries in it have the form
`EF φ` (or, as operands of `and`/`or`, `not EF φ`). -/
theorem C13_split_correct_partial (hπ : T.IsPath π) (hO : EnginesOK T π O) (c : Cond) (hc : canon c = true) :
    ∃ b, recursiveSolve O c = some b ∧ (b = true ↔ c.sat T π) := by
  induction c using Cond.ind with
  | not c ih =>
    obtain ⟨b, h1, h2⟩ := ih hc
    exact ⟨!b, by simp [recursiveSolve, h1], by cases b <;> simp_all [Cond.sat]⟩
  | and cs ih =>
    obtain ⟨b, h1, h2⟩ := logical_spec hπ hO true cs hc
      (fun c hm hr => ih c hm (canon_of_not_reach cs hc hm hr))
    exact ⟨b, by simp only [recursiveSolve]; exact h1, by simpa [Cond.sat, satAll_iff] using h2⟩
  | or cs ih =>
    obtain ⟨b, h1, h2⟩ := logical_spec hπ hO false cs hc
      (fun c hm hr => ih c hm (canon_of_not_reach cs hc hm hr))
    refine ⟨b, by simp only [recursiveSolve]; exact h1, ?_⟩
    simp only [Cond.sat, satAny_iff]
    cases b <;> simp_all
  | AG c =>
    simp only [recursiveSolve]
    exact solveOther_spec hπ hO _ (fun h => by simp [canon, h] at hc)
  | A c =>
    simp only [recursiveSolve]
    exact solveOther_spec hπ hO _ (fun h => by simp [canon, h] at hc)
  | E c =>
    simp only [recursiveSolve]
    refine solveOther_spec hπ hO _ (fun h => ?_)
    cases c <;> simp [isReachability, notReach] at h <;> rfl
  | EF c => simp only [recursiveSolve]; exact solveOther_spec hπ hO _ (fun _ => rfl)
  | _ =>
    simp only [recursiveSolve]
    exact solveOther_spec hπ hO _ (fun h => by simp [isReachability, notReach] at h)

/-- Normal form implies the form required by `C13_split_correct_partial`. -/
theorem canon_of_cnf (c : Cond) (h : c.CNF) : canon c = true := by
  have hlist : ∀ cs : List Cond, (∀ c ∈ cs, c.CNF → canon c = true) → (∀ c ∈ cs, c.CNF) → canonL cs = true := by
    intro cs
    induction cs with
    | nil => intro _ _; rfl
    | cons c cs ih =>
      intro h1 h2
      simp only [canonL, Bool.and_eq_true]
      refine ⟨?_, ih (fun d hd => h1 d (by simp [hd])) (fun d hd => h2 d (by simp [hd]))⟩
      have hc := h2 c (by simp)
      split
      · rename_i hr
        clear h1 h2 ih
        obtain ⟨hc1, hc2⟩ := hc
        cases c with
        | not d =>
          cases d <;> first
            | rfl
            | (simp [Cond.nf, Cond.isNeg] at hc2; done)
            | (simp [isReachability, notReach] at hr; done)
        | _ => first
          | rfl
          | (simp [Cond.nf] at hc2; done)
          | (simp [isReachability, notReach] at hr; done)
      · exact h1 c (by simp) hc
  induction c using Cond.ind with
  | not c ih =>
    simp only [canon]
    refine ih ⟨h.1, ?_⟩
    have := h.2
    simp only [Cond.nf, Bool.and_eq_true] at this
    exact this.2
  | and cs ih => exact hlist cs ih ((cnf_closed.and cs).1 h)
  | or cs ih => exact hlist cs ih ((cnf_closed.or cs).1 h)
  | AG c => exact absurd h.2 (by simp [Cond.nf])
  | A c => exact absurd h.2 (by simp [Cond.nf])
  | _ => rfl

/-- **C13** (rewriting, then splitting).  A CTL query rewritten by `pushNegation` at the initial marking
and then given to `recursiveSolve` with correct engines gets the answer of the original query.
(`wf`: the restriction of C17.) -/
theorem C13_rewritten_query_partial (N : FlatNet) (w : N.WF) (m0 : Mark) (fuel : Nat) (initrw : Bool)
    (c r : Cond) (hwf : c.wf = true) (hctl : c.ctl = true)
    (h : pushNegation ⟨N.deadlocked m0, m0, initrw⟩ fuel false false c = some r)
    (hm : RewriteProps.Within32 N m0) (π : Nat → Mark) (hπ : N.ts.IsPath π) (h0 : π 0 = m0)
    (hO : EnginesOK N.ts π O) :
    ∃ b, recursiveSolve O r = some b ∧ (b = true ↔ c.sat N.ts π) := by
  obtain ⟨b, h1, h2⟩ := C13_split_correct_partial hπ hO r
    (canon_of_cnf r (pushNegation_cnf _ fuel _ _ _ _ h hctl))
  have := RewriteProps.C17_rewriting_initially_partial N w m0 fuel false initrw c r hwf h hm π hπ h0
  exact ⟨b, h1, h2.trans (by simpa using this)⟩

/-- Finding: for `AG φ` the answer is wrong whenever the engines are right: the search looks for
`not φ` and its answer is returned without being negated (the flag of the query itself, which is
not set, is used instead of the flag of the goal).  The rewriting of queries before this step replaces
`AG φ` by `not EF not φ`, so this needs a query that has not been rewritten. -/
theorem C13_finding_ctl_engine_AG (hO : EnginesOK T π O) (c : Cond)
    (hc : c.isTemporal = false) (hr : isReachability (.AG c) = true) :
    ∃ b, recursiveSolve O (.AG c) = some b ∧ (b = true ↔ ¬ (Cond.AG c).sat T π) := by
  refine ⟨decide (O.search1 (.not c) = .satisfied), by simp [recursiveSolve, solveOther, hr, prepare], ?_⟩
  rw [decide_eq_true_iff, hO.one _ (by simpa [Cond.isTemporal] using hc)]
  have := not_canReach_not T π c
  simp only [Cond.sat]
  tauto

/-! ### The reachability search as engine -/

/-- The queries of `solveLogicalCondition` as the search sees them. -/
def splitQueries (N : FlatNet) (conj : Bool) (gs : List (Cond × Bool)) (dist : Nat → Mark → Nat) : Queries where
  num := gs.length
  goal := fun i m => match gs[i]? with
    | some (g, _) => evaluate (N.deadlocked m) m g == .rTrue
    | none => false
  dist := dist
  handler := fun i a => match gs[i]? with
    | some (_, neg) => resultHandle conj neg a
    | none => (a, false)
  results := fun _ => .unknown

theorem decided_of (conj : Bool) (rs : List Answer) (i : Nat)
    (h : rs[i]? = some (if conj then .notSatisfied else .satisfied)) : decided conj rs = true := by
  induction rs generalizing i with
  | nil => simp at h
  | cons r rs ih =>
    cases i with
    | zero =>
      simp only [List.getElem?_cons_zero, Option.some.injEq] at h
      subst h
      cases conj <;> simp [decided]
    | succ i =>
      have := ih i (by simpa using h)
      simp only [decided, this]
      split
      · rfl
      · split <;> rfl

/-- **C13**: the results vector of a finished search (without token bound, any strategy) for the goals
of a logical condition is right, early termination by the handler included. -/
theorem C13_search_is_engine (N : FlatNet) (w : N.WF) (m0 : Mark) (hpl : N.nplaces < W32)
    (htr : N.ntransitions ≤ W32) (hm0 : ∀ p, p < N.nplaces → m0 p < W32) (conj : Bool)
    (gs : List (Cond × Bool)) (hg : ∀ x ∈ gs, Cond.isTemporal x.1 = false)
    (st : Strategy) (rand : Nat → Rand) (dist : Nat → Mark → Nat) (heur0 : Nat) (hh : heur0 < gs.length)
    (fuel : Nat) {b : Bool} {s : St st.Q}
    (hrun : tryReach (env N m0 0 st (splitQueries N conj gs dist) rand heur0 true) fuel = .done b s)
    (hfit : Fits N m0 s) (π : Nat → Mark) (h0 : π 0 = m0) :
    ResultsOK N.ts π conj gs ((List.range gs.length).map s.results) := by
  have hH : (splitQueries N conj gs dist).HandlerOK := by
    intro i
    simp only [splitQueries]
    cases gs[i]? with
    | none => simp
    | some x => obtain ⟨_, n⟩ := x; cases n <;> cases conj <;> simp [resultHandle]
  have S : Setting N m0 (splitQueries N conj gs dist) heur0 :=
    ⟨w, hpl, htr, hm0, hH, hh⟩
  have hst : (tryReach (env N m0 0 st (splitQueries N conj gs dist) rand heur0 true) fuel).st = some s := by
    rw [hrun]; rfl
  have key : ∀ c ∈ s.calls, ∃ hi : c.query < gs.length,
      (c.answer = .satisfied ∧ CanReach N.ts π gs[c.query].1) ∨
      (c.answer = .notSatisfied ∧ ¬ CanReach N.ts π gs[c.query].1) := by
    intro c hc
    obtain ⟨ha, hlt, _⟩ := (C09_calls_wellformed S fuel hst hfit).1 c hc
    have hlt' : c.query < gs.length := hlt
    have hcr := canReach_iff N (dead_iff N w) gs[c.query].1 (hg _ (List.getElem_mem _)) h0
    have hgoal : ∀ m, (splitQueries N conj gs dist).goal c.query m =
        (evaluate (N.deadlocked m) m gs[c.query].1 == .rTrue) := by
      intro m; simp only [splitQueries, List.getElem?_eq_getElem hlt']
    refine ⟨hlt', ha.imp (fun ha => ⟨ha, hcr.2 ?_⟩) fun ha => ⟨ha, fun hcan => ?_⟩⟩
    · obtain ⟨_, m, hm, he⟩ := C09_satisfied_has_witness S fuel hst hfit hc ha
      rw [hgoal] at he
      exact ⟨m, hm, by simpa using he⟩
    · obtain ⟨m, hm, he⟩ := hcr.1 hcan
      have := C10_not_satisfied_unreachable S fuel hst hfit hc ha m hm
      rw [hgoal, he] at this
      simp at this
  have hhand : ∀ i (hi : i < gs.length) a, (env N m0 0 st (splitQueries N conj gs dist) rand heur0 true).handler i a =
      resultHandle conj gs[i].2 a := by
    intro i hi a
    simp only [env, splitQueries, List.getElem?_eq_getElem hi]
  have hres : ∀ i (hi : i < gs.length), s.results i = .unknown ∨ (s.results i = .satisfied ∧ OpTrue N.ts π gs[i]) ∨
      (s.results i = .notSatisfied ∧ ¬ OpTrue N.ts π gs[i]) := by
    intro i hi
    rcases results_last fuel s hst i with ⟨_, hr⟩ | ⟨c, hc, rfl, hr⟩
    · exact .inl hr
    · right
      obtain ⟨_, hk⟩ := key c hc
      rw [hr, hhand _ hi]
      unfold OpTrue
      rcases hk with ⟨ha, hk⟩ | ⟨ha, hk⟩ <;> rw [ha] <;> cases gs[c.query].2 <;> simp [resultHandle, hk]
  refine ⟨?_, ?_⟩
  · rw [List.forall₂_iff_get]
    refine ⟨by simp, fun i h1 h2 => ?_⟩
    simpa using hres i h1
  · intro hun
    rw [List.mem_map] at hun
    obtain ⟨j, hj, hju⟩ := hun
    rcases tryReach_stop (E := env N m0 0 st (splitQueries N conj gs dist) rand heur0 true) hH fuel b s hrun with ⟨c, hc, ha, hstop⟩ | hall
    · obtain ⟨hi, hk⟩ := key c hc
      rw [hhand _ hi] at hstop
      have hr : s.results c.query = (if conj then .notSatisfied else .satisfied) := by
        rcases results_last fuel s hst c.query with ⟨hno, _⟩ | ⟨c', hc', hcc, hr⟩
        · exact absurd rfl (hno c hc)
        · have : c'.answer = c.answer := by
            obtain ⟨_, hk'⟩ := key c' hc'
            simp only [hcc] at hk'
            rcases hk with ⟨a1, a2⟩ | ⟨a1, a2⟩ <;> rcases hk' with ⟨b1, b2⟩ | ⟨b1, b2⟩
            · rw [a1, b1]
            · exact absurd a2 b2
            · exact absurd b2 a2
            · rw [a1, b1]
          rw [hr, hhand _ hi, this, ha]
          revert hstop
          cases conj <;> cases gs[c.query].2 <;> simp [resultHandle]
      exact decided_of conj _ c.query (by simp [hi, hr])
    · exact absurd hju (hall j (by simpa [env, splitQueries] using List.mem_range.1 hj))

/-! Non-vacuity -/

/-- `EF a and (AF b or not EF c)`, canonical, with all engines in use -/
example : canon (.and [.EF .dead, .or [.AF (.bool true), .not (.EF (.bool false))]]) = true := by decide +kernel

/-- `AG (p <= q)` is rewritten to a negated `EF` -/
example : (Cond.AG (.cmp .le (.id 0) (.id 1))).ctl = true ∧ (Cond.AG (.cmp .le (.id 0) (.id 1))).wf = true ∧
    pushNegation ⟨false, fun _ => 0, false⟩ 9 false false (.AG (.cmp .le (.id 0) (.id 1))) =
      some (.not (.EF (.cmp .lt (.id 1) (.id 0)))) :=
  ⟨rfl, rfl, rfl⟩

/-- all parts of the splitting matter for the answer -/
example : recursiveSolve ⟨fun _ => .unknown, fun _ gs => gs.map fun x => if x.2 then .satisfied else .notSatisfied,
      fun _ => true⟩ (.and [.not (.EF (.bool false)), .or [.AF (.bool true), .EF .dead]]) = some true ∧
    recursiveSolve ⟨fun _ => .unknown, fun _ gs => gs.map fun x => if x.2 then .satisfied else .notSatisfied,
      fun _ => true⟩ (.and [.not (.EF (.bool false)), .EF .dead]) = some false := by decide +kernel

end CtlSplitProps
end Verif
