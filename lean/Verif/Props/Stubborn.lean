import Verif.Stubborn.Main
import Verif.Props.Search
import Verif.Props.Eval
import Verif.Props.Net
import Verif.CTL.Sem

/-!
# C24, C25: partial-order reduction

`Stubborn.stubborn N qs M m` is the model of the set computed by `ReachabilityStubbornSet::prepare` in marking `m`
for the queries `qs`; `M` is what the query objects contain before (results of earlier evaluations), and every
statement is for arbitrary contents, which may differ from marking to marking.

The statements need that the comparisons of the queries are `tame` and that their operands are 32-bit
numbers; `C24_finding_*` show that these are needed.
-/

namespace Verif
namespace StubbornProps
open PQL Stubborn Search Queue StateSet FlatNet SearchProps EvalProps

/-- Specification: the markings reached when only transitions of the set chosen in each marking are fired. -/
inductive RedReach (N : FlatNet) (S : (Nat → Nat) → Nat → Bool) (m0 : Nat → Nat) : (Nat → Nat) → Prop
  | refl : RedReach N S m0 m0
  | step {m t m'} : RedReach N S m0 m → S m (t : Fin N.ntransitions) = true → N.toNet.Step m t m' →
      RedReach N S m0 m'

/-- Specification: all reachable markings have 32-bit numbers of tokens. -/
def Bounded32 (N : FlatNet) (m0 : Nat → Nat) : Prop := ∀ m, N.toNet.Reach m0 m → ∀ p, m p < W32

theorem RedReach.reach {N : FlatNet} {S : (Nat → Nat) → Nat → Bool} {m0 m : Nat → Nat} (h : RedReach N S m0 m) :
    N.toNet.Reach m0 m := by
  induction h with
  | refl => exact ⟨[], .nil _⟩
  | step _ _ hs ih => exact ih.step _ hs

theorem sat_iff_eval {N : FlatNet} (w : N.WF) {c : Cond} (hc : c.isTemporal = false) (m : Nat → Nat) :
    CTL.Sat N.ts m c ↔ evaluateSet (N.deadlocked m) m c ≠ .rFalse := by
  rw [C15_evaluate_and_set_agrees _ _ _ hc]
  constructor
  · intro h he
    obtain ⟨π, hπ, h0⟩ := TS.exists_path N.ts m
    exact (C15_predicate_evaluation N w m c hc π hπ h0).2.1 he (h π hπ h0)
  · intro h π hπ h0
    exact Classical.byContradiction fun hn => h ((C15_predicate_evaluation N w m c hc π hπ h0).2.2 hn)

/-- **C24**.  For every net (with inhibitor arcs), initial marking, list of queries and query `q` of the list:
exploring in each marking only the transitions of its stubborn set reaches a marking satisfying the goal of `q`
if and only if the full exploration does. -/
theorem C24_reduction_preserves_reachability_partial (N : FlatNet) (w : N.WF) (hd : N.DirOK) (m0 : Nat → Nat)
    (hb : Bounded32 N m0) (qs : List Cond) (σ : (Nat → Nat) → Mem) (q : Cond) (hq : q ∈ qs)
    (ht : tameCond (goalOf q) = true) (hf : ∀ m, N.toNet.Reach m0 m → Fit32 m (goalOf q)) :
    (∃ m, RedReach N (fun m => stubborn N qs (σ m) m) m0 m ∧ CTL.Sat N.ts m (goalOf q)) ↔
    (∃ m, N.toNet.Reach m0 m ∧ CTL.Sat N.ts m (goalOf q)) := by
  have hnt := tame_nontemporal _ ht
  constructor
  · rintro ⟨m, h1, h2⟩
    exact ⟨m, h1.reach, h2⟩
  · rintro ⟨M', ⟨us, hr⟩, h2⟩
    have key : ∀ n us m, RedReach N (fun m => stubborn N qs (σ m) m) m0 m → us.length = n → N.toNet.Run m us M' →
        ∃ m, RedReach N (fun m => stubborn N qs (σ m) m) m0 m ∧ CTL.Sat N.ts m (goalOf q) := by
      intro n
      induction n with
      | zero =>
        intro us m hm hl hr
        rw [List.length_eq_zero_iff] at hl
        subst hl
        cases hr
        exact ⟨_, hm, h2⟩
      | succ n ih =>
        intro us m hm hl hr
        by_cases hg : CTL.Sat N.ts m (goalOf q)
        · exact ⟨m, hm, hg⟩
        · have hv : evaluateSet (N.deadlocked m) m (goalOf q) = .rFalse :=
            Classical.byContradiction fun h => hg ((sat_iff_eval w hnt m).2 h)
          have hM : N.toNet.Reach m0 M' := by
            obtain ⟨us0, h0⟩ := hm.reach
            exact ⟨us0 ++ us, h0.append _ hr⟩
          obtain ⟨t, us', h3, h4, h5, h6⟩ := stubborn_progress w hd (C02_deadlock_exact N w) (hb m hm.reach) (hb M' hM)
            (σ m) hq ht (hf m hm.reach) hv hr ((sat_iff_eval w hnt M').1 h2)
          exact ih us' _ (.step hm h3 ⟨h4, rfl⟩) (by omega) h5
    exact key us.length us m0 .refl rfl hr

/-- **C25**.  When deadlock is one of the goals, the reduced exploration reaches a deadlock exactly when there is a
reachable one. -/
theorem C25_reduction_preserves_deadlock (N : FlatNet) (w : N.WF) (hd : N.DirOK) (m0 : Nat → Nat) (hb : Bounded32 N m0)
    (qs : List Cond) (σ : (Nat → Nat) → Mem) (hq : Cond.dead ∈ qs) :
    (∃ m, RedReach N (fun m => stubborn N qs (σ m) m) m0 m ∧ N.toNet.Dead m) ↔
    (∃ m, N.toNet.Reach m0 m ∧ N.toNet.Dead m) := by
  have h := C24_reduction_preserves_reachability_partial N w hd m0 hb qs σ .dead hq rfl (fun _ _ => by simp [goalOf, Fit32])
  have hs : ∀ m, CTL.Sat N.ts m (goalOf .dead) ↔ N.toNet.Dead m := by
    intro m
    rw [sat_iff_eval w rfl, ← C02_deadlock_exact N w]
    simp only [goalOf, evaluateSet, Res.ofBool]
    cases N.deadlocked m <;> simp
  simpa only [hs] using h

/-! ### The search with partial-order reduction -/

/-- `tryReach` on the net with the reduced generator (`ReducingSuccessorGenerator`), for the conditions `qs`.  The
query number `i` of the search is `qs[i]`; `σ` is what the query objects contain when a marking is expanded. -/
def envR (N : FlatNet) (m0 : Nat → Nat) (k : Nat) (st : Strategy) (q : Queries) (rand : Nat → Rand)
    (heur0 : Nat) (useQueries : Bool) (qs : List Cond) (σ : (Nat → Nat) → Mem) : Env st.Q :=
  { env N m0 k st q rand heur0 useQueries with gen := fun m => redGen N qs (σ m) m }

/-- The queries of the search are the conditions `qs`, evaluated by the evaluator of C15. -/
def Queries.Of (N : FlatNet) (q : Queries) (qs : List Cond) : Prop :=
  ∀ i, i < q.num → ∃ c, qs[i]? = some c ∧ ∀ m, q.goal i m = decide (evaluate (N.deadlocked m) m c = .rTrue)

section
variable {N : FlatNet} {m0 : Nat → Nat} {k : Nat} {st : Strategy} {q : Queries} {rand : Nat → Rand}
  {heur0 : Nat} {uq : Bool} {qs : List Cond} {σ : (Nat → Nat) → Mem}

theorem genOK_red (S : Setting N m0 q heur0) : Search.GenOK (envR N m0 k st q rand heur0 uq qs σ) := by
  intro m hm x hx
  obtain ⟨t, h1, _, h3, h4⟩ := redGen_step S.wf qs (σ m) hm hx
  refine ⟨?_, h4, fun p hpp => step_tail S.wf h3 p hpp⟩
  have := S.trans
  rw [← h1]
  have := t.2
  omega

theorem gpath_red (S : Setting N m0 q heur0) {ts : List Nat} {m : Nat → Nat}
    (h : GPath (envR N m0 k st q rand heur0 uq qs σ) ts m) :
    RedReach N (fun m => stubborn N qs (σ m) m) m0 m ∧ (∃ us : List (Fin N.ntransitions), us.map Fin.val = ts ∧
      N.toNet.Run m0 us m) ∧ (∀ p, p < N.nplaces → m p < W32) ∧ ∀ p, N.nplaces ≤ p → m p = m0 p := by
  induction h with
  | nil h => exact ⟨.refl, ⟨[], rfl, .nil _⟩, S.m0, fun _ _ => rfl⟩
  | snoc _ hmem _ ih =>
    obtain ⟨hr, ⟨us, rfl, hrun⟩, hv, htl⟩ := ih
    obtain ⟨t, h1, h2, h3, h4⟩ := redGen_step S.wf qs _ hv hmem
    refine ⟨.step hr h2 h3, ⟨us ++ [t], by simp [h1], ?_⟩, h4, fun p hp => ?_⟩
    · exact hrun.append _ (.cons h3 (.nil _))
    · exact (step_tail S.wf h3 p hp).trans (htl p hp)

theorem fin_red (S : Setting N m0 q heur0) (L : List (List Nat))
    (hL : ∀ m, N.toNet.Reach m0 m → (List.range N.nplaces).map m ∈ L) :
    Fin' (envR N m0 k st q rand heur0 uq qs σ) L.length := by
  intro M hn hM
  apply (List.subperm_of_subset hn ?_).length_le
  intro l hl
  obtain ⟨ts, m, hg, rfl⟩ := hM l hl
  exact hL m (gpath_red S hg).1.reach

theorem small_red (S : Setting N m0 q heur0) {s : St st.Q} (h : Fits N m0 s) :
    Small (envR N m0 k st q rand heur0 uq qs σ) s := by
  rcases h with h | ⟨L, h1, h2⟩
  · exact .inr h
  · exact .inl fun M a b => Nat.le_trans (fin_red S L h2 M a b) h1

theorem good_red (S : Setting N m0 q heur0) (fuel : Nat) {s : St st.Q}
    (h : (tryReach (envR N m0 k st q rand heur0 uq qs σ) fuel).st = some s) (hs : Fits N m0 s) :
    Good (envR N m0 k st q rand heur0 uq qs σ) s := by
  obtain ⟨base, ⟨L⟩⟩ := st.lawful N.ntransitions
  have := tryReach_good (E := envR N m0 k st q rand heur0 uq qs σ) L
    (genOK_red S) S.handler S.places S.m0 S.heur fuel
  revert this h
  cases tryReach (envR N m0 k st q rand heur0 uq qs σ) fuel with
  | ub => simp [Outcome.st]
  | running s' =>
    simp only [Outcome.st, Option.some.injEq]
    rintro rfl h
    exact (h (small_red S hs)).1
  | thrown s' =>
    simp only [Outcome.st, Option.some.injEq]
    rintro rfl h
    exact h (small_red S hs)
  | done b s' =>
    simp only [Outcome.st, Option.some.injEq]
    rintro rfl h
    exact (h (small_red S hs)).1

/-- **C24**, the whole search, answer "satisfied": whatever the strategy and the token bound, the trace printed is a
run of the net to a marking satisfying the goal. -/
theorem C24_search_satisfied (S : Setting N m0 q heur0) (fuel : Nat) {s : St st.Q}
    (h : (tryReach (envR N m0 k st q rand heur0 uq qs σ) fuel).st = some s) (hs : Fits N m0 s)
    {c : Call} (hc : c ∈ s.calls) (ha : c.answer = .satisfied) :
    ∃ (ts : List (Fin N.ntransitions)) (m : Nat → Nat),
      traceWalk c.hist c.marking c.marking [] = some (ts.map Fin.val) ∧
      N.toNet.Run m0 ts m ∧ q.goal c.query m = true := by
  have G := good_red S fuel h hs
  obtain ⟨ts, m, h1, h2, h3⟩ := G.sat c hc ha
  obtain ⟨_, ⟨us, rfl, hr⟩, _⟩ := gpath_red S h1
  exact ⟨us, m, h3.2 _ (Nat.le_refl _), hr, h2⟩

/-- **C24**, the whole search, answer "not satisfied": without a token bound, no reachable marking (with 32-bit
numbers of tokens) satisfies the goal. -/
theorem C24_search_not_satisfied_partial (S : Setting N m0 q heur0) (hd : N.DirOK) (hm0 : ∀ p, m0 p < W32)
    (hqs : Queries.Of N q qs) (ht : ∀ c ∈ qs, tameCond c = true)
    (hf : ∀ m, N.toNet.Reach m0 m → (∀ p, m p < W32) → ∀ c ∈ qs, Fit32 m c) (fuel : Nat) {s : St st.Q}
    (h : (tryReach (envR N m0 0 st q rand heur0 true qs σ) fuel).st = some s) (hs : Fits N m0 s)
    {c : Call} (hc : c ∈ s.calls) (ha : c.answer = .notSatisfied) :
    ∀ m, N.toNet.Reach m0 m → (∀ p, m p < W32) → q.goal c.query m = false := by
  have G := good_red S fuel h hs
  obtain ⟨d, hdq, hgoal⟩ := hqs c.query (G.query c hc).1
  have hdm := List.mem_of_getElem? hdq
  have htd := ht d hdm
  have hnt := tame_nontemporal d htd
  have hgd : goalOf d = d := by cases d <;> first | rfl | (simp [tameCond] at htd)
  have hev : ∀ m, q.goal c.query m = true ↔ evaluateSet (N.deadlocked m) m (goalOf d) ≠ .rFalse := by
    intro m
    rw [hgoal, decide_eq_true_eq, hgd, C15_evaluate_and_set_agrees _ _ _ hnt]
    have := evaluate_definite (N.deadlocked m) m d hnt
    cases hx : evaluate (N.deadlocked m) m d <;> simp_all
  have hn := G.not c hc ha rfl
  have hin : ∀ m, InB 0 N.nplaces m := fun m h => h.1 rfl
  rintro M' ⟨us, hr⟩ hM'
  refine Classical.byContradiction fun hgt => ?_
  rw [Bool.not_eq_false, hev] at hgt
  have key : ∀ n us ts m, GPath (envR N m0 0 st q rand heur0 true qs σ) ts m → us.length = n →
      N.toNet.Run m us M' → False := by
    intro n
    induction n with
    | zero =>
      intro us ts m hm hl hr
      rw [List.length_eq_zero_iff] at hl
      subst hl
      cases hr
      have := (hn _ _ hm).1
      rw [← Bool.not_eq_true] at this
      exact this ((hev _).2 hgt)
    | succ n ih =>
      intro us ts m hm hl hr
      obtain ⟨hred, _, hv, htl⟩ := gpath_red S hm
      have hmw : ∀ p, m p < W32 := fun p => by
        by_cases hp : p < N.nplaces
        · exact hv p hp
        · rw [htl p (by omega)]; exact hm0 p
      have hvf : evaluateSet (N.deadlocked m) m (goalOf d) = .rFalse := by
        refine Classical.byContradiction fun hx => ?_
        have h1 := (hn _ _ hm).1
        have h2 := (hev m).2 hx
        have h3 : q.goal c.query m = false := h1
        rw [h2] at h3; cases h3
      obtain ⟨t, us', h3, h4, h5, h6⟩ := stubborn_progress S.wf hd (C02_deadlock_exact N S.wf) hmw hM'
        (σ m) hdm (by rw [hgd]; exact htd) (by rw [hgd]; exact hf m hred.reach hmw d hdm) hvf hr hgt
      have hmem := redGen_complete S.wf qs (σ m) hv (hn _ _ hm).2.1 h3 h4
      exact ih us' _ _ (.snoc hm hmem (hin _)) (by omega) h5
  exact key us.length us [] m0 (.nil (hin _)) rfl hr

/-- **C24**, termination, as for the full search. -/
theorem C24_search_terminates (S : Setting N m0 q heur0) (L : List (List Nat))
    (hL : ∀ m, N.toNet.Reach m0 m → (List.range N.nplaces).map m ∈ L) (hlen : L.length ≤ W32)
    (fuel : Nat) (hfu : L.length < fuel) :
    match tryReach (envR N m0 k st q rand heur0 uq qs σ) fuel with
    | .running _ => False
    | .ub => ¬ st.plain
    | .done _ s | .thrown s => Fits N m0 s := by
  obtain ⟨base, ⟨LL⟩⟩ := st.lawful N.ntransitions
  have hfin := fin_red (k := k) (st := st) (rand := rand) (uq := uq) (qs := qs) (σ := σ) S L hL
  have hfin' : Fin' (envR N m0 k st q rand heur0 uq qs σ) W32 :=
    fun M h1 h2 => Nat.le_trans (hfin M h1 h2) hlen
  have := tryReach_good (E := envR N m0 k st q rand heur0 uq qs σ) LL
    (genOK_red S) S.handler S.places S.m0 S.heur fuel
  revert this
  cases tryReach (envR N m0 k st q rand heur0 uq qs σ) fuel with
  | ub =>
    simp only
    intro h hp
    exact h hfin' (st.total _ hp)
  | running s' =>
    simp only
    intro h
    obtain ⟨_, M, h1, h2, h3⟩ := h (.inl hfin')
    have := hfin M h1 h3
    omega
  | thrown s' => exact fun h => .inr ⟨L, hlen, hL⟩
  | done b s' => exact fun h => .inr ⟨L, hlen, hL⟩

/-- **C24**: the searches with and without reduction never disagree about a query. -/
theorem C24_agrees_with_full_search_partial (S : Setting N m0 q heur0) (hd : N.DirOK) (hm0 : ∀ p, m0 p < W32)
    (hqs : Queries.Of N q qs) (ht : ∀ c ∈ qs, tameCond c = true)
    (hf : ∀ m, N.toNet.Reach m0 m → (∀ p, m p < W32) → ∀ c ∈ qs, Fit32 m c)
    {st' : Strategy} {rand' : Nat → Rand} (fuel fuel' : Nat) {s : St st.Q} {s' : St st'.Q}
    (h : (tryReach (envR N m0 0 st q rand heur0 true qs σ) fuel).st = some s) (hs : Fits N m0 s)
    (h' : (tryReach (env N m0 0 st' q rand' heur0 true) fuel').st = some s') (hs' : Fits N m0 s')
    {c c' : Call} (hc : c ∈ s.calls) (hc' : c' ∈ s'.calls) (heq : c.query = c'.query) : c.answer = c'.answer := by
  have G := good_red S fuel h hs
  have G' := good_of S fuel' h' hs'
  rcases G.ans c hc with a | a <;> rcases G'.ans c' hc' with a' | a'
  · rw [a, a']
  · obtain ⟨ts, m, _, hr, hg⟩ := C24_search_satisfied S fuel h hs hc a
    have := C10_not_satisfied_unreachable S fuel' h' hs' hc' a' m ⟨ts, hr⟩
    rw [heq, this] at hg; cases hg
  · obtain ⟨ts, m, p1, hg, _⟩ := G'.sat c' hc' a'
    obtain ⟨⟨us, _, hr⟩, hv⟩ := p1.run S.wf rfl rfl S.m0
    have hw : ∀ p, m p < W32 := fun p => by
      by_cases hp : p < N.nplaces
      · exact hv p hp
      · have : ∀ {us : List (Fin N.ntransitions)} {a b : Nat → Nat}, N.toNet.Run a us b → b p = a p := by
          intro us a b hr
          induction hr with
          | nil => rfl
          | cons hs _ ih => rw [ih, step_tail S.wf hs p (by omega)]
        rw [this hr.run]; exact hm0 p
    have := C24_search_not_satisfied_partial S hd hm0 hqs ht hf fuel h hs hc a m ⟨us, hr.run⟩ hw
    have hg' : q.goal c'.query m = true := hg
    rw [← heq, this] at hg'; cases hg'
  · rw [a, a']

end

/-! ### Non-vacuity and findings -/

/-- Two independent transitions: `t0` takes `k` tokens from place 0 and puts one on place 1, `t1` moves a token
from place 2 to place 3. -/
def indep (k : Nat) : FlatNet where
  nplaces := 4
  ntransitions := 2
  ninvariants := 4
  transitions := [⟨0, 1⟩, ⟨2, 3⟩, ⟨4, 4⟩]
  invariants := [⟨0, k, false, -1⟩, ⟨1, 1, false, 1⟩, ⟨2, 1, false, -1⟩, ⟨3, 1, false, 1⟩]
  placeToPtrs := [0, 1, 1, 2, 2]
  controllable := [true, true]

def indepM (k : Nat) : Nat → Nat := fun p => if p = 0 then k else if p = 2 then 1 else 0

/-- `t0` and `t1` once more, `t1` putting two tokens on place 3, and `t0` none anywhere. -/
def grow : FlatNet where
  nplaces := 4
  ntransitions := 2
  ninvariants := 3
  transitions := [⟨0, 1⟩, ⟨1, 2⟩, ⟨3, 3⟩]
  invariants := [⟨0, 1, false, -1⟩, ⟨2, 1, false, -1⟩, ⟨3, 2, false, 1⟩]
  placeToPtrs := [0, 1, 1, 2, 2]
  controllable := [true, true]

theorem block_two {N : FlatNet} (hp : N.placeToPtrs = [0, 1, 1, 2, 2]) (hn : N.nplaces = 4)
    (h : ∃ i ∈ N.preset 1, i.place = 2 ∧ i.inhibitor = false) :
    ∀ p t, 0 < p → p < N.nplaces → N.ptr p ≤ t → t < N.ptr (p + 1) → ∃ i ∈ N.preset t, i.place = p ∧ i.inhibitor = false := by
  intro p t h1 h2 h3 h4
  rw [hn] at h2
  unfold FlatNet.ptr at h3 h4
  rw [hp] at h3 h4
  have : p = 1 ∨ p = 2 ∨ p = 3 := by omega
  rcases this with rfl | rfl | rfl
  · simp at h3 h4; omega
  · simp at h3 h4
    have : t = 1 := by omega
    subst this
    exact h
  · simp at h3 h4; omega

theorem indep_wf : (indep 1).WF where
  places_pos := by decide
  len_trans := by decide
  len_inv := by decide
  len_ptr := by decide
  ptr_zero := by decide
  ptr_mono := by decide
  ptr_last := by decide
  in_out := by decide
  out_in := by decide
  last_in := by decide
  place_lt := by decide
  tokens_pos := by decide
  tokens_lt := by decide
  pre_nodup := by decide
  post_nodup := by decide
  block := block_two rfl rfl (by decide)

theorem indep_wf' : (indep 65536).WF where
  places_pos := by decide
  len_trans := by decide
  len_inv := by decide
  len_ptr := by decide
  ptr_zero := by decide
  ptr_mono := by decide
  ptr_last := by decide
  in_out := by decide
  out_in := by decide
  last_in := by decide
  place_lt := by decide
  tokens_pos := by decide
  tokens_lt := by decide
  pre_nodup := by decide
  post_nodup := by decide
  block := block_two rfl rfl (by decide)

theorem grow_wf : grow.WF where
  places_pos := by decide
  len_trans := by decide
  len_inv := by decide
  len_ptr := by decide
  ptr_zero := by decide
  ptr_mono := by decide
  ptr_last := by decide
  in_out := by decide
  out_in := by decide
  last_in := by decide
  place_lt := by decide
  tokens_pos := by decide
  tokens_lt := by decide
  pre_nodup := by decide
  post_nodup := by decide
  block := block_two rfl rfl (by decide)

theorem dirOK_of {N : FlatNet} (h : ∀ t : Fin N.ntransitions, ∀ i ∈ N.preset t ++ N.postset t,
    i.direction = Int.sign ((N.toNet.post t i.place : Int) - (N.toNet.pre t i.place : Int))) : N.DirOK := by
  intro t i hi
  refine h t i (List.mem_append.2 hi)

theorem indep_dir : (indep 1).DirOK := dirOK_of (by decide)
theorem indep_dir' : (indep 65536).DirOK := dirOK_of (by decide)
theorem grow_dir : grow.DirOK := dirOK_of (by decide)

theorem red_stuck {N : FlatNet} {S : (Nat → Nat) → Nat → Bool} {m0 : Nat → Nat} (h : ∀ t, S m0 t = false)
    {m : Nat → Nat} (hr : RedReach N S m0 m) : m = m0 := by
  induction hr with
  | refl => rfl
  | step _ hs _ ih => subst ih; rw [h] at hs; cases hs

/-- Non-vacuity of C24: both transitions are enabled, the stubborn set for `1 ≤ p1` is `{t0}`. -/
example (M : Mem) : ((List.range 2).map fun t => (ordering (indep 1) (indepM 1)).contains t) = [true, true] ∧
    ((List.range 2).map fun t => stubborn (indep 1) [.cmp .le (.lit 1) (.id 1)] M (indepM 1) t) = [true, false] :=
  ⟨rfl, rfl⟩

theorem indep_step {k : Nat} {m m' : Nat → Nat} {t : Fin (indep k).ntransitions} (h : (indep k).toNet.Step m t m') :
    (t.val = 0 ∧ k ≤ m 0 ∧ m' 0 = m 0 - k ∧ m' 1 = m 1 + 1 ∧ m' 2 = m 2 ∧ m' 3 = m 3 ∨
     t.val = 1 ∧ 1 ≤ m 2 ∧ m' 0 = m 0 ∧ m' 1 = m 1 ∧ m' 2 = m 2 - 1 ∧ m' 3 = m 3 + 1) ∧ ∀ p, m' (p + 4) = m (p + 4) := by
  obtain ⟨he, rfl⟩ := h
  rcases t with ⟨t, ht⟩
  have ht : t < 2 := ht
  have : t = 0 ∨ t = 1 := by omega
  rcases this with rfl | rfl
  · exact ⟨.inl ⟨rfl, he.1 0, rfl, rfl, rfl, rfl⟩, fun _ => rfl⟩
  · exact ⟨.inr ⟨rfl, he.1 2, rfl, rfl, rfl, rfl⟩, fun _ => rfl⟩

theorem indep_inv {k : Nat} (hk : 1 ≤ k) (hk2 : k ≤ 65536) {m : Nat → Nat} (h : (indep k).toNet.Reach (indepM k) m) :
    m 0 + m 1 ≤ 65536 ∧ m 2 + m 3 ≤ 1 ∧ ∀ p, m (p + 4) = 0 := by
  have key : ∀ (a b : Nat → Nat) us, (indep k).toNet.Run a us b → (a 0 + a 1 ≤ 65536 ∧ a 2 + a 3 ≤ 1 ∧ ∀ p, a (p + 4) = 0) →
      b 0 + b 1 ≤ 65536 ∧ b 2 + b 3 ≤ 1 ∧ ∀ p, b (p + 4) = 0 := by
    intro a b us hr
    induction hr with
    | nil => exact id
    | cons hs _ ih =>
      rintro ⟨h1, h2, h3⟩
      apply ih
      obtain ⟨h4, h5⟩ := indep_step hs
      exact ⟨by omega, by omega, fun p => (h5 p).trans (h3 p)⟩
  obtain ⟨us, hr⟩ := h
  exact key _ _ us hr ⟨by simpa [indepM] using hk2, by simp [indepM],
    fun p => by unfold indepM; rw [if_neg (by omega), if_neg (by omega)]⟩

theorem indep_bounded {k : Nat} (hk : 1 ≤ k) (hk2 : k ≤ 65536) : Bounded32 (indep k) (indepM k) := by
  intro m hr p
  obtain ⟨h1, h2, h3⟩ := indep_inv hk hk2 hr
  have hW : W32 = 4294967296 := rfl
  have : p = 0 ∨ p = 1 ∨ p = 2 ∨ p = 3 ∨ ∃ q, p = q + 4 := by
    by_cases h : 4 ≤ p
    · exact .inr (.inr (.inr (.inr ⟨p - 4, by omega⟩)))
    · omega
  rcases this with rfl | rfl | rfl | rfl | ⟨q, rfl⟩
  · omega
  · omega
  · omega
  · omega
  · rw [h3]; omega

theorem indep_fire (k : Nat) : (indep k).toNet.Reach (indepM k) ((indep k).toNet.fire (indepM k) (0 : Fin 2)) := by
  refine ⟨[(0 : Fin 2)], .cons ⟨⟨fun p => ?_, fun p w h => ?_⟩, rfl⟩ (.nil _)⟩
  · match p with
    | 0 => exact Nat.le_refl _
    | p + 1 => exact Nat.zero_le _
  · match p with
    | 0 => cases h
    | p + 1 => cases h

/-- A witness against unrestricted C24: the goal is reachable, yet the stubborn set of the initial marking (which
does not satisfy it, and enables two transitions) is empty. -/
structure Lost (N : FlatNet) (m0 : Nat → Nat) (q : Cond) : Prop where
  wf : N.WF
  dir : N.DirOK
  bounded : Bounded32 N m0
  nontemporal : q.isTemporal = false
  full : ∃ m, N.toNet.Reach m0 m ∧ CTL.Sat N.ts m q
  reduced : ∀ σ : (Nat → Nat) → Mem, ¬ ∃ m, RedReach N (fun m => stubborn N [q] (σ m) m) m0 m ∧ CTL.Sat N.ts m q

theorem lost_of {k : Nat} (w : (indep k).WF) (d : (indep k).DirOK) (hk : 1 ≤ k) (hk2 : k ≤ 65536) {q : Cond}
    (hq : q.isTemporal = false) (h0 : evaluateSet ((indep k).deadlocked (indepM k)) (indepM k) q = .rFalse)
    (h1 : evaluateSet ((indep k).deadlocked ((indep k).toNet.fire (indepM k) (0 : Fin 2)))
      ((indep k).toNet.fire (indepM k) (0 : Fin 2)) q ≠ .rFalse)
    (h2 : ∀ M t, stubborn (indep k) [q] M (indepM k) t = false) : Lost (indep k) (indepM k) q := by
  refine ⟨w, d, indep_bounded hk hk2, hq, ⟨_, indep_fire k, (sat_iff_eval w hq _).2 h1⟩, ?_⟩
  rintro σ ⟨m, hr, hs⟩
  have := red_stuck (S := fun m => stubborn (indep k) [q] (σ m) m) (fun t => h2 (σ (indepM k)) t) hr
  subst this
  exact (sat_iff_eval w hq _).1 hs h0

/-- **Finding F24** (InterestingTransitionVisitor.cpp:215-228): a product of a *negative constant* and one operand is
treated as increasing in its operand.  `-1 * p ≤ -1` is reachable, but the reduced exploration stops at once. -/
theorem C24_finding_negative_product : Lost (indep 1) (indepM 1) (.cmp .le (.mul (-1) [1] []) (.lit (-1))) :=
  lost_of indep_wf indep_dir (by decide) (by decide) rfl rfl (by decide) fun M t => rfl

/-- **Finding F25** (InterestingTransitionVisitor.h has no `_accept` for `MinusExpr`): a unary minus is skipped. -/
theorem C24_finding_unary_minus : Lost (indep 1) (indepM 1) (.cmp .le (.minus (.id 1)) (.lit (-1))) :=
  lost_of indep_wf indep_dir (by decide) (by decide) rfl rfl (by decide) fun M t => rfl

/-- **Finding F26** (Expressions.h:55-58, `setEval(int)`): the visitor compares values truncated to 32 bits.  With
65536 tokens on a place, `p0 * p0 ≤ 5` is evaluated to false (2^32), but recorded as `0`, and the visitor finds
nothing to add. -/
theorem C24_finding_truncated_value : Lost (indep 65536) (indepM 65536) (.cmp .le (.mul 1 [0, 0] []) (.lit 5)) :=
  lost_of indep_wf' indep_dir' (by decide) (by decide) rfl rfl (by decide) fun M t => rfl

def growM : Nat → Nat := fun p => if p = 0 ∨ p = 2 then 1 else 0

def growGoal : Cond := .and [.cmp .le (.lit 2) (.id 3), .cmp .eq (.id 0) (.lit 0)]

def growQ : Queries where
  num := 1
  goal := fun _ m => decide (evaluate (grow.deadlocked m) m growGoal = .rTrue)
  dist := fun _ _ => 0
  handler := fun _ a => (a, false)
  results := fun _ => .unknown

def mem0 : Mem := ⟨fun _ => .rUnknown, fun _ => 0⟩

/-- **Finding F27**: with a token bound (`-k`) the reduced search is not complete, even among the markings within
the bound: the only transition of the stubborn set exceeds the bound, while the full search finds another order of
the same two transitions that stays within it.  Without the bound the reduced search answers correctly. -/
theorem C24_finding_token_bound :
    (report (tryReach (envR grow growM 2 .bfs growQ exRand 0 true [growGoal] fun _ => mem0) 20)).map
      (fun r => r.2.map fun c => (c.1, c.2.1)) = some [(0, .notSatisfied)] ∧
    report (tryReach (env grow growM 2 .bfs growQ exRand 0 true) 20) = some (true, [(0, .satisfied, some [0, 1])]) ∧
    report (tryReach (envR grow growM 0 .bfs growQ exRand 0 true [growGoal] fun _ => mem0) 20) =
      some (true, [(0, .satisfied, some [1, 0])]) := by
  refine ⟨by decide +kernel, by decide +kernel, by decide +kernel⟩

theorem growSetting : Setting grow growM growQ 0 where
  wf := grow_wf
  places := by decide
  trans := by decide
  m0 := by intro p _; unfold growM; split <;> decide
  handler := fun i => ⟨by simp [growQ], by simp [growQ]⟩
  heur := by decide

/-- Non-vacuity: the hypotheses of `C24_reduction_preserves_reachability_partial` hold together, with a goal that is
reachable. -/
example (σ : (Nat → Nat) → Mem) :
    ∃ m, RedReach (indep 1) (fun m => stubborn (indep 1) [.cmp .le (.lit 1) (.id 1)] (σ m) m) (indepM 1) m ∧
      CTL.Sat (indep 1).ts m (.cmp .le (.lit 1) (.id 1)) := by
  refine (C24_reduction_preserves_reachability_partial (indep 1) indep_wf indep_dir (indepM 1)
    (indep_bounded (by decide) (by decide)) [.cmp .le (.lit 1) (.id 1)] σ _ (List.mem_singleton.2 rfl) rfl ?_).2
    ⟨_, indep_fire 1, (sat_iff_eval indep_wf rfl _).2 (by decide)⟩
  intro m hr
  obtain ⟨h1, _⟩ := indep_inv (by decide) (by decide) hr
  refine ⟨⟨?_, ?_⟩, ?_, ?_⟩ <;> simp only [Expr.val] <;> omega

end StubbornProps
end Verif
