import Verif.PQL.Bounds
import Verif.Search.Evals
import Verif.Props.Search

/-!
# C37: upper-bound queries report the true maximum
-/

namespace Verif
namespace BoundsProps
open Bounds Search SearchProps FlatNet

variable {N : FlatNet} {m0 : Nat → Nat}

/-- The entry is right for the sum of the places: an upper bound in all reachable markings, and the
value in all of them if it is exact. -/
def EntryOK (N : FlatNet) (m0 : Nat → Nat) (ps : List Nat) (e : Entry) : Prop :=
  (∀ b, e.1 = some b → ∀ m, N.toNet.Reach m0 m → (ps.map m).sum ≤ b) ∧
  (e.2 = true → ∃ b, e.1 = some b ∧ ∀ m, N.toNet.Reach m0 m → (ps.map m).sum = b)

/-- The entries are right for the places one by one. -/
def EntriesOK (N : FlatNet) (m0 : Nat → Nat) : List Nat → List Entry → Prop
  | [], [] => True
  | p :: ps, e :: es => EntryOK N m0 [p] e ∧ EntriesOK N m0 ps es
  | _, _ => False

/-- The solver is right about the objective: `opt v` bounds the objective over all solutions of the
marking equation, and `infeasible` is only said when there is none. -/
def SolveOK (N : FlatNet) (m0 : Nat → Nat) (ps : List Nat) : Solve → Prop
  | .opt v => ∀ x, N.Feasible m0 x → ∑ t : Fin N.ntransitions, (ps.map fun p => N.effect t p).sum * (x t : Int) ≤ v
  | .infeasible => ∀ x, ¬ N.Feasible m0 x
  | .nothing => True

/-- The solver is right about all the programs it is given. -/
def OracleOK (N : FlatNet) (m0 : Nat → Nat) (ps : List Nat) (o : Oracle) : Prop :=
  SolveOK N m0 ps (o.solve 0) ∧ ∀ i p, ps[i]? = some p → SolveOK N m0 [p] (o.solve (i + 1))

theorem entryOK_none (ps : List Nat) : EntryOK N m0 ps (none, false) :=
  ⟨fun _ h => by simp at h, fun h => by simp at h⟩

theorem entriesOK_none : ∀ ps : List Nat, EntriesOK N m0 ps (ps.map fun _ => (none, false))
  | [] => trivial
  | _ :: ps => ⟨entryOK_none _, entriesOK_none ps⟩

theorem entry_ok (w : N.WF) (ps : List Nat) {s : Solve} (hs : SolveOK N m0 ps s) :
    EntryOK N m0 ps (entry (objective N ps) ((ps.map m0).sum) s).1 := by
  have hall : ∀ (P : Int → Prop) [DecidablePred P], (objective N ps).all (fun c => decide (P c)) = true →
      ∀ t : Fin N.ntransitions, P ((ps.map fun p => N.effect t p).sum) := by
    intro P _ h t
    rw [List.all_eq_true] at h
    have := h _ (List.mem_map.2 ⟨t.val, List.mem_range.2 t.2, rfl⟩)
    simpa using this
  have hzero : (objective N ps).all (fun c => decide (c = 0)) = true → ∀ m, N.toNet.Reach m0 m →
      (ps.map m).sum = (ps.map m0).sum := by
    rintro h m ⟨ts, hr⟩
    have h1 := marking_equation_sum w hr ps
    have h2 : ∑ t : Fin N.ntransitions, (ps.map fun p => N.effect t p).sum * (N.parikh ts t : Int) = 0 := by
      apply Finset.sum_eq_zero
      intro t _
      rw [hall _ h t, zero_mul]
    rw [h2] at h1
    omega
  have hle : (objective N ps).all (fun c => decide (c ≤ 0)) = true → ∀ m, N.toNet.Reach m0 m →
      (ps.map m).sum ≤ (ps.map m0).sum := by
    rintro h m ⟨ts, hr⟩
    have h1 := marking_equation_sum w hr ps
    have h2 : ∑ t : Fin N.ntransitions, (ps.map fun p => N.effect t p).sum * (N.parikh ts t : Int) ≤ 0 := by
      apply Finset.sum_nonpos
      intro t _
      exact mul_nonpos_of_nonpos_of_nonneg (hall _ h t) (by omega)
    omega
  have hz2 : (objective N ps).all (fun c => decide (c = 0)) = true →
      (objective N ps).all (fun c => decide (c ≤ 0)) = true := by
    intro h
    rw [List.all_eq_true] at h ⊢
    intro c hc
    have := h c hc
    simp at this ⊢
    omega
  unfold entry
  split
  · rename_i h
    refine ⟨?_, ?_⟩
    · intro b hb
      simp only [Option.some.injEq] at hb
      subst hb
      exact hle h
    · intro hz
      exact ⟨_, rfl, hzero hz⟩
  · rename_i h
    have hnz : ¬ (objective N ps).all (fun c => decide (c = 0)) = true := fun hz => h (hz2 hz)
    cases s with
    | opt v =>
      refine ⟨?_, fun hz => absurd hz hnz⟩
      rintro b hb m ⟨ts, hr⟩
      simp only [Option.some.injEq] at hb
      subst hb
      have h1 := marking_equation_sum w hr ps
      have h2 := hs _ (parikh_feasible w hr)
      omega
    | infeasible =>
      refine ⟨?_, fun hz => absurd hz hnz⟩
      rintro b _ m ⟨ts, hr⟩
      exact absurd (parikh_feasible w hr) (hs _)
    | nothing => exact entryOK_none ps

theorem placeEntries_ok (w : N.WF) (o : Oracle) : ∀ (ps : List Nat) (it : Nat),
    (∀ i p, ps[i]? = some p → SolveOK N m0 [p] (o.solve (it + i))) →
    EntriesOK N m0 ps (placeEntries N m0 o it ps)
  | [], _, _ => trivial
  | p :: ps, it, h => by
    unfold placeEntries
    split
    · exact entriesOK_none (p :: ps)
    · refine ⟨?_, placeEntries_ok w o ps (it + 1) fun i q hi => ?_⟩
      · have := entry_ok w [p] (m0 := m0) (h 0 p rfl)
        simpa using this
      · have := h (i + 1) q (by simpa using hi)
        rwa [show it + 1 + i = it + (i + 1) by omega]

/-- **C37**, the linear programming step: if the solver is right, so are the bounds. -/
theorem C37_lp_bounds (w : N.WF) (o : Oracle) (ps : List Nat) (h : OracleOK N m0 ps o) :
    EntriesOK N m0 ps (lpBounds N m0 o ps).1 ∧ EntryOK N m0 ps (lpBounds N m0 o ps).2 := by
  have he := entry_ok w ps (m0 := m0) h.1
  unfold lpBounds
  simp only
  split
  · exact ⟨entriesOK_none ps, entryOK_none ps⟩
  · generalize hg : entry (objective N ps) ((ps.map m0).sum) (o.solve 0) = r at he
    obtain ⟨e, short⟩ := r
    simp only at he ⊢
    split
    · exact ⟨entriesOK_none ps, he⟩
    · split
      · exact ⟨entriesOK_none ps, he⟩
      · split
        · rename_i hl
          obtain ⟨p, rfl⟩ := List.length_eq_one_iff.1 hl
          exact ⟨⟨he, trivial⟩, he⟩
        · refine ⟨placeEntries_ok w o ps 1 fun i p hi => ?_, he⟩
          rw [Nat.add_comm]; exact h.2 i p hi

theorem split_ok : ∀ (ps : List Nat) (es : List Entry) (o : Nat), EntriesOK N m0 ps es →
    ∀ m, N.toNet.Reach m0 m → ((UB.split ps es o).1.map m).sum + (UB.split ps es o).2 = (ps.map m).sum + o
  | [], [], _, _, _, _ => by simp [UB.split]
  | p :: ps, e :: es, o, h, m, hm => by
    obtain ⟨⟨h1, h2⟩, h3⟩ := h
    have ih := fun o => split_ok ps es o h3 m hm
    simp only [UB.split, List.map_cons, List.sum_cons]
    by_cases he : e.2 = true
    · obtain ⟨b, hb, hv⟩ := h2 he
      have := hv m hm
      simp only [List.map_cons, List.map_nil, List.sum_cons, List.sum_nil, Nat.add_zero] at this
      simp only [he, if_true, hb, Option.getD_some, Bool.true_eq_false, and_false, if_false]
      rw [ih]; omega
    · simp only [Bool.not_eq_true] at he
      simp only [he, Bool.false_eq_true, if_false, and_true]
      split
      · simp only [List.map_cons, List.sum_cons]
        have := ih o; omega
      · rename_i h0
        have h0 : e.1 = some 0 := by simpa using h0
        have := h1 0 h0 m hm
        simp only [List.map_cons, List.map_nil, List.sum_cons, List.sum_nil, Nat.add_zero] at this
        rw [ih]; omega
  | [], _ :: _, _, h, _, _ => h.elim
  | _ :: _, [], _, h, _, _ => h.elim

/-- `u` answers the question for the list `ps` of places: its value plus its offset is the number of
tokens on `ps`, and its value never exceeds its maximum. -/
structure Asks (N : FlatNet) (m0 : Nat → Nat) (ps : List Nat) (u : UB) : Prop where
  value : ∀ m, N.toNet.Reach m0 m → u.offset + u.value m = (ps.map m).sum
  max : ∀ M, u.max = some M → ∀ m, N.toNet.Reach m0 m → (u.value m : Int) ≤ M
  bound : u.bound = 0

/-- A query as it comes from the parser asks for its places. -/
theorem C37_fresh (ps : List Nat) : Asks N m0 ps { places := ps } :=
  ⟨fun m _ => by simp [UB.value], fun M h => by simp at h, rfl⟩

/-- **C37**, the simplification step: a query without an offset, simplified with right bounds, still
asks for the same places. -/
theorem C37_simplify (u : UB) (ho : u.offset = 0) (es : List Entry) (tot : Entry)
    (h1 : EntriesOK N m0 u.places es) (h2 : EntryOK N m0 u.places tot) :
    Asks N m0 u.places (u.simplify es tot) := by
  unfold UB.simplify
  split
  · rename_i he
    obtain ⟨b, hb, hv⟩ := h2.2 he
    refine ⟨fun m hm => ?_, fun M hM m hm => ?_, rfl⟩
    · simp [UB.value, hb, ho, hv m hm]
    · simp only [Option.some.injEq] at hM
      simp [UB.value, ← hM]
  · have hs := split_ok u.places es u.offset h1
    refine ⟨fun m hm => ?_, fun M hM m hm => ?_, rfl⟩
    · have := hs m hm
      simp only [UB.value] at this ⊢
      omega
    · simp only [Option.map_eq_some_iff] at hM
      obtain ⟨b, hb, rfl⟩ := hM
      have := h2.1 b hb m hm
      have := hs m hm
      simp only [UB.value] at this ⊢
      omega

/-! ### The search -/

/-- The queries of a run ask for upper bounds: `us i` is the condition of query `i` at the start. -/
def boundQueries (n : Nat) (us : Nat → UB) (dist : Nat → (Nat → Nat) → Nat)
    (handler : Nat → Answer → Answer × Bool) (results : Nat → Answer) : Queries where
  num := n
  goal := fun i m => maxLe (us i).max ((us i).value m)
  dist := dist
  handler := handler
  results := results

/-- The condition of query `i` at the end: it has been evaluated at the markings in `evals`. -/
def final {Q : Type} (us : Nat → UB) (s : St Q) (i : Nat) : UB := (us i).run (evalsOf s.evals i)

section
variable {n : Nat} {us : Nat → UB} {dist : Nat → (Nat → Nat) → Nat} {handler : Nat → Answer → Answer × Bool}
  {results : Nat → Answer} {st : Strategy} {rand : Nat → Queue.Rand} {heur0 k : Nat}

/-- The model of the search tests `max ≤ value` where the code tests `max ≤ bound`, the maximum so
far.  It makes no difference: each time a query was evaluated, the condition as the code updates it
gave the answer used by the search. -/
theorem C37_test_is_exact (S : Setting N m0 (boundQueries n us dist handler results) heur0) (fuel : Nat)
    {s : St st.Q} (h : (tryReach (env N m0 k st (boundQueries n us dist handler results) rand heur0 true)
      fuel).st = some s) (i : Nat) (hb : (us i).bound = 0)
    (pre : List (Nat → Nat)) (m : Nat → Nat) (post : List (Nat → Nat))
    (he : evalsOf s.evals i = post ++ m :: pre) :
    (((us i).run pre).evaluate m).2 = (boundQueries n us dist handler results).goal i m := by
  have hev := (tryReach_evals (E := env N m0 k st (boundQueries n us dist handler results) rand heur0 true)
    S.handler fuel s h i).2
  have hpre : ∀ m' ∈ pre, maxLe (us i).max ((us i).value m') = false := by
    intro m' hm'
    apply hev m'
    rw [he]
    cases post with
    | nil => simpa using hm'
    | cons a post => simp [hm']
  simp only [UB.evaluate, UB.setUpperBound, boundQueries, run_value, (run_fields (us i) pre).2.1]
  cases hM : (us i).max with
  | none => rfl
  | some M =>
    have hcast : ((Nat.max ((us i).run pre).bound ((us i).value m) : Nat) : Int) =
        Max.max (((us i).run pre).bound : Int) ((us i).value m : Int) := Nat.cast_max _ _
    have hlt : ((us i).run pre).bound < M ∨ M ≤ (us i).value m := by
      by_cases hp : pre = []
      · subst hp
        simp only [UB.run, hb]
        omega
      · obtain ⟨m', h1, h2⟩ := run_attained (us i) hb pre hp
        rw [h2]
        have := hpre m' h1
        rw [hM] at this
        exact .inl (by simpa [maxLe] using this)
    simp only [maxLe, decide_eq_decide]
    rw [hcast, le_max_iff]
    omega

/-- **C37**.  When the search returns, the number printed for an upper-bound query is the number of
tokens on its places in some reachable marking, and no reachable marking has more. -/
theorem C37_reports_maximum (S : Setting N m0 (boundQueries n us dist handler results) heur0) (fuel : Nat)
    {s : St st.Q} {b : Bool}
    (h : tryReach (env N m0 0 st (boundQueries n us dist handler results) rand heur0 true) fuel = .done b s)
    (hs : Fits N m0 s) (hstop : ∀ i, (handler i .satisfied).2 = false)
    (i : Nat) (hi : i < n) (hu : results i = .unknown) (ps : List Nat) (ha : Asks N m0 ps (us i)) :
    (∃ m, N.toNet.Reach m0 m ∧ (final us s i).bounds = (ps.map m).sum) ∧
    ∀ m, N.toNet.Reach m0 m → (ps.map m).sum ≤ (final us s i).bounds := by
  have G := good_of S fuel (by rw [h]; rfl) hs
  obtain ⟨c, hc, rfl⟩ := C10_all_answered S fuel h hs hstop i hi hu
  have hbd : (final us s c.query).bounds = (us c.query).offset + (final us s c.query).bound := by
    unfold UB.bounds final
    rw [(run_fields _ _).2.2]
  have hatt : evalsOf s.evals c.query ≠ [] →
      ∃ m, N.toNet.Reach m0 m ∧ (final us s c.query).bounds = (ps.map m).sum := by
    intro hne
    obtain ⟨m, h1, h2⟩ := run_attained (us c.query) ha.bound _ hne
    obtain ⟨ts, hg⟩ := G.evals _ (mem_evalsOf.1 h1)
    obtain ⟨⟨us', _, hr⟩, _⟩ := hg.run S.wf rfl rfl S.m0
    refine ⟨m, ⟨us', hr.run⟩, ?_⟩
    rw [hbd, ← ha.value m ⟨us', hr.run⟩]
    exact congrArg _ h2
  have hge : ∀ m, N.toNet.Reach m0 m → m ∈ evalsOf s.evals c.query →
      (ps.map m).sum ≤ (final us s c.query).bounds := by
    intro m hm he
    rw [hbd, ← ha.value m hm]
    have := run_ge (us c.query) _ m he
    unfold final
    omega
  rcases G.ans c hc with a | a
  · obtain ⟨ts, m, p1, p2, p3, _⟩ := G.sat c hc a
    obtain ⟨⟨us', _, hr⟩, _⟩ := p1.run S.wf rfl rfl S.m0
    have hm := mem_evalsOf.2 p3
    refine ⟨hatt (List.ne_nil_of_mem hm), fun m' hm' => ?_⟩
    have h1 := hge m ⟨us', hr.run⟩ hm
    rw [← ha.value m ⟨us', hr.run⟩] at h1
    rw [← ha.value m' hm']
    have p2 : maxLe (us c.query).max ((us c.query).value m) = true := p2
    cases hM : (us c.query).max with
    | none => rw [hM] at p2; simp [maxLe] at p2
    | some M =>
      rw [hM] at p2
      simp only [maxLe, decide_eq_true_eq] at p2
      have := ha.max M hM m' hm'
      omega
  · have hn := G.not c hc a rfl
    have key : ∀ m, N.toNet.Reach m0 m → m ∈ evalsOf s.evals c.query := by
      rintro m ⟨ts, hr⟩
      obtain ⟨ts', hg⟩ := gpath_of_run
        (E := env N m0 0 st (boundQueries n us dist handler results) rand heur0 true) S.wf rfl rfl S.m0
        (fun ts m hg => (hn ts m hg).2.1) (GPath.nil (within_inB (.inl rfl)))
        ((hr.within _).mono _ (fun _ _ => within_inB (.inl rfl)))
      exact mem_evalsOf.2 (hn _ _ hg).2.2
    exact ⟨hatt (List.ne_nil_of_mem (key m0 (Net.Reach.refl _ m0))), fun m hm => hge m hm (key m hm)⟩

end

/-- Observation: the simplification is not right for a query that already has an offset (as happens
when a query is simplified again after a time-out, src/VerifyPN.cpp:690): the old offset is also
subtracted from the bound of the remaining places.  Here place 1 always holds 5 tokens, place 0 holds
one or two, and the second simplification stops the search at the first marking with no token left to
find: it would print 6 instead of 7. -/
theorem C37_finding_second_simplification :
    let u1 : UB := UB.simplify { places := [0, 1] } [(none, false), (some 5, true)] (some 7, false)
    let u2 : UB := u1.simplify [(some 2, false)] (some 2, false)
    u1 = { places := [0], max := some 2, offset := 5 } ∧
    u2 = { places := [0], max := some (-3), offset := 5 } ∧
    (u2.evaluate fun p => if p = 0 then 1 else 5).2 = true ∧
    (u2.evaluate fun p => if p = 0 then 1 else 5).1.bounds = 6 := by
  decide

/-- ... but the bounds of the linear programs never make it happen: for an answer of the solver that
is not below the value of the initial marking (which solves the program) the entries of the places stay
infinite and inexact, so that the offset of a query stays what it was, unless the total is exact. -/
theorem C37_lp_only_total (o : Oracle) (ps : List Nat) (h : ∀ v, o.solve 0 = .opt v → 0 ≤ v) :
    (lpBounds N m0 o ps).1 = ps.map fun _ => (none, false) := by
  unfold lpBounds
  simp only
  split
  · rfl
  · generalize hg : entry (objective N ps) ((ps.map m0).sum) (o.solve 0) = r
    obtain ⟨e, short⟩ := r
    simp only
    split
    · rfl
    · have : Entry.ge e (ps.map m0).sum = true := by
        unfold entry at hg
        split at hg
        · simp at hg; rename_i hh _ ; exact absurd hg.2.symm (by simpa using hh)
        · split at hg
          · rename_i v hv
            have := h v hv
            simp only [Prod.mk.injEq] at hg
            rw [← hg.1]
            simp only [Entry.ge, decide_eq_true_eq]
            omega
          · simp only [Prod.mk.injEq] at hg
            rw [← hg.1]; simp [Entry.ge]
          · simp only [Prod.mk.injEq] at hg
            rw [← hg.1]; simp [Entry.ge]
      rw [if_pos this]

/-! ### Non-vacuity -/

def exUs : Nat → UB := fun i => if i = 0 then { places := [1, 2] } else { places := [0], max := some 3 }

def exBQ : Queries := boundQueries 2 exUs (fun _ _ => 0) (fun _ a => (a, false)) (fun _ => .unknown)

/-- The numbers printed in a run on the example net: the first query runs through all markings, the
second one stops early. -/
example : (match tryReach (env Examples.net3 exM0 0 .bfs exBQ exRand 1 true) 20 with
    | .done _ s => some ((final exUs s 0).bounds, (final exUs s 1).bounds)
    | _ => none) = some (4, 3) := by decide +kernel

end BoundsProps
end Verif
