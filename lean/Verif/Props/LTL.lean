import Verif.LTL.TarjanMain
import Verif.LTL.NdfsMain
import Verif.LTL.NdfsTrace
import Verif.LTL.Runs

/-!
# C29, C30: the LTL searches are exact

The searches run on an arbitrary graph: `PGraph` holds what they ask of the product generator and of the state set,
`E` is the edge relation.  `G.B E` are the edges into states that the state set stores (all of them unless a token
bound is given).  The successors may come in another order each time a state is visited.
-/

namespace Verif
namespace LTL
open Relation
variable {V : Type} [DecidableEq V]

/-- Specification: an automaton state with a self loop labelled `true` may be taken as proof of a violation. -/
def PGraph.InvOK (G : PGraph V) (E : V → V → Prop) (I : V → Prop) : Prop :=
  ∀ i a, I i → G.bnd i = true → ReflTransGen (G.B E) i a → G.acc a = true → G.inv a = true →
    ∃ c, ReflTransGen (G.B E) a c ∧ G.acc c = true ∧ TransGen (G.B E) c c

omit [DecidableEq V] in
theorem PGraph.Lasso.cycle {G : PGraph V} {E : V → V → Prop} {I : V → Prop} (h : G.Lasso E I)
    (hinv : G.InvOK E I) : G.AccCycle E I := by
  obtain ⟨i, a, hi, hb, hr, ha, hc | hc⟩ := h
  · exact ⟨i, a, hi, hb, hr, ha, hc⟩
  · obtain ⟨c, h1, h2, h3⟩ := hinv i a hi hb hr ha hc
    exact ⟨i, c, hi, hb, hr.trans h1, h2, h3⟩

omit [DecidableEq V] in
/-- Specification lemma: in a finite graph, accepting cycles and accepting runs are the same. -/
theorem PGraph.accCycle_iff_run (G : PGraph V) (E : V → V → Prop) (I : V → Prop) (R : List V)
    (hR : ∀ i v, I i → G.bnd i = true → ReflTransGen (G.B E) i v → v ∈ R) :
    G.AccCycle E I ↔ ∃ i, I i ∧ G.bnd i = true ∧ AccRun (G.B E) G.acc i := by
  constructor
  · rintro ⟨i, a, hi, hb, hr, ha, hc⟩
    exact ⟨i, hi, hb, (AccRun.cycle ha hc).stem hr⟩
  · rintro ⟨i, hi, hb, hrun⟩
    obtain ⟨a, h1, h2, h3⟩ := hrun.toCycle (hR i · hi hb)
    exact ⟨i, a, hi, hb, h1, h2, h3⟩

/-- **C29** Nested depth-first search: whenever it answers, it answers "violated" exactly when an accepting state can
be reached that lies on a cycle. -/
theorem C29_ndfs_exact (G : PGraph V) (E : V → V → Prop) (hE : G.Edges E) (weak : Bool) (inits : List V)
    (hinv : G.InvOK E (· ∈ inits)) (fuel : Nat) (b : Bool) (h : Ndfs.check G weak inits fuel = some b) :
    b = false ↔ G.AccCycle E (· ∈ inits) := by
  cases b with
  | false => exact ⟨fun _ => (Ndfs.check_sound hE h).cycle hinv, fun _ => rfl⟩
  | true =>
    refine ⟨fun h0 => absurd h0 (by simp), ?_⟩
    rintro ⟨i, a, hi, hb, hr, ha, hc⟩
    exact absurd hc (Ndfs.check_complete hE h hi hb hr ha)

/-- **C29** The answer "violated" needs no assumption about self loops: an accepting state has been reached that lies on
a cycle or has a self loop labelled `true`. -/
theorem C29_ndfs_sound (G : PGraph V) (E : V → V → Prop) (hE : G.Edges E) (weak : Bool) (inits : List V) (fuel : Nat)
    (h : Ndfs.check G weak inits fuel = some false) : G.Lasso E (· ∈ inits) := Ndfs.check_sound hE h

/-- **C29** The search ends on every finite graph. -/
theorem C29_ndfs_terminates (G : PGraph V) (E : V → V → Prop) (hE : G.Edges E) (weak : Bool) (inits R : List V)
    (D : Nat) (hD : ∀ n v, (G.succ n v).length ≤ D)
    (hR : ∀ i v, i ∈ inits → G.bnd i = true → ReflTransGen (G.B E) i v → v ∈ R) :
    ∃ fuel, ∀ n, fuel ≤ n → (Ndfs.check G weak inits n).isSome = true :=
  Ndfs.check_total hE hD hR

/-- **C29** In terms of runs: on a finite graph the search says "violated" exactly when there is an infinite run from
an initial state that visits accepting states again and again. -/
theorem C29_ndfs_runs (G : PGraph V) (E : V → V → Prop) (hE : G.Edges E) (weak : Bool) (inits R : List V)
    (hinv : G.InvOK E (· ∈ inits))
    (hR : ∀ i v, i ∈ inits → G.bnd i = true → ReflTransGen (G.B E) i v → v ∈ R)
    (fuel : Nat) (b : Bool) (h : Ndfs.check G weak inits fuel = some b) :
    b = false ↔ ∃ i, i ∈ inits ∧ G.bnd i = true ∧ AccRun (G.B E) G.acc i := by
  rw [C29_ndfs_exact G E hE weak inits hinv fuel b h]
  exact G.accCycle_iff_run E _ R hR

/-- **C29**, the reported cycle exists: the trace, with the state `u` reached by its last transition, is a path from an
initial state; if there is a loop mark, the loop closes and contains an accepting state; if there is none,
the last state accepts everything, or one more edge, which is not printed, would lead from it back to an accepting
state of the trace.  (That the trace of a violation always shows the cycle is false of the program, see
`C29_finding_trace_without_loop`.) -/
theorem C29_ndfs_trace (G : PGraph V) (E : V → V → Prop) (hE : G.Edges E) (weak : Bool) (inits : List V)
    (fuel : Nat) (tr : List V) (loop : Option Nat)
    (h : Ndfs.counterexample G weak inits fuel = some (tr, loop)) :
    ∃ u, (∃ i ∈ inits, (tr ++ [u]).head? = some i) ∧ (tr ++ [u]).IsChain (G.B E) ∧
      (∀ k, loop = some k → tr[k]? = some u ∧
        ∃ (j : Nat) (a : V), k ≤ j ∧ (tr ++ [u])[j]? = some a ∧ G.acc a = true) ∧
      (loop = none → (G.acc u = true ∧ G.inv u = true) ∨
        ∃ (j : Nat) (a : V), (tr ++ [u])[j]? = some a ∧ G.acc a = true ∧ E u a) := by
  unfold Ndfs.counterexample at h
  cases hr : Ndfs.run G weak fuel { inits := inits } with
  | mk s b =>
    rw [hr] at h
    cases b with
    | false => cases h
    | true =>
      simp only at h
      split at h
      · rename_i hv
        simp only [Option.some.injEq] at h
        have hinit : Ndfs.TInv G E (· ∈ inits) { inits := inits } :=
          ⟨trivial, by simp, by simp, by simp⟩
        have := Ndfs.run_tinv hE fuel _ s (Ndfs.init_inv inits) hinit hr
        obtain ⟨u, ⟨i, h1, h2, _⟩, h3, h4, h5⟩ := Ndfs.trace_spec this hv
        rw [h] at h1 h3 h4 h5
        exact ⟨u, ⟨i, h2, h1⟩, h3, h4, h5⟩
      · cases h

/-- **C30** Search based on Tarjan's algorithm: whenever it answers, it answers "violated" exactly when an accepting
state can be reached that lies on a cycle. -/
theorem C30_tarjan_exact (G : PGraph V) (E : V → V → Prop) (hE : G.Edges E) (inits : List V)
    (hinv : G.InvOK E (· ∈ inits)) (fuel : Nat) (b : Bool) (h : Tarjan.check G inits fuel = some b) :
    b = false ↔ G.AccCycle E (· ∈ inits) := by
  cases b with
  | false => exact ⟨fun _ => (Tarjan.check_sound hE h).cycle hinv, fun _ => rfl⟩
  | true =>
    refine ⟨fun h0 => absurd h0 (by simp), ?_⟩
    rintro ⟨i, a, hi, hb, hr, ha, hc⟩
    exact absurd hc (Tarjan.check_complete hE h hi hb hr ha)

/-- **C30** The answer "violated" needs no assumption about self loops. -/
theorem C30_tarjan_sound (G : PGraph V) (E : V → V → Prop) (hE : G.Edges E) (inits : List V) (fuel : Nat)
    (h : Tarjan.check G inits fuel = some false) : G.Lasso E (· ∈ inits) := Tarjan.check_sound hE h

/-- **C30** The search ends on every finite graph. -/
theorem C30_tarjan_terminates (G : PGraph V) (E : V → V → Prop) (hE : G.Edges E) (inits R : List V)
    (D : Nat) (hD : ∀ n v, (G.succ n v).length ≤ D)
    (hR : ∀ i v, i ∈ inits → G.bnd i = true → ReflTransGen (G.B E) i v → v ∈ R) :
    ∃ fuel, ∀ n, fuel ≤ n → (Tarjan.check G inits n).isSome = true :=
  Tarjan.check_total hE hD hR

/-- **C30** In terms of runs. -/
theorem C30_tarjan_runs (G : PGraph V) (E : V → V → Prop) (hE : G.Edges E) (inits R : List V)
    (hinv : G.InvOK E (· ∈ inits))
    (hR : ∀ i v, i ∈ inits → G.bnd i = true → ReflTransGen (G.B E) i v → v ∈ R)
    (fuel : Nat) (b : Bool) (h : Tarjan.check G inits fuel = some b) :
    b = false ↔ ∃ i, i ∈ inits ∧ G.bnd i = true ∧ AccRun (G.B E) G.acc i := by
  rw [C30_tarjan_exact G E hE inits hinv fuel b h]
  exact G.accCycle_iff_run E _ R hR

/-! ### Non-vacuity -/

/-- Three states `0 → 1 ⇄ 2` and a sink `3`; `acc` is a parameter; all states have the same hash value. -/
def demoGraph (a : Nat) : PGraph Nat where
  succ _ v := if v = 0 then [3, 1] else if v = 1 then [2] else if v = 2 then [1] else []
  acc v := v == a
  inv _ := false
  bnd _ := true
  hash _ := 7

/-- The edges of `demoGraph`. -/
def demoEdges (v w : Nat) : Prop := (v = 0 ∧ (w = 3 ∨ w = 1)) ∨ (v = 1 ∧ w = 2) ∨ (v = 2 ∧ w = 1)

theorem demo_edges (a : Nat) : (demoGraph a).Edges demoEdges := by
  constructor
  intro n v w
  simp only [demoGraph, demoEdges]
  by_cases h0 : v = 0
  · subst h0; simp
  · by_cases h1 : v = 1
    · subst h1; simp
    · by_cases h2 : v = 2
      · subst h2; simp
      · simp [h0, h1, h2]

theorem demo_inv (a : Nat) (I : Nat → Prop) : (demoGraph a).InvOK demoEdges I := fun _ _ _ _ _ _ h => by cases h

/-- Both answers of both searches occur: with `2` accepting there is a violation, with `3` accepting there is none. -/
example : Ndfs.check (demoGraph 2) false [0] 40 = some false ∧ Ndfs.check (demoGraph 3) false [0] 40 = some true ∧
    Tarjan.check (demoGraph 2) [0] 40 = some false ∧ Tarjan.check (demoGraph 3) [0] 40 = some true := by decide

example : (demoGraph 2).AccCycle demoEdges (· ∈ [0]) :=
  (C29_ndfs_exact (demoGraph 2) demoEdges (demo_edges 2) false [0] (demo_inv 2 _) 40 false (by decide)).1 rfl

example : ¬ (demoGraph 3).AccCycle demoEdges (· ∈ [0]) := fun h => by
  have := (C30_tarjan_exact (demoGraph 3) demoEdges (demo_edges 3) [0] (demo_inv 3 _) 40 true (by decide)).2 h
  cases this

/-- Finding: in `0 → 1 ⇄ 2` with `1` accepting the nested search reports a violation, but the trace it prints consists
of the transitions from `0` and `1` only, without a loop mark: the transition from `2` back to `1` that closes the
cycle is missing.  (With `2` accepting the last state happens to be on the outer stack and the trace is complete.) -/
theorem C29_finding_trace_without_loop :
    Ndfs.check (demoGraph 1) false [0] 40 = some false ∧
    Ndfs.counterexample (demoGraph 1) false [0] 40 = some ([0, 1], none) ∧
    Ndfs.counterexample (demoGraph 2) false [0] 40 = some ([0, 1, 2], some 1) := by decide

end LTL
end Verif
