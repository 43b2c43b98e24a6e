import Mathlib.Logic.Function.Basic
import Mathlib.Data.List.Basic

/-!
# Dependency graphs (specification)

A dependency graph has configurations and hyper-edges; a hyper-edge is ordinary or negated.  The value
of a configuration is given by the stratified least fixed point: the least set of configurations that
contains the source of every ordinary edge all of whose targets are in the set, and the source of every
negated edge one of whose targets has the value false.
-/

namespace Verif
namespace CTL

/-- A hyper-edge: include/CTL/DependencyGraph/Edge.h:37-41 (`targets`, `is_negated`). -/
structure HEdge (κ : Type) where
  neg : Bool := false
  targets : List κ

/-- include/CTL/DependencyGraph/BasicDependencyGraph.h (`successors`).  The order of the edges and of
the targets is the order in which the engine sees them. -/
structure Graph (κ : Type) where
  succ : κ → List (HEdge κ)

variable {κ : Type}

/-- Specification: an edge makes its source true, negated edges being judged by `V` and ordinary ones
by `P`. -/
def HEdge.Fires (V P : κ → Prop) (e : HEdge κ) : Prop :=
  if e.neg then ∃ t ∈ e.targets, ¬ V t else ∀ t ∈ e.targets, P t

/-- Specification: `V` is the stratified least solution of the graph: a solution, and contained in
every set closed under the edges when negated edges are judged by `V`. -/
structure Graph.Solution (G : Graph κ) (V : κ → Prop) : Prop where
  fix : ∀ v, V v ↔ ∃ e ∈ G.succ v, e.Fires V V
  least : ∀ P : κ → Prop, (∀ v, (∃ e ∈ G.succ v, e.Fires V P) → P v) → ∀ v, V v → P v

/-- Specification: negation levels.  Ordinary edges stay on a level, negated edges have one target,
on the next level. -/
structure Graph.Layered (G : Graph κ) (lev : κ → Nat) : Prop where
  pos : ∀ v, ∀ e ∈ G.succ v, e.neg = false → ∀ t ∈ e.targets, lev t = lev v
  neg : ∀ v, ∀ e ∈ G.succ v, e.neg = true → ∃ t, e.targets = [t] ∧ lev t = lev v + 1

/-- Specification: stratified graphs in general: no cycle goes through a negated edge. -/
structure Graph.Stratified (G : Graph κ) (lev : κ → Nat) : Prop where
  pos : ∀ v, ∀ e ∈ G.succ v, e.neg = false → ∀ t ∈ e.targets, lev v ≤ lev t
  neg : ∀ v, ∀ e ∈ G.succ v, e.neg = true → ∀ t ∈ e.targets, lev v < lev t

/-- Configurations reachable through edges. -/
inductive Graph.Reach (G : Graph κ) (r : κ) : κ → Prop
  | refl : G.Reach r r
  | step {v t : κ} {e : HEdge κ} : G.Reach r v → e ∈ G.succ v → t ∈ e.targets → G.Reach r t

/-- In a layered graph whose levels are bounded the solution is unique. -/
theorem Graph.Solution.unique {G : Graph κ} {lev : κ → Nat} (hl : G.Layered lev) {B : Nat}
    (hB : ∀ v, lev v ≤ B) {V V' : κ → Prop} (h : G.Solution V) (h' : G.Solution V') (v : κ) :
    V v ↔ V' v := by
  have key : ∀ k, ∀ v, B < lev v + k → (V v ↔ V' v) := by
    intro k
    induction k with
    | zero => intro v hv; have := hB v; omega
    | succ k ih =>
      have aux : ∀ {V V' : κ → Prop}, G.Solution V → G.Solution V' →
          (∀ v, B < lev v + k → (V v ↔ V' v)) → ∀ v, B < lev v + (k + 1) → V v → V' v := by
        intro V V' h h' ih v hv hV
        have := h.least (fun x => B < lev x + (k + 1) → V' x) (by
          rintro x ⟨e, he, hf⟩ hx
          refine (h'.fix x).2 ⟨e, he, ?_⟩
          unfold HEdge.Fires at hf ⊢
          cases hn : e.neg with
          | true =>
            obtain ⟨t, ht, hlt⟩ := hl.neg x e he hn
            simp only [hn, if_true] at hf ⊢
            obtain ⟨t', ht', hV'⟩ := hf
            refine ⟨t', ht', fun hc => hV' ((ih t' ?_).2 hc)⟩
            simp only [ht, List.mem_singleton] at ht'
            rw [ht', hlt]; omega
          | false =>
            rw [hn] at hf
            simp only [Bool.false_eq_true, if_false] at hf ⊢
            intro t ht
            refine hf t ht ?_
            rw [hl.pos x e he hn t ht]; exact hx) v hV hv
        exact this
      intro v hv
      exact ⟨aux h h' ih v hv, aux h' h (fun v hv => (ih v hv).symm) v hv⟩
  exact key (B + 1) v (by omega)

end CTL
end Verif
