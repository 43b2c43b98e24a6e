import Verif.CTL.Graph

/-!
# Solutions of dependency graphs: existence, and solutions on a part of the graph
-/

namespace Verif
namespace CTL

variable {κ : Type}

/-- The least set closed under the edges when negated edges are judged by `N`. -/
def Graph.lfp (G : Graph κ) (N : κ → Prop) (v : κ) : Prop :=
  ∀ P : κ → Prop, (∀ v, (∃ e ∈ G.succ v, e.Fires N P) → P v) → P v

theorem HEdge.Fires.mono {N P Q : κ → Prop} {e : HEdge κ} (h : ∀ v ∈ e.targets, P v → Q v) :
    e.Fires N P → e.Fires N Q := by
  unfold HEdge.Fires
  split
  · exact id
  · exact fun hf t ht => h t ht (hf t ht)

theorem Graph.lfp_closed (G : Graph κ) (N : κ → Prop) (v : κ) (h : ∃ e ∈ G.succ v, e.Fires N (G.lfp N)) :
    G.lfp N v := by
  intro P hP
  obtain ⟨e, he, hf⟩ := h
  exact hP v ⟨e, he, hf.mono fun t _ ht => ht P hP⟩

theorem Graph.lfp_unfold (G : Graph κ) (N : κ → Prop) (v : κ) (h : G.lfp N v) :
    ∃ e ∈ G.succ v, e.Fires N (G.lfp N) := by
  refine h (fun v => ∃ e ∈ G.succ v, e.Fires N (G.lfp N)) ?_
  rintro x ⟨e, he, hf⟩
  exact ⟨e, he, hf.mono fun t _ ht => G.lfp_closed N t ht⟩

theorem Graph.lfp_congr {G : Graph κ} {lev : κ → Nat} (hl : G.Layered lev) {N N' : κ → Prop} {L : Nat}
    (h' : ∀ v, L < lev v → (N' v → N v)) (v : κ) (hv : L ≤ lev v) :
    G.lfp N v → G.lfp N' v := by
  intro hf
  refine hf (fun x => L ≤ lev x → G.lfp N' x) ?_ hv
  rintro x ⟨e, he, hfe⟩ hx
  refine G.lfp_closed N' x ⟨e, he, ?_⟩
  unfold HEdge.Fires at hfe ⊢
  cases hn : e.neg with
  | true =>
    simp only [hn, if_true] at hfe ⊢
    obtain ⟨t, ht, hnt⟩ := hfe
    obtain ⟨t', ht', hlt⟩ := hl.neg x e he hn
    refine ⟨t, ht, fun hc => hnt (h' t ?_ hc)⟩
    rw [ht', List.mem_singleton] at ht
    rw [ht, hlt]; omega
  | false =>
    simp only [hn, Bool.false_eq_true, if_false] at hfe ⊢
    intro t ht
    refine hfe t ht ?_
    rw [hl.pos x e he hn t ht]; exact hx

/-- Negations judged correctly down to `k` levels. -/
def Graph.approx (G : Graph κ) : Nat → κ → Prop
  | 0 => fun _ => False
  | k + 1 => G.lfp (G.approx k)

theorem Graph.approx_stable {G : Graph κ} {lev : κ → Nat} (hl : G.Layered lev) {B : Nat}
    (hB : ∀ v, lev v ≤ B) : ∀ k v, B < lev v + k → ∀ j, k ≤ j → (G.approx j v ↔ G.approx k v)
  | 0, v, hv, _, _ => by have := hB v; omega
  | k + 1, v, hv, j, hj => by
    obtain ⟨j', rfl⟩ : ∃ j', j = j' + 1 := ⟨j - 1, by omega⟩
    have ih := fun u hu => Graph.approx_stable hl hB k u hu j' (by omega)
    constructor
    · exact Graph.lfp_congr hl (L := lev v) (fun u hu => (ih u (by omega)).2) v (Nat.le_refl _)
    · exact Graph.lfp_congr hl (L := lev v) (fun u hu => (ih u (by omega)).1) v (Nat.le_refl _)

/-- A layered graph with finitely many levels has a solution. -/
theorem Graph.exists_solution {G : Graph κ} {lev : κ → Nat} (hl : G.Layered lev) {B : Nat}
    (hB : ∀ v, lev v ≤ B) : ∃ V, G.Solution V := by
  have he : G.lfp (G.approx (B + 1)) = G.approx (B + 1) := by
    funext v
    exact propext (Graph.approx_stable hl hB (B + 1) v (by omega) (B + 2) (by omega))
  refine ⟨G.approx (B + 1), ?_, ?_⟩
  · intro v
    constructor
    · intro h
      rw [← he] at h
      have := G.lfp_unfold _ v h
      rwa [he] at this
    · intro h
      rw [← he]
      refine G.lfp_closed _ v ?_
      rwa [he]
  · intro P hP v hv
    rw [← he] at hv
    exact hv P hP

/-- `V` is the stratified least solution of the part `R` of the graph, which edges do not leave. -/
structure Graph.SolutionOn (G : Graph κ) (R V : κ → Prop) : Prop where
  closed : ∀ v, R v → ∀ e ∈ G.succ v, ∀ t ∈ e.targets, R t
  fix : ∀ v, R v → (V v ↔ ∃ e ∈ G.succ v, e.Fires V V)
  least : ∀ P : κ → Prop, (∀ v, R v → (∃ e ∈ G.succ v, e.Fires V P) → P v) → ∀ v, R v → V v → P v

/-- A solution of a part of the graph is part of the solution. -/
theorem Graph.SolutionOn.extend {G : Graph κ} {lev : κ → Nat} (hl : G.Layered lev) {B : Nat}
    (hB : ∀ v, lev v ≤ B) {R V : κ → Prop} (h : G.SolutionOn R V) :
    ∃ V', G.Solution V' ∧ ∀ v, R v → (V' v ↔ V v) := by
  obtain ⟨V', h'⟩ := Graph.exists_solution hl hB
  refine ⟨V', h', ?_⟩
  have key : ∀ k, ∀ v, R v → B < lev v + k → (V' v ↔ V v) := by
    intro k
    induction k with
    | zero => intro v _ hv; have := hB v; omega
    | succ k ih =>
      have hneg : ∀ x, R x → B < lev x + (k + 1) → ∀ e ∈ G.succ x, e.neg = true → ∀ t ∈ e.targets,
          (V' t ↔ V t) := by
        intro x hR hx e he hn t ht
        obtain ⟨t', ht', hlt⟩ := hl.neg x e he hn
        refine ih t (h.closed x hR e he t ht) ?_
        rw [ht', List.mem_singleton] at ht
        rw [ht, hlt]; omega
      intro v hR hv
      constructor
      · intro hV
        refine h'.least (fun x => R x → B < lev x + (k + 1) → V x) ?_ v hV hR hv
        rintro x ⟨e, he, hf⟩ hR hx
        refine (h.fix x hR).2 ⟨e, he, ?_⟩
        have hng := hneg x hR hx e he
        unfold HEdge.Fires at hf ⊢
        cases hn : e.neg with
        | true =>
          simp only [hn, if_true] at hf ⊢
          obtain ⟨t, ht, hnt⟩ := hf
          exact ⟨t, ht, fun hc => hnt ((hng hn t ht).2 hc)⟩
        | false =>
          simp only [hn, Bool.false_eq_true, if_false] at hf ⊢
          intro t ht
          refine hf t ht (h.closed x hR e he t ht) ?_
          rw [hl.pos x e he hn t ht]; exact hx
      · intro hV
        refine h.least (fun x => B < lev x + (k + 1) → V' x) ?_ v hR hV hv
        rintro x hR ⟨e, he, hf⟩ hx
        refine (h'.fix x).2 ⟨e, he, ?_⟩
        have hng := hneg x hR hx e he
        unfold HEdge.Fires at hf ⊢
        cases hn : e.neg with
        | true =>
          simp only [hn, if_true] at hf ⊢
          obtain ⟨t, ht, hnt⟩ := hf
          exact ⟨t, ht, fun hc => hnt ((hng hn t ht).1 hc)⟩
        | false =>
          simp only [hn, Bool.false_eq_true, if_false] at hf ⊢
          intro t ht
          refine hf t ht ?_
          rw [hl.pos x e he hn t ht]; exact hx
  exact fun v hR => key (B + 1) v hR (by omega)

end CTL
end Verif
