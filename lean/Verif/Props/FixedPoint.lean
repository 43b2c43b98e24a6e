import Verif.CTL.FixedPointRun

/-!
# C27, C42: the certain-zero algorithm

`certainZero G addr pick root fuel` runs the model of `CertainZeroFPA::search` for at most `fuel` rounds.
`pick` is the search strategy (which waiting edge comes next, in every round), `addr` stands for the
addresses of edge objects, which order the dependency sets.
-/

namespace Verif
namespace CTL

variable {κ : Type} [DecidableEq κ]

/-- C27, for layered graphs (those the CTL encoding produces, see C26): whatever the order of the edges,
the answer is the value of the root in the least stratified solution.  The property asks for all
stratified graphs; that is false of the code, see `certainZero_not_stratified`. -/
theorem certainZero_correct_partial (G : Graph κ) (lev : κ → Nat) (hl : G.Layered lev) (V : κ → Prop)
    (hV : G.Solution V) (root : κ) (h0 : lev root = 0) (addr : EId κ → Nat)
    (pick : Nat → List (EId κ) → Nat) (fuel : Nat) (b : Bool)
    (h : certainZero G addr pick root fuel = some b) : b = true ↔ V root := by
  obtain ⟨h1, h2⟩ := Inv.start hl hV addr h0
  exact LoopInv.run_sound hl hV addr fuel pick _ 0 b ⟨h1, h2⟩ h

/-- C27, termination: when finitely many configurations are reachable, the algorithm ends, whatever the
order of the edges. -/
theorem certainZero_terminates (G : Graph κ) (lev : κ → Nat) (hl : G.Layered lev) (V : κ → Prop)
    (hV : G.Solution V) (root : κ) (h0 : lev root = 0) (R : List κ) (hroot : root ∈ R)
    (hR : ∀ c ∈ R, ∀ x ∈ G.succ c, ∀ t ∈ x.targets, t ∈ R) (addr : EId κ → Nat)
    (pick : Nat → List (EId κ) → Nat) : ∃ fuel b, certainZero G addr pick root fuel = some b := by
  obtain ⟨h1, h2⟩ := Inv.start hl hV addr h0
  refine LoopInv.run_terminates hl hV addr (R := R) hR _ _ _ pick 0 ⟨h1, h2⟩ ?_ (Nat.le_refl _) (Nat.le_refl _)
  intro c hc
  rw [start_known addr root c hc]; exact hroot

/-- More rounds do not change an answer. -/
theorem run_mono (G : Graph κ) (addr : EId κ → Nat) (root : κ) :
    ∀ (fuel : Nat) (pick : Nat → List (EId κ) → Nat) (s : St κ) (cnt : Nat) (b : Bool) (k : Nat),
      s.run G addr root fuel pick cnt = some b → s.run G addr root (fuel + k) pick cnt = some b
  | 0, _, _, _, _, _, h => by cases h
  | fuel + 1, pick, s, cnt, b, k, h => by
    rw [show fuel + 1 + k = fuel + k + 1 by omega]
    unfold St.run at h ⊢
    cases hst : s.step G addr (pick 0) root cnt with
    | answer b' => rw [hst] at h; exact h
    | cont s' cnt' => rw [hst] at h; exact run_mono G addr root fuel _ s' cnt' b k h

/-- C27, total correctness on finite layered graphs: for every order, from some number of rounds on the
algorithm has answered, and the answer is right. -/
theorem certainZero_total_partial (G : Graph κ) (lev : κ → Nat) (hl : G.Layered lev) (V : κ → Prop)
    (hV : G.Solution V) (root : κ) (h0 : lev root = 0) (R : List κ) (hroot : root ∈ R)
    (hR : ∀ c ∈ R, ∀ x ∈ G.succ c, ∀ t ∈ x.targets, t ∈ R) (addr : EId κ → Nat)
    (pick : Nat → List (EId κ) → Nat) :
    ∃ n b, (b = true ↔ V root) ∧ ∀ fuel, n ≤ fuel → certainZero G addr pick root fuel = some b := by
  obtain ⟨n, b, h⟩ := certainZero_terminates G lev hl V hV root h0 R hroot hR addr pick
  refine ⟨n, b, certainZero_correct_partial G lev hl V hV root h0 addr pick n b h, fun fuel hf => ?_⟩
  obtain ⟨k, rfl⟩ := Nat.exists_eq_add_of_le hf
  exact run_mono G addr root n pick _ 0 b k h

/-! ### A layered graph: "not (two configurations waiting for each other)" -/

/-- 0 has a negated edge to 1; 1 and 2 wait for each other; 3 is true. -/
def exLoop : Graph Nat := ⟨fun n => match n with
  | 0 => [⟨true, [1]⟩]
  | 1 => [⟨false, [2, 3]⟩]
  | 2 => [⟨false, [1]⟩]
  | 3 => [⟨false, []⟩]
  | _ => []⟩

theorem exLoop_layered : exLoop.Layered (fun n => if n = 0 then 0 else 1) := by
  constructor
  · intro v e he hn t ht
    match v, he with
    | 0, he => simp only [exLoop, List.mem_singleton] at he; subst he; cases hn
    | 1, he =>
      simp only [exLoop, List.mem_singleton] at he; subst he
      simp only [List.mem_cons, List.not_mem_nil, or_false] at ht
      rcases ht with rfl | rfl <;> rfl
    | 2, he =>
      simp only [exLoop, List.mem_singleton] at he; subst he
      simp only [List.mem_singleton] at ht; subst ht; rfl
    | 3, he => simp only [exLoop, List.mem_singleton] at he; subst he; cases ht
    | n + 4, he => cases he
  · intro v e he hn
    match v, he with
    | 0, he => simp only [exLoop, List.mem_singleton] at he; subst he; exact ⟨1, rfl, rfl⟩
    | 1, he => simp only [exLoop, List.mem_singleton] at he; subst he; cases hn
    | 2, he => simp only [exLoop, List.mem_singleton] at he; subst he; cases hn
    | 3, he => simp only [exLoop, List.mem_singleton] at he; subst he; cases hn
    | n + 4, he => cases he

theorem exLoop_solution : exLoop.Solution (fun n => n = 0 ∨ n = 3) := by
  constructor
  · intro v
    match v with
    | 0 => simp [exLoop, HEdge.Fires]
    | 1 => simp [exLoop, HEdge.Fires]
    | 2 => simp [exLoop, HEdge.Fires]
    | 3 => simp [exLoop, HEdge.Fires]
    | n + 4 => simp [exLoop]
  · intro P hP v hv
    rcases hv with rfl | rfl
    · exact hP 0 ⟨⟨true, [1]⟩, by simp [exLoop], by simp [HEdge.Fires]⟩
    · exact hP 3 ⟨⟨false, []⟩, by simp [exLoop], by simp [HEdge.Fires]⟩

/-- The hypotheses of the theorems are satisfiable and the algorithm answers, by releasing the negated
edge. -/
example : certainZero exLoop (fun _ => 0) (fun _ _ => 0) 0 20 = some true := by decide +kernel
example : certainZero exLoop (fun _ => 0) (fun _ _ => 0) 1 20 = some false := by decide +kernel
example : certainZero exLoop (fun _ => 0) (fun _ _ => 0) 3 20 = some true := by decide +kernel
example : certainZero exLoop (fun _ => 0) (fun _ _ => 0) 0 2 = none := by decide +kernel

example (addr : EId Nat → Nat) (pick : Nat → List (EId Nat) → Nat) :
    ∃ n, ∀ fuel, n ≤ fuel → certainZero exLoop addr pick 0 fuel = some true := by
  obtain ⟨n, b, h1, h2⟩ := certainZero_total_partial exLoop _ exLoop_layered _ exLoop_solution 0 rfl
    [0, 1, 2, 3] (by decide) (by decide) addr pick
  have hb : b = true := h1.2 (.inl rfl)
  subst hb
  exact ⟨n, h2⟩

/-! ### The finding: stratified graphs that are not layered -/

/-- 3 is reached both from 0 and from 2, which is behind a negation; the distance of 3 is raised when
this is found out, that of 4 is not (src/CTL/DependencyGraph/Configuration.cpp:6-12). -/
def exShared : Graph Nat := ⟨fun n => match n with
  | 0 => [⟨false, [1]⟩, ⟨false, [3, 5]⟩]
  | 1 => [⟨true, [2]⟩]
  | 2 => [⟨false, [3]⟩]
  | 3 => [⟨false, [4]⟩]
  | 4 => [⟨true, [5]⟩]
  | 5 => [⟨false, [6]⟩]
  | 6 => [⟨false, [5]⟩]
  | _ => []⟩

theorem exShared_stratified : exShared.Stratified (fun n => if n ≤ 1 then 0 else if n ≤ 4 then 1 else 2) := by
  constructor
  · intro v e he hn t ht
    match v, he with
    | 0, he =>
      simp only [exShared, List.mem_cons, List.not_mem_nil, or_false] at he
      rcases he with rfl | rfl
      · simp only [List.mem_singleton] at ht; subst ht; decide
      · simp only [List.mem_cons, List.not_mem_nil, or_false] at ht
        rcases ht with rfl | rfl <;> decide
    | 1, he => simp only [exShared, List.mem_singleton] at he; subst he; cases hn
    | 2, he =>
      simp only [exShared, List.mem_singleton] at he; subst he
      simp only [List.mem_singleton] at ht; subst ht; decide
    | 3, he =>
      simp only [exShared, List.mem_singleton] at he; subst he
      simp only [List.mem_singleton] at ht; subst ht; decide
    | 4, he => simp only [exShared, List.mem_singleton] at he; subst he; cases hn
    | 5, he =>
      simp only [exShared, List.mem_singleton] at he; subst he
      simp only [List.mem_singleton] at ht; subst ht; decide
    | 6, he =>
      simp only [exShared, List.mem_singleton] at he; subst he
      simp only [List.mem_singleton] at ht; subst ht; decide
    | n + 7, he => cases he
  · intro v e he hn t ht
    match v, he with
    | 0, he =>
      simp only [exShared, List.mem_cons, List.not_mem_nil, or_false] at he
      rcases he with rfl | rfl <;> cases hn
    | 1, he =>
      simp only [exShared, List.mem_singleton] at he; subst he
      simp only [List.mem_singleton] at ht; subst ht; decide
    | 2, he => simp only [exShared, List.mem_singleton] at he; subst he; cases hn
    | 3, he => simp only [exShared, List.mem_singleton] at he; subst he; cases hn
    | 4, he =>
      simp only [exShared, List.mem_singleton] at he; subst he
      simp only [List.mem_singleton] at ht; subst ht; decide
    | 5, he => simp only [exShared, List.mem_singleton] at he; subst he; cases hn
    | 6, he => simp only [exShared, List.mem_singleton] at he; subst he; cases hn
    | n + 7, he => cases he

theorem exShared_solution : exShared.Solution (fun n => n = 2 ∨ n = 3 ∨ n = 4) := by
  constructor
  · intro v
    match v with
    | 0 => simp [exShared, HEdge.Fires]
    | 1 => simp [exShared, HEdge.Fires]
    | 2 => simp [exShared, HEdge.Fires]
    | 3 => simp [exShared, HEdge.Fires]
    | 4 => simp [exShared, HEdge.Fires]
    | 5 => simp [exShared, HEdge.Fires]
    | 6 => simp [exShared, HEdge.Fires]
    | n + 7 => simp [exShared]
  · intro P hP v hv
    have h4 : P 4 := hP 4 ⟨⟨true, [5]⟩, by simp [exShared], by simp [HEdge.Fires]⟩
    have h3 : P 3 := hP 3 ⟨⟨false, [4]⟩, by simp [exShared], by simpa [HEdge.Fires] using h4⟩
    have h2 : P 2 := hP 2 ⟨⟨false, [3]⟩, by simp [exShared], by simpa [HEdge.Fires] using h3⟩
    rcases hv with rfl | rfl | rfl <;> assumption

/-- C27 is false for stratified graphs in general: on this graph, with edges taken first-in first-out,
the algorithm answers true for a root whose value is false (and false, correctly, with edges taken
last-in first-out). -/
theorem certainZero_not_stratified :
    ¬ ∀ (G : Graph Nat) (lev : Nat → Nat), G.Stratified lev → ∀ V : Nat → Prop, G.Solution V →
      ∀ (root : Nat) (addr : EId Nat → Nat) (pick : Nat → List (EId Nat) → Nat) (fuel : Nat) (b : Bool),
        certainZero G addr pick root fuel = some b → (b = true ↔ V root) := by
  intro h
  have := (h exShared _ exShared_stratified _ exShared_solution 0 (fun _ => 0) (fun _ _ => 0) 100 true
    (by decide +kernel)).1 rfl
  simp at this

example : certainZero exShared (fun _ => 0) (fun _ l => l.length - 1) 0 100 = some false := by decide +kernel

/-! ### C42: reference counts -/

/-- Specification: the states between rounds, for some choice of edges. -/
inductive Visited (G : Graph κ) (addr : EId κ → Nat) (root : κ) : St κ → Nat → Prop
  | start : Visited G addr root (({} : St κ).explore G addr root) 0
  | round {s s' : St κ} {cnt cnt' : Nat} (pick : List (EId κ) → Nat) : Visited G addr root s cnt →
      s.step G addr pick root cnt = .cont s' cnt' → Visited G addr root s' cnt'

/-- Specification: the number of places that refer to an edge object between rounds: the three lists of
the search strategy and the dependency sets of its targets. -/
def references (G : Graph κ) (s : St κ) (e : EId κ) : Nat :=
  s.W.count e + s.N.count e + s.D.count e +
    ((G.origTargets e).dedup.map fun t => (s.conf t).deps.count e).sum

/-- C42: between rounds an edge is in no dependency set but those of its targets, and the reference count
of an edge object is the number of references to it, or it has been released and there are none: no
released edge is ever taken from a list or a dependency set, and edges that can still be reached are not
recycled. -/
theorem refcounts_exact (G : Graph κ) (lev : κ → Nat) (hl : G.Layered lev) (V : κ → Prop)
    (hV : G.Solution V) (root : κ) (h0 : lev root = 0) (addr : EId κ → Nat) (s : St κ) (cnt : Nat)
    (h : Visited G addr root s cnt) :
    (∀ t, ∀ e ∈ (s.conf t).deps, t ∈ G.origTargets e) ∧
    ∀ e, ((s.edge e).refcnt = -1 ∧ references G s e = 0) ∨ (s.edge e).refcnt = references G s e := by
  have key : LoopInv G V lev root s := by
    induction h with
    | start =>
      obtain ⟨h1, h2⟩ := Inv.start hl hV addr h0
      exact ⟨h1, h2⟩
    | @round s s' cnt cnt' pick hv hs ih =>
      have := ih.step hl hV addr (pick := pick) (cnt := cnt)
      rw [hs] at this
      exact this
  refine ⟨key.inv.depT, fun e => ?_⟩
  have := key.inv.rc e
  have ht : total G [] s e = references G s e := by
    unfold total references depCnt
    simp
  rwa [ht] at this

/-- Edges do get referenced, and released. -/
example : references exLoop (({} : St Nat).explore exLoop (fun _ => 0) 0) (0, 0) = 1 := by decide +kernel
example : ((({} : St Nat).explore exLoop (fun _ => 0) 3).edge (3, 0)).refcnt = -1 := by decide +kernel

end CTL
end Verif
