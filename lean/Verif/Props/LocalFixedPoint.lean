import Verif.CTL.LocalRun
import Verif.Props.FixedPoint

/-!
# C28: the local algorithm

`localFPA G addr pick root fuel` runs the model of `LocalFPA::search` for at most `fuel` rounds; `pick` and
`addr` are as in `Verif.Props.FixedPoint`.
-/

namespace Verif
namespace CTL

variable {κ : Type} [DecidableEq κ]

/-- C28, for layered graphs (those the CTL encoding produces, see C26): whatever the order of the edges,
the answer is the value of the root in the least stratified solution.  The property asks for all
stratified graphs; that is false of the code, see `localFPA_not_stratified`. -/
theorem localFPA_correct_partial (G : Graph κ) (lev : κ → Nat) (hl : G.Layered lev) (V : κ → Prop)
    (hV : G.Solution V) (root : κ) (h0 : lev root = 0) (addr : EId κ → Nat)
    (pick : Nat → List (EId κ) → Nat) (fuel : Nat) (b : Bool)
    (h : localFPA G addr pick root fuel = some b) : b = true ↔ V root := by
  obtain ⟨h1, h2, _⟩ := LInv.start (G := G) (V := V) h0
  unfold localFPA at h
  simp only at h
  split at h
  · rename_i he
    cases h
    exact h1.answer hl hV h2 he
  · exact LLoop.run_sound hl hV addr fuel pick _ b (.inr ⟨h1, h2⟩) h

/-- C28, termination: when finitely many configurations are reachable, the algorithm ends, whatever the
order of the edges. -/
theorem localFPA_terminates (G : Graph κ) (lev : κ → Nat) (hl : G.Layered lev) (V : κ → Prop)
    (hV : G.Solution V) (root : κ) (h0 : lev root = 0) (R : List κ) (hroot : root ∈ R)
    (hR : ∀ c ∈ R, ∀ x ∈ G.succ c, ∀ t ∈ x.targets, t ∈ R) (addr : EId κ → Nat)
    (pick : Nat → List (EId κ) → Nat) : ∃ fuel b, localFPA G addr pick root fuel = some b := by
  obtain ⟨h1, h2, h3⟩ := LInv.start (G := G) (V := V) h0
  unfold localFPA
  simp only
  split
  · exact ⟨0, _, rfl⟩
  · refine LLoop.run_terminates hl hV addr (R := R) hR _ _ _ pick (.inr ⟨h1, h2⟩) ?_ (Nat.le_refl _)
      (Nat.le_refl _)
    intro c hc
    rw [h3 c hc]; exact hroot

/-- More rounds do not change an answer. -/
theorem localRun_mono (G : Graph κ) (addr : EId κ → Nat) (root : κ) :
    ∀ (fuel : Nat) (pick : Nat → List (EId κ) → Nat) (s : St κ) (b : Bool) (k : Nat),
      s.localRun G addr root fuel pick = some b → s.localRun G addr root (fuel + k) pick = some b
  | 0, _, _, _, _, h => by cases h
  | fuel + 1, pick, s, b, k, h => by
    rw [show fuel + 1 + k = fuel + k + 1 by omega]
    unfold St.localRun at h ⊢
    cases hst : s.localStep G addr (pick 0) root with
    | answer b' => rw [hst] at h; exact h
    | cont s' cnt' => rw [hst] at h; exact localRun_mono G addr root fuel _ s' b k h

/-- C28, total correctness on finite layered graphs: for every order, from some number of rounds on the
algorithm has answered, and the answer is right. -/
theorem localFPA_total_partial (G : Graph κ) (lev : κ → Nat) (hl : G.Layered lev) (V : κ → Prop)
    (hV : G.Solution V) (root : κ) (h0 : lev root = 0) (R : List κ) (hroot : root ∈ R)
    (hR : ∀ c ∈ R, ∀ x ∈ G.succ c, ∀ t ∈ x.targets, t ∈ R) (addr : EId κ → Nat)
    (pick : Nat → List (EId κ) → Nat) :
    ∃ n b, (b = true ↔ V root) ∧ ∀ fuel, n ≤ fuel → localFPA G addr pick root fuel = some b := by
  obtain ⟨n, b, h⟩ := localFPA_terminates G lev hl V hV root h0 R hroot hR addr pick
  refine ⟨n, b, localFPA_correct_partial G lev hl V hV root h0 addr pick n b h, fun fuel hf => ?_⟩
  obtain ⟨k, rfl⟩ := Nat.exists_eq_add_of_le hf
  unfold localFPA at h ⊢
  simp only at h ⊢
  split
  · rename_i he; rw [if_pos he] at h; exact h
  · rename_i he; rw [if_neg he] at h; exact localRun_mono G addr root n pick _ b k h

/-- The two algorithms agree on layered graphs. -/
theorem localFPA_eq_certainZero (G : Graph κ) (lev : κ → Nat) (hl : G.Layered lev) (V : κ → Prop)
    (hV : G.Solution V) (root : κ) (h0 : lev root = 0) (addr addr' : EId κ → Nat)
    (pick pick' : Nat → List (EId κ) → Nat) (fuel fuel' : Nat) (b b' : Bool)
    (h : localFPA G addr pick root fuel = some b) (h' : certainZero G addr' pick' root fuel' = some b') :
    b = b' := by
  have h1 := localFPA_correct_partial G lev hl V hV root h0 addr pick fuel b h
  have h2 := certainZero_correct_partial G lev hl V hV root h0 addr' pick' fuel' b' h'
  cases b <;> cases b' <;> simp_all

/-! ### Examples -/

example : localFPA exLoop (fun _ => 0) (fun _ _ => 0) 0 20 = some true := by decide +kernel
example : localFPA exLoop (fun _ => 0) (fun _ _ => 0) 1 20 = some false := by decide +kernel
example : localFPA exLoop (fun _ => 0) (fun _ _ => 0) 3 20 = some true := by decide +kernel
example : localFPA exLoop (fun _ => 0) (fun _ _ => 0) 0 2 = none := by decide +kernel

example (addr : EId Nat → Nat) (pick : Nat → List (EId Nat) → Nat) :
    ∃ n, ∀ fuel, n ≤ fuel → localFPA exLoop addr pick 0 fuel = some true := by
  obtain ⟨n, b, h1, h2⟩ := localFPA_total_partial exLoop _ exLoop_layered _ exLoop_solution 0 rfl
    [0, 1, 2, 3] (by decide) (by decide) addr pick
  have hb : b = true := h1.2 (.inl rfl)
  subst hb
  exact ⟨n, h2⟩

/-! ### The finding: stratified graphs that are not layered -/

/-- `exShared` with the targets of one edge in the other order (this algorithm explores the last
undecided target first). -/
def exShared' : Graph Nat := ⟨fun n => match n with
  | 0 => [⟨false, [1]⟩, ⟨false, [5, 3]⟩]
  | 1 => [⟨true, [2]⟩]
  | 2 => [⟨false, [3]⟩]
  | 3 => [⟨false, [4]⟩]
  | 4 => [⟨true, [5]⟩]
  | 5 => [⟨false, [6]⟩]
  | 6 => [⟨false, [5]⟩]
  | _ => []⟩

theorem exShared'_stratified : exShared'.Stratified (fun n => if n ≤ 1 then 0 else if n ≤ 4 then 1 else 2) := by
  constructor
  · intro v e he hn t ht
    match v, he with
    | 0, he =>
      simp only [exShared', List.mem_cons, List.not_mem_nil, or_false] at he
      rcases he with rfl | rfl
      · simp only [List.mem_singleton] at ht; subst ht; decide
      · simp only [List.mem_cons, List.not_mem_nil, or_false] at ht
        rcases ht with rfl | rfl <;> decide
    | 1, he => simp only [exShared', List.mem_singleton] at he; subst he; cases hn
    | 2, he =>
      simp only [exShared', List.mem_singleton] at he; subst he
      simp only [List.mem_singleton] at ht; subst ht; decide
    | 3, he =>
      simp only [exShared', List.mem_singleton] at he; subst he
      simp only [List.mem_singleton] at ht; subst ht; decide
    | 4, he => simp only [exShared', List.mem_singleton] at he; subst he; cases hn
    | 5, he =>
      simp only [exShared', List.mem_singleton] at he; subst he
      simp only [List.mem_singleton] at ht; subst ht; decide
    | 6, he =>
      simp only [exShared', List.mem_singleton] at he; subst he
      simp only [List.mem_singleton] at ht; subst ht; decide
    | n + 7, he => cases he
  · intro v e he hn t ht
    match v, he with
    | 0, he =>
      simp only [exShared', List.mem_cons, List.not_mem_nil, or_false] at he
      rcases he with rfl | rfl <;> cases hn
    | 1, he =>
      simp only [exShared', List.mem_singleton] at he; subst he
      simp only [List.mem_singleton] at ht; subst ht; decide
    | 2, he => simp only [exShared', List.mem_singleton] at he; subst he; cases hn
    | 3, he => simp only [exShared', List.mem_singleton] at he; subst he; cases hn
    | 4, he =>
      simp only [exShared', List.mem_singleton] at he; subst he
      simp only [List.mem_singleton] at ht; subst ht; decide
    | 5, he => simp only [exShared', List.mem_singleton] at he; subst he; cases hn
    | 6, he => simp only [exShared', List.mem_singleton] at he; subst he; cases hn
    | n + 7, he => cases he

theorem exShared'_solution : exShared'.Solution (fun n => n = 2 ∨ n = 3 ∨ n = 4) := by
  constructor
  · intro v
    match v with
    | 0 => simp [exShared', HEdge.Fires]
    | 1 => simp [exShared', HEdge.Fires]
    | 2 => simp [exShared', HEdge.Fires]
    | 3 => simp [exShared', HEdge.Fires]
    | 4 => simp [exShared', HEdge.Fires]
    | 5 => simp [exShared', HEdge.Fires]
    | 6 => simp [exShared', HEdge.Fires]
    | n + 7 => simp [exShared']
  · intro P hP v hv
    have h4 : P 4 := hP 4 ⟨⟨true, [5]⟩, by simp [exShared'], by simp [HEdge.Fires]⟩
    have h3 : P 3 := hP 3 ⟨⟨false, [4]⟩, by simp [exShared'], by simpa [HEdge.Fires] using h4⟩
    have h2 : P 2 := hP 2 ⟨⟨false, [3]⟩, by simp [exShared'], by simpa [HEdge.Fires] using h3⟩
    rcases hv with rfl | rfl | rfl <;> assumption

/-- C28 is false for stratified graphs in general: on this graph, with edges taken first-in first-out,
the algorithm answers true for a root whose value is false. -/
theorem localFPA_not_stratified :
    ¬ ∀ (G : Graph Nat) (lev : Nat → Nat), G.Stratified lev → ∀ V : Nat → Prop, G.Solution V →
      ∀ (root : Nat) (addr : EId Nat → Nat) (pick : Nat → List (EId Nat) → Nat) (fuel : Nat) (b : Bool),
        localFPA G addr pick root fuel = some b → (b = true ↔ V root) := by
  intro h
  have h1 : localFPA exShared' (fun _ => 0) (fun _ _ => 0) 0 40 = some true := by decide +kernel
  have := (h exShared' _ exShared'_stratified _ exShared'_solution 0 _ _ 40 true h1).1 rfl
  omega

example : localFPA exShared' (fun _ => 0) (fun _ l => l.length - 1) 0 40 = some false := by decide +kernel

end CTL
end Verif
