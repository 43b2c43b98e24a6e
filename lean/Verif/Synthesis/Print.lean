import Verif.Synthesis.Term

/-! # Synthesis: the printed strategy -/

namespace Verif
namespace Synth

set_option linter.unusedSectionVars false

variable {σ : Type} [DecidableEq σ]

/-- models src/PetriEngine/Synthesis/SimpleSynthesis.cpp:361-362: whether a marking gets an entry. -/
def printable (G : Game σ) (v : CState) : Bool :=
  v = .winning || (G.safety && decide (v ≠ .unknown) && decide (v ≠ .losing))

/-- models src/PetriEngine/Synthesis/SimpleSynthesis.cpp:381-397: the controllable successors offered
(the code collects the transitions in `winning` and the successors in `winning_succs`).  Markings that are new
to `_stateset.add` have the state `UNKNOWN`. -/
def choices (G : Game σ) (st : Store σ) : List σ → Bool → List σ → List σ
  | [], _, acc => acc
  | c :: cs, seen, acc =>
    if (st c).state = .losing then choices G st cs seen acc
    else if !G.safety && decide ((st c).state ≠ .winning) then choices G st cs seen acc
    else if (st c).state = .winning ∧ seen = false then choices G st cs true [c]
    else choices G st cs seen (acc ++ [c])

/-- The variables of `print_strategy`: the stack, the markings flagged `PRINTED`, the markings handled and the
entries written. -/
structure PState (σ : Type) where
  missing : List σ
  printed : List σ := []
  seen : List σ := []
  rows : List (σ × List σ) := []

/-- models src/PetriEngine/Synthesis/SimpleSynthesis.cpp:365-371 and 399-405. -/
def pushAll : List σ → List σ → List σ → List σ × List σ
  | [], missing, printed => (missing, printed)
  | e :: es, missing, printed =>
    if e ∈ printed then pushAll es missing printed else pushAll es (e :: missing) (e :: printed)

/-- models src/PetriEngine/Synthesis/SimpleSynthesis.cpp:357-427: one turn of the loop (`winning_succs` is
gone through in the order of the markings' numbers, here in the order of generation). -/
def printStep (G : Game σ) (st : Store σ) (p : PState σ) : Option (PState σ) :=
  match p.missing with
  | [] => none
  | s :: missing =>
    if printable G (st s).state then
      let cs := choices G st (G.ctrl s) false []
      let a := pushAll (G.env s) missing p.printed
      let b := pushAll cs a.1 a.2
      some { missing := b.1, printed := b.2, seen := s :: p.seen,
             rows := if cs.isEmpty then p.rows else p.rows ++ [(s, cs)] }
    else some { p with missing := missing, seen := s :: p.seen }

/-- models src/PetriEngine/Synthesis/SimpleSynthesis.cpp:342-431 (`print_strategy`): the entries. -/
def printLoop (G : Game σ) (st : Store σ) : Nat → PState σ → Option (List (σ × List σ))
  | 0, _ => none
  | fuel + 1, p =>
    match printStep G st p with
    | none => some p.rows
    | some p' => printLoop G st fuel p'

/-- `run` followed by `print_strategy`. -/
def strategy (G : Game σ) (m0 : σ) (fuel : Nat) : Option (List (σ × List σ)) :=
  match loop G m0 fuel (start G m0) with
  | none => none
  | some r => printLoop G r.st fuel { missing := [m0] }

/-! ### The entries -/

variable {G : Game σ} {st : Store σ} {m0 : σ}

theorem choices_mem : ∀ (l : List σ) (seen : Bool) (acc : List σ) (c : σ), c ∈ choices G st l seen acc →
    c ∈ acc ∨ (c ∈ l ∧ (st c).state ≠ .losing ∧ (G.safety = false → (st c).state = .winning))
  | [], _, acc, c, h => Or.inl h
  | a :: l, seen, acc, c, h => by
    have up : (c ∈ l ∧ (st c).state ≠ .losing ∧ (G.safety = false → (st c).state = .winning)) →
        c ∈ a :: l ∧ (st c).state ≠ .losing ∧ (G.safety = false → (st c).state = .winning) :=
      fun h => ⟨List.mem_cons_of_mem _ h.1, h.2⟩
    unfold choices at h
    split at h
    · exact (choices_mem l seen acc c h).imp id up
    · rename_i h1
      split at h
      · exact (choices_mem l seen acc c h).imp id up
      · rename_i h2
        have ha : (st a).state ≠ .losing ∧ (G.safety = false → (st a).state = .winning) := by
          refine ⟨h1, fun hs => ?_⟩
          simpa [hs] using h2
        split at h
        · rcases choices_mem l true [a] c h with h | h
          · rw [List.mem_singleton] at h
            subst h
            exact Or.inr ⟨by simp, ha⟩
          · exact Or.inr (up h)
        · rcases choices_mem l seen (acc ++ [a]) c h with h | h
          · rcases List.mem_append.1 h with h | h
            · exact Or.inl h
            · rw [List.mem_singleton] at h
              subst h
              exact Or.inr ⟨by simp, ha⟩
          · exact Or.inr (up h)

/-- A winning successor is offered. -/
theorem choices_ne : ∀ (l : List σ) (seen : Bool) (acc : List σ),
    (acc ≠ [] ∨ ∃ c ∈ l, (st c).state = .winning) → choices G st l seen acc ≠ []
  | [], _, acc, h => by
    rcases h with h | ⟨c, hc, _⟩
    · exact h
    · cases hc
  | a :: l, seen, acc, h => by
    have skip : (st a).state ≠ .winning → acc ≠ [] ∨ ∃ c ∈ l, (st c).state = .winning := by
      intro ha
      rcases h with h | ⟨c, hc, hw⟩
      · exact Or.inl h
      · rcases List.mem_cons.1 hc with rfl | hc
        · exact absurd hw ha
        · exact Or.inr ⟨c, hc, hw⟩
    unfold choices
    split
    · rename_i h1
      exact choices_ne l seen acc (skip (by rw [h1]; simp))
    · split
      · rename_i h2
        simp only [Bool.and_eq_true, decide_eq_true_eq] at h2
        exact choices_ne l seen acc (skip h2.2)
      · split
        · exact choices_ne l true [a] (Or.inl (by simp))
        · exact choices_ne l seen (acc ++ [a]) (Or.inl (by simp))

theorem pushAll_mem : ∀ (es missing printed : List σ),
    (∀ x ∈ missing, x ∈ (pushAll es missing printed).1) ∧
    (∀ x ∈ printed, x ∈ (pushAll es missing printed).2) ∧
    (∀ x ∈ es, x ∈ (pushAll es missing printed).2) ∧
    (∀ x ∈ (pushAll es missing printed).2, x ∈ printed ∨ x ∈ (pushAll es missing printed).1)
  | [], missing, printed => ⟨fun _ h => h, fun _ h => h, by simp, fun _ h => Or.inl h⟩
  | e :: es, missing, printed => by
    unfold pushAll
    split
    · rename_i he
      obtain ⟨h1, h2, h3, h4⟩ := pushAll_mem es missing printed
      refine ⟨h1, h2, fun x hx => ?_, h4⟩
      rcases List.mem_cons.1 hx with rfl | hx
      · exact h2 _ he
      · exact h3 x hx
    · obtain ⟨h1, h2, h3, h4⟩ := pushAll_mem es (e :: missing) (e :: printed)
      refine ⟨fun x hx => h1 x (by simp [hx]), fun x hx => h2 x (by simp [hx]), fun x hx => ?_, fun x hx => ?_⟩
      · rcases List.mem_cons.1 hx with rfl | hx
        · exact h2 _ (by simp)
        · exact h3 x hx
      · rcases h4 x hx with h | h
        · rcases List.mem_cons.1 h with rfl | h
          · exact Or.inr (h1 _ (by simp))
          · exact Or.inl h
        · exact Or.inr h

/-- The invariant of `print_strategy`. -/
structure PInv (G : Game σ) (st : Store σ) (m0 : σ) (p : PState σ) : Prop where
  root : m0 ∈ p.seen ∨ m0 ∈ p.missing
  printed : ∀ x ∈ p.printed, x ∈ p.seen ∨ x ∈ p.missing
  env : ∀ s ∈ p.seen, printable G (st s).state = true → ∀ e ∈ G.env s, e ∈ p.seen ∨ e ∈ p.missing
  ctrl : ∀ s ∈ p.seen, printable G (st s).state = true → ∀ c ∈ choices G st (G.ctrl s) false [], c ∈ p.seen ∨ c ∈ p.missing
  rows : ∀ r ∈ p.rows, printable G (st r.1).state = true ∧ r.2 = choices G st (G.ctrl r.1) false [] ∧ r.2 ≠ []
  row : ∀ s ∈ p.seen, printable G (st s).state = true → choices G st (G.ctrl s) false [] ≠ [] →
    (s, choices G st (G.ctrl s) false []) ∈ p.rows

theorem printStep_inv {p p' : PState σ} (I : PInv G st m0 p) (h : printStep G st p = some p') : PInv G st m0 p' := by
  unfold printStep at h
  cases hm : p.missing with
  | nil => rw [hm] at h; cases h
  | cons s missing =>
    rw [hm] at h
    simp only at h
    have old : ∀ x, x ∈ p.seen ∨ x ∈ p.missing → x ∈ s :: p.seen ∨ x ∈ missing := by
      intro x hx
      rcases hx with hx | hx
      · exact Or.inl (List.mem_cons_of_mem _ hx)
      · rw [hm] at hx
        rcases List.mem_cons.1 hx with rfl | hx
        · exact Or.inl (by simp)
        · exact Or.inr hx
    split at h
    · rename_i hpr
      simp only [Option.some.injEq] at h
      obtain ⟨a1, a2, a3, a4⟩ := pushAll_mem (G.env s) missing p.printed
      obtain ⟨b1, b2, b3, b4⟩ := pushAll_mem (choices G st (G.ctrl s) false [])
        (pushAll (G.env s) missing p.printed).1 (pushAll (G.env s) missing p.printed).2
      generalize pushAll (G.env s) missing p.printed = a at *
      generalize pushAll (choices G st (G.ctrl s) false []) a.1 a.2 = b at *
      subst h
      have new : ∀ x, x ∈ p.seen ∨ x ∈ p.missing → x ∈ s :: p.seen ∨ x ∈ b.1 := by
        intro x hx
        exact (old x hx).imp id fun h => b1 x (a1 x h)
      have pr : ∀ x ∈ b.2, x ∈ s :: p.seen ∨ x ∈ b.1 := by
        intro x hx
        rcases b4 x hx with h | h
        · rcases a4 x h with h | h
          · exact new x (I.printed x h)
          · exact Or.inr (b1 x h)
        · exact Or.inr h
      refine ⟨new _ I.root, pr, ?_, ?_, ?_, ?_⟩
      · intro x hx hp e he
        rcases List.mem_cons.1 hx with rfl | hx
        · exact pr e (b2 e (a3 e he))
        · exact new e (I.env x hx hp e he)
      · intro x hx hp e he
        rcases List.mem_cons.1 hx with rfl | hx
        · exact pr e (b3 e he)
        · exact new e (I.ctrl x hx hp e he)
      · intro r hr
        simp only at hr
        split at hr
        · exact I.rows r hr
        · rename_i hne
          rcases List.mem_append.1 hr with hr | hr
          · exact I.rows r hr
          · rw [List.mem_singleton] at hr
            subst hr
            exact ⟨hpr, rfl, by simpa using hne⟩
      · intro x hx hp hne
        simp only
        rcases List.mem_cons.1 hx with rfl | hx
        · rw [if_neg (by simpa using hne)]; simp
        · have := I.row x hx hp hne
          split
          · exact this
          · exact List.mem_append_left _ this
    · rename_i hpr
      simp only [Option.some.injEq] at h
      subst h
      refine ⟨old _ I.root, fun x hx => old x (I.printed x hx), ?_, ?_, I.rows, ?_⟩
      · intro x hx hp e he
        rcases List.mem_cons.1 hx with rfl | hx
        · exact absurd hp hpr
        · exact old e (I.env x hx hp e he)
      · intro x hx hp e he
        rcases List.mem_cons.1 hx with rfl | hx
        · exact absurd hp hpr
        · exact old e (I.ctrl x hx hp e he)
      · intro x hx hp hne
        rcases List.mem_cons.1 hx with rfl | hx
        · exact absurd hp hpr
        · exact I.row x hx hp hne

theorem printLoop_inv : ∀ (fuel : Nat) (p : PState σ) (rows : List (σ × List σ)), PInv G st m0 p →
    printLoop G st fuel p = some rows → ∃ p', PInv G st m0 p' ∧ p'.rows = rows ∧ p'.missing = []
  | 0, _, _, _, h => by simp [printLoop] at h
  | fuel + 1, p, rows, I, h => by
    simp only [printLoop] at h
    cases hs : printStep G st p with
    | none =>
      rw [hs] at h
      simp only [Option.some.injEq] at h
      refine ⟨p, I, h, ?_⟩
      cases hm : p.missing with
      | nil => rfl
      | cons a l =>
        unfold printStep at hs
        rw [hm] at hs
        simp only at hs
        split at hs <;> cases hs
    | some p' =>
      rw [hs] at h
      exact printLoop_inv fuel p' rows (printStep_inv I hs) h

/-- Specification: the markings met before the goal when the controller only makes offered moves. -/
inductive Follows (G : Game σ) (rows : List (σ × List σ)) (m0 : σ) : σ → Prop
  | root : Follows G rows m0 m0
  | env {s e : σ} : Follows G rows m0 s → G.goal s = false → e ∈ G.env s → Follows G rows m0 e
  | ctrl {s c : σ} {cs : List σ} : Follows G rows m0 s → G.goal s = false → (s, cs) ∈ rows → c ∈ cs → Follows G rows m0 c

/-- For reachability: following the entries, the controller stays in winning markings and is never without an
offered move where it needs one. -/
theorem printed_reach (hidle : G.NoIdle m0) (hs : G.safety = false) {fuel : Nat} (hrun : run G m0 fuel = some true)
    {rows : List (σ × List σ)} (h : strategy G m0 fuel = some rows) {s : σ} (hf : Follows G rows m0 s) :
    G.Reaches s ∧ (G.goal s = false → G.ctrl s ≠ [] → ∃ cs, (s, cs) ∈ rows ∧ cs ≠ [] ∧ ∀ c ∈ cs, c ∈ G.ctrl s ∧ G.Reaches c) := by
  unfold run at hrun
  unfold strategy at h
  cases hl : loop G m0 fuel (start G m0) with
  | none => rw [hl] at hrun; cases hrun
  | some r =>
    rw [hl] at hrun h
    simp only [Option.map_some, Option.some.injEq] at hrun h
    obtain ⟨I, _⟩ := loop_inv hidle fuel _ r start_inv hl
    have hw : ∀ x, (r.st x).state = .winning → G.Reaches x ∧ (G.goal x = true ∨ ((∀ e ∈ G.env x, (r.st e).state = .winning) ∧
        (G.ctrl x = [] ∨ ∃ c ∈ G.ctrl x, (r.st c).state = .winning))) := by
      intro x hx
      have := I.win x hx
      rw [WinJ, if_neg (by simp [hs])] at this
      exact this
    have hroot : (r.st m0).state = .winning := by
      unfold answer at hrun
      rw [hs] at hrun
      simpa using hrun
    obtain ⟨p, P, rfl, hmiss⟩ := printLoop_inv (m0 := m0) fuel _ rows
      (⟨Or.inr (by simp), by simp, by simp, by simp, by simp, by simp⟩) h
    have hprint : ∀ x, (r.st x).state = .winning → printable G (r.st x).state = true := by
      intro x hx; simp [printable, hx]
    have main : (r.st s).state = .winning ∧ s ∈ p.seen := by
      induction hf with
      | root => exact ⟨hroot, P.root.resolve_right (by simp [hmiss])⟩
      | env _ hg he ih =>
        obtain ⟨i1, i2⟩ := ih
        rcases (hw _ i1).2 with h' | h'
        · rw [hg] at h'; cases h'
        · exact ⟨h'.1 _ he, (P.env _ i2 (hprint _ i1) _ he).resolve_right (by simp [hmiss])⟩
      | ctrl _ hg hr hc ih =>
        obtain ⟨i1, i2⟩ := ih
        obtain ⟨_, q2, _⟩ := P.rows _ hr
        simp only at q2
        subst q2
        refine ⟨?_, (P.ctrl _ i2 (hprint _ i1) _ hc).resolve_right (by simp [hmiss])⟩
        rcases choices_mem _ _ _ _ hc with h' | h'
        · cases h'
        · exact h'.2.2 hs
    refine ⟨(hw s main.1).1, fun hg hne => ?_⟩
    have hex : ∃ c ∈ G.ctrl s, (r.st c).state = .winning := by
      rcases (hw s main.1).2 with h' | h'
      · rw [hg] at h'; cases h'
      · exact h'.2.resolve_left hne
    have hcn : choices G r.st (G.ctrl s) false [] ≠ [] := choices_ne _ _ _ (Or.inr hex)
    refine ⟨_, P.row s main.2 (hprint s main.1) hcn, hcn, fun c hc => ?_⟩
    rcases choices_mem _ _ _ _ hc with h' | h'
    · cases h'
    · exact ⟨h'.1, (hw c (h'.2.2 hs)).1⟩

theorem Game.Reaches.not_over {s : σ} (h : G.Reaches s) : G.over s = false := by cases h <;> assumption

/-- Only controllable moves are printed. -/
theorem printed_ctrl {fuel : Nat} {rows : List (σ × List σ)} (h : strategy G m0 fuel = some rows) {s : σ} {cs : List σ}
    (hr : (s, cs) ∈ rows) : ∀ c ∈ cs, c ∈ G.ctrl s := by
  unfold strategy at h
  cases hl : loop G m0 fuel (start G m0) with
  | none => rw [hl] at h; cases h
  | some r =>
    rw [hl] at h
    obtain ⟨p, P, rfl, _⟩ := printLoop_inv (m0 := m0) fuel _ rows
      (⟨Or.inr (by simp), by simp, by simp, by simp, by simp, by simp⟩) h
    obtain ⟨_, q2, _⟩ := P.rows _ hr
    simp only at q2
    subst q2
    intro c hc
    rcases choices_mem _ _ _ _ hc with h' | h'
    · cases h'
    · exact h'.1

/-- No marking known to be losing is offered. -/
theorem printed_not_losing {fuel : Nat} {r : RState σ} {rows : List (σ × List σ)}
    (h : printLoop G r.st fuel { missing := [m0] } = some rows) {s : σ} {cs : List σ} (hr : (s, cs) ∈ rows) :
    ∀ c ∈ cs, c ∈ G.ctrl s ∧ (r.st c).state ≠ .losing := by
  obtain ⟨p, P, rfl, _⟩ := printLoop_inv (m0 := m0) fuel _ rows
      (⟨Or.inr (by simp), by simp, by simp, by simp, by simp, by simp⟩) h
  obtain ⟨_, q2, _⟩ := P.rows _ hr
  simp only at q2
  subst q2
  intro c hc
  rcases choices_mem _ _ _ _ hc with h' | h'
  · cases h'
  · exact ⟨h'.1, h'.2.1⟩

end Synth
end Verif
