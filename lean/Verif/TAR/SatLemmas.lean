import Verif.TAR.CheckLemmas
import Verif.TAR.SearchLemmas
import Verif.PQL.EvalLemmas

/-! # What a positive answer of trace abstraction refinement rests on -/

namespace Verif
namespace TAR
open PRVec Solver TraceSet PQL

variable {N : FlatNet}

/-- The engine's firings are those of the net. -/
theorem pre_eq (ok : NetOK N) (t : Fin N.ntransitions) (p : Nat) : N.toNet.pre t p = pre N t p := by
  have h : (N.preset t).find? (fun i => i.place == p && !i.inhibitor) = (N.preset t).find? (fun i => i.place == p) := by
    have : ∀ l : List Invariant, (∀ a ∈ l, a.inhibitor = false) →
        l.find? (fun i => i.place == p && !i.inhibitor) = l.find? (fun i => i.place == p) := by
      intro l
      induction l with
      | nil => intro _; rfl
      | cons a l ih =>
        intro hl
        simp only [List.find?_cons, hl a (by simp), Bool.not_false, Bool.and_true]
        rw [ih (fun b hb => hl b (by simp [hb]))]
    exact this _ (ok.noInh t t.2)
  show (match (N.preset t).find? (fun i => i.place == p && !i.inhibitor) with | some i => i.tokens | none => 0) = _
  rw [h]
  exact find_arcSum (ok.preSorted t t.2) p

theorem post_eq (ok : NetOK N) (t : Fin N.ntransitions) (p : Nat) : N.toNet.post t p = post N t p :=
  find_arcSum (ok.postSorted t t.2) p

theorem inh_eq (ok : NetOK N) (t : Fin N.ntransitions) (p : Nat) : N.toNet.inh t p = none := by
  have h : (N.preset t).find? (fun i => i.place == p && i.inhibitor) = none := by
    rw [List.find?_eq_none]
    intro a ha
    simp [ok.noInh t t.2 a ha]
  show (match (N.preset t).find? (fun i => i.place == p && i.inhibitor) with | some i => some i.tokens | none => none) = _
  rw [h]

theorem step_iff_fire (ok : NetOK N) (t : Fin N.ntransitions) (m m' : Nat → Nat) :
    N.toNet.Step m t m' ↔ Fire N m t m' := by
  unfold Net.Step Net.Enabled Fire Net.fire
  simp only [pre_eq ok, post_eq ok, inh_eq ok]
  constructor
  · rintro ⟨⟨h1, _⟩, h2⟩; exact ⟨t.2, h1, h2⟩
  · rintro ⟨_, h1, h2⟩; exact ⟨⟨h1, by simp⟩, h2⟩

/-- The symbol of a transition in a trace. -/
def symOf (t : Fin N.ntransitions) : Nat := t.val + 1

theorem run_of_fseq (ok : NetOK N) : ∀ (l : List Nat) (m m' : Nat → Nat), (∀ e ∈ l, 1 ≤ e ∧ e ≤ N.ntransitions) →
    FSeq N m l m' → ∃ ts : List (Fin N.ntransitions), ts.map symOf = l ∧ N.toNet.Run m ts m' := by
  intro l
  induction l with
  | nil => intro m m' _ h; rw [show m' = m from h]; exact ⟨[], rfl, .nil m⟩
  | cons e l ih =>
    intro m m' hl h
    obtain ⟨m1, h1, h2⟩ := h
    obtain ⟨ts, h3, h4⟩ := ih m1 m' (fun x hx => hl x (by simp [hx])) h2
    have he := hl e (by simp)
    let t : Fin N.ntransitions := ⟨e - 1, by omega⟩
    refine ⟨t :: ts, ?_, .cons ((step_iff_fire ok t m m1).2 h1) h4⟩
    rw [List.map_cons, h3]
    congr 1
    show e - 1 + 1 = e
    omega

/-- A trace the solver accepts leads to the goal. -/
theorem check_true (ok : NetOK N) {m0 : Nat → Nat} {q : Cond} {inq : Nat → Bool} {junk : Nat → Bool × Int} {fuel : Nat}
    {ts ts' : TraceSet} {l : List Nat} (hl : ∀ e ∈ l, 1 ≤ e ∧ e ≤ N.ntransitions)
    (h : Solver.check ⟨N, m0, q, inq⟩ junk fuel ts (l ++ [0]) = .ok (ts', true)) :
    ∃ m, FSeq N m0 l m ∧ evaluateSet (N.deadlocked m) m q = .rTrue := by
  unfold Solver.check at h
  cases hf : findFree ⟨N, m0, q, inq⟩ junk (l ++ [0]) ((l ++ [0]).length - 2) with
  | error e => rw [hf] at h; cases h
  | ok back =>
    rw [hf] at h
    simp only [bind, Except.bind] at h
    cases hff : findFailure ⟨N, m0, q, inq⟩ true (fun _ => false) (l ++ [0]) with
    | error e => rw [hff] at h; cases h
    | ok f =>
      rw [hff] at h
      simp only at h
      cases ha : f.at? with
      | some i =>
        exfalso
        rw [ha] at h
        simp only at h
        cases hc : computeTerminal ⟨N, m0, q, inq⟩ f ((l ++ [0]).getD i 0) with
        | error e => rw [hc] at h; cases h
        | ok r =>
          rw [hc] at h
          simp only at h
          split at h
          · cases hh : computeHoare ⟨N, m0, q, inq⟩ (l ++ [0]) i r.2 with
            | error e => rw [hh] at h; cases h
            | ok r2 =>
              rw [hh] at h
              simp only at h
              split at h
              · cases h
              · simp only [pure, Except.pure, Except.ok.injEq, Prod.mk.injEq] at h
                exact absurd h.2 (by decide)
          · split at h
            · cases h
            · simp only [pure, Except.pure, Except.ok.injEq, Prod.mk.injEq] at h
              exact absurd h.2 (by decide)
      | none =>
        have hs := ffLoop_spec ⟨N, m0, q, inq⟩ true (fun _ => false) l 0 (fun p => m0 p) none f (fun e he => (hl e he).1) hff
        rcases hs with ⟨_, _, hmark, _, hres⟩ | ⟨hte, _⟩
        · rcases hres with ⟨hev, hat, _⟩ | ⟨_, hat⟩
          · have hfs : firstShort N l 0 (fun p => (m0 p : Int)) = none := by
              rw [ha] at hat
              cases hx : firstShort N l 0 (fun p => (m0 p : Int)) with
              | none => rfl
              | some F =>
                simp only [Option.none_or] at hat
                rw [hx] at hat; cases hat
            obtain ⟨m', h1, h2⟩ := fseq_of ok l m0 hl (firstShort_none l 0 _ hfs)
            refine ⟨m', h1, ?_⟩
            have : f.mark = m' := by
              rw [hmark]; funext p
              show (final N l (fun p => (m0 p : Int)) p).toNat = m' p
              rw [h2]; simp
            rw [this] at hev
            exact hev
          · rw [ha] at hat; cases hat
        · cases hte

theorem tryLoop_some (ok : NetOK N) {m0 : Nat → Nat} {q : Cond} {inq : Nat → Bool} (rand : Nat → Nat → Nat)
    (junk : Nat → Nat → Bool × Int) : ∀ (fuel k : Nat) (u : Uses) (ts : TraceSet) (tr : List Nat),
    tryLoop ⟨N, m0, q, inq⟩ rand junk fuel k u ts = .ok (some tr) →
    ∃ l m, tr = l ++ [0] ∧ (∀ e ∈ l, 1 ≤ e ∧ e ≤ N.ntransitions) ∧ FSeq N m0 l m ∧
      evaluateSet (N.deadlocked m) m q = .rTrue := by
  intro fuel
  induction fuel with
  | zero => intro k u ts tr h; cases h
  | succ fuel ih =>
    intro k u ts tr h
    simp only [tryLoop, bind, Except.bind] at h
    cases hr : runTAR N ts u.trans (fun i => rand k (i + 1)) fuel 0 [] [⟨rand k 0, 0, ts.maximize ts.initial⟩] with
    | error e => rw [hr] at h; cases h
    | ok r =>
      rw [hr] at h
      simp only at h
      cases r with
      | covered =>
        simp only at h
        split at h
        · exact ih _ _ _ _ h
        · simp only [pure, Except.pure, Except.ok.injEq] at h; cases h
      | trace tr' =>
        simp only at h
        obtain ⟨l, rfl, hl⟩ := runTAR_trace N ts u.trans _ fuel 0 [] _ tr' (by simp) hr
        cases hc : Solver.check ⟨N, m0, q, inq⟩ (junk k) fuel ts (l ++ [0]) with
        | error e => rw [hc] at h; cases h
        | ok c =>
          rw [hc] at h
          obtain ⟨ts', sat⟩ := c
          simp only at h
          cases sat with
          | false => exact ih _ _ _ _ h
          | true =>
            simp only [if_true, pure, Except.pure, Except.ok.injEq, Option.some.injEq] at h
            obtain ⟨m, h1, h2⟩ := check_true ok hl hc
            exact ⟨l, m, h.symm, hl, h1, h2⟩

end TAR
end Verif
