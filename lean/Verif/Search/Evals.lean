import Verif.Search.Results

/-!
# The evaluations made by the search

While a query is unanswered every evaluation of it was negative, and once one is positive the query is
never evaluated again.
-/

namespace Verif
namespace Search
open Queue StateSet

variable {Q : Type} {E : Env Q}

/-- Preserved by evaluations of unanswered queries and by the last calls of the handler. -/
structure EvalInv (E : Env Q) (R : (Nat → Answer) → List (Nat × (Nat → Nat)) → Prop) : Prop where
  pos : ∀ (s : St Q) i m, R s.results s.evals → s.results i = .unknown → E.goal i m = true →
    R (callback E i .satisfied (note i m s)).results (callback E i .satisfied (note i m s)).evals
  neg : ∀ (s : St Q) i m, R s.results s.evals → s.results i = .unknown → E.goal i m = false →
    R (note i m s).results (note i m s).evals
  last : ∀ (s : St Q) i, R s.results s.evals → s.results i = .unknown →
    R (callback E i .notSatisfied s).results (callback E i .notSatisfied s).evals

section
variable {R : (Nat → Answer) → List (Nat × (Nat → Nat)) → Prop}

theorem bumpHeur_E {s : St Q} (i : Nat) : (bumpHeur E i s).results = s.results ∧ (bumpHeur E i s).evals = s.evals := by
  obtain ⟨h', he⟩ := bumpHeur_eq (E := E) i s
  rw [he]; exact ⟨rfl, rfl⟩

theorem checkLoop_E (hR : EvalInv E R) (m : Nat → Nat) (is : List Nat) (s : St Q) (a : Bool)
    (h : R s.results s.evals) : R (checkLoop E m is s a).1.results (checkLoop E m is s a).1.evals := by
  induction is generalizing s a with
  | nil => exact h
  | cons i is ih =>
    have hb : ∀ s : St Q, R s.results s.evals → R (bumpHeur E i s).results (bumpHeur E i s).evals := by
      intro s h; rw [(bumpHeur_E i).1, (bumpHeur_E i).2]; exact h
    simp only [checkLoop]
    split
    · rename_i hu
      split
      · rename_i hg
        split
        · exact hR.pos _ _ _ h hu hg
        · exact ih _ _ (hb _ (hR.pos _ _ _ h hu hg))
      · rename_i hg
        exact ih _ _ (hb _ (hR.neg _ _ _ h hu (by simpa using hg)))
    · exact ih _ _ (hb _ h)

theorem checkQueries_E (hR : EvalInv E R) (m : Nat → Nat) (s : St Q)
    (h : R s.results s.evals) : R (checkQueries E m s).1.results (checkQueries E m s).1.evals := by
  unfold checkQueries
  split
  · exact checkLoop_E hR _ _ _ _ h
  · exact h

theorem newState_E (hR : EvalInv E R) {s s' : St Q} {id t : Nat} {m : Nat → Nat} {b : Bool}
    (h : R s.results s.evals) (hn : newState E id t m s = some (s', b)) : R s'.results s'.evals := by
  unfold newState at hn
  split at hn
  · split at hn
    · simp at hn
    · rename_i q hq
      simp only [Option.some.injEq] at hn
      have := congrArg Prod.fst hn
      simp only at this
      rw [← this]
      exact checkQueries_E hR m _ h
  · simp at hn

theorem succLoop_E (hR : EvalInv E R) (rest : List (Nat × (Nat → Nat))) (s s' : St Q)
    (h : R s.results s.evals) (hs : (succLoop E rest s).st = some s') : R s'.results s'.evals := by
  induction rest generalizing s with
  | nil =>
    simp only [succLoop, Loop.st, Option.some.injEq] at hs
    subst hs; exact h
  | cons y rest ih =>
    obtain ⟨t, m⟩ := y
    simp only [succLoop] at hs
    split at hs
    · simp [Loop.st] at hs
    · simp only [Loop.st, Option.some.injEq] at hs
      subst hs; exact h
    · exact ih _ (by exact h) hs
    · simp [Loop.st] at hs
    · split at hs
      · simp [Loop.st] at hs
      · rename_i s1 hn
        simp only [Loop.st, Option.some.injEq] at hs
        subst hs
        exact newState_E hR (by exact h) hn
      · rename_i s1 hn
        exact ih _ (newState_E hR (by exact h) hn) hs

theorem finish_E (hR : EvalInv E R) (s : St Q) (h : R s.results s.evals) :
    R (finish E s).results (finish E s).evals := by
  unfold finish
  generalize List.range E.nq = l
  induction l generalizing s with
  | nil => exact h
  | cons i l ih =>
    simp only [List.foldl_cons]
    apply ih
    split
    · rename_i hu; exact hR.last _ _ h hu
    · exact h

theorem mainLoop_E (hR : EvalInv E R) (fuel : Nat) (s s' : St Q)
    (h : R s.results s.evals) (hs : (mainLoop E fuel s).st = some s') : R s'.results s'.evals := by
  induction fuel generalizing s with
  | zero =>
    simp only [mainLoop, Outcome.st, Option.some.injEq] at hs
    subst hs; exact h
  | succ fuel ih =>
    simp only [mainLoop] at hs
    split at hs
    · simp [Outcome.st] at hs
    · simp only [Outcome.st, Option.some.injEq] at hs
      subst hs
      exact finish_E hR _ h
    · rename_i nid q _
      split at hs
      · simp [Outcome.st] at hs
      · rename_i S m _
        have key := fun s1 => succLoop_E hR (E.gen m).1 { s with set := S, queue := q, state := m, parent := nid } s1 h
        split at hs
        · simp [Outcome.st] at hs
        · rename_i s1 h1
          simp only [Outcome.st, Option.some.injEq] at hs
          subst hs
          exact key _ (by rw [h1]; rfl)
        · rename_i s1 h1
          simp only [Outcome.st, Option.some.injEq] at hs
          subst hs
          exact key _ (by rw [h1]; rfl)
        · rename_i s1 h1
          have := key s1 (by rw [h1]; rfl)
          split at hs
          · simp only [Outcome.st, Option.some.injEq] at hs
            subst hs; exact this
          · exact ih _ (by exact this) hs

theorem tryReach_E (hR : EvalInv E R) (fuel : Nat) (s' : St Q) (h : R E.results0 [])
    (hs : (tryReach E fuel).st = some s') : R s'.results s'.evals := by
  unfold tryReach at hs
  split at hs
  · simp [Outcome.st] at hs
  · simp only [Outcome.st, Option.some.injEq] at hs
    subst hs; exact h
  · simp only [Outcome.st, Option.some.injEq] at hs
    subst hs; exact finish_E hR _ h
  · simp [Outcome.st] at hs
  · rename_i S id _
    have key := checkQueries_E hR E.m0 { start E with set := S, satisfying := id } h
    split at hs
    · rename_i s1 h1
      simp only [Outcome.st, Option.some.injEq] at hs
      subst hs
      rw [h1] at key; exact key
    · rename_i s1 h1
      rw [h1] at key
      unfold afterInit at hs
      split at hs
      · split at hs
        · simp [Outcome.st] at hs
        · exact mainLoop_E hR fuel _ s' (by exact key) hs
      · simp [Outcome.st] at hs
end


/-- The markings at which query `i` was evaluated, the last one first. -/
def evalsOf (l : List (Nat × (Nat → Nat))) (i : Nat) : List (Nat → Nat) :=
  (l.filter fun x => x.1 = i).map Prod.snd

theorem mem_evalsOf {l : List (Nat × (Nat → Nat))} {i : Nat} {m : Nat → Nat} :
    m ∈ evalsOf l i ↔ (i, m) ∈ l := by
  unfold evalsOf
  simp only [List.mem_map, List.mem_filter, decide_eq_true_eq]
  constructor
  · rintro ⟨⟨j, m'⟩, ⟨h1, rfl⟩, rfl⟩; exact h1
  · intro h; exact ⟨(i, m), ⟨h, rfl⟩, rfl⟩

theorem evalsOf_cons (l : List (Nat × (Nat → Nat))) (i j : Nat) (m : Nat → Nat) :
    evalsOf ((j, m) :: l) i = if j = i then m :: evalsOf l i else evalsOf l i := by
  unfold evalsOf
  by_cases h : j = i <;> simp [h]

/-- All evaluations of a query but the last are negative, and all of them if the query is
unanswered. -/
theorem tryReach_evals (H : HandlerOK E) (fuel : Nat) (s : St Q)
    (hs : (tryReach E fuel).st = some s) (i : Nat) :
    (s.results i = .unknown → ∀ m ∈ evalsOf s.evals i, E.goal i m = false) ∧
    ∀ m ∈ (evalsOf s.evals i).tail, E.goal i m = false := by
  refine tryReach_E (R := fun r l => (r i = .unknown → ∀ m ∈ evalsOf l i, E.goal i m = false) ∧
    ∀ m ∈ (evalsOf l i).tail, E.goal i m = false) ?_ fuel s ⟨by simp [evalsOf], by simp [evalsOf]⟩ hs
  refine ⟨?_, ?_, ?_⟩
  · rintro s j m ⟨h1, h2⟩ hu _
    simp only [callback, note, evalsOf_cons]
    by_cases hj : j = i
    · subst hj
      simp only [if_true, List.tail_cons]
      exact ⟨fun h => absurd h (H j).1, h1 hu⟩
    · rw [if_neg (fun e => hj e.symm), if_neg hj]
      exact ⟨h1, h2⟩
  · rintro s j m ⟨h1, h2⟩ hu hg
    simp only [note, evalsOf_cons]
    by_cases hj : j = i
    · subst hj
      simp only [if_true, List.tail_cons]
      refine ⟨fun _ m' hm' => ?_, h1 hu⟩
      rcases List.mem_cons.1 hm' with rfl | hm'
      · exact hg
      · exact h1 hu m' hm'
    · rw [if_neg hj]
      exact ⟨h1, h2⟩
  · rintro s j ⟨h1, h2⟩ hu
    refine ⟨fun h => ?_, h2⟩
    simp only [callback] at h
    split at h
    · exact absurd h (H j).2
    · exact h1 h

end Search
end Verif
