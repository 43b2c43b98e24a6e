import Verif.Search.Main

/-!
# The results vector

The results vector is only changed by calls of the handler, and if the search returns before all
queries are answered then the handler has asked for it.
-/

namespace Verif
namespace Search
open Queue StateSet

variable {Q : Type} {E : Env Q}

/-- Preserved by calls of the handler. -/
def CallInv (E : Env Q) (R : (Nat → Answer) → List Call → Prop) : Prop :=
  ∀ (s : St Q) i a, R s.results s.calls → R (callback E i a s).results (callback E i a s).calls

section
variable {R : (Nat → Answer) → List Call → Prop}

theorem bumpHeur_R {s : St Q} (i : Nat) : (bumpHeur E i s).results = s.results ∧ (bumpHeur E i s).calls = s.calls := by
  obtain ⟨h', he⟩ := bumpHeur_eq (E := E) i s
  rw [he]; exact ⟨rfl, rfl⟩

theorem checkLoop_R (hR : CallInv E R) (m : Nat → Nat) (is : List Nat) (s : St Q) (a : Bool)
    (h : R s.results s.calls) : R (checkLoop E m is s a).1.results (checkLoop E m is s a).1.calls := by
  induction is generalizing s a with
  | nil => exact h
  | cons i is ih =>
    have hb : ∀ s : St Q, R s.results s.calls → R (bumpHeur E i s).results (bumpHeur E i s).calls := by
      intro s h; rw [(bumpHeur_R i).1, (bumpHeur_R i).2]; exact h
    simp only [checkLoop]
    split
    · split
      · split
        · exact hR _ _ _ h
        · exact ih _ _ (hb _ (hR _ _ _ h))
      · exact ih _ _ (hb _ h)
    · exact ih _ _ (hb _ h)

theorem checkQueries_R (hR : CallInv E R) (m : Nat → Nat) (s : St Q)
    (h : R s.results s.calls) : R (checkQueries E m s).1.results (checkQueries E m s).1.calls := by
  unfold checkQueries
  split
  · exact checkLoop_R hR _ _ _ _ h
  · exact h

theorem newState_R (hR : CallInv E R) {s s' : St Q} {id t : Nat} {m : Nat → Nat} {b : Bool}
    (h : R s.results s.calls) (hn : newState E id t m s = some (s', b)) : R s'.results s'.calls := by
  unfold newState at hn
  split at hn
  · split at hn
    · simp at hn
    · rename_i q hq
      simp only [Option.some.injEq] at hn
      have := congrArg Prod.fst hn
      simp only at this
      rw [← this]
      exact checkQueries_R hR m _ h
  · simp at hn

theorem succLoop_R (hR : CallInv E R) (rest : List (Nat × (Nat → Nat))) (s s' : St Q)
    (h : R s.results s.calls) (hs : (succLoop E rest s).st = some s') : R s'.results s'.calls := by
  induction rest generalizing s with
  | nil =>
    simp only [succLoop, Loop.st, Option.some.injEq] at hs
    subst hs; exact h
  | cons y rest ih =>
    obtain ⟨t, m⟩ := y
    simp only [succLoop] at hs
    split at hs
    · simp [Loop.st] at hs
    · simp only [Loop.st, Option.some.injEq] at hs
      subst hs; exact h
    · exact ih _ (by exact h) hs
    · simp [Loop.st] at hs
    · split at hs
      · simp [Loop.st] at hs
      · rename_i s1 hn
        simp only [Loop.st, Option.some.injEq] at hs
        subst hs
        exact newState_R hR (by exact h) hn
      · rename_i s1 hn
        exact ih _ (newState_R hR (by exact h) hn) hs

theorem finish_R (hR : CallInv E R) (s : St Q) (h : R s.results s.calls) :
    R (finish E s).results (finish E s).calls := by
  unfold finish
  generalize List.range E.nq = l
  induction l generalizing s with
  | nil => exact h
  | cons i l ih =>
    simp only [List.foldl_cons]
    apply ih
    split
    · exact hR _ _ _ h
    · exact h

theorem mainLoop_R (hR : CallInv E R) (fuel : Nat) (s s' : St Q)
    (h : R s.results s.calls) (hs : (mainLoop E fuel s).st = some s') : R s'.results s'.calls := by
  induction fuel generalizing s with
  | zero =>
    simp only [mainLoop, Outcome.st, Option.some.injEq] at hs
    subst hs; exact h
  | succ fuel ih =>
    simp only [mainLoop] at hs
    split at hs
    · simp [Outcome.st] at hs
    · simp only [Outcome.st, Option.some.injEq] at hs
      subst hs
      exact finish_R hR _ h
    · rename_i nid q _
      split at hs
      · simp [Outcome.st] at hs
      · rename_i S m _
        have key := fun s1 => succLoop_R hR (E.gen m).1 { s with set := S, queue := q, state := m, parent := nid } s1 h
        split at hs
        · simp [Outcome.st] at hs
        · rename_i s1 h1
          simp only [Outcome.st, Option.some.injEq] at hs
          subst hs
          exact key _ (by rw [h1]; rfl)
        · rename_i s1 h1
          simp only [Outcome.st, Option.some.injEq] at hs
          subst hs
          exact key _ (by rw [h1]; rfl)
        · rename_i s1 h1
          have := key s1 (by rw [h1]; rfl)
          split at hs
          · simp only [Outcome.st, Option.some.injEq] at hs
            subst hs; exact this
          · exact ih _ (by exact this) hs

theorem tryReach_R (hR : CallInv E R) (fuel : Nat) (s' : St Q) (h : R E.results0 [])
    (hs : (tryReach E fuel).st = some s') : R s'.results s'.calls := by
  unfold tryReach at hs
  split at hs
  · simp [Outcome.st] at hs
  · simp only [Outcome.st, Option.some.injEq] at hs
    subst hs; exact h
  · simp only [Outcome.st, Option.some.injEq] at hs
    subst hs; exact finish_R hR _ h
  · simp [Outcome.st] at hs
  · rename_i S id _
    have key := checkQueries_R hR E.m0 { start E with set := S, satisfying := id } h
    split at hs
    · rename_i s1 h1
      simp only [Outcome.st, Option.some.injEq] at hs
      subst hs
      rw [h1] at key; exact key
    · rename_i s1 h1
      rw [h1] at key
      unfold afterInit at hs
      split at hs
      · split at hs
        · simp [Outcome.st] at hs
        · exact mainLoop_R hR fuel _ s' (by exact key) hs
      · simp [Outcome.st] at hs
end

/-- The entry of the results vector is what the handler returned in the last call for the query, or
the entry passed in. -/
theorem results_last (fuel : Nat) (s : St Q) (hs : (tryReach E fuel).st = some s) (i : Nat) :
    (∀ c ∈ s.calls, c.query ≠ i) ∧ s.results i = E.results0 i ∨
    ∃ c ∈ s.calls, c.query = i ∧ s.results i = (E.handler i c.answer).1 := by
  refine tryReach_R (R := fun r cs => (∀ c ∈ cs, c.query ≠ i) ∧ r i = E.results0 i ∨
    ∃ c ∈ cs, c.query = i ∧ r i = (E.handler i c.answer).1) ?_ fuel s (.inl ⟨by simp, rfl⟩) hs
  intro s j a h
  by_cases hj : j = i
  · subst hj
    right
    exact ⟨⟨j, a, s.satisfying, s.hist⟩, by simp [callback], rfl, by simp [callback]⟩
  · rcases h with ⟨h1, h2⟩ | ⟨c, h1, h2, h3⟩
    · left
      refine ⟨?_, ?_⟩
      · intro c hc
        simp only [callback, List.mem_append, List.mem_singleton] at hc
        rcases hc with hc | rfl
        · exact h1 c hc
        · exact hj
      · simp only [callback]
        rw [if_neg (fun e => hj e.symm)]; exact h2
    · right
      refine ⟨c, by simp [callback, h1], h2, ?_⟩
      simp only [callback]
      rw [if_neg (fun e => hj e.symm)]; exact h3

/-! ### Early return -/

/-- The handler has asked to stop. -/
def Stopped (E : Env Q) (s : St Q) : Prop :=
  ∃ c ∈ s.calls, c.answer = .satisfied ∧ (E.handler c.query .satisfied).2 = true

theorem checkLoop_stop (H : HandlerOK E) (m : Nat → Nat) (is : List Nat) (s : St Q) (a : Bool) :
    ((checkLoop E m is s a).2 = true → Stopped E (checkLoop E m is s a).1 ∨
      (a = true ∧ ∀ i ∈ is, (checkLoop E m is s a).1.results i ≠ .unknown)) ∧
    (∀ i, s.results i ≠ .unknown → (checkLoop E m is s a).1.results i ≠ .unknown) := by
  induction is generalizing s a with
  | nil => exact ⟨fun h => .inr ⟨h, by simp⟩, fun _ h => h⟩
  | cons i is ih =>
    have hb : ∀ s : St Q, (bumpHeur E i s).results = s.results := fun s => (bumpHeur_R i).1
    have hcr : ∀ j, (s.results j ≠ .unknown ∨ j = i) → (callback E i .satisfied (note i m s)).results j ≠ .unknown := by
      intro j hj
      simp only [callback, note]
      split
      · exact (H i).1
      · rename_i hne; exact hj.resolve_right hne
    simp only [checkLoop]
    split
    · split
      · split
        · rename_i hst
          refine ⟨fun _ => .inl ⟨⟨i, .satisfied, s.satisfying, s.hist⟩, by simp [callback, note], rfl, hst⟩,
            fun j hj => hcr j (.inl hj)⟩
        · obtain ⟨h1, h2⟩ := ih (bumpHeur E i (callback E i .satisfied (note i m s))) a
          refine ⟨fun ht => (h1 ht).imp_right fun h => ⟨h.1, ?_⟩,
            fun j hj => h2 j (by rw [hb]; exact hcr j (.inl hj))⟩
          intro j hj
          rcases List.mem_cons.1 hj with rfl | hj
          · exact h2 j (by rw [hb]; exact hcr j (.inr rfl))
          · exact h.2 j hj
      · obtain ⟨h1, h2⟩ := ih (bumpHeur E i (note i m s)) false
        refine ⟨fun ht => (h1 ht).imp_right fun h => by simpa using h.1, fun j hj => h2 j (by rw [hb]; exact hj)⟩
    · rename_i hr
      obtain ⟨h1, h2⟩ := ih (bumpHeur E i s) a
      refine ⟨fun ht => (h1 ht).imp_right fun h => ⟨h.1, ?_⟩, fun j hj => h2 j (by rw [hb]; exact hj)⟩
      intro j hj
      rcases List.mem_cons.1 hj with rfl | hj
      · exact h2 j (by rw [hb]; exact hr)
      · exact h.2 j hj

theorem checkQueries_stop (H : HandlerOK E) {m : Nat → Nat} {s s' : St Q}
    (h : checkQueries E m s = (s', true)) : Stopped E s' ∨ ∀ i, i < E.nq → s'.results i ≠ .unknown := by
  unfold checkQueries at h
  split at h
  · have := (checkLoop_stop H m (List.range E.nq) s true).1
    rw [h] at this
    exact (this rfl).imp_right fun h i hi => h.2 i (List.mem_range.2 hi)
  · simp at h

theorem succLoop_stop (H : HandlerOK E) (rest : List (Nat × (Nat → Nat))) (s s' : St Q)
    (h : succLoop E rest s = .ret s') : Stopped E s' ∨ ∀ i, i < E.nq → s'.results i ≠ .unknown := by
  induction rest generalizing s with
  | nil => simp [succLoop] at h
  | cons y rest ih =>
    obtain ⟨t, m⟩ := y
    simp only [succLoop] at h
    split at h
    · simp at h
    · simp at h
    · exact ih _ h
    · simp at h
    · split at h
      · simp at h
      · rename_i s1 hn
        simp only [Loop.ret.injEq] at h
        subst h
        unfold newState at hn
        split at hn
        · split at hn
          · simp at hn
          · simp only [Option.some.injEq] at hn
            exact checkQueries_stop H hn
        · simp at hn
      · exact ih _ h

theorem mainLoop_stop (H : HandlerOK E) (fuel : Nat) (s s' : St Q) (h : mainLoop E fuel s = .done true s') :
    Stopped E s' ∨ ∀ i, i < E.nq → s'.results i ≠ .unknown := by
  induction fuel generalizing s with
  | zero => simp [mainLoop] at h
  | succ fuel ih =>
    simp only [mainLoop] at h
    split at h
    · simp at h
    · simp at h
    · split at h
      · simp at h
      · split at h
        · simp at h
        · simp at h
        · rename_i s1 hs1
          simp only [Outcome.done.injEq, true_and] at h
          subst h
          exact succLoop_stop H _ _ _ hs1
        · split at h
          · simp at h
          · exact ih _ h

/-- Every entry given as unknown is answered after the last loop. -/
theorem finish_results (H : HandlerOK E) (s : St Q) (i : Nat) (hi : i < E.nq) :
    (finish E s).results i ≠ .unknown := by
  unfold finish
  have : ∀ (l : List Nat) (s : St Q), (i ∈ l ∨ s.results i ≠ .unknown) → (l.foldl (fun s i =>
      if s.results i = .unknown then callback E i .notSatisfied s else s) s).results i ≠ .unknown := by
    intro l
    induction l with
    | nil => intro s h; simpa using h
    | cons j l ih =>
      intro s h
      rw [List.foldl_cons]
      apply ih
      have hcr : s.results i ≠ .unknown ∨ i = j →
          (callback E j .notSatisfied s).results i ≠ .unknown := by
        intro hj
        simp only [callback]
        split
        · rename_i e; subst e; exact (H i).2
        · rename_i hne; exact hj.resolve_right hne
      by_cases hl : i ∈ l
      · exact .inl hl
      right
      have h' : s.results i ≠ .unknown ∨ i = j := by
        rcases h with h | h
        · exact .inr ((List.mem_cons.1 h).resolve_right hl)
        · exact .inl h
      split
      · exact hcr h'
      · rename_i hne
        rcases h' with h' | rfl
        · exact h'
        · exact hne
  exact this _ s (.inl (List.mem_range.2 hi))

/-- A search that has returned has answered all queries, or the handler asked it to stop. -/
theorem tryReach_stop (H : HandlerOK E) (fuel : Nat) (b : Bool) (s : St Q)
    (hs : tryReach E fuel = .done b s) : Stopped E s ∨ ∀ i, i < E.nq → s.results i ≠ .unknown := by
  have key : ∀ (fuel : Nat) (s s' : St Q), mainLoop E fuel s = .done b s' →
      Stopped E s' ∨ ∀ i, i < E.nq → s'.results i ≠ .unknown := by
    intro fuel
    cases b with
    | true => exact mainLoop_stop H fuel
    | false =>
      induction fuel with
      | zero => intro s s' h; simp [mainLoop] at h
      | succ fuel ih =>
        intro s s' h
        simp only [mainLoop] at h
        split at h
        · simp at h
        · simp only [Outcome.done.injEq, true_and] at h
          subst h
          exact .inr (finish_results H _)
        · split at h
          · simp at h
          · split at h
            · simp at h
            · simp at h
            · simp at h
            · split at h
              · simp at h
              · exact ih _ _ h
  unfold tryReach at hs
  split at hs
  · simp at hs
  · simp at hs
  · simp only [Outcome.done.injEq] at hs
    obtain ⟨_, rfl⟩ := hs
    exact .inr (finish_results H _)
  · simp at hs
  · split at hs
    · rename_i s1 h1
      simp only [Outcome.done.injEq] at hs
      obtain ⟨_, rfl⟩ := hs
      exact checkQueries_stop H h1
    · unfold afterInit at hs
      split at hs
      · split at hs
        · simp at hs
        · exact key fuel _ _ hs
      · simp at hs

end Search
end Verif
