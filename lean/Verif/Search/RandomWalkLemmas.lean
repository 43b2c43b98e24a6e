import Verif.Search.RandomWalk

/-! # Invariants of the random-walk search -/

namespace Verif
namespace Search

/-- Paths of the generator from the initial marking. -/
inductive WPath (E : WEnv) : List Nat → (Nat → Nat) → Prop
  | nil : WPath E [] E.m0
  | snoc {ts m t m'} : WPath E ts m → (t, m') ∈ (E.gen m).1 → WPath E (ts ++ [t]) m'

theorem popTrace_eq (l : List Nat) (acc : List Nat) (h : l ≠ []) :
    popTrace l acc = some (l.reverse ++ acc) := by
  induction l generalizing acc with
  | nil => exact absurd rfl h
  | cons t l ih =>
    cases l with
    | nil => simp [popTrace]
    | cons u l => simp [popTrace, ih]

variable {E : WEnv}

def Reached (E : WEnv) (m : Nat → Nat) : Prop := ∃ ts, WPath E ts m

/-- What is known about the calls of the handler: all say "satisfied", about a marking reached and
satisfying the goal; the trace printed first is right. -/
structure CallsOK (E : WEnv) (l : List WCall) : Prop where
  sat : ∀ c ∈ l, c.answer = .satisfied ∧ c.query < E.nq ∧ E.goal c.query c.marking = true ∧ Reached E c.marking
  first : ∀ pre c post tr, l = pre ++ c :: post → (∀ d ∈ pre, d.trace = none) → c.trace = some tr →
    WPath E tr c.marking

theorem CallsOK.nil : CallsOK E [] := ⟨by simp, by simp⟩

theorem CallsOK.append {l : List WCall} (h : CallsOK E l) {c : WCall}
    (hs : c.answer = .satisfied ∧ c.query < E.nq ∧ E.goal c.query c.marking = true ∧ Reached E c.marking)
    (ht : (∀ d ∈ l, d.trace = none) → ∀ tr, c.trace = some tr → WPath E tr c.marking) :
    CallsOK E (l ++ [c]) := by
  refine ⟨?_, ?_⟩
  · intro d hd
    rw [List.mem_append, List.mem_singleton] at hd
    rcases hd with hd | rfl
    · exact h.sat d hd
    · exact hs
  · intro pre d post tr he hn htr
    rcases List.eq_nil_or_concat post with rfl | ⟨post', e, rfl⟩
    · have := List.append_inj' he rfl
      obtain ⟨rfl, h2⟩ := this
      simp only [List.cons.injEq, and_true] at h2
      subst h2
      exact ht hn tr htr
    · have he' : l ++ [c] = (pre ++ d :: post') ++ [e] := by simpa using he
      obtain ⟨rfl, _⟩ := List.append_inj' he' rfl
      exact h.first pre d post' tr rfl hn htr

/-- Nothing has been printed. -/
def Clean (s : WSt) : Prop := ∀ d ∈ s.calls, d.trace = none

/-- Parts of the state `checkQueries` does not touch. -/
def WFrame (s s' : WSt) : Prop :=
  s'.next = s.next ∧ s'.satisfying = s.satisfying ∧ s'.prev = s.prev ∧ (Clean s' → Clean s ∧ s'.stack = s.stack)

theorem WFrame.refl (s : WSt) : WFrame s s := ⟨rfl, rfl, rfl, fun h => ⟨h, rfl⟩⟩

theorem WFrame.trans {a b c : WSt} (h : WFrame a b) (h' : WFrame b c) : WFrame a c := by
  obtain ⟨h1, h2, h3, h4⟩ := h
  obtain ⟨g1, g2, g3, g4⟩ := h'
  refine ⟨g1.trans h1, g2.trans h2, g3.trans h3, fun hc => ?_⟩
  obtain ⟨a1, a2⟩ := g4 hc
  obtain ⟨b1, b2⟩ := h4 a1
  exact ⟨b1, a2.trans b2⟩

theorem wCallback_ok {i : Nat} {m : Nat → Nat} {s s' : WSt} (h : wCallback E i m s = some s')
    (hi : i < E.nq) (hg : E.goal i m = true) (hm : Reached E m) (hc : CallsOK E s.calls)
    (ht : E.tracing = true → Clean s → if s.satisfying = 0 then WPath E [] m else WPath E s.stack.reverse m) :
    CallsOK E s'.calls ∧ WFrame s s' := by
  unfold wCallback at h
  split at h
  · rename_i htr
    rw [Bool.and_eq_true] at htr
    split at h
    · rename_i h0
      cases h
      refine ⟨hc.append ⟨rfl, hi, hg, hm⟩ ?_, rfl, rfl, rfl, fun h => ?_⟩
      · intro hcl tr htr'
        simp only [Option.some.injEq] at htr'
        subst htr'
        have := ht htr.1 hcl
        rwa [if_pos h0] at this
      · have := h ⟨i, .satisfied, m, some []⟩ (by simp)
        simp at this
    · rename_i h0
      split at h
      · simp at h
      · rename_i tr hp
        cases h
        refine ⟨hc.append ⟨rfl, hi, hg, hm⟩ ?_, rfl, rfl, rfl, fun h => ?_⟩
        · intro hcl tr' htr'
          simp only [Option.some.injEq] at htr'
          subst htr'
          have := ht htr.1 hcl
          rw [if_neg h0] at this
          by_cases hs : s.stack = []
          · rw [hs] at hp; simp [popTrace] at hp
          · rw [popTrace_eq _ _ hs] at hp
            simp only [List.append_nil, Option.some.injEq] at hp
            subst hp
            exact this
        · have := h ⟨i, .satisfied, m, some tr⟩ (by simp)
          simp at this
  · cases h
    refine ⟨hc.append ⟨rfl, hi, hg, hm⟩ (by simp), rfl, rfl, rfl, fun h => ⟨fun d hd => h d (by simp [hd]), rfl⟩⟩

theorem wCheckLoop_ok {m : Nat → Nat} (hm : Reached E m) : ∀ (is : List Nat) {s s' : WSt} {a b : Bool},
    wCheckLoop E m is s a = some (s', b) → (∀ i ∈ is, i < E.nq) → CallsOK E s.calls →
    (E.tracing = true → Clean s → if s.satisfying = 0 then WPath E [] m else WPath E s.stack.reverse m) →
    CallsOK E s'.calls ∧ WFrame s s' := by
  intro is
  induction is with
  | nil =>
    intro s s' a b h _ hc _
    simp only [wCheckLoop, Option.some.injEq, Prod.mk.injEq] at h
    obtain ⟨rfl, _⟩ := h
    exact ⟨hc, .refl _⟩
  | cons i is ih =>
    intro s s' a b h hi hc ht
    have hi' : ∀ j ∈ is, j < E.nq := fun j hj => hi j (by simp [hj])
    simp only [wCheckLoop] at h
    split at h
    · split at h
      · rename_i hg
        split at h
        · simp at h
        · rename_i s1 h1
          obtain ⟨c1, f1⟩ := wCallback_ok h1 (hi i (by simp)) hg hm hc ht
          split at h
          · simp only [Option.some.injEq, Prod.mk.injEq] at h
            obtain ⟨rfl, _⟩ := h
            exact ⟨c1, f1⟩
          · obtain ⟨c2, f2⟩ := ih h hi' c1 (fun htr hcl => by
              obtain ⟨g1, g2⟩ := f1.2.2.2 hcl
              rw [f1.2.1, g2]
              exact ht htr g1)
            exact ⟨c2, f1.trans f2⟩
      · exact ih h hi' hc ht
    · exact ih h hi' hc ht

theorem wCheck_ok {m : Nat → Nat} (hm : Reached E m) {s s' : WSt} {b : Bool} (h : wCheck E m s = some (s', b))
    (hc : CallsOK E s.calls)
    (ht : E.tracing = true → Clean s → if s.satisfying = 0 then WPath E [] m else WPath E s.stack.reverse m) :
    CallsOK E s'.calls ∧ WFrame s s' :=
  wCheckLoop_ok hm _ h (fun i hi => List.mem_range.1 hi) hc ht

/-- `next` is no candidate, or reached; with the stack as trace if nothing has been printed. -/
def NextOK (E : WEnv) (s : WSt) : Prop :=
  s.next 0 = noCandidate ∨ (Reached E s.next ∧ (E.tracing = true → Clean s → WPath E s.stack.reverse s.next))

/-- The invariant inside a step at marking `cur`: if nothing has been printed, the stack below its top
leads to `cur`. -/
structure StepInv (E : WEnv) (cur : Nat → Nat) (s : WSt) : Prop where
  calls : CallsOK E s.calls
  sat : E.tracing = true → s.satisfying = 1
  curR : Reached E cur
  below : E.tracing = true → Clean s → ∃ u l, s.stack = u :: l ∧ WPath E l.reverse cur
  next : NextOK E s

theorem computeCandidate_spec (m : Nat → Nat) (t : Nat) (s : WSt) :
    (computeCandidate E m t s).1.calls = s.calls ∧ (computeCandidate E m t s).1.stack = s.stack ∧
    (computeCandidate E m t s).1.satisfying = s.satisfying ∧ (computeCandidate E m t s).1.prev = s.prev ∧
    (computeCandidate E m t s).1.next = if (computeCandidate E m t s).2 then m else s.next := by
  unfold computeCandidate
  split
  · simp
  · simp only
    split <;> simp

/-- `P` holds if the loop continues, and the calls are right if it ends. -/
def WRes.Ok (E : WEnv) (P : WSt → Prop) : WRes → Prop
  | .cont s => P s
  | .ret s => CallsOK E s.calls
  | .thrown s => CallsOK E s.calls
  | .ub => True

theorem candLoop_ok {cur : Nat → Nat} : ∀ (l : List (Nat × (Nat → Nat))) (s : WSt), (∀ x ∈ l, x ∈ (E.gen cur).1) →
    StepInv E cur s →
    (candLoop E l s).Ok E (StepInv E cur) := by
  intro l
  induction l with
  | nil => intro s _ h; exact h
  | cons x l ih =>
    intro s hl h
    obtain ⟨t, m⟩ := x
    simp only [candLoop]
    have hstep : (t, m) ∈ (E.gen cur).1 := hl _ (by simp)
    have hm : Reached E m := by obtain ⟨ts, hp⟩ := h.curR; exact ⟨_, hp.snoc hstep⟩
    cases hb : beforeCheck E t s with
    | none => trivial
    | some s1 =>
      simp only
      -- the state before the check
      have b0 : s1.calls = s.calls ∧ s1.satisfying = s.satisfying ∧ s1.next = s.next ∧
          (E.tracing = true → ∃ u r, s.stack = u :: r ∧ s1.stack = t :: r ∧ s1.prev = u) ∧
          (E.tracing = false → s1 = s) := by
        unfold beforeCheck at hb
        split at hb
        · rename_i htr
          split at hb
          · simp at hb
          · rename_i u r hu
            cases hb
            exact ⟨rfl, rfl, rfl, fun _ => ⟨u, r, hu, rfl, rfl⟩, fun h => by rw [htr] at h; simp at h⟩
        · rename_i htr
          cases hb
          exact ⟨rfl, rfl, rfl, fun h => absurd h htr, fun _ => rfl⟩
      obtain ⟨b1, b2, b3, b4, b5⟩ := b0
      have hclean : Clean s1 ↔ Clean s := by unfold Clean; rw [b1]
      have htrace : E.tracing = true → Clean s1 → WPath E s1.stack.reverse m := by
        intro htr hcl
        obtain ⟨u, r, h1, h2⟩ := h.below htr (hclean.1 hcl)
        obtain ⟨u', r', g1, g2, _⟩ := b4 htr
        rw [h1] at g1
        simp only [List.cons.injEq] at g1
        obtain ⟨_, rfl⟩ := g1
        rw [g2, List.reverse_cons]
        exact h2.snoc hstep
      cases hck : wCheck E m s1 with
      | none => trivial
      | some x =>
        obtain ⟨s2, b⟩ := x
        obtain ⟨c2, f2⟩ := wCheck_ok hm hck (by rw [b1]; exact h.calls) (fun htr hcl => by
          rw [b2, h.sat htr]; exact htrace htr hcl)
        cases b with
        | true => exact c2
        | false =>
          simp only
          cases ha : afterCheck E t m s2 with
          | none => trivial
          | some s3 =>
            simp only
            refine ih s3 (fun x hx => hl x (by simp [hx])) ?_
            obtain ⟨k1, k2, k3, k4, k5⟩ := computeCandidate_spec (E := E) m t s2
            have hs3 : s3.calls = s2.calls ∧ s3.satisfying = s2.satisfying ∧
                s3.next = (if (computeCandidate E m t s2).2 then m else s2.next) ∧
                (E.tracing = true → (computeCandidate E m t s2).2 = false →
                  ∃ u r, s2.stack = u :: r ∧ s3.stack = s2.prev :: r) ∧
                ((computeCandidate E m t s2).2 = true → s3.stack = s2.stack) := by
              unfold afterCheck at ha
              simp only at ha
              split at ha
              · rename_i hx
                rw [Bool.and_eq_true, Bool.not_eq_true'] at hx
                split at ha
                · simp at ha
                · rename_i st hst
                  cases ha
                  refine ⟨k1, k3, k5, fun _ _ => ?_, fun h => by rw [hx.2] at h; simp at h⟩
                  rw [k2, k4] at hst
                  unfold setTop at hst
                  split at hst
                  · simp at hst
                  · rename_i u r hu
                    cases hst
                    exact ⟨u, r, hu, rfl⟩
              · rename_i hx
                cases ha
                refine ⟨k1, k3, k5, fun h1 h2 => by simp [h1, h2] at hx, fun _ => k2⟩
            obtain ⟨e1, e2, e3, e4, e5⟩ := hs3
            have hcl : Clean s3 → Clean s2 := by unfold Clean; rw [e1]; exact id
            refine ⟨by rw [e1]; exact c2, fun htr => by rw [e2, f2.2.1, b2]; exact h.sat htr, h.curR, ?_, ?_⟩
            · intro htr hc3
              obtain ⟨f3, f4⟩ := f2.2.2.2 (hcl hc3)
              obtain ⟨u, r, h1, h2⟩ := h.below htr (hclean.1 f3)
              obtain ⟨u', r', g1, g2, _⟩ := b4 htr
              rw [h1] at g1
              simp only [List.cons.injEq] at g1
              obtain ⟨_, rfl⟩ := g1
              cases hacc : (computeCandidate E m t s2).2 with
              | true => exact ⟨t, r, by rw [e5 hacc, f4, g2], h2⟩
              | false =>
                obtain ⟨v, r', i1, i2⟩ := e4 htr hacc
                rw [f4, g2] at i1
                simp only [List.cons.injEq] at i1
                obtain ⟨_, rfl⟩ := i1
                exact ⟨_, _, i2, h2⟩
            · unfold NextOK
              cases hacc : (computeCandidate E m t s2).2 with
              | true =>
                rw [hacc, if_pos rfl] at e3
                rw [e3]
                refine .inr ⟨hm, fun htr hc3 => ?_⟩
                obtain ⟨f3, f4⟩ := f2.2.2.2 (hcl hc3)
                rw [e5 hacc, f4]
                exact htrace htr f3
              | false =>
                rw [hacc] at e3
                simp only [Bool.false_eq_true, if_false] at e3
                rw [e3, f2.1, b3]
                rcases h.next with hn | ⟨hn1, hn2⟩
                · exact .inl hn
                · refine .inr ⟨hn1, fun htr hc3 => ?_⟩
                  obtain ⟨f3, f4⟩ := f2.2.2.2 (hcl hc3)
                  obtain ⟨v, r', i1, i2⟩ := e4 htr hacc
                  obtain ⟨u', r'', g1, g2, g3⟩ := b4 htr
                  rw [f4, g2] at i1
                  simp only [List.cons.injEq] at i1
                  obtain ⟨_, rfl⟩ := i1
                  rw [i2, f2.2.2.1, g3, ← g1]
                  exact hn2 htr (hclean.1 f3)

/-- The invariant between steps. -/
structure WInv (E : WEnv) (s : WSt) : Prop where
  calls : CallsOK E s.calls
  sat : E.tracing = true → s.satisfying = 1
  next : NextOK E s

theorem walk_ok : ∀ (depth : Nat) (s : WSt), WInv E s →
    (walk E depth s).Ok E (WInv E) := by
  intro depth
  induction depth with
  | zero => intro s h; exact h
  | succ d ih =>
    intro s h
    simp only [walk]
    split
    · trivial
    · split
      · exact h
      · rename_i hn
        have hnx := h.next.resolve_left hn
        have hinv : StepInv E s.next (beginStep E s) := by
          refine ⟨h.calls, h.sat, hnx.1, fun htr hcl => ⟨0, s.stack, by simp [beginStep, htr], hnx.2 htr hcl⟩, .inl ?_⟩
          simp [beginStep]
        have := candLoop_ok (E.gen s.next).1 (beginStep E s) (fun x hx => hx) hinv
        revert this
        cases candLoop E (E.gen s.next).1 (beginStep E s) with
        | ub => exact id
        | ret s' => exact id
        | thrown s' => exact id
        | cont s' =>
          simp only
          intro h'
          have h' : StepInv E s.next s' := h'
          split
          · exact h'.calls
          · exact ih s' ⟨h'.calls, h'.sat, h'.next⟩

def WOut.st : WOut → Option WSt
  | .running s => some s
  | .done s => some s
  | .thrown s => some s
  | .ub => none

theorem walks_ok (depth : Nat → Nat) : ∀ (fuel k : Nat) (s s' : WSt), CallsOK E s.calls →
    (E.tracing = true → s.satisfying = 1) → (walks E depth k fuel s).st = some s' → CallsOK E s'.calls := by
  intro fuel
  induction fuel with
  | zero => intro k s s' hc _ h; simp only [walks, WOut.st, Option.some.injEq] at h; subst h; exact hc
  | succ f ih =>
    intro k s s' hc hs h
    simp only [walks] at h
    have hinv : WInv E (newWalk E s) := by
      refine ⟨hc, hs, .inr ⟨⟨[], .nil⟩, fun htr _ => ?_⟩⟩
      simp only [newWalk, htr, if_true, List.reverse_nil]
      exact .nil
    have := walk_ok (depth k) _ hinv
    revert this h
    cases walk E (depth k) (newWalk E s) with
    | ub => simp [WOut.st]
    | ret s1 => simp only [WOut.st, Option.some.injEq]; rintro rfl; exact id
    | thrown s1 => simp only [WOut.st, Option.some.injEq]; rintro rfl; exact id
    | cont s1 =>
      intro h h'
      have h' : WInv E s1 := h'
      exact ih _ _ _ h'.calls h'.sat h

/-- All calls of the handler are right. -/
theorem randomWalk_ok (depth : Nat → Nat) (fuel : Nat) (s : WSt) (h : (randomWalk E depth fuel).st = some s) :
    CallsOK E s.calls := by
  unfold randomWalk at h
  split at h
  · split at h
    · simp [WOut.st] at h
    · rename_i s1 h1
      simp only [WOut.st, Option.some.injEq] at h
      subst h
      exact (wCheck_ok ⟨[], .nil⟩ h1 .nil (fun _ _ => by simpa using WPath.nil)).1
    · rename_i s1 h1
      have := wCheck_ok ⟨[], .nil⟩ h1 .nil (fun _ _ => by simpa using WPath.nil)
      refine walks_ok depth _ _ _ _ (by exact this.1) (fun htr => ?_) h
      simp [htr]
  · simp [WOut.st] at h

end Search
end Verif

namespace Verif
namespace Search
variable {E : WEnv}

/-! ### Absence of undefined behaviour -/

/-- No trace is ever printed, or there is only one query. -/
def Calm (E : WEnv) : Prop :=
  (∀ i, (E.tracing && E.prints i .satisfied) = false) ∨
    (E.nq = 1 ∧ (E.handler 0 .satisfied).1 ≠ .unknown)

/-- With one query, no call has been made so far. -/
def Fresh (E : WEnv) (s : WSt) : Prop := E.nq = 1 → s.calls = []

theorem wCallback_np (h : ∀ i, (E.tracing && E.prints i .satisfied) = false) (i : Nat) (m : Nat → Nat) (s : WSt) :
    ∃ s', wCallback E i m s = some s' ∧ s'.stack = s.stack := by
  unfold wCallback
  rw [if_neg (by rw [h i]; simp)]
  exact ⟨_, rfl, rfl⟩

theorem wCheckLoop_np (h : ∀ i, (E.tracing && E.prints i .satisfied) = false) (m : Nat → Nat) :
    ∀ (is : List Nat) (s : WSt) (a : Bool), ∃ s' b, wCheckLoop E m is s a = some (s', b) ∧ s'.stack = s.stack := by
  intro is
  induction is with
  | nil => intro s a; exact ⟨s, a, rfl, rfl⟩
  | cons i is ih =>
    intro s a
    simp only [wCheckLoop]
    split
    · split
      · obtain ⟨s1, h1, h2⟩ := wCallback_np h i m s
        rw [h1]
        simp only
        split
        · exact ⟨_, _, rfl, h2⟩
        · obtain ⟨s', b, h3, h4⟩ := ih s1 a
          exact ⟨s', b, h3, h4.trans h2⟩
      · exact ih s false
    · exact ih s a

/-- With one query: the check says "done", or nothing happens. -/
theorem wCheck_one (h1 : E.nq = 1) (hh : (E.handler 0 .satisfied).1 ≠ .unknown) (m : Nat → Nat) (s : WSt)
    (hc : s.calls = []) (hst : E.tracing = true → s.satisfying ≠ 0 → s.stack ≠ []) :
    ∃ s' b, wCheck E m s = some (s', b) ∧ (b = false → s' = s) ∧ s'.calls.length ≤ 1 := by
  unfold wCheck
  rw [h1]
  simp only [List.range_one, wCheckLoop]
  by_cases hr : s.results 0 = .unknown
  · rw [if_pos hr]
    by_cases hg : E.goal 0 m = true
    · rw [if_pos hg]
      have : ∃ s', wCallback E 0 m s = some s' ∧ s'.calls.length ≤ 1 := by
        unfold wCallback
        split
        · rename_i htr
          split
          · exact ⟨_, rfl, by simp [hc]⟩
          · rename_i h0
            rw [Bool.and_eq_true] at htr
            rw [popTrace_eq _ _ (hst htr.1 h0)]
            exact ⟨_, rfl, by simp [hc]⟩
        · exact ⟨_, rfl, by simp [hc]⟩
      obtain ⟨s', h2, h3⟩ := this
      rw [h2]
      simp only
      split
      · exact ⟨_, _, rfl, by simp, h3⟩
      · exact ⟨_, _, rfl, by simp, h3⟩
    · rw [if_neg hg]
      exact ⟨_, _, rfl, fun _ => rfl, by simp [hc]⟩
  · rw [if_neg hr]
    exact ⟨_, _, rfl, by simp, by simp [hc]⟩

theorem wCheck_calm (hC : Calm E) (m : Nat → Nat) (s : WSt) (hf : Fresh E s)
    (hst : E.tracing = true → s.satisfying ≠ 0 → s.stack ≠ []) :
    ∃ s' b, wCheck E m s = some (s', b) ∧
      (b = false → s'.stack = s.stack) ∧ ((E.handler 0 .satisfied).1 ≠ .unknown →
        (b = false → Fresh E s') ∧ (E.nq = 1 → s'.calls.length ≤ 1)) := by
  by_cases h1 : E.nq = 1 ∧ (E.handler 0 .satisfied).1 ≠ .unknown
  · obtain ⟨s', b, h2, h3, h4⟩ := wCheck_one h1.1 h1.2 m s (hf h1.1) hst
    exact ⟨s', b, h2, fun h => by rw [h3 h], fun _ => ⟨fun h => by rw [h3 h]; exact hf, fun _ => h4⟩⟩
  · have hn := hC.resolve_right h1
    obtain ⟨s', b, h2, h3⟩ := wCheckLoop_np hn m (List.range E.nq) s true
    refine ⟨s', b, h2, fun _ => h3, fun h => ?_⟩
    have : E.nq ≠ 1 := fun hq => h1 ⟨hq, h⟩
    exact ⟨fun _ hq => absurd hq this, fun hq => absurd hq this⟩

/-- `P` holds if the loop continues; at most one call with one query; no undefined behaviour. -/
def WRes.Safe (E : WEnv) (P : WSt → Prop) : WRes → Prop
  | .cont s => P s
  | .ret s => E.nq = 1 → s.calls.length ≤ 1
  | .thrown s => E.nq = 1 → s.calls.length ≤ 1
  | .ub => False

theorem Fresh.le {s : WSt} (h : Fresh E s) : E.nq = 1 → s.calls.length ≤ 1 := fun hq => by simp [h hq]

theorem candLoop_safe (hC : Calm E) (hh : (E.handler 0 .satisfied).1 ≠ .unknown) :
    ∀ (l : List (Nat × (Nat → Nat))) (s : WSt), Fresh E s → (E.tracing = true → s.stack ≠ []) →
      (candLoop E l s).Safe E (Fresh E) := by
  intro l
  induction l with
  | nil => intro s hf _; exact hf
  | cons x l ih =>
    intro s hf hst
    obtain ⟨t, m⟩ := x
    simp only [candLoop]
    have hb : ∃ s1, beforeCheck E t s = some s1 ∧ Fresh E s1 ∧ (E.tracing = true → s1.stack ≠ []) := by
      unfold beforeCheck
      split
      · rename_i htr
        have := hst htr
        cases hs : s.stack with
        | nil => exact absurd hs this
        | cons u r => exact ⟨_, rfl, hf, fun _ => by simp⟩
      · exact ⟨s, rfl, hf, hst⟩
    obtain ⟨s1, h1, h2, h3⟩ := hb
    rw [h1]
    simp only
    obtain ⟨s2, b, h4, h5, h6⟩ := wCheck_calm hC m s1 h2 (fun h _ => h3 h)
    rw [h4]
    obtain ⟨h7, h8⟩ := h6 hh
    cases b with
    | true => exact h8
    | false =>
      simp only
      obtain ⟨k1, k2, k3, k4, k5⟩ := computeCandidate_spec (E := E) m t s2
      have ha : ∃ s3, afterCheck E t m s2 = some s3 ∧ Fresh E s3 ∧ (E.tracing = true → s3.stack ≠ []) := by
        have hst2 : E.tracing = true → s2.stack ≠ [] := fun h => by rw [h5 rfl]; exact h3 h
        unfold afterCheck
        simp only
        split
        · rename_i hx
          rw [Bool.and_eq_true] at hx
          rw [k2]
          cases hs : s2.stack with
          | nil => exact absurd hs (hst2 hx.1)
          | cons u r =>
            refine ⟨_, rfl, ?_, fun _ => by simp⟩
            intro hq
            simp only [k1]
            exact h7 rfl hq
        · refine ⟨_, rfl, fun hq => by rw [k1]; exact h7 rfl hq, fun h => by rw [k2]; exact hst2 h⟩
      obtain ⟨s3, g1, g2, g3⟩ := ha
      rw [g1]
      exact ih s3 g2 g3

theorem walk_safe (hC : Calm E) (hh : (E.handler 0 .satisfied).1 ≠ .unknown) (hp : E.places ≠ 0) :
    ∀ (depth : Nat) (s : WSt), Fresh E s → (walk E depth s).Safe E (Fresh E) := by
  intro depth
  induction depth with
  | zero => intro s h; exact h
  | succ d ih =>
    intro s h
    simp only [walk, if_neg hp]
    split
    · exact h
    · have := candLoop_safe hC hh (E.gen s.next).1 (beginStep E s) h (fun htr => by simp [beginStep, htr])
      revert this
      cases candLoop E (E.gen s.next).1 (beginStep E s) with
      | ub => exact id
      | ret s' => exact id
      | thrown s' => exact id
      | cont s' =>
        intro h'
        have h' : Fresh E s' := h'
        simp only
        split
        · exact h'.le
        · exact ih s' h'

theorem walks_safe (hC : Calm E) (hh : (E.handler 0 .satisfied).1 ≠ .unknown) (hp : E.places ≠ 0)
    (depth : Nat → Nat) : ∀ (fuel k : Nat) (s : WSt), Fresh E s →
      ∃ s', (walks E depth k fuel s).st = some s' ∧ (E.nq = 1 → s'.calls.length ≤ 1) := by
  intro fuel
  induction fuel with
  | zero => intro k s h; exact ⟨s, rfl, h.le⟩
  | succ f ih =>
    intro k s h
    simp only [walks]
    have := walk_safe hC hh hp (depth k) (newWalk E s) h
    revert this
    cases walk E (depth k) (newWalk E s) with
    | ub => exact False.elim
    | ret s' => exact fun h => ⟨s', rfl, h⟩
    | thrown s' => exact fun h => ⟨s', rfl, h⟩
    | cont s' => exact fun h => ih (k + 1) s' h

theorem randomWalk_safe (hC : Calm E) (hh : (E.handler 0 .satisfied).1 ≠ .unknown) (hp : E.places ≠ 0)
    (hq : E.heur0 < E.nq) (depth : Nat → Nat) (fuel : Nat) :
    ∃ s, (randomWalk E depth fuel).st = some s ∧ (E.nq = 1 → s.calls.length ≤ 1) := by
  unfold randomWalk
  rw [if_pos ⟨hq, hp⟩]
  obtain ⟨s, b, h1, h2, h3⟩ := wCheck_calm hC E.m0
    { next := fun p => if p = 0 then noCandidate else 0, cur := E.m0, nextDist := 0, pot := E.pot0,
      results := E.results0 } (fun _ => rfl) (fun _ h => absurd rfl h)
  rw [h1]
  obtain ⟨h4, h5⟩ := h3 hh
  cases b with
  | true => exact ⟨s, rfl, h5⟩
  | false => exact walks_safe hC hh hp depth fuel 0 _ (h4 rfl)

/-- The first candidate of a step is always chosen: if the potency is positive and has not wrapped, and
there is no token bound. -/
theorem computeCandidate_first {m : Nat → Nat} {t : Nat} {s : WSt} (hk : E.kbound = 0) (h0 : s.total = 0)
    (hp : 1 ≤ s.pot t) (hp2 : s.pot t + s.curDist < W32) (hr : ∀ i, E.rand i ≤ E.randMax) :
    (computeCandidate E m t s).2 = true ∧ 1 ≤ (computeCandidate E m t s).1.pot t ∧
      (computeCandidate E m t s).1.next = m := by
  have hnew : 1 ≤ newPotency (s.pot t) s.curDist (E.dist E.heur0 m) ∧
      newPotency (s.pot t) s.curDist (E.dist E.heur0 m) < W32 := by
    unfold newPotency
    have hW : 1 < W32 := by decide
    split
    · rw [Nat.mod_eq_of_lt (by omega)]; omega
    · have h1 : (s.pot t + W32 - 1) % W32 = s.pot t - 1 := by
        rw [show s.pot t + W32 - 1 = (s.pot t - 1) + W32 from by omega, Nat.add_mod_right,
          Nat.mod_eq_of_lt (by omega)]
      rw [h1]
      split
      · rename_i h2
        rw [show s.pot t + W32 - (E.dist E.heur0 m - s.curDist) =
          (s.pot t - (E.dist E.heur0 m - s.curDist)) + W32 from by omega, Nat.add_mod_right,
          Nat.mod_eq_of_lt (by omega)]
        omega
      · omega
  unfold computeCandidate
  simp only [hk, ne_eq, not_true_eq_false, false_and, if_false, h0, Nat.zero_add, Nat.mod_eq_of_lt hnew.2]
  rw [if_pos]
  · simp [hnew.1]
  · refine ⟨.inl (by omega), ?_⟩
    rw [Nat.mul_comm]
    exact Nat.mul_le_mul_left _ (hr _)

end Search
end Verif
