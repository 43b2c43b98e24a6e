import Verif.TAR.HoareLemmas

/-! # Failures of a trace and the interpolants built from them -/

namespace Verif
namespace TAR
open PRVec Solver TraceSet PQL

variable {N : FlatNet} {G : (Nat → Nat) → Prop}

/-! ## Going backwards -/

/-- The places of `Q` could have held enough tokens all along the symbols, the last first. -/
def BackOK (N : FlatNet) (Q : Nat → Prop) : List Nat → (Nat → Nat) → Prop
  | [], _ => True
  | sym :: syms, x => ∃ y, (∀ p, Q p → pre N (sym - 1) p ≤ y p ∧ x p = y p - pre N (sym - 1) p + post N (sym - 1) p) ∧
      BackOK N Q syms y

theorem hoare_spec (ok : NetOK N) (Q : Nat → Prop) : ∀ (syms : List Nat) (v : PRVec) (s : Nat) (rest : Inter)
    (r : Inter × Option Nat), (∀ e ∈ syms, 1 ≤ e ∧ e ≤ N.ntransitions) → Good N.nplaces v →
    hoare N syms ((v, s) :: rest) = .ok r →
    (r.2 = none → Chain N G ((v, s) :: rest) → Chain N G r.1) ∧
    (∀ x, (∀ p, ¬ Q p → rng v p = {}) → (∀ p, (rng v p).upper = rmax ∨ x p ≤ (rng v p).upper) → BackOK N Q syms x → r.2 = none) := by
  intro syms
  induction syms with
  | nil =>
    intro v s rest r _ _ h
    simp only [hoare] at h
    cases h
    exact ⟨fun _ h => h, fun _ _ _ _ => rfl⟩
  | cons e syms ih =>
    intro v s rest r hsym g h
    obtain ⟨t, rfl⟩ : ∃ t, e = t + 1 := ⟨e - 1, by have := (hsym e (by simp)).1; omega⟩
    have ht : t < N.ntransitions := (hsym (t + 1) (by simp)).2
    simp only [hoare, List.headD_cons, Nat.add_sub_cancel] at h
    cases hp : hoarePost v (N.postset t) (N.preset t) v.compact with
    | error e => rw [hp] at h; cases h
    | ok x =>
      rw [hp] at h
      have hpost := hoarePost_spec (N.postset t) (N.preset t) v.compact x (ok.preSorted t ht) (ok.postSorted t ht)
        (ok.preLt t ht) (ok.postLt t ht) (ok.dir t ht) (good_compact g) hp
      simp only [bind, Except.bind] at h
      have hHX : ∀ x y : Nat → Nat, (∀ p, ¬ Q p → rng v p = {}) → (∀ p, (rng v p).upper = rmax ∨ x p ≤ (rng v p).upper) →
          (∀ p, Q p → pre N t p ≤ y p ∧ x p = y p - pre N t p + post N t p) →
          HX v y v.compact (N.preset t) (N.postset t) := by
        intro x y hv hx hy p hp
        have hQ : Q p := by
          apply Classical.byContradiction
          intro hn
          have := hv p hn
          rw [unboundAt_eq, this] at hp
          cases hp
        obtain ⟨h1, h2⟩ := hy p hQ
        refine ⟨h1, ?_⟩
        rw [rng_compact g.sorted]
        have := hx p
        rw [h2] at this
        exact this
      cases x with
      | done w =>
        simp only at h
        have hpost : Red N.nplaces v v.compact (N.preset t) (N.postset t) w [] [] := hpost
        obtain ⟨h1, h2⟩ := ih w (t + 1) ((v, s) :: rest) r (fun e he => hsym e (by simp [he])) hpost.good h
        refine ⟨fun hn hc => h1 hn ⟨hpost.good, ?_, hc⟩, fun x hv hx hb => ?_⟩
        · intro m m' hm hf _ p
          obtain ⟨_, hen, rfl⟩ := hf
          cases hu : v.unboundAt p with
          | true =>
            rw [unboundAt_eq, unbound_iff] at hu
            rw [hu]; exact has_default _
          | false =>
            have htr := hpost.tr p hu (rng w p) (by
              intro y _ hy
              simpa [arcSum_nil] using hy)
            have := htr (m p) (hen p) (hm p)
            rw [rng_compact g.sorted] at this
            exact this
        · obtain ⟨y, hy, hb'⟩ := hb
          have hHX' := hpost.ub y (hHX x y hv hx hy)
          have hsame : ∀ p, v.unboundAt p = true → rng w p = {} := by
            intro p hp
            rw [hpost.same p hp, rng_compact g.sorted]
            rw [unboundAt_eq, unbound_iff] at hp
            exact hp
          refine h2 y ?_ ?_ hb'
          · intro p hn
            refine hsame p ?_
            rw [unboundAt_eq, unbound_iff]
            exact hv p hn
          · intro p
            cases hu : v.unboundAt p with
            | true => rw [hsame p hu]; exact Or.inl rfl
            | false =>
              have := (hHX' p hu).2
              simpa [arcSum_nil] using this
      | stuck w q =>
        refine ⟨?_, fun x hv hx hb => ?_⟩
        · intro hn
          simp only [pure, Except.pure, Except.ok.injEq] at h
          rw [← h] at hn
          cases hn
        · exfalso
          obtain ⟨y, hy, _⟩ := hb
          exact hpost y (hHX x y hv hx hy)

/-! ## Going forwards -/

/-- The marking after the symbols, enabled or not. -/
def final (N : FlatNet) : List Nat → (Nat → Int) → (Nat → Int)
  | [], m => m
  | e :: l, m => final N l (effect N m (e - 1))

/-- No place of `Q` is short of tokens on the way. -/
def NoShort (N : FlatNet) (Q : Nat → Prop) : List Nat → (Nat → Int) → Prop
  | [], _ => True
  | e :: l, m => (∀ a ∈ N.preset (e - 1), Q a.place → (a.tokens : Int) ≤ m a.place) ∧ NoShort N Q l (effect N m (e - 1))

/-- The first position with a place short of tokens, and the marking there. -/
def firstShort (N : FlatNet) : List Nat → Nat → (Nat → Int) → Option (Nat × (Nat → Int))
  | [], _, _ => none
  | e :: l, i, m =>
    if (N.preset (e - 1)).any fun a => decide (m a.place < a.tokens) then some (i, m)
    else firstShort N l (i + 1) (effect N m (e - 1))

theorem noShort_pre (ok : NetOK N) {Q : Nat → Prop} {t : Nat} (ht : t < N.ntransitions) {m : Nat → Int}
    (hnn : ∀ p, Q p → 0 ≤ m p) (h : ∀ a ∈ N.preset t, Q a.place → (a.tokens : Int) ≤ m a.place) {p : Nat} (hp : Q p) :
    (pre N t p : Int) ≤ m p := by
  by_cases h0 : pre N t p = 0
  · rw [h0]; exact hnn p hp
  · obtain ⟨a, ha, rfl⟩ := arcSum_le_mem h0
    unfold pre
    rw [arcSum_mem (ok.preSorted t ht) ha]
    exact h a ha hp

theorem effect_eq (N : FlatNet) (m : Nat → Int) (t p : Nat) : effect N m t p = m p - pre N t p + post N t p := rfl

theorem back_of (ok : NetOK N) {Q : Nat → Prop} : ∀ (l : List Nat) (m : Nat → Int) (rest : List Nat),
    (∀ e ∈ l, 1 ≤ e ∧ e ≤ N.ntransitions) → (∀ p, Q p → 0 ≤ m p) → NoShort N Q l m →
    BackOK N Q rest (fun p => (m p).toNat) →
    BackOK N Q (l.reverse ++ rest) (fun p => (final N l m p).toNat) ∧ ∀ p, Q p → 0 ≤ final N l m p := by
  intro l
  induction l with
  | nil => intro m rest _ hnn _ h; exact ⟨h, hnn⟩
  | cons e l ih =>
    intro m rest hl hnn hs h
    have ht : e - 1 < N.ntransitions := by have := hl e (by simp); omega
    have hpre : ∀ p, Q p → (pre N (e - 1) p : Int) ≤ m p := fun p hp => noShort_pre ok ht hnn hs.1 hp
    have := ih (effect N m (e - 1)) (e :: rest) (fun x hx => hl x (by simp [hx]))
      (fun p hp => by have := hpre p hp; rw [effect_eq]; omega) hs.2
      ⟨fun p => (m p).toNat, fun p hp => by
        have h1 := hpre p hp
        have h2 := hnn p hp
        simp only [effect_eq]
        exact ⟨by omega, by omega⟩, h⟩
    rw [List.reverse_cons, List.append_assoc]
    exact this

/-- A sequence of firings. -/
def FSeq (N : FlatNet) : (Nat → Nat) → List Nat → (Nat → Nat) → Prop
  | m, [], m' => m' = m
  | m, e :: l, m' => ∃ m1, Fire N m (e - 1) m1 ∧ FSeq N m1 l m'

theorem fseq_of (ok : NetOK N) : ∀ (l : List Nat) (m : Nat → Nat), (∀ e ∈ l, 1 ≤ e ∧ e ≤ N.ntransitions) →
    NoShort N (fun _ => True) l (fun p => m p) →
    ∃ m', FSeq N m l m' ∧ final N l (fun p => (m p : Int)) = fun p => (m' p : Int) := by
  intro l
  induction l with
  | nil => intro m _ _; exact ⟨m, rfl, rfl⟩
  | cons e l ih =>
    intro m hl hs
    have ht : e - 1 < N.ntransitions := by have := hl e (by simp); omega
    have hpre : ∀ p, pre N (e - 1) p ≤ m p := fun p => by
      have := noShort_pre ok (Q := fun _ => True) ht (fun p _ => Int.natCast_nonneg (m p)) hs.1 (p := p) trivial
      omega
    have heff : effect N (fun p => (m p : Int)) (e - 1) = fun p => ((m p - pre N (e - 1) p + post N (e - 1) p : Nat) : Int) := by
      funext p
      have := hpre p
      rw [effect_eq]
      omega
    obtain ⟨m', h1, h2⟩ := ih _ (fun x hx => hl x (by simp [hx])) (heff ▸ hs.2)
    refine ⟨m', ⟨_, ⟨ht, hpre, rfl⟩, h1⟩, ?_⟩
    simp only [final]
    rw [heff]; exact h2

theorem firstShort_none : ∀ (l : List Nat) (i : Nat) (m : Nat → Int), firstShort N l i m = none →
    NoShort N (fun _ => True) l m := by
  intro l
  induction l with
  | nil => intro _ _ _; trivial
  | cons e l ih =>
    intro i m h
    simp only [firstShort] at h
    split at h
    · cases h
    · rename_i hs
      refine ⟨fun a ha _ => ?_, ih _ _ h⟩
      simp only [List.any_eq_true, decide_eq_true_eq, not_exists, not_and] at hs
      have := hs a ha
      omega

theorem firstShort_some : ∀ (l : List Nat) (i : Nat) (m : Nat → Int) (j : Nat) (mj : Nat → Int),
    firstShort N l i m = some (j, mj) → ∃ k, j = i + k ∧ k < l.length ∧ NoShort N (fun _ => True) (l.take k) m ∧
      mj = final N (l.take k) m ∧ ∃ a ∈ N.preset (l.getD k 0 - 1), mj a.place < a.tokens := by
  intro l
  induction l with
  | nil => intro i m j mj h; cases h
  | cons e l ih =>
    intro i m j mj h
    simp only [firstShort] at h
    split at h
    · rename_i hs
      simp only [Option.some.injEq, Prod.mk.injEq] at h
      obtain ⟨rfl, rfl⟩ := h
      simp only [List.any_eq_true, decide_eq_true_eq] at hs
      exact ⟨0, rfl, by simp, trivial, rfl, hs⟩
    · rename_i hs
      obtain ⟨k, h1, h2, h3, h4, h5⟩ := ih _ _ _ _ h
      refine ⟨k + 1, by omega, by simpa using h2, ⟨fun a ha _ => ?_, h3⟩, h4, by simpa using h5⟩
      simp only [List.any_eq_true, decide_eq_true_eq, not_exists, not_and] at hs
      have := hs a ha
      omega

/-- What `findFailure` returns. -/
theorem ffLoop_spec (S : Solver) (toEnd : Bool) (d : Nat → Bool) : ∀ (l : List Nat) (i : Nat) (m : Nat → Int)
    (first : Option (Nat × (Nat → Int))) (f : Failure), (∀ e ∈ l, 1 ≤ e) →
    ffLoop S toEnd d (l ++ [0]) i m first = .ok f →
    ((toEnd = false → NoShort S.net (fun p => S.inq p = true) l m) ∧
      (∀ p < S.net.nplaces, final S.net l m p < rmax) ∧ f.mark = (fun p => (final S.net l m p).toNat) ∧
      f.dirty = (fun p => d p || (decide (p < S.net.nplaces) && decide (final S.net l m p < 0))) ∧
      ((evaluateSet (S.net.deadlocked f.mark) f.mark S.query = .rTrue ∧
          f.at? = ((first.or (firstShort S.net l i m)).map (·.1)) ∧
          ∀ F, first.or (firstShort S.net l i m) = some F → f.failm = F.2) ∨
       (evaluateSet (S.net.deadlocked f.mark) f.mark S.query ≠ .rTrue ∧ f.at? = some (i + l.length)))) ∨
    (toEnd = false ∧ ∃ F, first.or (firstShort S.net l i m) = some F ∧ f.at? = some F.1 ∧ f.failm = F.2) := by
  intro l
  induction l with
  | nil =>
    intro i m first f _ h
    left
    simp only [List.nil_append, ffLoop] at h
    split at h
    · cases h
    · rename_i hov
      simp only [List.any_eq_true, List.mem_range, decide_eq_true_eq, not_exists, not_and] at hov
      refine ⟨fun _ => trivial, fun p hp => ?_, ?_⟩
      · have := hov p hp; simp only [final]; omega
      · simp only [final, firstShort, List.length_nil, Nat.add_zero, Option.or_none]
        split at h
        · rename_i hq
          cases h
          refine ⟨rfl, rfl, Or.inl ⟨hq, rfl, ?_⟩⟩
          intro F hF
          simp only [hF]
        · rename_i hq
          cases h
          exact ⟨rfl, rfl, Or.inr ⟨hq, rfl⟩⟩
  | cons e l ih =>
    intro i m first f hl h
    obtain ⟨t, rfl⟩ : ∃ t, e = t + 1 := ⟨e - 1, by have := hl e (by simp); omega⟩
    simp only [List.cons_append, ffLoop] at h
    have hfs : first.or (firstShort S.net ((t + 1) :: l) i m) =
        (if (S.net.preset t).any fun a => decide (m a.place < a.tokens) then some (first.getD (i, m)) else first).or
          (firstShort S.net l (i + 1) (effect S.net m t)) := by
      simp only [firstShort, Nat.add_sub_cancel]
      split
      · cases first <;> rfl
      · rfl
    rw [hfs]
    generalize hfi : (if (S.net.preset t).any fun a => decide (m a.place < a.tokens) then some (first.getD (i, m)) else first) = first' at h ⊢
    split at h
    · rename_i hstop
      right
      simp only [Bool.and_eq_true, Bool.not_eq_true', List.any_eq_true, decide_eq_true_eq] at hstop
      obtain ⟨hte, a, ha, hsa, hqa⟩ := hstop
      cases h
      refine ⟨hte, ?_⟩
      have hany : (S.net.preset t).any (fun a => decide (m a.place < a.tokens)) = true := by
        rw [List.any_eq_true]; exact ⟨a, ha, by simpa using hsa⟩
      rw [if_pos hany] at hfi
      subst hfi
      exact ⟨_, rfl, rfl, rfl⟩
    · rename_i hstop
      rcases ih (i + 1) (effect S.net m t) first' f (fun x hx => hl x (by simp [hx])) h with ⟨h1, h2, h3, h4, h5⟩ | h
      · left
        refine ⟨fun hte => ⟨fun a ha hq => ?_, h1 hte⟩, h2, h3, h4, ?_⟩
        · simp only [hte, Bool.not_false, Bool.true_and, List.any_eq_true, not_exists, not_and, Bool.and_eq_true,
            decide_eq_true_eq] at hstop
          have := hstop a ha
          apply Classical.byContradiction
          intro hlt
          exact this (by omega) hq
        · rcases h5 with h5 | ⟨h5, h6⟩
          · exact Or.inl h5
          · exact Or.inr ⟨h5, by rw [h6]; simp; omega⟩
      · exact Or.inr h

/-! ## The last predicate -/

theorem uses_pre (S : Solver) {t : Nat} (ht : t < S.net.ntransitions) {a : Invariant} (ha : a ∈ S.net.preset t) :
    0 < S.uses a.place := by
  unfold uses
  have h1 : 0 < (((List.range S.net.ntransitions).flatMap S.net.preset).filter (·.place == a.place)).length := by
    rw [List.length_pos_iff_exists_mem]
    refine ⟨a, List.mem_filter.2 ⟨List.mem_flatMap.2 ⟨t, List.mem_range.2 ht, ha⟩, by simp⟩⟩
  have h2 : 0 < S.net.ntransitions := by omega
  have := Nat.mul_pos h2 h1
  omega

theorem uses_inq (S : Solver) {p : Nat} (h : S.inq p = true) : 0 < S.uses p := by
  unfold uses; rw [if_pos h]; omega

theorem lastShort_spec (S : Solver) (failm : Nat → Int) : ∀ (l : List Invariant) (pr : PRange),
    (∀ a ∈ l, 0 < S.uses a.place) →
    (lastShort S failm l pr = pr ∧ ∀ a ∈ l, (a.tokens : Int) ≤ failm a.place) ∨
    ∃ a ∈ l, failm a.place < a.tokens ∧ lastShort S failm l pr = ⟨a.place, ⟨0, a.tokens - 1⟩⟩ := by
  intro l
  induction l with
  | nil => intro pr _; exact Or.inl ⟨rfl, by simp⟩
  | cons a l ih =>
    intro pr hu
    simp only [lastShort]
    have hua := hu a (by simp)
    by_cases hs : failm a.place < a.tokens
    · have : (decide (failm a.place < (a.tokens : Int)) && decide (0 < S.uses a.place)) = true := by simp [hs, hua]
      rw [if_pos this]
      rcases ih ⟨a.place, ⟨0, a.tokens - 1⟩⟩ (fun b hb => hu b (by simp [hb])) with ⟨h1, _⟩ | ⟨b, hb, h1, h2⟩
      · exact Or.inr ⟨a, by simp, hs, h1⟩
      · exact Or.inr ⟨b, by simp [hb], h1, h2⟩
    · have : ¬ (decide (failm a.place < (a.tokens : Int)) && decide (0 < S.uses a.place)) = true := by simp [hs]
      rw [if_neg this]
      rcases ih pr (fun b hb => hu b (by simp [hb])) with ⟨h1, h2⟩ | ⟨b, hb, h1, h2⟩
      · refine Or.inl ⟨h1, fun b hb => ?_⟩
        rcases List.mem_cons.1 hb with rfl | hb
        · omega
        · exact h2 b hb
      · exact Or.inr ⟨b, by simp [hb], h1, h2⟩

theorem rng_single (p : Nat) (r : Range) (q : Nat) : rng [⟨p, r⟩] q = if q = p then r else {} := by
  have hs : Sorted [(⟨p, r⟩ : PRange)] := List.pairwise_singleton _ _
  by_cases h : q = p
  · subst h
    rw [if_pos rfl]
    exact rng_of_mem hs (e := ⟨q, r⟩) (by simp)
  · rw [if_neg h]
    apply Classical.byContradiction
    intro hn
    have := mem_of_rng hs hn
    simp at this
    exact h this.1

/-- The predicate in front of a transition that lacks tokens. -/
theorem terminal_trans (ok : NetOK N) {t : Nat} (ht : t < N.ntransitions) {a : Invariant} (ha : a ∈ N.preset t) :
    Good N.nplaces [⟨a.place, ⟨0, a.tokens - 1⟩⟩] ∧
    EdgeOK N G [⟨a.place, ⟨0, a.tokens - 1⟩⟩] (t + 1) (falseRange N.nplaces) := by
  have hl := ok.preLt t ht a ha
  refine ⟨⟨List.pairwise_singleton _ _, ?_, ?_⟩, edgeOK_dead ?_⟩
  · intro e he; simp only [List.mem_singleton] at he; subst he; exact hl.1
  · intro e he; simp only [List.mem_singleton] at he; subst he; simp only; omega
  · intro m m' hm hf
    have h1 := hm a.place
    rw [rng_single, if_pos rfl] at h1
    have h2 := hf.2.1 a.place
    unfold pre at h2
    rw [arcSum_mem (ok.preSorted t ht) ha] at h2
    unfold Range.Has at h1
    simp only at h1
    omega

end TAR
end Verif
