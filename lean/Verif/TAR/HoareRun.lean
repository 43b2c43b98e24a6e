import Verif.TAR.NetLemmas

/-! # Runs along the predicates of a trace -/

namespace Verif
namespace TAR
open PRVec Solver TraceSet PQL

/-- A marking satisfies a predicate: every range listed contains the tokens of its place, the largest number meaning "no
upper bound". -/
def Sat (v : PRVec) (m : Nat → Nat) : Prop :=
  ∀ r ∈ v, r.range.lower ≤ m r.place ∧ (r.range.upper = rmax ∨ m r.place ≤ r.range.upper)

/-- A predicate over the places of a net: ascending places, 32-bit bounds. -/
def IsPred (n : Nat) (v : PRVec) : Prop :=
  v.Pairwise (fun a b => a.place < b.place) ∧ ∀ r ∈ v, r.place < n ∧ r.range.upper ≤ rmax

variable {N : FlatNet}

theorem good_iff {n : Nat} {v : PRVec} : Good n v ↔ IsPred n v :=
  ⟨fun g => ⟨g.sorted, fun r hr => ⟨g.lt r hr, g.le r hr⟩⟩, fun h => ⟨h.1, fun r hr => (h.2 r hr).1, fun r hr => (h.2 r hr).2⟩⟩

theorem satI_iff {n : Nat} {v : PRVec} (g : Good n v) {m : Nat → Nat} : SatI v m ↔ Sat v m := by
  constructor
  · intro h r hr
    have := h r.place
    rw [rng_of_mem g.sorted hr] at this
    exact this
  · intro h p
    by_cases hp : rng v p = {}
    · rw [hp]; exact has_default _
    · exact h _ (mem_of_rng g.sorted hp)

theorem fseq_snoc {e : Nat} : ∀ {l : List Nat} {m m' : Nat → Nat}, FSeq N m (l ++ [e]) m' → ∃ m1, FSeq N m l m1 ∧ Fire N m1 (e - 1) m' := by
  intro l
  induction l with
  | nil =>
    intro m m' h
    obtain ⟨m1, h1, h2⟩ := h
    exact ⟨m, rfl, by rw [show m' = m1 from h2]; exact h1⟩
  | cons x l ih =>
    intro m m' h
    obtain ⟨m1, h1, h2⟩ := h
    obtain ⟨m2, h3, h4⟩ := ih h2
    exact ⟨m2, ⟨m1, h1, h3⟩, h4⟩

/-- Each predicate is a precondition of the next one, for the transition between them. -/
def Triples (N : FlatNet) : Inter → Prop :=
  List.IsChain fun a b => ∀ m m', SatI a.1 m → Fire N m (a.2 - 1) m' → SatI b.1 m'

theorem hoare_triples (ok : NetOK N) : ∀ (syms : List Nat) (v : PRVec) (s : Nat) (rest : Inter) (r : Inter × Option Nat),
    (∀ e ∈ syms, 1 ≤ e ∧ e ≤ N.ntransitions) → (∀ x ∈ (v, s) :: rest, Good N.nplaces x.1) → Triples N ((v, s) :: rest) →
    hoare N syms ((v, s) :: rest) = .ok r → r.2 = none →
    r.1.map Prod.snd = syms.reverse ++ ((v, s) :: rest).map Prod.snd ∧ r.1.drop syms.length = (v, s) :: rest ∧
      (∀ x ∈ r.1, Good N.nplaces x.1) ∧ Triples N r.1 := by
  intro syms
  induction syms with
  | nil =>
    intro v s rest r _ g ht h _
    simp only [hoare, Except.ok.injEq] at h
    subst h
    exact ⟨rfl, rfl, g, ht⟩
  | cons e syms ih =>
    intro v s rest r hsym g0 htr h hn
    have g : Good N.nplaces v := g0 (v, s) (by simp)
    obtain ⟨t, rfl⟩ : ∃ t, e = t + 1 := ⟨e - 1, by have := (hsym e (by simp)).1; omega⟩
    have ht : t < N.ntransitions := (hsym (t + 1) (by simp)).2
    simp only [hoare, List.headD_cons, Nat.add_sub_cancel] at h
    cases hp : hoarePost v (N.postset t) (N.preset t) v.compact with
    | error e => rw [hp] at h; cases h
    | ok x =>
      rw [hp] at h
      have hpost := hoarePost_spec (N.postset t) (N.preset t) v.compact x (ok.preSorted t ht) (ok.postSorted t ht)
        (ok.preLt t ht) (ok.postLt t ht) (ok.dir t ht) (good_compact g) hp
      simp only [bind, Except.bind] at h
      cases x with
      | stuck w q =>
        simp only [pure, Except.pure, Except.ok.injEq] at h
        rw [← h] at hn; cases hn
      | done w =>
        simp only at h
        have hpost : Red N.nplaces v v.compact (N.preset t) (N.postset t) w [] [] := hpost
        have hstep : ∀ m m', SatI w m → Fire N m t m' → SatI v m' := by
          rintro m1 m' hw ⟨_, hen, rfl⟩ p
          cases hu : v.unboundAt p with
          | true =>
            rw [unboundAt_eq, unbound_iff] at hu
            rw [hu]; exact has_default _
          | false =>
            have htr := hpost.tr p hu (rng w p) (by
              intro y _ hy
              simpa [arcSum_nil] using hy)
            have := htr (m1 p) (hen p) (hw p)
            rw [rng_compact g.sorted] at this
            exact this
        obtain ⟨h1, h2, h3, h4⟩ := ih w (t + 1) ((v, s) :: rest) r (fun e he => hsym e (by simp [he]))
          (fun x hx => by
            rcases List.mem_cons.1 hx with rfl | hx
            · exact hpost.good
            · exact g0 x hx)
          (List.isChain_cons_cons.2 ⟨fun m m' a b => hstep m m' a (by simpa using b), htr⟩) h hn
        refine ⟨by rw [h1]; simp, ?_, h3, h4⟩
        have := congrArg (List.drop 1) h2
        rw [List.drop_drop] at this
        simpa using this

theorem fseq_of_run (ok : NetOK N) {m m' : Nat → Nat} {ts : List (Fin N.ntransitions)} (h : N.toNet.Run m ts m') :
    FSeq N m (ts.map fun t => t.val + 1) m' := by
  induction h with
  | nil _ => rfl
  | @cons m t m1 ts m2 hs _ ih =>
    exact ⟨m1, by rw [Nat.add_sub_cancel]; exact (step_iff_fire ok t _ _).1 hs, ih⟩

theorem noShort_of_fseq (ok : NetOK N) : ∀ (l : List Nat) (m m' : Nat → Nat), (∀ e ∈ l, 1 ≤ e ∧ e ≤ N.ntransitions) → FSeq N m l m' →
    NoShort N (fun _ => True) l (fun p => (m p : Int)) ∧ final N l (fun p => (m p : Int)) = fun p => (m' p : Int) := by
  intro l
  induction l with
  | nil => intro m m' _ h; exact ⟨trivial, by rw [show m' = m from h]; rfl⟩
  | cons e l ih =>
    intro m m' hl h
    obtain ⟨m1, h1, h2⟩ := h
    have ht : e - 1 < N.ntransitions := h1.1
    have heff : effect N (fun p => (m p : Int)) (e - 1) = fun p => (m1 p : Int) := by
      funext p
      rw [effect_eq, h1.2.2]
      have := h1.2.1 p
      simp only
      omega
    obtain ⟨h3, h4⟩ := ih m1 m' (fun x hx => hl x (by simp [hx])) h2
    refine ⟨⟨fun a ha _ => ?_, by rw [heff]; exact h3⟩, ?_⟩
    · have := (en_iff ok ht m).2 h1.2.1 a ha
      simp only
      omega
    · show final N l (effect N (fun p => (m p : Int)) (e - 1)) = _
      rw [heff]; exact h4

end TAR
end Verif
