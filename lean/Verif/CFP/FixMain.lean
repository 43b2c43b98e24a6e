import Verif.CFP.FixLemmas

/-!
# The loop of the fixed point

The invariant of the loop: a transition waits for its turn, or is closed, that is, all its bindings with tokens in the boxes are in
its maps, and their outputs are in the boxes.
-/

namespace Verif
namespace CFP

open CPN

/-- All input terms of the binding are in the boxes. -/
def Fed (N : CNet) (cons : Nat → IVec) (t : Nat) (ρ : Nat → Val) : Prop :=
  ∀ a ∈ (N.trans t).inputs, ∀ l ∈ leaves a.expr, IVec.Has (cons a.place) (den N.types N.vty ρ l)

/-- All output terms of the binding are in the boxes. -/
def Given (N : CNet) (cons : Nat → IVec) (t : Nat) (ρ : Nat → Val) : Prop :=
  ∀ a ∈ (N.trans t).outputs, ∀ l ∈ leaves a.expr, IVec.Has (cons a.place) (den N.types N.vty ρ l)

def Closed (N : CNet) (s : FSt) (t : Nat) : Prop :=
  ∀ ρ, N.Legal t ρ → Fed N s.cons t ρ → (∃ m ∈ s.maps t, m.Covers ρ) ∧ Given N s.cons t ρ

def Pend (N : CNet) (s : FSt) (t : Nat) : Prop := ∃ a ∈ (N.trans t).inputs, a.place ∈ s.queue

/-- The invariant; `rest` are the transitions still to be visited in this sweep. -/
structure Good (N : CNet) (s : FSt) (rest : List Nat) : Prop where
  cons : ConsOk N s.cons
  init : Leq (initF N).cons s.cons
  inq : ∀ p, s.inQ p = true → p ∈ s.queue
  sane : ∀ t < N.transitions.length, ∀ m ∈ s.maps t, m.Sane N.types N.vty
  quiet : ∀ t < N.transitions.length, s.done t = true → s.maps t ≠ [] ∧ ∀ ρ, Given N s.cons t ρ
  live : ∀ t < N.transitions.length, s.done t = false → (N.trans t).inputs ≠ [] → t ∈ rest ∨ Pend N s t ∨ Closed N s t
  free : ∀ t < N.transitions.length, (N.trans t).inputs = [] → Closed N s t

/-- The new boxes are among the old. -/
def sameBoxes (v w : IVec) : Bool := v.all fun b => decide (b ∈ w)

theorem sameBoxes_has {v w : IVec} (h : sameBoxes v w = true) {x : Val} (hx : IVec.Has v x) : IVec.Has w x := by
  obtain ⟨i, hi, h'⟩ := hx
  exact ⟨i, of_decide_eq_true (List.all_eq_true.1 h i hi), h'⟩

/-- Restricting the boxes of an input place is noticed by those that need to know. -/
def tidyRestrict (N : CNet) (k : Nat) (s : FSt) (t : Nat) (rest : List Nat) : Bool :=
  (N.trans t).inputs.all fun a =>
    decide (a.place ∈ s.queue) || sameBoxes ((s.cons a.place).restrict k) (s.cons a.place) ||
      (postOf N a.place).all fun u => decide (u = t) || s.done u || decide (u ∈ rest)

/-- The visit neither overflows a count nor misses growth. -/
def tidyVisit (N : CNet) (k : Nat) (s : FSt) (t : Nat) (rest : List Nat) : Bool :=
  s.done t || (smallStep N k s.cons (N.trans t) && tidyRestrict N k s t rest &&
    match inputStep N k s.cons (N.trans t) with
    | some (cons', some maps) => tidyOuts N t { s with cons := cons', maps := upd s.maps t maps } (N.trans t).outputs
    | _ => true)

theorem Given.mono {N : CNet} {c d : Nat → IVec} {t : Nat} {ρ : Nat → Val} (h : Leq c d) (g : Given N c t ρ) : Given N d t ρ :=
  fun a ha l hl => h _ _ (g a ha l hl)

theorem mem_postOf {N : CNet} {p t : Nat} : t ∈ postOf N p ↔ t < N.transitions.length ∧ ∃ a ∈ (N.trans t).inputs, a.place = p := by
  unfold postOf
  rw [List.mem_filter, List.mem_range, List.any_eq_true]
  simp only [decide_eq_true_eq]

/-- The steps of a visit, once the input arcs are done: what `s1` (before the output arcs) and `s2` (after them) have in common. -/
structure Mid (N : CNet) (t : Nat) (s s1 s2 : FSt) : Prop where
  ok : ConsOk N s2.cons
  leq1 : Leq s.cons s1.cons
  leq2 : Leq s1.cons s2.cons
  queue : ∀ p ∈ s.queue, p ∈ s2.queue
  inq : ∀ p, s2.inQ p = true → p ∈ s2.queue
  sane : ∀ m ∈ s2.maps t, m.Sane N.types N.vty
  other : ∀ u, u ≠ t → s2.maps u = s.maps u
  done : ∀ u, u ≠ t → s2.done u = s.done u
  grow : ∀ p x, IVec.Has (s2.cons p) x → IVec.Has (s1.cons p) x ∨ p ∈ s2.queue
  self : ∀ ρ, N.Legal t ρ → Fed N s1.cons t ρ → (∃ m ∈ s2.maps t, m.Covers ρ) ∧ Given N s2.cons t ρ
  quiet : s2.done t = true → s2.maps t ≠ [] ∧ ∀ ρ, Given N s2.cons t ρ

theorem mid_good {N : CNet} {k : Nat} {s s1 s2 : FSt} {t : Nat} {rest : List Nat} (ht : t < N.transitions.length) (hin : (N.trans t).inputs ≠ [])
    (hg : Good N s (t :: rest)) (hr : tidyRestrict N k s t rest = true)
    (h1 : ∀ p, s1.cons p = s.cons p ∨ (p ∈ (N.trans t).inputs.map (·.place) ∧ s1.cons p = (s.cons p).restrict k)) (m : Mid N t s s1 s2) : Good N s2 rest := by
  have hleq := m.leq1.trans m.leq2
  refine ⟨m.ok, hg.init.trans hleq, m.inq, ?_, ?_, ?_, ?_⟩
  · intro u hu
    by_cases e : u = t
    · subst e; exact m.sane
    · rw [m.other u e]; exact hg.sane u hu
  · intro u hu hd
    by_cases e : u = t
    · subst e; exact m.quiet hd
    · rw [m.done u e] at hd
      rw [m.other u e]
      obtain ⟨g1, g2⟩ := hg.quiet u hu hd
      exact ⟨g1, fun ρ => (g2 ρ).mono hleq⟩
  · intro u hu hd hi
    by_cases e : u = t
    · subst e
      right
      by_cases hn : ∀ a ∈ (N.trans u).inputs, ∀ x, IVec.Has (s2.cons a.place) x → IVec.Has (s1.cons a.place) x
      · right
        intro ρ hl hf
        exact m.self ρ hl fun a ha l hl' => hn a ha _ (hf a ha l hl')
      · left
        simp only [not_forall] at hn
        obtain ⟨a, ha, x, hx, hx'⟩ := hn
        rcases m.grow _ _ hx with h | h
        · exact absurd h hx'
        · exact ⟨a, ha, h⟩
    · rw [m.done u e] at hd
      rcases hg.live u hu hd hi with h | ⟨a, ha, h⟩ | h
      · rcases List.mem_cons.1 h with h | h
        · exact absurd h e
        · exact Or.inl h
      · exact Or.inr (Or.inl ⟨a, ha, m.queue _ h⟩)
      · by_cases hn : ∀ a ∈ (N.trans u).inputs, ∀ x, IVec.Has (s2.cons a.place) x → IVec.Has (s.cons a.place) x
        · right; right
          intro ρ hl hf
          obtain ⟨f1, f2⟩ := h ρ hl fun a ha l hl' => hn a ha _ (hf a ha l hl')
          rw [m.other u e]
          exact ⟨f1, f2.mono hleq⟩
        · simp only [not_forall] at hn
          obtain ⟨a, ha, x, hx, hx'⟩ := hn
          rcases m.grow _ _ hx with h' | h'
          · rcases h1 a.place with e1 | ⟨e1, e2⟩
            · rw [e1] at h'; exact absurd h' hx'
            · obtain ⟨b, hb, hbp⟩ := List.mem_map.1 e1
              have hr' := List.all_eq_true.1 hr b hb
              rw [hbp, Bool.or_eq_true, Bool.or_eq_true] at hr'
              rcases hr' with (hq | hs) | hp
              · exact Or.inr (Or.inl ⟨a, ha, m.queue _ (of_decide_eq_true hq)⟩)
              · rw [e2] at h'
                exact absurd (sameBoxes_has hs h') hx'
              · have := List.all_eq_true.1 hp u (mem_postOf.2 ⟨hu, a, ha, rfl⟩)
                rw [hd, Bool.or_false, Bool.or_eq_true] at this
                rcases this with h3 | h3
                · exact absurd (of_decide_eq_true h3) e
                · exact Or.inl (of_decide_eq_true h3)
          · exact Or.inr (Or.inl ⟨a, ha, h'⟩)
  · intro u hu hi ρ hl hf
    have e : u ≠ t := fun e => hin (e ▸ hi)
    obtain ⟨f1, f2⟩ := hg.free u hu hi ρ hl fun a ha => by rw [hi] at ha; cases ha
    rw [m.other u e]
    exact ⟨f1, f2.mono hleq⟩

theorem outputs_cons (N : CNet) (t : Nat) (s : FSt) : (outputs N t s).cons = ((N.trans t).outputs.foldl (outStep N t) s).cons := by
  unfold outputs; simp only; split <;> rfl
theorem outputs_maps (N : CNet) (t : Nat) (s : FSt) : (outputs N t s).maps = ((N.trans t).outputs.foldl (outStep N t) s).maps := by
  unfold outputs; simp only; split <;> rfl
theorem outputs_queue (N : CNet) (t : Nat) (s : FSt) : (outputs N t s).queue = ((N.trans t).outputs.foldl (outStep N t) s).queue := by
  unfold outputs; simp only; split <;> rfl
theorem outputs_inQ (N : CNet) (t : Nat) (s : FSt) : (outputs N t s).inQ = ((N.trans t).outputs.foldl (outStep N t) s).inQ := by
  unfold outputs; simp only; split <;> rfl
theorem outputs_done (N : CNet) (t : Nat) (s : FSt) :
    ((∀ a ∈ (N.trans t).outputs, a.expr.vars = []) ∧ (outputs N t s).done = upd ((N.trans t).outputs.foldl (outStep N t) s).done t true) ∨
    (outputs N t s).done = ((N.trans t).outputs.foldl (outStep N t) s).done := by
  by_cases c : ((N.trans t).outputs.all fun a => a.expr.vars.isEmpty) = true
  · left
    refine ⟨fun a ha => List.isEmpty_iff.1 (List.all_eq_true.1 c a ha), ?_⟩
    unfold outputs; simp only; rw [if_pos c]
  · right
    unfold outputs; simp only; rw [if_neg c]

/-- What all output arcs do. -/
theorem outputs_ok {N : CNet} (R : Ready N) {t : Nat} (ht : t < N.transitions.length) (s : FSt) (hc : ConsOk N s.cons)
    (hq : ∀ p, s.inQ p = true → p ∈ s.queue) (hm : ∀ m ∈ s.maps t, m.Sane N.types N.vty) (hne : s.maps t ≠ []) (hd : s.done t = false) :
    ConsOk N (outputs N t s).cons ∧ Leq s.cons (outputs N t s).cons ∧ (∀ p ∈ s.queue, p ∈ (outputs N t s).queue) ∧
    (∀ p, (outputs N t s).inQ p = true → p ∈ (outputs N t s).queue) ∧ (∀ m ∈ (outputs N t s).maps t, m.Sane N.types N.vty) ∧
    (∀ u, u ≠ t → (outputs N t s).maps u = s.maps u) ∧ (∀ u, u ≠ t → (outputs N t s).done u = s.done u) ∧
    (tidyOuts N t s (N.trans t).outputs = true → ∀ p x, IVec.Has ((outputs N t s).cons p) x → IVec.Has (s.cons p) x ∨ p ∈ (outputs N t s).queue) ∧
    (∀ ρ, N.Legal t ρ → (∃ m ∈ s.maps t, m.Covers ρ) → (∃ m ∈ (outputs N t s).maps t, m.Covers ρ) ∧ Given N (outputs N t s).cons t ρ) ∧
    ((outputs N t s).done t = true → (outputs N t s).maps t ≠ [] ∧ ∀ ρ, Given N (outputs N t s).cons t ρ) := by
  obtain ⟨h1, h2, h3, h4⟩ := outFold_ok R ht (N.trans t).outputs s (fun a h => h) hc hq hm
  rw [outputs_cons, outputs_maps, outputs_queue, outputs_inQ]
  refine ⟨h1.cons, h1.leq, h1.queue, h1.inq, h1.sane, h1.other, ?_, h4, ?_, ?_⟩
  · intro u hu
    rcases outputs_done N t s with ⟨_, e⟩ | e
    · rw [e, upd_ne _ _ hu, h1.done]
    · rw [e, h1.done]
  · intro ρ hl hx
    exact ⟨h1.cover ρ hl.1 hx, h2 ρ hl.1 hx⟩
  · intro hdt
    refine ⟨h1.ne hne, ?_⟩
    rcases outputs_done N t s with ⟨hv, _⟩ | e
    · intro ρ a ha l hl
      exact h3 hne a ha (hv a ha) ρ l hl
    · rw [e, h1.done, hd] at hdt
      cases hdt

theorem visit_good {N : CNet} (R : Ready N) {k : Nat} {s s' : FSt} {t : Nat} {rest : List Nat} (ht : t < N.transitions.length) (hin : (N.trans t).inputs ≠ [])
    (hg : Good N s (t :: rest)) (htd : tidyVisit N k s t rest = true) (e : visit N k s t = some s') : Good N s' rest := by
  unfold visit at e
  cases hd : s.done t with
  | true =>
    rw [if_pos hd] at e
    cases e
    refine ⟨hg.cons, hg.init, hg.inq, hg.sane, hg.quiet, ?_, hg.free⟩
    intro u hu hd' hi
    rcases hg.live u hu hd' hi with h | h
    · rcases List.mem_cons.1 h with h | h
      · rw [h, hd] at hd'; cases hd'
      · exact Or.inl h
    · exact Or.inr h
  | false =>
    rw [if_neg (by rw [hd]; exact Bool.false_ne_true)] at e
    unfold tidyVisit at htd
    rw [hd, Bool.false_or, Bool.and_eq_true, Bool.and_eq_true] at htd
    obtain ⟨⟨hs, hr⟩, ho⟩ := htd
    cases hi : inputStep N k s.cons (N.trans t) with
    | none => rw [hi] at e; cases e
    | some q =>
      obtain ⟨c1, r⟩ := q
      obtain ⟨g1, g2, g3, g4, g5⟩ := inputStep_ok R (trans_mem ht) hg.cons hi
      rw [hi] at e ho
      cases r with
      | none =>
        cases e
        refine mid_good (s1 := { s with cons := c1, maps := upd s.maps t [] }) ht hin hg hr g1 ⟨g2, g3, fun _ _ h => h, fun _ h => h, hg.inq, ?_, ?_, fun _ _ => rfl, fun _ _ h => Or.inl h, ?_, ?_⟩
        · intro m hm
          simp only [upd_same] at hm
          cases hm
        · exact fun u hu => upd_ne _ _ hu
        · intro ρ hl hf
          obtain ⟨maps, h, _⟩ := g5 ρ hl.1 hl.2 hs hf
          cases h
        · intro h
          rw [show s.done t = false from hd] at h
          cases h
      | some maps =>
        simp only [Option.some.injEq] at e
        simp only at ho
        subst e
        obtain ⟨f1, f2⟩ := g4 maps rfl
        obtain ⟨k1, k2, k3, k4, k5, k6, k7, k8, k9, k10⟩ := outputs_ok R ht { s with cons := c1, maps := upd s.maps t maps } g2 hg.inq
          (by intro m hm; simp only [upd_same] at hm; exact f1 m hm)
          (by simp only [upd_same]; exact f2) hd
        refine mid_good (s1 := { s with cons := c1, maps := upd s.maps t maps }) ht hin hg hr g1 ⟨k1, g3, k2, k3, k4, k5, ?_, k7, k8 ho, ?_, k10⟩
        · intro u hu
          rw [k6 u hu]
          exact upd_ne _ _ hu
        · intro ρ hl hf
          refine k9 ρ hl ?_
          obtain ⟨maps', h, hm⟩ := g5 ρ hl.1 hl.2 hs hf
          cases h
          simp only [upd_same]
          exact hm

def tidySweep (N : CNet) (k : Nat) : FSt → List Nat → Bool
  | _, [] => true
  | s, t :: ts => tidyVisit N k s t ts && match visit N k s t with | none => true | some s' => tidySweep N k s' ts

theorem sweep_good {N : CNet} (R : Ready N) {k : Nat} : (ts : List Nat) → {s s' : FSt} → (∀ t ∈ ts, t < N.transitions.length ∧ (N.trans t).inputs ≠ []) →
    Good N s ts → tidySweep N k s ts = true → sweep N k s ts = some s' → Good N s' []
  | [], s, s', _, hg, _, e => by rw [sweep] at e; cases e; exact hg
  | t :: ts, s, s', ht, hg, htd, e => by
    rw [sweep] at e
    rw [tidySweep, Bool.and_eq_true] at htd
    cases hv : visit N k s t with
    | none => rw [hv] at e; cases e
    | some s1 =>
      rw [hv] at e htd
      obtain ⟨h1, h2⟩ := ht t List.mem_cons_self
      exact sweep_good R ts (fun u hu => ht u (List.mem_cons_of_mem _ hu)) (visit_good R h1 h2 hg htd.1 hv) htd.2 e

def tidyLoop (N : CNet) (ks : Nat → Nat) : Nat → Nat → FSt → Bool
  | 0, _, _ => true
  | n + 1, i, s =>
    match s.queue with
    | [] => true
    | p :: q => tidySweep N (ks i) { s with queue := q, inQ := upd s.inQ p false } (postOf N p) &&
      match sweep N (ks i) { s with queue := q, inQ := upd s.inQ p false } (postOf N p) with
      | none => true
      | some s' => tidyLoop N ks n (i + 1) s'

theorem loop_good {N : CNet} (R : Ready N) {ks : Nat → Nat} : (n i : Nat) → {s s' : FSt} → Good N s [] → tidyLoop N ks n i s = true →
    loopF N ks n i s = some s' → Good N s' [] ∧ s'.queue = []
  | 0, i, s, s', _, _, e => by rw [loopF] at e; cases e
  | n + 1, i, s, s', hg, htd, e => by
    rw [loopF] at e
    rw [tidyLoop] at htd
    cases hq : s.queue with
    | nil => rw [hq] at e; cases e; exact ⟨hg, hq⟩
    | cons p q =>
      rw [hq] at e htd
      simp only at e htd
      rw [Bool.and_eq_true] at htd
      have hg' : Good N { s with queue := q, inQ := upd s.inQ p false } (postOf N p) := by
        refine ⟨hg.cons, hg.init, ?_, hg.sane, hg.quiet, ?_, hg.free⟩
        · intro r hr
          have hr : upd s.inQ p false r = true := hr
          have hne : r ≠ p := fun e => by rw [e, upd_same] at hr; cases hr
          rw [upd_ne _ _ hne] at hr
          have := hg.inq r hr
          rw [hq] at this
          rcases List.mem_cons.1 this with h | h
          · exact absurd h hne
          · exact h
        · intro u hu hd hi
          rcases hg.live u hu hd hi with h | ⟨a, ha, h⟩ | h
          · cases h
          · rw [hq] at h
            rcases List.mem_cons.1 h with h | h
            · exact Or.inl (mem_postOf.2 ⟨hu, a, ha, h⟩)
            · exact Or.inr (Or.inl ⟨a, ha, h⟩)
          · exact Or.inr (Or.inr h)
      cases hs : sweep N (ks i) { s with queue := q, inQ := upd s.inQ p false } (postOf N p) with
      | none => rw [hs] at e; cases e
      | some s1 =>
        rw [hs] at e htd
        refine loop_good R n (i + 1) (sweep_good R _ ?_ hg' htd.1 hs) htd.2 e
        intro t ht
        obtain ⟨h1, a, h2, _⟩ := mem_postOf.1 ht
        exact ⟨h1, fun e => by rw [e] at h2; cases h2⟩

/-! ### The start -/

theorem value_fits {T : Types} {ty i : Nat} (h : i < T.size ty) (hs : T.size ty = (T.values ty).length) : Fits (T.dims ty) (T.value ⟨ty, i⟩) := by
  refine values_fits ?_
  unfold Types.value
  rw [List.getD_eq_getElem?_getD, List.getElem?_eq_getElem (hs ▸ h)]
  exact List.getElem_mem _

theorem point_has : (x : Val) → Interval.Has (x.map fun a => ⟨a, a⟩) x
  | [] => trivial
  | a :: x => ⟨⟨Nat.le_refl _, Nat.le_refl _⟩, point_has x⟩

theorem point_in : (ns : List Nat) → (x : Val) → Fits ns x → Interval.In ns (x.map fun a => ⟨a, a⟩)
  | [], [], _ => trivial
  | _ :: ns, _ :: x, h => ⟨⟨Nat.le_refl _, h.1⟩, point_in ns x h.2⟩
  | [], _ :: _, h => h.elim
  | _ :: _, [], h => h.elim

theorem addPlace_ok {N : CNet} (R : Ready N) {p : Nat} (hp : p < N.places.length) :
    IVec.In (N.types.dims (N.place p).ty) (addPlace N p) ∧ (hasSub N p = true → ∀ x, Fits (N.types.dims (N.place p).ty) x → IVec.Has (addPlace N p) x) ∧
    ∀ q ∈ (N.place p).marking, IVec.Has (addPlace N p) (N.types.value ⟨(N.place p).ty, q.1⟩) := by
  have hv : ∀ q ∈ (N.place p).marking, Fits (N.types.dims (N.place p).ty) (N.types.value ⟨(N.place p).ty, q.1⟩) :=
    fun q hq => value_fits (R.marking p hp q hq) (by rw [size_eq, Types.values, box_eq, List.length_map, List.length_range])
  unfold addPlace
  simp only
  generalize (if (N.place p).marking.length = N.types.size (N.place p).ty then ((N.place p).marking.takeWhile fun q => decide (q.2 > 0)).length else 0) = counter
  split
  · have hf : ∀ x, Fits (N.types.dims (N.place p).ty) x → IVec.Has [fullInterval (N.types.dims (N.place p).ty)] x :=
      fun x hx => ⟨_, List.mem_singleton_self _, full_has _ x hx⟩
    refine ⟨?_, fun _ => hf, fun q hq => hf _ (hv q hq)⟩
    intro i hi
    rw [List.mem_singleton] at hi
    subst hi
    exact full_in _ (R.ppos p hp)
  · rename_i hno
    refine ⟨?_, fun h => absurd (Or.inr h) hno, ?_⟩
    · refine IVec.In.addAll (fun i hi => nomatch hi) ?_
      intro i hi
      obtain ⟨q, hq, rfl⟩ := List.mem_map.1 hi
      exact point_in _ _ (hv q hq)
    · intro q hq
      exact IVec.addAll_has_right _ ⟨_, List.mem_map.2 ⟨q, hq, rfl⟩, point_has _⟩

theorem initF_cons {N : CNet} {p : Nat} (hp : p < N.places.length) : (initF N).cons p = addPlace N p := by
  show (if p < N.places.length then addPlace N p else []) = _
  rw [if_pos hp]

/-- The guards of the transitions without input arcs stay below 2^32. -/
def smallFree (N : CNet) : Bool := N.transitions.all fun t => !t.inputs.isEmpty || smallGuard N t.guard [[]]

/-- before the loop: the transitions below `n` have been looked at -/
structure Begun (N : CNet) (s : FSt) (n : Nat) : Prop where
  cons : ConsOk N s.cons
  all : ∀ p < N.places.length, p ∈ s.queue
  inq : ∀ p, s.inQ p = true → p ∈ s.queue
  init : Leq (initF N).cons s.cons
  sane : ∀ t < N.transitions.length, ∀ m ∈ s.maps t, m.Sane N.types N.vty
  quiet : ∀ t < N.transitions.length, s.done t = true → s.maps t ≠ [] ∧ ∀ ρ, Given N s.cons t ρ
  fresh : ∀ t, n ≤ t → s.done t = false
  free : ∀ t < N.transitions.length, t < n → (N.trans t).inputs = [] → Closed N s t

theorem freeStep_ok {N : CNet} (R : Ready N) (hs : smallFree N = true) {n : Nat} (hn : n < N.transitions.length) {s : FSt} (h : Begun N s n) :
    Begun N (freeStep N s n) (n + 1) := by
  unfold freeStep
  by_cases hi : (N.trans n).inputs.isEmpty = true
  · rw [if_pos hi]
    have hi' : (N.trans n).inputs = [] := List.isEmpty_iff.1 hi
    have hsm : smallGuard N (N.trans n).guard [[]] = true := by
      have := List.all_eq_true.1 hs _ (trans_mem hn)
      rw [hi] at this
      exact this
    have hone : ∀ m ∈ ([[]] : List VMap), m.Sane N.types N.vty := by
      intro m hm
      rw [List.mem_singleton] at hm
      subst hm
      exact ⟨(fun q hq => nomatch hq), (fun q hq => nomatch hq)⟩
    have hcov : ∀ ρ, N.Legal n ρ → ∃ maps', guardMaps N (N.trans n).guard [[]] = some maps' ∧ ∃ m ∈ maps', m.Covers ρ :=
      fun ρ hl => guardMaps_cover R (trans_mem hn) (fun v hv => values_fits (hl.1 v hv)) hone hsm ⟨[], List.mem_singleton_self _, fun q hq => nomatch hq⟩ hl.2
    cases hg : guardMaps N (N.trans n).guard [[]] with
    | none =>
      simp only
      refine ⟨h.cons, h.all, h.inq, h.init, ?_, ?_, fun t ht => h.fresh t (by omega), ?_⟩
      · intro t ht m hm
        by_cases e : t = n
        · subst e
          simp only [upd_same] at hm
          cases hm
        · simp only [upd_ne _ _ e] at hm
          exact h.sane t ht m hm
      · intro t ht hd
        have e : t ≠ n := fun e => by rw [e, show ({ s with maps := upd s.maps n [] } : FSt).done n = s.done n from rfl, h.fresh n (Nat.le_refl _)] at hd; cases hd
        rw [show ({ s with maps := upd s.maps n [] } : FSt).maps t = s.maps t from upd_ne _ _ e]
        exact h.quiet t ht hd
      · intro t ht hlt hti ρ hl hf
        by_cases e : t = n
        · subst e
          obtain ⟨m, hm, _⟩ := hcov ρ hl
          rw [hg] at hm
          cases hm
        · rw [show ({ s with maps := upd s.maps n [] } : FSt).maps t = s.maps t from upd_ne _ _ e]
          exact h.free t ht (by omega) hti ρ hl hf
    | some maps =>
      simp only
      obtain ⟨f1, f2⟩ := guardMaps_sane R (trans_mem hn) hone (by simp) hg
      obtain ⟨k1, k2, k3, k4, k5, k6, k7, _, k9, k10⟩ := outputs_ok R hn { s with maps := upd s.maps n maps } h.cons h.inq
        (by intro m hm; simp only [upd_same] at hm; exact f1 m hm)
        (by simp only [upd_same]; exact f2) (h.fresh n (Nat.le_refl _))
      have hoth : ∀ u, u ≠ n → (outputs N n { s with maps := upd s.maps n maps }).maps u = s.maps u := fun u hu => by
        rw [k6 u hu]; exact upd_ne _ _ hu
      refine ⟨k1, fun p hp => k3 p (h.all p hp), k4, h.init.trans k2, ?_, ?_, ?_, ?_⟩
      · intro t ht m hm
        by_cases e : t = n
        · subst e; exact k5 m hm
        · rw [hoth t e] at hm; exact h.sane t ht m hm
      · intro t ht hd
        by_cases e : t = n
        · subst e; exact k10 hd
        · rw [k7 t e] at hd
          rw [hoth t e]
          obtain ⟨a1, a2⟩ := h.quiet t ht hd
          exact ⟨a1, fun ρ => (a2 ρ).mono k2⟩
      · intro t ht
        rw [k7 t (by omega)]
        exact h.fresh t (by omega)
      · intro t ht hlt hti ρ hl hf
        by_cases e : t = n
        · subst e
          refine k9 ρ hl ?_
          obtain ⟨maps', h1, h2⟩ := hcov ρ hl
          rw [hg] at h1
          cases h1
          simp only [upd_same]
          exact h2
        · obtain ⟨a1, a2⟩ := h.free t ht (by omega) hti ρ hl fun a ha => by rw [hti] at ha; cases ha
          rw [hoth t e]
          exact ⟨a1, a2.mono k2⟩
  · rw [if_neg hi]
    refine ⟨h.cons, h.all, h.inq, h.init, h.sane, h.quiet, fun t ht => h.fresh t (by omega), ?_⟩
    intro t ht hlt hti
    by_cases e : t = n
    · subst e
      rw [hti] at hi
      exact absurd rfl hi
    · exact h.free t ht (by omega) hti

theorem start_begun {N : CNet} (R : Ready N) (hs : smallFree N = true) : (n : Nat) → n ≤ N.transitions.length →
    Begun N ((List.range n).foldl (freeStep N) (initF N)) n
  | 0, _ => by
    refine ⟨⟨fun p hp => ?_, fun p hp hsub x hx => ?_⟩, ?_, ?_, fun _ _ h => h, (fun t _ m hm => nomatch hm), (fun t _ hd => nomatch hd), (fun _ _ => rfl), fun t _ h => absurd h (Nat.not_lt_zero _)⟩
    · rw [List.range_zero, List.foldl_nil, initF_cons hp]; exact (addPlace_ok R hp).1
    · rw [List.range_zero, List.foldl_nil, initF_cons hp]; exact (addPlace_ok R hp).2.1 hsub x hx
    · intro p hp
      exact List.mem_reverse.2 (List.mem_range.2 hp)
    · intro p hp
      have hp : (decide (p < N.places.length) && !(N.place p).marking.isEmpty) = true := hp
      rw [Bool.and_eq_true] at hp
      exact List.mem_reverse.2 (List.mem_range.2 (of_decide_eq_true hp.1))
  | n + 1, hn => by
    rw [List.range_succ, List.foldl_append]
    exact freeStep_ok R hs (by omega) (start_begun R hs n (by omega))

theorem start_good {N : CNet} (R : Ready N) (hs : smallFree N = true) : Good N (startF N) [] := by
  have h := start_begun R hs _ (Nat.le_refl _)
  refine ⟨h.cons, h.init, h.inq, h.sane, h.quiet, ?_, fun t ht hi => h.free t ht ht hi⟩
  intro t ht _ hi
  obtain ⟨a, ha⟩ := List.exists_mem_of_ne_nil _ hi
  exact Or.inr (Or.inl ⟨a, ha, h.all _ (R.input _ (trans_mem ht) a ha).1⟩)

/-! ### Reachable markings -/

theorem arcsTokens_pos {N : CNet} {ρ : Nat → Val} {as : List CArc} {p : Nat} {x : Val} (h : 0 < arcsTokens N ρ as p x) :
    ∃ a ∈ as, a.place = p ∧ 0 < tokens N.types N.vty ρ a.expr x := by
  unfold arcsTokens at h
  induction as with
  | nil => cases h
  | cons a as ih =>
    rw [List.map_cons, List.sum_cons] at h
    by_cases e : 0 < (if a.place = p then tokens N.types N.vty ρ a.expr x else 0)
    · by_cases e' : a.place = p
      · rw [if_pos e'] at e; exact ⟨a, List.mem_cons_self, e', e⟩
      · rw [if_neg e'] at e; cases e
    · obtain ⟨b, hb, h'⟩ := ih (by omega)
      exact ⟨b, List.mem_cons_of_mem _ hb, h'⟩

theorem arcsTokens_ge {N : CNet} {ρ : Nat → Val} {as : List CArc} {a : CArc} (ha : a ∈ as) {x : Val} :
    tokens N.types N.vty ρ a.expr x ≤ arcsTokens N ρ as a.place x := by
  unfold arcsTokens
  induction as with
  | nil => cases ha
  | cons b as ih =>
    rw [List.map_cons, List.sum_cons]
    rcases List.mem_cons.1 ha with rfl | ha
    · rw [if_pos rfl]; omega
    · have := ih ha; omega

theorem input_vars {t : CTrans} {a : CArc} (ha : a ∈ t.inputs) : ∀ v ∈ a.expr.vars, v ∈ t.vars := by
  intro v hv
  unfold CTrans.vars
  rw [mem_dedup]
  exact List.mem_append_left _ (List.mem_append_right _ (List.mem_flatten.2 ⟨_, List.mem_map.2 ⟨a, ha, rfl⟩, hv⟩))

mutual
theorem flat_consts {T : Types} : (e : ArcE) → Flat T e → ∀ l ∈ leaves e, PlainConsts T l
  | .num n es, h => fun l hl => by
    rw [Flat] at h
    obtain ⟨t, rfl, h⟩ := h
    rw [leaves, List.mem_singleton] at hl
    exact hl ▸ h
  | .add as, h => fun l hl => by rw [Flat] at h; rw [leaves] at hl; exact flats_consts as h.2 l hl
  | .sub a b, h => fun l hl => by rw [Flat] at h; rw [leaves] at hl; exact flat_consts a h l hl
  | .scal k a, h => fun l hl => by rw [Flat] at h; rw [leaves] at hl; exact flat_consts a h l hl
theorem flats_consts {T : Types} : (as : List ArcE) → FlatL T as → ∀ l ∈ leavesL as, PlainConsts T l
  | [], _ => fun l hl => nomatch hl
  | a :: as, h => fun l hl => by
    rw [FlatL] at h
    rw [leavesL] at hl
    rcases List.mem_append.1 hl with hl | hl
    · exact flat_consts a h.1 l hl
    · exact flats_consts as h.2 l hl
end

/-- If the tokens are in the boxes, then so are the input terms of an enabled binding. -/
theorem fed {N : CNet} (R : Ready N) {cons : Nat → IVec} (hc : ConsOk N cons) {M : CMark} (hM : ∀ p < N.places.length, ∀ x, 0 < M p x → IVec.Has (cons p) x) {t : Nat}
    (ht : t < N.transitions.length) {ρ : Nat → Val} (hl : N.Legal t ρ) (he : N.Enabled M t ρ) : Fed N cons t ρ := by
  intro a ha l hl'
  obtain ⟨g1, g2, g3, _, g5⟩ := R.input _ (trans_mem ht) a ha
  rcases g5 with g5 | g5
  · apply hM _ g1
    have h1 := leaf_tokens (T := N.types) (vty := N.vty) (ρ := ρ) a.expr g5 l hl'
    have h2 := arcsTokens_ge (N := N) (ρ := ρ) ha (x := den N.types N.vty ρ l)
    have h3 := he.1 a.place (den N.types N.vty ρ l)
    omega
  · apply hc.full _ g1
    · unfold hasSub
      refine List.any_eq_true.2 ⟨_, trans_mem ht, List.any_eq_true.2 ⟨a, ha, ?_⟩⟩
      rw [g5, decide_eq_true rfl]
      rfl
    · obtain ⟨⟨i, hi, hx⟩, hin⟩ := out_ok (m := []) R.types (ρ := ρ) (fun q (hq : q ∈ []) => nomatch hq) (fun q (hq : q ∈ []) => nomatch hq) (leaves_ty a.expr g2 l hl')
        (flat_consts a.expr g3 l hl') (dims_ne R.parts _) fun v hv => values_fits (hl.1 v (input_vars ha v (leaves_vars a.expr l hl' v hv)))
      exact (hin i hi).fits hx

theorem good_reach {N : CNet} (R : Ready N) {s : FSt} (hg : Good N s []) (hq : s.queue = []) {M : CMark} (h : N.Reach M) :
    ∀ p < N.places.length, ∀ x, 0 < M p x → IVec.Has (s.cons p) x := by
  induction h with
  | init =>
    intro p hp x hx
    apply hg.init
    rw [initF_cons hp]
    unfold CNet.init at hx
    have : ∃ q ∈ (N.place p).marking, N.types.value ⟨(N.place p).ty, q.1⟩ = x := by
      by_contra hno
      have : ((N.place p).marking.map fun q => if N.types.value ⟨(N.place p).ty, q.1⟩ = x then q.2 else 0).sum = 0 := by
        refine List.sum_eq_zero_iff_forall_eq_nat.2 ?_
        intro y hy
        obtain ⟨q, hq, rfl⟩ := List.mem_map.1 hy
        rw [if_neg fun e => hno ⟨q, hq, e⟩]
      omega
    obtain ⟨q, hq, rfl⟩ := this
    exact (addPlace_ok R hp).2.2 q hq
  | step hr hs ih =>
    rename_i M0 M1 t ρ
    obtain ⟨ht, hl, he, rfl⟩ := hs
    intro p hp x hx
    by_cases h0 : 0 < M0 p x
    · exact ih p hp x h0
    · have hpos : 0 < arcsTokens N ρ (N.trans t).outputs p x := by
        unfold CNet.fire at hx
        omega
      obtain ⟨a, ha, rfl, htok⟩ := arcsTokens_pos hpos
      obtain ⟨l, hl', rfl⟩ := tokens_leaf a.expr htok
      have hf := fed R hg.cons ih ht hl he
      by_cases hd : s.done t = true
      · exact (hg.quiet t ht hd).2 ρ a ha l hl'
      · have hd : s.done t = false := by simpa using hd
        by_cases hi : (N.trans t).inputs = []
        · exact (hg.free t ht hi ρ hl hf).2 a ha l hl'
        · rcases hg.live t ht hd hi with h | ⟨b, _, h⟩ | h
          · cases h
          · rw [hq] at h; cases h
          · exact (h ρ hl hf).2 a ha l hl'

/-- The bindings of enabled transitions. -/
theorem good_maps {N : CNet} (R : Ready N) {s : FSt} (hg : Good N s []) (hq : s.queue = []) {M : CMark} (h : N.Reach M) {t : Nat}
    (ht : t < N.transitions.length) {ρ : Nat → Val} (hl : N.Legal t ρ) (he : N.Enabled M t ρ) :
    s.maps t ≠ [] ∧ (s.done t = false ∨ (N.trans t).inputs = [] → ∃ m ∈ s.maps t, m.Covers ρ) := by
  have hf := fed R hg.cons (good_reach R hg hq h) ht hl he
  have key : s.done t = false ∨ (N.trans t).inputs = [] → ∃ m ∈ s.maps t, m.Covers ρ := by
    intro hd
    by_cases hi : (N.trans t).inputs = []
    · exact (hg.free t ht hi ρ hl hf).1
    · rcases hd with hd | hd
      · rcases hg.live t ht hd hi with h | ⟨b, _, h⟩ | h
        · cases h
        · rw [hq] at h; cases h
        · exact (h ρ hl hf).1
      · exact absurd hd hi
  refine ⟨?_, key⟩
  cases hd : s.done t with
  | true => exact (hg.quiet t ht hd).1
  | false =>
    obtain ⟨m, hm, _⟩ := key (Or.inl hd)
    exact fun e => by rw [e] at hm; cases hm

/-! ### Transitions that are not looked at again -/

def DoneOk (N : CNet) (s : FSt) : Prop := ∀ t, s.done t = true → ∀ a ∈ (N.trans t).outputs, a.expr.vars = []

theorem outFold_done (N : CNet) (t : Nat) : (as : List CArc) → (s : FSt) → (as.foldl (outStep N t) s).done = s.done
  | [], _ => rfl
  | a :: as, s => by rw [List.foldl_cons, outFold_done N t as, outStep_done]

theorem outputs_doneOk {N : CNet} {t : Nat} {s : FSt} (h : DoneOk N s) : DoneOk N (outputs N t s) := by
  intro u hu
  rcases outputs_done N t s with ⟨hv, e⟩ | e
  · by_cases hut : u = t
    · subst hut; exact hv
    · rw [e, upd_ne _ _ hut, outFold_done] at hu
      exact h u hu
  · rw [e, outFold_done] at hu
    exact h u hu

theorem freeStep_doneOk {N : CNet} {s : FSt} {t : Nat} (h : DoneOk N s) : DoneOk N (freeStep N s t) := by
  unfold freeStep
  split
  · split
    · exact h
    · exact outputs_doneOk h
  · exact h

theorem start_doneOk {N : CNet} : (ts : List Nat) → {s : FSt} → DoneOk N s → DoneOk N (ts.foldl (freeStep N) s)
  | [], _, h => h
  | t :: ts, s, h => by rw [List.foldl_cons]; exact start_doneOk ts (freeStep_doneOk h)

theorem visit_doneOk {N : CNet} {k : Nat} {s s' : FSt} {t : Nat} (h : DoneOk N s) (e : visit N k s t = some s') : DoneOk N s' := by
  unfold visit at e
  split at e
  · cases e; exact h
  · split at e
    · cases e
    · cases e; exact h
    · cases e; exact outputs_doneOk h

theorem sweep_doneOk {N : CNet} {k : Nat} : (ts : List Nat) → {s s' : FSt} → DoneOk N s → sweep N k s ts = some s' → DoneOk N s'
  | [], s, s', h, e => by rw [sweep] at e; cases e; exact h
  | t :: ts, s, s', h, e => by
    rw [sweep] at e
    cases hv : visit N k s t with
    | none => rw [hv] at e; cases e
    | some s1 => rw [hv] at e; exact sweep_doneOk ts (visit_doneOk h hv) e

theorem loop_doneOk {N : CNet} {ks : Nat → Nat} : (n i : Nat) → {s s' : FSt} → DoneOk N s → loopF N ks n i s = some s' → DoneOk N s'
  | 0, i, s, s', _, e => by rw [loopF] at e; cases e
  | n + 1, i, s, s', h, e => by
    rw [loopF] at e
    cases hq : s.queue with
    | nil => rw [hq] at e; cases e; exact h
    | cons p q =>
      rw [hq] at e
      simp only at e
      cases hs : sweep N (ks i) { s with queue := q, inQ := upd s.inQ p false } (postOf N p) with
      | none => rw [hs] at e; cases e
      | some s1 =>
        rw [hs] at e
        exact loop_doneOk n (i + 1) (sweep_doneOk (s := { s with queue := q, inQ := upd s.inQ p false }) _ h hs) e

theorem compute_doneOk {N : CNet} {ks : Nat → Nat} {n : Nat} {s : FSt} (e : compute N ks n = some s) : DoneOk N s :=
  loop_doneOk n 0 (start_doneOk (s := initF N) _ fun _ (h : false = true) => nomatch h) e

end CFP
end Verif
