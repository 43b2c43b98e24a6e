import Verif.Synthesis.Inv
import Verif.Spec.Game

/-! # Synthesis: the fixed points are the positions with a winning strategy -/

namespace Verif
namespace Synth

variable {σ : Type}

/-- The lists of the game are the moves of the arena, on a set of positions closed under moves. -/
structure Agrees (G : Game σ) (A : Arena σ) (S : σ → Prop) : Prop where
  env : ∀ s, S s → G.over s = false → ∀ x, x ∈ G.env s ↔ A.env s x
  ctrl : ∀ s, S s → G.over s = false → ∀ x, x ∈ G.ctrl s ↔ A.ctrl s x
  envS : ∀ s, S s → G.over s = false → ∀ x ∈ G.env s, S x
  ctrlS : ∀ s, S s → G.over s = false → ∀ x ∈ G.ctrl s, S x
  lost : ∀ s, S s → (G.over s = true ↔ A.lost s)
  goal : ∀ s, S s → (G.goal s = true ↔ A.goal s)

variable {G : Game σ} {A : Arena σ} {S : σ → Prop}

/-- A play can be built step by step. -/
theorem exists_play (f : List σ → σ) (s : σ) (I : σ → List σ → Prop) (h0 : I s [])
    (hs : ∀ s h, I s h → ∃ t, A.Move f s h t ∧ I t (s :: h)) :
    ∃ ρ, A.Play f s ρ ∧ ∀ n, I (ρ n) (Arena.past ρ n) := by
  classical
  let nxt : {p : σ × List σ // I p.1 p.2} → {p : σ × List σ // I p.1 p.2} := fun p =>
    ⟨((hs p.1.1 p.1.2 p.2).choose, p.1.1 :: p.1.2), (hs p.1.1 p.1.2 p.2).choose_spec.2⟩
  let seq : Nat → {p : σ × List σ // I p.1 p.2} := fun n => Nat.rec ⟨(s, []), h0⟩ (fun _ p => nxt p) n
  have hseq : ∀ n, seq (n + 1) = nxt (seq n) := fun n => rfl
  have hp : ∀ n, Arena.past (fun n => (seq n).1.1) n = (seq n).1.2 := by
    intro n
    induction n with
    | zero => rfl
    | succ n ih =>
      simp only [Arena.past]
      rw [ih, hseq]
  refine ⟨fun n => (seq n).1.1, ⟨rfl, fun n => ?_⟩, fun n => ?_⟩
  · rw [hp]
    show A.Move f _ _ (seq (n + 1)).1.1
    rw [hseq]
    exact (hs (seq n).1.1 (seq n).1.2 (seq n).2).choose_spec.1
  · rw [hp]; exact (seq n).2

/-- There is always a next position. -/
theorem exists_move (f : List σ → σ) (s : σ) (h : List σ) : ∃ t, A.Move f s h t := by
  by_cases he : ∃ x, A.env s x
  · obtain ⟨x, hx⟩ := he; exact ⟨x, Or.inl hx⟩
  · by_cases hc : ∃ x, A.ctrl s x
    · exact ⟨f (s :: h), Or.inr (Or.inl ⟨hc, rfl⟩)⟩
    · exact ⟨s, Or.inr (Or.inr ⟨fun x hx => he ⟨x, hx⟩, fun x hx => hc ⟨x, hx⟩, rfl⟩)⟩

/-- The environment reaches a bad marking within `n` moves. -/
def UA (G : Game σ) : Nat → σ → Prop
  | 0, s => G.over s = true ∨ G.goal s = false
  | n + 1, s => UA G n s ∨ (∃ e ∈ G.env s, UA G n e) ∨ (G.ctrl s ≠ [] ∧ ∀ c ∈ G.ctrl s, UA G n c)

theorem UA.mono {n : Nat} : ∀ {m : Nat} {s : σ}, n ≤ m → UA G n s → UA G m s
  | 0, s, h, hu => by
    have : n = 0 := by omega
    subst this; exact hu
  | m + 1, s, h, hu => by
    by_cases hn : n = m + 1
    · subst hn; exact hu
    · exact Or.inl (UA.mono (by omega) hu)

/-- A common bound for the members of a list. -/
theorem list_bound {P : Nat → σ → Prop} (hm : ∀ n m s, n ≤ m → P n s → P m s) : ∀ (l : List σ),
    (∀ x ∈ l, ∃ n, P n x) → ∃ n, ∀ x ∈ l, P n x
  | [], _ => ⟨0, by simp⟩
  | a :: l, h => by
    obtain ⟨n, hn⟩ := h a (by simp)
    obtain ⟨m, hl⟩ := list_bound hm l (fun x hx => h x (List.mem_cons_of_mem _ hx))
    refine ⟨max n m, fun x hx => ?_⟩
    rcases List.mem_cons.1 hx with rfl | hx
    · exact hm _ _ _ (Nat.le_max_left _ _) hn
    · exact hm _ _ _ (Nat.le_max_right _ _) (hl x hx)

theorem unsafe_rank {s : σ} (h : G.Unsafe s) : ∃ n, UA G n s := by
  induction h with
  | bad s h => exact ⟨0, h⟩
  | env s e he _ ih =>
    obtain ⟨n, hn⟩ := ih
    exact ⟨n + 1, Or.inr (Or.inl ⟨e, he, hn⟩)⟩
  | ctrl s hc _ ih =>
    obtain ⟨n, hn⟩ := list_bound (P := UA G) (fun _ _ _ h => UA.mono h) _ ih
    exact ⟨n + 1, Or.inr (Or.inr ⟨hc, hn⟩)⟩

/-- The controller reaches the goal within `n` moves. -/
def RA (G : Game σ) : Nat → σ → Prop
  | 0, s => G.over s = false ∧ G.goal s = true
  | n + 1, s => RA G n s ∨ (G.over s = false ∧ (∀ e ∈ G.env s, RA G n e) ∧
      ((G.ctrl s = [] ∧ G.env s ≠ []) ∨ ∃ c ∈ G.ctrl s, RA G n c))

theorem RA.mono {n : Nat} : ∀ {m : Nat} {s : σ}, n ≤ m → RA G n s → RA G m s
  | 0, s, h, hu => by
    have : n = 0 := by omega
    subst this; exact hu
  | m + 1, s, h, hu => by
    by_cases hn : n = m + 1
    · subst hn; exact hu
    · exact Or.inl (RA.mono (by omega) hu)

theorem reaches_rank {s : σ} (h : G.Reaches s) : ∃ n, RA G n s := by
  induction h with
  | goal s ho hg => exact ⟨0, ho, hg⟩
  | env s ho _ hc hne ih =>
    obtain ⟨n, hn⟩ := list_bound (P := RA G) (fun _ _ _ h => RA.mono h) _ ih
    exact ⟨n + 1, Or.inr ⟨ho, hn, Or.inl ⟨hc, hne⟩⟩⟩
  | ctrl s c ho _ hc _ ih1 ih2 =>
    obtain ⟨n, hn⟩ := list_bound (P := RA G) (fun _ _ _ h => RA.mono h) _ ih1
    obtain ⟨m, hm⟩ := ih2
    exact ⟨max n m + 1, Or.inr ⟨ho, fun e he => RA.mono (Nat.le_max_left _ _) (hn e he),
      Or.inr ⟨c, hc, RA.mono (Nat.le_max_right _ _) hm⟩⟩⟩

theorem RA.over {n : Nat} {s : σ} (h : RA G n s) : G.over s = false := by
  induction n with
  | zero => exact h.1
  | succ n ih =>
    rcases h with h | h
    · exact ih h
    · exact h.1

/-- The last rank that is not smaller: a goal, or all moves decrease. -/
theorem RA.least {n : Nat} {s : σ} (h : RA G n s) : ∃ k, RA G k s ∧ k ≤ n ∧ ((k = 0) ∨ ∃ j, k = j + 1 ∧ ¬ RA G j s) := by
  induction n with
  | zero => exact ⟨0, h, Nat.le_refl _, Or.inl rfl⟩
  | succ n ih =>
    by_cases hn : RA G n s
    · obtain ⟨k, h1, h2, h3⟩ := ih hn
      exact ⟨k, h1, by omega, h3⟩
    · exact ⟨n + 1, h, Nat.le_refl _, Or.inr ⟨n, rfl, hn⟩⟩

/-- Two positions of the least rank agree on it. -/
theorem RA.least_unique {s : σ} {j k : Nat} (h1 : RA G j s) (h2 : ¬ RA G k s) : k < j := by
  by_cases h : j ≤ k
  · exact absurd (RA.mono h h1) h2
  · omega

section Pos
open Classical in
/-- A safe move, if there is one, otherwise any move. -/
noncomputable def safeMove (G : Game σ) (A : Arena σ) (s : σ) : σ :=
  if h : ∃ c, A.ctrl s c ∧ ¬ G.Unsafe c then h.choose
  else if h : ∃ c, A.ctrl s c then h.choose else s

theorem safeMove_valid (s : σ) (h : ∃ c, A.ctrl s c) : A.ctrl s (safeMove G A s) := by
  unfold safeMove
  split
  · rename_i h'; exact h'.choose_spec.1
  · exact h.choose_spec

open Classical in
/-- A move to a smaller rank, if there is one, otherwise any move. -/
noncomputable def leadMove (G : Game σ) (A : Arena σ) (s : σ) : σ :=
  if h : ∃ c n, A.ctrl s c ∧ RA G n c ∧ ¬ RA G n s then h.choose
  else if h : ∃ c, A.ctrl s c then h.choose else s

theorem leadMove_valid (s : σ) (h : ∃ c, A.ctrl s c) : A.ctrl s (leadMove G A s) := by
  unfold leadMove
  split
  · rename_i h'; exact h'.choose_spec.choose_spec.1
  · exact h.choose_spec
end Pos

theorem safe_strategy (hA : Agrees G A S) {s : σ} (hs : S s) (h : ¬ G.Unsafe s) :
    A.Keeps (fun l => safeMove G A (l.headD s)) s := by
  intro ρ hρ
  have inv : ∀ n, S (ρ n) ∧ ¬ G.Unsafe (ρ n) := by
    intro n
    induction n with
    | zero => rw [hρ.1]; exact ⟨hs, h⟩
    | succ n ih =>
      obtain ⟨h1, h2⟩ := ih
      have ho : G.over (ρ n) = false := by
        cases hh : G.over (ρ n) with
        | false => rfl
        | true => exact absurd (.bad _ (Or.inl hh)) h2
      rcases hρ.2 n with he | ⟨⟨c, hc⟩, he⟩ | ⟨_, _, he⟩
      · have := (hA.env _ h1 ho _).2 he
        exact ⟨hA.envS _ h1 ho _ this, fun hu => h2 (.env _ _ this hu)⟩
      · simp only [List.headD_cons] at he
        have hex : ∃ c, A.ctrl (ρ n) c ∧ ¬ G.Unsafe c := by
          by_cases hx : ∃ c, A.ctrl (ρ n) c ∧ ¬ G.Unsafe c
          · exact hx
          · exfalso
            apply h2
            refine .ctrl _ (List.ne_nil_of_mem ((hA.ctrl _ h1 ho _).2 hc)) fun c hc => ?_
            by_cases hu : G.Unsafe c
            · exact hu
            · exact absurd ⟨c, (hA.ctrl _ h1 ho _).1 hc, hu⟩ hx
        have hm : A.ctrl (ρ n) (safeMove G A (ρ n)) ∧ ¬ G.Unsafe (safeMove G A (ρ n)) := by
          unfold safeMove
          rw [dif_pos hex]; exact hex.choose_spec
        rw [he]
        exact ⟨hA.ctrlS _ h1 ho _ ((hA.ctrl _ h1 ho _).2 hm.1), hm.2⟩
      · rw [he]; exact ⟨h1, h2⟩
  intro n
  obtain ⟨h1, h2⟩ := inv n
  constructor
  · intro hl
    exact h2 (.bad _ (Or.inl ((hA.lost _ h1).2 hl)))
  · cases hg : G.goal (ρ n) with
    | true => exact (hA.goal _ h1).1 hg
    | false => exact absurd (.bad _ (Or.inr hg)) h2

theorem unsafe_no_strategy (hA : Agrees G A S) {s : σ} (hs : S s) (h : G.Unsafe s) (f : List σ → σ)
    (hf : A.Valid f) : ¬ A.Keeps f s := by
  intro hk
  obtain ⟨N, hN⟩ := unsafe_rank h
  let Bad : σ → Prop := fun x => S x ∧ (G.over x = true ∨ G.goal x = false)
  obtain ⟨ρ, hρ, hI⟩ := exists_play (A := A) f s
    (fun x h => (∃ y ∈ x :: h, Bad y) ∨ (S x ∧ ∃ n, UA G n x ∧ n + h.length ≤ N))
    (Or.inr ⟨hs, N, hN, by simp⟩) (by
      intro x h hI
      rcases hI with ⟨y, hy, hb⟩ | ⟨hx, n, hn, hle⟩
      · obtain ⟨t, ht⟩ := exists_move (A := A) f x h
        exact ⟨t, ht, Or.inl ⟨y, List.mem_cons_of_mem _ hy, hb⟩⟩
      · -- the least rank
        have hcase : Bad x ∨ ∃ j, j < n ∧ (G.over x = false) ∧
            ((∃ e ∈ G.env x, UA G j e) ∨ (G.ctrl x ≠ [] ∧ ∀ c ∈ G.ctrl x, UA G j c)) := by
          induction n with
          | zero => exact Or.inl ⟨hx, hn⟩
          | succ n ih =>
            rcases hn with hn | hn
            · rcases ih hn (by omega) with h' | ⟨j, h1, h2⟩
              · exact Or.inl h'
              · exact Or.inr ⟨j, by omega, h2⟩
            · cases ho : G.over x with
              | true => exact Or.inl ⟨hx, Or.inl ho⟩
              | false => exact Or.inr ⟨n, by omega, rfl, hn⟩
        rcases hcase with hb | ⟨j, hj, ho, ⟨e, he, hu⟩ | ⟨hc, hu⟩⟩
        · obtain ⟨t, ht⟩ := exists_move (A := A) f x h
          exact ⟨t, ht, Or.inl ⟨x, by simp, hb⟩⟩
        · exact ⟨e, Or.inl ((hA.env _ hx ho _).1 he), Or.inr ⟨hA.envS _ hx ho _ he, j, hu, by
            rw [List.length_cons]; omega⟩⟩
        · obtain ⟨c, hc⟩ := List.exists_mem_of_ne_nil _ hc
          have hex : ∃ c, A.ctrl x c := ⟨c, (hA.ctrl _ hx ho _).1 hc⟩
          have hm := (hA.ctrl _ hx ho _).2 (hf x h hex)
          exact ⟨f (x :: h), Or.inr (Or.inl ⟨hex, rfl⟩), Or.inr ⟨hA.ctrlS _ hx ho _ hm, j, hu _ hm, by
            rw [List.length_cons]; omega⟩⟩)
  have hlen : ∀ n, (Arena.past ρ n).length = n := by
    intro n
    induction n with
    | zero => rfl
    | succ n ih => simp [Arena.past, ih]
  have hmem : ∀ n, ∀ y ∈ Arena.past ρ n, ∃ i, y = ρ i := by
    intro n
    induction n with
    | zero => intro y hy; cases hy
    | succ n ih =>
      intro y hy
      rcases List.mem_cons.1 hy with h | h
      · exact ⟨n, h⟩
      · exact ih y h
  have key : ∃ i, Bad (ρ i) := by
    rcases hI N with ⟨y, hy, hb⟩ | ⟨hx, n, hn, hle⟩
    · rcases List.mem_cons.1 hy with h | h
      · exact ⟨N, h ▸ hb⟩
      · obtain ⟨i, rfl⟩ := hmem N y h
        exact ⟨i, hb⟩
    · rw [hlen] at hle
      have : n = 0 := by omega
      subst this
      exact ⟨N, hx, hn⟩
  obtain ⟨i, h1, h2⟩ := key
  obtain ⟨h3, h4⟩ := hk ρ hρ i
  rcases h2 with h2 | h2
  · exact h3 ((hA.lost _ h1).1 h2)
  · rw [(hA.goal _ h1).2 h4] at h2; cases h2

theorem reach_strategy (hA : Agrees G A S) {s : σ} (hs : S s) (h : G.Reaches s) :
    A.Leads (fun l => leadMove G A (l.headD s)) s := by
  intro ρ hρ
  have main : ∀ N n, S (ρ n) → RA G N (ρ n) → (∀ i < n, ¬ A.lost (ρ i)) →
      ∃ n, A.goal (ρ n) ∧ ∀ i ≤ n, ¬ A.lost (ρ i) := by
    intro N
    induction N using Nat.strongRecOn with
    | _ N ih =>
      intro n hS hr hl
      have ho := hr.over
      have hl' : ∀ i < n + 1, ¬ A.lost (ρ i) := by
        intro i hi
        by_cases hin : i = n
        · subst hin
          intro hlost
          rw [(hA.lost _ hS).2 hlost] at ho; cases ho
        · exact hl i (by omega)
      obtain ⟨k, hk, hkN, hk0 | ⟨j, rfl, hj⟩⟩ := hr.least
      · subst hk0
        exact ⟨n, (hA.goal _ hS).1 hk.2, fun i hi => hl' i (by omega)⟩
      · rcases hk with hk | ⟨_, he, hc⟩
        · exact absurd hk hj
        · rcases hρ.2 n with hm | ⟨⟨c, hcc⟩, hm⟩ | ⟨h1, h2, hm⟩
          · have := (hA.env _ hS ho _).2 hm
            exact ih j (by omega) (n + 1) (hA.envS _ hS ho _ this) (he _ this) hl'
          · simp only [List.headD_cons] at hm
            have hc' : ∃ c ∈ G.ctrl (ρ n), RA G j c := by
              rcases hc with ⟨h, _⟩ | h
              · have := (hA.ctrl _ hS ho _).2 hcc
                rw [h] at this; cases this
              · exact h
            obtain ⟨d, hd, hdr⟩ := hc'
            have hex : ∃ c n', A.ctrl (ρ n) c ∧ RA G n' c ∧ ¬ RA G n' (ρ n) :=
              ⟨d, j, (hA.ctrl _ hS ho _).1 hd, hdr, hj⟩
            have hlm : ∃ n', A.ctrl (ρ n) (leadMove G A (ρ n)) ∧ RA G n' (leadMove G A (ρ n)) ∧ ¬ RA G n' (ρ n) := by
              unfold leadMove
              rw [dif_pos hex]; exact hex.choose_spec
            obtain ⟨n', h1, h2, h3⟩ := hlm
            rw [← hm] at h1 h2
            have : n' < N := by
              have := RA.least_unique hr h3
              exact this
            exact ih n' this (n + 1) (hA.ctrlS _ hS ho _ ((hA.ctrl _ hS ho _).2 h1)) h2 hl'
          · exfalso
            rcases hc with ⟨_, hne⟩ | ⟨c, hc, _⟩
            · obtain ⟨e, he⟩ := List.exists_mem_of_ne_nil _ hne
              exact h1 e ((hA.env _ hS ho _).1 he)
            · exact h2 c ((hA.ctrl _ hS ho _).1 hc)
  obtain ⟨N, hN⟩ := reaches_rank h
  exact main N 0 (by rw [hρ.1]; exact hs) (by rw [hρ.1]; exact hN) (fun i hi => by omega)

theorem not_reaches_no_strategy (hA : Agrees G A S) {s : σ} (hs : S s) (h : ¬ G.Reaches s) (f : List σ → σ)
    (hf : A.Valid f) : ¬ A.Leads f s := by
  intro hk
  obtain ⟨ρ, hρ, hI⟩ := exists_play (A := A) f s
    (fun x h => (∃ y ∈ h, S y ∧ G.over y = true) ∨ (S x ∧ ¬ G.Reaches x))
    (Or.inr ⟨hs, h⟩) (by
      intro x h hI
      rcases hI with ⟨y, hy, hb⟩ | ⟨hx, hn⟩
      · obtain ⟨t, ht⟩ := exists_move (A := A) f x h
        exact ⟨t, ht, Or.inl ⟨y, List.mem_cons_of_mem _ hy, hb⟩⟩
      · cases ho : G.over x with
        | true =>
          obtain ⟨t, ht⟩ := exists_move (A := A) f x h
          exact ⟨t, ht, Or.inl ⟨x, by simp, hx, ho⟩⟩
        | false =>
          by_cases he : ∃ e ∈ G.env x, ¬ G.Reaches e
          · obtain ⟨e, he, hne⟩ := he
            exact ⟨e, Or.inl ((hA.env _ hx ho _).1 he), Or.inr ⟨hA.envS _ hx ho _ he, hne⟩⟩
          · have he' : ∀ e ∈ G.env x, G.Reaches e := fun e hm => by
              by_cases hr : G.Reaches e
              · exact hr
              · exact absurd ⟨e, hm, hr⟩ he
            by_cases hc : G.ctrl x = []
            · have hee : G.env x = [] := by
                by_cases hee : G.env x = []
                · exact hee
                · exact absurd (.env x ho he' hc hee) hn
              refine ⟨x, Or.inr (Or.inr ⟨fun y hy => ?_, fun y hy => ?_, rfl⟩), Or.inr ⟨hx, hn⟩⟩
              · have := (hA.env _ hx ho _).2 hy
                rw [hee] at this; cases this
              · have := (hA.ctrl _ hx ho _).2 hy
                rw [hc] at this; cases this
            · obtain ⟨c, hcm⟩ := List.exists_mem_of_ne_nil _ hc
              have hex : ∃ c, A.ctrl x c := ⟨c, (hA.ctrl _ hx ho _).1 hcm⟩
              have hm := (hA.ctrl _ hx ho _).2 (hf x h hex)
              exact ⟨f (x :: h), Or.inr (Or.inl ⟨hex, rfl⟩), Or.inr ⟨hA.ctrlS _ hx ho _ hm,
                fun hr => hn (.ctrl x _ ho he' hm hr)⟩⟩)
  obtain ⟨n, hg, hl⟩ := hk ρ hρ
  have hmem : ∀ n, ∀ y ∈ Arena.past ρ n, ∃ i, i < n ∧ y = ρ i := by
    intro n
    induction n with
    | zero => intro y hy; cases hy
    | succ n ih =>
      intro y hy
      rcases List.mem_cons.1 hy with h | h
      · exact ⟨n, by omega, h⟩
      · obtain ⟨i, hi, h⟩ := ih y h
        exact ⟨i, by omega, h⟩
  rcases hI n with ⟨y, hy, hS, ho⟩ | ⟨hS, hn⟩
  · obtain ⟨i, hi, rfl⟩ := hmem n y hy
    exact hl i (by omega) ((hA.lost _ hS).1 ho)
  · refine hn (.goal _ ?_ ((hA.goal _ hS).2 hg))
    cases ho : G.over (ρ n) with
    | false => rfl
    | true => exact absurd ((hA.lost _ hS).1 ho) (hl n (Nat.le_refl _))

/-- The fixed points describe exactly the positions with a winning strategy, and strategies without memory
suffice. -/
theorem wins_iff (hA : Agrees G A S) {s : σ} (hs : S s) :
    (G.Wins s ↔ A.Winning G.safety s) ∧ (G.Wins s ↔ A.WinningPos G.safety s) := by
  have fwd : G.Wins s → A.WinningPos G.safety s := by
    intro h
    unfold Game.Wins at h
    cases hsafe : G.safety with
    | true =>
      rw [hsafe] at h
      exact ⟨safeMove G A, fun x _ hx => safeMove_valid x hx, safe_strategy hA hs h⟩
    | false =>
      rw [hsafe] at h
      exact ⟨leadMove G A, fun x _ hx => leadMove_valid x hx, reach_strategy hA hs h⟩
  have bwd : A.Winning G.safety s → G.Wins s := by
    rintro ⟨f, hf, h⟩
    unfold Game.Wins
    cases hsafe : G.safety with
    | true =>
      rw [hsafe] at h
      simp only [if_true] at h ⊢
      exact fun hu => unsafe_no_strategy hA hs hu f hf h
    | false =>
      rw [hsafe] at h
      simp only [Bool.false_eq_true, if_false] at h ⊢
      by_cases hr : G.Reaches s
      · exact hr
      · exact absurd h (not_reaches_no_strategy hA hs hr f hf)
  have mid : A.WinningPos G.safety s → A.Winning G.safety s := by
    rintro ⟨g, hg, h⟩
    exact ⟨_, hg, h⟩
  exact ⟨⟨fun h => mid (fwd h), bwd⟩, ⟨fwd, fun h => bwd (mid h)⟩⟩

end Synth
end Verif
