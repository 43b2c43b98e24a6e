import Verif.LTL.NdfsInv

/-!
# The nested depth-first search is correct and terminates
-/

set_option linter.unusedSectionVars false

namespace Verif
namespace LTL
namespace Ndfs
open Relation
variable {V : Type} [DecidableEq V] {G : PGraph V} {E : V → V → Prop} {I : V → Prop} {s : St V} {weak : Bool}

theorem Inv.congr {t : Nat} (h : Inv G E I s) : Inv G E I { s with time := t } := by
  have hmode := h.mode
  refine ⟨h.1, h.2, h.3, h.4, h.5, h.6, h.7, h.8, h.9, h.10, h.11, h.12, ?_⟩
  show match s.nest with | none => _ | some (seed, ns) => _
  revert hmode
  cases s.nest with
  | none => intro hm; exact ⟨hm.1, hm.2⟩
  | some x => intro hm; exact ⟨hm.1, hm.2, hm.3, hm.4, hm.5, hm.6⟩

theorem step_cases (hv : s.viol = false) :
    (∃ seed u w ws ns, s.nest = some (seed, (u, w :: ws) :: ns) ∧
      step G weak s = some { visit2 G s seed u w ws ns with time := s.time + 1 }) ∨
    (∃ seed u ns, s.nest = some (seed, (u, []) :: ns) ∧
      step G weak s = some { s with nest := some (seed, ns), time := s.time + 1 }) ∨
    (∃ seed, s.nest = some (seed, []) ∧
      step G weak s = some { s with nest := none, todo := s.todo.tail, time := s.time + 1 }) ∨
    (∃ v w ws td, s.nest = none ∧ s.todo = (v, w :: ws) :: td ∧
      step G weak s = some { visit1 G weak s v w ws td with time := s.time + 1 }) ∨
    (∃ v td, s.nest = none ∧ s.todo = (v, []) :: td ∧
      step G weak s = some { finish1 G s v td with time := s.time + 1 }) ∨
    (∃ v vs, s.nest = none ∧ s.todo = [] ∧ s.inits = v :: vs ∧
      step G weak s = some { start G { s with inits := vs } v with time := s.time + 1 }) ∨
    (s.nest = none ∧ s.todo = [] ∧ s.inits = [] ∧ step G weak s = none) := by
  unfold step
  rw [if_neg (by simp [hv])]
  split
  · rename_i seed u w ws ns h0; exact Or.inl ⟨seed, u, w, ws, ns, h0, rfl⟩
  · rename_i seed u ns h0; exact Or.inr (Or.inl ⟨seed, u, ns, h0, rfl⟩)
  · rename_i seed h0; exact Or.inr (Or.inr (Or.inl ⟨seed, h0, rfl⟩))
  · rename_i h0
    split
    · rename_i v w ws td h1; exact Or.inr (Or.inr (Or.inr (Or.inl ⟨v, w, ws, td, h0, h1, rfl⟩)))
    · rename_i v td h1; exact Or.inr (Or.inr (Or.inr (Or.inr (Or.inl ⟨v, td, h0, h1, rfl⟩))))
    · rename_i h1
      split
      · rename_i v vs h2; exact Or.inr (Or.inr (Or.inr (Or.inr (Or.inr (Or.inl ⟨v, vs, h0, h1, h2, rfl⟩)))))
      · rename_i h2; exact Or.inr (Or.inr (Or.inr (Or.inr (Or.inr (Or.inr ⟨h0, h1, h2, rfl⟩)))))

theorem Inv.dropInit (h : Inv G E I s) {v : V} {vs : List V} (hi : s.inits = v :: vs)
    (hv : G.bnd v = true → v ∈ s.seen) : Inv G E I { s with inits := vs } := by
  have hmode := h.mode
  refine ⟨h.1, h.2, h.3, h.4, h.5, h.6, h.7, h.8, h.9, h.10,
    fun x hx => h.initI x (by rw [hi]; exact List.mem_cons_of_mem _ hx), ?_, ?_⟩
  · intro x hx hb
    rcases h.initDone x hx hb with h0 | h0
    · rw [hi] at h0
      rcases List.mem_cons.1 h0 with rfl | h0
      · exact Or.inr (hv hb)
      · exact Or.inl h0
    · exact Or.inr h0
  · show match s.nest with | none => _ | some (seed, ns) => _
    revert hmode
    cases s.nest with
    | none => intro hm; exact ⟨hm.1, hm.2⟩
    | some x => intro hm; exact ⟨hm.1, hm.2, hm.3, hm.4, hm.5, hm.6⟩

theorem Inv.startOK (h : Inv G E I s) (hE : G.Edges E) (hn : s.nest = none) (ht : s.todo = []) {v : V} {vs : List V}
    (hi : s.inits = v :: vs) : Inv G E I (start G { s with inits := vs } v) := by
  unfold start
  cases hc : (G.bnd v && !s.seen.contains v) with
  | false =>
    simp only [Bool.false_eq_true, if_false]
    refine h.dropInit hi (fun hb => ?_)
    rw [hb] at hc
    simpa using hc
  | true =>
    simp only [if_true]
    simp only [Bool.and_eq_true, Bool.not_eq_true'] at hc
    have hv : I v := h.initI v (by rw [hi]; exact List.mem_cons_self ..)
    have hmode := h.mode
    rw [hn] at hmode
    have hbl : ∀ d, Black s d ↔ d ∈ s.m1 := fun d => ⟨fun hd => hd.1, fun hd => ⟨hd, by rw [ht]; simp [grey]⟩⟩
    have : Inv G E I { s with todo := [(v, G.succ s.time v)], seen := v :: s.seen } := by
      refine ⟨h.viol, trivial, ?_, ?_, ?_, ?_, ?_, ?_, ?_, ?_, h.initI,
        fun x hx hbx => (h.initDone x hx hbx).imp id (List.mem_cons_of_mem _), ?_⟩
      · intro x hx
        simp at hx; subst hx
        exact ⟨v, hv, hc.1, .refl⟩
      · intro g hg; simp [grey] at hg
      · simp [grey]
      · exact fun d w hd => h.closed d w ((hbl d).2 hd.1)
      · intro u rem w hu hB hw
        simp at hu
        obtain ⟨rfl, rfl⟩ := hu
        exact absurd ((hE.succ _ u w).2 hB.1) hw
      · intro u rem w hu hw
        simp at hu
        obtain ⟨rfl, rfl⟩ := hu
        exact (hE.succ _ u w).1 hw
      · exact fun d hd => h.m1acc d ((hbl d).2 hd.1)
      · intro x hx
        rcases List.mem_cons.1 hx with rfl | hx
        · exact Or.inr (Or.inr (Or.inr ⟨_, rfl⟩))
        · rcases h.seenOK x hx with h1 | h1 | h1 | ⟨rem, h1⟩
          · exact Or.inl h1
          · exact Or.inr (Or.inl h1)
          · exact Or.inr (Or.inr (Or.inl h1))
          · rw [ht] at h1; cases h1
      · show match s.nest with | none => _ | some (seed, ns) => _
        rw [hn]
        exact ⟨fun u hu => ⟨(hmode.sub u hu).1, by simp [grey]⟩, hmode.closed⟩
    exact this.dropInit hi (fun _ => List.mem_cons_self ..)

theorem contains_false {l : List V} {w : V} (h : l.contains w = false) : w ∉ l := by
  intro hh
  have : l.contains w = true := by simpa using hh
  rw [this] at h; cases h

theorem step_inv (h : Inv G E I s) (hE : G.Edges E) {s' : St V} (hs : step G weak s = some s') :
    Inv G E I s' ∨ (s'.viol = true ∧ G.Lasso E I) := by
  rcases step_cases (G := G) (weak := weak) h.viol with ⟨seed, u, w, ws, ns, hn, h0⟩ | ⟨seed, u, ns, hn, h0⟩ |
    ⟨seed, hn, h0⟩ | ⟨v, w, ws, td, hn, ht, h0⟩ | ⟨v, td, hn, ht, h0⟩ | ⟨v, vs, hn, ht, hi, h0⟩ | ⟨_, _, _, h0⟩
  · rw [h0] at hs; cases hs
    have hmode := h.mode
    rw [hn] at hmode
    unfold visit2
    by_cases hw : w = seed
    · right
      rw [if_pos hw]
      refine ⟨rfl, ?_⟩
      obtain ⟨td, ht, _⟩ := hmode.top
      obtain ⟨i, h1, h2, h3⟩ := h.reach (seed, []) (by rw [ht]; exact List.mem_cons_self ..)
      have hEu := hmode.remE u _ w (List.mem_cons_self ..) (List.mem_cons_self ..)
      have hru := hmode.reach u _ (List.mem_cons_self ..)
      have hbs : G.bnd seed = true := by
        rcases h3.cases_tail with h4 | ⟨x, _, h4⟩
        · have h4' : seed = i := h4
          rw [h4']; exact h2
        · exact h4.2
      exact ⟨i, seed, h1, h2, h3, hmode.acc, Or.inl (TransGen.tail' hru ⟨by rw [← hw]; exact hEu, hbs⟩)⟩
    · rw [if_neg hw]
      left
      cases hb : G.bnd w with
      | false =>
        simp only [Bool.false_eq_true, if_false]
        exact (h.nestSkip hn (by simp [hb]) s.seen (fun x hx => Or.inl hx) (fun x hx => hx)).congr
      | true =>
        simp only [if_true]
        cases hc : s.m2.contains w with
        | true =>
          simp only [if_true]
          have hm : w ∈ s.m2 := by simpa using hc
          refine (h.nestSkip hn (fun _ => hm) (w :: s.seen) (fun x hx => ?_)
            (fun x hx => List.mem_cons_of_mem _ hx)).congr
          rcases List.mem_cons.1 hx with rfl | hx
          · exact Or.inr hm
          · exact Or.inl hx
        | false =>
          simp only [Bool.false_eq_true, if_false]
          exact (h.nestPush hE hn hb hw s.time).congr
  · rw [h0] at hs; cases hs
    exact Or.inl (h.nestPop hn).congr
  · rw [h0] at hs; cases hs
    exact Or.inl (h.nestEnd hn).congr
  · rw [h0] at hs; cases hs
    unfold visit1
    cases hb : G.bnd w with
    | false =>
      simp only [Bool.false_eq_true, if_false]
      exact Or.inl (h.skip1 hn ht (by simp [hb]) s.seen (fun x hx => Or.inl hx) (fun x hx => hx)).congr
    | true =>
      simp only [if_true]
      cases hc : s.m1.contains w with
      | true =>
        simp only [if_true]
        have hm : w ∈ s.m1 := by simpa using hc
        refine Or.inl (h.skip1 hn ht (fun _ => hm) (w :: s.seen) (fun x hx => ?_)
          (fun x hx => List.mem_cons_of_mem _ hx)).congr
        rcases List.mem_cons.1 hx with rfl | hx
        · exact Or.inr hm
        · exact Or.inl hx
      | false =>
        simp only [Bool.false_eq_true, if_false]
        cases hwk : (weak && G.acc v && G.inv v) with
        | true =>
          right
          simp only [if_true, true_and]
          simp only [Bool.and_eq_true] at hwk
          obtain ⟨i, h1, h2, h3⟩ := h.reach (v, w :: ws) (by rw [ht]; exact List.mem_cons_self ..)
          exact ⟨i, v, h1, h2, h3, hwk.1.2, Or.inr hwk.2⟩
        | false =>
          simp only [Bool.false_eq_true, if_false]
          exact Or.inl (h.push1 hE hn ht hb (contains_false hc) s.time).congr
  · rw [h0] at hs; cases hs
    unfold finish1
    cases ha : G.acc v with
    | true =>
      simp only [if_true]
      cases hi : G.inv v with
      | true =>
        right
        simp only [if_true, true_and]
        obtain ⟨i, h1, h2, h3⟩ := h.reach (v, []) (by rw [ht]; exact List.mem_cons_self ..)
        exact ⟨i, v, h1, h2, h3, ha, Or.inr hi⟩
      | false =>
        simp only [Bool.false_eq_true, if_false]
        exact Or.inl (h.nestStart hE hn ht ha s.time).congr
    | false =>
      simp only [Bool.false_eq_true, if_false]
      have hmode := h.mode
      rw [hn] at hmode
      have := (h.pop1 ht (by simp [ha]) hmode.sub hmode.closed).congr (t := s.time + 1)
      rw [← hn] at this
      exact Or.inl this
  · rw [h0] at hs; cases hs
    exact Or.inl (h.startOK hE hn ht hi).congr
  · rw [h0] at hs; cases hs

theorem run_inv (hE : G.Edges E) : ∀ (n : Nat) (s s' : St V), Inv G E I s → run G weak n s = (s', true) →
    (Inv G E I s' ∧ step G weak s' = none) ∨ (s'.viol = true ∧ G.Lasso E I) := by
  intro n
  induction n with
  | zero =>
    intro s s' h hr
    simp only [run, Prod.mk.injEq, Option.isNone_iff_eq_none] at hr
    obtain ⟨rfl, h2⟩ := hr
    exact Or.inl ⟨h, h2⟩
  | succ n ih =>
    intro s s' h hr
    unfold run at hr
    cases hs : step G weak s with
    | none =>
      rw [hs] at hr
      simp only [Prod.mk.injEq, and_true] at hr
      subst hr
      exact Or.inl ⟨h, hs⟩
    | some t =>
      rw [hs] at hr
      simp only at hr
      rcases step_inv h hE hs with h0 | ⟨hv, hl⟩
      · exact ih t s' h0 hr
      · have hst : step G weak t = none := by simp [step, hv]
        have : run G weak n t = (t, true) := by cases n <;> simp [run, hst]
        rw [this] at hr
        cases hr
        exact Or.inr ⟨hv, hl⟩

theorem init_inv (inits : List V) : Inv G E (· ∈ inits) { inits := inits } := by
  refine ⟨rfl, trivial, ?_, ?_, ?_, ?_, ?_, ?_, ?_, ?_, ?_, ?_, ⟨?_, ?_⟩⟩ <;> simp_all [grey, Black]

/-- The answer "violated" is right. -/
theorem check_sound (hE : G.Edges E) {inits : List V} {fuel : Nat} (h : check G weak inits fuel = some false) :
    G.Lasso E (· ∈ inits) := by
  unfold check at h
  cases hr : run G weak fuel { inits := inits } with
  | mk s b =>
    rw [hr] at h
    cases b with
    | false => cases h
    | true =>
      simp only [Option.some.injEq, Bool.not_eq_false'] at h
      rcases run_inv hE fuel _ s (init_inv inits) hr with ⟨h0, _⟩ | ⟨_, h0⟩
      · rw [h0.viol] at h; cases h
      · exact h0

/-- The answer "satisfied" is right. -/
theorem check_complete (hE : G.Edges E) {inits : List V} {fuel : Nat} (h : check G weak inits fuel = some true)
    {i a : V} (hi : i ∈ inits) (hb : G.bnd i = true) (hr : ReflTransGen (G.B E) i a) (ha : G.acc a = true) :
    ¬ TransGen (G.B E) a a := by
  unfold check at h
  cases hrun : run G weak fuel { inits := inits } with
  | mk s b =>
    rw [hrun] at h
    cases b with
    | false => cases h
    | true =>
      simp only [Option.some.injEq, Bool.not_eq_true'] at h
      rcases run_inv hE fuel _ s (init_inv inits) hrun with ⟨h0, hst⟩ | ⟨h1, _⟩
      · rcases step_cases (G := G) (weak := weak) h with ⟨_, _, _, _, _, _, h1⟩ | ⟨_, _, _, _, h1⟩ |
          ⟨_, _, h1⟩ | ⟨_, _, _, _, _, _, h1⟩ | ⟨_, _, _, _, h1⟩ | ⟨_, _, _, _, _, h1⟩ | ⟨hn, htd, hin, _⟩
        all_goals first | (rw [hst] at h1; cases h1) | skip
        have hmode := h0.mode
        rw [hn] at hmode
        have hbl : ∀ d ∈ s.m1, Black s d := fun d hd => ⟨hd, by rw [htd]; simp [grey]⟩
        have key : ∀ v, ReflTransGen (G.B E) i v → v ∈ s.m1 ∨ Fin G E s v := by
          intro v hv
          induction hv with
          | refl =>
            rcases h0.initDone i hi hb with h2 | h2
            · rw [hin] at h2; cases h2
            · rcases h0.seenOK i h2 with h3 | h3 | h3 | ⟨rem, h3⟩
              · exact Or.inl h3
              · exact Or.inl (hmode.sub i h3).1
              · exact Or.inr h3
              · rw [htd] at h3; cases h3
          | tail _ hB ih =>
            rcases ih with h3 | h3
            · exact Or.inl (h0.closed _ _ (hbl _ h3) hB)
            · exact Or.inl (h3.1 _ hB)
        rcases key a hr with h3 | h3
        · exact h0.m1acc a (hbl a h3) ha
        · exact h3.2 ha
      · rw [h] at h1; cases h1

/-! ## Termination -/

/-- How many states of `R` are not in a list. -/
def left (R m : List V) : Nat := (R.filter (fun v => !m.contains v)).length

theorem left_lt {R m : List V} {w : V} (hR : w ∈ R) (hw : w ∉ m) : left R (w :: m) < left R m := by
  have hle : ∀ R : List V, left R (w :: m) ≤ left R m := by
    intro R
    induction R with
    | nil => simp [left]
    | cons v R ih =>
      unfold left at ih ⊢
      simp only [List.filter_cons]
      by_cases h1 : v ∈ m
      · simpa [h1] using ih
      · by_cases h2 : v = w
        · subst h2; simp [h1] at ih ⊢; omega
        · simp [h1, h2] at ih ⊢; omega
  induction R with
  | nil => cases hR
  | cons v R ih =>
    have := hle R
    unfold left at this ih ⊢
    simp only [List.filter_cons]
    by_cases h2 : v = w
    · subst h2
      simp [hw] at this ⊢; omega
    · rcases List.mem_cons.1 hR with h0 | h0
      · exact absurd h0.symm h2
      · have := ih h0
        by_cases h1 : v ∈ m
        · simpa [h1] using this
        · simp [h1, h2] at this ⊢; omega

/-- Work left on the outer stack. -/
def work (D : Nat) : List (V × List V) → Nat
  | [] => 0
  | (_, rem) :: td => rem.length + (D + 5) + work D td

/-- Work left on the nested stack. -/
def work2 : List (V × List V) → Nat
  | [] => 0
  | (_, rem) :: ns => rem.length + 1 + work2 ns

/-- The measure. -/
def mu (R : List V) (D : Nat) (s : St V) : Nat :=
  left R s.m1 * (2 * D + 6) + left R s.m2 * (D + 2) + s.inits.length * (2 * D + 6) +
    match s.nest with
    | none => work D s.todo
    | some (_, ns) => work D s.todo - (D + 4) + work2 ns

theorem step_mu (h : Inv G E I s) {R : List V} {D : Nat}
    (hD : ∀ n v, (G.succ n v).length ≤ D)
    (hR : ∀ i v, I i → G.bnd i = true → ReflTransGen (G.B E) i v → v ∈ R) {s' : St V} (hs : step G weak s = some s')
    (hv : s'.viol = false) : mu R D s' < mu R D s := by
  rcases step_cases (G := G) (weak := weak) h.viol with ⟨seed, u, w, ws, ns, hn, h0⟩ | ⟨seed, u, ns, hn, h0⟩ |
    ⟨seed, hn, h0⟩ | ⟨v, w, ws, td, hn, ht, h0⟩ | ⟨v, td, hn, ht, h0⟩ | ⟨v, vs, hn, ht, hi, h0⟩ | ⟨_, _, _, h0⟩
  · rw [h0] at hs; cases hs
    have hmode := h.mode
    rw [hn] at hmode
    obtain ⟨td, ht, _⟩ := hmode.top
    revert hv
    unfold visit2
    by_cases hw : w = seed
    · rw [if_pos hw]; intro hv; cases hv
    · rw [if_neg hw]
      intro _
      cases hb : G.bnd w with
      | false =>
        simp only [Bool.false_eq_true, if_false, mu, hn, ht, work, work2, List.length_cons, List.length_nil]; omega
      | true =>
        simp only [if_true]
        cases hc : s.m2.contains w with
        | true =>
          simp only [if_true, mu, hn, ht, work, work2, List.length_cons, List.length_nil]; omega
        | false =>
          obtain ⟨i, h1, h2, h3⟩ := h.reach (seed, []) (by rw [ht]; exact List.mem_cons_self ..)
          have hEu := hmode.remE u _ w (List.mem_cons_self ..) (List.mem_cons_self ..)
          have hru := hmode.reach u _ (List.mem_cons_self ..)
          have hlt := left_lt (hR i w h1 h2 ((h3.trans hru).tail ⟨hEu, hb⟩)) (contains_false hc)
          have hlt' := Nat.mul_le_mul_right (D + 2) hlt
          rw [Nat.succ_mul] at hlt'
          have := hD s.time w
          simp only [Bool.false_eq_true, if_false, mu, hn, ht, work, work2, List.length_cons, List.length_nil]; omega
  · rw [h0] at hs; cases hs
    have hmode := h.mode
    rw [hn] at hmode
    obtain ⟨td, ht, _⟩ := hmode.top
    simp only [mu, hn, ht, work, work2, List.length_nil]; omega
  · rw [h0] at hs; cases hs
    have hmode := h.mode
    rw [hn] at hmode
    obtain ⟨td, ht, _⟩ := hmode.top
    simp only [mu, hn, ht, work, work2, List.length_nil, List.tail_cons]; omega
  · rw [h0] at hs; cases hs
    unfold visit1
    cases hb : G.bnd w with
    | false =>
      simp only [Bool.false_eq_true, if_false, mu, hn, ht, work, List.length_cons]; omega
    | true =>
      simp only [if_true]
      cases hc : s.m1.contains w with
      | true => simp only [if_true, mu, hn, ht, work, List.length_cons]; omega
      | false =>
        obtain ⟨i, h1, h2, h3⟩ := h.reach (v, w :: ws) (by rw [ht]; exact List.mem_cons_self ..)
        have hEu := h.remE v _ w (by rw [ht]; exact List.mem_cons_self ..) (List.mem_cons_self ..)
        have hlt := left_lt (hR i w h1 h2 (h3.tail ⟨hEu, hb⟩)) (contains_false hc)
        have hlt' := Nat.mul_le_mul_right (2 * D + 6) hlt
        rw [Nat.succ_mul] at hlt'
        have := hD s.time w
        simp only [Bool.false_eq_true, if_false]
        cases hwk : (weak && G.acc v && G.inv v) with
        | true => simp only [if_true, mu, hn, ht, work, List.length_cons]; omega
        | false => simp only [Bool.false_eq_true, if_false, mu, hn, ht, work, List.length_cons]; omega
  · rw [h0] at hs; cases hs
    revert hv
    unfold finish1
    cases ha : G.acc v with
    | true =>
      simp only [if_true]
      cases hi : G.inv v with
      | true => simp only [if_true]; intro hv; cases hv
      | false =>
        intro _
        have := hD s.time v
        simp only [Bool.false_eq_true, if_false, mu, hn, ht, work, work2, List.length_nil]; omega
    | false =>
      intro _
      simp only [Bool.false_eq_true, if_false, mu, hn, ht, work, List.length_nil]; omega
  · rw [h0] at hs; cases hs
    unfold start
    have := hD s.time v
    cases hc : (G.bnd v && !s.seen.contains v) with
    | false =>
      simp only [Bool.false_eq_true, if_false, mu, hn, ht, hi, work, List.length_cons, Nat.succ_mul]; omega
    | true =>
      simp only [if_true, mu, hn, ht, hi, work, List.length_cons, Nat.succ_mul]; omega
  · rw [h0] at hs; cases hs

theorem run_total (hE : G.Edges E) {R : List V} {D : Nat} (hD : ∀ n v, (G.succ n v).length ≤ D)
    (hR : ∀ i v, I i → G.bnd i = true → ReflTransGen (G.B E) i v → v ∈ R) :
    ∀ (n : Nat) (s : St V), Inv G E I s → mu R D s < n → (run G weak n s).2 = true := by
  intro n
  induction n with
  | zero => intro s h hm; omega
  | succ n ih =>
    intro s h hm
    unfold run
    cases hs : step G weak s with
    | none => rfl
    | some t =>
      simp only
      cases hv : t.viol with
      | true =>
        have hst : step G weak t = none := by simp [step, hv]
        cases n <;> simp [run, hst]
      | false =>
        have hlt := step_mu h hD hR hs hv
        rcases step_inv h hE hs with h0 | ⟨hv', _⟩
        · exact ih t h0 (by omega)
        · rw [hv] at hv'; cases hv'

/-- With finitely many reachable states, the search ends. -/
theorem check_total (hE : G.Edges E) {inits R : List V} {D : Nat} (hD : ∀ n v, (G.succ n v).length ≤ D)
    (hR : ∀ i v, i ∈ inits → G.bnd i = true → ReflTransGen (G.B E) i v → v ∈ R) :
    ∃ fuel, ∀ n, fuel ≤ n → (check G weak inits n).isSome = true := by
  refine ⟨mu R D { inits := inits } + 1, fun n hn => ?_⟩
  have := run_total (weak := weak) (I := (· ∈ inits)) hE hD hR n { inits := inits } (init_inv inits) (by omega)
  unfold check
  cases hr : run G weak n { inits := inits } with
  | mk s b =>
    rw [hr] at this
    simp only at this
    subst this
    rfl

end Ndfs
end LTL
end Verif
