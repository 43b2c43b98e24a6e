import Mathlib.Data.List.Chain
import Verif.LTL.NdfsMain

/-!
# The counterexample printed by the nested depth-first search
-/

set_option linter.unusedSectionVars false

namespace Verif
namespace LTL
namespace Ndfs
open Relation
variable {V : Type} [DecidableEq V] {G : PGraph V} {E : V → V → Prop} {I : V → Prop} {s : St V} {weak : Bool}

/-- models src/LTL/Algorithm/NestedDepthFirstSearch.cpp:223-263 (`build_trace`): the states whose outgoing transitions
are printed, in order, and the position of the loop mark.  (The program stores the transitions; the entry for a state
is the transition taken from it.) -/
def trace (s : St V) : List V × Option Nat :=
  let td := (s.todo.tail.map (·.1)).reverse
  match s.nest with
  | some (_, (u, _) :: ns) =>
    let l := td ++ (ns.map (·.1)).reverse
    (l, if l.contains u then some (l.idxOf u) else none)
  | _ => (td, none)

/-- models src/LTL/Algorithm/NestedDepthFirstSearch.cpp:50-72 with `_build_trace`: the counterexample, if the search
ends within `fuel` rounds with a violation -/
def counterexample (G : PGraph V) (weak : Bool) (inits : List V) (fuel : Nat) : Option (List V × Option Nat) :=
  match run G weak fuel { inits := inits } with
  | (s, true) => if s.viol then some (trace s) else none
  | (_, false) => none

/-- What is needed of the stacks for the trace. -/
structure TInv (G : PGraph V) (E : V → V → Prop) (I : V → Prop) (s : St V) : Prop where
  path : Path G E s.todo
  last : ∀ x, s.todo.getLast? = some x → I x.1 ∧ G.bnd x.1 = true
  npath : ∀ seed ns, s.nest = some (seed, ns) → Path G E ns ∧ (∃ r td, s.todo = (seed, r) :: td) ∧
    (∀ x, ns.getLast? = some x → x.1 = seed) ∧ G.acc seed = true ∧
    (ns.map (·.1)).Nodup ∧ ∀ x ∈ ns.map (·.1), x = seed ∨ x ∈ s.m2
  bad : s.viol = true → match s.nest with
    | none => ∃ v r td, s.todo = (v, r) :: td ∧ G.acc v = true ∧ G.inv v = true
    | some (seed, ns) => ∃ u r ns', ns = (u, r) :: ns' ∧ E u seed

theorem last_head' {v : V} {r r' : List V} {td : List (V × List V)} {P : V → Prop}
    (h : ∀ x, ((v, r) :: td).getLast? = some x → P x.1) : ∀ x, ((v, r') :: td).getLast? = some x → P x.1 := by
  cases td with
  | nil => intro x hx; simp at hx; subst hx; exact h (v, r) rfl
  | cons y td => intro x hx; exact h x (by rw [List.getLast?_cons_cons] at hx ⊢; exact hx)

theorem last_tail {y : V × List V} {td : List (V × List V)} {P : V → Prop}
    (h : ∀ x, (y :: td).getLast? = some x → P x.1) : ∀ x, td.getLast? = some x → P x.1 := by
  cases td with
  | nil => intro x hx; simp at hx
  | cons z td => intro x hx; exact h x (by rw [List.getLast?_cons_cons]; exact hx)

theorem noNest {P : Prop} {a : V} {b : List (V × List V)} (hn : s.nest = none) (h : s.nest = some (a, b)) : P := by
  rw [hn] at h; cases h

theorem TInv.step (ht : TInv G E I s) (h : Inv G E I s) {s' : St V} (hs : step G weak s = some s') :
    TInv G E I s' := by
  rcases step_cases (G := G) (weak := weak) h.viol with ⟨seed, u, w, ws, ns, hn, h0⟩ | ⟨seed, u, ns, hn, h0⟩ |
    ⟨seed, hn, h0⟩ | ⟨v, w, ws, td, hn, hto, h0⟩ | ⟨v, td, hn, hto, h0⟩ | ⟨v, vs, hn, hto, hi, h0⟩ |
    ⟨hn, hto, hi, h0⟩
  · rw [h0] at hs; cases hs
    obtain ⟨hp, ⟨r, td, htd⟩, hl, ha, hnd, hm2⟩ := ht.npath _ _ hn
    have hm := h.mode
    rw [hn] at hm
    have hEw : E u w := hm.remE u (w :: ws) w (List.mem_cons_self ..) (List.mem_cons_self ..)
    unfold visit2
    by_cases hw : w = seed
    · rw [if_pos hw]
      refine ⟨ht.path, ht.last, ?_, ?_⟩
      · intro a b hab
        simp only [Option.some.injEq, Prod.mk.injEq] at hab
        obtain ⟨rfl, rfl⟩ := hab
        exact ⟨path_head hp, ⟨r, td, htd⟩, last_head' (P := (· = seed)) hl, ha, hnd, hm2⟩
      · intro _
        exact ⟨u, ws, ns, rfl, hw ▸ hEw⟩
    · rw [if_neg hw]
      cases hb : G.bnd w with
      | false =>
        simp only [Bool.false_eq_true, if_false]
        refine ⟨ht.path, ht.last, ?_, fun hv => absurd hv (by simp [h.viol])⟩
        intro a b hab
        simp only [Option.some.injEq, Prod.mk.injEq] at hab
        obtain ⟨rfl, rfl⟩ := hab
        exact ⟨path_head hp, ⟨r, td, htd⟩, last_head' (P := (· = seed)) hl, ha, hnd, hm2⟩
      | true =>
        simp only [if_true]
        cases hc : s.m2.contains w with
        | true =>
          simp only [if_true]
          refine ⟨ht.path, ht.last, ?_, fun hv => absurd hv (by simp [h.viol])⟩
          intro a b hab
          simp only [Option.some.injEq, Prod.mk.injEq] at hab
          obtain ⟨rfl, rfl⟩ := hab
          exact ⟨path_head hp, ⟨r, td, htd⟩, last_head' (P := (· = seed)) hl, ha, hnd, hm2⟩
        | false =>
          simp only [Bool.false_eq_true, if_false]
          refine ⟨ht.path, ht.last, ?_, fun hv => absurd hv (by simp [h.viol])⟩
          intro a b hab
          simp only [Option.some.injEq, Prod.mk.injEq] at hab
          obtain ⟨rfl, rfl⟩ := hab
          have hw2 := contains_false hc
          refine ⟨⟨⟨hEw, hb⟩, path_head hp⟩, ⟨r, td, htd⟩, ?_, ha, ?_, ?_⟩
          · intro x hx
            rw [List.getLast?_cons_cons] at hx
            exact last_head' (P := (· = seed)) hl x hx
          · refine List.nodup_cons.2 ⟨fun h1 => ?_, hnd⟩
            rcases hm2 w h1 with h2 | h2
            · exact hw h2
            · exact hw2 h2
          · intro x hx
            rcases List.mem_cons.1 hx with rfl | hx
            · exact Or.inr (List.mem_cons_self ..)
            · rcases hm2 x hx with h2 | h2
              · exact Or.inl h2
              · exact Or.inr (List.mem_cons_of_mem _ h2)
  · rw [h0] at hs; cases hs
    obtain ⟨hp, htd, hl, ha, hnd, hm2⟩ := ht.npath _ _ hn
    refine ⟨ht.path, ht.last, ?_, fun hv => absurd hv (by simp [h.viol])⟩
    intro a b hab
    simp only [Option.some.injEq, Prod.mk.injEq] at hab
    obtain ⟨rfl, rfl⟩ := hab
    exact ⟨path_tail hp, htd, last_tail (P := (· = seed)) hl, ha, (List.nodup_cons.1 hnd).2,
      fun x hx => hm2 x (List.mem_cons_of_mem _ hx)⟩
  · rw [h0] at hs; cases hs
    obtain ⟨_, ⟨r, td, htd⟩, _⟩ := ht.npath _ _ hn
    have hp := ht.path
    have hl := ht.last
    rw [htd] at hp hl
    refine ⟨?_, ?_, fun a b hab => by simp at hab, fun hv => absurd hv (by simp [h.viol])⟩
    · show Path G E s.todo.tail
      rw [htd]; exact path_tail hp
    · show ∀ x, s.todo.tail.getLast? = some x → _
      rw [htd]; exact last_tail (P := fun x => I x ∧ G.bnd x = true) hl
  · rw [h0] at hs; cases hs
    have hp := ht.path
    have hl := ht.last
    rw [hto] at hp hl
    have hEw : E v w := h.remE v (w :: ws) w (by rw [hto]; exact List.mem_cons_self ..) (List.mem_cons_self ..)
    have hskip : ∀ (m1 seen : List V) (b : Bool), (b = true → G.acc v = true ∧ G.inv v = true) →
        TInv G E I { s with todo := (v, ws) :: td, m1 := m1, seen := seen, viol := b, time := s.time + 1 } := by
      intro m1 seen b hb
      refine ⟨path_head hp, last_head' (P := fun x => I x ∧ G.bnd x = true) hl,
        fun a b hab => noNest hn hab, ?_⟩
      intro hv
      simp only [hn]
      exact ⟨v, ws, td, rfl, hb hv⟩
    unfold visit1
    cases hb : G.bnd w with
    | false =>
      simp only [Bool.false_eq_true, if_false]
      exact hskip s.m1 s.seen s.viol (by simp [h.viol])
    | true =>
      simp only [if_true]
      cases hc : s.m1.contains w with
      | true => exact hskip s.m1 (w :: s.seen) s.viol (by simp [h.viol])
      | false =>
        simp only [Bool.false_eq_true, if_false]
        cases hwk : (weak && G.acc v && G.inv v) with
        | true =>
          simp only [if_true]
          simp only [Bool.and_eq_true] at hwk
          exact hskip (w :: s.m1) (w :: s.seen) true (fun _ => ⟨hwk.1.2, hwk.2⟩)
        | false =>
          simp only [Bool.false_eq_true, if_false]
          refine ⟨⟨⟨hEw, hb⟩, path_head hp⟩, ?_,
            fun a b hab => noNest hn hab,
            fun hv => absurd hv (by simp [h.viol])⟩
          intro x hx
          rw [List.getLast?_cons_cons] at hx
          exact last_head' (P := fun x => I x ∧ G.bnd x = true) hl x hx
  · rw [h0] at hs; cases hs
    have hp := ht.path
    have hl := ht.last
    rw [hto] at hp hl
    unfold finish1
    cases ha : G.acc v with
    | false =>
      simp only [Bool.false_eq_true, if_false]
      exact ⟨path_tail hp, last_tail (P := fun x => I x ∧ G.bnd x = true) hl,
        fun a b hab => noNest hn hab,
        fun hv => absurd hv (by simp [h.viol])⟩
    | true =>
      simp only [if_true]
      cases hv : G.inv v with
      | true =>
        simp only [if_true]
        refine ⟨ht.path, ht.last, fun a b hab => noNest hn hab, ?_⟩
        intro _
        simp only [hn]
        exact ⟨v, [], td, hto, ha, hv⟩
      | false =>
        simp only [Bool.false_eq_true, if_false]
        refine ⟨ht.path, ht.last, ?_, fun hv => absurd hv (by simp [h.viol])⟩
        intro a b hab
        simp only [Option.some.injEq, Prod.mk.injEq] at hab
        obtain ⟨rfl, rfl⟩ := hab
        refine ⟨trivial, ⟨[], td, hto⟩, ?_, ha, by simp, by simp⟩
        intro x hx
        simp at hx; subst hx; rfl
  · rw [h0] at hs; cases hs
    unfold start
    cases hb : (G.bnd v && !s.seen.contains v) with
    | false =>
      simp only [Bool.false_eq_true, if_false]
      exact ⟨ht.path, ht.last, ht.npath, fun hv => absurd hv (by simp [h.viol])⟩
    | true =>
      simp only [if_true]
      refine ⟨trivial, ?_, fun a b hab => noNest hn hab,
        fun hv => absurd hv (by simp [h.viol])⟩
      intro x hx
      simp at hx; subst hx
      simp only [Bool.and_eq_true] at hb
      exact ⟨h.initI v (by rw [hi]; exact List.mem_cons_self ..), hb.1⟩
  · rw [h0] at hs; cases hs

theorem run_tinv (hE : G.Edges E) : ∀ (n : Nat) (s s' : St V), Inv G E I s → TInv G E I s →
    run G weak n s = (s', true) → TInv G E I s' := by
  intro n
  induction n with
  | zero =>
    intro s s' _ ht hr
    simp only [run, Prod.mk.injEq, Option.isNone_iff_eq_none] at hr
    obtain ⟨rfl, _⟩ := hr
    exact ht
  | succ n ih =>
    intro s s' h ht hr
    unfold run at hr
    cases hs : Ndfs.step G weak s with
    | none =>
      rw [hs] at hr
      simp only [Prod.mk.injEq, and_true] at hr
      subst hr
      exact ht
    | some t =>
      rw [hs] at hr
      simp only at hr
      rcases step_inv h hE hs with h0 | ⟨hv, _⟩
      · exact ih t s' h0 (ht.step h hs) hr
      · have hst : Ndfs.step G weak t = none := by simp [Ndfs.step, hv]
        have : run G weak n t = (t, true) := by cases n <;> simp [run, hst]
        rw [this] at hr
        cases hr
        exact ht.step h hs

/-- The states of a stack, bottom first, form a path. -/
theorem path_chain : ∀ (td : List (V × List V)), Path G E td → ((td.map (·.1)).reverse).IsChain (G.B E) := by
  intro td
  induction td with
  | nil => intro _; exact .nil
  | cons x td ih =>
    intro h
    cases td with
    | nil => simp
    | cons y td =>
      obtain ⟨hB, hp⟩ := h
      have := ih hp
      rw [List.map_cons, List.reverse_cons]
      refine List.isChain_append.2 ⟨this, by simp, ?_⟩
      intro a ha b hb
      simp at ha hb
      subst ha hb
      exact hB

/-- What the trace is when the search has found a violation. -/
theorem trace_spec (h : TInv G E I s) (hv : s.viol = true) :
    ∃ u, (∃ i, ((trace s).1 ++ [u]).head? = some i ∧ I i ∧ G.bnd i = true) ∧
      ((trace s).1 ++ [u]).IsChain (G.B E) ∧
      (∀ k, (trace s).2 = some k → (trace s).1[k]? = some u ∧
        (∃ (j : Nat) (a : V), k ≤ j ∧ ((trace s).1 ++ [u])[j]? = some a ∧ G.acc a = true)) ∧
      ((trace s).2 = none → (G.acc u = true ∧ G.inv u = true) ∨
        ∃ (j : Nat) (a : V), ((trace s).1 ++ [u])[j]? = some a ∧ G.acc a = true ∧ E u a) := by
  have hb := h.bad hv
  revert hb
  cases hn : s.nest with
  | none =>
    rintro ⟨v, r, td, ht, ha, hi⟩
    have htr : trace s = ((td.map (·.1)).reverse, none) := by
      unfold trace
      split
      · rename_i h0; rw [hn] at h0; cases h0
      · rw [ht]; rfl
    have hp := h.path
    have hl := h.last
    rw [ht] at hp hl
    have hch := path_chain _ hp
    rw [List.map_cons, List.reverse_cons] at hch
    rw [htr]
    refine ⟨v, ?_, hch, by simp, fun _ => Or.inl ⟨ha, hi⟩⟩
    have : (td.map (·.1)).reverse ++ [v] = (((v, r) :: td).map (·.1)).reverse := by simp
    rw [this, List.head?_reverse, List.getLast?_map]
    cases hx : ((v, r) :: td).getLast? with
    | none => simp at hx
    | some x => exact ⟨x.1, rfl, hl x hx⟩
  | some p =>
    obtain ⟨seed, ns⟩ := p
    rintro ⟨u, r, ns', rfl, hEu⟩
    obtain ⟨hp2, ⟨r0, td, ht⟩, hl2, ha, hnd, _⟩ := h.npath _ _ hn
    have hp := h.path
    have hl := h.last
    rw [ht] at hp hl
    have hch1 := path_chain _ hp
    have hch2 := path_chain _ hp2
    rw [List.map_cons, List.reverse_cons] at hch1 hch2
    have htr : trace s = ((td.map (·.1)).reverse ++ (ns'.map (·.1)).reverse,
        if ((td.map (·.1)).reverse ++ (ns'.map (·.1)).reverse).contains u
        then some (((td.map (·.1)).reverse ++ (ns'.map (·.1)).reverse).idxOf u) else none) := by
      unfold trace
      split
      · rename_i h0
        rw [hn] at h0
        simp only [Option.some.injEq, Prod.mk.injEq, List.cons.injEq] at h0
        obtain ⟨rfl, ⟨rfl, rfl⟩, rfl⟩ := h0
        rw [ht]; rfl
      · rename_i h0
        exact absurd hn (h0 _ _ _ _)
    rw [htr]
    -- the nested path starts in the seed
    have hhead : ((ns'.map (·.1)).reverse ++ [u]).head? = some seed := by
      have : (ns'.map (·.1)).reverse ++ [u] = (((u, r) :: ns').map (·.1)).reverse := by simp
      rw [this, List.head?_reverse, List.getLast?_map]
      cases hx : ((u, r) :: ns').getLast? with
      | none => simp at hx
      | some x => rw [Option.map_some, hl2 x hx]
    obtain ⟨rest, hrest⟩ : ∃ rest, (ns'.map (·.1)).reverse ++ [u] = seed :: rest := by
      cases hc : (ns'.map (·.1)).reverse ++ [u] with
      | nil => simp at hc
      | cons a b => rw [hc] at hhead; simp at hhead; exact ⟨b, by rw [hhead]⟩
    have hchain : ((td.map (·.1)).reverse ++ (ns'.map (·.1)).reverse ++ [u]).IsChain (G.B E) := by
      rw [List.append_assoc, hrest]
      rw [hrest] at hch2
      obtain ⟨c1, c2, c3⟩ := List.isChain_append.1 hch1
      refine List.isChain_append.2 ⟨c1, hch2, ?_⟩
      intro a ha b hb
      exact c3 a ha b (by simpa using hb)
    have hpos : ((td.map (·.1)).reverse ++ (ns'.map (·.1)).reverse ++ [u])[td.length]? = some seed := by
      rw [List.append_assoc, List.getElem?_append_right (by simp), hrest]
      simp
    refine ⟨u, ?_, hchain, ?_, ?_⟩
    · rw [List.append_assoc, hrest]
      have : ((td.map (·.1)).reverse ++ seed :: rest).head? = (((seed, r0) :: td).map (·.1)).reverse.head? := by
        cases hc : (td.map (·.1)).reverse with
        | nil => simp [hc]
        | cons a b => simp [hc]
      rw [this, List.head?_reverse, List.getLast?_map]
      cases hx : ((seed, r0) :: td).getLast? with
      | none => simp at hx
      | some x => exact ⟨x.1, rfl, hl x hx⟩
    · intro k hk
      simp only at hk
      split at hk
      · rename_i hc
        have hm : u ∈ (td.map (·.1)).reverse ++ (ns'.map (·.1)).reverse := by simpa using hc
        simp only [Option.some.injEq] at hk
        have hlt := List.idxOf_lt_length_iff.2 hm
        have hget : ((td.map (·.1)).reverse ++ (ns'.map (·.1)).reverse)[k]? = some u := by
          rw [← hk, List.getElem?_eq_getElem hlt, List.getElem_idxOf]
        refine ⟨hget, ?_⟩
        refine ⟨td.length, seed, ?_, hpos, ha⟩
        have hu : u ∉ (ns'.map (·.1)).reverse := by
          rw [List.mem_reverse]; exact (List.nodup_cons.1 hnd).1
        rw [← hk, List.idxOf_append]
        split
        · rename_i h1
          have := List.idxOf_lt_length_iff.2 h1
          simp only [List.length_reverse, List.length_map] at this
          omega
        · rename_i h1
          rcases List.mem_append.1 hm with h2 | h2
          · exact absurd h2 h1
          · exact absurd h2 hu
      · cases hk
    · intro _
      exact Or.inr ⟨td.length, seed, hpos, ha, hEu⟩

end Ndfs
end LTL
end Verif
