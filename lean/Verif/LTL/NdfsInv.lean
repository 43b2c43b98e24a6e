import Verif.LTL.Ndfs
import Verif.LTL.Lasso

/-!
# The invariant of the nested depth-first search
-/

set_option linter.unusedSectionVars false

namespace Verif
namespace LTL
namespace Ndfs
open Relation
variable {V : Type} [DecidableEq V] (G : PGraph V) (E : V → V → Prop)

/-- The stack is a path. -/
def Path : List (V × List V) → Prop
  | [] => True
  | [_] => True
  | (w, _) :: (v, r) :: td => G.B E v w ∧ Path ((v, r) :: td)

/-- The states on the stack, except the initial state. -/
def grey (td : List (V × List V)) : List V := td.dropLast.map (·.1)

/-- A state whose successors have been looked at. -/
def Fin (s : St V) (v : V) : Prop := (∀ w, G.B E v w → w ∈ s.m1) ∧ (G.acc v = true → ¬ TransGen (G.B E) v v)

/-- The states marked by the outer search, and not on the stack. -/
def Black (s : St V) (v : V) : Prop := v ∈ s.m1 ∧ v ∉ grey s.todo

structure Outer (s : St V) : Prop where
  sub : ∀ u ∈ s.m2, Black s u
  closed : ∀ u ∈ s.m2, ∀ w, G.B E u w → w ∈ s.m2

structure Nested (s : St V) (seed : V) (ns : List (V × List V)) : Prop where
  top : ∃ td, s.todo = (seed, []) :: td ∧ (td ≠ [] → seed ∉ s.m2)
  acc : G.acc seed = true
  reach : ∀ u rem, (u, rem) ∈ ns → ReflTransGen (G.B E) seed u
  sub : ∀ u ∈ s.m2, Black s u ∨ TransGen (G.B E) seed u
  closed : ∀ u w, (u = seed ∨ u ∈ s.m2) → G.B E u w → w ∈ s.m2 ∨ ∃ rem, (u, rem) ∈ ns ∧ w ∈ rem
  remE : ∀ u rem w, (u, rem) ∈ ns → w ∈ rem → E u w

structure Inv (I : V → Prop) (s : St V) : Prop where
  viol : s.viol = false
  path : Path G E s.todo
  reach : ∀ x ∈ s.todo, ∃ i, I i ∧ G.bnd i = true ∧ ReflTransGen (G.B E) i x.1
  greyM : ∀ g ∈ grey s.todo, g ∈ s.m1
  nodup : (grey s.todo).Nodup
  closed : ∀ d w, Black s d → G.B E d w → w ∈ s.m1
  stack : ∀ v rem w, (v, rem) ∈ s.todo → G.B E v w → w ∉ rem → w ∈ s.m1
  remE : ∀ v rem w, (v, rem) ∈ s.todo → w ∈ rem → E v w
  m1acc : ∀ d, Black s d → G.acc d = true → ¬ TransGen (G.B E) d d
  seenOK : ∀ v ∈ s.seen, v ∈ s.m1 ∨ v ∈ s.m2 ∨ Fin G E s v ∨ ∃ rem, s.todo.getLast? = some (v, rem)
  initI : ∀ v ∈ s.inits, I v
  initDone : ∀ v, I v → G.bnd v = true → v ∈ s.inits ∨ v ∈ s.seen
  mode : match s.nest with
    | none => Outer G E s
    | some (seed, ns) => Nested G E s seed ns

variable {G E} {I : V → Prop} {s : St V}

theorem path_reach : ∀ (td : List (V × List V)) (x : V × List V), Path G E (x :: td) → ∀ y ∈ x :: td,
    ReflTransGen (G.B E) y.1 x.1 := by
  intro td
  induction td with
  | nil => intro x _ y hy; simp at hy; subst hy; exact .refl
  | cons z td ih =>
    intro x hp y hy
    obtain ⟨hB, hp'⟩ := hp
    rcases List.mem_cons.1 hy with rfl | hy
    · exact .refl
    · exact (ih z hp' y hy).tail hB

theorem path_tail {x : V × List V} {td : List (V × List V)} (h : Path G E (x :: td)) : Path G E td := by
  cases td with
  | nil => trivial
  | cons y td => exact h.2

theorem path_head {v : V} {r r' : List V} {td : List (V × List V)} (h : Path G E ((v, r) :: td)) :
    Path G E ((v, r') :: td) := by
  cases td with
  | nil => trivial
  | cons y td => exact h

theorem grey_cons (x : V × List V) {td : List (V × List V)} (h : td ≠ []) : grey (x :: td) = x.1 :: grey td := by
  cases td with
  | nil => exact absurd rfl h
  | cons y td => rfl

theorem grey_head (v : V) (r r' : List V) (td : List (V × List V)) : grey ((v, r) :: td) = grey ((v, r') :: td) := by
  cases td <;> rfl

theorem grey_mem {td : List (V × List V)} {g : V} (h : g ∈ grey td) : ∃ rem, (g, rem) ∈ td := by
  obtain ⟨x, hx, rfl⟩ := List.mem_map.1 h
  exact ⟨x.2, List.dropLast_subset td hx⟩

theorem last_head (v : V) (r r' : List V) (td : List (V × List V)) (u : V) :
    (∃ rem, ((v, r) :: td).getLast? = some (u, rem)) ↔ ∃ rem, ((v, r') :: td).getLast? = some (u, rem) := by
  cases td with
  | nil => simp
  | cons y td => simp [List.getLast?_cons_cons]

theorem Fin.mono {s s' : St V} {v : V} (h : Fin G E s v) (hm : ∀ w ∈ s.m1, w ∈ s'.m1) : Fin G E s' v :=
  ⟨fun w hw => hm w (h.1 w hw), h.2⟩

/-- Outer search, the successor is not pushed. -/
theorem Inv.skip1 (h : Inv G E I s) (hn : s.nest = none) {v w : V} {ws : List V} {td : List (V × List V)}
    (ht : s.todo = (v, w :: ws) :: td) (hw : G.bnd w = true → w ∈ s.m1) (seen : List V)
    (hs : ∀ x ∈ seen, x ∈ s.seen ∨ x ∈ s.m1) (hs' : ∀ x ∈ s.seen, x ∈ seen) :
    Inv G E I { s with todo := (v, ws) :: td, seen := seen } := by
  have hg : grey ((v, ws) :: td) = grey s.todo := by rw [ht]; exact grey_head ..
  have hb : ∀ d, Black { s with todo := (v, ws) :: td, seen := seen } d ↔ Black s d := by
    intro d; unfold Black; rw [hg]
  have hmode := h.mode
  rw [hn] at hmode
  refine ⟨h.viol, ?_, ?_, ?_, ?_, ?_, ?_, ?_, ?_, ?_, h.initI, ?_, ?_⟩
  · have := h.path; rw [ht] at this; exact path_head this
  · intro x hx
    rcases List.mem_cons.1 hx with rfl | hx
    · exact h.reach (v, w :: ws) (by rw [ht]; exact List.mem_cons_self ..)
    · exact h.reach x (by rw [ht]; exact List.mem_cons_of_mem _ hx)
  · intro g hgg
    exact h.greyM g (by rw [← hg]; exact hgg)
  · show (grey ((v, ws) :: td)).Nodup
    rw [hg]; exact h.nodup
  · intro d x hd hB
    exact h.closed d x ((hb d).1 hd) hB
  · intro u rem x hu hB hx
    rcases List.mem_cons.1 hu with hu | hu
    · cases hu
      by_cases hxw : x = w
      · subst hxw; exact hw hB.2
      · exact h.stack v (w :: ws) x (by rw [ht]; exact List.mem_cons_self ..) hB (by simp [hxw, hx])
    · exact h.stack u rem x (by rw [ht]; exact List.mem_cons_of_mem _ hu) hB hx
  · intro u rem x hu hx
    rcases List.mem_cons.1 hu with hu | hu
    · cases hu
      exact h.remE v (w :: ws) x (by rw [ht]; exact List.mem_cons_self ..) (List.mem_cons_of_mem _ hx)
    · exact h.remE u rem x (by rw [ht]; exact List.mem_cons_of_mem _ hu) hx
  · intro d hd
    exact h.m1acc d ((hb d).1 hd)
  · intro x hx
    rcases hs x hx with hx | hx
    · rcases h.seenOK x hx with h1 | h1 | h1 | h1
      · exact Or.inl h1
      · exact Or.inr (Or.inl h1)
      · exact Or.inr (Or.inr (Or.inl h1))
      · refine Or.inr (Or.inr (Or.inr ?_))
        rw [ht] at h1
        exact (last_head _ _ _ _ _).1 h1
    · exact Or.inl hx
  · exact fun x hx hbx => (h.initDone x hx hbx).imp id (hs' x)
  · show match s.nest with | none => _ | some (seed, ns) => _
    rw [hn]
    exact ⟨fun u hu => (hb u).2 (hmode.sub u hu), hmode.closed⟩

/-- Outer search, the successor is pushed. -/
theorem Inv.push1 (h : Inv G E I s) (hE : G.Edges E) (hn : s.nest = none) {v w : V} {ws : List V}
    {td : List (V × List V)} (ht : s.todo = (v, w :: ws) :: td) (hb : G.bnd w = true) (hw : w ∉ s.m1) (t : Nat) :
    Inv G E I { s with todo := (w, G.succ t w) :: (v, ws) :: td, m1 := w :: s.m1, seen := w :: s.seen } := by
  have hg : grey ((w, G.succ t w) :: (v, ws) :: td) = w :: grey s.todo := by
    rw [ht, grey_cons _ (by simp), grey_head v ws (w :: ws)]
  have hwg : w ∉ grey s.todo := fun hh => hw (h.greyM w hh)
  have hbl : ∀ d, Black { s with todo := (w, G.succ t w) :: (v, ws) :: td, m1 := w :: s.m1, seen := w :: s.seen } d ↔
      Black s d := by
    intro d
    unfold Black
    rw [hg]
    constructor
    · rintro ⟨h1, h2⟩
      rw [List.mem_cons, not_or] at h2
      exact ⟨(List.mem_cons.1 h1).resolve_left h2.1, h2.2⟩
    · rintro ⟨h1, h2⟩
      refine ⟨List.mem_cons_of_mem _ h1, ?_⟩
      rw [List.mem_cons, not_or]
      exact ⟨fun hh => hw (by rw [← hh]; exact h1), h2⟩
  have hvE : E v w := h.remE v _ w (by rw [ht]; exact List.mem_cons_self ..) (List.mem_cons_self ..)
  obtain ⟨i, hi1, hi2, hi3⟩ := h.reach (v, w :: ws) (by rw [ht]; exact List.mem_cons_self ..)
  have hmode := h.mode
  rw [hn] at hmode
  refine ⟨h.viol, ?_, ?_, ?_, ?_, ?_, ?_, ?_, ?_, ?_, h.initI, ?_, ?_⟩
  · refine ⟨⟨hvE, hb⟩, ?_⟩
    have := h.path; rw [ht] at this; exact path_head this
  · intro x hx
    rcases List.mem_cons.1 hx with rfl | hx
    · exact ⟨i, hi1, hi2, hi3.tail ⟨hvE, hb⟩⟩
    rcases List.mem_cons.1 hx with rfl | hx
    · exact ⟨i, hi1, hi2, hi3⟩
    · exact h.reach x (by rw [ht]; exact List.mem_cons_of_mem _ hx)
  · intro g hgg
    rw [hg] at hgg
    rcases List.mem_cons.1 hgg with rfl | hgg
    · exact List.mem_cons_self ..
    · exact List.mem_cons_of_mem _ (h.greyM g hgg)
  · show (grey ((w, G.succ t w) :: (v, ws) :: td)).Nodup
    rw [hg]; exact List.nodup_cons.2 ⟨hwg, h.nodup⟩
  · intro d x hd hB
    exact List.mem_cons_of_mem _ (h.closed d x ((hbl d).1 hd) hB)
  · intro u rem x hu hB hx
    rcases List.mem_cons.1 hu with hu | hu
    · cases hu
      exact absurd ((hE.succ t w x).2 hB.1) hx
    rcases List.mem_cons.1 hu with hu | hu
    · cases hu
      by_cases hxw : x = w
      · subst hxw; exact List.mem_cons_self ..
      · exact List.mem_cons_of_mem _
          (h.stack v (w :: ws) x (by rw [ht]; exact List.mem_cons_self ..) hB (by simp [hxw, hx]))
    · exact List.mem_cons_of_mem _ (h.stack u rem x (by rw [ht]; exact List.mem_cons_of_mem _ hu) hB hx)
  · intro u rem x hu hx
    rcases List.mem_cons.1 hu with hu | hu
    · cases hu
      exact (hE.succ t w x).1 hx
    rcases List.mem_cons.1 hu with hu | hu
    · cases hu
      exact h.remE v (w :: ws) x (by rw [ht]; exact List.mem_cons_self ..) (List.mem_cons_of_mem _ hx)
    · exact h.remE u rem x (by rw [ht]; exact List.mem_cons_of_mem _ hu) hx
  · intro d hd
    exact h.m1acc d ((hbl d).1 hd)
  · intro x hx
    rcases List.mem_cons.1 hx with rfl | hx
    · exact Or.inl (List.mem_cons_self ..)
    rcases h.seenOK x hx with h1 | h1 | h1 | h1
    · exact Or.inl (List.mem_cons_of_mem _ h1)
    · exact Or.inr (Or.inl h1)
    · exact Or.inr (Or.inr (Or.inl (h1.mono (fun y hy => List.mem_cons_of_mem _ hy))))
    · refine Or.inr (Or.inr (Or.inr ?_))
      rw [ht] at h1
      have := (last_head v (w :: ws) ws td x).1 h1
      simpa [List.getLast?_cons_cons] using this
  · exact fun x hx hbx => (h.initDone x hx hbx).imp id (List.mem_cons_of_mem _)
  · show match s.nest with | none => _ | some (seed, ns) => _
    rw [hn]
    exact ⟨fun u hu => (hbl u).2 (hmode.sub u hu), hmode.closed⟩

/-- Backtracking in the outer search. -/
theorem Inv.pop1 (h : Inv G E I s) {v : V} {td : List (V × List V)} (ht : s.todo = (v, []) :: td)
    (hv : G.acc v = true → ¬ TransGen (G.B E) v v) (hsub : ∀ u ∈ s.m2, Black s u)
    (hcl : ∀ u ∈ s.m2, ∀ w, G.B E u w → w ∈ s.m2) : Inv G E I { s with todo := td, nest := none } := by
  have hsucc : ∀ w, G.B E v w → w ∈ s.m1 := fun w hB =>
    h.stack v [] w (by rw [ht]; exact List.mem_cons_self ..) hB (by simp)
  have hbl : ∀ d, Black { s with todo := td, nest := none } d → Black s d ∨ d = v := by
    intro d hd
    by_cases hdv : d = v
    · exact Or.inr hdv
    · refine Or.inl ⟨hd.1, fun hg => ?_⟩
      rw [ht] at hg
      by_cases htd : td = []
      · subst htd; simp [grey] at hg
      · rw [grey_cons _ htd] at hg
        rcases List.mem_cons.1 hg with h0 | h0
        · exact hdv h0
        · exact hd.2 h0
  have hbl' : ∀ d, Black s d → Black { s with todo := td, nest := none } d := by
    intro d hd
    refine ⟨hd.1, fun hg => hd.2 ?_⟩
    rw [ht]
    by_cases htd : td = []
    · subst htd; simp [grey] at hg
    · rw [grey_cons _ htd]; exact List.mem_cons_of_mem _ hg
  refine ⟨h.viol, ?_, ?_, ?_, ?_, ?_, ?_, ?_, ?_, ?_, h.initI, h.initDone, ?_⟩
  · have := h.path; rw [ht] at this; exact path_tail this
  · exact fun x hx => h.reach x (by rw [ht]; exact List.mem_cons_of_mem _ hx)
  · intro g hg
    by_cases htd : td = []
    · subst htd; simp [grey] at hg
    · exact h.greyM g (by rw [ht, grey_cons _ htd]; exact List.mem_cons_of_mem _ hg)
  · show (grey td).Nodup
    by_cases htd : td = []
    · subst htd; simp [grey]
    · have := h.nodup
      rw [ht, grey_cons _ htd] at this
      exact (List.nodup_cons.1 this).2
  · intro d w hd hB
    rcases hbl d hd with h0 | rfl
    · exact h.closed d w h0 hB
    · exact hsucc w hB
  · exact fun u rem x hu => h.stack u rem x (by rw [ht]; exact List.mem_cons_of_mem _ hu)
  · exact fun u rem x hu => h.remE u rem x (by rw [ht]; exact List.mem_cons_of_mem _ hu)
  · intro d hd
    rcases hbl d hd with h0 | rfl
    · exact h.m1acc d h0
    · exact hv
  · intro x hx
    rcases h.seenOK x hx with h1 | h1 | h1 | ⟨rem, h1⟩
    · exact Or.inl h1
    · exact Or.inr (Or.inl h1)
    · exact Or.inr (Or.inr (Or.inl h1))
    · rw [ht] at h1
      cases td with
      | nil =>
        simp at h1
        obtain ⟨rfl, _⟩ := h1
        exact Or.inr (Or.inr (Or.inl ⟨hsucc, hv⟩))
      | cons y td =>
        rw [List.getLast?_cons_cons] at h1
        exact Or.inr (Or.inr (Or.inr ⟨rem, h1⟩))
  · exact ⟨fun u hu => hbl' u (hsub u hu), hcl⟩

/-- An accepting initial state that has been finished does not lie on a cycle. -/
theorem Inv.rootAcc (h : Inv G E I s) {v : V} (ht : s.todo = [(v, [])]) (ha : G.acc v = true) :
    ¬ TransGen (G.B E) v v := by
  intro hc
  have hall : ∀ d, d ∈ s.m1 → Black s d := fun d hd => ⟨hd, by rw [ht]; simp [grey]⟩
  have hm : ∀ w, TransGen (G.B E) v w → w ∈ s.m1 := by
    intro w hw
    induction hw with
    | single hB => exact h.stack v [] _ (by rw [ht]; exact List.mem_cons_self ..) hB (by simp)
    | tail _ hB ih => exact h.closed _ _ (hall _ ih) hB
  exact h.m1acc v (hall v (hm v hc)) ha hc

/-- The nested search has ended. -/
theorem Inv.nestEnd (h : Inv G E I s) {seed : V} (hn : s.nest = some (seed, [])) :
    Inv G E I { s with nest := none, todo := s.todo.tail } := by
  have hmode := h.mode
  rw [hn] at hmode
  obtain ⟨⟨td, ht, hseed⟩, hacc, _, hsub, hcl, _⟩ := hmode
  have hcl' : ∀ u w, (u = seed ∨ u ∈ s.m2) → G.B E u w → w ∈ s.m2 := by
    intro u w hu hB
    rcases hcl u w hu hB with h0 | ⟨rem, h0, _⟩
    · exact h0
    · cases h0
  have htr : ∀ w, TransGen (G.B E) seed w → w ∈ s.m2 := by
    intro w hw
    induction hw with
    | single hB => exact hcl' _ _ (Or.inl rfl) hB
    | tail _ hB ih => exact hcl' _ _ (Or.inr ih) hB
  have hsucc : ∀ w, G.B E seed w → w ∈ s.m1 := fun w hB =>
    h.stack seed [] w (by rw [ht]; exact List.mem_cons_self ..) hB (by simp)
  by_cases htd : td = []
  · subst htd
    have hall : ∀ d, d ∈ s.m1 → Black s d := fun d hd => ⟨hd, by rw [ht]; simp [grey]⟩
    have hm : ∀ w, TransGen (G.B E) seed w → w ∈ s.m1 := by
      intro w hw
      induction hw with
      | single hB => exact hsucc _ hB
      | tail _ hB ih => exact h.closed _ _ (hall _ ih) hB
    have : Inv G E I { s with todo := [], nest := none } :=
      h.pop1 ht (fun ha => h.rootAcc ht ha) (fun u hu => (hsub u hu).elim id (fun ht' => hall u (hm u ht')))
        (fun u hu w hB => hcl' u w (Or.inr hu) hB)
    rw [ht]; exact this
  · have hs2 := hseed htd
    have hng : ∀ g, g ∈ grey s.todo → g ∉ s.m2 := by
      intro g hg hgm
      obtain ⟨rem, hr⟩ := grey_mem hg
      have hp := h.path
      rw [ht] at hr hp
      have hgs := path_reach td (seed, []) hp (g, rem) hr
      have : ∀ w, ReflTransGen (G.B E) g w → w ∈ s.m2 := by
        intro w hw
        induction hw with
        | refl => exact hgm
        | tail _ hB ih => exact hcl' _ _ (Or.inr ih) hB
      exact hs2 (this seed hgs)
    have hm : ∀ w, TransGen (G.B E) seed w → w ∈ s.m1 := by
      intro w hw
      induction hw with
      | single hB => exact hsucc _ hB
      | tail hw' hB ih => exact h.closed _ _ ⟨ih, fun hg => hng _ hg (htr _ hw')⟩ hB
    have hb2 : ∀ u ∈ s.m2, Black s u := by
      intro u hu
      rcases hsub u hu with h0 | h0
      · exact h0
      · exact ⟨hm u h0, fun hg => hng u hg hu⟩
    have : Inv G E I { s with todo := td, nest := none } :=
      h.pop1 ht (fun _ hc => hs2 (htr seed hc)) hb2 (fun u hu w hB => hcl' u w (Or.inr hu) hB)
    rw [ht]; exact this

/-- The nested search starts. -/
theorem Inv.nestStart (h : Inv G E I s) (hE : G.Edges E) (hn : s.nest = none) {v : V} {td : List (V × List V)}
    (ht : s.todo = (v, []) :: td) (ha : G.acc v = true) (t : Nat) :
    Inv G E I { s with nest := some (v, [(v, G.succ t v)]) } := by
  have hmode := h.mode
  rw [hn] at hmode
  refine ⟨h.viol, h.path, h.reach, h.greyM, h.nodup, h.closed, h.stack, h.remE, h.m1acc, h.seenOK, h.initI, h.initDone,
    ⟨⟨td, ht, ?_⟩, ha, ?_, ?_, ?_, ?_⟩⟩
  · intro htd hv
    refine (hmode.sub v hv).2 ?_
    rw [ht, grey_cons _ htd]; exact List.mem_cons_self ..
  · intro u rem hu
    simp at hu
    obtain ⟨rfl, _⟩ := hu
    exact .refl
  · exact fun u hu => Or.inl (hmode.sub u hu)
  · intro u w hu hB
    rcases hu with rfl | hu
    · exact Or.inr ⟨_, List.mem_cons_self .., (hE.succ t u w).2 hB.1⟩
    · exact Or.inl (hmode.closed u hu w hB)
  · intro u rem w hu hw
    simp at hu
    obtain ⟨rfl, rfl⟩ := hu
    exact (hE.succ t u w).1 hw

/-- The nested search backtracks. -/
theorem Inv.nestPop (h : Inv G E I s) {seed u : V} {ns : List (V × List V)} (hn : s.nest = some (seed, (u, []) :: ns)) :
    Inv G E I { s with nest := some (seed, ns) } := by
  have hmode := h.mode
  rw [hn] at hmode
  refine ⟨h.viol, h.path, h.reach, h.greyM, h.nodup, h.closed, h.stack, h.remE, h.m1acc, h.seenOK, h.initI, h.initDone,
    ⟨hmode.top, hmode.acc, fun x rem hx => hmode.reach x rem (List.mem_cons_of_mem _ hx), hmode.sub, ?_,
      fun x rem w hx => hmode.remE x rem w (List.mem_cons_of_mem _ hx)⟩⟩
  intro x w hx hB
  rcases hmode.closed x w hx hB with h0 | ⟨rem, h0, h1⟩
  · exact Or.inl h0
  · rcases List.mem_cons.1 h0 with h2 | h2
    · cases h2; cases h1
    · exact Or.inr ⟨rem, h2, h1⟩

/-- The nested search looks at a successor and does not push it. -/
theorem Inv.nestSkip (h : Inv G E I s) {seed u w : V} {ws : List V} {ns : List (V × List V)}
    (hn : s.nest = some (seed, (u, w :: ws) :: ns)) (hw : G.bnd w = true → w ∈ s.m2) (seen : List V)
    (hs : ∀ x ∈ seen, x ∈ s.seen ∨ x ∈ s.m2) (hs' : ∀ x ∈ s.seen, x ∈ seen) :
    Inv G E I { s with nest := some (seed, (u, ws) :: ns), seen := seen } := by
  have hmode := h.mode
  rw [hn] at hmode
  refine ⟨h.viol, h.path, h.reach, h.greyM, h.nodup, h.closed, h.stack, h.remE, h.m1acc, ?_, h.initI,
    fun x hx hbx => (h.initDone x hx hbx).imp id (hs' x),
    ⟨hmode.top, hmode.acc, ?_, hmode.sub, ?_, ?_⟩⟩
  · intro x hx
    rcases hs x hx with h0 | h0
    · exact h.seenOK x h0
    · exact Or.inr (Or.inl h0)
  · intro x rem hx
    rcases List.mem_cons.1 hx with hx | hx
    · cases hx; exact hmode.reach u _ (List.mem_cons_self ..)
    · exact hmode.reach x rem (List.mem_cons_of_mem _ hx)
  · intro x y hx hB
    rcases hmode.closed x y hx hB with h0 | ⟨rem, h0, h1⟩
    · exact Or.inl h0
    · rcases List.mem_cons.1 h0 with h2 | h2
      · cases h2
        rcases List.mem_cons.1 h1 with rfl | h1
        · exact Or.inl (hw hB.2)
        · exact Or.inr ⟨ws, List.mem_cons_self .., h1⟩
      · exact Or.inr ⟨rem, List.mem_cons_of_mem _ h2, h1⟩
  · intro x rem y hx hy
    rcases List.mem_cons.1 hx with hx | hx
    · cases hx; exact hmode.remE u _ y (List.mem_cons_self ..) (List.mem_cons_of_mem _ hy)
    · exact hmode.remE x rem y (List.mem_cons_of_mem _ hx) hy

/-- The nested search pushes a successor. -/
theorem Inv.nestPush (h : Inv G E I s) (hE : G.Edges E) {seed u w : V} {ws : List V} {ns : List (V × List V)}
    (hn : s.nest = some (seed, (u, w :: ws) :: ns)) (hb : G.bnd w = true) (hne : w ≠ seed) (t : Nat) :
    Inv G E I { s with
      nest := some (seed, (w, G.succ t w) :: (u, ws) :: ns), m2 := w :: s.m2, seen := w :: s.seen } := by
  have hmode := h.mode
  rw [hn] at hmode
  have hEu := hmode.remE u _ w (List.mem_cons_self ..) (List.mem_cons_self ..)
  have hru := hmode.reach u _ (List.mem_cons_self ..)
  refine ⟨h.viol, h.path, h.reach, h.greyM, h.nodup, h.closed, h.stack, h.remE, h.m1acc, ?_, h.initI,
    fun x hx hbx => (h.initDone x hx hbx).imp id (List.mem_cons_of_mem _),
    ⟨?_, hmode.acc, ?_, ?_, ?_, ?_⟩⟩
  · intro x hx
    rcases List.mem_cons.1 hx with rfl | hx
    · exact Or.inr (Or.inl (List.mem_cons_self ..))
    · rcases h.seenOK x hx with h1 | h1 | h1 | h1
      · exact Or.inl h1
      · exact Or.inr (Or.inl (List.mem_cons_of_mem _ h1))
      · exact Or.inr (Or.inr (Or.inl h1))
      · exact Or.inr (Or.inr (Or.inr h1))
  · obtain ⟨td, h1, h2⟩ := hmode.top
    refine ⟨td, h1, fun htd hm => ?_⟩
    rcases List.mem_cons.1 hm with h0 | h0
    · exact hne h0.symm
    · exact h2 htd h0
  · intro x rem hx
    rcases List.mem_cons.1 hx with hx | hx
    · cases hx; exact hru.tail ⟨hEu, hb⟩
    rcases List.mem_cons.1 hx with hx | hx
    · cases hx; exact hru
    · exact hmode.reach x rem (List.mem_cons_of_mem _ hx)
  · intro x hx
    rcases List.mem_cons.1 hx with rfl | hx
    · exact Or.inr (TransGen.tail' hru ⟨hEu, hb⟩)
    · exact hmode.sub x hx
  · intro x y hx hB
    have hx' : x = w ∨ (x = seed ∨ x ∈ s.m2) := by
      rcases hx with h0 | h0
      · exact Or.inr (Or.inl h0)
      · rcases List.mem_cons.1 h0 with h0 | h0
        · exact Or.inl h0
        · exact Or.inr (Or.inr h0)
    rcases hx' with rfl | hx'
    · exact Or.inr ⟨_, List.mem_cons_self .., (hE.succ t _ y).2 hB.1⟩
    · rcases hmode.closed x y hx' hB with h0 | ⟨rem, h0, h1⟩
      · exact Or.inl (List.mem_cons_of_mem _ h0)
      · rcases List.mem_cons.1 h0 with h2 | h2
        · cases h2
          rcases List.mem_cons.1 h1 with rfl | h1
          · exact Or.inl (List.mem_cons_self ..)
          · exact Or.inr ⟨ws, List.mem_cons_of_mem _ (List.mem_cons_self ..), h1⟩
        · exact Or.inr ⟨rem, List.mem_cons_of_mem _ (List.mem_cons_of_mem _ h2), h1⟩
  · intro x rem y hx hy
    rcases List.mem_cons.1 hx with hx | hx
    · cases hx; exact (hE.succ t _ y).1 hy
    rcases List.mem_cons.1 hx with hx | hx
    · cases hx; exact hmode.remE u _ y (List.mem_cons_self ..) (List.mem_cons_of_mem _ hy)
    · exact hmode.remE x rem y (List.mem_cons_of_mem _ hx) hy

end Ndfs
end LTL
end Verif
