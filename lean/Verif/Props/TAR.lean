import Verif.TAR.HoareRun

/-!
# C55-C58: the trace-abstraction-refinement engine

`TARReachabilitySearch` looks for a sequence of transitions to a goal in an automaton of sequences not yet excluded, checks
each one it finds against the net, and excludes more of them with the predicates computed by `Solver`.
`reachable N m0 q rand junk fuel` is its answer on a net without inhibitor arcs: `rand` are the numbers of `std::rand`,
`junk` the contents of the uninitialised fields of `RangeEvalContext`, and `fuel` bounds the number of steps.
-/

namespace Verif
namespace TARProps
open PQL TAR Solver

variable {N : FlatNet}

/-- Every net compiled by the builder is one the engine can be run on, if it has no inhibitor arcs. -/
theorem tarNet_of_builder {B : Builder} (w : B.WF) {reorder : Bool} (hne : ∃ p, p < B.places.length ∧ (B.place p).skip = false)
    {c : Builder.Compiled} (hc : B.makePetriNet reorder = some c) : TarNet c.net := by
  obtain ⟨c', order, em, blocks, hmk, hf⟩ := Builder.make_facts w reorder hne
  obtain rfl := Option.some.inj (hc.symm.trans hmk)
  exact ⟨hf.wf w, hf.dirOK w, hf.arcsSorted w⟩

/-! ## C55: the answer "satisfied" -/

/-- **C55**.  When the engine answers "satisfied", for whatever query, random numbers and contents of the uninitialised
fields, the trace it returns can be fired from the initial marking and the query holds in the marking it leads to. -/
theorem C55_satisfied (h : TarNet N) (m0 : Nat → Nat) (q : Cond) (rand : Nat → Nat → Nat) (junk : Nat → Nat → Bool × Int) (fuel : Nat)
    (tr : List Nat) (hr : reachable N m0 q rand junk fuel = .ok (.satisfied tr)) :
    ∃ (ts : List (Fin N.ntransitions)) (m : Nat → Nat), tr = ts.map (fun t => t.val + 1) ++ [0] ∧ N.toNet.Run m0 ts m ∧
      evaluate (N.deadlocked m) m q = .rTrue :=
  reachable_sat h hr

/-- **C55** for a compiled net. -/
theorem C55_builder {B : Builder} (w : B.WF) {reorder : Bool} (hne : ∃ p, p < B.places.length ∧ (B.place p).skip = false)
    {c : Builder.Compiled} (hc : B.makePetriNet reorder = some c) (m0 : Nat → Nat) (q : Cond) (rand : Nat → Nat → Nat)
    (junk : Nat → Nat → Bool × Int) (fuel : Nat) (tr : List Nat) (hr : reachable c.net m0 q rand junk fuel = .ok (.satisfied tr)) :
    ∃ (ts : List (Fin c.net.ntransitions)) (m : Nat → Nat), tr = ts.map (fun t => t.val + 1) ++ [0] ∧
      c.net.toNet.Run m0 ts m ∧ evaluate (c.net.deadlocked m) m q = .rTrue :=
  reachable_sat (tarNet_of_builder w hne hc) hr

/-! ## C56: the answer "not satisfied" -/

/-- **C56** (partial).  When the engine answers "not satisfied", the query holds in no reachable marking — for queries in
which no conjunction of constraints speaks of a place visited before it (`rcSafe`), comparisons are between a flat sum and a
number (`reSafe`), and which do not hold in the empty marking.  The full claim, without `hs1`, is false of the code
(`C56_wrong`). -/
theorem C56_notSatisfied_partial (h : TarNet N) (m0 : Nat → Nat) (q : Cond) (rand : Nat → Nat → Nat)
    (junk : Nat → Nat → Bool × Int) (fuel : Nat) (hr : reachable N m0 q rand junk fuel = .ok .notSatisfied)
    (hq : QOK N.nplaces q) (hs1 : rcSafe (fun _ => false) q = true) (hs2 : reSafe (fun _ => false) q = true)
    (hm0 : ∀ p, m0 p < rmax) (h0 : ∀ p, N.nplaces ≤ p → m0 p = 0)
    (hz : evaluate (N.deadlocked fun _ => 0) (fun _ => 0) q ≠ .rTrue) (m : Nat → Nat) (hm : N.toNet.Reach m0 m)
    (hle : ∀ p, m p ≤ rmax) : evaluate (N.deadlocked m) m q ≠ .rTrue :=
  reachable_not h hr hq hs1 hs2 hm0 h0 hz hm hle

/-! ## C57: the predicate excluding the goal -/

/-- **C57** (partial).  The predicate computed for the goal around a marking that does not satisfy the query speaks of
places of the query, does not exclude the marking from above, and is satisfied by no marking in which the query holds — for
queries in which no range is overwritten (`rcSafe`).  The full claim, without `hs`, is false of the code
(`C57_overwritten`). -/
theorem C57_terminal_partial (h : TarNet N) (hn : ∀ t < N.ntransitions, ∀ a ∈ N.preset t, a.inhibitor = false)
    (m0 : Nat → Nat) (q : Cond) (inq : Nat → Bool) (f : Failure) (hq : QOK N.nplaces q) (hs : rcSafe (fun _ => false) q = true)
    (hlt : ∀ p, f.mark p < rmax) (hf : evaluate (N.deadlocked f.mark) f.mark q ≠ .rTrue) (v : PRVec)
    (hr : computeTerminal ⟨N, m0, q, inq⟩ f 0 = .ok (true, v)) :
    IsPred N.nplaces v ∧ (∀ r ∈ v, r.range = {} ∨ condUse r.place q = true) ∧
      (∀ r ∈ v, r.range.upper = rmax ∨ f.mark r.place ≤ r.range.upper) ∧
      ∀ m, (∀ p, m p ≤ rmax) → Sat v m → evaluate (N.deadlocked m) m q ≠ .rTrue := by
  have ok := h.ok hn
  simp only [computeTerminal, bind, Except.bind] at hr
  cases hc : RCtx.cond ⟨N, Solver.uses ⟨N, m0, q, inq⟩, f.mark, f.dirty⟩ q ([], false) with
  | error e => rw [hc] at hr; cases hr
  | ok r =>
    rw [hc] at hr
    simp only [pure, Except.pure, Except.ok.injEq] at hr
    cases hd : r.2 with
    | true => rw [hd] at hr; simp at hr
    | false =>
      rw [hd] at hr
      simp only [Bool.false_eq_true, if_false, Prod.mk.injEq, true_and] at hr
      subst hr
      have hg := goal_false_of_evaluate hq.supp (fun p => Nat.le_of_lt (hlt p)) hf
      have E : RCtx.Env ⟨N, Solver.uses ⟨N, m0, q, inq⟩, f.mark, f.dirty⟩ N.nplaces :=
        ⟨hlt, fun _ ht _ ha => uses_pre ⟨N, m0, q, inq⟩ ht ha, fun t ht a ha => (ok.preLt t ht a ha).1, dead_en h.wf ok⟩
      obtain ⟨h1, h2⟩ := RCtx.cond_spec E q (fun _ => false) [] r hq hs RCtx.RI.nil (fun _ _ => rfl) hg hc hd
      have hso := h1.ri.good.sorted
      have g := PRVec.good_compact h1.ri.good
      refine ⟨good_iff.1 g, fun x hx => ?_, fun x hx => ?_, fun m hle hm he => ?_⟩
      · cases hu : condUse x.place q with
        | true => exact Or.inr rfl
        | false =>
          left
          rw [← PRVec.rng_of_mem g.sorted hx, PRVec.rng_compact hso, h1.frame x.place hu]
          rfl
      · have := h1.ri.ub x.place
        rw [← PRVec.rng_compact hso, PRVec.rng_of_mem g.sorted hx] at this
        exact this
      · have h3 := h2 m ((PRVec.satI_compact hso).1 ((satI_iff g).2 hm))
        have h4 := goal_of_evaluate hq.supp hle he
        unfold Goal at h4
        rw [h3] at h4; cases h4

/-- **C57** (transition).  The predicate computed for a transition that could not be fired disables it. -/
theorem C57_transition (h : TarNet N) (hn : ∀ t < N.ntransitions, ∀ a ∈ N.preset t, a.inhibitor = false) (m0 : Nat → Nat)
    (q : Cond) (inq : Nat → Bool) (f : Failure) (t : Fin N.ntransitions) (hd : ∃ a ∈ N.preset t, f.failm a.place < a.tokens)
    (v : PRVec) (hr : computeTerminal ⟨N, m0, q, inq⟩ f (t.val + 1) = .ok (true, v)) :
    IsPred N.nplaces v ∧ (∀ r ∈ v, f.failm r.place ≤ r.range.upper) ∧ ∀ m, Sat v m → ¬ N.toNet.Enabled m t := by
  have ok := h.ok hn
  simp only [computeTerminal, Except.ok.injEq, Prod.mk.injEq, true_and] at hr
  subst hr
  rcases lastShort_spec ⟨N, m0, q, inq⟩ f.failm (N.preset t) ⟨rmax, {}⟩ (fun b hb => uses_pre ⟨N, m0, q, inq⟩ t.2 hb) with
    ⟨_, h6⟩ | ⟨b, hb, h6, h7⟩
  · obtain ⟨a, ha, hlt⟩ := hd
    have := h6 a ha
    omega
  · rw [h7]
    obtain ⟨h8, _⟩ := terminal_trans (G := fun _ => False) ok t.2 hb
    refine ⟨good_iff.1 h8, fun r hr => ?_, fun m hm hen => ?_⟩
    · rw [List.mem_singleton.1 hr]; simp only; omega
    · have h9 := hm _ (List.mem_singleton.2 rfl)
      have h10 := (en_iff ok t.2 m).2 (((step_iff_fire ok t m _).1 ⟨hen, rfl⟩).2.1) b hb
      have := (ok.preLt t t.2 b hb).2
      simp only at h9
      omega

/-! ## C58: the predicates along the trace -/

/-- **C58**.  The predicates computed backwards along a trace: there is one per transition and the one started from; firing
a transition of the trace in a marking satisfying the predicate before it gives a marking satisfying the one after it. -/
theorem C58_hoare (h : TarNet N) (hn : ∀ t < N.ntransitions, ∀ a ∈ N.preset t, a.inhibitor = false) (m0 : Nat → Nat) (q : Cond)
    (inq : Nat → Bool) (tr : List Nat) (i : Nat) (ts : List (Fin N.ntransitions)) (ht : tr.take i = ts.map fun t => t.val + 1)
    (v : PRVec) (hv : IsPred N.nplaces v) (inter : Inter) (hr : computeHoare ⟨N, m0, q, inq⟩ tr i v = .ok (inter, none)) :
    inter.map Prod.snd = tr.take i ++ [tr.getD i 0] ∧ inter.getLast? = some (v, tr.getD i 0) ∧
      (∀ x ∈ inter, IsPred N.nplaces x.1) ∧
      ∀ (j : Nat) (x y : PRVec × Nat) (t : Fin N.ntransitions) (m m' : Nat → Nat), inter[j]? = some x → inter[j + 1]? = some y →
        x.2 = t.val + 1 → Sat x.1 m → N.toNet.Step m t m' → Sat y.1 m' := by
  have ok := h.ok hn
  have hl : ∀ e ∈ (tr.take i).reverse, 1 ≤ e ∧ e ≤ N.ntransitions := by
    intro e he
    rw [List.mem_reverse, ht, List.mem_map] at he
    obtain ⟨t, _, rfl⟩ := he
    exact ⟨by omega, t.2⟩
  obtain ⟨h1, h2, h3, h4⟩ := hoare_triples ok _ v _ [] _ hl
    (fun x hx => by rw [List.mem_singleton.1 hx]; exact good_iff.2 hv) (List.isChain_singleton _) hr rfl
  refine ⟨by simpa using h1, ?_, fun x hx => good_iff.1 (h3 x hx), fun j x y t m m' hx hy hxt hm hs => ?_⟩
  · have hne : inter ≠ [] := by
      rintro rfl
      simp at h2
    have : inter.getLast? = (inter.drop (tr.take i).reverse.length).getLast? := by
      rw [List.getLast?_drop, if_neg]
      intro hle
      rw [List.drop_eq_nil_of_le hle] at h2
      cases h2
    rw [this, h2]; rfl
  · have gx := h3 x (List.mem_of_getElem? hx)
    have gy := h3 y (List.mem_of_getElem? hy)
    have hj : j + 1 < inter.length := (List.getElem?_eq_some_iff.1 hy).1
    have := List.isChain_iff_getElem.1 h4 j hj
    have e1 : inter[j] = x := by
      have := List.getElem?_eq_getElem (l := inter) (i := j) (by omega)
      rw [hx] at this; exact (Option.some.inj this).symm
    have e2 : inter[j + 1] = y := by
      rw [List.getElem?_eq_getElem hj] at hy; exact Option.some.inj hy
    rw [e1, e2] at this
    refine (satI_iff gy).1 (this m m' ((satI_iff gx).2 hm) ?_)
    rw [hxt, Nat.add_sub_cancel]
    exact (step_iff_fire ok t m m').1 hs

/-- **C58** (completeness).  The computation does not get stuck on transitions that can be fired, when the upper bounds it is
started with contain the marking reached. -/
theorem C58_notStuck (h : TarNet N) (hn : ∀ t < N.ntransitions, ∀ a ∈ N.preset t, a.inhibitor = false) (m0 : Nat → Nat) (q : Cond)
    (inq : Nat → Bool) (tr : List Nat) (i : Nat) (ts : List (Fin N.ntransitions)) (ht : tr.take i = ts.map fun t => t.val + 1)
    (v : PRVec) (hv : IsPred N.nplaces v) (m m' : Nat → Nat) (hm : N.toNet.Run m ts m')
    (hu : ∀ r ∈ v, r.range.upper = rmax ∨ m' r.place ≤ r.range.upper) (inter : Inter) (stuck : Option Nat)
    (hr : computeHoare ⟨N, m0, q, inq⟩ tr i v = .ok (inter, stuck)) : stuck = none := by
  have ok := h.ok hn
  have hl : ∀ e ∈ tr.take i, 1 ≤ e ∧ e ≤ N.ntransitions := by
    intro e he
    rw [ht, List.mem_map] at he
    obtain ⟨t, _, rfl⟩ := he
    exact ⟨by omega, t.2⟩
  have hseq := fseq_of_run ok hm
  rw [← ht] at hseq
  obtain ⟨h1, h2⟩ := noShort_of_fseq ok _ m m' hl hseq
  have hb := (back_of ok (Q := fun _ => True) _ _ [] hl (fun p _ => Int.natCast_nonneg (m p)) h1 trivial).1
  rw [h2, List.append_nil] at hb
  have g := good_iff.2 hv
  exact (hoare_spec (G := fun _ => True) ok (fun _ => True) _ v _ [] _ (fun e he => hl e (List.mem_reverse.1 he)) g hr).2
    (fun p => ((m' p : Int)).toNat) (fun p hp => (hp trivial).elim) (fun p => by
      by_cases hp : PRVec.rng v p = {}
      · rw [hp]; exact Or.inl rfl
      · exact hu _ (PRVec.mem_of_rng g.sorted hp)) hb

end TARProps
end Verif
