import Verif.LTL.ProductLemmas
import Verif.LTL.Runs
import Mathlib.Data.Finset.Basic
import Mathlib.Data.Set.Finite.List

/-!
# The graph the searches run on, and the runs of the automaton on paths of the net
-/

namespace Verif
namespace LTL
open PQL CTL FlatNet Relation
variable {N : FlatNet} {A : Buchi} {ap : Mark → Nat → Bool}

/-- What a search sees of the product: the successors found by the generator, rearranged by the heuristic (`ord`; the
heuristics order the successors and leave none out), `bnd` tells which markings the state set stores.  When the
generator throws the whole program ends; here the state then has no successors, and the theorems assume that no
reachable marking makes the generator throw. -/
def pgraph (N : FlatNet) (A : Buchi) (ap : Mark → Nat → Bool) (bnd : List Nat → Bool)
    (ord : Nat → List (List Nat × Nat) → List (List Nat × Nat)) (hash : List Nat × Nat → Nat) :
    PGraph (List Nat × Nat) where
  succ n v := ord n ((psucc N A ap bnd v).getD [])
  acc v := A.acc v.2
  inv v := A.invLoop v.2
  bnd v := bnd v.1
  hash := hash

/-- The edges the searches see. -/
def pE (N : FlatNet) (A : Buchi) (ap : Mark → Nat → Bool) (bnd : List Nat → Bool) (v w : List Nat × Nat) : Prop :=
  w ∈ (psucc N A ap bnd v).getD []

/-- Specification: a heuristic only reorders. -/
def OrdOK (ord : Nat → List (List Nat × Nat) → List (List Nat × Nat)) : Prop := ∀ n l, (ord n l).Perm l

variable {bnd : List Nat → Bool} {ord : Nat → List (List Nat × Nat) → List (List Nat × Nat)}
  {hash : List Nat × Nat → Nat} {m0 : Mark} {l0 : List Nat}

theorem pgraph_edges (ho : OrdOK ord) : (pgraph N A ap bnd ord hash).Edges (pE N A ap bnd) :=
  ⟨fun n _ _ => (ho n _).mem_iff⟩

theorem hok_of_stored (hs : Small N m0) {l : List Nat} (h : StoredOK N m0 l) : HOK N l :=
  ⟨h.1, small_lt hs h.2, fun _ _ hst p hp => hs _ (h.2.step _ hst) p hp⟩

theorem stored_of_edge {x y : List Nat × Nat} (hx : StoredOK N m0 x.1) (h : PEdge N A ap x y) : StoredOK N m0 y.1 := by
  refine ⟨h.1, ?_⟩
  rcases h.2.1 with ⟨t, ht⟩ | ⟨_, he⟩
  · exact hx.2.step _ ht
  · rw [he]; exact hx.2

theorem pE_sound (w : N.WF) (hA : A.Simple) (hs : Small N m0) {x y : List Nat × Nat} (hx : StoredOK N m0 x.1)
    (h : pE N A ap bnd x y) : PEdge N A ap x y := by
  obtain ⟨L, hL, h1, _⟩ := psucc_spec (ap := ap) w hA bnd (hok_of_stored hs hx) x.2
  rw [pE, show psucc N A ap bnd x = some L from hL] at h
  exact h1 y h

theorem pE_complete (w : N.WF) (hA : A.Simple) (hs : Small N m0) {x y : List Nat × Nat} (hx : StoredOK N m0 x.1)
    (h : PEdge N A ap x y) (hb : bnd y.1 = true) : pE N A ap bnd x y := by
  obtain ⟨L, hL, _, h2⟩ := psucc_spec (ap := ap) w hA bnd (hok_of_stored hs hx) x.2
  rw [pE, show psucc N A ap bnd x = some L from hL]
  exact h2 y h hb

theorem reach_stored (w : N.WF) (hA : A.Simple) (hs : Small N m0) {x y : List Nat × Nat} (hx : StoredOK N m0 x.1)
    (h : ReflTransGen ((pgraph N A ap bnd ord hash).B (pE N A ap bnd)) x y) :
    StoredOK N m0 y.1 ∧ ReflTransGen (PEdge N A ap) x y := by
  induction h with
  | refl => exact ⟨hx, .refl⟩
  | tail _ hbc ih =>
    have he := pE_sound w hA hs ih.1 hbc.1
    exact ⟨stored_of_edge ih.1 he, ih.2.tail he⟩

theorem run_sound (w : N.WF) (hA : A.Simple) (hs : Small N m0) {x : List Nat × Nat} (hx : StoredOK N m0 x.1)
    {acc : List Nat × Nat → Bool}
    (h : AccRun ((pgraph N A ap bnd ord hash).B (pE N A ap bnd)) acc x) : AccRun (PEdge N A ap) acc x := by
  obtain ⟨r, h0, hr, ha⟩ := h
  have hst : ∀ n, StoredOK N m0 (r n).1 := by
    intro n
    induction n with
    | zero => rw [h0]; exact hx
    | succ n ih => exact stored_of_edge ih (pE_sound w hA hs ih (hr n).1)
  exact ⟨r, h0, fun n => pE_sound w hA hs (hst n) (hr n).1, ha⟩

/-- A path stays within the markings of the net. -/
theorem path_stored (w : N.WF) {π : Nat → Mark} (hp : N.ts.IsPath π) {l : List Nat} (hl : StoredOK N m0 l)
    (h0 : π 0 = toMark l) (n : Nat) : StoredOK N m0 (ofMark N.nplaces (π n)) ∧ toMark (ofMark N.nplaces (π n)) = π n := by
  have key : N.toNet.Reach m0 (π n) ∧ ∀ p, N.nplaces ≤ p → π n p = 0 := by
    induction n with
    | zero => rw [h0]; exact ⟨hl.2, fun p hp => toMark_tail (by rw [hl.1]; exact hp)⟩
    | succ n ih =>
      rcases hp n with ⟨t, ht⟩ | ⟨_, he⟩
      · exact ⟨ih.1.step _ ht, fun p hp => by rw [step_tail w ht p hp]; exact ih.2 p hp⟩
      · rw [he]; exact ih
  have he := toMark_ofMark key.2
  exact ⟨⟨by simp [ofMark], by rw [he]; exact key.1⟩, he⟩

theorem invLoop_mem {q : Nat} (h : A.invLoop q = true) : (q, Bdd.leaf true) ∈ A.edges q := by
  simp only [Buchi.invLoop, List.any_eq_true, Bool.and_eq_true, decide_eq_true_eq] at h
  obtain ⟨⟨q', g⟩, h1, rfl, rfl⟩ := h
  exact h1

/-- A state with a self loop labelled `true` can be kept for ever. -/
theorem inv_run (w : N.WF) {x : List Nat × Nat} (hx : StoredOK N m0 x.1) (hi : A.invLoop x.2 = true)
    (ha : A.acc x.2 = true) : AccRun (PEdge N A ap) (fun v => A.acc v.2) x := by
  obtain ⟨π, hp, h0⟩ := N.ts.exists_path (toMark x.1)
  have hst := path_stored w hp hx h0
  refine ⟨fun n => (ofMark N.nplaces (π n), x.2), ?_, ?_, fun n => ⟨n, Nat.le_refl n, ha⟩⟩
  · have : ofMark N.nplaces (π 0) = x.1 := toMark_inj (by rw [hx.1]; simp [ofMark]) (by rw [(hst 0).2, h0])
    simp only [this]
  · intro n
    refine ⟨by simp [ofMark], ?_, _, invLoop_mem hi, rfl⟩
    simp only [(hst n).2, (hst (n + 1)).2]
    exact hp n

theorem mem_pinits {x : List Nat × Nat} : x ∈ pinits A ap l0 ↔
    x.1 = l0 ∧ ∃ g, (x.2, g) ∈ A.edges A.init ∧ g.valid (ap (toMark l0)) = true := by
  obtain ⟨l, q⟩ := x
  simp only [pinits, List.mem_map, List.mem_filter, Prod.mk.injEq]
  constructor
  · rintro ⟨⟨q', g⟩, ⟨h1, h2⟩, rfl, rfl⟩; exact ⟨rfl, g, h1, h2⟩
  · rintro ⟨rfl, g, h1, h2⟩; exact ⟨(q, g), ⟨h1, h2⟩, rfl, rfl⟩

/-- Runs of the product are paths of the net that the automaton accepts. -/
theorem accRun_iff (w : N.WF) (hl : l0.length = N.nplaces) :
    (∃ i, i ∈ pinits A ap l0 ∧ AccRun (PEdge N A ap) (fun v => A.acc v.2) i) ↔
      ∃ π, N.ts.IsPath π ∧ π 0 = toMark l0 ∧ A.Accepts ap π := by
  constructor
  · rintro ⟨i, hi, r, h0, hr, ha⟩
    obtain ⟨h1, g, h2, h3⟩ := mem_pinits.1 hi
    refine ⟨fun n => toMark (r n).1, fun n => (hr n).2.1, by simp [h0, h1], ?_⟩
    refine ⟨fun n => match n with | 0 => A.init | n + 1 => (r n).2, rfl, ?_, ?_⟩
    · intro n
      cases n with
      | zero => exact ⟨g, by simpa [h0] using h2, by simpa [h0, h1] using h3⟩
      | succ n => exact (hr n).2.2
    · intro n
      obtain ⟨k, hk, hak⟩ := ha n
      exact ⟨k + 1, by omega, hak⟩
  · rintro ⟨π, hp, h0, r, hr0, hr, ha⟩
    have hst := path_stored w hp (m0 := toMark l0) ⟨hl, Net.Reach.refl _ _⟩ h0
    have h00 : ofMark N.nplaces (π 0) = l0 := toMark_inj (by rw [hl]; simp [ofMark]) (by rw [(hst 0).2, h0])
    refine ⟨(l0, r 1), mem_pinits.2 ⟨rfl, ?_⟩, fun n => (ofMark N.nplaces (π n), r (n + 1)), by simp [h00], ?_, ?_⟩
    · obtain ⟨g, h1, h2⟩ := hr 0
      rw [hr0] at h1
      replace h2 : g.valid (ap (π 0)) = true := h2
      rw [h0] at h2
      exact ⟨g, h1, h2⟩
    · intro n
      refine ⟨by simp [ofMark], ?_, ?_⟩
      · simp only [(hst n).2, (hst (n + 1)).2]; exact hp n
      · simp only [(hst (n + 1)).2]; exact hr (n + 1)
    · intro n
      obtain ⟨k, hk, hak⟩ := ha (n + 1)
      obtain ⟨k', rfl⟩ : ∃ k', k = k' + 1 := ⟨k - 1, by omega⟩
      exact ⟨k', by omega, hak⟩

/-- What a search has found is a path of the net that the automaton accepts. -/
theorem lasso_accepts (w : N.WF) (hA : A.Simple) (hl : l0.length = N.nplaces) (hs : Small N (toMark l0))
    (h : (pgraph N A ap bnd ord hash).Lasso (pE N A ap bnd) (· ∈ pinits A ap l0)) :
    ∃ π, N.ts.IsPath π ∧ π 0 = toMark l0 ∧ A.Accepts ap π := by
  rw [← accRun_iff w hl]
  obtain ⟨i, a, hi, _, hr, ha, hc⟩ := h
  have hi' : StoredOK N (toMark l0) i.1 := by rw [(mem_pinits.1 hi).1]; exact ⟨hl, Net.Reach.refl _ _⟩
  obtain ⟨hst, hr'⟩ := reach_stored w hA hs hi' hr
  refine ⟨i, hi, AccRun.stem hr' ?_⟩
  rcases hc with hc | hc
  · exact run_sound w hA hs hst (AccRun.cycle (acc := fun v : List Nat × Nat => A.acc v.2) (a := a) ha hc)
  · exact inv_run w hst hc ha

theorem run_complete (w : N.WF) (hA : A.Simple) (hs : Small N m0)
    (hb : ∀ l, StoredOK N m0 l → bnd l = true) {x : List Nat × Nat} (hx : StoredOK N m0 x.1)
    {acc : List Nat × Nat → Bool} (h : AccRun (PEdge N A ap) acc x) :
    AccRun ((pgraph N A ap bnd ord hash).B (pE N A ap bnd)) acc x := by
  obtain ⟨r, h0, hr, ha⟩ := h
  have hst : ∀ n, StoredOK N m0 (r n).1 := by
    intro n
    induction n with
    | zero => rw [h0]; exact hx
    | succ n ih => exact stored_of_edge ih (hr n)
  have hbn : ∀ n, bnd (r n).1 = true := fun n => hb _ (hst n)
  exact ⟨r, h0, fun n => ⟨pE_complete w hA hs (hst n) (hr n) (hbn _), hbn _⟩, ha⟩

/-- Specification: the automaton has the states `0, …, k - 1`. -/
def Buchi.States (A : Buchi) (k : Nat) : Prop := ∀ q, (∀ e ∈ A.edges q, e.1 < k) ∧ (k ≤ q → A.edges q = [])

theorem nodup_bound {l : List Nat} (h : l.Nodup) {k : Nat} (hk : ∀ x ∈ l, x < k) : l.length ≤ k := by
  have := (h.subperm (l₂ := List.range k) fun x hx => List.mem_range.2 (hk x hx)).length_le
  simpa using this

theorem edges_length (hA : A.Simple) {k : Nat} (hk : A.States k) (q : Nat) : (A.edges q).length ≤ k := by
  have := nodup_bound (hA q) (k := k) fun x hx => by
    obtain ⟨e, he, rfl⟩ := List.mem_map.1 hx
    exact (hk q).1 e he
  simpa using this

theorem enumP_length (bnd : List Nat → Bool) (l : List Nat) (q : Nat) : ∀ n info work L,
    enumP N A ap bnd l q n info work = some L → L.length ≤ n := by
  intro n
  induction n with
  | zero => intro info work L h; cases h
  | succ n ih =>
    intro info work L h
    unfold enumP at h
    split at h
    · cases h
    · cases h; simp
    · obtain ⟨L', h1, rfl⟩ := Option.map_eq_some_iff.1 h
      have := ih _ _ _ h1
      simp; omega

theorem succ_length (ho : OrdOK ord) (hA : A.Simple) {k : Nat} (hk : A.States k) (n : Nat) (v : List Nat × Nat) :
    ((pgraph N A ap bnd ord hash).succ n v).length ≤ (N.ntransitions + 2) * (k + 1) + 1 := by
  have h1 : ((psucc N A ap bnd v).getD []).length ≤ enumFuel N A v.2 := by
    cases h : psucc N A ap bnd v with
    | none => simp
    | some L => exact enumP_length _ _ _ _ _ _ _ h
  have h2 : enumFuel N A v.2 ≤ (N.ntransitions + 2) * (k + 1) + 1 :=
    Nat.succ_le_succ (Nat.mul_le_mul_left _ (Nat.succ_le_succ (edges_length hA hk v.2)))
  show (ord n _).length ≤ _
  rw [(ho n _).length_eq]
  omega

/-- The product of a net with finitely many reachable markings is finite. -/
theorem product_finite (k : Nat)
    (hfin : {m | N.toNet.Reach m0 m}.Finite) :
    ∃ R : List (List Nat × Nat), ∀ x : List Nat × Nat, StoredOK N m0 x.1 → x.2 < k → x ∈ R := by
  have : {x : List Nat × Nat | StoredOK N m0 x.1 ∧ x.2 < k}.Finite := by
    have h1 : {l : List Nat | StoredOK N m0 l}.Finite := by
      refine Set.Finite.subset (hfin.image (ofMark N.nplaces)) ?_
      intro l hl
      refine ⟨toMark l, hl.2, toMark_inj (by rw [hl.1]; simp [ofMark]) ?_⟩
      exact toMark_ofMark fun p hp => toMark_tail (by rw [hl.1]; exact hp)
    exact (h1.prod (Set.finite_lt_nat k)).subset fun x hx => ⟨hx.1, hx.2⟩
  exact ⟨this.toFinset.toList, fun x h1 h2 => by simp; exact ⟨h1, h2⟩⟩

theorem reach_state_lt {k : Nat} (hk : A.States k) {x y : List Nat × Nat} (hx : x.2 < k)
    (h : ReflTransGen (PEdge N A ap) x y) : y.2 < k := by
  induction h with
  | refl => exact hx
  | tail _ hbc ih =>
    obtain ⟨g, h1, _⟩ := hbc.2.2
    exact (hk _).1 _ h1

end LTL
end Verif
