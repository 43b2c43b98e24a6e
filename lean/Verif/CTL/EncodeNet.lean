import Verif.CTL.EncodeSem
import Verif.Props.Eval
import Verif.Props.Net
import Mathlib.Data.Set.Finite.Lattice

/-!
# The dependency graph over a net
-/

namespace Verif
namespace CTL
open PQL

/-- Specification: no reachable marking comes near the largest 32-bit value, so that no firing is refused
by the overflow check of the successor generator. -/
def Small (N : FlatNet) (m0 : Mark) : Prop :=
  ∀ m, N.toNet.Reach m0 m → ∀ p, p < N.nplaces → m p < W32 - 1

/-- The stored markings that can occur. -/
def StoredOK (N : FlatNet) (m0 : Mark) (l : List Nat) : Prop := l.length = N.nplaces ∧ N.toNet.Reach m0 (toMark l)

/-- Specification: what the reduced generator has to guarantee for `EF`: it enumerates successors, and from
every reachable marking it keeps a first step of some shortest way to the goal. -/
structure RedOK (N : FlatNet) (m0 : Mark) (red : Cond → List Nat → List (List Nat)) : Prop where
  sub : ∀ c, c.isTemporal = false → ∀ l, StoredOK N m0 l → ∀ l' ∈ red (.EF c) l, l' ∈ (netGens N true red).all l
  prog : ∀ c, c.isTemporal = false → ∀ l, StoredOK N m0 l → ∀ n,
    Until N.ts (fun _ => True) (fun x => Sat N.ts x c) (n + 1) (toMark l) →
    (∀ k, k ≤ n → ¬ Until N.ts (fun _ => True) (fun x => Sat N.ts x c) k (toMark l)) →
    ∃ l' ∈ red (.EF c) l, Until N.ts (fun _ => True) (fun x => Sat N.ts x c) n (toMark l')

theorem toMark_ofMark {n : Nat} {m : Mark} (h : ∀ p, n ≤ p → m p = 0) : toMark (ofMark n m) = m := by
  funext p
  simp only [toMark, ofMark, List.getD]
  by_cases hp : p < n
  · rw [List.getElem?_map, List.getElem?_range hp]; rfl
  · rw [List.getElem?_eq_none (by simp; omega)]
    exact (h p (by omega)).symm

theorem toMark_tail {l : List Nat} {p : Nat} (h : l.length ≤ p) : toMark l p = 0 := by
  simp only [toMark, List.getD]
  rw [List.getElem?_eq_none h]; rfl

theorem toMark_inj {l l' : List Nat} (h : l.length = l'.length) (he : toMark l = toMark l') : l = l' := by
  refine List.ext_getElem h fun i h1 h2 => ?_
  have := congrFun he i
  simp only [toMark, List.getD, List.getElem?_eq_getElem h1, List.getElem?_eq_getElem h2, Option.getD_some] at this
  exact this

theorem succGen_ok {N : FlatNet} (w : N.WF) {m : Mark} (hm : ∀ p, p < N.nplaces → m p < W32)
    (hs : ∀ t m', N.toNet.Step m t m' → ∀ p, p < N.nplaces → m' p < W32 - 1) :
    (N.succGen (fun _ => true) m).2 = false := by
  have hen := FlatNet.genList_enum N m (fun _ => true) (N.ntransitions + 1) FlatNet.genInit
  unfold FlatNet.succGen
  rcases FlatNet.enumFrom_fuel w m (fun _ => true) (N.ntransitions + 1) FlatNet.genInit (FlatNet.genInit_ok w)
    (by omega) with ⟨l, hl⟩ | ⟨_, t, ht, hc, _, hf⟩
  · rw [hl] at hen
    simp only at hen
    rw [hen]
  · have he := (FlatNet.checkPreset_iff w m ⟨t, ht⟩).1 hc
    have := FlatNet.fire_spec w m hm ⟨t, ht⟩ he
    simp only [hf] at this
    obtain ⟨p, hp, hx⟩ := this
    have := hs ⟨t, ht⟩ _ ⟨he, rfl⟩ p hp
    omega

theorem small_lt {N : FlatNet} {m0 : Mark} (hs : Small N m0) {m : Mark} (h : N.toNet.Reach m0 m) :
    ∀ p, p < N.nplaces → m p < W32 := fun p hp => by have := hs m h p hp; omega

theorem netGens_ok {N : FlatNet} (w : N.WF) {m0 : Mark} (hs : Small N m0)
    (po : Bool) (red : Cond → List Nat → List (List Nat)) (hred : po = true → RedOK N m0 red) :
    GensOK N.ts (netGens N po red) (fun l => N.deadlocked (toMark l)) (StoredOK N m0) where
  inj l l' h h' he := toMark_inj (h.1.trans h'.1.symm) he
  succOK l hl l' hm := by
    simp only [netGens, List.mem_map] at hm
    obtain ⟨x, hx, rfl⟩ := hm
    obtain ⟨t, _, _, hst, _⟩ := FlatNet.succGen_step w _ (small_lt hs hl.2) hx
    have : toMark (ofMark N.nplaces x.2) = x.2 := toMark_ofMark fun p hp => by
      rw [FlatNet.step_tail w hst p hp]
      exact toMark_tail (by rw [hl.1]; exact hp)
    refine ⟨⟨by simp [ofMark], ?_⟩, ?_⟩
    · rw [this]; exact hl.2.step _ hst
    · rw [this]; exact ⟨t, hst⟩
  complete l hl m' hst := by
    obtain ⟨t, hst⟩ := hst
    have hno := succGen_ok w (small_lt hs hl.2) fun t m' h p hp => hs m' (hl.2.step _ h) p hp
    have := FlatNet.succGen_complete w (fun _ => true) (small_lt hs hl.2) hno rfl hst
    refine ⟨ofMark N.nplaces m', ?_, ?_⟩
    · simp only [netGens, List.mem_map]
      exact ⟨_, this, rfl⟩
    · refine toMark_ofMark fun p hp => ?_
      rw [FlatNet.step_tail w hst p hp]
      exact toMark_tail (by rw [hl.1]; exact hp)
  ev c l := rfl
  dead l _ := (C02_deadlock_exact N w (toMark l)).trans (N.ts_dead (toMark l)).symm
  redSub hpo c hc l hl l' hm := (hred hpo).sub c hc l hl l' hm
  redProg hpo c hc l hl n h1 h2 := (hred hpo).prog c hc l hl n h1 h2

/-- A formula has finitely many positions. -/
theorem positions_finite (φ : Cond) : {p | (subAt φ p).isSome}.Finite := by
  induction φ using Cond.kids_ind with
  | h c ih =>
    have : {p | (subAt c p).isSome} ⊆ {[]} ∪ ⋃ i ∈ {i | i < (kids c).length},
        ((fun p => i :: p) '' {p | ∃ d, (kids c)[i]? = some d ∧ (subAt d p).isSome}) := by
      rintro p hp
      cases p with
      | nil => left; rfl
      | cons i p =>
        right
        simp only [Set.mem_ofPred_eq, subAt] at hp
        cases hk : (kids c)[i]? with
        | none => rw [hk] at hp; cases hp
        | some d =>
          rw [hk] at hp
          simp only [Set.mem_iUnion, Set.mem_ofPred_eq]
          exact ⟨i, by rw [List.getElem?_eq_some_iff] at hk; exact hk.1, p, ⟨d, hk, hp⟩, rfl⟩
    refine Set.Finite.subset (Set.Finite.union (Set.finite_singleton _) ?_) this
    refine Set.Finite.biUnion (Set.finite_lt_nat _) fun i hi => Set.Finite.image _ ?_
    cases hk : (kids c)[i]? with
    | none => simp
    | some d =>
      have := ih d (List.mem_of_getElem? hk)
      simpa using this

end CTL
end Verif
