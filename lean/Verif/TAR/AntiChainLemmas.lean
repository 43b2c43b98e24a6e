import Verif.TAR.AntiChain
import Verif.TAR.Search
import Verif.ST.Lemmas

/-! # Lemmas: sets included in sets -/

namespace Verif
namespace AntiChain
open List

/-- Strictly ascending: the elements of a `std::set`. -/
abbrev Asc (l : List Nat) : Prop := l.Pairwise (· < ·)

theorem includes_iff : ∀ (a b : List Nat), Asc a → Asc b → (ST.includes a b = true ↔ ∀ x ∈ b, x ∈ a) := by
  intro a
  induction a with
  | nil =>
    intro b _ _
    cases b with
    | nil => simp [ST.includes]
    | cons y ys =>
      simp only [ST.includes, Bool.false_eq_true, false_iff]
      intro h
      have := h y (by simp)
      cases this
  | cons x xs ih =>
    intro b ha hb
    cases b with
    | nil => simp [ST.includes]
    | cons y ys =>
      have ha' := List.pairwise_cons.1 ha
      have hb' := List.pairwise_cons.1 hb
      simp only [ST.includes]
      by_cases h1 : y < x
      · rw [if_pos h1]
        simp only [Bool.false_eq_true, false_iff]
        intro h
        rcases List.mem_cons.1 (h y (by simp)) with h | h
        · omega
        · have := ha'.1 y h; omega
      · rw [if_neg h1]
        by_cases h2 : x < y
        · rw [if_pos h2, ih _ ha'.2 hb]
          constructor
          · intro h z hz; exact List.mem_cons_of_mem _ (h z hz)
          · intro h z hz
            rcases List.mem_cons.1 (h z hz) with rfl | h3
            · exfalso
              rcases List.mem_cons.1 hz with h4 | h4
              · omega
              · have := hb'.1 z h4; omega
            · exact h3
        · rw [if_neg h2]
          obtain rfl : x = y := by omega
          rw [ih _ ha'.2 hb'.2]
          constructor
          · intro h z hz
            rcases List.mem_cons.1 hz with rfl | hz
            · simp
            · exact List.mem_cons_of_mem _ (h z hz)
          · intro h z hz
            rcases List.mem_cons.1 (h z (by simp [hz])) with rfl | h3
            · have := hb'.1 z hz; omega
            · exact h3

/-- The loop from the back keeps the sets not including the new one. -/
theorem eraseFrom_eq (set : List Nat) : ∀ (i : Nat) (sets : List (List Nat)), i ≤ sets.length →
    eraseFrom set i sets = ((sets.take i).filter fun c => !ST.includes c set) ++ sets.drop i := by
  intro i
  induction i with
  | zero => intro sets _; simp [eraseFrom]
  | succ i ih =>
    intro sets hi
    have hlt : i < sets.length := by omega
    simp only [eraseFrom]
    have hget : sets.getD i [] = sets[i] := by simp [List.getD_eq_getElem?_getD, hlt]
    rw [hget, List.take_succ_eq_append_getElem hlt, List.filter_append]
    by_cases hc : ST.includes sets[i] set = true
    · rw [if_pos hc]
      rw [ih _ (by rw [List.length_eraseIdx]; split <;> omega)]
      rw [List.eraseIdx_eq_take_drop_succ]
      have h1 : (take i sets ++ drop (i + 1) sets).take i = sets.take i := by
        rw [List.take_append_of_le_length (by simp; omega), List.take_take, Nat.min_self]
      have h2 : (take i sets ++ drop (i + 1) sets).drop i = sets.drop (i + 1) := by
        rw [List.drop_append]
        simp
        omega
      rw [h1, h2]
      simp [hc]
    · rw [if_neg hc, ih _ (by omega)]
      rw [List.drop_eq_getElem_cons hlt]
      simp [hc]

theorem eraseFrom_all (set : List Nat) (sets : List (List Nat)) :
    eraseFrom set sets.length sets = sets.filter fun c => !ST.includes c set := by
  rw [eraseFrom_eq set _ _ (Nat.le_refl _)]; simp

/-- One element's sets after a sequence of insertions, as `ST.insertChain` has them. -/
theorem insert_get (map : SMap) (el : Nat) (set : List Nat) (e : Nat) :
    ((insert map el set).1[e]?.getD []) = if e = el then ST.insertChain (map[e]?.getD []) set else map[e]?.getD [] := by
  have hr : ∀ e : Nat, (resize map el)[e]?.getD [] = map[e]?.getD [] := by
    intro e
    unfold resize
    by_cases h : e < map.length
    · rw [List.getElem?_append_left h]
    · rw [List.getElem?_append_right (by omega), List.getElem?_eq_none (by omega : map.length ≤ e)]
      rw [List.getElem?_replicate]
      split <;> rfl
  have hlen : el < (resize map el).length := by
    unfold resize; simp; omega
  have hsub : subsumed (resize map el) el set = ST.subsumed (map[el]?.getD []) set := by
    rw [← hr el]
    unfold subsumed
    rw [List.getElem?_eq_getElem hlen]; rfl
  unfold insert
  simp only [hsub]
  by_cases hs : ST.subsumed (map[el]?.getD []) set = true
  · rw [if_pos hs]
    simp only [hr]
    split
    · rename_i he
      subst he
      unfold ST.insertChain; rw [if_pos hs]
    · rfl
  · rw [if_neg hs]
    simp only
    rw [List.getElem?_modify]
    by_cases he : e = el
    · subst he
      rw [if_pos rfl]
      have := hr e
      rw [List.getElem?_eq_getElem hlen] at this ⊢
      simp only [Option.getD_some] at this
      simp only [if_true, eraseFrom_all, this]
      unfold ST.insertChain
      rw [if_neg hs]
      rfl
    · rw [if_neg he]
      have : (if el = e then (fun sets => eraseFrom set sets.length sets ++ [set]) else id) = (id : List (List Nat) → List (List Nat)) :=
        if_neg (fun h => he h.symm)
      cases hg : (resize map el)[e]? with
      | none => have := hr e; rw [hg] at this; simpa using this
      | some x =>
        have h2 := hr e
        rw [hg] at h2
        simp only [Option.getD_some] at h2
        simp [h2, Ne.symm he]

theorem subsumed_get (map : SMap) (el : Nat) (set : List Nat) : subsumed map el set = ST.subsumed (map[el]?.getD []) set := by
  unfold subsumed
  cases map[el]? <;> rfl

/-- What the sets stored for one element are, after inserting the sets `I`. -/
structure Inv (I : List (List Nat)) (chain : List (List Nat)) : Prop where
  asc : ∀ c ∈ chain, Asc c
  sub : ∀ c ∈ chain, c ∈ I
  cover : ∀ s ∈ I, ∃ c ∈ chain, ∀ x ∈ c, x ∈ s
  anti : chain.Pairwise fun c d => (¬ ∀ x ∈ c, x ∈ d) ∧ ¬ ∀ x ∈ d, x ∈ c

theorem Inv.nil : Inv [] [] := ⟨by simp, by simp, by simp, List.Pairwise.nil⟩

theorem subsumed_iff {chain : List (List Nat)} (h : ∀ c ∈ chain, Asc c) {s : List Nat} (hs : Asc s) :
    ST.subsumed chain s = true ↔ ∃ c ∈ chain, ∀ x ∈ c, x ∈ s := by
  unfold ST.subsumed
  rw [List.any_eq_true]
  refine exists_congr fun c => and_congr_right fun hc => includes_iff s c hs (h c hc)

theorem Inv.insert {I chain : List (List Nat)} (h : Inv I chain) {s : List Nat} (hs : Asc s) : Inv (s :: I) (ST.insertChain chain s) := by
  unfold ST.insertChain
  by_cases hsub : ST.subsumed chain s = true
  · rw [if_pos hsub]
    refine ⟨h.asc, fun c hc => List.mem_cons_of_mem _ (h.sub c hc), fun t ht => ?_, h.anti⟩
    rcases List.mem_cons.1 ht with rfl | ht
    · exact (subsumed_iff h.asc hs).1 hsub
    · exact h.cover t ht
  · rw [if_neg hsub]
    have hns : ∀ c ∈ chain, ¬ ∀ x ∈ c, x ∈ s := fun c hc hx => hsub ((subsumed_iff h.asc hs).2 ⟨c, hc, hx⟩)
    refine ⟨fun c hc => ?_, fun c hc => ?_, fun t ht => ?_, ?_⟩
    · rcases List.mem_append.1 hc with hc | hc
      · exact h.asc c (List.mem_of_mem_filter hc)
      · simp only [List.mem_singleton] at hc; subst hc; exact hs
    · rcases List.mem_append.1 hc with hc | hc
      · exact List.mem_cons_of_mem _ (h.sub c (List.mem_of_mem_filter hc))
      · simp only [List.mem_singleton] at hc; subst hc; simp
    · rcases List.mem_cons.1 ht with rfl | ht
      · exact ⟨t, by simp, fun x hx => hx⟩
      · obtain ⟨c, hc, hx⟩ := h.cover t ht
        by_cases hi : ST.includes c s = true
        · exact ⟨s, by simp, fun x hxs => hx x ((includes_iff c s (h.asc c hc) hs).1 hi x hxs)⟩
        · exact ⟨c, List.mem_append.2 (Or.inl (List.mem_filter.2 ⟨hc, by simpa using hi⟩)), hx⟩
    · rw [List.pairwise_append]
      refine ⟨h.anti.filter _, List.pairwise_singleton _ _, fun c hc d hd => ?_⟩
      simp only [List.mem_singleton] at hd
      subst hd
      obtain ⟨hc1, hc2⟩ := List.mem_filter.1 hc
      refine ⟨hns c hc1, fun hx => ?_⟩
      rw [(includes_iff c d (h.asc c hc1) hs).2 hx] at hc2
      cases hc2

/-- The sets inserted for an element. -/
def setsOf (el : Nat) (l : List (Nat × List Nat)) : List (List Nat) := (l.filter fun x => x.1 == el).map (·.2)

theorem insertAll_inv : ∀ (l : List (Nat × List Nat)), (∀ x ∈ l, Asc x.2) → ∀ el, ∃ I, Inv I ((insertAll l)[el]?.getD []) ∧
    ∀ s, s ∈ I ↔ s ∈ setsOf el l := by
  intro l hl el
  have key : ∀ (l : List (Nat × List Nat)) (map : SMap) (I : List (List Nat)), (∀ x ∈ l, Asc x.2) → Inv I (map[el]?.getD []) →
      ∃ I', Inv I' ((l.foldl (fun map x => (insert map x.1 x.2).1) map)[el]?.getD []) ∧ ∀ s, s ∈ I' ↔ s ∈ I ∨ s ∈ setsOf el l := by
    intro l
    induction l with
    | nil => intro map I _ h; exact ⟨I, h, by simp [setsOf]⟩
    | cons x l ih =>
      intro map I hl h
      by_cases hx : x.1 = el
      · have h1 : Inv (x.2 :: I) ((insert map x.1 x.2).1[el]?.getD []) := by
          rw [insert_get, if_pos hx.symm]
          exact h.insert (hl x (by simp))
        obtain ⟨I', h2, h3⟩ := ih _ _ (fun y hy => hl y (by simp [hy])) h1
        refine ⟨I', h2, fun s => ?_⟩
        rw [h3]
        simp [setsOf, hx]
        tauto
      · have h1 : Inv I ((insert map x.1 x.2).1[el]?.getD []) := by
          rw [insert_get, if_neg (fun h => hx h.symm)]
          exact h
        obtain ⟨I', h2, h3⟩ := ih _ _ (fun y hy => hl y (by simp [hy])) h1
        refine ⟨I', h2, fun s => ?_⟩
        rw [h3]
        simp [setsOf, hx]
  obtain ⟨I, h1, h2⟩ := key l [] [] hl Inv.nil
  exact ⟨I, h1, fun s => by rw [h2]; simp⟩

/-- The search of the trace-abstraction-refinement engine uses the same operations. -/
theorem tar_subsumed {chain : List (List Nat)} (h : ∀ c ∈ chain, Asc c) {s : List Nat} (hs : Asc s) :
    TAR.subsumed chain s = ST.subsumed chain s := by
  rw [Bool.eq_iff_iff, subsumed_iff h hs]
  simp [TAR.subsumed]

theorem tar_insert {chain : List (List Nat)} (h : ∀ c ∈ chain, Asc c) {s : List Nat} (hs : Asc s) :
    TAR.chainInsert chain s = ST.insertChain chain s := by
  unfold TAR.chainInsert ST.insertChain
  rw [tar_subsumed h hs]
  split
  · rfl
  · congr 1
    refine List.filter_congr fun c hc => ?_
    congr 1
    rw [Bool.eq_iff_iff, includes_iff c s (h c hc) hs]
    simp

end AntiChain
end Verif
