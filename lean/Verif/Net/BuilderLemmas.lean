import Verif.Net.Builder
import Verif.Net.FlatLemmas
import Mathlib.Combinatorics.Enumerative.DoubleCounting
import Mathlib.Data.List.Perm.Basic

/-! # Helper lemmas for `makePetriNet` -/

namespace Verif
namespace Builder

/-! ### Layouts -/

/-- Arc arrays laid out for a list of transitions. -/
def layInv (f g : Nat → List Invariant) (em : List Nat) : List Invariant :=
  em.flatMap fun t => f t ++ g t

def layPtr (f g : Nat → List Invariant) (em : List Nat) : List TransPtr :=
  (List.range em.length).map fun k =>
    let o := (layInv f g (em.take k)).length
    ⟨o, o + (f (em.getD k 0)).length⟩

theorem layInv_snoc (f g em t) : layInv f g (em ++ [t]) = layInv f g em ++ f t ++ g t := by
  simp [layInv]

theorem layPtr_length (f g em) : (layPtr f g em).length = em.length := by simp [layPtr]

theorem layPtr_snoc (f g em t) : layPtr f g (em ++ [t]) =
    layPtr f g em ++ [⟨(layInv f g em).length, (layInv f g em).length + (f t).length⟩] := by
  unfold layPtr
  simp only [List.length_append, List.length_singleton, List.range_succ, List.map_append,
    List.map_singleton]
  congr 1
  · apply List.map_congr_left
    intro k hk
    have hk : k < em.length := by simpa using hk
    simp [List.take_append_of_le_length (Nat.le_of_lt hk), hk, List.getElem?_append_left hk]
  · simp

theorem layInv_split (f g em) {k : Nat} (hk : k < em.length) :
    layInv f g em = layInv f g (em.take k) ++ (f em[k] ++ (g em[k] ++ layInv f g (em.drop (k + 1)))) := by
  have : em = em.take k ++ em[k] :: em.drop (k + 1) := by simp
  have h2 : layInv f g em = layInv f g (em.take k ++ em[k] :: em.drop (k + 1)) := by rw [← this]
  rw [h2]
  simp only [layInv, List.flatMap_append, List.flatMap_cons, List.append_assoc]

theorem slice_mid {α : Type} (A X C : List α) : slice (A ++ (X ++ C)) A.length (A.length + X.length) = X := by
  simp [slice]

theorem layInv_take_succ (f g : Nat → List Invariant) (em : List Nat) {k : Nat} (hk : k < em.length) :
    (layInv f g (em.take (k + 1))).length =
      (layInv f g (em.take k)).length + (f em[k]).length + (g em[k]).length := by
  rw [List.take_succ_eq_append_getElem hk, layInv_snoc]
  simp [Nat.add_assoc]

section flat
variable {N : FlatNet} {f g f0 g0 : Nat → List Invariant} {em : List Nat}

/-- A flat net whose arrays are the layout of `em`.  The pointer array may come from arc functions
with equal lengths (`f0`, `g0`), as sorting and reindexing keep lengths. -/
structure IsLayout (N : FlatNet) (f g : Nat → List Invariant) (em : List Nat) : Prop where
  nt : N.ntransitions = em.length
  tr : N.transitions = layPtr f g em ++ [⟨N.ninvariants, N.ninvariants⟩]
  iv : N.invariants = layInv f g em
  ni : N.ninvariants = (layInv f g em).length

theorem IsLayout.inputs_eq (h : IsLayout N f g em) {k : Nat} (hk : k ≤ em.length) :
    N.inputs k = (layInv f g (em.take k)).length := by
  unfold FlatNet.inputs
  rw [h.tr]
  by_cases hlt : k < em.length
  · rw [List.getD_eq_getElem?_getD, List.getElem?_append_left (by simpa [layPtr_length] using hlt)]
    simp [layPtr, hlt]
  · have : k = em.length := by omega
    subst this
    rw [List.getD_eq_getElem?_getD, List.getElem?_append_right (by simp [layPtr_length])]
    simp [layPtr_length, h.ni]

theorem IsLayout.outputs_eq (h : IsLayout N f g em) {k : Nat} (hk : k < em.length) :
    N.outputs k = (layInv f g (em.take k)).length + (f em[k]).length := by
  unfold FlatNet.outputs
  rw [h.tr, List.getD_eq_getElem?_getD,
    List.getElem?_append_left (by simpa [layPtr_length] using hk)]
  simp [layPtr, hk]

theorem IsLayout.preset_eq (h : IsLayout N f g em) {k : Nat} (hk : k < em.length) :
    N.preset k = f em[k] := by
  unfold FlatNet.preset
  rw [h.inputs_eq (Nat.le_of_lt hk), h.outputs_eq hk, h.iv, layInv_split f g em hk]
  exact slice_mid _ _ _

theorem IsLayout.postset_eq (h : IsLayout N f g em) {k : Nat} (hk : k < em.length) :
    N.postset k = g em[k] := by
  unfold FlatNet.postset
  rw [h.inputs_eq (by omega), h.outputs_eq hk, h.iv, layInv_take_succ f g em hk,
    layInv_split f g em hk, ← List.append_assoc, ← List.length_append]
  exact slice_mid _ _ _

theorem layInv_congr_length {f g f' g' : Nat → List Invariant} (hf : ∀ t, (f t).length = (f' t).length)
    (hg : ∀ t, (g t).length = (g' t).length) (em : List Nat) :
    (layInv f g em).length = (layInv f' g' em).length := by
  unfold layInv
  induction em with
  | nil => rfl
  | cons t em ih => simp only [List.flatMap_cons, List.length_append, hf, hg, ih]

theorem layPtr_congr {f g f' g' : Nat → List Invariant} (hf : ∀ t, (f t).length = (f' t).length)
    (hg : ∀ t, (g t).length = (g' t).length) (em : List Nat) :
    layPtr f g em = layPtr f' g' em := by
  unfold layPtr
  apply List.map_congr_left
  intro k _
  simp only [layInv_congr_length hf hg, hf]

end flat

/-! ### Counting arcs -/

theorem list_range_sum (n : Nat) (f : Nat → Nat) :
    ((List.range n).map f).sum = ∑ i ∈ Finset.range n, f i := by
  induction n with
  | zero => simp
  | succ n ih => rw [List.range_succ, Finset.sum_range_succ]; simp [ih]

theorem nodup_card {l : List Nat} (h : l.Nodup) : l.length = l.toFinset.card := by
  rw [List.toFinset_card_of_nodup h]

theorem trans_of_ge (B : Builder) {t : Nat} (h : B.transitions.length ≤ t) : B.trans t = default := by
  simp [trans, h]

theorem place_of_ge (B : Builder) {p : Nat} (h : B.places.length ≤ p) : B.place p = default := by
  simp [place, h]

variable {B : Builder}

theorem lt_of_pre (h : (B.trans t).pre ≠ []) : t < B.transitions.length := by
  by_contra hc
  exact h (by rw [trans_of_ge B (by omega)]; rfl)

theorem lt_of_post (h : (B.trans t).post ≠ []) : t < B.transitions.length := by
  by_contra hc
  exact h (by rw [trans_of_ge B (by omega)]; rfl)

theorem mem_consumers_lt (w : B.WF) {p t : Nat} (h : t ∈ (B.place p).consumers) :
    t < B.transitions.length := by
  have := (w.cons_iff p t).1 h
  exact lt_of_pre (by rintro e; rw [e] at this; simp at this)

theorem mem_producers_lt (w : B.WF) {p t : Nat} (h : t ∈ (B.place p).producers) :
    t < B.transitions.length := by
  have := (w.prod_iff p t).1 h
  exact lt_of_post (by rintro e; rw [e] at this; simp at this)

theorem pre_place_lt (w : B.WF) {p t : Nat} (h : p ∈ (B.trans t).pre.map Arc.place) :
    p < B.places.length ∧ (B.place p).skip = false := by
  obtain ⟨a, ha, rfl⟩ := List.mem_map.1 h
  exact w.arc_place t a (by simp [ha])

theorem post_place_lt (w : B.WF) {p t : Nat} (h : p ∈ (B.trans t).post.map Arc.place) :
    p < B.places.length ∧ (B.place p).skip = false := by
  obtain ⟨a, ha, rfl⟩ := List.mem_map.1 h
  exact w.arc_place t a (by simp [ha])

theorem sum_consumers (w : B.WF) :
    ∑ p ∈ Finset.range B.places.length, (B.place p).consumers.length =
      ∑ t ∈ Finset.range B.transitions.length, (B.trans t).pre.length := by
  have h := Finset.sum_card_bipartiteAbove_eq_sum_card_bipartiteBelow
    (s := Finset.range B.places.length) (t := Finset.range B.transitions.length)
    (r := fun p t => p ∈ (B.trans t).pre.map Arc.place)
  have h1 : ∀ p, (B.place p).consumers.length =
      (Finset.bipartiteAbove (fun p t => p ∈ (B.trans t).pre.map Arc.place)
        (Finset.range B.transitions.length) p).card := by
    intro p
    rw [nodup_card (w.cons_nodup p)]
    congr 1
    ext t
    simp only [Finset.bipartiteAbove, Finset.mem_filter, Finset.mem_range, List.mem_toFinset]
    rw [w.cons_iff]
    exact ⟨fun hh => ⟨mem_consumers_lt w ((w.cons_iff p t).2 hh), hh⟩, fun hh => hh.2⟩
  have h2 : ∀ t, (B.trans t).pre.length =
      (Finset.bipartiteBelow (fun p t => p ∈ (B.trans t).pre.map Arc.place)
        (Finset.range B.places.length) t).card := by
    intro t
    rw [← List.length_map (f := Arc.place), nodup_card (w.pre_nodup t)]
    congr 1
    ext p
    simp only [Finset.bipartiteBelow, Finset.mem_filter, Finset.mem_range, List.mem_toFinset]
    exact ⟨fun hh => ⟨(pre_place_lt w hh).1, hh⟩, fun hh => hh.2⟩
  simp only [h1, h2]
  exact h

theorem sum_producers (w : B.WF) :
    ∑ p ∈ Finset.range B.places.length, (B.place p).producers.length =
      ∑ t ∈ Finset.range B.transitions.length, (B.trans t).post.length := by
  have h := Finset.sum_card_bipartiteAbove_eq_sum_card_bipartiteBelow
    (s := Finset.range B.places.length) (t := Finset.range B.transitions.length)
    (r := fun p t => p ∈ (B.trans t).post.map Arc.place)
  have h1 : ∀ p, (B.place p).producers.length =
      (Finset.bipartiteAbove (fun p t => p ∈ (B.trans t).post.map Arc.place)
        (Finset.range B.transitions.length) p).card := by
    intro p
    rw [nodup_card (w.prod_nodup p)]
    congr 1
    ext t
    simp only [Finset.bipartiteAbove, Finset.mem_filter, Finset.mem_range, List.mem_toFinset]
    rw [w.prod_iff]
    exact ⟨fun hh => ⟨mem_producers_lt w ((w.prod_iff p t).2 hh), hh⟩, fun hh => hh.2⟩
  have h2 : ∀ t, (B.trans t).post.length =
      (Finset.bipartiteBelow (fun p t => p ∈ (B.trans t).post.map Arc.place)
        (Finset.range B.places.length) t).card := by
    intro t
    rw [← List.length_map (f := Arc.place), nodup_card (w.post_nodup t)]
    congr 1
    ext p
    simp only [Finset.bipartiteBelow, Finset.mem_filter, Finset.mem_range, List.mem_toFinset]
    exact ⟨fun hh => ⟨(post_place_lt w hh).1, hh⟩, fun hh => hh.2⟩
  simp only [h1, h2]
  exact h

theorem skip_no_consumers (w : B.WF) {p : Nat} (h : (B.place p).skip = true) :
    (B.place p).consumers = [] ∧ (B.place p).producers = [] := by
  constructor
  · rw [List.eq_nil_iff_forall_not_mem]
    intro t ht
    have := (pre_place_lt w ((w.cons_iff p t).1 ht)).2
    simp [h] at this
  · rw [List.eq_nil_iff_forall_not_mem]
    intro t ht
    have := (post_place_lt w ((w.prod_iff p t).1 ht)).2
    simp [h] at this

def preI (B : Builder) (t : Nat) : List Invariant := (B.trans t).pre.map preInv
def postI (B : Builder) (t : Nat) : List Invariant := (B.trans t).post.map postInv

theorem nInvariants_eq (w : B.WF) : B.nInvariants =
    ∑ t ∈ Finset.range B.transitions.length, ((B.trans t).pre.length + (B.trans t).post.length) := by
  unfold nInvariants
  rw [list_range_sum, Finset.sum_add_distrib, ← sum_consumers w, ← sum_producers w,
    ← Finset.sum_add_distrib]
  apply Finset.sum_congr rfl
  intro p _
  cases h : (B.place p).skip with
  | false => simp
  | true => simp [skip_no_consumers w h]

theorem layInv_len_eq (em : List Nat) : (layInv (preI B) (postI B) em).length =
    (em.map fun t => (B.trans t).pre.length + (B.trans t).post.length).sum := by
  induction em with
  | nil => rfl
  | cons t em ih =>
    simp only [layInv, List.flatMap_cons, List.length_append, List.map_cons, List.sum_cons] at ih ⊢
    rw [ih]; simp [preI, postI]

/-- A duplicate-free list of transitions needs no more arcs than were allocated. -/
theorem layInv_le (w : B.WF) {em : List Nat} (hn : em.Nodup)
    (hlt : ∀ t ∈ em, t < B.transitions.length) :
    (layInv (preI B) (postI B) em).length ≤ B.nInvariants := by
  rw [layInv_len_eq, nInvariants_eq w, ← List.sum_toFinset _ hn]
  apply Finset.sum_le_sum_of_subset
  intro t ht
  simpa using hlt t (by simpa using ht)

theorem layInv_full (w : B.WF) {em : List Nat} (hn : em.Nodup)
    (hlt : ∀ t ∈ em, t < B.transitions.length)
    (hall : ∀ t, t < B.transitions.length → (B.trans t).skip = false → t ∈ em) :
    (layInv (preI B) (postI B) em).length = B.nInvariants := by
  rw [layInv_len_eq, nInvariants_eq w, ← List.sum_toFinset _ hn]
  apply Finset.sum_subset
  · intro t ht
    simpa using hlt t (by simpa using ht)
  · intro t ht hne
    have ht : t < B.transitions.length := by simpa using ht
    have hs : (B.trans t).skip = true := by
      by_contra hc
      exact hne (by simpa using hall t ht (by simpa using hc))
    simp [w.skip_empty t hs]

end Builder
end Verif
