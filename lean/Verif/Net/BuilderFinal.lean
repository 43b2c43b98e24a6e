import Verif.Net.BuilderLoop

/-! # From the loop invariants to the compiled net -/

namespace Verif
namespace Builder

variable {B : Builder}

/-- Reindexed place of an arc. -/
def reidx (idmap : Nat → Option Nat) (i : Invariant) : Invariant :=
  { i with place := (idmap i.place).getD (W32 - 1) }

def sortedPre (B : Builder) (idmap : Nat → Option Nat) (t : Nat) : List Invariant :=
  sortInvs ((preI B t).map (reidx idmap))
def sortedPost (B : Builder) (idmap : Nat → Option Nat) (t : Nat) : List Invariant :=
  sortInvs ((postI B t).map (reidx idmap))

def finPre (B : Builder) (idmap : Nat → Option Nat) (t : Nat) : List Invariant :=
  (sortedPre B idmap t).map fun i => { i with direction := preDir (sortedPost B idmap t) i }
def finPost (B : Builder) (idmap : Nat → Option Nat) (t : Nat) : List Invariant :=
  (sortedPost B idmap t).map fun i => { i with direction := postDir (sortedPre B idmap t) i }

theorem finishTrans_eq (idmap : Nat → Option Nat) (t : Nat) :
    finishTrans idmap (preI B t) (postI B t) = finPre B idmap t ++ finPost B idmap t := rfl

theorem finPre_length (idmap t) : (finPre B idmap t).length = (preI B t).length := by
  simp [finPre, sortedPre, sortInvs]

theorem finPost_length (idmap t) : (finPost B idmap t).length = (postI B t).length := by
  simp [finPost, sortedPost, sortInvs]

theorem mem_finPre {idmap t i} : i ∈ finPre B idmap t ↔ ∃ a ∈ (B.trans t).pre,
    i = { reidx idmap (preInv a) with direction := preDir (sortedPost B idmap t) (reidx idmap (preInv a)) } := by
  simp [finPre, sortedPre, sortInvs, preI, eq_comm]

theorem mem_finPost {idmap t i} : i ∈ finPost B idmap t ↔ ∃ a ∈ (B.trans t).post,
    i = { reidx idmap (postInv a) with direction := postDir (sortedPre B idmap t) (reidx idmap (postInv a)) } := by
  simp [finPost, sortedPost, sortInvs, postI, eq_comm]

theorem flatMap_range_getD {α} (em : List Nat) (f : Nat → List α) :
    (List.range em.length).flatMap (fun k => f (em.getD k 0)) = em.flatMap f := by
  induction em using List.reverseRecOn with
  | nil => simp
  | append_singleton em t ih =>
    rw [List.length_append, List.length_singleton, List.range_succ, List.flatMap_append,
      List.flatMap_append]
    congr 1
    · rw [← ih]
      apply List.flatMap_congr
      intro k hk
      have hk : k < em.length := by simpa using hk
      simp [List.getElem?_append_left hk]
    · simp

theorem nodup_map_reidx {l : List Arc} {idmap : Nat → Option Nat} {f : Arc → Invariant}
    (hf : ∀ a, (f a).place = a.place)
    (hn : (l.map Arc.place).Nodup)
    (hinj : ∀ a ∈ l, ∀ b ∈ l, (idmap a.place).getD (W32 - 1) = (idmap b.place).getD (W32 - 1) →
      a.place = b.place) :
    (((l.map f).map (reidx idmap)).map Invariant.place).Nodup := by
  rw [List.map_map, List.map_map]
  have hnl : l.Nodup := List.Nodup.of_map _ hn
  refine (List.nodup_map_iff_inj_on hnl).2 ?_
  intro a ha b hb hab
  simp only [Function.comp, reidx, hf] at hab
  exact List.inj_on_of_nodup_map hn ha hb (hinj a ha b hb hab)

theorem find_char {l : List Invariant} (hn : (l.map Invariant.place).Nodup) (p : Nat)
    (q : Invariant → Bool) (i : Invariant) :
    l.find? (fun j => j.place == p && q j) = some i ↔ (i ∈ l ∧ i.place = p ∧ q i = true) := by
  constructor
  · intro h
    have h1 := List.mem_of_find?_eq_some h
    have h2 := List.find?_some h
    simp at h2
    exact ⟨h1, h2⟩
  · rintro ⟨h1, rfl, h3⟩
    exact FlatNet.find_place hn h1 q h3

theorem find_arc {l : List Arc} (hn : (l.map Arc.place).Nodup) (p : Nat)
    (q : Arc → Bool) (i : Arc) :
    l.find? (fun j => j.place == p && q j) = some i ↔ (i ∈ l ∧ i.place = p ∧ q i = true) := by
  constructor
  · intro h
    have h1 := List.mem_of_find?_eq_some h
    have h2 := List.find?_some h
    simp at h2
    exact ⟨h1, h2⟩
  · rintro ⟨h1, rfl, h3⟩
    induction l with
    | nil => simp at h1
    | cons j l ih =>
      simp only [List.map_cons, List.nodup_cons] at hn
      rw [List.find?_cons]
      rcases List.mem_cons.1 h1 with rfl | h
      · simp [h3]
      · have : j.place ≠ i.place := fun e => hn.1 (e ▸ List.mem_map_of_mem h)
        have hb : (j.place == i.place) = false := by simpa using this
        simp [hb, ih hn.2 h]

theorem flatten_mem_block (blocks : List (List Nat)) (k j : Nat) (b : List Nat)
    (hb : blocks[k]? = some b)
    (h1 : (blocks.take k).flatten.length ≤ j) (h2 : j < (blocks.take (k + 1)).flatten.length) :
    ∃ t ∈ b, blocks.flatten[j]? = some t := by
  have hk : k < blocks.length := by
    by_contra hc
    rw [List.getElem?_eq_none (by omega)] at hb; simp at hb
  have hbk : blocks[k] = b := by
    rw [List.getElem?_eq_getElem hk] at hb; simpa using hb
  have hsplit : blocks = blocks.take k ++ (b :: blocks.drop (k + 1)) := by
    rw [← hbk]; simp
  have hfl : blocks.flatten = (blocks.take k).flatten ++ (b ++ (blocks.drop (k + 1)).flatten) := by
    have := congrArg List.flatten hsplit
    rw [List.flatten_append, List.flatten_cons] at this
    exact this
  rw [List.take_succ_eq_append_getElem hk, hbk, List.flatten_append] at h2
  simp at h2
  refine ⟨b[j - (blocks.take k).flatten.length]'(by simp; simp at h1; omega), by simp, ?_⟩
  rw [hfl, List.getElem?_append_right h1, List.getElem?_append_left (by simp; simp at h1; omega)]
  simp

structure Facts (B : Builder) (c : Compiled) (order em : List Nat) (blocks : List (List Nat)) : Prop where
  np : c.net.nplaces = order.length
  np_pos : 0 < order.length
  lay : IsLayout c.net (finPre B c.idmap) (finPost B c.idmap) em
  em_eq : em = blocks.flatten
  em_nodup : em.Nodup
  em_ok : ∀ t, t ∈ em ↔ t < B.transitions.length ∧ (B.trans t).skip = false
  order_nodup : order.Nodup
  order_ok : ∀ p, p ∈ order ↔ p < B.places.length ∧ (B.place p).skip = false
  idmap : ∀ p k, c.idmap p = some k ↔ order[k]? = some p
  tmap : ∀ t k, c.tmap t = some k ↔ em[k]? = some t
  blen : blocks.length = order.length
  ptrs : c.net.placeToPtrs = (List.range (order.length + 1)).map
    (fun k => (blocks.take k).flatten.length)
  block : ∀ k b p t, 0 < k → blocks[k]? = some b → order[k]? = some p → t ∈ b →
    ∃ a ∈ (B.trans t).pre, a.place = p ∧ a.inhib = false
  init : c.init = fun q =>
    match (List.range B.places.length).find? (fun p => c.idmap p == some q) with
    | some p => B.init.getD p 0
    | none => 0
  ctrl : ∀ k t, em[k]? = some t → c.net.controllable.getD k true =
    if allInhib B t then true else decide ((B.trans t).player = 0)

theorem make_facts (w : B.WF) (reorder : Bool)
    (hne : ∃ p, p < B.places.length ∧ (B.place p).skip = false) :
    ∃ c order em blocks, B.makePetriNet reorder = some c ∧ Facts B c order em blocks := by
  obtain ⟨order, blocks, hinv, hpos, hall⟩ := mkAll_inv w reorder hne
  obtain ⟨emN, hst⟩ := hinv.st
  generalize hs : mkAll B reorder = s at *
  have hordn := hinv.order_nodup
  have hord : ∀ p, p ∈ order ↔ p < B.places.length ∧ (B.place p).skip = false :=
    fun p => ⟨hinv.order_ok p, fun h => hall p h.1 h.2⟩
  have hem : ∀ t, t ∈ blocks.flatten ↔ t < B.transitions.length ∧ (B.trans t).skip = false := by
    intro t
    rw [hinv.mem]
    refine ⟨fun h => ⟨h.1, h.2.1⟩, fun h => ⟨h.1, h.2, ?_⟩⟩
    by_cases ha : allInhib B t = true
    · exact .inl ha
    · right
      unfold allInhib at ha
      rw [List.all_eq_true] at ha
      push Not at ha
      obtain ⟨a, ha1, ha2⟩ := ha
      refine ⟨a, ha1, by simpa using ha2, ?_⟩
      rw [hord]
      exact w.arc_place t a (by simp [ha1])
  have hnt : B.nUnskippedTransitions = blocks.flatten.length := by
    unfold nUnskippedTransitions
    apply List.Perm.length_eq
    rw [List.perm_ext_iff_of_nodup (List.nodup_range.filter _) hst.nodup]
    intro t
    rw [hem]; simp
  have hnp : B.nUnskippedPlaces = order.length := by
    unfold nUnskippedPlaces
    apply List.Perm.length_eq
    rw [List.perm_ext_iff_of_nodup (List.nodup_range.filter _) hordn]
    intro p
    rw [hord]; simp
  have hni : B.nInvariants = (layInv (preI B) (postI B) blocks.flatten).length :=
    (layInv_full w hst.nodup (fun t ht => ((hem t).1 ht).1) (fun t h1 h2 => (hem t).2 ⟨h1, h2⟩)).symm
  have hc1 : s.trans.length = B.nUnskippedTransitions := by
    rw [hnt, hst.trans, layPtr_length]
  have hc2 : s.invs.length = B.nInvariants := by rw [hni, hst.invs]
  have hc3 : s.ptrs.length = B.nUnskippedPlaces := by rw [hnp, hinv.ptrs]; simp
  unfold makePetriNet
  simp only
  rw [hs, if_pos ⟨hc1, hc2, hc3⟩]
  refine ⟨_, order, blocks.flatten, blocks, rfl, ?_⟩
  refine ⟨hnp, hpos, ?_, rfl, hst.nodup, hem, hordn, hord, hinv.idmap, hst.tmap, hinv.len, ?_,
    hinv.block, rfl, ?_⟩
  · -- layout
    have hraw : IsLayout
      { nplaces := B.nUnskippedPlaces, ntransitions := B.nUnskippedTransitions
        ninvariants := B.nInvariants
        transitions := s.trans ++ [⟨B.nInvariants, B.nInvariants⟩]
        invariants := s.invs
        placeToPtrs := s.ptrs ++ [B.nUnskippedTransitions]
        controllable := (List.range (B.nUnskippedTransitions + 1)).map s.ctrl }
        (preI B) (postI B) blocks.flatten :=
      ⟨hnt, by rw [hst.trans], hst.invs, hni⟩
    refine ⟨hnt, ?_, ?_, ?_⟩
    · simp only
      rw [hst.trans, layPtr_congr (fun t => (finPre_length s.idmap t).symm)
        (fun t => (finPost_length s.idmap t).symm)]
    · simp only
      unfold layInv
      rw [← flatMap_range_getD blocks.flatten, hnt]
      apply List.flatMap_congr
      intro k hk
      have hk : k < blocks.flatten.length := by simpa using hk
      have := hraw.preset_eq hk
      have h2 := hraw.postset_eq hk
      rw [hnt] at this h2
      rw [this, h2, finishTrans_eq]
      have hg : blocks.flatten.getD k 0 = blocks.flatten[k] := by
        rw [List.getD_eq_getElem?_getD, List.getElem?_eq_getElem hk]; rfl
      rw [hg]
    · simp only
      rw [hni]
      exact layInv_congr_length (fun t => (finPre_length s.idmap t).symm)
        (fun t => (finPost_length s.idmap t).symm) _
  · simp only
    rw [hinv.ptrs, List.range_succ, List.map_append, hnt]
    congr 1
    rw [List.map_singleton, ← hinv.len, List.take_length]
  · intro k t hk
    have hklt : k < blocks.flatten.length := by
      by_contra hcc
      rw [List.getElem?_eq_none (by omega)] at hk; simp at hk
    simp only
    rw [List.getD_eq_getElem?_getD, List.getElem?_map, List.getElem?_range (by omega)]
    exact hst.ctrl k t hk

section
variable {c : Compiled} {order em : List Nat} {blocks : List (List Nat)}

theorem Facts.idmap_lt (h : Facts B c order em blocks) {p k : Nat} (hk : c.idmap p = some k) :
    k < order.length := by
  have := (h.idmap p k).1 hk
  by_contra hc
  rw [List.getElem?_eq_none (by omega)] at this; simp at this

theorem Facts.idmap_some (h : Facts B c order em blocks) {p : Nat} (hp : p < B.places.length)
    (hs : (B.place p).skip = false) : ∃ k, c.idmap p = some k ∧ k < order.length := by
  obtain ⟨k, hk, hke⟩ := List.getElem_of_mem ((h.order_ok p).2 ⟨hp, hs⟩)
  exact ⟨k, (h.idmap p k).2 (by rw [List.getElem?_eq_getElem hk, hke]), hk⟩

theorem Facts.idmap_inj (h : Facts B c order em blocks) {p q k : Nat} (hp : c.idmap p = some k)
    (hq : c.idmap q = some k) : p = q := by
  have h1 := (h.idmap p k).1 hp
  have h2 := (h.idmap q k).1 hq
  rw [h1] at h2; simpa using h2

theorem Facts.arc_idmap (h : Facts B c order em blocks) (w : B.WF) {t : Nat} {a : Arc}
    (ha : a ∈ (B.trans t).pre ++ (B.trans t).post) :
    ∃ k, c.idmap a.place = some k ∧ k < order.length := by
  obtain ⟨h1, h2⟩ := w.arc_place t a ha
  exact h.idmap_some h1 h2

theorem Facts.getD_inj (h : Facts B c order em blocks) (w : B.WF) {t : Nat} {a b : Arc}
    (ha : a ∈ (B.trans t).pre ++ (B.trans t).post) (hb : b ∈ (B.trans t).pre ++ (B.trans t).post)
    (he : (c.idmap a.place).getD (W32 - 1) = (c.idmap b.place).getD (W32 - 1)) :
    a.place = b.place := by
  obtain ⟨k, hk, _⟩ := h.arc_idmap w ha
  obtain ⟨j, hj, _⟩ := h.arc_idmap w hb
  rw [hk, hj] at he
  simp at he; subst he
  exact h.idmap_inj hk hj

theorem Facts.pre_nodup (h : Facts B c order em blocks) (w : B.WF) (t : Nat) :
    ((finPre B c.idmap t).map Invariant.place).Nodup := by
  have h1 : ((((B.trans t).pre.map preInv).map (reidx c.idmap)).map Invariant.place).Nodup :=
    nodup_map_reidx (f := preInv) (fun _ => rfl) (w.pre_nodup t)
      (fun a ha b hb he => h.getD_inj w (t := t) (by simp [ha]) (by simp [hb]) he)
  have h2 : (finPre B c.idmap t).map Invariant.place =
      (sortedPre B c.idmap t).map Invariant.place := by
    simp [finPre, Function.comp_def]
  rw [h2]
  exact ((List.mergeSort_perm _ _).map Invariant.place).nodup_iff.2 h1

theorem Facts.post_nodup (h : Facts B c order em blocks) (w : B.WF) (t : Nat) :
    ((finPost B c.idmap t).map Invariant.place).Nodup := by
  have h1 : ((((B.trans t).post.map postInv).map (reidx c.idmap)).map Invariant.place).Nodup :=
    nodup_map_reidx (f := postInv) (fun _ => rfl) (w.post_nodup t)
      (fun a ha b hb he => h.getD_inj w (t := t) (by simp [ha]) (by simp [hb]) he)
  have h2 : (finPost B c.idmap t).map Invariant.place =
      (sortedPost B c.idmap t).map Invariant.place := by
    simp [finPost, Function.comp_def]
  rw [h2]
  exact ((List.mergeSort_perm _ _).map Invariant.place).nodup_iff.2 h1

theorem Facts.inv_mem (h : Facts B c order em blocks) {i : Invariant} (hi : i ∈ c.net.invariants) :
    ∃ t ∈ em, i ∈ finPre B c.idmap t ∨ i ∈ finPost B c.idmap t := by
  rw [h.lay.iv] at hi
  unfold layInv at hi
  obtain ⟨t, ht, hi⟩ := List.mem_flatMap.1 hi
  exact ⟨t, ht, by simpa using hi⟩

theorem Facts.inv_arc (h : Facts B c order em blocks) {i : Invariant}
    (hi : i ∈ c.net.invariants) :
    ∃ t, ∃ a ∈ (B.trans t).pre ++ (B.trans t).post, i.place = (c.idmap a.place).getD (W32 - 1) ∧
      i.tokens = a.weight := by
  obtain ⟨t, _, hi | hi⟩ := h.inv_mem hi
  · obtain ⟨a, ha, rfl⟩ := mem_finPre.1 hi
    exact ⟨t, a, by simp [ha], rfl, rfl⟩
  · obtain ⟨a, ha, rfl⟩ := mem_finPost.1 hi
    exact ⟨t, a, by simp [ha], rfl, rfl⟩

theorem Facts.ptr_eq (h : Facts B c order em blocks) {k : Nat} (hk : k ≤ order.length) :
    c.net.ptr k = (blocks.take k).flatten.length := by
  unfold FlatNet.ptr
  rw [h.ptrs, List.getD_eq_getElem?_getD, List.getElem?_map, List.getElem?_range (by omega)]
  rfl

theorem Facts.wf (h : Facts B c order em blocks) (w : B.WF) : c.net.WF where
  places_pos := by rw [h.np]; exact h.np_pos
  len_trans := by rw [h.lay.tr, h.lay.nt]; simp [layPtr_length]
  len_inv := by rw [h.lay.iv, h.lay.ni]
  len_ptr := by rw [h.ptrs, h.np]; simp
  ptr_zero := by rw [h.ptr_eq (Nat.zero_le _)]; simp
  ptr_mono := by
    intro p hp
    rw [h.np] at hp
    rw [h.ptr_eq (by omega), h.ptr_eq (by omega), List.take_succ_eq_append_getElem (by rw [h.blen]; exact hp),
      List.flatten_append, List.length_append]
    exact Nat.le_add_right _ _
  ptr_last := by
    rw [h.np, h.ptr_eq (Nat.le_refl _), h.lay.nt, h.em_eq, List.take_of_length_le (by rw [h.blen])]
  in_out := by
    intro t ht
    rw [h.lay.nt] at ht
    rw [h.lay.inputs_eq (Nat.le_of_lt ht), h.lay.outputs_eq ht]; omega
  out_in := by
    intro t ht
    rw [h.lay.nt] at ht
    rw [h.lay.inputs_eq ht, h.lay.outputs_eq ht, layInv_take_succ _ _ _ ht]; omega
  last_in := by
    rw [h.lay.nt, h.lay.inputs_eq (Nat.le_refl _), h.lay.ni]; simp
  place_lt := by
    intro i hi
    obtain ⟨t, a, ha, hp, _⟩ := h.inv_arc hi
    obtain ⟨k, hk, hlt⟩ := h.arc_idmap w ha
    rw [hp, hk, h.np]; simpa using hlt
  tokens_pos := by
    intro i hi
    obtain ⟨t, a, ha, _, hp⟩ := h.inv_arc hi
    rw [hp]; exact (w.arc_weight t a ha).1
  tokens_lt := by
    intro i hi
    obtain ⟨t, a, ha, _, hp⟩ := h.inv_arc hi
    rw [hp]; exact (w.arc_weight t a ha).2
  pre_nodup := by
    intro t ht
    rw [h.lay.nt] at ht
    rw [h.lay.preset_eq ht]; exact h.pre_nodup w _
  post_nodup := by
    intro t ht
    rw [h.lay.nt] at ht
    rw [h.lay.postset_eq ht]; exact h.post_nodup w _
  block := by
    intro p t hp hlt h1 h2
    rw [h.np] at hlt
    rw [h.ptr_eq (by omega)] at h1 h2
    have hb : blocks[p]? = some (blocks[p]'(by rw [h.blen]; exact hlt)) := List.getElem?_eq_getElem _
    obtain ⟨u, hu, hue⟩ := flatten_mem_block blocks p t _ hb h1 h2
    have hq : order[p]? = some order[p] := List.getElem?_eq_getElem _
    obtain ⟨a, ha, hap, hai⟩ := h.block p _ _ u hp hb hq hu
    rw [← h.em_eq] at hue
    have htl : t < em.length := by
      by_contra hc
      rw [List.getElem?_eq_none (by omega)] at hue; simp at hue
    have : em[t] = u := by rw [List.getElem?_eq_getElem htl] at hue; simpa using hue
    rw [h.lay.preset_eq htl, this]
    refine ⟨_, mem_finPre.2 ⟨a, ha, rfl⟩, ?_, hai⟩
    have hid := (h.idmap order[p] p).2 hq
    simp only [reidx, preInv, hap, hid]
    rfl

theorem Facts.pre_eq (h : Facts B c order em blocks) (w : B.WF) {t k p q : Nat}
    (ht : em[k]? = some t) (hk : k < c.net.ntransitions) (hp : c.idmap p = some q) :
    c.net.toNet.pre ⟨k, hk⟩ q = B.toNet.pre t p ∧
    c.net.toNet.inh ⟨k, hk⟩ q = B.toNet.inh t p ∧
    c.net.toNet.post ⟨k, hk⟩ q = B.toNet.post t p := by
  have hkl : k < em.length := by rw [← h.lay.nt]; exact hk
  have hkt : em[k] = t := by rw [List.getElem?_eq_getElem hkl] at ht; simpa using ht
  have key : ∀ {a : Arc}, a ∈ (B.trans t).pre ++ (B.trans t).post →
      ((c.idmap a.place).getD (W32 - 1) = q ↔ a.place = p) := by
    intro a ha
    obtain ⟨j, hj, _⟩ := h.arc_idmap w ha
    rw [hj]
    constructor
    · rintro rfl; exact h.idmap_inj hj hp
    · rintro rfl; rw [hp] at hj; simpa using hj.symm
  simp only [FlatNet.toNet, Builder.toNet]
  rw [h.lay.preset_eq hkl, h.lay.postset_eq hkl, hkt]
  refine ⟨?_, ?_, ?_⟩
  · cases hf : (B.trans t).pre.find? (fun a => a.place == p && !a.inhib) with
    | some a =>
      obtain ⟨h1, h2, h3⟩ := (find_arc (w.pre_nodup t) p (fun a => !a.inhib) a).1 hf
      have := (find_char (h.pre_nodup w t) q (fun j => !j.inhibitor)
        { reidx c.idmap (preInv a) with direction := preDir (sortedPost B c.idmap t) (reidx c.idmap (preInv a)) }).2
        ⟨mem_finPre.2 ⟨a, h1, rfl⟩, (key (by simp [h1])).2 h2, h3⟩
      rw [this]; rfl
    | none =>
      cases hg : (finPre B c.idmap t).find? (fun i => i.place == q && !i.inhibitor) with
      | none => rfl
      | some i =>
        obtain ⟨h1, h2, h3⟩ := (find_char (h.pre_nodup w t) q (fun j => !j.inhibitor) i).1 hg
        obtain ⟨a, ha, rfl⟩ := mem_finPre.1 h1
        rw [List.find?_eq_none] at hf
        exact absurd (by
          have := (key (by simp [ha])).1 h2
          simp only [this, beq_self_eq_true, Bool.true_and]
          exact h3) (hf a ha)
  · cases hf : (B.trans t).pre.find? (fun a => a.place == p && a.inhib) with
    | some a =>
      obtain ⟨h1, h2, h3⟩ := (find_arc (w.pre_nodup t) p (fun a => a.inhib) a).1 hf
      have := (find_char (h.pre_nodup w t) q (fun j => j.inhibitor)
        { reidx c.idmap (preInv a) with direction := preDir (sortedPost B c.idmap t) (reidx c.idmap (preInv a)) }).2
        ⟨mem_finPre.2 ⟨a, h1, rfl⟩, (key (by simp [h1])).2 h2, h3⟩
      rw [this]; rfl
    | none =>
      cases hg : (finPre B c.idmap t).find? (fun i => i.place == q && i.inhibitor) with
      | none => rfl
      | some i =>
        obtain ⟨h1, h2, h3⟩ := (find_char (h.pre_nodup w t) q (fun j => j.inhibitor) i).1 hg
        obtain ⟨a, ha, rfl⟩ := mem_finPre.1 h1
        rw [List.find?_eq_none] at hf
        exact absurd (by
          have := (key (by simp [ha])).1 h2
          simp only [this, beq_self_eq_true, Bool.true_and]
          exact h3) (hf a ha)
  · cases hf : (B.trans t).post.find? (fun a => a.place == p) with
    | some a =>
      have h1 := List.mem_of_find?_eq_some hf
      have h2 := List.find?_some hf
      simp at h2
      have := (find_char (h.post_nodup w t) q (fun _ => true)
        { reidx c.idmap (postInv a) with direction := postDir (sortedPre B c.idmap t) (reidx c.idmap (postInv a)) }).2
        ⟨mem_finPost.2 ⟨a, h1, rfl⟩, (key (by simp [h1])).2 h2, rfl⟩
      simp only [Bool.and_true] at this
      rw [this]; rfl
    | none =>
      cases hg : (finPost B c.idmap t).find? (fun i => i.place == q) with
      | none => rfl
      | some i =>
        have h1 := List.mem_of_find?_eq_some hg
        have h2 := List.find?_some hg
        simp at h2
        obtain ⟨a, ha, rfl⟩ := mem_finPost.1 h1
        rw [List.find?_eq_none] at hf
        exact absurd (by
          have := (key (by simp [ha])).1 h2
          simp [this]) (hf a ha)

theorem Facts.init_eq (h : Facts B c order em blocks) {p q : Nat} (hp : c.idmap p = some q) :
    c.init q = B.init.getD p 0 := by
  rw [h.init]
  simp only
  have hpl : p < B.places.length := ((h.order_ok p).1 (getElem?_mem' ((h.idmap p q).1 hp))).1
  have : (List.range B.places.length).find? (fun p => c.idmap p == some q) = some p := by
    cases hf : (List.range B.places.length).find? (fun p => c.idmap p == some q) with
    | none =>
      rw [List.find?_eq_none] at hf
      have := hf p (by simpa using hpl)
      simp [hp] at this
    | some r =>
      have h2 := List.find?_some hf
      simp at h2
      rw [h.idmap_inj h2 hp]
  rw [this]

end
end Builder
end Verif
