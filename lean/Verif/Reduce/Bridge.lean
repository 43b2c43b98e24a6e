import Verif.Reduce.Sem
import Verif.Net.Builder
import Mathlib.Data.List.Sort

/-!
# From the builder to the reducer and back

The reducer works in place on the vectors of the builder (`parent->_places`, `parent->_transitions`).
-/

namespace Verif
namespace Reduce

/-- models src/PetriEngine/PetriNetBuilder.cpp:530-545 (`sort`; `Arc::operator<` compares the places,
include/PetriEngine/NetStructures.h:23-26). -/
def sortArcs (l : List Arc) : List Arc := l.insertionSort fun a b => a.place ≤ b.place

/-- The net of the builder as the reducer sees it after `PetriNetBuilder::sort`.  The flags `inhib` are kept up to date
by `addInputArc` (src/PetriEngine/PetriNetBuilder.cpp:137,140). -/
def RNet.ofBuilder (B : Builder) : RNet where
  np := B.places.length
  nt := B.transitions.length
  tr t := if t < B.transitions.length ∧ (B.trans t).skip = false then
      { pre := sortArcs (B.trans t).pre, post := sortArcs (B.trans t).post, skip := false
        inhib := (B.trans t).pre.any fun a => a.inhib }
    else { skip := true }
  pskip p := (B.place p).skip
  pinhib p := B.transitions.any fun x => x.pre.any fun a => a.inhib && a.place == p
  init p := B.init.getD p 0
  skipped := []
  nskip := ((List.range B.places.length).filter fun p => (B.place p).skip).length

/-- What the builder holds after the reduction. -/
def RNet.toBuilder (N : RNet) (B : Builder) : Builder where
  pnames := B.pnames
  tnames := B.tnames
  places := (List.range N.np).map fun p => { consumers := N.consumers p, producers := N.producers p, skip := N.pskip p }
  transitions := (List.range N.nt).map fun t => { pre := (N.tr t).pre, post := (N.tr t).post, skip := (N.tr t).skip }
  init := (List.range N.np).map N.init

/-- The net the reducer works on; removed transitions have no arcs. -/
def RNet.toNet (N : RNet) : Net Nat Nat where
  pre t p := (N.tr t).I p
  inh t p := (arcAt (N.tr t).pre p).bind fun a => if a.inhib then some a.weight else none
  post t p := (N.tr t).O p

theorem sortArcs_perm (l : List Arc) : (sortArcs l).Perm l := List.perm_insertionSort _ _

theorem sortArcs_sorted {l : List Arc} (h : (l.map Arc.place).Nodup) : Sorted (sortArcs l) := by
  have h1 : (sortArcs l).Pairwise fun a b => a.place ≤ b.place := by
    have : Std.Total (fun a b : Arc => a.place ≤ b.place) := ⟨fun a b => Nat.le_total _ _⟩
    have : IsTrans Arc (fun a b : Arc => a.place ≤ b.place) := ⟨fun a b c h1 h2 => Nat.le_trans h1 h2⟩
    exact List.pairwise_insertionSort _ l
  have h2 : (sortArcs l).Pairwise fun a b => a.place ≠ b.place := by
    have := ((sortArcs_perm l).map Arc.place).nodup_iff.2 h
    exact List.pairwise_map.1 this
  exact h1.imp₂ (fun a b h1 h2 => by omega) h2

theorem mem_sortArcs {l : List Arc} {a : Arc} : a ∈ sortArcs l ↔ a ∈ l := (sortArcs_perm l).mem_iff

theorem ofBuilder_tr_le {B : Builder} (t : Nat) {a : Arc} (h : a ∈ ((RNet.ofBuilder B).tr t).pre) :
    t < B.transitions.length ∧ a ∈ (B.trans t).pre := by
  unfold RNet.ofBuilder at h
  simp only at h
  split at h
  · rename_i hc; exact ⟨hc.1, mem_sortArcs.1 h⟩
  · cases h

theorem ofBuilder_post {B : Builder} (t : Nat) {a : Arc} (h : a ∈ ((RNet.ofBuilder B).tr t).post) :
    a ∈ (B.trans t).post := by
  unfold RNet.ofBuilder at h
  simp only at h
  split at h
  · exact mem_sortArcs.1 h
  · cases h

theorem trans_mem {B : Builder} {t : Nat} (h : t < B.transitions.length) : B.trans t ∈ B.transitions := by
  unfold Builder.trans
  rw [List.getD_eq_getElem?_getD, List.getElem?_eq_getElem h]
  exact List.getElem_mem h

theorem ofBuilder_WF {B : Builder} (w : B.WF) (hpost : ∀ t, ∀ a ∈ (B.trans t).post, a.inhib = false) :
    (RNet.ofBuilder B).WF := by
  refine ⟨fun t => ⟨?_, ?_, fun a ha => ?_, fun a ha => ?_, fun a ha => ?_, fun a ha => ?_, fun a ha => ?_, ?_, ?_, ?_⟩,
    fun t ht => ?_, fun t ht => (by cases ht), List.nodup_nil⟩
  · unfold RNet.ofBuilder
    simp only
    split
    · exact sortArcs_sorted (w.pre_nodup t)
    · exact List.Pairwise.nil
  · unfold RNet.ofBuilder
    simp only
    split
    · exact sortArcs_sorted (w.post_nodup t)
    · exact List.Pairwise.nil
  · exact (w.arc_weight t a (by simp [(ofBuilder_tr_le t ha).2])).1
  · exact (w.arc_weight t a (by simp [ofBuilder_post t ha])).1
  · exact hpost t a (ofBuilder_post t ha)
  · exact w.arc_place t a (by simp [(ofBuilder_tr_le t ha).2])
  · exact w.arc_place t a (by simp [ofBuilder_post t ha])
  · unfold RNet.ofBuilder
    simp only
    split
    · intro h; cases h
    · intro _; exact ⟨rfl, rfl⟩
  · intro a ha hi
    have h1 := ha
    have h2 := (ofBuilder_tr_le t ha).2
    unfold RNet.ofBuilder at h1 ⊢
    simp only at h1 ⊢
    split
    · exact List.any_eq_true.2 ⟨a, h2, hi⟩
    · rename_i hc; rw [if_neg hc] at h1; cases h1
  · intro a ha hi
    obtain ⟨h1, h2⟩ := ofBuilder_tr_le t ha
    exact List.any_eq_true.2 ⟨B.trans t, trans_mem h1, List.any_eq_true.2 ⟨a, h2, by simp [hi]⟩⟩
  · unfold RNet.ofBuilder at ht ⊢
    simp only at ht ⊢
    rw [if_neg (by omega)]

/-! ### The semantics of the reducer's net is that of the specification -/

theorem toNet_enabled {N : RNet} (hN : N.WF) {m : Nat → Nat} {t : Nat} :
    N.toNet.Enabled m t ↔ (∀ p, (N.tr t).I p ≤ m p) ∧ (N.tr t).NoInh m := by
  refine and_congr Iff.rfl ⟨fun h a ha hi => h a.place a.weight ?_, fun h p w hw => ?_⟩
  · show (arcAt (N.tr t).pre a.place).bind _ = _
    rw [arcAt_of_mem ((hN.tr t).preS) ha]
    simp [hi]
  · obtain ⟨a, ha, hb⟩ := Option.bind_eq_some_iff.1 hw
    split at hb
    · rename_i hi
      have := h a (arcAt_mem ha).1 hi
      rw [(arcAt_mem ha).2] at this
      cases hb; exact this
    · cases hb

theorem toNet_fire {N : RNet} {m : Nat → Nat} {t : Nat} : N.toNet.fire m t = (N.tr t).fire m := rfl

theorem toNet_reach {N : RNet} (hN : N.WF) {m m' : Nat → Nat} : N.toNet.Reach m m' ↔ N.Reach m m' := by
  constructor
  · rintro ⟨ts, h⟩
    induction h with
    | nil => exact .refl
    | @cons m t m1 ts m2 hs _ ih =>
      obtain ⟨h1, rfl⟩ := hs
      rw [toNet_enabled hN] at h1
      cases hk : (N.tr t).skip with
      | false => exact Relation.ReflTransGen.head ⟨t, ⟨hk, h1⟩, rfl⟩ ih
      | true =>
        obtain ⟨e1, e2⟩ := (hN.tr t).empty hk
        have : N.toNet.fire m t = m := by
          funext p
          rw [toNet_fire]
          unfold RTr.fire RTr.I RTr.O wAt
          rw [e1, e2]; rfl
        rw [this] at ih
        exact ih
  · intro h
    induction h with
    | refl => exact Net.Reach.refl _ _
    | tail _ hs ih =>
      obtain ⟨t, he, rfl⟩ := hs
      exact Net.Reach.step _ ih ⟨(toNet_enabled hN).2 he.2, rfl⟩

theorem arcAt_iff {l : List Arc} (h : (l.map Arc.place).Nodup) {p : Nat} {a : Arc} :
    arcAt l p = some a ↔ a ∈ l ∧ a.place = p := by
  constructor
  · exact arcAt_mem
  · rintro ⟨h1, rfl⟩
    unfold arcAt
    induction l with
    | nil => cases h1
    | cons b l ih =>
      obtain ⟨n1, n2⟩ := List.nodup_cons.1 h
      rw [List.find?_cons]
      rcases List.mem_cons.1 h1 with rfl | h1
      · simp
      · have : b.place ≠ a.place := fun hc => n1 (by rw [hc]; exact List.mem_map.2 ⟨a, h1, rfl⟩)
        rw [show (b.place == a.place) = false by simpa using this]
        exact ih n2 h1

theorem arcAt_sort {l : List Arc} (h : (l.map Arc.place).Nodup) (p : Nat) : arcAt (sortArcs l) p = arcAt l p := by
  refine Option.ext fun a => ?_
  rw [arcAt_iff (((sortArcs_perm l).map Arc.place).nodup_iff.2 h), arcAt_iff h, mem_sortArcs]

/-- Looking for the arc of the place first. -/
theorem find_and {l : List Arc} (h : (l.map Arc.place).Nodup) (p : Nat) (q : Arc → Bool) :
    l.find? (fun a => a.place == p && q a) = (arcAt l p).filter q := by
  unfold arcAt
  induction l with
  | nil => rfl
  | cons b l ih =>
    obtain ⟨n1, n2⟩ := List.nodup_cons.1 h
    rw [List.find?_cons, List.find?_cons]
    cases hb : b.place == p with
    | false => simpa using ih n2
    | true =>
      cases hq : q b with
      | true => simp [Option.filter, hq]
      | false =>
        simp only [Bool.and_false, Option.filter, hq, Bool.false_eq_true, if_false]
        rw [List.find?_eq_none]
        intro x hx hc
        simp only [Bool.and_eq_true, beq_iff_eq] at hc hb
        exact n1 (by rw [hb, ← hc.1]; exact List.mem_map.2 ⟨x, hx, rfl⟩)

theorem pre_read (o : Option Arc) : (match o.filter (fun a => !a.inhib) with | some a => a.weight | none => 0) =
    (match o with | some a => if a.inhib then 0 else a.weight | none => 0) := by
  cases o with
  | none => rfl
  | some a => cases h : a.inhib <;> simp [Option.filter, h]

theorem inh_read (o : Option Arc) : (match o.filter (fun a => a.inhib) with | some a => some a.weight | none => none) =
    o.bind (fun a => if a.inhib then some a.weight else none) := by
  cases o with
  | none => rfl
  | some a => cases h : a.inhib <;> simp [Option.filter, h]

/-- The builder's net, read off with `arcAt`. -/
theorem builder_toNet {B : Builder} (h1 : ∀ t, ((B.trans t).pre.map Arc.place).Nodup) :
    B.toNet = ⟨fun t p => (match arcAt (B.trans t).pre p with | some a => if a.inhib then 0 else a.weight | none => 0),
      fun t p => (arcAt (B.trans t).pre p).bind fun a => if a.inhib then some a.weight else none,
      fun t p => wAt (B.trans t).post p⟩ := by
  unfold Builder.toNet
  congr
  · funext t p
    rw [find_and (h1 t)]; exact pre_read _
  · funext t p
    rw [find_and (h1 t) p (fun a => a.inhib)]; exact inh_read _
  · funext t p
    unfold wAt arcAt
    cases List.find? (fun a => a.place == p) (B.trans t).post <;> rfl

theorem ofBuilder_arcAt {B : Builder} (w : B.WF) (t p : Nat) :
    arcAt ((RNet.ofBuilder B).tr t).pre p = arcAt (B.trans t).pre p ∧
    arcAt ((RNet.ofBuilder B).tr t).post p = arcAt (B.trans t).post p := by
  unfold RNet.ofBuilder
  simp only
  split
  · exact ⟨arcAt_sort (w.pre_nodup t) p, arcAt_sort (w.post_nodup t) p⟩
  · rename_i hc
    have : (B.trans t).pre = [] ∧ (B.trans t).post = [] := by
      by_cases ht : t < B.transitions.length
      · cases hs : (B.trans t).skip with
        | true => exact w.skip_empty t hs
        | false => exact absurd ⟨ht, hs⟩ hc
      · unfold Builder.trans
        rw [List.getD_eq_getElem?_getD, List.getElem?_eq_none (by omega)]
        exact ⟨rfl, rfl⟩
    rw [this.1, this.2]
    exact ⟨rfl, rfl⟩

theorem ofBuilder_toNet {B : Builder} (w : B.WF) : (RNet.ofBuilder B).toNet = B.toNet := by
  rw [builder_toNet w.pre_nodup]
  unfold RNet.toNet
  congr
  · funext t p
    unfold RTr.I
    rw [(ofBuilder_arcAt w t p).1]
    rfl
  · funext t p
    rw [(ofBuilder_arcAt w t p).1]
  · funext t p
    unfold RTr.O wAt
    rw [(ofBuilder_arcAt w t p).2]

/-! ### Back in the builder -/

theorem toBuilder_trans {N : RNet} (hN : N.WF) (B : Builder) (t : Nat) :
    ((N.toBuilder B).trans t).pre = (N.tr t).pre ∧ ((N.toBuilder B).trans t).post = (N.tr t).post := by
  unfold Builder.trans RNet.toBuilder
  by_cases ht : t < N.nt
  · simp [List.getD_eq_getElem?_getD, ht]
  · obtain ⟨e1, e2⟩ := (hN.tr t).empty (hN.out t (by omega))
    rw [e1, e2, List.getD_eq_getElem?_getD, List.getElem?_eq_none (by simp; omega)]
    exact ⟨rfl, rfl⟩

theorem sorted_nodup {l : List Arc} (h : Sorted l) : (l.map Arc.place).Nodup := by
  rw [List.Nodup, List.pairwise_map]
  exact List.Pairwise.imp (fun {a b} hab => Nat.ne_of_lt hab) h

theorem toBuilder_toNet {N : RNet} (hN : N.WF) (B : Builder) : (N.toBuilder B).toNet = N.toNet := by
  rw [builder_toNet fun t => by rw [(toBuilder_trans hN B t).1]; exact sorted_nodup (hN.tr t).preS]
  unfold RNet.toNet RTr.I RTr.O
  congr
  · funext t p
    rw [(toBuilder_trans hN B t).1]
    rfl
  · funext t p
    rw [(toBuilder_trans hN B t).1]
  · funext t p
    rw [(toBuilder_trans hN B t).2]

theorem toBuilder_place (N : RNet) (B : Builder) {p : Nat} (h : p < N.np) :
    (N.toBuilder B).place p = { consumers := N.consumers p, producers := N.producers p, skip := N.pskip p } := by
  unfold Builder.place RNet.toBuilder
  simp [List.getD_eq_getElem?_getD, h]

theorem toBuilder_place_out (N : RNet) (B : Builder) {p : Nat} (h : ¬p < N.np) : (N.toBuilder B).place p = default := by
  unfold Builder.place RNet.toBuilder
  rw [List.getD_eq_getElem?_getD, List.getElem?_eq_none (by simp; omega)]
  rfl

end Reduce
end Verif
