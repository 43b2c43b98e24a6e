import Verif.Reduce.Bridge
import Verif.Reduce.RulesA
import Verif.Net.BuilderFinal

/-!
# The compiled net after the reduction
-/

namespace Verif
namespace Reduce

theorem toBuilder_WF {N : RNet} (hN : N.WF) (B : Builder) (hsz : N.nt < W32 - 1)
    (hw : ∀ t, ∀ a ∈ (N.tr t).pre ++ (N.tr t).post, a.weight < W32) : (N.toBuilder B).WF := by
  have e := toBuilder_trans hN B
  have hlen : (N.toBuilder B).places.length = N.np := by simp [RNet.toBuilder]
  refine ⟨fun t => ?_, fun t => ?_, fun p => ?_, fun p => ?_, fun p t => ?_, fun p t => ?_, fun t a ha => ?_,
    fun t a ha => ?_, fun t ht => ?_, by simpa [RNet.toBuilder] using hsz, by simp [RNet.toBuilder]⟩
  · rw [(e t).1]; exact sorted_nodup (hN.tr t).preS
  · rw [(e t).2]; exact sorted_nodup (hN.tr t).postS
  · by_cases hp : p < N.np
    · rw [toBuilder_place N B hp]; exact consumers_nodup N p
    · rw [toBuilder_place_out N B hp]; exact List.nodup_nil
  · by_cases hp : p < N.np
    · rw [toBuilder_place N B hp]; exact producers_nodup N p
    · rw [toBuilder_place_out N B hp]; exact List.nodup_nil
  · rw [(e t).1]
    by_cases hp : p < N.np
    · rw [toBuilder_place N B hp, List.mem_map]; exact mem_consumers hN
    · rw [toBuilder_place_out N B hp, List.mem_map]
      refine ⟨fun h => (by cases h), ?_⟩
      rintro ⟨a, ha, rfl⟩
      exact absurd ((hN.tr t).preP a ha).1 hp
  · rw [(e t).2]
    by_cases hp : p < N.np
    · rw [toBuilder_place N B hp, List.mem_map]; exact mem_producers hN
    · rw [toBuilder_place_out N B hp, List.mem_map]
      refine ⟨fun h => (by cases h), ?_⟩
      rintro ⟨a, ha, rfl⟩
      exact absurd ((hN.tr t).postP a ha).1 hp
  · rw [(e t).1, (e t).2] at ha
    have : N.okP a.place := by
      rcases List.mem_append.1 ha with h | h
      · exact (hN.tr t).preP a h
      · exact (hN.tr t).postP a h
    rw [hlen, toBuilder_place N B this.1]
    exact this
  · rw [(e t).1, (e t).2] at ha
    refine ⟨?_, hw t a ha⟩
    rcases List.mem_append.1 ha with h | h
    · exact (hN.tr t).preW a h
    · exact (hN.tr t).postW a h
  · rw [(e t).1, (e t).2]
    by_cases hlt : t < N.nt
    · refine (hN.tr t).empty ?_
      unfold Builder.trans RNet.toBuilder at ht
      simpa [List.getD_eq_getElem?_getD, hlt] using ht
    · exact (hN.tr t).empty (hN.out t (by omega))

end Reduce

namespace Builder
variable {B : Builder} {c : Compiled} {order em : List Nat} {blocks : List (List Nat)}

/-- Corresponding markings. -/
def Corr (c : Compiled) (m m' : Nat → Nat) : Prop := ∀ p k, c.idmap p = some k → m' k = m p

theorem Facts.enabled (h : Facts B c order em blocks) (w : B.WF) {t k : Nat} (ht : em[k]? = some t)
    (hk : k < c.net.ntransitions) {m m' : Nat → Nat} (hm : Corr c m m') :
    (c.net.toNet.Enabled m' ⟨k, hk⟩ ↔ B.toNet.Enabled m t) ∧ Corr c (B.toNet.fire m t) (c.net.toNet.fire m' ⟨k, hk⟩) := by
  have hout : ∀ p, c.idmap p = none → B.toNet.pre t p = 0 ∧ B.toNet.inh t p = none := by
    intro p hp
    have hno : ∀ q : Arc → Bool, (B.trans t).pre.find? (fun a => a.place == p && q a) = none := fun q => by
      rw [List.find?_eq_none]
      intro a ha hc
      simp only [Bool.and_eq_true, beq_iff_eq] at hc
      obtain ⟨k', hk', _⟩ := h.arc_idmap w (t := t) (a := a) (by simp [ha])
      rw [hc.1, hp] at hk'; cases hk'
    exact ⟨by simp only [Builder.toNet]; rw [hno], by simp only [Builder.toNet]; rw [hno fun a => a.inhib]⟩
  have hin : ∀ q, (∀ p, c.idmap p ≠ some q) → c.net.toNet.pre ⟨k, hk⟩ q = 0 ∧ c.net.toNet.inh ⟨k, hk⟩ q = none := by
    intro q hq
    have hkl : k < em.length := by rw [← h.lay.nt]; exact hk
    have hkt : em[k] = t := by rw [List.getElem?_eq_getElem hkl] at ht; simpa using ht
    have hno : ∀ r : Invariant → Bool, (c.net.preset k).find? (fun i => i.place == q && r i) = none := fun r => by
      rw [List.find?_eq_none, h.lay.preset_eq hkl, hkt]
      intro i hi hc
      simp only [Bool.and_eq_true, beq_iff_eq] at hc
      obtain ⟨a, ha, rfl⟩ := mem_finPre.1 hi
      obtain ⟨j, hj, _⟩ := h.arc_idmap w (t := t) (a := a) (by simp [ha])
      have : (c.idmap a.place).getD (W32 - 1) = q := hc.1
      rw [hj] at this
      exact hq a.place (by rw [hj, ← this]; rfl)
    exact ⟨by simp only [FlatNet.toNet]; rw [hno], by simp only [FlatNet.toNet]; rw [hno fun i => i.inhibitor]⟩
  have hcase : ∀ q, (∃ p, c.idmap p = some q) ∨ ∀ p, c.idmap p ≠ some q := fun q => by
    by_cases hq : ∃ p, c.idmap p = some q
    · exact Or.inl hq
    · exact Or.inr fun p hp => hq ⟨p, hp⟩
  refine ⟨⟨fun ⟨h1, h2⟩ => ⟨fun p => ?_, fun p x hx => ?_⟩, fun ⟨h1, h2⟩ => ⟨fun q => ?_, fun q x hx => ?_⟩⟩, fun p q hp => ?_⟩
  · cases hp : c.idmap p with
    | none => rw [(hout p hp).1]; exact Nat.zero_le _
    | some q => rw [← (h.pre_eq w ht hk hp).1, ← hm p q hp]; exact h1 q
  · cases hp : c.idmap p with
    | none => rw [(hout p hp).2] at hx; cases hx
    | some q => rw [← hm p q hp]; exact h2 q x (by rw [(h.pre_eq w ht hk hp).2.1]; exact hx)
  · rcases hcase q with ⟨p, hp⟩ | hq
    · rw [(h.pre_eq w ht hk hp).1, hm p q hp]; exact h1 p
    · rw [(hin q hq).1]; exact Nat.zero_le _
  · rcases hcase q with ⟨p, hp⟩ | hq
    · rw [hm p q hp]; exact h2 p x (by rw [← (h.pre_eq w ht hk hp).2.1]; exact hx)
    · rw [(hin q hq).2] at hx; cases hx
  · unfold Net.fire
    obtain ⟨e1, _, e3⟩ := h.pre_eq w ht hk hp
    rw [e1, e3, hm p q hp]

/-- A transition without arcs changes nothing. -/
theorem fire_empty {t : Nat} (h1 : (B.trans t).pre = []) (h2 : (B.trans t).post = []) (m : Nat → Nat) :
    B.toNet.fire m t = m := by
  funext p
  unfold Net.fire Builder.toNet
  simp [h1, h2]

theorem Facts.reach (h : Facts B c order em blocks) (w : B.WF) {m0 m1 m0' : Nat → Nat} (h0 : Corr c m0 m0')
    (hr : B.toNet.Reach m0 m1) : ∃ m1', c.net.toNet.Reach m0' m1' ∧ Corr c m1 m1' := by
  obtain ⟨ts, hr⟩ := hr
  induction hr generalizing m0' with
  | nil => exact ⟨m0', Net.Reach.refl _ _, h0⟩
  | @cons m t m1 ts m2 hs _ ih =>
    obtain ⟨he, rfl⟩ := hs
    by_cases hem : t ∈ em
    · obtain ⟨k, hk, hke⟩ := List.getElem_of_mem hem
      have hk' : k < c.net.ntransitions := by rw [h.lay.nt]; exact hk
      obtain ⟨e1, e2⟩ := h.enabled w (t := t) (k := k) (by rw [List.getElem?_eq_getElem hk, hke]) hk' h0
      obtain ⟨m1', r1, r2⟩ := ih e2
      exact ⟨m1', Net.Reach.trans _ ⟨[⟨k, hk'⟩], .cons ⟨e1.2 he, rfl⟩ (.nil _)⟩ r1, r2⟩
    · have hemp : (B.trans t).pre = [] ∧ (B.trans t).post = [] := by
        by_cases ht : t < B.transitions.length
        · cases hs : (B.trans t).skip with
          | true => exact w.skip_empty t hs
          | false => exact absurd ((h.em_ok t).2 ⟨ht, hs⟩) hem
        · unfold Builder.trans
          rw [List.getD_eq_getElem?_getD, List.getElem?_eq_none (by omega)]
          exact ⟨rfl, rfl⟩
      rw [fire_empty hemp.1 hemp.2] at ih
      exact ih h0

theorem Facts.reach' (h : Facts B c order em blocks) (w : B.WF) {m0 m0' m1' : Nat → Nat} (h0 : Corr c m0 m0')
    (hr : c.net.toNet.Reach m0' m1') : ∃ m1, B.toNet.Reach m0 m1 ∧ Corr c m1 m1' := by
  obtain ⟨ts, hr⟩ := hr
  induction hr generalizing m0 with
  | nil => exact ⟨m0, Net.Reach.refl _ _, h0⟩
  | @cons m k m1 ts m2 hs _ ih =>
    obtain ⟨he, rfl⟩ := hs
    have hk : k.1 < em.length := by rw [← h.lay.nt]; exact k.2
    obtain ⟨e1, e2⟩ := h.enabled w (t := em[k.1]) (k := k.1) (List.getElem?_eq_getElem hk) k.2 h0
    obtain ⟨m1', r1, r2⟩ := ih e2
    exact ⟨m1', Net.Reach.trans _ ⟨[em[k.1]], .cons ⟨e1.1 he, rfl⟩ (.nil _)⟩ r1, r2⟩

theorem Facts.corr_init (h : Facts B c order em blocks) : Corr c (fun p => B.init.getD p 0) c.init :=
  fun _ _ hp => h.init_eq hp

end Builder
end Verif
