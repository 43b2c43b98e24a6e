import Verif.Reduce.Sem
import Batteries.Tactic.PermuteGoals

/-!
# The basic changes of a net: well-formedness and meaning
-/

namespace Verif
namespace Reduce

theorem RNet.WF.preS {N : RNet} (h : N.WF) (t : Nat) : Sorted (N.tr t).pre := (h.tr t).preS
theorem RNet.WF.postS {N : RNet} (h : N.WF) (t : Nat) : Sorted (N.tr t).post := (h.tr t).postS

theorem mem_consumers {N : RNet} (hN : N.WF) {p t : Nat} : t ∈ N.consumers p ↔ ∃ a ∈ (N.tr t).pre, a.place = p := by
  unfold RNet.consumers
  rw [List.mem_filter, List.mem_range]
  constructor
  · rintro ⟨_, h⟩
    obtain ⟨a, ha⟩ := Option.isSome_iff_exists.1 h
    obtain ⟨h1, h2⟩ := arcAt_mem ha
    exact ⟨a, h1, h2⟩
  · rintro ⟨a, ha, rfl⟩
    refine ⟨Nat.lt_of_not_le fun hc => ?_, ?_⟩
    · rw [((hN.tr t).empty (hN.out t hc)).1] at ha; cases ha
    · rw [arcAt_of_mem (hN.preS t) ha]; rfl

theorem mem_producers {N : RNet} (hN : N.WF) {p t : Nat} : t ∈ N.producers p ↔ ∃ a ∈ (N.tr t).post, a.place = p := by
  unfold RNet.producers
  rw [List.mem_filter, List.mem_range]
  constructor
  · rintro ⟨_, h⟩
    obtain ⟨a, ha⟩ := Option.isSome_iff_exists.1 h
    obtain ⟨h1, h2⟩ := arcAt_mem ha
    exact ⟨a, h1, h2⟩
  · rintro ⟨a, ha, rfl⟩
    refine ⟨Nat.lt_of_not_le fun hc => ?_, ?_⟩
    · rw [((hN.tr t).empty (hN.out t hc)).2] at ha; cases ha
    · rw [arcAt_of_mem (hN.postS t) ha]; rfl

theorem arcAt_none_of_not_consumer {N : RNet} (hN : N.WF) {p t : Nat} (h : t ∉ N.consumers p) :
    arcAt (N.tr t).pre p = none := by
  rw [arcAt_none]
  intro a ha he
  exact h ((mem_consumers hN).2 ⟨a, ha, he⟩)

theorem arcAt_none_of_not_producer {N : RNet} (hN : N.WF) {p t : Nat} (h : t ∉ N.producers p) :
    arcAt (N.tr t).post p = none := by
  rw [arcAt_none]
  intro a ha he
  exact h ((mem_producers hN).2 ⟨a, ha, he⟩)

theorem consumers_live {N : RNet} (hN : N.WF) {p t : Nat} (h : t ∈ N.consumers p) :
    (N.tr t).skip = false ∧ t < N.nt := by
  refine ⟨?_, by unfold RNet.consumers at h; simpa using (List.mem_filter.1 h).1⟩
  obtain ⟨a, ha, _⟩ := (mem_consumers hN).1 h
  cases hs : (N.tr t).skip with
  | false => rfl
  | true => rw [((hN.tr t).empty hs).1] at ha; cases ha

theorem producers_live {N : RNet} (hN : N.WF) {p t : Nat} (h : t ∈ N.producers p) :
    (N.tr t).skip = false ∧ t < N.nt := by
  refine ⟨?_, by unfold RNet.producers at h; simpa using (List.mem_filter.1 h).1⟩
  obtain ⟨a, ha, _⟩ := (mem_producers hN).1 h
  cases hs : (N.tr t).skip with
  | false => rfl
  | true => rw [((hN.tr t).empty hs).2] at ha; cases ha

theorem RTr.WF.mono {okP okP' : Nat → Prop} {pinhib pinhib' : Nat → Bool} {x : RTr} (h : x.WF okP pinhib)
    (h1 : ∀ p, (∃ a ∈ x.pre, a.place = p) ∨ (∃ a ∈ x.post, a.place = p) → okP p → okP' p)
    (h2 : ∀ p, pinhib p = true → pinhib' p = true) : x.WF okP' pinhib' :=
  { preS := h.preS, postS := h.postS, preW := h.preW, postW := h.postW, postI := h.postI, empty := h.empty
    preP := fun a ha => h1 _ (Or.inl ⟨a, ha, rfl⟩) (h.preP a ha)
    postP := fun a ha => h1 _ (Or.inr ⟨a, ha, rfl⟩) (h.postP a ha)
    inhT := h.inhT
    inhP := fun a ha hi => h2 _ (h.inhP a ha hi) }

/-! ### Changing one transition -/

theorem setTr_tr (N : RNet) (t : Nat) (x : RTr) (s : Nat) : (N.setTr t x).tr s = if s = t then x else N.tr s := rfl

theorem setTr_WF {N : RNet} (hN : N.WF) {t : Nat} {x : RTr} (hl : (N.tr t).skip = false)
    (hx : x.WF N.okP N.pinhib) : (N.setTr t x).WF := by
  have ht : t < N.nt := Nat.lt_of_not_le fun hc => by
    have h := hN.out t hc
    rw [hl] at h; cases h
  refine ⟨fun s => ?_, fun s hs => ?_, fun s hs => ?_, hN.nd⟩
  · rw [setTr_tr]
    split
    · exact hx
    · exact hN.tr s
  · rw [setTr_tr, if_neg (by change N.nt ≤ s at hs; omega)]
    exact hN.out s hs
  · have h1 := hN.sk s hs
    have : s ≠ t := by rintro rfl; rw [hl] at h1; cases h1.1
    rw [setTr_tr, if_neg this]
    exact h1

/-! ### Removing a transition -/

theorem skipTrans_tr (N : RNet) (t s : Nat) :
    (N.skipTrans t).tr s = if s = t then { N.tr t with pre := [], post := [], skip := true } else N.tr s := rfl

theorem skipTrans_not_en {N : RNet} {t : Nat} {m : Nat → Nat} : ¬ ((N.skipTrans t).tr t).En m := by
  rintro ⟨h, _⟩
  rw [skipTrans_tr, if_pos rfl] at h
  cases h

theorem skipTrans_en {N : RNet} {t s : Nat} {m : Nat → Nat} (h : ((N.skipTrans t).tr s).En m) :
    s ≠ t ∧ (N.skipTrans t).tr s = N.tr s := by
  have : s ≠ t := by rintro rfl; exact skipTrans_not_en h
  exact ⟨this, by rw [skipTrans_tr, if_neg this]⟩

theorem skipTrans_WF {N : RNet} (hN : N.WF) {t : Nat} (ht : t < N.nt) (hl : (N.tr t).skip = false) :
    (N.skipTrans t).WF := by
  refine ⟨fun s => ?_, fun s hs => ?_, fun s hs => ?_, ?_⟩
  · rw [skipTrans_tr]
    split
    · exact { preS := List.Pairwise.nil, postS := List.Pairwise.nil, preW := by simp, postW := by simp, postI := by simp
              preP := by simp, postP := by simp, empty := by simp, inhT := by simp, inhP := by simp }
    · exact hN.tr s
  · rw [skipTrans_tr]
    split
    · rfl
    · exact hN.out s hs
  · rw [skipTrans_tr]
    rcases List.mem_cons.1 hs with rfl | hs
    · exact ⟨by simp, ht⟩
    · refine ⟨?_, (hN.sk s hs).2⟩
      split
      · rfl
      · exact (hN.sk s hs).1
  · refine List.nodup_cons.2 ⟨fun h => ?_, hN.nd⟩
    have := (hN.sk t h).1
    rw [hl] at this; cases this

/-- Removing a transition that is never enabled in the markings with the invariant. -/
theorem trSim_skip {Inv : (Nat → Nat) → Prop} {K : Nat → Prop} {x x' : RTr} (hx' : x'.skip = true)
    (h : ∀ m, Inv m → ¬ x.En m) : TrSim Inv K x x' := by
  intro m m' hm _
  refine ⟨⟨fun hen => ?_, fun hen => absurd hen (h m hm)⟩, fun hen => absurd hen (h m hm)⟩
  have := hen.1
  rw [hx'] at this; cases this

/-! ### Removing a place -/

theorem skipPlace_tr (N : RNet) (p t : Nat) :
    (N.skipPlace p).tr t = { N.tr t with pre := dropArc p (N.tr t).pre, post := dropArc p (N.tr t).post } := rfl

theorem drop_I (x : RTr) (p : Nat) (post : List Arc) (q : Nat) :
    RTr.I { x with pre := dropArc p x.pre, post := post } q = if q = p then 0 else x.I q := by
  unfold RTr.I
  simp only [arcAt_dropArc]
  by_cases h : q = p
  · simp [h]
  · simp [h]

theorem drop_O (x : RTr) (p : Nat) (pre : List Arc) (q : Nat) :
    RTr.O { x with pre := pre, post := dropArc p x.post } q = if q = p then 0 else x.O q := by
  unfold RTr.O
  exact wAt_dropArc p x.post q

theorem dropPlace_WF {okP : Nat → Prop} {pinhib : Nat → Bool} {x : RTr} (h : x.WF okP pinhib) (p : Nat) :
    RTr.WF (fun q => okP q ∧ q ≠ p) pinhib { x with pre := dropArc p x.pre, post := dropArc p x.post } :=
  { preS := dropArc_sorted h.preS p
    postS := dropArc_sorted h.postS p
    preW := fun a ha => h.preW a (mem_dropArc.1 ha).1
    postW := fun a ha => h.postW a (mem_dropArc.1 ha).1
    postI := fun a ha => h.postI a (mem_dropArc.1 ha).1
    preP := fun a ha => ⟨h.preP a (mem_dropArc.1 ha).1, (mem_dropArc.1 ha).2⟩
    postP := fun a ha => ⟨h.postP a (mem_dropArc.1 ha).1, (mem_dropArc.1 ha).2⟩
    empty := fun hs => by
      obtain ⟨h1, h2⟩ := h.empty hs
      simp [h1, h2, dropArc]
    inhT := fun a ha hi => h.inhT a (mem_dropArc.1 ha).1 hi
    inhP := fun a ha hi => h.inhP a (mem_dropArc.1 ha).1 hi }

theorem skipPlace_okP (N : RNet) (p q : Nat) : (N.skipPlace p).okP q ↔ N.okP q ∧ q ≠ p := by
  unfold RNet.okP RNet.skipPlace
  by_cases h : q = p
  · simp [h]
  · simp [h]

theorem skipPlace_WF {N : RNet} (hN : N.WF) (p : Nat) : (N.skipPlace p).WF := by
  refine ⟨fun t => ?_, hN.out, hN.sk, hN.nd⟩
  exact (dropPlace_WF (hN.tr t) p).mono (fun q _ h => (skipPlace_okP N p q).2 h) (fun _ h => h)

/-- The arc does not stop its transition. -/
def ArcSat (a : Arc) (m : Nat → Nat) : Prop := if a.inhib then m a.place < a.weight else a.weight ≤ m a.place

theorem En_iff {x : RTr} (hs : Sorted x.pre) {m : Nat → Nat} :
    x.En m ↔ x.skip = false ∧ ∀ a ∈ x.pre, ArcSat a m := by
  constructor
  · rintro ⟨h1, h2, h3⟩
    refine ⟨h1, fun a ha => ?_⟩
    unfold ArcSat
    cases hi : a.inhib with
    | true => simpa using h3 a ha hi
    | false =>
      have := h2 a.place
      rw [RTr.I_of_mem hs ha hi] at this
      simpa using this
  · rintro ⟨h1, h2⟩
    refine ⟨h1, fun p => ?_, fun a ha hi => ?_⟩
    · by_cases h0 : x.I p = 0
      · omega
      · obtain ⟨a, ha, hap, hi, hw⟩ := RTr.I_mem (x := x) (p := p) (by omega)
        have := h2 a ha
        unfold ArcSat at this
        rw [hi, hap] at this
        simp only [Bool.false_eq_true, if_false] at this
        omega
    · have := h2 a ha
      unfold ArcSat at this
      rw [hi] at this
      simpa using this

/-- Removing a place whose arcs do not matter in the markings with the invariant. -/
theorem trSim_dropPlace {Inv : (Nat → Nat) → Prop} {K' : Nat → Prop} {x : RTr} {p : Nat} (hs : Sorted x.pre)
    (hK : ∀ a ∈ x.pre, a.place ≠ p → K' a.place) (hp : ¬ K' p)
    (hsat : ∀ m, Inv m → x.skip = false → (∀ b ∈ x.pre, b.place ≠ p → ArcSat b m) → ∀ a ∈ x.pre, a.place = p → ArcSat a m) :
    TrSim Inv K' x { x with pre := dropArc p x.pre, post := dropArc p x.post } := by
  intro m m' hm hmm
  have hagree : ∀ a ∈ x.pre, a.place ≠ p → (ArcSat a m' ↔ ArcSat a m) := by
    intro a ha hap
    unfold ArcSat
    rw [hmm _ (hK a ha hap)]
  refine ⟨⟨fun h => ?_, fun h => ?_⟩, ?_⟩
  · obtain ⟨h1, h2⟩ := (En_iff (dropArc_sorted hs p)).1 h
    have h3 : ∀ b ∈ x.pre, b.place ≠ p → ArcSat b m := fun b hb hbp => (hagree b hb hbp).1 (h2 b (mem_dropArc.2 ⟨hb, hbp⟩))
    refine (En_iff hs).2 ⟨h1, fun a ha => ?_⟩
    by_cases hap : a.place = p
    · exact hsat m hm h1 h3 a ha hap
    · exact h3 a ha hap
  · obtain ⟨h1, h2⟩ := (En_iff hs).1 h
    refine (En_iff (dropArc_sorted hs p)).2 ⟨h1, fun a ha => ?_⟩
    obtain ⟨ha, hap⟩ := mem_dropArc.1 ha
    exact (hagree a ha hap).2 (h2 a ha)
  · intro _ q hq
    have : q ≠ p := by rintro rfl; exact hp hq
    unfold RTr.fire
    rw [drop_I, drop_O, if_neg this, if_neg this, hmm q hq]

/-- Removing a place that the query does not mention and whose arcs never matter. -/
theorem skipPlace_same {Q : Nat → Bool} {N : RNet} (hN : N.WF) {p : Nat} (hQ : Q p = false)
    (Inv : (Nat → Nat) → Prop) (h0 : Inv N.init)
    (hstep : ∀ m t, Inv m → (N.tr t).En m → Inv ((N.tr t).fire m))
    (hsat : ∀ m, Inv m → ∀ t, (∀ b ∈ (N.tr t).pre, b.place ≠ p → ArcSat b m) →
      ∀ a ∈ (N.tr t).pre, a.place = p → ArcSat a m) :
    Same Q N (N.skipPlace p) := by
  refine Same.of_trSim Inv (fun q => q ≠ p) ?_ (fun _ _ => rfl) h0 hstep fun t => ?_
  · rintro q hq rfl
    rw [hQ] at hq; cases hq
  · exact trSim_dropPlace (hN.preS t) (fun a _ h => h) (fun h => h rfl)
      (fun m hm _ hb a ha hap => hsat m hm t hb a ha hap)

/-! ### Loops -/

theorem sweep_inv (P : RNet → Prop) (step : RNet → Nat → Option RNet)
    (h : ∀ N c N', P N → step N c = some N' → P N') : ∀ l N, P N → P (sweep step l N).1 := by
  intro l
  induction l with
  | nil => intro N hN; exact hN
  | cons c l ih =>
    intro N hN
    unfold sweep
    cases hs : step N c with
    | none => exact ih N hN
    | some N' => exact ih N' (h N c N' hN hs)

/-- Well-formed and the same to the query. -/
def Fine (Q : Nat → Bool) (N N' : RNet) : Prop := N'.WF ∧ Same Q N N'

theorem Fine.refl {Q : Nat → Bool} {N : RNet} (h : N.WF) : Fine Q N N := ⟨h, Same.refl Q N⟩

theorem Fine.trans {Q : Nat → Bool} {N N' N'' : RNet} (h : Fine Q N N') (h' : Fine Q N' N'') : Fine Q N N'' :=
  ⟨h'.1, h.2.trans h'.2⟩

/-- What was noted stays noted. -/
def Mono (N N' : RNet) : Prop := N'.bad = false → N.bad = false

theorem Mono.refl (N : RNet) : Mono N N := fun h => h

theorem Mono.trans {N N' N'' : RNet} (h : Mono N N') (h' : Mono N' N'') : Mono N N'' := fun hb => h (h' hb)

/-- The relation every rule establishes: unless something was noted, the new net is well-formed and looks the same to the
query. -/
def Good (Q : Nat → Bool) (N N' : RNet) : Prop := Mono N N' ∧ (N.WF → N'.bad = false → Fine Q N N')

theorem Good.refl (Q : Nat → Bool) (N : RNet) : Good Q N N := ⟨Mono.refl N, fun h _ => Fine.refl h⟩

theorem Good.trans {Q : Nat → Bool} {N N' N'' : RNet} (h : Good Q N N') (h' : Good Q N' N'') : Good Q N N'' := by
  refine ⟨h.1.trans h'.1, fun hN hb => ?_⟩
  have h1 := h.2 hN (h'.1 hb)
  exact h1.trans (h'.2 h1.1 hb)

theorem Good.of {Q : Nat → Bool} {N N' : RNet} (hb : N'.bad = N.bad) (h : N.WF → Fine Q N N') : Good Q N N' :=
  ⟨fun hb' => hb ▸ hb', fun hN _ => h hN⟩

theorem flag_Same (Q : Nat → Bool) (N : RNet) (b : Bool) : Same Q N (N.flag b) := Same.refl Q N

theorem flag_WF {N : RNet} (h : N.WF) (b : Bool) : (N.flag b).WF := ⟨h.tr, h.out, h.sk, h.nd⟩

theorem flag_bad {N : RNet} {b : Bool} (h : (N.flag b).bad = false) : N.bad = false ∧ b = false := by
  simpa [RNet.flag] using h

/-- A change after a note. -/
theorem Good.flag {Q : Nat → Bool} {N N' : RNet} {b : Bool} (hb : N'.bad = (N.flag b).bad)
    (h : b = false → N.WF → Fine Q N N') : Good Q N N' :=
  ⟨fun hb' => (flag_bad (hb ▸ hb')).1, fun hN hb' => h (flag_bad (hb ▸ hb')).2 hN⟩

theorem sweep_good {Q : Nat → Bool} {step : RNet → Nat → Option RNet}
    (h : ∀ N c N', step N c = some N' → Good Q N N') (l : List Nat) (N : RNet) : Good Q N (sweep step l N).1 :=
  sweep_inv (fun N' => Good Q N N') step (fun _ c _ hN hs => hN.trans (h _ c _ hs)) l N (Good.refl Q N)

theorem sweep_bad {step : RNet → Nat → Option RNet} (h : ∀ N c N', step N c = some N' → N'.bad = N.bad) (l : List Nat)
    (N : RNet) : (sweep step l N).1.bad = N.bad :=
  sweep_inv (fun N' => N'.bad = N.bad) step (fun _ c _ hN hs => (h _ c _ hs).trans hN) l N rfl

/-- More tokens, except on the places of the query and those with inhibitor arcs. -/
def Dom (Q : Nat → Bool) (N : RNet) (m m' : Nat → Nat) : Prop :=
  ∀ p, m p ≤ m' p ∧ (Q p = true ∨ N.pinhib p = true → m' p = m p)

theorem Dom.en {Q : Nat → Bool} {N : RNet} (hN : N.WF) {m m' : Nat → Nat} (h : Dom Q N m m') {t : Nat}
    (ht : (N.tr t).En m) : (N.tr t).En m' ∧ Dom Q N ((N.tr t).fire m) ((N.tr t).fire m') := by
  refine ⟨⟨ht.1, fun p => Nat.le_trans (ht.2.1 p) (h p).1, ?_⟩, fun p => ?_⟩
  · exact (hN.tr t).noInh_congr (fun p hp => (h p).2 (Or.inr hp)) ht.2.2
  · have h1 := (h p).1
    have h2 := ht.2.1 p
    unfold RTr.fire
    refine ⟨by omega, fun hq => ?_⟩
    rw [(h p).2 hq]

/-- Removing a transition that `Dom` makes up for. -/
theorem skipTrans_fine_dom {Q : Nat → Bool} {N : RNet} (hN : N.WF) {t : Nat} (ht : t < N.nt)
    (hl : (N.tr t).skip = false)
    (h : ∀ m m', Dom Q N m m' → (N.tr t).En m →
      ∃ m1', (N.skipTrans t).Reach m' m1' ∧ Dom Q N ((N.tr t).fire m) m1') : Fine Q N (N.skipTrans t) := by
  refine ⟨skipTrans_WF hN ht hl, Same.of_sims (Dom Q N) (fun m' m => m' = m)
    ⟨N.init, .refl, fun p => ⟨Nat.le_refl _, fun _ => rfl⟩⟩ ⟨N.init, .refl, rfl⟩ ?_ ?_ ?_ ?_⟩
  · rintro m m' m1 hd ⟨s, hs, rfl⟩
    by_cases hst : s = t
    · subst hst
      exact h m m' hd hs
    · obtain ⟨h1, h2⟩ := hd.en hN hs
      refine ⟨(N.tr s).fire m', .single ⟨s, ?_, ?_⟩, h2⟩
      · rw [skipTrans_tr, if_neg hst]; exact h1
      · rw [skipTrans_tr, if_neg hst]
  · rintro m' m m1' rfl ⟨s, hs, rfl⟩
    obtain ⟨h1, h2⟩ := skipTrans_en hs
    rw [h2] at hs ⊢
    exact ⟨_, .single ⟨s, hs, rfl⟩, rfl⟩
  · exact fun m m' hd p hp => (hd p).2 (Or.inl hp)
  · rintro m' m rfl p _
    rfl

end Reduce
end Verif
