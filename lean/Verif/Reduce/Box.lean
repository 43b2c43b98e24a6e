import Verif.Reduce.Model2
import Verif.Reduce.Ops

/-!
# Changes of a net that rest on an invariant of the markings; the over-approximation of what can happen
-/

namespace Verif
namespace Reduce

/-- An invariant of the reachable markings. -/
structure RNet.Inv (N : RNet) (P : (Nat → Nat) → Prop) : Prop where
  init : P N.init
  step : ∀ m t, P m → (N.tr t).En m → P ((N.tr t).fire m)

theorem Fine.setTr {Q : Nat → Bool} {N : RNet} (hN : N.WF) {t : Nat} {x : RTr} (hl : (N.tr t).skip = false)
    (hx : x.WF N.okP N.pinhib) {Inv : (Nat → Nat) → Prop} (hI : N.Inv Inv)
    (hsim : TrSim Inv (fun _ => True) (N.tr t) x) : Fine Q N (N.setTr t x) := by
  refine ⟨setTr_WF hN hl hx, Same.of_trSim Inv (fun _ => True) (fun _ _ => trivial) (fun _ _ => rfl) hI.init
    hI.step fun s => ?_⟩
  rw [setTr_tr]
  by_cases h : s = t
  · subst h
    simpa using hsim
  · rw [if_neg h]
    exact TrSim.refl_of fun _ _ => trivial

theorem Fine.skip {Q : Nat → Bool} {N : RNet} (hN : N.WF) {t : Nat} (hl : (N.tr t).skip = false) (ht : t < N.nt)
    {Inv : (Nat → Nat) → Prop} (hI : N.Inv Inv) (hnever : ∀ m, Inv m → ¬ (N.tr t).En m) : Fine Q N (N.skipTrans t) := by
  refine ⟨skipTrans_WF hN ht hl, Same.of_trSim Inv (fun _ => True) (fun _ _ => trivial) (fun _ _ => rfl) hI.init
    hI.step fun s => ?_⟩
  rw [skipTrans_tr]
  by_cases h : s = t
  · subst h
    rw [if_pos rfl]
    exact trSim_skip rfl hnever
  · rw [if_neg h]
    exact TrSim.refl_of fun _ _ => trivial

/-- The arcs between a transition and a place whose input arc never matters are compiled into their effect. -/
theorem trSim_absorb {Inv : (Nat → Nat) → Prop} {x : RTr} {p : Nat} {post : List Arc} (hs : Sorted x.pre)
    (hle : x.I p ≤ x.O p) (hpost : ∀ q, wAt post q = if q = p then x.O p - x.I p else x.O q)
    (hsat : ∀ m, Inv m → ∀ a ∈ x.pre, a.place = p → ArcSat a m) :
    TrSim Inv (fun _ => True) x { x with pre := dropArc p x.pre, post := post } := by
  intro m m' hm hK
  have hmm : m' = m := funext fun q => hK q trivial
  subst hmm
  have hen : RTr.En { x with pre := dropArc p x.pre, post := post } m' ↔ x.En m' := by
    rw [En_iff hs, En_iff (x := { x with pre := dropArc p x.pre, post := post }) (dropArc_sorted hs p)]
    refine and_congr Iff.rfl ⟨fun h a ha => ?_, fun h a ha => h a (mem_dropArc.1 ha).1⟩
    by_cases hap : a.place = p
    · exact hsat m' hm a ha hap
    · exact h a (mem_dropArc.2 ⟨ha, hap⟩)
  refine ⟨hen, fun hx q _ => ?_⟩
  have h2 := hx.2.1 q
  have e2 : RTr.O { x with pre := dropArc p x.pre, post := post } q = wAt post q := rfl
  unfold RTr.fire
  rw [drop_I, e2, hpost]
  by_cases hq : q = p
  · subst hq
    simp only [if_true]
    omega
  · simp only [if_neg hq]

/-- Well-formedness after `trSim_absorb`. -/
theorem RTr.WF.absorb {okP : Nat → Prop} {pinhib : Nat → Bool} {x : RTr} (h : x.WF okP pinhib) (hl : x.skip = false)
    (p : Nat) {post : List Arc} (h1 : Sorted post) (h2 : ∀ a ∈ post, 0 < a.weight ∧ a.inhib = false ∧ okP a.place) :
    RTr.WF okP pinhib { x with pre := dropArc p x.pre, post := post } :=
  { preS := dropArc_sorted h.preS p
    postS := h1
    preW := fun a ha => h.preW a (mem_dropArc.1 ha).1
    postW := fun a ha => (h2 a ha).1
    postI := fun a ha => (h2 a ha).2.1
    preP := fun a ha => h.preP a (mem_dropArc.1 ha).1
    postP := fun a ha => (h2 a ha).2.2
    empty := fun hs => by
      change x.skip = true at hs
      rw [hl] at hs; cases hs
    inhT := fun a ha hi => h.inhT a (mem_dropArc.1 ha).1 hi
    inhP := fun a ha hi => h.inhP a (mem_dropArc.1 ha).1 hi }

theorem RTr.WF.post_all {okP : Nat → Prop} {pinhib : Nat → Bool} {x : RTr} (h : x.WF okP pinhib) :
    ∀ a ∈ x.post, 0 < a.weight ∧ a.inhib = false ∧ okP a.place :=
  fun a ha => ⟨h.postW a ha, h.postI a ha, h.postP a ha⟩

theorem arcAt_subArc (p w : Nat) (l : List Arc) (q : Nat) :
    arcAt (subArc p w l) q =
      (arcAt l q).map fun a => if a.place = p then { a with weight := a.weight - w } else a := by
  induction l with
  | nil => rfl
  | cons a l ih =>
    have he : subArc p w (a :: l) = (if a.place = p then { a with weight := a.weight - w } else a) :: subArc p w l := rfl
    rw [he, arcAt_cons, arcAt_cons, ih]
    have hp : (if a.place = p then { a with weight := a.weight - w } else a).place = a.place := by split <;> rfl
    rw [hp]
    by_cases hq : a.place = q
    · simp [hq]
    · simp [hq]

theorem wAt_subArc (p w : Nat) (l : List Arc) (q : Nat) :
    wAt (subArc p w l) q = if q = p then wAt l p - w else wAt l q := by
  unfold wAt
  rw [arcAt_subArc]
  by_cases hq : q = p
  · subst hq
    rw [if_pos rfl]
    cases h : arcAt l q with
    | none => simp
    | some a => simp [(arcAt_mem h).2]
  · rw [if_neg hq]
    cases h : arcAt l q with
    | none => simp
    | some a =>
      have : a.place ≠ p := by rw [(arcAt_mem h).2]; exact hq
      simp [this]

theorem subArc_sorted {l : List Arc} (h : Sorted l) (p w : Nat) : Sorted (subArc p w l) := by
  unfold Sorted subArc
  rw [List.pairwise_map]
  refine h.imp fun {a b} hab => ?_
  have hp : ∀ a : Arc, (if a.place = p then { a with weight := a.weight - w } else a).place = a.place := by
    intro a; split <;> rfl
  rw [hp, hp]; exact hab

theorem subArc_mem {l : List Arc} {p w : Nat} {c : Arc} (h : c ∈ subArc p w l) :
    ∃ a ∈ l, c.place = a.place ∧ c.inhib = a.inhib ∧ c.weight = if a.place = p then a.weight - w else a.weight := by
  obtain ⟨a, ha, rfl⟩ := List.mem_map.1 h
  refine ⟨a, ha, ?_⟩
  by_cases hp : a.place = p
  · simp [hp]
  · simp [hp]

/-! ### What can happen -/

/-- The effect of a transition is accounted for. -/
def TEff (s : MState) (x : RTr) : Prop :=
  ∀ p, (x.I p < x.O p → s.inc p = true) ∧ (x.O p < x.I p → s.dec p = true ∧ s.low p ≤ x.O p)

/-- Later states of the iteration. -/
structure MLe (N : RNet) (s s' : MState) : Prop where
  inc : ∀ p, s.inc p = true → s'.inc p = true
  dec : ∀ p, s.dec p = true → s'.dec p = true
  low : ∀ p, s'.low p ≤ s.low p
  tf : ∀ t, s.tf t = true → s'.tf t = true
  queue : ∀ t ∈ s.queue, t ∈ s'.queue
  push : ∀ p, (s.inc p = false ∧ s'.inc p = true) ∨ (s.dec p = false ∧ s'.dec p = true) →
    ∀ t ∈ N.consumers p, s'.tf t = true ∨ t ∈ s'.queue

/-- The bounds. -/
def MLow (N : RNet) (s : MState) : Prop := ∀ p, s.low p ≤ N.init p ∧ (s.dec p = false → s.low p = N.init p)

theorem MLe.refl (N : RNet) (s : MState) : MLe N s s :=
  ⟨fun _ h => h, fun _ h => h, fun _ => Nat.le_refl _, fun _ h => h, fun _ h => h, by
    rintro p (⟨h1, h2⟩ | ⟨h1, h2⟩) <;> · rw [h1] at h2; cases h2⟩

theorem MLe.trans {N : RNet} {s s' s'' : MState} (h : MLe N s s') (h' : MLe N s' s'') : MLe N s s'' := by
  refine ⟨fun p hp => h'.inc p (h.inc p hp), fun p hp => h'.dec p (h.dec p hp),
    fun p => Nat.le_trans (h'.low p) (h.low p), fun t ht => h'.tf t (h.tf t ht),
    fun t ht => h'.queue t (h.queue t ht), ?_⟩
  intro p hp t ht
  have key : ((s.inc p = false ∧ s'.inc p = true) ∨ (s.dec p = false ∧ s'.dec p = true)) ∨
      ((s'.inc p = false ∧ s''.inc p = true) ∨ (s'.dec p = false ∧ s''.dec p = true)) := by
    rcases hp with ⟨h1, h2⟩ | ⟨h1, h2⟩
    · cases he : s'.inc p with
      | true => exact Or.inl (Or.inl ⟨h1, rfl⟩)
      | false => exact Or.inr (Or.inl ⟨rfl, h2⟩)
    · cases he : s'.dec p with
      | true => exact Or.inl (Or.inr ⟨h1, rfl⟩)
      | false => exact Or.inr (Or.inr ⟨rfl, h2⟩)
  rcases key with hk | hk
  · rcases h.push p hk t ht with h1 | h1
    · exact Or.inl (h'.tf t h1)
    · exact Or.inr (h'.queue t h1)
  · exact h'.push p hk t ht

theorem mPush_mem {N : RNet} {p : Nat} {s : MState} {t : Nat} (h : t ∈ N.consumers p) :
    s.tf t = true ∨ t ∈ mPush N p s := by
  unfold mPush
  cases ht : s.tf t with
  | true => exact Or.inl rfl
  | false => exact Or.inr (List.mem_append.2 (Or.inr (List.mem_filter.2 ⟨h, by simp [ht]⟩)))

theorem mInc_le (N : RNet) (p : Nat) (s : MState) : MLe N s (mInc N p s) := by
  unfold mInc
  split
  · exact MLe.refl N s
  · rename_i hp
    refine ⟨fun q hq => ?_, fun _ h => h, fun _ => Nat.le_refl _, fun _ h => h, fun t ht => ?_, ?_⟩
    · simp [hq]
    · exact List.mem_append.2 (Or.inl ht)
    · rintro q (⟨h1, h2⟩ | ⟨h1, h2⟩) t ht
      · by_cases hq : q = p
        · subst hq; exact mPush_mem (s := s) ht
        · simp only [if_neg hq] at h2
          rw [h1] at h2; cases h2
      · change s.dec q = true at h2
        rw [h1] at h2; cases h2

theorem mInc_inc (N : RNet) (p : Nat) (s : MState) : (mInc N p s).inc p = true := by
  unfold mInc
  split
  · assumption
  · simp

theorem mDec_le (N : RNet) (p low : Nat) (s : MState) : MLe N s (mDec N p low s) := by
  have hlow : ∀ q, (mLow p low s).low q ≤ s.low q := by
    intro q
    unfold mLow
    by_cases hq : q = p
    · subst hq; simp only [if_true]; omega
    · simp [hq]
  unfold mDec
  split
  · rename_i hd
    refine ⟨fun _ h => h, fun _ h => h, hlow, fun _ h => h, fun _ h => h, ?_⟩
    rintro q (⟨h1, h2⟩ | ⟨h1, h2⟩)
    · change s.inc q = true at h2
      rw [h1] at h2; cases h2
    · change s.dec q = true at h2
      rw [h1] at h2; cases h2
  · refine ⟨fun _ h => h, fun q hq => ?_, hlow, fun _ h => h, fun t ht => ?_, ?_⟩
    · simp [hq]
    · exact List.mem_append.2 (Or.inl ht)
    · rintro q (⟨h1, h2⟩ | ⟨h1, h2⟩) t ht
      · change s.inc q = true at h2
        rw [h1] at h2; cases h2
      · by_cases hq : q = p
        · subst hq; exact mPush_mem (s := s) ht
        · simp only [if_neg hq] at h2
          rw [h1] at h2; cases h2

theorem mDec_dec (N : RNet) (p low : Nat) (s : MState) :
    (mDec N p low s).dec p = true ∧ (mDec N p low s).low p ≤ low := by
  have hlow : (mLow p low s).low p ≤ low := by
    unfold mLow; simp only [if_true]; omega
  unfold mDec
  split
  · exact ⟨by assumption, hlow⟩
  · exact ⟨by simp, hlow⟩

theorem mInc_low {N : RNet} (p : Nat) {s : MState} (h : MLow N s) : MLow N (mInc N p s) := by
  unfold mInc
  split
  · exact h
  · exact h

theorem mDec_low {N : RNet} (p low : Nat) {s : MState} (h : MLow N s) : MLow N (mDec N p low s) := by
  intro q
  have h1 := mDec_le N p low s
  refine ⟨Nat.le_trans (h1.low q) (h q).1, fun hq => ?_⟩
  have hqp : q ≠ p := by
    rintro rfl
    rw [(mDec_dec N q low s).1] at hq; cases hq
  have hq' : s.dec q = false := by
    cases he : s.dec q with
    | false => rfl
    | true => rw [h1.dec q he] at hq; cases hq
  have h2 : (mDec N p low s).low q = s.low q := by
    unfold mDec
    split <;> · unfold mLow; simp [hqp]
  rw [h2]
  exact (h q).2 hq'

/-- What `mArc` does for the arcs of a place. -/
def PEff (s : MState) (x : Option Arc × Option Arc) : Prop :=
  match x with
  | (none, none) => True
  | (some a, none) => a.inhib = false → s.dec a.place = true ∧ s.low a.place ≤ 0
  | (none, some b) => s.inc b.place = true
  | (some a, some b) =>
    (a.inhib = true → s.inc b.place = true) ∧
    (a.inhib = false → (b.weight < a.weight → s.dec a.place = true ∧ s.low a.place ≤ b.weight) ∧
      (a.weight < b.weight → s.inc b.place = true))

theorem PEff.mono {N : RNet} {s s' : MState} (h : MLe N s s') {x : Option Arc × Option Arc} (hx : PEff s x) :
    PEff s' x := by
  obtain ⟨x1, x2⟩ := x
  cases x1 with
  | none =>
    cases x2 with
    | none => trivial
    | some b => exact h.inc _ hx
  | some a =>
    cases x2 with
    | none => exact fun hi => ⟨h.dec _ (hx hi).1, Nat.le_trans (h.low _) (hx hi).2⟩
    | some b =>
      exact ⟨fun hi => h.inc _ (hx.1 hi), fun hi => ⟨fun hw => ⟨h.dec _ ((hx.2 hi).1 hw).1,
        Nat.le_trans (h.low _) ((hx.2 hi).1 hw).2⟩, fun hw => h.inc _ ((hx.2 hi).2 hw)⟩⟩

theorem mArc_spec (N : RNet) (x : Option Arc × Option Arc) (s : MState) :
    MLe N s (mArc N x s) ∧ PEff (mArc N x s) x ∧ (MLow N s → MLow N (mArc N x s)) ∧ (mArc N x s).tf = s.tf := by
  have hti : ∀ p s, (mInc N p s).tf = s.tf := by intro p s; unfold mInc; split <;> rfl
  have htd : ∀ p l s, (mDec N p l s).tf = s.tf := by intro p l s; unfold mDec; split <;> rfl
  obtain ⟨x1, x2⟩ := x
  cases x1 with
  | none =>
    cases x2 with
    | none => exact ⟨MLe.refl N s, trivial, fun h => h, rfl⟩
    | some b => exact ⟨mInc_le N _ s, mInc_inc N _ s, mInc_low _, hti _ _⟩
  | some a =>
    cases x2 with
    | none =>
      have he : mArc N (some a, none) s = if a.inhib then s else mDec N a.place 0 s := rfl
      rw [he]
      cases hi : a.inhib with
      | true => exact ⟨MLe.refl N s, fun h => (by rw [hi] at h; cases h), fun h => h, rfl⟩
      | false => exact ⟨mDec_le N _ _ s, fun _ => mDec_dec N _ _ s, mDec_low _ _, htd _ _ _⟩
    | some b =>
      have he : mArc N (some a, some b) s =
          if a.inhib then mInc N b.place s
          else if b.weight < a.weight then mDec N a.place b.weight s
          else if a.weight < b.weight then mInc N b.place s else s := rfl
      rw [he]
      cases hi : a.inhib with
      | true =>
        exact ⟨mInc_le N _ s, ⟨fun _ => mInc_inc N _ s, fun h => (by rw [hi] at h; cases h)⟩, mInc_low _, hti _ _⟩
      | false =>
        simp only [Bool.false_eq_true, if_false]
        by_cases h1 : b.weight < a.weight
        · rw [if_pos h1]
          refine ⟨mDec_le N _ _ s, ⟨fun h => (by rw [hi] at h; cases h), fun _ => ⟨fun _ => mDec_dec N _ _ s, fun h => ?_⟩⟩,
            mDec_low _ _, htd _ _ _⟩
          omega
        · rw [if_neg h1]
          by_cases h2 : a.weight < b.weight
          · rw [if_pos h2]
            exact ⟨mInc_le N _ s, ⟨fun h => (by rw [hi] at h; cases h), fun _ => ⟨fun h => absurd h h1,
              fun _ => mInc_inc N _ s⟩⟩, mInc_low _, hti _ _⟩
          · rw [if_neg h2]
            exact ⟨MLe.refl N s, ⟨fun h => (by rw [hi] at h; cases h), fun _ => ⟨fun h => absurd h h1,
              fun h => absurd h h2⟩⟩, fun h => h, rfl⟩

theorem mArcs_spec (N : RNet) (l : List (Option Arc × Option Arc)) : ∀ s,
    MLe N s (l.foldl (fun s x => mArc N x s) s) ∧ (∀ x ∈ l, PEff (l.foldl (fun s x => mArc N x s) s) x) ∧
      (MLow N s → MLow N (l.foldl (fun s x => mArc N x s) s)) ∧ (l.foldl (fun s x => mArc N x s) s).tf = s.tf := by
  induction l with
  | nil => intro s; exact ⟨MLe.refl N s, by simp, fun h => h, rfl⟩
  | cons x l ih =>
    intro s
    obtain ⟨h1, h2, h3, h4⟩ := mArc_spec N x s
    obtain ⟨i1, i2, i3, i4⟩ := ih (mArc N x s)
    refine ⟨h1.trans i1, ?_, fun h => i3 (h3 h), i4.trans h4⟩
    intro y hy
    rcases List.mem_cons.1 hy with rfl | hy
    · exact h2.mono i1
    · exact i2 y hy

theorem mEnabled_spec {N : RNet} (hN : N.WF) (t : Nat) (s : MState) :
    MLe N s (mEnabled N t s) ∧ TEff (mEnabled N t s) (N.tr t) ∧ (MLow N s → MLow N (mEnabled N t s)) ∧
      ∀ i, (mEnabled N t s).tf i = if i = t then true else s.tf i := by
  obtain ⟨h1, h2, h3, h4⟩ := mArcs_spec N (mergeArcs (N.tr t).pre (N.tr t).post)
    { s with tf := fun i => if i = t then true else s.tf i }
  have h0 : MLe N s { s with tf := fun i => if i = t then true else s.tf i } := by
    refine ⟨fun _ h => h, fun _ h => h, fun _ => Nat.le_refl _, fun i h => ?_, fun _ h => h, ?_⟩
    · simp [h]
    · rintro p (⟨h1, h2⟩ | ⟨h1, h2⟩)
      · change s.inc p = true at h2
        rw [h1] at h2; cases h2
      · change s.dec p = true at h2
        rw [h1] at h2; cases h2
  refine ⟨h0.trans h1, ?_, h3, fun i => ?_⟩
  · intro p
    have hm := (mergeArcs_mem (hN.preS t) (hN.postS t)).2 p
    change (_ → (mEnabled N t s).inc p = true) ∧ (_ → (mEnabled N t s).dec p = true ∧ (mEnabled N t s).low p ≤ _)
    have h2' : ∀ x ∈ mergeArcs (N.tr t).pre (N.tr t).post, PEff (mEnabled N t s) x := h2
    generalize mEnabled N t s = s' at h2' ⊢
    unfold RTr.I RTr.O wAt
    cases ha : arcAt (N.tr t).pre p with
    | none =>
      cases hb : arcAt (N.tr t).post p with
      | none => simp
      | some b =>
        rw [ha, hb] at hm
        have := h2' _ (hm (by simp))
        have hbp := (arcAt_mem hb).2
        simp only [PEff, hbp] at this
        simp [this]
    | some a =>
      have hap := (arcAt_mem ha).2
      cases hb : arcAt (N.tr t).post p with
      | none =>
        rw [ha, hb] at hm
        have := h2' _ (hm (by simp))
        simp only [PEff, hap] at this
        cases hi : a.inhib with
        | true => simp [hi]
        | false =>
          have h5 := this hi
          simp [hi, h5.1]
          omega
      | some b =>
        have hbp := (arcAt_mem hb).2
        rw [ha, hb] at hm
        have := h2' _ (hm (by simp))
        simp only [PEff, hap, hbp] at this
        cases hi : a.inhib with
        | true => simp [hi, this.1 hi]
        | false =>
          have h5 := this.2 hi
          simp only [hi, Option.map_some, Option.getD_some, Bool.false_eq_true, if_false]
          exact ⟨h5.2, h5.1⟩
  · exact congrFun h4 i

theorem mPass_mono {N : RNet} {s s' : MState} (h : MLe N s s') {a : Arc} (ha : mPass N s a = true) :
    mPass N s' a = true := by
  unfold mPass at ha ⊢
  simp only [Bool.and_eq_true, Bool.or_eq_true] at ha ⊢
  refine ⟨ha.1.imp_right (h.dec _), ha.2.imp_right (h.inc _)⟩

/-- What holds throughout the iteration. -/
structure MInv (N : RNet) (s : MState) : Prop where
  low : MLow N s
  eff : ∀ t, s.tf t = true → TEff s (N.tr t)
  pass : ∀ t, s.tf t = true → ∀ a ∈ (N.tr t).pre, mPass N s a = true

theorem TEff.mono {N : RNet} {s s' : MState} (h : MLe N s s') {x : RTr} (hx : TEff s x) : TEff s' x := fun p =>
  ⟨fun hp => h.inc p ((hx p).1 hp), fun hp => ⟨h.dec p ((hx p).2 hp).1, Nat.le_trans (h.low p) ((hx p).2 hp).2⟩⟩

theorem mEnabled_inv {N : RNet} (hN : N.WF) {t : Nat} {s : MState} (h : MInv N s)
    (hp : ∀ a ∈ (N.tr t).pre, mPass N s a = true) : MInv N (mEnabled N t s) := by
  obtain ⟨h1, h2, h3, h4⟩ := mEnabled_spec hN t s
  refine ⟨h3 h.low, fun i hi => ?_, fun i hi a ha => ?_⟩
  · by_cases hit : i = t
    · subst hit; exact h2
    · rw [h4, if_neg hit] at hi
      exact (h.eff i hi).mono h1
  · by_cases hit : i = t
    · subst hit; exact mPass_mono h1 (hp a ha)
    · rw [h4, if_neg hit] at hi
      exact mPass_mono h1 (h.pass i hi a ha)

/-- Every transition is accounted for. -/
def MDone (N : RNet) (s : MState) : Prop :=
  ∀ t, (N.tr t).skip = false → s.tf t = true ∨ t ∈ s.queue ∨ ∃ a ∈ (N.tr t).pre, mPass N s a = false

theorem mFirst_pass {N : RNet} {t : Nat} (h : mFirst N t = true) (s : MState) :
    ∀ a ∈ (N.tr t).pre, mPass N s a = true := by
  intro a ha
  unfold mFirst at h
  have := List.all_eq_true.1 h a ha
  unfold mPass
  cases hi : a.inhib with
  | true =>
    have h1 : N.init a.place < a.weight := by simpa [hi] using this
    simp [h1]
  | false =>
    have h1 : a.weight ≤ N.init a.place := by simpa [hi] using this
    simp [h1]

theorem mStart_spec {N : RNet} (hN : N.WF) : ∀ (l : List Nat) (s : MState), MInv N s →
    (∀ p, s.inc p = true ∨ s.dec p = true → ∀ t ∈ N.consumers p, s.tf t = true ∨ t ∈ s.queue) →
    MInv N (mStart N l s) ∧ MLe N s (mStart N l s) ∧
    (∀ p, (mStart N l s).inc p = true ∨ (mStart N l s).dec p = true → ∀ t ∈ N.consumers p,
      (mStart N l s).tf t = true ∨ t ∈ (mStart N l s).queue) ∧
    ∀ t ∈ l, (N.tr t).skip = false → (mStart N l s).tf t = true ∨ mFirst N t = false := by
  intro l
  induction l with
  | nil => intro s h1 h2; exact ⟨h1, MLe.refl N s, h2, by simp⟩
  | cons t l ih =>
    intro s h1 h2
    unfold mStart
    by_cases hs : (N.tr t).skip = true
    · rw [if_pos hs]
      obtain ⟨a1, a2, a3, a4⟩ := ih s h1 h2
      refine ⟨a1, a2, a3, fun i hi hl => ?_⟩
      rcases List.mem_cons.1 hi with rfl | hi
      · rw [hs] at hl; cases hl
      · exact a4 i hi hl
    · rw [if_neg hs]
      by_cases hf : mFirst N t = true
      · rw [if_pos hf]
        obtain ⟨b1, b2, b3, b4⟩ := mEnabled_spec hN t s
        obtain ⟨a1, a2, a3, a4⟩ := ih (mEnabled N t s) (mEnabled_inv hN h1 (mFirst_pass hf s)) (by
          intro p hp i hi
          by_cases hold : s.inc p = true ∨ s.dec p = true
          · rcases h2 p hold i hi with h | h
            · exact Or.inl (b1.tf i h)
            · exact Or.inr (b1.queue i h)
          · refine b1.push p ?_ i hi
            rcases hp with hp | hp
            · exact Or.inl ⟨by simpa using fun h => hold (Or.inl h), hp⟩
            · exact Or.inr ⟨by simpa using fun h => hold (Or.inr h), hp⟩)
        refine ⟨a1, b1.trans a2, a3, fun i hi hl => ?_⟩
        rcases List.mem_cons.1 hi with rfl | hi
        · exact Or.inl (a2.tf i (by rw [b4]; simp))
        · exact a4 i hi hl
      · rw [if_neg hf]
        obtain ⟨a1, a2, a3, a4⟩ := ih s h1 h2
        refine ⟨a1, a2, a3, fun i hi hl => ?_⟩
        rcases List.mem_cons.1 hi with rfl | hi
        · exact Or.inr (by simpa using hf)
        · exact a4 i hi hl

theorem MDone.mono {N : RNet} (hN : N.WF) {s s' : MState} (h : MLe N s s') {t : Nat}
    (ht : ∃ a ∈ (N.tr t).pre, mPass N s a = false) :
    s'.tf t = true ∨ t ∈ s'.queue ∨ ∃ a ∈ (N.tr t).pre, mPass N s' a = false := by
  obtain ⟨a, ha, hp⟩ := ht
  cases hp' : mPass N s' a with
  | false => exact Or.inr (Or.inr ⟨a, ha, hp'⟩)
  | true =>
    have hc : t ∈ N.consumers a.place := (mem_consumers hN).2 ⟨a, ha, rfl⟩
    have : (s.inc a.place = false ∧ s'.inc a.place = true) ∨ (s.dec a.place = false ∧ s'.dec a.place = true) := by
      unfold mPass at hp hp'
      revert hp hp'
      generalize decide (N.init a.place < a.weight) = b1
      generalize decide (a.weight ≤ N.init a.place) = b2
      cases a.inhib <;> cases s.inc a.place <;> cases s'.inc a.place <;> cases s.dec a.place <;>
        cases s'.dec a.place <;> cases b1 <;> cases b2 <;> simp
    rcases h.push _ this t hc with h1 | h1
    · exact Or.inl h1
    · exact Or.inr (Or.inl h1)

theorem mLoop_spec {N : RNet} (hN : N.WF) : ∀ (fuel : Nat) (s s' : MState), MInv N s → MDone N s →
    mLoop N fuel s = some s' → MInv N s' ∧ MDone N s' ∧ s'.queue = [] := by
  intro fuel
  induction fuel with
  | zero => intro s s' _ _ h; cases h
  | succ fuel ih =>
    intro s s' h1 h2 h
    unfold mLoop at h
    cases hq : s.queue with
    | nil =>
      rw [hq] at h
      simp only [Option.some.injEq] at h
      subst h
      exact ⟨h1, h2, hq⟩
    | cons t q =>
      rw [hq] at h
      simp only at h
      have hinv : MInv N { s with queue := q } := ⟨h1.low, h1.eff, h1.pass⟩
      have hothers : ∀ i, i ≠ t → (N.tr i).skip = false →
          s.tf i = true ∨ i ∈ q ∨ ∃ a ∈ (N.tr i).pre, mPass N s a = false := by
        intro i hi hl
        rcases h2 i hl with h | h | h
        · exact Or.inl h
        · rw [hq] at h
          rcases List.mem_cons.1 h with h | h
          · exact absurd h hi
          · exact Or.inr (Or.inl h)
        · exact Or.inr (Or.inr h)
      by_cases htf : s.tf t = true
      · rw [if_pos htf] at h
        refine ih _ _ hinv (fun i hl => ?_) h
        by_cases hi : i = t
        · subst hi; exact Or.inl htf
        · exact hothers i hi hl
      · rw [if_neg htf] at h
        by_cases hp : (N.tr t).pre.all (mPass N s) = true
        · rw [if_pos hp] at h
          obtain ⟨b1, b2, b3, b4⟩ := mEnabled_spec hN t { s with queue := q }
          refine ih _ _ (mEnabled_inv hN hinv fun a ha => List.all_eq_true.1 hp a ha) (fun i hl => ?_) h
          by_cases hi : i = t
          · subst hi; exact Or.inl (by rw [b4]; simp)
          · rcases hothers i hi hl with h3 | h3 | h3
            · exact Or.inl (b1.tf i h3)
            · exact Or.inr (Or.inl (b1.queue i h3))
            · exact MDone.mono hN b1 h3
        · rw [if_neg hp] at h
          refine ih _ _ hinv (fun i hl => ?_) h
          by_cases hi : i = t
          · subst hi
            refine Or.inr (Or.inr ?_)
            obtain ⟨a, ha, hpa⟩ := List.all_eq_false.1 (by simpa using hp : (N.tr i).pre.all (mPass N s) = false)
            exact ⟨a, ha, by change mPass N s a = false; simpa using hpa⟩
          · exact hothers i hi hl

/-- The result of the iteration. -/
theorem mFix_spec {N : RNet} (hN : N.WF) {fuel : Nat} {s : MState} (h : mFix N fuel = some s) :
    MInv N s ∧ ∀ t, (N.tr t).skip = false → s.tf t = false → ∃ a ∈ (N.tr t).pre, mPass N s a = false := by
  unfold mFix at h
  obtain ⟨a1, a2, a3, a4⟩ := mStart_spec hN (List.range N.nt)
    { inc := fun _ => false, dec := fun _ => false, low := N.init, tf := fun _ => false, queue := [] }
    ⟨fun p => ⟨Nat.le_refl _, fun _ => rfl⟩, by simp, by simp⟩ (by simp)
  obtain ⟨b1, b2, b3⟩ := mLoop_spec hN fuel _ s a1 (by
    intro t hl
    have ht : t < N.nt := Nat.lt_of_not_le fun hc => by
      have := hN.out t hc
      rw [hl] at this; cases this
    rcases a4 t (List.mem_range.2 ht) hl with h5 | h5
    · exact Or.inl h5
    · unfold mFirst at h5
      obtain ⟨a, ha, hx⟩ := List.all_eq_false.1 h5
      have hc : t ∈ N.consumers a.place := (mem_consumers hN).2 ⟨a, ha, rfl⟩
      generalize mStart N (List.range N.nt) _ = s0 at a3 ⊢
      by_cases hfl : s0.inc a.place = true ∨ s0.dec a.place = true
      · rcases a3 _ hfl t hc with h6 | h6
        · exact Or.inl h6
        · exact Or.inr (Or.inl h6)
      · refine Or.inr (Or.inr ⟨a, ha, ?_⟩)
        have f1 : s0.inc a.place = false := by simpa using fun h => hfl (Or.inl h)
        have f2 : s0.dec a.place = false := by simpa using fun h => hfl (Or.inr h)
        unfold mPass
        rw [f1, f2]
        cases hi : a.inhib with
        | true =>
          have : ¬ N.init a.place < a.weight := by simpa [hi] using hx
          simp [this]
        | false =>
          have : ¬ a.weight ≤ N.init a.place := by simpa [hi] using hx
          simp [this]) h
  refine ⟨b1, fun t hl htf => ?_⟩
  rcases b2 t hl with h5 | h5 | h5
  · rw [htf] at h5; cases h5
  · rw [b3] at h5; cases h5
  · exact h5

/-! ### The markings that can be reached -/

/-- Within the bounds. -/
def Box (s : MState) (i0 m : Nat → Nat) : Prop := ∀ p, s.low p ≤ m p ∧ (s.inc p = false → m p ≤ i0 p)

/-- What the iteration knows about a net. -/
structure Frame (s : MState) (N : RNet) : Prop where
  low : MLow N s
  on : ∀ t, (N.tr t).skip = false → s.tf t = true → TEff s (N.tr t) ∧ ∀ a ∈ (N.tr t).pre, mPass N s a = true
  off : ∀ t, (N.tr t).skip = false → s.tf t = false → ∃ a ∈ (N.tr t).pre, mPass N s a = false

theorem mFix_frame {N : RNet} (hN : N.WF) {fuel : Nat} {s : MState} (h : mFix N fuel = some s) : Frame s N := by
  obtain ⟨h1, h2⟩ := mFix_spec hN h
  exact ⟨h1.low, fun t _ ht => ⟨h1.eff t ht, h1.pass t ht⟩, h2⟩

/-- An arc that does not pass is never satisfied. -/
theorem Frame.not_pass {s : MState} {N : RNet} (h : Frame s N) {a : Arc} (ha : mPass N s a = false) {m : Nat → Nat}
    (hm : Box s N.init m) : ¬ ArcSat a m := by
  intro hsat
  unfold ArcSat at hsat
  unfold mPass at ha
  have hb := hm a.place
  cases hi : a.inhib with
  | true =>
    rw [hi] at hsat ha
    simp only [if_true] at hsat
    simp only [Bool.not_true, Bool.false_or, Bool.true_or, Bool.and_true, Bool.or_eq_false_iff, decide_eq_false_iff_not] at ha
    have := (h.low a.place).2 ha.2
    omega
  | false =>
    rw [hi] at hsat ha
    simp only [Bool.false_eq_true, if_false] at hsat
    simp only [Bool.not_false, Bool.true_or, Bool.false_or, Bool.true_and, Bool.or_eq_false_iff, decide_eq_false_iff_not] at ha
    have := hb.2 ha.2
    omega

theorem Frame.never {s : MState} {N : RNet} (hN : N.WF) (h : Frame s N) {t : Nat} (ht : s.tf t = false) {m : Nat → Nat}
    (hm : Box s N.init m) : ¬ (N.tr t).En m := by
  intro hen
  obtain ⟨a, ha, hp⟩ := h.off t hen.1 ht
  exact h.not_pass hp hm (((En_iff (hN.preS t)).1 hen).2 a ha)

theorem Frame.inv {s : MState} {N : RNet} (hN : N.WF) (h : Frame s N) : N.Inv (Box s N.init) := by
  refine ⟨fun p => ⟨(h.low p).1, fun _ => Nat.le_refl _⟩, fun m t hm hen p => ?_⟩
  have htf : s.tf t = true := by
    cases he : s.tf t with
    | true => rfl
    | false => exact absurd hen (h.never hN he hm)
  obtain ⟨h1, h2⟩ := h.on t hen.1 htf
  have h3 := h1 p
  have h4 := hm p
  have h5 := hen.2.1 p
  unfold RTr.fire
  refine ⟨?_, fun hi => ?_⟩
  · by_cases hd : (N.tr t).O p < (N.tr t).I p
    · have := (h3.2 hd).2
      omega
    · omega
  · have : ¬ (N.tr t).I p < (N.tr t).O p := fun hc => by
      rw [h3.1 hc] at hi; cases hi
    have := h4.2 hi
    omega

end Reduce
end Verif
