import Verif.Reduce.Ops

/-!
# Rules F, G, C, J
-/

namespace Verif
namespace Reduce

/-! ### Rule F -/

theorem ruleFStep_good {Q : Nat → Bool} {N N' : RNet} {p : Nat} (h : ruleFStep Q N p = some N') :
    Good Q N N' := by
  unfold ruleFStep at h
  split at h
  · cases h
  split at h
  · cases h
  rename_i hinh
  split at h
  · cases h
  split at h
  · cases h
  rename_i hQ
  split at h
  · cases h
  rename_i hc
  split at h
  swap
  · cases h
  cases h
  refine Good.of rfl fun hN => ?_
  simp only [List.any_eq_true, not_exists, not_and, Bool.not_eq_true, Bool.or_eq_false_iff, decide_eq_false_iff_not] at hc
  have hcons : ∀ t, ∀ a ∈ (N.tr t).pre, a.place = p → a.weight ≤ N.init p ∧ a.weight ≤ (N.tr t).O p := by
    intro t a ha hap
    obtain ⟨h1, h2⟩ := hc t ((mem_consumers hN).2 ⟨a, ha, hap⟩)
    subst hap
    rw [wAt_of_mem (hN.preS t) ha] at h1 h2
    refine ⟨by omega, ?_⟩
    unfold RTr.O
    cases he : arcAt (N.tr t).post a.place with
    | none => rw [he] at h2; cases h2
    | some b =>
      rw [he] at h2
      rw [wAt_of_arcAt he]
      simpa using h2
  refine ⟨skipPlace_WF hN p, skipPlace_same hN (by simpa using hQ) (fun m => N.init p ≤ m p) (Nat.le_refl _) ?_ ?_⟩
  · intro m t hm hen
    have hm : N.init p ≤ m p := hm
    have h3 := hen.2.1 p
    show N.init p ≤ (N.tr t).fire m p
    unfold RTr.fire
    by_cases h0 : (N.tr t).I p = 0
    · omega
    · obtain ⟨a, ha, hap, _, hw⟩ := RTr.I_mem (x := N.tr t) (p := p) (by omega)
      have := (hcons t a ha hap).2
      omega
  · intro m hm t _ a ha hap
    have hm : N.init p ≤ m p := hm
    have hi : a.inhib = false := by
      cases he : a.inhib with
      | false => rfl
      | true => rw [← hap, (hN.tr t).inhP a ha he] at hinh; exact absurd rfl hinh
    unfold ArcSat
    rw [hi, hap]
    have := (hcons t a ha hap).1
    simp only [Bool.false_eq_true, if_false]
    omega

theorem ruleF_good {Q : Nat → Bool} {N : RNet} (lim : Nat) : Good Q N (ruleF Q lim N).1 :=
  sweep_good (fun _ _ _ hs => ruleFStep_good hs) _ _

/-! ### Rule G -/

theorem ruleGStep_good {Q : Nat → Bool} {rc : Bool} {N N' : RNet} {t : Nat}
    (h : ruleGStep Q rc N t = some N') : Good Q N N' := by
  unfold ruleGStep at h
  simp only at h
  split at h
  · cases h
  rename_i hskip
  split at h
  · cases h
  split at h
  · cases h
  split at h
  swap
  · cases h
  rename_i hm
  cases h
  refine Good.of rfl fun hN => ?_
  have hl : (N.tr t).skip = false := by simpa using hskip
  have ht : t < N.nt := Nat.lt_of_not_le fun hc => by rw [hN.out t hc] at hl; cases hl
  rw [Bool.and_eq_true, List.all_eq_true] at hm
  have hmem := (mergeArcs_mem (hN.preS t) (hN.postS t)).2
  have hle : ∀ p, (N.tr t).O p ≤ (N.tr t).I p ∧
      (Q p = true ∨ N.pinhib p = true → (N.tr t).O p = (N.tr t).I p) := by
    intro p
    by_cases hnn : (arcAt (N.tr t).pre p, arcAt (N.tr t).post p) = (none, none)
    · obtain ⟨h1, h2⟩ := Prod.mk.inj hnn
      have e1 : (N.tr t).I p = 0 := RTr.I_none h1
      have e2 : (N.tr t).O p = 0 := wAt_none h2
      rw [e1, e2]; simp
    · have := hm.1 _ (hmem p hnn)
      cases h1 : arcAt (N.tr t).pre p with
      | none => rw [h1] at this; simp [gMatch] at this
      | some a =>
        rw [h1] at this
        have hap := (arcAt_mem h1).2
        cases h2 : arcAt (N.tr t).post p with
        | none =>
          rw [h2] at this
          simp only [gMatch, Bool.and_eq_true, Bool.not_eq_true', Bool.or_eq_false_iff] at this
          have e2 : (N.tr t).O p = 0 := wAt_none h2
          obtain ⟨⟨g1, g2⟩, g3, _⟩ := this
          rw [e2]
          refine ⟨Nat.zero_le _, ?_⟩
          rw [← hap, g2, g3]
          simp
        | some b =>
          rw [h2] at this
          simp only [gMatch, Bool.and_eq_true, Bool.not_eq_true', Bool.or_eq_false_iff, Bool.and_eq_false_iff] at this
          obtain ⟨⟨⟨g1, g2⟩, g3⟩, g4, g5⟩ := this
          have e1 : (N.tr t).I p = a.weight := by unfold RTr.I; rw [h1]; simp [g1]
          have e2 : (N.tr t).O p = b.weight := wAt_of_arcAt h2
          rw [e1, e2]
          rw [hap] at g2 g4 g5
          rw [g2]
          cases hQ : Q p with
          | true =>
            rw [hQ] at g4
            simp only [Bool.true_eq_false, false_or, bne_eq_false_iff_eq] at g4
            rw [g4]; simp
          | false =>
            rw [hQ] at g5
            simp only [Bool.not_false, Bool.true_eq_false, false_or, decide_eq_false_iff_not] at g5
            exact ⟨by omega, by simp⟩
  refine skipTrans_fine_dom hN ht hl fun m m' hd hen => ⟨m', .refl, fun p => ?_⟩
  have h1 := (hd p).1
  have h2 := hen.2.1 p
  have h3 := hle p
  unfold RTr.fire
  refine ⟨by omega, fun hp => ?_⟩
  have := (hd p).2 hp
  have := h3.2 hp
  omega

theorem ruleG_good {Q : Nat → Bool} {N : RNet} (rl rc : Bool) (lim : Nat) :
    Good Q N (ruleG Q rl rc lim N).1 := by
  unfold ruleG
  split
  · exact Good.refl Q N
  · exact sweep_good (fun _ _ _ hs => ruleGStep_good hs) _ _

/-! ### Rule C -/

theorem frac_le_max {x r y : Frac} (hr : 0 < r.den) (h : x.num * r.den ≤ r.num * x.den) :
    x.num * (r.max y).den ≤ (r.max y).num * x.den := by
  unfold Frac.max Frac.lt
  split
  · rename_i hlt
    have hlt : r.num * y.den < y.num * r.den := by simpa using hlt
    refine Nat.le_of_mul_le_mul_left ?_ hr
    calc r.den * (x.num * y.den) = (x.num * r.den) * y.den := by
            rw [← Nat.mul_assoc, Nat.mul_comm r.den]
      _ ≤ (r.num * x.den) * y.den := Nat.mul_le_mul_right _ h
      _ = (r.num * y.den) * x.den := by rw [Nat.mul_assoc, Nat.mul_comm x.den, ← Nat.mul_assoc]
      _ ≤ (y.num * r.den) * x.den := Nat.mul_le_mul_right _ (Nat.le_of_lt hlt)
      _ = r.den * (y.num * x.den) := by rw [Nat.mul_comm y.num, Nat.mul_assoc]
  · exact h

theorem frac_max_right (r y : Frac) : y.num * (r.max y).den ≤ (r.max y).num * y.den := by
  unfold Frac.max Frac.lt
  split
  · exact Nat.le_refl _
  · rename_i hlt
    simpa using hlt

theorem frac_max_den {r y : Frac} (hr : 0 < r.den) (hy : 0 < y.den) : 0 < (r.max y).den := by
  unfold Frac.max; split <;> assumption

theorem cDrain_spec (N : RNet) (p1 p2 : Nat) : ∀ (c1 c2 : List Nat) (r : Frac) (sw sw' : Bool) (r' : Frac),
    (∀ t ∈ c1, 0 < wAt (N.tr t).pre p1) → 0 < r.den → cDrain N p1 p2 c1 c2 r sw = (some r', sw') →
    0 < r'.den ∧ (∀ x : Frac, x.num * r.den ≤ r.num * x.den → x.num * r'.den ≤ r'.num * x.den) ∧
    ∀ t ∈ c2, t ∈ c1 ∧ wAt (N.tr t).pre p2 * r'.den ≤ r'.num * wAt (N.tr t).pre p1 := by
  intro c1
  induction c1 with
  | nil =>
    intro c2 r sw sw' r' _ hr h
    cases c2 with
    | nil =>
      simp only [cDrain, Prod.mk.injEq, Option.some.injEq] at h
      obtain ⟨rfl, _⟩ := h
      exact ⟨hr, fun _ h => h, by simp⟩
    | cons b c2 => simp [cDrain] at h
  | cons a c1 ih =>
    intro c2 r sw sw' r' hpos hr h
    have hpos' : ∀ t ∈ c1, 0 < wAt (N.tr t).pre p1 := fun t ht => hpos t (by simp [ht])
    cases c2 with
    | nil =>
      simp only [cDrain, Prod.mk.injEq, Option.some.injEq] at h
      obtain ⟨rfl, _⟩ := h
      exact ⟨hr, fun _ h => h, by simp⟩
    | cons b c2 =>
      unfold cDrain at h
      split at h
      · simp at h
      · split at h
        · obtain ⟨h1, h2, h3⟩ := ih (b :: c2) r true sw' r' hpos' hr h
          exact ⟨h1, h2, fun t ht => ⟨by simp [(h3 t ht).1], (h3 t ht).2⟩⟩
        · have hab : b = a := by omega
          subst hab
          obtain ⟨h1, h2, h3⟩ := ih c2 _ sw sw' r' hpos' (frac_max_den hr (hpos b (by simp))) h
          refine ⟨h1, fun x hx => h2 x (frac_le_max hr hx), fun t ht => ?_⟩
          rcases List.mem_cons.1 ht with rfl | ht
          · exact ⟨by simp, h2 ⟨_, _⟩ (frac_max_right r _)⟩
          · exact ⟨by simp [(h3 t ht).1], (h3 t ht).2⟩

theorem cFill_spec (N : RNet) (p1 p2 : Nat) (r : Frac) : ∀ (c1 c2 : List Nat) (sw sw' : Bool),
    cFill N p1 p2 r c1 c2 sw = (true, sw') →
    ∀ t ∈ c1, r.num * wAt (N.tr t).post p1 ≤ wAt (N.tr t).post p2 * r.den := by
  intro c1 c2
  induction c2 generalizing c1 with
  | nil =>
    intro sw sw' h
    cases c1 with
    | nil => simp
    | cons a c1 => simp [cFill] at h
  | cons b c2 ih =>
    intro sw sw' h
    cases c1 with
    | nil => simp
    | cons a c1 =>
      unfold cFill at h
      split at h
      · simp at h
      · split at h
        · exact ih (a :: c1) true sw' h
        · split at h
          · simp at h
          · rename_i hlt
            intro t ht
            rcases List.mem_cons.1 ht with rfl | ht
            · unfold Frac.lt at hlt
              simpa using hlt
            · exact ih c1 sw sw' h t ht

theorem cCheck_good {Q : Nat → Bool} {N : RNet} {p1 p2 : Nat} (hne : p1 ≠ p2) (h : (cCheck Q N p1 p2).1 = true) :
    Good Q N ((N.flag (cBad N p1 p2)).skipPlace p2) := by
  refine Good.flag rfl fun hbad hN => ?_
  unfold cCheck at h
  split at h
  · cases h
  rename_i hQ
  split at h
  · cases h
  rename_i hinh
  split at h
  · cases h
  split at h
  · cases h
  split at h
  · cases h
  rename_i r sw hdr
  split at h
  · cases h
  rename_i hinit
  have hpos : ∀ t ∈ N.consumers p1, 0 < wAt (N.tr t).pre p1 := by
    intro t ht
    obtain ⟨a, ha, rfl⟩ := (mem_consumers hN).1 ht
    rw [wAt_of_mem (hN.preS t) ha]
    exact (hN.tr t).preW a ha
  obtain ⟨hden, _, hdrain⟩ := cDrain_spec N p1 p2 _ _ ⟨0, 1⟩ _ _ _ hpos (by simp) hdr
  have hfill := cFill_spec N p1 p2 r (N.producers p1) (N.producers p2) sw _ (Prod.ext h rfl)
  have hO : ∀ t, r.num * (N.tr t).O p1 ≤ (N.tr t).O p2 * r.den := by
    intro t
    by_cases ht : t ∈ N.producers p1
    · exact hfill t ht
    · have : (N.tr t).O p1 = 0 := wAt_none (arcAt_none_of_not_producer hN ht)
      rw [this]; simp
  have hnorm2 : ∀ t, ∀ a ∈ (N.tr t).pre, a.place = p2 → a.inhib = false := by
    intro t a ha hap
    cases hi : a.inhib with
    | false => rfl
    | true => rw [← hap, (hN.tr t).inhP a ha hi] at hinh; exact absurd rfl hinh
  have hcons : ∀ t, ∀ a ∈ (N.tr t).pre, a.place = p2 →
      ∃ b ∈ (N.tr t).pre, b.place = p1 ∧ b.inhib = false ∧ a.weight * r.den ≤ r.num * b.weight := by
    intro t a ha hap
    have ht := (mem_consumers hN).2 ⟨a, ha, hap⟩
    obtain ⟨h1, h2⟩ := hdrain t ht
    obtain ⟨b, hb, hbp⟩ := (mem_consumers hN).1 h1
    refine ⟨b, hb, hbp, ?_, ?_⟩
    · unfold cBad at hbad
      rw [List.any_eq_false] at hbad
      have := hbad t ht
      rw [← hbp, arcAt_of_mem (hN.preS t) hb] at this
      simpa using this
    · rw [← hap, wAt_of_mem (hN.preS t) ha, ← hbp, wAt_of_mem (hN.preS t) hb] at h2
      exact h2
  have hI : ∀ t, (N.tr t).I p2 * r.den ≤ r.num * (N.tr t).I p1 := by
    intro t
    by_cases h0 : (N.tr t).I p2 = 0
    · rw [h0]; simp
    · obtain ⟨a, ha, hap, _, hw⟩ := RTr.I_mem (x := N.tr t) (p := p2) (by omega)
      obtain ⟨b, hb, hbp, hbi, hle⟩ := hcons t a ha hap
      rw [← hw, ← hbp, RTr.I_of_mem (hN.preS t) hb hbi]
      exact hle
  refine ⟨skipPlace_WF (flag_WF hN _) p2, ?_⟩
  refine skipPlace_same (N := N) hN (by simpa using hQ) (fun m => r.num * m p1 ≤ m p2 * r.den) ?_ ?_ ?_
  · rw [Nat.mul_comm r.num]; omega
  · intro m t hm hen
    have hm : r.num * m p1 ≤ m p2 * r.den := hm
    show r.num * (m p1 - (N.tr t).I p1 + (N.tr t).O p1) ≤ (m p2 - (N.tr t).I p2 + (N.tr t).O p2) * r.den
    have e1 := hen.2.1 p1
    have e2 := hen.2.1 p2
    have e3 := hI t
    have e4 := hO t
    have e5 : r.num * (N.tr t).I p1 ≤ r.num * m p1 := Nat.mul_le_mul_left _ e1
    have e6 : (N.tr t).I p2 * r.den ≤ m p2 * r.den := Nat.mul_le_mul_right _ e2
    rw [Nat.mul_add, Nat.add_mul, Nat.mul_sub, Nat.sub_mul]
    omega
  · intro m hm t hb a ha hap
    have hm : r.num * m p1 ≤ m p2 * r.den := hm
    obtain ⟨b, hbm, hbp, hbi, hle⟩ := hcons t a ha hap
    unfold ArcSat
    rw [hnorm2 t a ha hap, hap]
    simp only [Bool.false_eq_true, if_false]
    have hsb := hb b hbm (by omega)
    unfold ArcSat at hsb
    rw [hbi, hbp] at hsb
    simp only [Bool.false_eq_true, if_false] at hsb
    have : r.num * b.weight ≤ r.num * m p1 := Nat.mul_le_mul_left _ hsb
    have h3 : a.weight * r.den ≤ m p2 * r.den := by omega
    exact Nat.le_of_mul_le_mul_right h3 hden

/-- What `cPair` finds. -/
theorem cPair_good {Q : Nat → Bool} {N : RNet} {po pi p2 : Nat} (hne : po ≠ pi) (h : cPair Q N po pi = some p2) :
    Good Q N (cRemove N po pi p2) ∧ (p2 = po ∨ p2 = pi) := by
  unfold cPair at h
  split at h
  · cases h
  unfold cRemove
  split at h
  · rename_i hc
    cases h
    rw [if_neg (Ne.symm hne)]
    exact ⟨cCheck_good hne (by rw [hc]), Or.inr rfl⟩
  · cases h
  · split at h
    · rename_i hc
      cases h
      rw [if_pos rfl]
      exact ⟨cCheck_good (Ne.symm hne) hc, Or.inl rfl⟩
    · cases h

theorem dropArc_get {p2 : Nat} {b : Arc} (hb : b.place ≠ p2) : ∀ (l : List Arc) (i : Nat), l[i]? = some b →
    ∃ j ≤ i, (dropArc p2 l)[j]? = some b := by
  intro l
  induction l with
  | nil => intro i h; simp at h
  | cons a l ih =>
    intro i h
    unfold dropArc
    rw [List.filter_cons]
    cases i with
    | zero =>
      simp only [List.getElem?_cons_zero, Option.some.injEq] at h
      subst h
      have : (a.place != p2) = true := by simpa using hb
      rw [this, if_pos rfl]
      exact ⟨0, Nat.le_refl _, by simp⟩
    | succ i =>
      rw [List.getElem?_cons_succ] at h
      obtain ⟨j, hj, he⟩ := ih i h
      split
      · exact ⟨j + 1, by omega, by rw [List.getElem?_cons_succ]; exact he⟩
      · exact ⟨j, by omega, he⟩

theorem sorted_get {l : List Arc} (hs : Sorted l) {i j : Nat} {a b : Arc} (h : i < j) (ha : l[i]? = some a)
    (hb : l[j]? = some b) : a.place < b.place := by
  obtain ⟨hi, rfl⟩ := List.getElem?_eq_some_iff.1 ha
  obtain ⟨hj, rfl⟩ := List.getElem?_eq_some_iff.1 hb
  exact List.pairwise_iff_getElem.1 hs i j hi hj h

theorem cInner_good {Q : Nat → Bool} (tid po : Nat) : ∀ (fuel ai : Nat) (N : RNet), N.WF →
    (∃ i < ai, ∃ b, (N.tr tid).post[i]? = some b ∧ b.place = po) → Good Q N (cInner Q tid po fuel ai N).1 := by
  intro fuel
  induction fuel with
  | zero => intro ai N _ _; exact Good.refl Q N
  | succ fuel ih =>
    intro ai N hN hi
    unfold cInner
    cases ha : (N.tr tid).post[ai]? with
    | none => exact Good.refl Q N
    | some a =>
      simp only
      obtain ⟨i, hlt, b, hb, hbp⟩ := hi
      have hne : po ≠ a.place := by
        have := sorted_get (hN.postS tid) hlt hb ha
        omega
      cases hp : cPair Q N po a.place with
      | none => exact ih (ai + 1) N hN ⟨i, by omega, b, hb, hbp⟩
      | some p2 =>
        simp only
        obtain ⟨h1, h2⟩ := cPair_good hne hp
        by_cases h3 : p2 = po
        · rw [if_pos h3]; exact h1
        · rw [if_neg h3]
          have hW : (cRemove N po a.place p2).WF := skipPlace_WF (flag_WF hN _) p2
          refine h1.trans (ih ai _ hW ?_)
          obtain ⟨j, hj, he⟩ := dropArc_get (p2 := p2) (b := b) (by omega) _ i hb
          exact ⟨j, by omega, b, he, hbp⟩

theorem cInner_mono {Q : Nat → Bool} (tid po : Nat) : ∀ (fuel ai : Nat) (N : RNet),
    Mono N (cInner Q tid po fuel ai N).1 := by
  intro fuel
  induction fuel with
  | zero => intro ai N; exact Mono.refl N
  | succ fuel ih =>
    intro ai N
    unfold cInner
    have hr : ∀ q p2, Mono N (cRemove N po q p2) := fun q p2 h => (flag_bad h).1
    cases ha : (N.tr tid).post[ai]? with
    | none => exact Mono.refl N
    | some a =>
      simp only
      cases hp : cPair Q N po a.place with
      | none => exact ih _ _
      | some p2 =>
        simp only
        split
        · exact hr _ _
        · exact (hr _ _).trans (ih _ _)

theorem cInner_WF {Q : Nat → Bool} (tid po : Nat) : ∀ (fuel ai : Nat) (N : RNet), N.WF →
    (cInner Q tid po fuel ai N).1.WF := by
  intro fuel
  induction fuel with
  | zero => intro ai N h; exact h
  | succ fuel ih =>
    intro ai N hN
    unfold cInner
    cases ha : (N.tr tid).post[ai]? with
    | none => exact hN
    | some a =>
      simp only
      cases hp : cPair Q N po a.place with
      | none => exact ih _ _ hN
      | some p2 =>
        have hW : (cRemove N po a.place p2).WF := skipPlace_WF (flag_WF hN _) p2
        simp only
        split
        · exact hW
        · exact ih _ _ hW

theorem cOuter_good {Q : Nat → Bool} (tid : Nat) : ∀ (fuel ao : Nat) (fl : List Nat) (N : RNet),
    Good Q N (cOuter Q tid fuel ao fl N).1 := by
  intro fuel
  induction fuel with
  | zero => intro ao fl N; exact Good.refl Q N
  | succ fuel ih =>
    intro ao fl N
    unfold cOuter
    cases ha : (N.tr tid).post[ao]? with
    | none => exact Good.refl Q N
    | some a =>
      simp only
      split
      · exact ih _ _ _
      · split
        · exact ih _ _ _
        · refine Good.trans ⟨cInner_mono _ _ _ _ _, fun hN hb => ?_⟩ (ih _ _ _)
          exact (cInner_good (Q := Q) tid a.place ((N.tr tid).post.length + 1) (ao + 1) N hN
            ⟨ao, by omega, a, ha, rfl⟩).2 hN hb

theorem ruleC_good {Q : Nat → Bool} {N : RNet} (lim : Nat) : Good Q N (ruleC Q lim N).1 := by
  unfold ruleC
  have key : ∀ (ts : List Nat) (fl : List Nat) (N : RNet), Good Q N (ruleCLoop Q ts fl N).1 := by
    intro ts
    induction ts with
    | nil => intro fl N; exact Good.refl Q N
    | cons t ts ih =>
      intro fl N
      unfold ruleCLoop
      simp only
      exact (cOuter_good (Q := Q) t ((N.tr t).post.length + 1) 0 fl N).trans (ih _ _)
  exact key _ _ _

/-! ### Rule J -/

theorem arcAt_divArc (p k : Nat) (l : List Arc) (q : Nat) :
    arcAt (divArc p k l) q = (arcAt l q).map fun a => if a.place = p then { a with weight := a.weight / k } else a := by
  induction l with
  | nil => rfl
  | cons a l ih =>
    have : divArc p k (a :: l) = (if a.place = p then { a with weight := a.weight / k } else a) :: divArc p k l := rfl
    rw [this, arcAt_cons, arcAt_cons, ih]
    have hp : (if a.place = p then { a with weight := a.weight / k } else a).place = a.place := by split <;> rfl
    rw [hp]
    split <;> simp

theorem wAt_divArc (p k : Nat) (l : List Arc) (q : Nat) :
    wAt (divArc p k l) q = if q = p then wAt l q / k else wAt l q := by
  unfold wAt
  rw [arcAt_divArc]
  cases he : arcAt l q with
  | none => simp
  | some a =>
    have := (arcAt_mem he).2
    by_cases h : q = p
    · simp [h, this]
    · simp [h, this]

theorem divArc_sorted {p k : Nat} {l : List Arc} (hs : Sorted l) : Sorted (divArc p k l) := by
  unfold Sorted divArc
  rw [List.pairwise_map]
  refine List.Pairwise.imp ?_ hs
  intro a b hab
  have h1 : ∀ c : Arc, (if c.place = p then { c with weight := c.weight / k } else c).place = c.place := by
    intro c; split <;> rfl
  rw [h1, h1]; exact hab

theorem mem_divArc {p k : Nat} {l : List Arc} {a : Arc} (h : a ∈ divArc p k l) :
    ∃ b ∈ l, b.place = a.place ∧ b.inhib = a.inhib ∧ a.weight = if b.place = p then b.weight / k else b.weight := by
  unfold divArc at h
  obtain ⟨b, hb, rfl⟩ := List.mem_map.1 h
  refine ⟨b, hb, ?_⟩
  split <;> simp

theorem jStep_fine {Q : Nat → Bool} {N : RNet} {p k : Nat} (hN : N.WF) (hQ : Q p = false) (hk : 0 < k)
    (hc : ∀ t, ∀ a ∈ (N.tr t).pre, a.place = p → a.weight % k = 0)
    (hp : ∀ t, ∀ a ∈ (N.tr t).post, a.place = p → a.weight % k = 0) (b : Bool) :
    Fine Q N { N.flag b with
      tr := fun t => { N.tr t with pre := divArc p k (N.tr t).pre, post := divArc p k (N.tr t).post }
      init := fun i => if i = p then N.init p / k else N.init i } := by
  have hI : ∀ t q, RTr.I { N.tr t with pre := divArc p k (N.tr t).pre, post := divArc p k (N.tr t).post } q =
      if q = p then (N.tr t).I p / k else (N.tr t).I q := by
    intro t q
    unfold RTr.I
    simp only [arcAt_divArc]
    by_cases hq : q = p
    · subst hq
      cases he : arcAt (N.tr t).pre q with
      | none => simp
      | some a => cases hi : a.inhib <;> simp [(arcAt_mem he).2, hi]
    · cases he : arcAt (N.tr t).pre q with
      | none => simp [hq]
      | some a => cases hi : a.inhib <;> simp [(arcAt_mem he).2, hi, hq]
  have hO : ∀ t q, RTr.O { N.tr t with pre := divArc p k (N.tr t).pre, post := divArc p k (N.tr t).post } q =
      if q = p then (N.tr t).O p / k else (N.tr t).O q := by
    intro t q
    unfold RTr.O
    have := wAt_divArc p k (N.tr t).post q
    rw [this]
    by_cases hq : q = p
    · simp [hq]
    · simp [hq]
  have hIk : ∀ t, (N.tr t).I p % k = 0 := by
    intro t
    by_cases h0 : (N.tr t).I p = 0
    · rw [h0]; simp
    · obtain ⟨a, ha, hap, _, hw⟩ := RTr.I_mem (x := N.tr t) (p := p) (by omega)
      rw [← hw]; exact hc t a ha hap
  have hOk : ∀ t, (N.tr t).O p % k = 0 := by
    intro t
    by_cases h0 : (N.tr t).O p = 0
    · rw [h0]; simp
    · obtain ⟨a, ha, hap, hw⟩ := mem_of_wAt_pos (l := (N.tr t).post) (p := p) (by unfold RTr.O at h0; omega)
      unfold RTr.O
      rw [← hw]; exact hp t a ha hap
  have hpos : ∀ w, 0 < w → w % k = 0 → 0 < w / k := by
    intro w hw hm
    have := Nat.div_add_mod w k
    rcases Nat.eq_zero_or_pos (w / k) with h | h
    · rw [h, hm] at this; omega
    · exact h
  constructor
  · refine ⟨fun t => ?_, hN.out, hN.sk, hN.nd⟩
    have h := hN.tr t
    exact
      { preS := divArc_sorted h.preS
        postS := divArc_sorted h.postS
        preW := fun a ha => by
          obtain ⟨b, hb, h1, _, h3⟩ := mem_divArc ha
          rw [h3]
          split
          · exact hpos _ (h.preW b hb) (hc t b hb (by assumption))
          · exact h.preW b hb
        postW := fun a ha => by
          obtain ⟨b, hb, h1, _, h3⟩ := mem_divArc ha
          rw [h3]
          split
          · exact hpos _ (h.postW b hb) (hp t b hb (by assumption))
          · exact h.postW b hb
        postI := fun a ha => by
          obtain ⟨b, hb, h1, h2, h3⟩ := mem_divArc ha
          rw [← h2]; exact h.postI b hb
        preP := fun a ha => by
          obtain ⟨b, hb, h1, h2, h3⟩ := mem_divArc ha
          rw [← h1]; exact h.preP b hb
        postP := fun a ha => by
          obtain ⟨b, hb, h1, h2, h3⟩ := mem_divArc ha
          rw [← h1]; exact h.postP b hb
        empty := fun hs => by
          obtain ⟨h1, h2⟩ := h.empty hs
          simp [h1, h2, divArc]
        inhT := fun a ha hi => by
          obtain ⟨b, hb, h1, h2, h3⟩ := mem_divArc ha
          exact h.inhT b hb (h2.trans hi)
        inhP := fun a ha hi => by
          obtain ⟨b, hb, h1, h2, h3⟩ := mem_divArc ha
          rw [← h1]
          exact h.inhP b hb (h2.trans hi) }
  · -- `R m m'`: `m'` is `m` with the tokens of `p` counted in units of `k`
    have hfire : ∀ (m m' : Nat → Nat) (t : Nat), (∀ q, m' q = if q = p then m p / k else m q) → (N.tr t).En m →
        ∀ q, RTr.fire { N.tr t with pre := divArc p k (N.tr t).pre, post := divArc p k (N.tr t).post } m' q =
          if q = p then (N.tr t).fire m p / k else (N.tr t).fire m q := by
      intro m m' t hm hen q
      unfold RTr.fire
      rw [hI, hO, hm q]
      by_cases hq : q = p
      · subst hq
        simp only [if_true]
        have h1 := hIk t
        have h2 := hOk t
        have h3 := hen.2.1 q
        obtain ⟨i, hi⟩ := Nat.dvd_of_mod_eq_zero h1
        obtain ⟨o, ho⟩ := Nat.dvd_of_mod_eq_zero h2
        rw [hi, ho, Nat.mul_div_cancel_left _ hk, Nat.mul_div_cancel_left _ hk, Nat.add_mul_div_left _ _ hk,
          Nat.sub_mul_div]
      · simp only [if_neg hq]
    have hen : ∀ (m m' : Nat → Nat) (t : Nat), (∀ q, m' q = if q = p then m p / k else m q) →
        (RTr.En { N.tr t with pre := divArc p k (N.tr t).pre, post := divArc p k (N.tr t).post } m' ↔ (N.tr t).En m) := by
      intro m m' t hm
      have hdiv : ∀ a w, w % k = 0 → (w / k ≤ a / k ↔ w ≤ a) := by
        intro a w hw
        obtain ⟨i, rfl⟩ := Nat.dvd_of_mod_eq_zero hw
        rw [Nat.mul_div_cancel_left _ hk, Nat.le_div_iff_mul_le hk, Nat.mul_comm]
      have hsat : ∀ a ∈ (N.tr t).pre, (ArcSat (if a.place = p then { a with weight := a.weight / k } else a) m' ↔
          ArcSat a m) := by
        intro a ha
        by_cases hap : a.place = p
        · rw [if_pos hap]
          unfold ArcSat
          simp only [hm a.place, if_pos hap]
          have h1 := hdiv (m p) a.weight (hc t a ha hap)
          rw [hap]
          split
          · rw [← Nat.not_le, h1, Nat.not_le]
          · exact h1
        · rw [if_neg hap]
          unfold ArcSat
          rw [hm a.place, if_neg hap]
      rw [En_iff (divArc_sorted (hN.preS t)), En_iff (hN.preS t)]
      refine and_congr Iff.rfl ⟨fun h a ha => ?_, fun h a ha => ?_⟩
      · exact (hsat a ha).1 (h _ (List.mem_map.2 ⟨a, ha, rfl⟩))
      · obtain ⟨b, hb, rfl⟩ := List.mem_map.1 ha
        exact (hsat b hb).2 (h b hb)
    refine Same.of_sims (fun m m' => ∀ q, m' q = if q = p then m p / k else m q)
      (fun m' m => ∀ q, m' q = if q = p then m p / k else m q) ⟨_, .refl, fun q => ?_⟩ ⟨N.init, .refl, fun q => ?_⟩ ?_ ?_ ?_ ?_
    · rfl
    · rfl
    · rintro m m' m1 hm ⟨t, ht, rfl⟩
      exact ⟨_, .single ⟨t, (hen m m' t hm).2 ht, rfl⟩, fun q => hfire m m' t hm ht q⟩
    · rintro m' m m1' hm ⟨t, ht, rfl⟩
      have ht' := (hen m m' t hm).1 ht
      exact ⟨_, .single ⟨t, ht', rfl⟩, fun q => hfire m m' t hm ht' q⟩
    · intro m m' hm q hq
      have : q ≠ p := by rintro rfl; rw [hQ] at hq; cases hq
      rw [hm q, if_neg this]
    · intro m' m hm q hq
      have : q ≠ p := by rintro rfl; rw [hQ] at hq; cases hq
      rw [hm q, if_neg this]

theorem jGcd_pos : ∀ (l : List Nat) (m : Option Nat), (∀ w ∈ l, 0 < w) → (∀ k, m = some k → 0 < k) →
    ∀ k, jGcd l m = some k → 0 < k := by
  intro l
  induction l with
  | nil => intro m _ hm k h; exact hm k h
  | cons w l ih =>
    intro m hl hm k h
    have hw := hl w (by simp)
    have hg : 0 < jNext m w := by
      cases m with
      | none => exact hw
      | some j => exact Nat.gcd_pos_of_pos_right _ hw
    unfold jGcd at h
    generalize jNext m w = g at h hg
    by_cases h1 : g = 1
    · rw [if_pos h1] at h; cases h; omega
    · rw [if_neg h1] at h
      refine ih _ (fun v hv => hl v (by simp [hv])) ?_ k h
      intro k' hk'
      split at hk'
      · cases hk'
      · cases hk'; exact hg

theorem ruleJStep_good {Q : Nat → Bool} {N N' : RNet} {p : Nat} (h : ruleJStep Q N p = some N') : Good Q N N' := by
  unfold ruleJStep at h
  split at h
  · cases h
  rename_i hQ
  split at h
  · cases h
  split at h
  · cases h
  simp only at h
  split at h
  · cases h
  split at h
  · cases h
  cases h
  refine Good.flag (b := jBad N p _) rfl fun hbad hN => ?_
  have hposC : ∀ w ∈ (N.consumers p).map (fun t => wAt (N.tr t).pre p), 0 < w := by
    intro w hw
    obtain ⟨t, ht, rfl⟩ := List.mem_map.1 hw
    obtain ⟨a, ha, rfl⟩ := (mem_consumers hN).1 ht
    rw [wAt_of_mem (hN.preS t) ha]; exact (hN.tr t).preW a ha
  have hposP : ∀ w ∈ (N.producers p).map (fun t => wAt (N.tr t).post p), 0 < w := by
    intro w hw
    obtain ⟨t, ht, rfl⟩ := List.mem_map.1 hw
    obtain ⟨a, ha, rfl⟩ := (mem_producers hN).1 ht
    rw [wAt_of_mem (hN.postS t) ha]; exact (hN.tr t).postW a ha
  have hk : 0 < (jGcd ((N.producers p).map fun t => wAt (N.tr t).post p)
      (jGcd ((N.consumers p).map fun t => wAt (N.tr t).pre p) none)).getD 4294967295 := by
    cases he : jGcd ((N.producers p).map fun t => wAt (N.tr t).post p)
      (jGcd ((N.consumers p).map fun t => wAt (N.tr t).pre p) none) with
    | none => simp
    | some k => exact jGcd_pos _ _ hposP (fun k hk => jGcd_pos _ _ hposC (fun _ h => by cases h) k hk) k he
  unfold jBad at hbad
  simp only [Bool.or_eq_false_iff, List.any_eq_false, bne_iff_ne, ne_eq, Decidable.not_not] at hbad
  refine jStep_fine hN (by simpa using hQ) hk ?_ ?_ _
  · intro t a ha hap
    have := hbad.1 t ((mem_consumers hN).2 ⟨a, ha, hap⟩)
    rw [show wAt (N.tr t).pre p = a.weight from hap ▸ wAt_of_mem (hN.preS t) ha] at this
    exact this
  · intro t a ha hap
    have := hbad.2 t ((mem_producers hN).2 ⟨a, ha, hap⟩)
    rw [show wAt (N.tr t).post p = a.weight from hap ▸ wAt_of_mem (hN.postS t) ha] at this
    exact this

theorem ruleJ_good {Q : Nat → Bool} {N : RNet} (lim : Nat) : Good Q N (ruleJ Q lim N).1 :=
  sweep_good (fun _ _ _ hs => ruleJStep_good hs) _ _

end Reduce
end Verif
