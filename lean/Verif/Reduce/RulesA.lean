import Verif.Reduce.RulesD
import Mathlib.Tactic.Set

/-!
# Rules A and B
-/

namespace Verif
namespace Reduce

/-- Adding `k` times the arcs of a list. -/
theorem addAll_spec {f : Arc → Arc} {k : Nat} (hf : ∀ a, (f a).place = a.place) (hw : ∀ a, (f a).weight = k * a.weight)
    {post : List Arc} (hp : Sorted post) {l : List Arc} (hl : Sorted l) :
    Sorted (post.foldl (fun l a => addArc (f a) l) l) ∧
      ∀ p, wAt (post.foldl (fun l a => addArc (f a) l) l) p = wAt l p + k * wAt post p := by
  obtain ⟨h1, h2⟩ := foldl_addArc f hf post hp l hl
  refine ⟨h1, fun p => ?_⟩
  rw [h2 p]
  unfold wAt
  cases arcAt post p with
  | none => simp
  | some a => simp [hw]

theorem moveInit_eq (n : Nat) : ∀ (l : List Arc) (N : RNet), Sorted l →
    moveInit n l N = { N with init := fun q => N.init q + n * wAt l q } := by
  intro l
  induction l with
  | nil => intro N _; simp [moveInit, wAt_nil]
  | cons a l ih =>
    intro N hs
    unfold moveInit
    rw [ih _ (List.pairwise_cons.1 hs).2]
    unfold RNet.setInit
    congr 1
    funext q
    rw [wAt_cons]
    by_cases h : a.place = q
    · subst h
      have : wAt l a.place = 0 := wAt_none (arcAt_lt hs (Nat.le_refl _))
      simp [this]
    · simp [h, Ne.symm h]

/-- A producer of `p` after rule A. -/
def aNew (p w : Nat) (post : List Arc) (x : RTr) : RTr :=
  { x with post := post.foldl (fun l a => addArc ⟨a.place, wAt x.post p / w * a.weight, false⟩ l) x.post }

theorem aMove_eq (p w : Nat) (post : List Arc) : ∀ (ts : List Nat) (N : RNet), ts.Nodup →
    aMove p w post ts N = { N with tr := fun s => if s ∈ ts then aNew p w post (N.tr s) else N.tr s } := by
  intro ts
  induction ts with
  | nil => intro N _; simp [aMove]
  | cons t ts ih =>
    intro N hn
    obtain ⟨h1, h2⟩ := List.nodup_cons.1 hn
    unfold aMove
    simp only
    rw [ih _ h2]
    unfold RNet.setTr aNew
    congr 1
    funext s
    by_cases hs : s ∈ ts
    · have : s ≠ t := by rintro rfl; exact h1 hs
      simp [hs, this]
    · by_cases ht : s = t
      · subst ht; simp [hs]
      · simp [hs, ht]

theorem producers_nodup (N : RNet) (p : Nat) : (N.producers p).Nodup :=
  List.filter_sublist.nodup List.nodup_range

theorem consumers_nodup (N : RNet) (p : Nat) : (N.consumers p).Nodup :=
  List.filter_sublist.nodup List.nodup_range

/-- The effect of rule A as seen by the firing rule. -/
theorem a_same {Q : Nat → Bool} {N N' : RNet} (hN : N.WF) {t p w : Nat} (hlt : (N.tr t).skip = false)
    (hno : ∀ m, (N.tr t).NoInh m) (hw : 0 < w) (hIt : ∀ q, (N.tr t).I q = if q = p then w else 0)
    (hcon : ∀ s, s ≠ t → arcAt (N.tr s).pre p = none)
    (hmul : ∀ s, (N.tr s).O p % w = 0)
    (hOp : (N.tr t).O p = 0) (hOQ : ∀ q, Q q = true ∨ N.pinhib q = true → (N.tr t).O q = 0) (hQ : Q p = false)
    (hinit : ∀ q, q ≠ p → N'.init q = N.init q + N.init p / w * (N.tr t).O q)
    (hst : (N'.tr t).skip = true)
    (hsk : ∀ s, s ≠ t → (N'.tr s).skip = (N.tr s).skip)
    (hpre : ∀ s, s ≠ t → (N'.tr s).pre = (N.tr s).pre)
    (hO : ∀ s, s ≠ t → ∀ q, q ≠ p → (N'.tr s).O q = (N.tr s).O q + (N.tr s).O p / w * (N.tr t).O q) : Same Q N N' := by
  have hIs : ∀ s, s ≠ t → (N.tr s).I p = 0 := fun s hs => RTr.I_none (hcon s hs)
  have hI' : ∀ s, s ≠ t → ∀ q, (N'.tr s).I q = (N.tr s).I q := by
    intro s hs q; unfold RTr.I; rw [hpre s hs]
  have hdiv : ∀ a b : Nat, b % w = 0 → (a + b) / w = a / w + b / w := by
    intro a b hb
    obtain ⟨c, rfl⟩ := Nat.dvd_of_mod_eq_zero hb
    rw [Nat.add_mul_div_left _ _ hw, Nat.mul_div_cancel_left _ hw]
  refine Same.of_sims (fun m m' => ∀ q, q ≠ p → m' q = m q + m p / w * (N.tr t).O q)
    (fun m' m => m p < w ∧ ∀ q, q ≠ p → m q = m' q) ⟨N'.init, .refl, hinit⟩ ?_ ?_ ?_ ?_ ?_
  · -- the tokens move on at the start
    have h := iter_reach hlt hno (N.init p / w) N.init (fun q => by
      rw [hIt]
      by_cases hq : q = p
      · subst hq; simp [Nat.div_mul_le_self]
      · simp [hq])
    refine ⟨_, h, ?_, fun q hq => ?_⟩
    · simp only [hIt, if_true, hOp, Nat.mul_zero, Nat.add_zero]
      have h1 := Nat.div_add_mod (N.init p) w
      have h2 := Nat.mod_lt (N.init p) hw
      rw [Nat.mul_comm]
      omega
    · simp only [hIt, if_neg hq, Nat.mul_zero, Nat.sub_zero]
      rw [hinit q hq]
  · rintro m m' m1 hR ⟨s, hs, rfl⟩
    by_cases hst' : s = t
    · subst hst'
      refine ⟨m', .refl, fun q hq => ?_⟩
      have h1 := hs.2.1 p
      unfold RTr.fire
      rw [hIt, if_pos rfl] at h1
      rw [hIt, hIt, if_neg hq, if_pos rfl, hOp, hR q hq, Nat.add_zero]
      have h2 : m p / w = (m p - w) / w + 1 := by
        have := Nat.add_div_right (m p - w) hw
        rwa [show m p - w + w = m p by omega] at this
      rw [h2, Nat.succ_mul]
      omega
    · refine ⟨_, .single ⟨s, ⟨?_, fun q => ?_, ?_⟩, rfl⟩, fun q hq => ?_⟩
      · rw [hsk s hst']; exact hs.1
      · rw [hI' s hst']
        by_cases hq : q = p
        · subst hq; rw [hIs s hst']; omega
        · rw [hR q hq]; have := hs.2.1 q; omega
      · intro a ha hi
        rw [hpre s hst'] at ha
        have h1 := hs.2.2 a ha hi
        have h2 : a.place ≠ p := by
          intro h
          exact (arcAt_none.1 (hcon s hst')) a ha h
        rw [hR _ h2, hOQ _ (Or.inr ((hN.tr s).inhP a ha hi))]
        simpa using h1
      · unfold RTr.fire
        rw [hI' s hst', hO s hst' q hq, hR q hq, hIs s hst', Nat.sub_zero, hdiv _ _ (hmul s), Nat.add_mul]
        have := hs.2.1 q
        omega
  · rintro m' m m1' ⟨hlt', hR⟩ ⟨s, hs, rfl⟩
    have hst' : s ≠ t := by rintro rfl; have := hs.1; rw [hst] at this; cases this
    have hen : (N.tr s).En m := by
      refine ⟨by rw [← hsk s hst']; exact hs.1, fun q => ?_, fun a ha hi => ?_⟩
      · by_cases hq : q = p
        · subst hq; rw [hIs s hst']; omega
        · rw [hR q hq, ← hI' s hst']; exact hs.2.1 q
      · have h2 : a.place ≠ p := by
          intro h
          exact (arcAt_none.1 (hcon s hst')) a ha h
        rw [hR _ h2]
        exact hs.2.2 a (by rw [hpre s hst']; exact ha) hi
    have h1 : (N.tr s).O p / w * w = (N.tr s).O p := Nat.div_mul_cancel (Nat.dvd_of_mod_eq_zero (hmul s))
    have h := iter_reach hlt hno ((N.tr s).O p / w) ((N.tr s).fire m) (fun q => by
      rw [hIt]
      by_cases hq : q = p
      · subst hq
        simp only [if_true, RTr.fire]
        omega
      · simp [hq])
    refine ⟨_, Relation.ReflTransGen.head ⟨s, hen, rfl⟩ h, ?_, fun q hq => ?_⟩
    · simp only [hIt, if_true, hOp, Nat.mul_zero, Nat.add_zero, RTr.fire, hIs s hst']
      omega
    · simp only [hIt, if_neg hq, Nat.mul_zero, Nat.sub_zero, RTr.fire]
      rw [hI' s hst', hO s hst' q hq, hR q hq]
      omega
  · intro m m' hR q hq
    have hqp : q ≠ p := by rintro rfl; rw [hQ] at hq; cases hq
    rw [hR q hqp, hOQ q (Or.inl hq)]
    simp
  · intro m' m hR q hq
    have hqp : q ≠ p := by rintro rfl; rw [hQ] at hq; cases hq
    exact hR.2 q hqp

theorem length_one_mem {l : List Nat} {t : Nat} (h : l.length = 1) (ht : t ∈ l) : ∀ s ∈ l, s = t := by
  match l, h with
  | [a], _ =>
    intro s hs
    rw [List.mem_singleton] at hs ht
    rw [hs, ht]

theorem ruleAStep_good {Q : Nat → Bool} {N N' : RNet} {t : Nat} (h : ruleAStep Q N t = some N') : Good Q N N' := by
  unfold ruleAStep at h
  simp only at h
  split at h
  · cases h
  rename_i hsk
  have hlt : (N.tr t).skip = false := by simpa using hsk
  split at h
  case h_2 => cases h
  case h_1 a hpre =>
    split at h
    · cases h
    rename_i hlen
    split at h
    · cases h
    rename_i hmul
    split at h
    · cases h
    rename_i hinh
    split at h
    · cases h
    rename_i hQ
    split at h
    · cases h
    rename_i hpost
    obtain rfl := Option.some.inj h
    simp only [ne_eq, Decidable.not_not] at hlen
    simp only [Bool.or_eq_true, not_or, Bool.not_eq_true] at hinh
    have hQ' : Q a.place = false := by simpa using hQ
    have hbadeq : (((aMove a.place a.weight (N.tr t).post
        (RNet.producers ((((moveInit (N.init a.place / a.weight) (N.tr t).post N).setInit a.place 0).skipTrans t)) a.place)
        (((moveInit (N.init a.place / a.weight) (N.tr t).post N).setInit a.place 0).skipTrans t)).skipPlace a.place)).bad
        = N.bad := by
      have h1 : ∀ (n : Nat) (l : List Arc) (N : RNet), (moveInit n l N).bad = N.bad := by
        intro n l
        induction l with
        | nil => intro N; rfl
        | cons a l ih => intro N; unfold moveInit; rw [ih]; rfl
      have h2 : ∀ (p w : Nat) (post : List Arc) (ts : List Nat) (N : RNet), (aMove p w post ts N).bad = N.bad := by
        intro p w post ts
        induction ts with
        | nil => intro N; rfl
        | cons a l ih => intro N; unfold aMove; rw [ih]; rfl
      show (aMove _ _ _ _ _).bad = _
      rw [h2]
      show (moveInit _ _ _).bad = _
      rw [h1]
    refine Good.of hbadeq fun hN => ?_
    clear hbadeq
    have hpostS := hN.postS t
    rw [moveInit_eq _ _ _ hpostS]
    set N2 : RNet := (({ N with init := fun q => N.init q + N.init a.place / a.weight * wAt (N.tr t).post q } : RNet).setInit
      a.place 0).skipTrans t with hN2
    have htcon : t ∈ N.consumers a.place := (mem_consumers hN).2 ⟨a, by rw [hpre]; simp, rfl⟩
    have htlt := (consumers_live hN htcon).2
    have hcon : ∀ s, s ≠ t → arcAt (N.tr s).pre a.place = none := fun s hs =>
      arcAt_none_of_not_consumer hN fun hc => hs (length_one_mem hlen htcon s hc)
    have hawt : 0 < a.weight := (hN.tr t).preW a (by rw [hpre]; simp)
    have hai : a.inhib = false := (hN.tr t).noInh hinh.2 a (by rw [hpre]; simp)
    have hpo : ∀ b ∈ (N.tr t).post, N.pinhib b.place = false ∧ a.place ≠ b.place ∧ Q b.place = false := by
      intro b hb
      simp only [Bool.not_eq_true, List.any_eq_false, Bool.or_eq_true, not_or, beq_iff_eq] at hpost
      have := hpost b hb
      exact ⟨this.1.1, this.1.2, this.2⟩
    have hOp : (N.tr t).O a.place = 0 := wAt_none (arcAt_none.2 fun b hb h => (hpo b hb).2.1 h.symm)
    have hmul' : ∀ s, (N.tr s).O a.place % a.weight = 0 := by
      intro s
      by_cases hs : s ∈ N.producers a.place
      · simp only [Bool.not_eq_true, List.any_eq_false, bne_iff_ne, ne_eq, Decidable.not_not] at hmul
        exact hmul s hs
      · unfold RTr.O; rw [wAt_none (arcAt_none_of_not_producer hN hs)]; simp
    have hN2W : N2.WF := by
      have : (({ N with init := fun q => N.init q + N.init a.place / a.weight * wAt (N.tr t).post q } : RNet).setInit
        a.place 0).WF := ⟨hN.tr, hN.out, hN.sk, hN.nd⟩
      exact skipTrans_WF this htlt hlt
    have htp : t ∉ N2.producers a.place := by
      intro h
      obtain ⟨b, hb, _⟩ := (mem_producers hN2W).1 h
      rw [hN2, skipTrans_tr, if_pos rfl] at hb
      cases hb
    rw [aMove_eq _ _ _ _ _ (producers_nodup _ _)]
    have htr : ∀ s, s ≠ t → N2.tr s = N.tr s := by
      intro s hs; rw [hN2, skipTrans_tr, if_neg hs]; rfl
    have hpr : ∀ s, s ≠ t → (s ∈ N2.producers a.place ↔ s ∈ N.producers a.place) := by
      intro s hs
      rw [mem_producers hN2W, mem_producers hN, htr s hs]
    set N3 : RNet :=
      { N2 with
        tr := fun s => if s ∈ N2.producers a.place then aNew a.place a.weight (N.tr t).post (N2.tr s) else N2.tr s } with hN3
    have hokP : N3.okP = N.okP := rfl
    have hspec : ∀ s, s ≠ t → Sorted (N3.tr s).post ∧ ∀ q, (N3.tr s).O q = (N.tr s).O q +
        (N.tr s).O a.place / a.weight * (N.tr t).O q := by
      intro s hs
      by_cases hsp : s ∈ N2.producers a.place
      · have h1 := addAll_spec (f := fun b => ⟨b.place, wAt (N2.tr s).post a.place / a.weight * b.weight, false⟩)
          (k := wAt (N2.tr s).post a.place / a.weight) (fun _ => rfl) (fun _ => rfl) hpostS (hN2W.postS s)
        simp only [hN3, if_pos hsp]
        refine ⟨h1.1, fun q => ?_⟩
        have := h1.2 q
        rw [htr s hs] at this
        rw [htr s hs]
        exact this
      · simp only [hN3, if_neg hsp]
        refine ⟨hN2W.postS s, fun q => ?_⟩
        have : (N.tr s).O a.place = 0 := wAt_none (arcAt_none_of_not_producer hN fun h => hsp ((hpr s hs).2 h))
        rw [this, htr s hs]; simp
    have hN3W : N3.WF := by
      refine ⟨fun s => ?_, fun s hs => ?_, fun s hs => ?_, hN2W.nd⟩
      · by_cases hsp : s ∈ N2.producers a.place
        · have hst : s ≠ t := by rintro rfl; exact htp hsp
          have h0 := hN2W.tr s
          have hsp' := (hpr s hst).1 hsp
          have hk : 0 < wAt (N2.tr s).post a.place / a.weight := by
            have h1 := hmul' s
            obtain ⟨b, hb, hbp⟩ := (mem_producers hN).1 hsp'
            have h2 : wAt (N.tr s).post a.place = b.weight := hbp ▸ wAt_of_mem (hN.postS s) hb
            have h3 := (hN.tr s).postW b hb
            rw [htr s hst, h2]
            unfold RTr.O at h1
            rw [h2] at h1
            have := Nat.div_add_mod b.weight a.weight
            rcases Nat.eq_zero_or_pos (b.weight / a.weight) with h | h
            · rw [h, h1] at this; omega
            · exact h
          have e : N3.tr s = aNew a.place a.weight (N.tr t).post (N2.tr s) := by
            simp only [hN3, if_pos hsp]
          have hmem := foldl_addArc_mem
            (fun b => ⟨b.place, wAt (N2.tr s).post a.place / a.weight * b.weight, false⟩)
            (fun b => 0 < b.weight ∧ b.inhib = false ∧ N2.okP b.place)
            (fun b w h => ⟨Nat.lt_of_lt_of_le h.1 (Nat.le_add_right _ _), h.2.1, h.2.2⟩) (N.tr t).post
            (fun b hb => ⟨Nat.mul_pos hk ((hN.tr t).postW b hb), rfl, (hN.tr t).postP b hb⟩) (N2.tr s).post
            (fun b hb => ⟨h0.postW b hb, h0.postI b hb, h0.postP b hb⟩)
          have hso := (hspec s hst).1
          rw [e] at hso ⊢
          exact
            { preS := h0.preS, postS := hso, preW := h0.preW
              postW := fun b hb => (hmem b hb).1
              postI := fun b hb => (hmem b hb).2.1
              preP := h0.preP
              postP := fun b hb => (hmem b hb).2.2
              empty := fun hs => by
                have h1 : (N2.tr s).skip = true := hs
                rw [(producers_live hN2W hsp).1] at h1; cases h1
              inhT := h0.inhT
              inhP := h0.inhP }
        · have e : N3.tr s = N2.tr s := by simp only [hN3, if_neg hsp]
          rw [e]; exact hN2W.tr s
      · have hsp : s ∉ N2.producers a.place := fun h => by
          have := (producers_live hN2W h).2
          change N2.nt ≤ s at hs
          omega
        have e : N3.tr s = N2.tr s := by simp only [hN3, if_neg hsp]
        rw [e]; exact hN2W.out s hs
      · have h1 := hN2W.sk s hs
        have hsp : s ∉ N2.producers a.place := fun h => by
          have := (producers_live hN2W h).1
          rw [h1.1] at this; cases this
        have e : N3.tr s = N2.tr s := by simp only [hN3, if_neg hsp]
        rw [e]; exact h1
    refine ⟨skipPlace_WF hN3W _, ?_⟩
    have hpre3 : ∀ s, s ≠ t → (N3.tr s).pre = (N.tr s).pre ∧ (N3.tr s).skip = (N.tr s).skip := by
      intro s hs
      rw [hN3]
      simp only
      split
      · rw [htr s hs]; exact ⟨rfl, rfl⟩
      · rw [htr s hs]; exact ⟨rfl, rfl⟩
    refine a_same (t := t) (p := a.place) (w := a.weight) hN hlt ?_ hawt ?_ hcon hmul' hOp ?_ hQ' ?_ ?_ ?_ ?_ ?_
    · intro m b hb hi
      rw [(hN.tr t).noInh hinh.2 b hb] at hi; cases hi
    · intro q
      unfold RTr.I
      rw [hpre, arcAt_cons, arcAt_nil]
      by_cases hq : q = a.place
      · subst hq; simp [hai]
      · simp [hq, Ne.symm hq]
    · intro q hq
      unfold RTr.O
      refine wAt_none (arcAt_none.2 fun b hb hbq => ?_)
      have h1 := hpo b hb
      rw [hbq] at h1
      rcases hq with hq | hq
      · rw [h1.2.2] at hq; cases hq
      · rw [h1.1] at hq; cases hq
    · intro q hq
      show (if q = a.place then 0 else _) = _
      rw [if_neg hq]; rfl
    · have e : N3.tr t = N2.tr t := by simp only [hN3, if_neg htp]
      rw [skipPlace_tr, e, hN2, skipTrans_tr, if_pos rfl]
    · intro s hs
      rw [skipPlace_tr]
      exact (hpre3 s hs).2
    · intro s hs
      rw [skipPlace_tr]
      show dropArc a.place (N3.tr s).pre = _
      rw [(hpre3 s hs).1]
      exact dropArc_self (arcAt_none.1 (hcon s hs))
    · intro s hs q hq
      rw [skipPlace_tr, drop_O, if_neg hq]
      exact (hspec s hs).2 q

theorem ruleA_good {Q : Nat → Bool} {N : RNet} (lim : Nat) : Good Q N (ruleA Q lim N).1 :=
  sweep_good (fun _ _ _ hs => ruleAStep_good hs) _ _

/-! ### Rule B -/

/-- Rule B when `tIn` consumes from `p` only: as seen by the firing rule. -/
theorem b1_same {Q : Nat → Bool} {N N' : RNet} (hN : N.WF) {ti to p w mu : Nat} (hne : ti ≠ to)
    (hlt : (N.tr ti).skip = false) (hno : ∀ m, (N.tr ti).NoInh m) (hw : 0 < w)
    (hIt : ∀ q, (N.tr ti).I q = if q = p then w else 0)
    (hcon : ∀ s, s ≠ ti → arcAt (N.tr s).pre p = none)
    (hr : N.init p % w ≠ 0 → ∀ s, (N.tr s).O p % w = 0)
    (hmu : (N.tr to).O p = mu * w)
    (hOp : (N.tr ti).O p = 0) (hOQ : ∀ q, Q q = true ∨ N.pinhib q = true → (N.tr ti).O q = 0) (hQ : Q p = false)
    (hinit : ∀ q, N'.init q = if q = p then 0 else N.init q + N.init p / w * (N.tr ti).O q)
    (htr : ∀ s, s ≠ to → N'.tr s = N.tr s)
    (hsk : (N'.tr to).skip = (N.tr to).skip)
    (hpre : (N'.tr to).pre = (N.tr to).pre)
    (hO : ∀ q, (N'.tr to).O q = if q = p then 0 else (N.tr to).O q + mu * (N.tr ti).O q) : Same Q N N' := by
  have hIs : ∀ s, s ≠ ti → (N.tr s).I p = 0 := fun s hs => RTr.I_none (hcon s hs)
  have hI' : ∀ s q, (N'.tr s).I q = (N.tr s).I q := by
    intro s q
    by_cases hs : s = to
    · subst hs; unfold RTr.I; rw [hpre]
    · rw [htr s hs]
  have hpre' : ∀ s, (N'.tr s).pre = (N.tr s).pre := by
    intro s
    by_cases hs : s = to
    · subst hs; exact hpre
    · rw [htr s hs]
  have hsk' : ∀ s, (N'.tr s).skip = (N.tr s).skip := by
    intro s
    by_cases hs : s = to
    · subst hs; exact hsk
    · rw [htr s hs]
  have hmodz : ∀ a b : Nat, a % w = 0 → b % w = 0 → (a + b) % w = 0 := by
    intro a b ha hb
    rw [Nat.add_mod, ha, hb]; simp
  have hrlt := Nat.mod_lt (N.init p) hw
  generalize hrr : N.init p % w = r at *
  have hdm : N.init p = N.init p / w * w + r := by
    have := Nat.div_add_mod (N.init p) w
    rw [Nat.mul_comm, hrr] at this; omega
  refine Same.of_sims (fun m m' => (r ≠ 0 → m' p % w = 0) ∧ ∃ k, m p = m' p + k * w + r ∧
      ∀ q, q ≠ p → m' q = m q + k * (N.tr ti).O q)
    (fun m' m => m p = m' p + r ∧ ∀ q, q ≠ p → m q = m' q) ⟨N'.init, .refl, ?_⟩ ?_ ?_ ?_ ?_ ?_
  · refine ⟨fun _ => ?_, N.init p / w, ?_, fun q hq => ?_⟩
    · rw [hinit, if_pos rfl]; simp
    · rw [hinit, if_pos rfl]; omega
    · rw [hinit, if_neg hq]
  · have h := iter_reach hlt hno (N.init p / w) N.init (fun q => by
      rw [hIt]
      by_cases hq : q = p
      · subst hq; simp [Nat.div_mul_le_self]
      · simp [hq])
    refine ⟨_, h, ?_, fun q hq => ?_⟩
    · simp only [hIt, if_true, hOp, Nat.mul_zero, Nat.add_zero, hinit]
      omega
    · simp only [hIt, if_neg hq, Nat.mul_zero, Nat.sub_zero, hinit]
  · rintro m m' m1 ⟨hz, k, hmp, hR⟩ ⟨s, hs, rfl⟩
    have hno' : s ≠ ti → (N'.tr s).NoInh m' := by
      intro hst a ha hi
      rw [hpre'] at ha
      have h1 := hs.2.2 a ha hi
      have h2 : a.place ≠ p := fun h => (arcAt_none.1 (hcon s hst)) a ha h
      rw [hR _ h2, hOQ _ (Or.inr ((hN.tr s).inhP a ha hi))]
      simpa using h1
    have hen' : s ≠ ti → (N'.tr s).En m' := by
      intro hst
      refine ⟨by rw [hsk']; exact hs.1, fun q => ?_, hno' hst⟩
      rw [hI']
      by_cases hq : q = p
      · subst hq; rw [hIs s hst]; omega
      · rw [hR q hq]; have := hs.2.1 q; omega
    by_cases hst : s = ti
    · subst hst
      have h1 := hs.2.1 p
      rw [hIt, if_pos rfl] at h1
      by_cases hk : k = 0
      · subst hk
        have h2 : w ≤ m' p := by
          by_cases hr0 : r = 0
          · subst hr0; omega
          · have h3 := hz hr0
            obtain ⟨c, hc⟩ := Nat.dvd_of_mod_eq_zero h3
            rcases Nat.eq_zero_or_pos c with rfl | hc0
            · simp at hc; omega
            · rw [hc]; exact Nat.le_mul_of_pos_right _ hc0
        refine ⟨(N.tr s).fire m', .single ⟨s, ?_, ?_⟩, ?_, 0, ?_, ?_⟩
        · rw [htr s hne]
          refine ⟨hlt, fun q => ?_, hno _⟩
          rw [hIt]
          split
          · rename_i h; rw [h]; exact h2
          · omega
        · rw [htr s hne]
        · intro hr0
          have h3 := hz hr0
          unfold RTr.fire
          rw [hIt, if_pos rfl, hOp, Nat.add_zero]
          rw [← Nat.mod_eq_sub_mod h2]; exact h3
        · unfold RTr.fire
          rw [hIt, if_pos rfl, hOp]
          omega
        · intro q hq
          unfold RTr.fire
          rw [hR q hq]; simp
      · obtain ⟨k, rfl⟩ : ∃ j, k = j + 1 := ⟨k - 1, by omega⟩
        rw [Nat.succ_mul] at hmp
        refine ⟨m', .refl, hz, k, ?_, fun q hq => ?_⟩
        · unfold RTr.fire
          rw [hIt, if_pos rfl, hOp]
          omega
        · unfold RTr.fire
          rw [hIt, if_neg hq, hR q hq, Nat.succ_mul]
          omega
    · by_cases hso : s = to
      · subst hso
        refine ⟨_, .single ⟨s, hen' hst, rfl⟩, ?_, k + mu, ?_, fun q hq => ?_⟩
        · intro hr0
          unfold RTr.fire
          rw [hI', hO, if_pos rfl, hIs s hst]
          simpa using hz hr0
        · unfold RTr.fire
          rw [hI', hO, if_pos rfl, hIs s hst, hmu, Nat.add_mul]
          omega
        · unfold RTr.fire
          have := hs.2.1 q
          rw [hI', hO, if_neg hq, hR q hq, Nat.add_mul]
          omega
      · refine ⟨_, .single ⟨s, hen' hst, rfl⟩, ?_, k, ?_, fun q hq => ?_⟩
        · intro hr0
          unfold RTr.fire
          rw [htr s hso, hIs s hst]
          exact hmodz _ _ (by simpa using hz hr0) (hr hr0 s)
        · unfold RTr.fire
          rw [htr s hso, hIs s hst]
          omega
        · unfold RTr.fire
          have := hs.2.1 q
          rw [htr s hso, hR q hq]
          omega
  · rintro m' m m1' ⟨hmp, hR⟩ ⟨s, hs, rfl⟩
    have hen : (N.tr s).En m := by
      refine ⟨by rw [← hsk']; exact hs.1, fun q => ?_, fun a ha hi => ?_⟩
      · have h1 := hs.2.1 q
        rw [hI'] at h1
        by_cases hq : q = p
        · subst hq; omega
        · rw [hR q hq]; exact h1
      · by_cases hst : s = ti
        · subst hst; exact hno m a ha hi
        · have h2 : a.place ≠ p := fun h => (arcAt_none.1 (hcon s hst)) a ha h
          rw [hR _ h2]
          exact hs.2.2 a (by rw [hpre']; exact ha) hi
    by_cases hso : s = to
    · subst hso
      have h := iter_reach hlt hno mu ((N.tr s).fire m) (fun q => by
        rw [hIt]
        by_cases hq : q = p
        · subst hq
          simp only [if_true, RTr.fire]
          omega
        · simp [hq])
      refine ⟨_, Relation.ReflTransGen.head ⟨s, hen, rfl⟩ h, ?_, fun q hq => ?_⟩
      · simp only [hIt, if_true, hOp, Nat.mul_zero, Nat.add_zero, RTr.fire, hIs s (Ne.symm hne), hI', hO, hmu]
        omega
      · simp only [hIt, if_neg hq, Nat.mul_zero, Nat.sub_zero, RTr.fire, hI', hO]
        rw [hR q hq]
        omega
    · refine ⟨_, .single ⟨s, hen, rfl⟩, ?_, fun q hq => ?_⟩
      · have h1 := hs.2.1 p
        rw [hI'] at h1
        unfold RTr.fire
        rw [htr s hso]
        omega
      · unfold RTr.fire
        rw [htr s hso, hR q hq]
  · rintro m m' ⟨_, k, _, hR⟩ q hq
    have hqp : q ≠ p := by rintro rfl; rw [hQ] at hq; cases hq
    rw [hR q hqp, hOQ q (Or.inl hq)]
    simp
  · intro m' m hR q hq
    have hqp : q ≠ p := by rintro rfl; rw [hQ] at hq; cases hq
    exact hR.2 q hqp

/-- Rule B when `tOut` produces to `p` only: as seen by the firing rule. -/
theorem b2_same {Q : Nat → Bool} {N N' : RNet} (hN : N.WF) {ti to p w : Nat} (hne : ti ≠ to)
    (hli : (N.tr ti).skip = false) (hlo : (N.tr to).skip = false)
    (hnoi : ∀ m, (N.tr ti).NoInh m) (hnoo : ∀ m, (N.tr to).NoInh m) (hnoo' : ∀ m, (N'.tr to).NoInh m)
    (hIi : (N.tr ti).I p = w)
    (hcon : ∀ s, s ≠ ti → arcAt (N.tr s).pre p = none) (hp : N.pinhib p = false)
    (hOo : ∀ q, (N.tr to).O q = if q = p then w else 0)
    (hIo : ∀ q, Q q = true ∨ N.pinhib q = true → (N.tr to).I q = 0)
    (hOp : (N.tr ti).O p = 0) (hQ : Q p = false)
    (hinit : ∀ q, N'.init q = N.init q)
    (htr : ∀ s, s ≠ to → N'.tr s = N.tr s)
    (hsk : (N'.tr to).skip = false)
    (hI : ∀ q, (N'.tr to).I q = if q = p then 0 else (N.tr to).I q + (N.tr ti).I q)
    (hO : ∀ q, (N'.tr to).O q = if q = p then 0 else (N.tr ti).O q) : Same Q N N' := by
  have hIs : ∀ s, s ≠ ti → (N.tr s).I p = 0 := fun s hs => RTr.I_none (hcon s hs)
  have hIop := hIs to (Ne.symm hne)
  refine Same.of_sims (fun m m' => ∃ j, m p = m' p + j * w ∧ ∀ q, q ≠ p → m' q = m q + j * (N.tr to).I q)
    (fun m' m => m = m') ⟨N'.init, .refl, 0, ?_, fun q _ => ?_⟩ ⟨N.init, .refl, ?_⟩ ?_ ?_ ?_ ?_
  · rw [hinit]; omega
  · rw [hinit]; omega
  · funext q; rw [hinit]
  · rintro m m' m1 ⟨j, hmp, hR⟩ ⟨s, hs, rfl⟩
    have hge : ∀ q, q ≠ p → m q ≤ m' q := fun q hq => by rw [hR q hq]; omega
    have hsame : ∀ q, N.pinhib q = true → m' q = m q := by
      intro q hq
      have hqp : q ≠ p := by rintro rfl; rw [hp] at hq; cases hq
      rw [hR q hqp, hIo q (Or.inr hq)]; simp
    by_cases hst : s = ti
    · subst hst
      have h1 := hs.2.1 p
      rw [hIi] at h1
      by_cases hj : j = 0
      · subst hj
        refine ⟨(N.tr s).fire m', .single ⟨s, ?_, ?_⟩, 0, ?_, fun q hq => ?_⟩
        · rw [htr s hne]
          refine ⟨hli, fun q => ?_, hnoi _⟩
          by_cases hq : q = p
          · subst hq; rw [hIi]; omega
          · have := hs.2.1 q; have := hge q hq; omega
        · rw [htr s hne]
        · unfold RTr.fire; rw [hIi]; omega
        · unfold RTr.fire; rw [hR q hq]; simp
      · obtain ⟨j, rfl⟩ : ∃ i, j = i + 1 := ⟨j - 1, by omega⟩
        rw [Nat.succ_mul] at hmp
        refine ⟨(N'.tr to).fire m', .single ⟨to, ⟨hsk, fun q => ?_, hnoo' _⟩, rfl⟩, j, ?_, fun q hq => ?_⟩
        · rw [hI]
          split
          · omega
          · rename_i hq
            have h2 := hs.2.1 q
            rw [hR q hq, Nat.succ_mul]; omega
        · unfold RTr.fire
          rw [hIi, hOp, hI, hO, if_pos rfl, if_pos rfl]; omega
        · have h2 := hs.2.1 q
          have h3 := hR q hq
          rw [Nat.succ_mul] at h3
          unfold RTr.fire
          rw [hI, hO, if_neg hq, if_neg hq, h3]; omega
    · by_cases hso : s = to
      · subst hso
        refine ⟨m', .refl, j + 1, ?_, fun q hq => ?_⟩
        · unfold RTr.fire
          rw [hIop, hOo, if_pos rfl, Nat.succ_mul]; omega
        · have h2 := hs.2.1 q
          unfold RTr.fire
          rw [hOo, if_neg hq, hR q hq, Nat.succ_mul]; omega
      · refine ⟨(N.tr s).fire m', .single ⟨s, ?_, ?_⟩, j, ?_, fun q hq => ?_⟩
        · rw [htr s hso]
          refine ⟨hs.1, fun q => ?_, (hN.tr s).noInh_congr hsame hs.2.2⟩
          by_cases hq : q = p
          · subst hq; rw [hIs s hst]; omega
          · have := hs.2.1 q; have := hge q hq; omega
        · rw [htr s hso]
        · unfold RTr.fire; rw [hIs s hst]; omega
        · have h2 := hs.2.1 q
          unfold RTr.fire; rw [hR q hq]; omega
  · rintro m' m m1' rfl ⟨s, hs, rfl⟩
    by_cases hso : s = to
    · subst hso
      have hle : ∀ q, q ≠ p → (N.tr s).I q + (N.tr ti).I q ≤ m q := by
        intro q hq
        have := hs.2.1 q
        rwa [hI, if_neg hq] at this
      have e1 : (N.tr s).En m := by
        refine ⟨hlo, fun q => ?_, hnoo _⟩
        by_cases hq : q = p
        · subst hq; rw [hIop]; omega
        · have := hle q hq; omega
      have e2 : (N.tr ti).En ((N.tr s).fire m) := by
        refine ⟨hli, fun q => ?_, hnoi _⟩
        unfold RTr.fire
        rw [hOo]
        by_cases hq : q = p
        · subst hq; rw [hIi, if_pos rfl]; omega
        · have := hle q hq; omega
      refine ⟨_, (Relation.ReflTransGen.single ⟨s, e1, rfl⟩).tail ⟨ti, e2, rfl⟩, ?_⟩
      funext q
      unfold RTr.fire
      rw [hI, hO, hOo]
      by_cases hq : q = p
      · subst hq
        rw [if_pos rfl, if_pos rfl, if_pos rfl, hIop, hIi, hOp]; omega
      · have := hle q hq
        rw [if_neg hq, if_neg hq, if_neg hq]; omega
    · rw [htr s hso] at hs ⊢
      exact ⟨_, .single ⟨s, hs, rfl⟩, rfl⟩
  · rintro m m' ⟨j, _, hR⟩ q hq
    have hqp : q ≠ p := by rintro rfl; rw [hQ] at hq; cases hq
    rw [hR q hqp, hIo q (Or.inl hq)]
    simp
  · rintro m' m rfl q _
    rfl

/-- What holds of the place `p` and its consumer while rule B goes through the producers. -/
def BInv (p ti : Nat) (N : RNet) : Prop := N.consumers p = [ti] ∧ ti ∉ N.producers p ∧ (N.tr ti).skip = false

theorem bStep_cond {Q : Nat → Bool} {rd rc : Bool} {p ti to : Nat} {N N' : RNet} (h : bStep Q rd rc p ti N to = some N') :
    ¬ ((N.tr to).post.length ≠ 1 ∧ (N.tr ti).pre.length ≠ 1) ∧
    ¬ (N.init p > 0 ∧ (N.tr ti).pre.length ≠ 1) ∧
    wAt (N.tr ti).pre p ≤ wAt (N.tr to).post p ∧ wAt (N.tr to).post p % wAt (N.tr ti).pre p = 0 ∧
    (N.pinhib p = false ∧ (N.tr ti).inhib = false ∧ (N.tr to).inhib = false) ∧
    (∀ a ∈ (N.tr ti).post, N.pinhib a.place = false ∧ Q a.place = false) ∧
    (1 < (N.tr ti).pre.length → ∀ a ∈ (N.tr to).pre, Q a.place = false) ∧
    N' = bApply p ti to (wAt (N.tr to).post p / wAt (N.tr ti).pre p) (N.init p / wAt (N.tr ti).pre p)
      (N.flag (bBad p ti to N)) := by
  have skel : ∀ (c : Prop) [Decidable c] (b : Option RNet), (if c then none else b) = some N' → ¬ c ∧ b = some N' := by
    intro c _ b hc
    by_cases hcc : c
    · rw [if_pos hcc] at hc; cases hc
    · rw [if_neg hcc] at hc; exact ⟨hcc, hc⟩
  unfold bStep at h
  obtain ⟨c1, h⟩ := skel _ _ h
  obtain ⟨_, h⟩ := skel _ _ h
  obtain ⟨c2, h⟩ := skel _ _ h
  obtain ⟨c3, h⟩ := skel _ _ h
  obtain ⟨c4, h⟩ := skel _ _ h
  obtain ⟨c5, h⟩ := skel _ _ h
  obtain ⟨c6, h⟩ := skel _ _ h
  obtain ⟨_, h⟩ := skel _ _ h
  obtain ⟨c7, h⟩ := skel _ _ h
  obtain ⟨_, h⟩ := skel _ _ h
  refine ⟨c1, c2, by omega, by simpa using c4, ?_, ?_, ?_, (Option.some.inj h).symm⟩
  · simp only [Bool.or_eq_true, not_or, Bool.not_eq_true] at c5
    exact ⟨c5.1.1, c5.1.2, c5.2⟩
  · intro a ha
    simp only [Bool.not_eq_true, List.any_eq_false, Bool.or_eq_true, not_or] at c6
    exact c6 a ha
  · intro hl a ha
    simp only [Bool.and_eq_true, decide_eq_true_eq, not_and, Bool.not_eq_true, List.any_eq_false] at c7
    simpa using c7 hl a ha

theorem moveInit_tr (n : Nat) (l : List Arc) : ∀ N : RNet, (moveInit n l N).tr = N.tr ∧ (moveInit n l N).nt = N.nt ∧
    (moveInit n l N).bad = N.bad := by
  induction l with
  | nil => intro N; exact ⟨rfl, rfl, rfl⟩
  | cons a l ih => intro N; unfold moveInit; exact ih _

/-- `tOut` after rule B. -/
def bNew (p mu : Nat) (i o : RTr) : RTr :=
  { o with
    post := dropArc p (i.post.foldl (fun l a => addArc ⟨a.place, mu * a.weight, a.inhib⟩ l) o.post)
    pre := (dropArc p i.pre).foldl (fun l a => addArc ⟨a.place, mu * a.weight, a.inhib⟩ l) o.pre }

theorem bApply_tr (p ti to mu n : Nat) (N : RNet) (s : Nat) : (bApply p ti to mu n N).tr s =
    if s = to then bNew p mu (N.tr ti) (N.tr to) else N.tr s := by
  show (if s = to then _ else (moveInit _ _ (moveInit _ _ _)).tr s) = _
  rw [(moveInit_tr _ _ _).1, (moveInit_tr _ _ _).1]
  rfl

theorem bApply_init (p ti to mu n : Nat) (N : RNet) (h1 : Sorted (N.tr ti).post) (h2 : Sorted (N.tr ti).pre) (q : Nat) :
    (bApply p ti to mu n N).init q = (if q = p then 0 else N.init q) + n * wAt (N.tr ti).post q +
      n * wAt (dropArc p (N.tr ti).pre) q := by
  show (moveInit _ _ (moveInit _ _ _)).init q = _
  rw [moveInit_eq _ _ _ (dropArc_sorted h2 p), moveInit_eq _ _ _ h1]
  rfl

theorem bApply_bad (p ti to mu n : Nat) (N : RNet) : (bApply p ti to mu n N).bad = N.bad := by
  unfold bApply
  show (moveInit _ _ (moveInit _ _ _)).bad = _
  rw [(moveInit_tr _ _ _).2.2, (moveInit_tr _ _ _).2.2]
  rfl

theorem bStep_good {Q : Nat → Bool} {rd rc : Bool} {p ti to : Nat} {N N' : RNet} (hQ : Q p = false)
    (hI : BInv p ti N) (h : bStep Q rd rc p ti N to = some N') : Good Q N N' := by
  obtain ⟨c1, c2, c3, c4, ⟨c5, c6, c7⟩, c8, c9, rfl⟩ := bStep_cond h
  refine Good.flag (b := bBad p ti to N) (bApply_bad _ _ _ _ _ _) fun hbad hN => ?_
  obtain ⟨i1, i2, i3⟩ := hI
  have htcon : ti ∈ N.consumers p := by rw [i1]; simp
  have hcon : ∀ s, s ≠ ti → arcAt (N.tr s).pre p = none := fun s hs =>
    arcAt_none_of_not_consumer hN fun hc => hs (by rw [i1] at hc; simpa using hc)
  have hnoi : ∀ m, (N.tr ti).NoInh m := fun m a ha hi => by rw [(hN.tr ti).noInh c6 a ha] at hi; cases hi
  have hnoo : ∀ m, (N.tr to).NoInh m := fun m a ha hi => by rw [(hN.tr to).noInh c7 a ha] at hi; cases hi
  have hIi : ∀ q, (N.tr ti).I q = wAt (N.tr ti).pre q := RTr.I_eq_wAt ((hN.tr ti).noInh c6)
  have hIo : ∀ q, (N.tr to).I q = wAt (N.tr to).pre q := RTr.I_eq_wAt ((hN.tr to).noInh c7)
  obtain ⟨a, ha, hap⟩ := (mem_consumers hN).1 htcon
  have hwa : wAt (N.tr ti).pre p = a.weight := hap ▸ wAt_of_mem (hN.preS ti) ha
  have hw : 0 < wAt (N.tr ti).pre p := by rw [hwa]; exact (hN.tr ti).preW a ha
  have hOp : (N.tr ti).O p = 0 := wAt_none (arcAt_none_of_not_producer hN i2)
  have hne : ti ≠ to := by
    rintro rfl
    unfold RTr.O at hOp
    omega
  have hlo : (N.tr to).skip = false := by
    cases hs : (N.tr to).skip with
    | false => rfl
    | true =>
      rw [((hN.tr to).empty hs).2, wAt_nil] at c3
      omega
  have htop : to ∈ N.producers p := by
    obtain ⟨b, hb, hbp, _⟩ := mem_of_wAt_pos (l := (N.tr to).post) (p := p) (by omega)
    exact (mem_producers hN).2 ⟨b, hb, hbp⟩
  set w := wAt (N.tr ti).pre p with hwdef
  set mu := wAt (N.tr to).post p / w with hmudef
  have hmu0 : 0 < mu := Nat.div_pos c3 hw
  have hmu : (N.tr to).O p = mu * w := (Nat.div_mul_cancel (Nat.dvd_of_mod_eq_zero c4)).symm
  have hpostS := addAll_spec (f := fun b => ⟨b.place, mu * b.weight, b.inhib⟩) (k := mu) (fun _ => rfl) (fun _ => rfl)
    (hN.postS ti) (hN.postS to)
  have hpreS := addAll_spec (f := fun b => ⟨b.place, mu * b.weight, b.inhib⟩) (k := mu) (fun _ => rfl) (fun _ => rfl)
    (dropArc_sorted (hN.preS ti) p) (hN.preS to)
  have hpreM := foldl_addArc_mem (fun b => ⟨b.place, mu * b.weight, b.inhib⟩)
    (fun b => 0 < b.weight ∧ b.inhib = false ∧ N.okP b.place)
    (fun b w h => ⟨Nat.lt_of_lt_of_le h.1 (Nat.le_add_right _ _), h.2.1, h.2.2⟩) (dropArc p (N.tr ti).pre)
    (fun b hb => by
      have hb' := (mem_dropArc.1 hb).1
      exact ⟨Nat.mul_pos hmu0 ((hN.tr ti).preW b hb'), (hN.tr ti).noInh c6 b hb', (hN.tr ti).preP b hb'⟩) (N.tr to).pre
    (fun b hb => ⟨(hN.tr to).preW b hb, (hN.tr to).noInh c7 b hb, (hN.tr to).preP b hb⟩)
  have hpostM := foldl_addArc_mem (fun b => ⟨b.place, mu * b.weight, b.inhib⟩)
    (fun b => 0 < b.weight ∧ b.inhib = false ∧ N.okP b.place)
    (fun b w h => ⟨Nat.lt_of_lt_of_le h.1 (Nat.le_add_right _ _), h.2.1, h.2.2⟩) (N.tr ti).post
    (fun b hb => ⟨Nat.mul_pos hmu0 ((hN.tr ti).postW b hb), (hN.tr ti).postI b hb, (hN.tr ti).postP b hb⟩) (N.tr to).post
    (fun b hb => ⟨(hN.tr to).postW b hb, (hN.tr to).postI b hb, (hN.tr to).postP b hb⟩)
  have hpreE : dropArc p (N.tr to).pre = (N.tr to).pre := dropArc_self (arcAt_none.1 (hcon to (Ne.symm hne)))
  -- the new net
  have htr := bApply_tr p ti to mu (N.init p / w) (N.flag (bBad p ti to N))
  have htr' : (bApply p ti to mu (N.init p / w) (N.flag (bBad p ti to N))).tr to = bNew p mu (N.tr ti) (N.tr to) := by
    rw [htr, if_pos rfl]; rfl
  have hinit := bApply_init p ti to mu (N.init p / w) (N.flag (bBad p ti to N)) (hN.postS ti) (hN.preS ti)
  have hfi : (N.flag (bBad p ti to N)).init = N.init := rfl
  have hft : (N.flag (bBad p ti to N)).tr = N.tr := rfl
  rw [hfi, hft] at hinit
  constructor
  · have hW : (moveInit (N.init p / w) (dropArc p (N.tr ti).pre) (moveInit (N.init p / w) (N.tr ti).post
        ((N.flag (bBad p ti to N)).setInit p 0))).WF := by
      rw [moveInit_eq _ _ _ (hN.postS ti), moveInit_eq _ _ _ (dropArc_sorted (hN.preS ti) p)]
      exact ⟨hN.tr, hN.out, hN.sk, hN.nd⟩
    have e : ∀ X : RNet, X = moveInit (N.init p / w) (dropArc p (N.tr ti).pre) (moveInit (N.init p / w) (N.tr ti).post
        ((N.flag (bBad p ti to N)).setInit p 0)) → X.okP = N.okP ∧ X.pinhib = N.pinhib ∧ X.tr = N.tr := by
      rintro X rfl
      rw [moveInit_eq _ _ _ (hN.postS ti), moveInit_eq _ _ _ (dropArc_sorted (hN.preS ti) p)]
      exact ⟨rfl, rfl, rfl⟩
    obtain ⟨e1, e2, e3⟩ := e _ rfl
    refine setTr_WF hW (by rw [e3]; exact hlo) ?_
    rw [e1, e2]
    exact
      { preS := hpreS.1
        postS := dropArc_sorted hpostS.1 p
        preW := fun b hb => (hpreM b hb).1
        postW := fun b hb => (hpostM b (mem_dropArc.1 hb).1).1
        postI := fun b hb => (hpostM b (mem_dropArc.1 hb).1).2.1
        preP := fun b hb => (hpreM b hb).2.2
        postP := fun b hb => (hpostM b (mem_dropArc.1 hb).1).2.2
        empty := fun hs => by
          have : (N.tr to).skip = true := hs
          rw [hlo] at this; cases this
        inhT := fun b hb hi => by rw [(hpreM b hb).2.1] at hi; cases hi
        inhP := fun b hb hi => by rw [(hpreM b hb).2.1] at hi; cases hi }
  · have hOt : ∀ q, ((bApply p ti to mu (N.init p / w) (N.flag (bBad p ti to N))).tr to).O q =
        if q = p then 0 else (N.tr to).O q + mu * (N.tr ti).O q := by
      intro q
      rw [htr']
      unfold RTr.O bNew
      rw [wAt_dropArc]
      split
      · rfl
      · exact hpostS.2 q
    have hpost1 : ∀ q, Q q = true ∨ N.pinhib q = true → (N.tr ti).O q = 0 := by
      intro q hq
      refine wAt_none (arcAt_none.2 fun b hb hbq => ?_)
      have h1 := c8 b hb
      rw [hbq] at h1
      rcases hq with hq | hq
      · rw [h1.2] at hq; cases hq
      · rw [h1.1] at hq; cases hq
    by_cases hlen : (N.tr ti).pre.length = 1
    · have hpre1 : (N.tr ti).pre = [a] := by
        match hl : (N.tr ti).pre, hlen with
        | [b], _ => rw [hl] at ha; simp only [List.mem_singleton] at ha; rw [ha]
      have hdrop : dropArc p (N.tr ti).pre = [] := by rw [hpre1]; simp [dropArc, hap]
      refine b1_same (ti := ti) (to := to) (p := p) (w := w) (mu := mu) hN hne i3 hnoi hw ?_ hcon ?_ hmu hOp hpost1 hQ ?_ ?_ ?_ ?_ hOt
      · intro q
        rw [hIi]
        by_cases hq : q = p
        · rw [if_pos hq, hq]
        · rw [if_neg hq, hpre1]
          exact wAt_none (by rw [arcAt_cons, arcAt_nil, if_neg (by omega)])
      · intro hr s
        unfold bBad at hbad
        simp only [if_pos hlen] at hbad
        by_cases hs : s ∈ N.producers p
        · have : (N.init p % wAt (N.tr ti).pre p != 0) = true := by simpa using hr
          rw [this, Bool.true_and, List.any_eq_false] at hbad
          have h3 := hbad s hs
          simp only [bne_iff_ne, ne_eq, Decidable.not_not] at h3
          exact h3
        · unfold RTr.O; rw [wAt_none (arcAt_none_of_not_producer hN hs)]; simp
      · intro q
        rw [hinit]
        simp only [hdrop, wAt_nil, Nat.mul_zero, Nat.add_zero]
        by_cases hq : q = p
        · subst hq
          simp only [if_true]
          have : wAt (N.tr ti).post q = 0 := hOp
          rw [this]; rfl
        · simp only [if_neg hq]; rfl
      · intro s hs; rw [htr, if_neg hs]; rfl
      · rw [htr']; rfl
      · rw [htr']
        show List.foldl _ _ (dropArc p (N.tr ti).pre) = _
        rw [hdrop]; rfl
    · have hlo1 : (N.tr to).post.length = 1 := by
        rcases Nat.lt_trichotomy (N.tr to).post.length 1 with h | h | h
        · exact absurd ⟨by omega, hlen⟩ c1
        · exact h
        · exact absurd ⟨by omega, hlen⟩ c1
      have hinit0 : N.init p = 0 := by
        rcases Nat.eq_zero_or_pos (N.init p) with h | h
        · exact h
        · exact absurd ⟨h, hlen⟩ c2
      have hlen1 : 1 < (N.tr ti).pre.length := by
        have : (N.tr ti).pre.length ≠ 0 := by intro h; rw [List.length_eq_zero_iff.1 h] at ha; cases ha
        omega
      obtain ⟨b, hb, hbp⟩ := (mem_producers hN).1 htop
      have hpost1' : (N.tr to).post = [b] := by
        match hl : (N.tr to).post, hlo1 with
        | [c], _ => rw [hl] at hb; simp only [List.mem_singleton] at hb; rw [hb]
      unfold bBad at hbad
      simp only [if_neg hlen, Bool.or_eq_false_iff, bne_eq_false_iff_eq, List.any_eq_false] at hbad
      have hmu1 : mu = 1 := by rw [hmudef, hbad.1]; exact Nat.div_self hw
      have hnoO' : ∀ c ∈ ((bApply p ti to mu (N.init p / w) (N.flag (bBad p ti to N))).tr to).pre, c.inhib = false := by
        intro c hc
        rw [htr'] at hc
        exact (hpreM c hc).2.1
      refine b2_same (ti := ti) (to := to) (p := p) (w := w) hN hne i3 hlo hnoi hnoo ?_ (hIi p) hcon c5 ?_ ?_ hOp hQ ?_ ?_ ?_ ?_ ?_
      · intro m c hc hi
        rw [hnoO' c hc] at hi; cases hi
      · intro q
        unfold RTr.O
        by_cases hq : q = p
        · rw [if_pos hq, hq]; exact hbad.1
        · rw [if_neg hq, hpost1']
          exact wAt_none (by rw [arcAt_cons, arcAt_nil, if_neg (by omega)])
      · intro q hq
        rw [hIo]
        refine wAt_none (arcAt_none.2 fun c hc hcq => ?_)
        rcases hq with hq | hq
        · have := c9 hlen1 c hc
          rw [hcq, hq] at this; cases this
        · have := hbad.2 c hc
          rw [hcq, hq] at this; exact this rfl
      · intro q
        rw [hinit]
        simp only [hinit0, Nat.zero_div, Nat.zero_mul, Nat.add_zero]
        by_cases hq : q = p
        · rw [if_pos hq, hq, hinit0]
        · rw [if_neg hq]
      · intro s hs; rw [htr, if_neg hs]; rfl
      · rw [htr']; exact hlo
      · intro q
        rw [RTr.I_eq_wAt hnoO', htr']
        have h1 := hpreS.2 q
        rw [wAt_dropArc, hmu1, Nat.one_mul] at h1
        unfold bNew
        rw [hmu1] at *
        refine Eq.trans h1 ?_
        by_cases hq : q = p
        · rw [if_pos hq, if_pos hq, hq, wAt_none (hcon to (Ne.symm hne))]
        · rw [if_neg hq, if_neg hq, hIo, hIi]
      · intro q
        rw [hOt]
        by_cases hq : q = p
        · rw [if_pos hq, if_pos hq]
        · rw [if_neg hq, if_neg hq, hmu1, Nat.one_mul]
          have : (N.tr to).O q = 0 := by
            unfold RTr.O; rw [hpost1']
            exact wAt_none (by rw [arcAt_cons, arcAt_nil, if_neg (by omega)])
          omega

theorem bStep_inv {Q : Nat → Bool} {rd rc : Bool} {p ti to : Nat} {N N' : RNet} (hN : N.WF)
    (hI : BInv p ti N) (h : bStep Q rd rc p ti N to = some N') : BInv p ti N' ∧ N'.init p = 0 ∧ (N'.tr ti).inhib = false := by
  obtain ⟨c1, c2, c3, c4, ⟨c5, c6, c7⟩, c8, c9, rfl⟩ := bStep_cond h
  obtain ⟨i1, i2, i3⟩ := hI
  have htcon : ti ∈ N.consumers p := by rw [i1]; simp
  obtain ⟨a, ha, hap⟩ := (mem_consumers hN).1 htcon
  have hw : 0 < wAt (N.tr ti).pre p := by
    rw [show wAt (N.tr ti).pre p = a.weight from hap ▸ wAt_of_mem (hN.preS ti) ha]
    exact (hN.tr ti).preW a ha
  have hOp : wAt (N.tr ti).post p = 0 := wAt_none (arcAt_none_of_not_producer hN i2)
  have hne : ti ≠ to := by
    rintro rfl
    omega
  have hcon : ∀ s, s ≠ ti → arcAt (N.tr s).pre p = none := fun s hs =>
    arcAt_none_of_not_consumer hN fun hc => hs (by rw [i1] at hc; simpa using hc)
  have hnt : (bApply p ti to (wAt (N.tr to).post p / wAt (N.tr ti).pre p) (N.init p / wAt (N.tr ti).pre p)
      (N.flag (bBad p ti to N))).nt = N.nt := by
    show (moveInit _ _ (moveInit _ _ _)).nt = _
    rw [(moveInit_tr _ _ _).2.1, (moveInit_tr _ _ _).2.1]
    rfl
  refine ⟨⟨?_, ?_, ?_⟩, ?_, by rw [bApply_tr, if_neg hne]; exact c6⟩
  · rw [← i1]
    unfold RNet.consumers
    rw [hnt]
    apply List.filter_congr
    intro s _
    rw [bApply_tr]
    by_cases hs : s = to
    · subst hs
      rw [if_pos rfl]
      have h1 : arcAt (N.tr s).pre p = none := hcon s (Ne.symm hne)
      rw [h1]
      have h2 := foldl_addArc_mem
        (fun b => ⟨b.place, (wAt (N.tr s).post p / wAt (N.tr ti).pre p) * b.weight, b.inhib⟩)
        (fun b => b.place ≠ p) (fun b w h => h) (dropArc p (N.tr ti).pre)
        (fun b hb => (mem_dropArc.1 hb).2) (N.tr s).pre (arcAt_none.1 h1)
      have h3 : arcAt (bNew p (wAt (N.tr s).post p / wAt (N.tr ti).pre p) (N.tr ti) (N.tr s)).pre p = none :=
        arcAt_none.2 h2
      rw [show (N.flag (bBad p ti s N)).tr = N.tr from rfl, h3]
    · rw [if_neg hs]; rfl
  · unfold RNet.producers
    rw [List.mem_filter]
    rintro ⟨_, h⟩
    rw [bApply_tr, if_neg hne] at h
    rw [show (N.flag (bBad p ti to N)).tr = N.tr from rfl, arcAt_none_of_not_producer hN i2] at h
    cases h
  · rw [bApply_tr, if_neg hne]; exact i3
  · rw [bApply_init _ _ _ _ _ (N.flag (bBad p ti to N)) (hN.postS ti) (hN.preS ti), if_pos rfl]
    rw [show (N.flag (bBad p ti to N)).tr = N.tr from rfl, hOp, wAt_dropArc, if_pos rfl]
    simp

/-- The loop over the producers. -/
theorem bSweep_good {Q : Nat → Bool} {rd rc : Bool} {p ti : Nat} (hQ : Q p = false) : ∀ (l : List Nat) (N : RNet),
    Mono N (sweep (bStep Q rd rc p ti) l N).1 ∧ (N.WF → BInv p ti N → (sweep (bStep Q rd rc p ti) l N).1.bad = false →
      Fine Q N (sweep (bStep Q rd rc p ti) l N).1 ∧ BInv p ti (sweep (bStep Q rd rc p ti) l N).1 ∧
        (((sweep (bStep Q rd rc p ti) l N).2 = true ∨ (N.init p = 0 ∧ (N.tr ti).inhib = false)) →
          (sweep (bStep Q rd rc p ti) l N).1.init p = 0 ∧ ((sweep (bStep Q rd rc p ti) l N).1.tr ti).inhib = false)) := by
  intro l
  induction l with
  | nil =>
    intro N
    exact ⟨Mono.refl N, fun hN hI _ => ⟨Fine.refl hN, hI, fun h => h.resolve_left (by simp [sweep])⟩⟩
  | cons t l ih =>
    intro N
    unfold sweep
    cases hs : bStep Q rd rc p ti N t with
    | none => exact ih N
    | some N' =>
      simp only
      obtain ⟨h1, h2⟩ := ih N'
      have hm : Mono N N' := by
        obtain ⟨_, _, _, _, _, _, _, rfl⟩ := bStep_cond hs
        intro hb
        rw [bApply_bad] at hb
        exact (flag_bad hb).1
      refine ⟨hm.trans h1, fun hN hI hb => ?_⟩
      have h3 := (bStep_good hQ hI hs).2 hN (h1 hb)
      obtain ⟨h4, h5⟩ := bStep_inv hN hI hs
      obtain ⟨h6, h7, h8⟩ := h2 h3.1 h4 hb
      exact ⟨h3.trans h6, h7, fun _ => h8 (Or.inr h5)⟩

theorem ruleBStep_good {Q : Nat → Bool} {rd rc : Bool} {N N' : RNet} {p : Nat} (h : ruleBStep Q rd rc N p = some N') :
    Good Q N N' := by
  unfold ruleBStep at h
  split at h
  · cases h
  split at h
  · cases h
  rename_i hQ
  have hQ' : Q p = false := by simpa using hQ
  split at h
  case h_2 => cases h
  case h_1 ti hcons =>
    split at h
    · cases h
    split at h
    · cases h
    rename_i hnp
    split at h
    · cases h
    · rename_i N1 hs
      have hb := bSweep_good (rd := rd) (rc := rc) (ti := ti) hQ' (N.producers p) N
      rw [hs] at hb
      simp only at hb
      obtain ⟨h1, h2⟩ := hb
      obtain rfl := Option.some.inj h
      clear h
      have hbe : (if N1.producers p = [] then (N1.skipPlace p).skipTrans ti else N1).bad = N1.bad := by split <;> rfl
      refine ⟨fun hb => h1 (by rw [← hbe]; exact hb), fun hN hb => ?_⟩
      have hskip : (N.tr ti).skip = false := (consumers_live hN (by rw [hcons]; simp)).1
      obtain ⟨h3, ⟨j1, j2, j3⟩, h5⟩ := h2 hN ⟨hcons, hnp, hskip⟩ (by rw [← hbe]; exact hb)
      obtain ⟨h5, h5'⟩ := h5 (Or.inl trivial)
      split
      · rename_i hprod
        refine h3.trans ?_
        have hW := h3.1
        have hW' := skipPlace_WF hW p
        have htcon : ti ∈ N1.consumers p := by rw [j1]; simp
        have hlt := (consumers_live hW htcon).2
        refine ⟨skipTrans_WF hW' hlt j3, ?_⟩
        have hOz : ∀ s, (N1.tr s).O p = 0 := fun s =>
          wAt_none (arcAt_none_of_not_producer hW (by rw [hprod]; simp))
        refine Same.of_trSim (fun m => m p = 0) (fun q => q ≠ p) ?_ (fun _ _ => rfl) h5 ?_ fun s => ?_
        · rintro q hq rfl
          rw [hQ'] at hq; cases hq
        · intro m s hm _
          show m p - _ + (N1.tr s).O p = 0
          rw [hOz s]
          omega
        · by_cases hst : s = ti
          · subst hst
            refine trSim_skip (by rw [skipTrans_tr, if_pos rfl]) fun m hm hen => ?_
            obtain ⟨a, ha, hap⟩ := (mem_consumers hW).1 htcon
            have h6 := (hW.tr s).preW a ha
            have h7 := hen.2.1 p
            rw [← hap, RTr.I_of_mem (hW.preS s) ha ((hW.tr s).noInh h5' a ha), hap, hm] at h7
            omega
          · rw [skipTrans_tr, if_neg hst]
            refine trSim_dropPlace (hW.preS s) (fun a _ h => h) (fun h => h rfl) ?_
            intro m hm _ _ a ha hap
            exact absurd ((mem_consumers hW).2 ⟨a, ha, hap⟩) (by rw [j1]; simpa using hst)
      · exact h3

theorem ruleB_good {Q : Nat → Bool} {rd rc : Bool} {N : RNet} (lim : Nat) : Good Q N (ruleB Q rd rc lim N).1 :=
  sweep_good (fun _ _ _ hs => ruleBStep_good hs) _ _

end Reduce
end Verif
