import Verif.Reduce.RulesM

/-!
# Rules F, N and O
-/

namespace Verif
namespace Reduce

/-- The place keeps at least `low` tokens. -/
structure Keeps (N : RNet) (p low : Nat) : Prop where
  wf : N.WF
  init : low ≤ N.init p
  eff : ∀ t, (N.tr t).O p < (N.tr t).I p → low ≤ (N.tr t).O p

theorem Keeps.inv {N : RNet} {p low : Nat} (h : Keeps N p low) : N.Inv fun m => low ≤ m p := by
  refine ⟨h.init, fun m t hm hen => ?_⟩
  have h1 := hen.2.1 p
  have h2 := h.eff t
  unfold RTr.fire
  omega

theorem skipAll_keeps {Q : Nat → Bool} {p low : Nat} : ∀ (l : List Nat) (N : RNet), Keeps N p low → l.Nodup →
    (∀ t ∈ l, (N.tr t).skip = false ∧ ∃ a ∈ (N.tr t).pre, a.place = p ∧ a.inhib = true ∧ a.weight ≤ low) →
    Fine Q N (skipAll l N) ∧ (skipAll l N).pinhib = N.pinhib ∧
      ∀ s, (skipAll l N).tr s = if s ∈ l then (N.tr s).gone else N.tr s := by
  intro l
  induction l with
  | nil => intro N hN _ _; exact ⟨Fine.refl hN.wf, rfl, fun s => by simp [skipAll]⟩
  | cons t l ih =>
    intro N hN hnd hl
    obtain ⟨n1, n2⟩ := List.nodup_cons.1 hnd
    obtain ⟨h1, a, ha, hap, hi, hw⟩ := hl t (by simp)
    have hlt : t < N.nt := Nat.lt_of_not_le fun hc => by
      have := hN.wf.out t hc
      rw [h1] at this; cases this
    have hf : Fine Q N (N.skipTrans t) := Fine.skip hN.wf h1 hlt hN.inv fun m hm hen => by
      have := hen.2.2 a ha hi
      rw [hap] at this
      omega
    have hne : ∀ s ∈ l, s ≠ t := fun s hs => by rintro rfl; exact n1 hs
    obtain ⟨i1, i2, i3⟩ := ih (N.skipTrans t) ⟨hf.1, hN.init, fun s hs => by
      rw [skipTrans_tr] at hs ⊢
      by_cases hst : s = t
      · rw [if_pos hst] at hs; exact absurd hs (Nat.lt_irrefl _)
      · rw [if_neg hst] at hs ⊢; exact hN.eff s hs⟩ n2 (fun s hs => by
      rw [skipTrans_tr, if_neg (hne s hs)]; exact hl s (by simp [hs]))
    refine ⟨hf.trans i1, i2, fun s => ?_⟩
    show (skipAll l (N.skipTrans t)).tr s = _
    rw [i3, skipTrans_tr]
    by_cases hs : s = t
    · subst hs
      simp [n1, RTr.gone]
    · rw [if_neg hs]
      simp only [List.mem_cons, hs, false_or]

/-! ### The first loop -/

/-- A consumer with a negative effect. -/
def nNeg (N : RNet) (p t : Nat) : Bool :=
  match arcAt (N.tr t).pre p with
  | none => false
  | some a => !a.inhib && decide (wAt (N.tr t).post p < a.weight)

/-- A consumer with an inhibitor arc. -/
def nInh (N : RNet) (p t : Nat) : Bool :=
  match arcAt (N.tr t).pre p with
  | none => false
  | some a => a.inhib

theorem nScan_spec {N : RNet} {p : Nat} : ∀ (l : List Nat) (s : NState), (nScan N p l s).low ≠ 0 →
    (nScan N p l s).low ≤ s.low ∧
    (∀ t, t ∈ (nScan N p l s).neg ↔ t ∈ s.neg ∨ (t ∈ l ∧ nNeg N p t = true)) ∧
    (∀ t ∈ l, nNeg N p t = true → (nScan N p l s).low ≤ wAt (N.tr t).post p) ∧
    (nScan N p l s).inh = s.inh + l.countP (nInh N p) ∧
    (nScan N p l s).dnn = s.dnn - l.countP (nNeg N p) ∧
    ((nScan N p l s).removePlace = true → s.removePlace = true ∧ ∀ t ∈ l, nNeg N p t = false) := by
  intro l
  induction l with
  | nil => intro s h; exact ⟨Nat.le_refl _, fun t => by simp [nScan], by simp, rfl, rfl, fun h => ⟨h, by simp⟩⟩
  | cons t l ih =>
    intro s h
    have hskip : nNeg N p t = false → nInh N p t = false → nScan N p (t :: l) s = nScan N p l s →
        (nScan N p (t :: l) s).low ≤ s.low ∧
        (∀ i, i ∈ (nScan N p (t :: l) s).neg ↔ i ∈ s.neg ∨ (i ∈ t :: l ∧ nNeg N p i = true)) ∧
        (∀ i ∈ t :: l, nNeg N p i = true → (nScan N p (t :: l) s).low ≤ wAt (N.tr i).post p) ∧
        (nScan N p (t :: l) s).inh = s.inh + (t :: l).countP (nInh N p) ∧
        (nScan N p (t :: l) s).dnn = s.dnn - (t :: l).countP (nNeg N p) ∧
        ((nScan N p (t :: l) s).removePlace = true → s.removePlace = true ∧ ∀ i ∈ t :: l, nNeg N p i = false) := by
      intro hn hi he
      rw [he] at h ⊢
      obtain ⟨i1, i2, i3, i4, i5, i6⟩ := ih s h
      refine ⟨i1, fun i => ?_, fun i hi' hni => ?_, ?_, ?_, fun hr => ⟨(i6 hr).1, fun i hi' => ?_⟩⟩
      · rw [i2, List.mem_cons]
        constructor
        · rintro (h | ⟨h1, h2⟩)
          · exact Or.inl h
          · exact Or.inr ⟨Or.inr h1, h2⟩
        · rintro (h | ⟨rfl | h1, h2⟩)
          · exact Or.inl h
          · rw [hn] at h2; cases h2
          · exact Or.inr ⟨h1, h2⟩
      · rcases List.mem_cons.1 hi' with rfl | hi'
        · rw [hn] at hni; cases hni
        · exact i3 i hi' hni
      · rw [i4, List.countP_cons, hi]; simp
      · rw [i5, List.countP_cons, hn]; simp
      · rcases List.mem_cons.1 hi' with rfl | hi'
        · exact hn
        · exact (i6 hr).2 i hi'
    cases ha : arcAt (N.tr t).pre p with
    | none =>
      exact hskip (by unfold nNeg; rw [ha]) (by unfold nInh; rw [ha]) (by rw [nScan, ha])
    | some a =>
      cases hi : a.inhib with
      | true =>
        have hn : nNeg N p t = false := by unfold nNeg; rw [ha]; simp [hi]
        have he : nScan N p (t :: l) s = nScan N p l { s with inh := s.inh + 1 } := by rw [nScan, ha]; simp [hi]
        rw [he] at h ⊢
        obtain ⟨i1, i2, i3, i4, i5, i6⟩ := ih { s with inh := s.inh + 1 } h
        refine ⟨i1, fun i => ?_, fun i hi' hni => ?_, ?_, ?_, fun hr => ⟨(i6 hr).1, fun i hi' => ?_⟩⟩
        · rw [i2, List.mem_cons]
          constructor
          · rintro (h | ⟨h1, h2⟩)
            · exact Or.inl h
            · exact Or.inr ⟨Or.inr h1, h2⟩
          · rintro (h | ⟨rfl | h1, h2⟩)
            · exact Or.inl h
            · rw [hn] at h2; cases h2
            · exact Or.inr ⟨h1, h2⟩
        · rcases List.mem_cons.1 hi' with rfl | hi'
          · rw [hn] at hni; cases hni
          · exact i3 i hi' hni
        · have : nInh N p t = true := by unfold nInh; rw [ha]; exact hi
          rw [i4, List.countP_cons, this]; simp; omega
        · rw [i5, List.countP_cons, hn]; simp
        · rcases List.mem_cons.1 hi' with rfl | hi'
          · exact hn
          · exact (i6 hr).2 i hi'
      | false =>
        have hi0 : nInh N p t = false := by unfold nInh; rw [ha]; exact hi
        cases hb : arcAt (N.tr t).post p with
        | none =>
          exfalso
          have he : nScan N p (t :: l) s = { s with low := 0 } := by rw [nScan, ha, hb]; simp [hi]
          rw [he] at h
          exact h rfl
        | some b =>
          by_cases hlt : b.weight < a.weight
          · have hn : nNeg N p t = true := by unfold nNeg; rw [ha, wAt_of_arcAt hb]; simp [hi, hlt]
            have he : nScan N p (t :: l) s = nScan N p l { s with
                dnn := s.dnn - 1, neg := t :: s.neg, removePlace := false, low := min b.weight s.low } := by
              rw [nScan, ha, hb]; simp [hi, hlt]
            rw [he] at h ⊢
            obtain ⟨i1, i2, i3, i4, i5, i6⟩ := ih _ h
            simp only at i1 i2 i4 i5 i6
            refine ⟨by omega, fun i => ?_, fun i hi' hni => ?_, ?_, ?_, fun hr => ?_⟩
            · rw [i2, List.mem_cons, List.mem_cons]
              constructor
              · rintro ((rfl | h) | ⟨h1, h2⟩)
                · exact Or.inr ⟨Or.inl rfl, hn⟩
                · exact Or.inl h
                · exact Or.inr ⟨Or.inr h1, h2⟩
              · rintro (h | ⟨rfl | h1, h2⟩)
                · exact Or.inl (Or.inr h)
                · exact Or.inl (Or.inl rfl)
                · exact Or.inr ⟨h1, h2⟩
            · rcases List.mem_cons.1 hi' with rfl | hi'
              · rw [wAt_of_arcAt hb]; omega
              · exact i3 i hi' hni
            · rw [i4, List.countP_cons, hi0]; simp
            · rw [i5, List.countP_cons, hn]; simp; omega
            · have := (i6 hr).1
              cases this
          · exact hskip (by unfold nNeg; rw [ha, wAt_of_arcAt hb]; simp [hlt]) hi0
              (by rw [nScan, ha, hb]; simp [hi, hlt])

/-! ### The second loop -/

theorem setTr_setTr (N : RNet) (t : Nat) (x y : RTr) : (N.setTr t x).setTr t y = N.setTr t y := by
  have h : ((N.setTr t x).setTr t y).tr = (N.setTr t y).tr := by
    funext i
    rw [setTr_tr, setTr_tr, setTr_tr]
    by_cases hi : i = t
    · rw [if_pos hi, if_pos hi]
    · rw [if_neg hi, if_neg hi, if_neg hi]
  show { (N.setTr t x).setTr t y with tr := ((N.setTr t x).setTr t y).tr } = { N.setTr t y with tr := (N.setTr t y).tr }
  rw [h]; rfl

theorem nMerge_eq (N : RNet) (p t : Nat) (a : Arc) : nMerge N p t a = N.setTr t { N.tr t with
    pre := dropArc p (N.tr t).pre
    post := if wAt (N.tr t).post p = a.weight then dropArc p (N.tr t).post else subArc p a.weight (N.tr t).post } := by
  unfold nMerge RNet.skipInArc RNet.skipOutArc
  by_cases h : wAt (N.tr t).post p = a.weight
  · simp only [if_pos h]
    rw [setTr_setTr, setTr_tr, if_pos rfl]
  · simp only [if_neg h]
    rw [setTr_setTr, setTr_tr, if_pos rfl]

theorem nMerge_spec {Q : Nat → Bool} {N : RNet} {p low t : Nat} {a : Arc} (h : Keeps N p low)
    (ha : arcAt (N.tr t).pre p = some a) (hi : a.inhib = false) (hw : a.weight ≤ low) (hn : nNeg N p t = false) :
    Fine Q N (nMerge N p t a) ∧ Keeps (nMerge N p t a) p low ∧ arcAt ((nMerge N p t a).tr t).pre p = none ∧
      (∀ s, s ≠ t → (nMerge N p t a).tr s = N.tr s) ∧ (nMerge N p t a).pinhib = N.pinhib := by
  have hN := h.wf
  have hl : (N.tr t).skip = false := (consumers_live hN ((mem_consumers hN).2 ⟨a, (arcAt_mem ha).1, (arcAt_mem ha).2⟩)).1
  have hI : (N.tr t).I p = a.weight := by
    have := RTr.I_of_mem (hN.preS t) (arcAt_mem ha).1 hi
    rwa [(arcAt_mem ha).2] at this
  have hle : a.weight ≤ wAt (N.tr t).post p := by
    unfold nNeg at hn
    rw [ha] at hn
    simpa [hi] using hn
  rw [nMerge_eq]
  generalize hpost : (if wAt (N.tr t).post p = a.weight then dropArc p (N.tr t).post else subArc p a.weight (N.tr t).post) = post
  have hw' : ∀ q, wAt post q = if q = p then (N.tr t).O p - (N.tr t).I p else (N.tr t).O q := by
    intro q
    rw [hI, ← hpost]
    unfold RTr.O
    split
    · rename_i he
      rw [wAt_dropArc]
      split
      · omega
      · rfl
    · rw [wAt_subArc]
  have hS : Sorted post := by
    rw [← hpost]
    split
    · exact dropArc_sorted (hN.postS t) p
    · exact subArc_sorted (hN.postS t) p _
  have hok : ∀ b ∈ post, 0 < b.weight ∧ b.inhib = false ∧ N.okP b.place := by
    rw [← hpost]
    split
    · exact fun b hb => (hN.tr t).post_all b (mem_dropArc.1 hb).1
    · rename_i hne
      intro b hb
      obtain ⟨c, hc, e1, e2, e3⟩ := subArc_mem hb
      obtain ⟨f1, f2, f3⟩ := (hN.tr t).post_all c hc
      refine ⟨?_, by rw [e2]; exact f2, by rw [e1]; exact f3⟩
      by_cases hcp : c.place = p
      · have : wAt (N.tr t).post p = c.weight := by rw [← hcp]; exact wAt_of_mem (hN.postS t) hc
        rw [e3, if_pos hcp]; omega
      · rw [e3, if_neg hcp]; exact f1
  have hf : Fine Q N (N.setTr t { N.tr t with pre := dropArc p (N.tr t).pre, post := post }) := by
    refine Fine.setTr hN hl ((hN.tr t).absorb hl p hS hok) h.inv
      (trSim_absorb (hN.preS t) (by rw [hI]; exact hle) hw' fun m hm b hb hbp => ?_)
    have := arcAt_of_mem (hN.preS t) hb
    rw [hbp, ha] at this
    cases this
    unfold ArcSat
    rw [hi, hbp]
    simp only [Bool.false_eq_true, if_false]
    exact Nat.le_trans hw hm
  refine ⟨hf, ⟨hf.1, h.init, fun s hs => ?_⟩, ?_, fun s hs => ?_, rfl⟩
  · rw [setTr_tr] at hs ⊢
    by_cases hst : s = t
    · subst hst
      rw [if_pos rfl] at hs
      rw [drop_I, if_pos rfl] at hs
      exact absurd hs (Nat.not_lt_zero _)
    · rw [if_neg hst] at hs ⊢; exact h.eff s hs
  · rw [setTr_tr, if_pos rfl, arcAt_dropArc]; simp
  · rw [setTr_tr, if_neg hs]

/-- The consumers that are always inhibited. -/
def nOff (N : RNet) (p : Nat) (s : NState) (t : Nat) : Bool :=
  match arcAt (N.tr t).pre p with
  | none => false
  | some a => decide (t ∉ s.neg) && decide (a.weight ≤ s.low) && a.inhib

/-- The consumers that are changed. -/
def nChg (N : RNet) (p : Nat) (s : NState) (t : Nat) : Bool :=
  match arcAt (N.tr t).pre p with
  | none => false
  | some a => decide (t ∉ s.neg) && decide (a.weight ≤ s.low) && !a.inhib

theorem nApply_spec {Q : Nat → Bool} {N : RNet} {p : Nat} {s : NState} (hneg : ∀ t ∈ N.consumers p, t ∉ s.neg → nNeg N p t = false) :
    ∀ (ts : List Nat) (o : NOut), ts.Nodup → (∀ t ∈ ts, t ∈ N.consumers p) → Keeps o.net p s.low →
      (∀ t ∈ ts, o.net.tr t = N.tr t) →
      Fine Q o.net (nApply p s ts o).net ∧ Keeps (nApply p s ts o).net p s.low ∧
      (∀ i, i ∉ ts → (nApply p s ts o).net.tr i = o.net.tr i) ∧
      (∀ t ∈ ts, nChg N p s t = true → arcAt ((nApply p s ts o).net.tr t).pre p = none) ∧
      (∀ t ∈ ts, nChg N p s t = false → (nApply p s ts o).net.tr t = N.tr t) ∧
      (nApply p s ts o).inhibited = (ts.filter (nOff N p s)).reverse ++ o.inhibited ∧
      (nApply p s ts o).dnn = o.dnn - ts.countP (nChg N p s) ∧ (nApply p s ts o).net.pinhib = o.net.pinhib := by
  intro ts
  induction ts with
  | nil =>
    intro o _ _ h _
    exact ⟨Fine.refl h.wf, h, fun _ _ => rfl, by simp, by simp, by simp [nApply], rfl, rfl⟩
  | cons t ts ih =>
    intro o hnd hcons hk heq
    obtain ⟨n1, n2⟩ := List.nodup_cons.1 hnd
    have htr := heq t (by simp)
    -- the transition is left alone
    have hsame : ∀ o', o'.net = o.net → o'.dnn = o.dnn → nChg N p s t = false →
        o'.inhibited = (if nOff N p s t = true then [t] else []) ++ o.inhibited →
        nApply p s (t :: ts) o = nApply p s ts o' →
        Fine Q o.net (nApply p s (t :: ts) o).net ∧ Keeps (nApply p s (t :: ts) o).net p s.low ∧
        (∀ i, i ∉ t :: ts → (nApply p s (t :: ts) o).net.tr i = o.net.tr i) ∧
        (∀ i ∈ t :: ts, nChg N p s i = true → arcAt ((nApply p s (t :: ts) o).net.tr i).pre p = none) ∧
        (∀ i ∈ t :: ts, nChg N p s i = false → (nApply p s (t :: ts) o).net.tr i = N.tr i) ∧
        (nApply p s (t :: ts) o).inhibited = ((t :: ts).filter (nOff N p s)).reverse ++ o.inhibited ∧
        (nApply p s (t :: ts) o).dnn = o.dnn - (t :: ts).countP (nChg N p s) ∧
        (nApply p s (t :: ts) o).net.pinhib = o.net.pinhib := by
      intro o' e1 e2 hc e3 he
      rw [he]
      obtain ⟨i1, i2, i3, i4, i5, i6, i7, i8⟩ := ih o' n2 (fun i hi => hcons i (by simp [hi])) (by rw [e1]; exact hk)
        (fun i hi => by rw [e1]; exact heq i (by simp [hi]))
      rw [e1] at i1 i3 i8
      refine ⟨i1, i2, fun i hi => i3 i fun hc => hi (by simp [hc]), fun i hi hci => ?_, fun i hi hci => ?_, ?_, ?_, i8⟩
      · rcases List.mem_cons.1 hi with rfl | hi
        · rw [hc] at hci; cases hci
        · exact i4 i hi hci
      · rcases List.mem_cons.1 hi with rfl | hi
        · rw [i3 i n1]; exact htr
        · exact i5 i hi hci
      · rw [i6, e3, List.filter_cons]
        split
        · simp
        · simp
      · rw [i7, e2, List.countP_cons, hc]; simp
    by_cases htn : t ∈ s.neg
    · refine hsame o rfl rfl ?_ ?_ ?_
      · unfold nChg
        split
        · rfl
        · simp [htn]
      · have : nOff N p s t = false := by
          unfold nOff
          split
          · rfl
          · simp [htn]
        rw [this]; rfl
      · rw [nApply, if_pos htn]
    · cases ha : arcAt (N.tr t).pre p with
      | none =>
        refine hsame o rfl rfl (by unfold nChg; rw [ha]) (by rw [show nOff N p s t = false by unfold nOff; rw [ha]]; rfl) ?_
        rw [nApply, if_neg htn, htr, ha]
      | some a =>
        by_cases hlw : s.low < a.weight
        · refine hsame o rfl rfl (by unfold nChg; rw [ha]; simp [Nat.not_le.2 hlw]) (by
            rw [show nOff N p s t = false by unfold nOff; rw [ha]; simp [Nat.not_le.2 hlw]]; rfl) ?_
          rw [nApply, if_neg htn, htr, ha]
          simp only [if_pos hlw]
        · cases hi : a.inhib with
          | true =>
            refine hsame { o with inhibited := t :: o.inhibited, changed := true } rfl rfl
              (by unfold nChg; rw [ha]; simp [hi]) (by
              rw [show nOff N p s t = true by unfold nOff; rw [ha]; simp [hi, htn, Nat.le_of_not_lt hlw]]; rfl) ?_
            rw [nApply, if_neg htn, htr, ha]
            simp only [if_neg hlw, hi, if_true]
          | false =>
            have he : nApply p s (t :: ts) o =
                nApply p s ts { o with net := nMerge o.net p t a, dnn := o.dnn - 1, changed := true } := by
              rw [nApply, if_neg htn, htr, ha]
              simp only [if_neg hlw, hi, Bool.false_eq_true, if_false]
            have hc : nChg N p s t = true := by unfold nChg; rw [ha]; simp [hi, htn, Nat.le_of_not_lt hlw]
            have ho : nOff N p s t = false := by unfold nOff; rw [ha]; simp [hi]
            obtain ⟨m1, m2, m3, m4, m5⟩ := nMerge_spec (Q := Q) hk (t := t) (a := a) (by rw [htr]; exact ha) hi (Nat.le_of_not_lt hlw)
              (by
                have := hneg t (hcons t (by simp)) htn
                unfold nNeg at this ⊢
                rw [htr]; exact this)
            rw [he]
            obtain ⟨i1, i2, i3, i4, i5, i6, i7, i8⟩ := ih { o with net := nMerge o.net p t a, dnn := o.dnn - 1, changed := true }
              n2 (fun i hi => hcons i (by simp [hi])) m2 (fun i hi => by
                show (nMerge o.net p t a).tr i = N.tr i
                rw [m4 i (by rintro rfl; exact n1 hi)]
                exact heq i (by simp [hi]))
            refine ⟨m1.trans i1, i2, fun i hi => ?_, fun i hi hci => ?_, fun i hi hci => ?_, ?_, ?_, i8.trans m5⟩
            · rw [i3 i fun hc => hi (by simp [hc])]
              exact m4 i fun hc => hi (by simp [hc])
            · rcases List.mem_cons.1 hi with rfl | hi
              · rw [i3 i n1]; exact m3
              · exact i4 i hi hci
            · rcases List.mem_cons.1 hi with rfl | hi
              · rw [hc] at hci; cases hci
              · exact i5 i hi hci
            · rw [i6, List.filter_cons, ho]; simp
            · rw [i7, List.countP_cons, hc]; simp; omega

theorem countP_all {α : Type} {P R : α → Bool} : ∀ {l : List α}, (∀ a ∈ l, P a = true → R a = true) → l.countP R ≤ l.countP P →
    ∀ a ∈ l, R a = true → P a = true := by
  intro l
  induction l with
  | nil => intro _ _ a ha; cases ha
  | cons b l ih =>
    intro h hle a ha hr
    have hmono : l.countP P ≤ l.countP R := List.countP_mono_left fun x hx => h x (by simp [hx])
    rw [List.countP_cons, List.countP_cons] at hle
    have hb := h b (by simp)
    have hPR : R b = true → P b = true := by
      intro hrb
      cases hpb : P b with
      | true => rfl
      | false => rw [hrb, hpb] at hle; simp at hle; omega
    rcases List.mem_cons.1 ha with rfl | ha
    · exact hPR hr
    · refine ih (fun x hx => h x (by simp [hx])) ?_ a ha hr
      cases hrb : R b with
      | true => rw [hrb, hPR hrb] at hle; simpa using hle
      | false =>
        rw [hrb] at hle
        cases hpb : P b with
        | true => rw [hb hpb] at hrb; cases hrb
        | false => rw [hpb] at hle; simpa using hle

theorem nApply_bad (p : Nat) (s : NState) : ∀ (ts : List Nat) (o : NOut), (nApply p s ts o).net.bad = o.net.bad := by
  intro ts
  induction ts with
  | nil => intro o; rfl
  | cons t ts ih =>
    intro o
    rw [nApply]
    split
    · exact ih o
    · split
      · exact ih o
      · split
        · exact ih o
        · split
          · exact ih _
          · rw [ih]
            simp only
            rw [nMerge_eq]; rfl

theorem skipAll_pure : ∀ (l : List Nat) (N : RNet), (skipAll l N).bad = N.bad ∧ (skipAll l N).init = N.init := by
  intro l
  induction l with
  | nil => intro N; exact ⟨rfl, rfl⟩
  | cons t l ih => intro N; exact ih (N.skipTrans t)

/-- What the first loop finds out about a place. -/
structure NFacts (Q : Nat → Bool) (N : RNet) (p : Nat) (s : NState) : Prop where
  low : s.low ≤ N.init p
  neg : ∀ t, t ∈ s.neg ↔ t ∈ N.consumers p ∧ nNeg N p t = true
  lowNeg : ∀ t ∈ N.consumers p, nNeg N p t = true → s.low ≤ wAt (N.tr t).post p
  inh : s.inh = (N.consumers p).countP (nInh N p)
  dnn : s.dnn = (N.consumers p).length - (N.consumers p).countP (nNeg N p)
  remove : s.removePlace = true → Q p = false ∧ ∀ t ∈ N.consumers p, nNeg N p t = false

theorem nFacts {Q : Nat → Bool} {N : RNet} {p : Nat} {s : NState}
    (hs : nScan N p (N.consumers p) ⟨N.init p, [], !Q p, 0, (N.consumers p).length⟩ = s)
    (hlow : ¬(N.consumers p ≠ [] ∧ s.low = 0)) : NFacts Q N p s := by
  by_cases hc : N.consumers p = []
  · rw [hc] at hs
    subst hs
    refine ⟨Nat.le_refl _, ?_, ?_, ?_, ?_, fun h => ⟨?_, ?_⟩⟩
    · rw [hc]; simp [nScan]
    · rw [hc]; simp
    · rw [hc]; rfl
    · rw [hc]; rfl
    · simpa [nScan] using h
    · rw [hc]; simp
  · obtain ⟨i1, i2, i3, i4, i5, i6⟩ := nScan_spec (N.consumers p) ⟨N.init p, [], !Q p, 0, (N.consumers p).length⟩
      (by rw [hs]; exact fun h => hlow ⟨hc, h⟩)
    rw [hs] at i1 i2 i3 i4 i5 i6
    simp only [List.not_mem_nil, false_or, Nat.zero_add, Bool.not_eq_true'] at i1 i2 i3 i4 i5 i6
    exact ⟨i1, i2, i3, i4, i5, i6⟩

theorem NFacts.keeps {Q : Nat → Bool} {N : RNet} {p : Nat} {s : NState} (hN : N.WF) (h : NFacts Q N p s) :
    Keeps N p s.low := by
  refine ⟨hN, h.low, fun t ht => ?_⟩
  obtain ⟨a, ha, hap, hi, hw⟩ := RTr.I_mem (x := N.tr t) (p := p) (by omega)
  refine h.lowNeg t ((mem_consumers hN).2 ⟨a, ha, hap⟩) ?_
  have he := arcAt_of_mem (hN.preS t) ha
  rw [hap] at he
  unfold nNeg
  rw [he]
  unfold RTr.O at ht
  simp only [hi, Bool.not_false, Bool.true_and, decide_eq_true_eq]
  omega

/-- The net after rules N and O. -/
theorem nMid {Q : Nat → Bool} {N : RNet} {p : Nat} {s : NState} (hN : N.WF) (h : NFacts Q N p s) :
    Fine Q N (skipAll (nApply p s (N.consumers p) ⟨N, [], s.dnn, false⟩).inhibited.reverse
      (nApply p s (N.consumers p) ⟨N, [], s.dnn, false⟩).net) ∧
    (nApply p s (N.consumers p) ⟨N, [], s.dnn, false⟩).inhibited = ((N.consumers p).filter (nOff N p s)).reverse ∧
    (nApply p s (N.consumers p) ⟨N, [], s.dnn, false⟩).dnn =
      (N.consumers p).length - (N.consumers p).countP (nNeg N p) - (N.consumers p).countP (nChg N p s) ∧
    (∀ t, ∀ a ∈ ((skipAll (nApply p s (N.consumers p) ⟨N, [], s.dnn, false⟩).inhibited.reverse
      (nApply p s (N.consumers p) ⟨N, [], s.dnn, false⟩).net).tr t).pre, a.place = p →
      t ∈ N.consumers p ∧ arcAt (N.tr t).pre p = some a ∧ nOff N p s t = false ∧ nChg N p s t = false) := by
  have hk := h.keeps hN
  obtain ⟨i1, i2, i3, i4, i5, i6, i7, i8⟩ := nApply_spec (Q := Q) (N := N) (p := p) (s := s) (fun t ht hn => by
    cases hc : nNeg N p t with
    | false => rfl
    | true => exact absurd ((h.neg t).2 ⟨ht, hc⟩) hn) (N.consumers p) ⟨N, [], s.dnn, false⟩ (consumers_nodup N p)
      (fun t ht => ht) hk (fun t _ => rfl)
  simp only [List.append_nil] at i6
  rw [i6, List.reverse_reverse]
  have hoff : ∀ t, nOff N p s t = true → nChg N p s t = false ∧
      ∃ a, arcAt (N.tr t).pre p = some a ∧ a.inhib = true ∧ a.weight ≤ s.low := by
    intro t ht
    unfold nOff at ht
    unfold nChg
    cases ha : arcAt (N.tr t).pre p with
    | none => rw [ha] at ht; cases ht
    | some a =>
      rw [ha] at ht
      simp only [Bool.and_eq_true, decide_eq_true_eq] at ht
      exact ⟨by simp [ht.2], a, rfl, ht.2, ht.1.2⟩
  obtain ⟨j1, _, j3⟩ := skipAll_keeps (Q := Q) ((N.consumers p).filter (nOff N p s)) _ i2 ((consumers_nodup N p).filter _)
    (fun t ht => by
      obtain ⟨t1, t2⟩ := List.mem_filter.1 ht
      obtain ⟨o1, a, o2, o3, o4⟩ := hoff t t2
      rw [i5 t t1 o1]
      exact ⟨(consumers_live hN t1).1, a, (arcAt_mem o2).1, (arcAt_mem o2).2, o3, o4⟩)
  refine ⟨i1.trans j1, rfl, by rw [i7, h.dnn], fun t a ha hap => ?_⟩
  rw [j3] at ha
  split at ha
  · cases ha
  · rename_i hnf
    by_cases hc : t ∈ N.consumers p
    · have hno : nOff N p s t = false := by
        cases ho : nOff N p s t with
        | false => rfl
        | true => exact absurd (List.mem_filter.2 ⟨hc, ho⟩) hnf
      cases hch : nChg N p s t with
      | true =>
        have := arcAt_of_mem (i2.wf.preS t) ha
        rw [hap, i4 t hc hch] at this
        cases this
      | false =>
        rw [i5 t hc hch] at ha
        have := arcAt_of_mem (hN.preS t) ha
        rw [hap] at this
        exact ⟨hc, this, hno, rfl⟩
    · rw [i3 t hc] at ha
      exact absurd ((mem_consumers hN).2 ⟨a, ha, hap⟩) hc

/-- With no inhibitor arc left. -/
theorem nNone {Q : Nat → Bool} {N : RNet} {p : Nat} {s : NState} (h : NFacts Q N p s)
    (h0 : s.inh - ((N.consumers p).filter (nOff N p s)).length = 0) : ∀ t ∈ N.consumers p, nInh N p t = true →
      nOff N p s t = true := by
  refine countP_all (fun t _ ht => ?_) ?_
  · unfold nOff at ht
    unfold nInh
    split
    · rename_i ha; rw [ha] at ht; cases ht
    · rename_i a ha
      rw [ha] at ht
      simp only [Bool.and_eq_true, decide_eq_true_eq] at ht
      exact ht.2
  · rw [← h.inh, List.countP_eq_length_filter]
    omega

theorem clearInh_fine {Q : Nat → Bool} {N : RNet} {p : Nat} (hN : N.WF)
    (h : ∀ t, ∀ a ∈ (N.tr t).pre, a.place = p → a.inhib = false) : Fine Q N (clearInh N p) := by
  refine ⟨⟨fun t => ?_, hN.out, hN.sk, hN.nd⟩, Same.refl Q N⟩
  have ht := hN.tr t
  refine ⟨ht.preS, ht.postS, ht.preW, ht.postW, ht.postI, ht.preP, ht.postP, ht.empty, ht.inhT, fun a ha hi => ?_⟩
  show (if a.place = p then false else N.pinhib a.place) = true
  rw [if_neg fun hap => by rw [h t a ha hap] at hi; cases hi]
  exact ht.inhP a ha hi

theorem nPlace_good {Q : Nat → Bool} {N : RNet} {p : Nat} : Good Q N (nPlace Q N p).1 := by
  unfold nPlace
  split
  · exact Good.refl Q N
  simp only
  generalize hs : nScan N p (N.consumers p) ⟨N.init p, [], !Q p, 0, (N.consumers p).length⟩ = s
  split
  · exact Good.refl Q N
  rename_i hlow
  have hF := nFacts hs hlow
  have hb : (skipAll (nApply p s (N.consumers p) ⟨N, [], s.dnn, false⟩).inhibited.reverse
      (nApply p s (N.consumers p) ⟨N, [], s.dnn, false⟩).net).bad = N.bad := by
    rw [(skipAll_pure _ _).1, nApply_bad]
  split
  · rename_i hc
    refine Good.of hb fun hN => ?_
    obtain ⟨i1, i2, i3, i4⟩ := nMid hN hF
    obtain ⟨hr, _, hd, _⟩ := hc
    rw [i3] at hd
    obtain ⟨hQ, hneg⟩ := hF.remove hr
    have hz : (N.consumers p).countP (nNeg N p) = 0 := List.countP_eq_zero.2 fun t ht => by rw [hneg t ht]; simp
    have hall : ∀ t ∈ N.consumers p, nChg N p s t = true := by
      have := List.countP_le_length (p := nChg N p s) (l := N.consumers p)
      exact List.countP_eq_length.1 (by omega)
    refine i1.trans ⟨skipPlace_WF i1.1 p, skipPlace_same i1.1 hQ (fun _ => True) trivial (fun _ _ _ _ => trivial)
      fun m _ t _ a ha hap => ?_⟩
    obtain ⟨k1, _, _, k4⟩ := i4 t a ha hap
    rw [hall t k1] at k4; cases k4
  · split
    · rename_i hc
      refine Good.of hb fun hN => ?_
      obtain ⟨i1, i2, i3, i4⟩ := nMid hN hF
      rw [i2, List.length_reverse] at hc
      refine i1.trans (clearInh_fine i1.1 fun t a ha hap => ?_)
      obtain ⟨k1, k2, k3, _⟩ := i4 t a ha hap
      cases hi : a.inhib with
      | false => rfl
      | true =>
        have := nNone hF hc t k1 (by unfold nInh; rw [k2]; exact hi)
        rw [k3] at this; cases this
    · exact Good.of hb fun hN => (nMid hN hF).1

theorem nPlaces_good {Q : Nat → Bool} : ∀ (l : List Nat) (N : RNet), Good Q N (nPlaces Q l N).1 := by
  intro l
  induction l with
  | nil => intro N; exact Good.refl Q N
  | cons p l ih => intro N; exact nPlace_good.trans (ih _)

/-- Rules F, N and O preserve the reachable query markings. -/
theorem ruleFNO_good {Q : Nat → Bool} {N : RNet} (lim : Nat) : Good Q N (ruleFNO Q lim N).1 := nPlaces_good _ _

end Reduce
end Verif
