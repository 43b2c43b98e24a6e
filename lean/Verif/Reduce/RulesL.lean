import Verif.Reduce.RulesE
import Verif.Reduce.RulesA

/-!
# Rules Q, L, I
-/

namespace Verif
namespace Reduce

/-! ### Rule Q -/

theorem takeInit_eq (n : Nat) : ∀ (l : List Arc) (N : RNet), Sorted l →
    takeInit n l N = { N with init := fun q => N.init q - n * wAt l q } := by
  intro l
  induction l with
  | nil => intro N _; simp [takeInit, wAt_nil]
  | cons a l ih =>
    intro N hs
    unfold takeInit
    rw [ih _ (List.pairwise_cons.1 hs).2]
    unfold RNet.setInit
    congr 1
    funext q
    rw [wAt_cons]
    by_cases hq : a.place = q
    · subst hq
      have : wAt l a.place = 0 := wAt_none (arcAt_lt hs (Nat.le_refl _))
      simp [this, Nat.mul_comm]
    · have : q ≠ a.place := fun h => hq h.symm
      simp [hq, this]

theorem qTimes_le (N : RNet) : ∀ (l : List Arc) (k : Nat), (∀ a ∈ l, N.init a.place / a.weight ≠ 0) →
    (k ≠ 0 → qTimes N l k ≤ k ∧ qTimes N l k ≠ 0) ∧ ∀ a ∈ l, qTimes N l k ≤ N.init a.place / a.weight := by
  intro l
  induction l with
  | nil => intro k _; exact ⟨fun h => ⟨Nat.le_refl _, h⟩, by simp⟩
  | cons a l ih =>
    intro k h
    have ha := h a (by simp)
    unfold qTimes
    obtain ⟨i1, i2⟩ := ih (if k = 0 then N.init a.place / a.weight else min k (N.init a.place / a.weight))
      (fun b hb => h b (by simp [hb]))
    generalize qTimes N l _ = r at i1 i2
    have hk : (if k = 0 then N.init a.place / a.weight else min k (N.init a.place / a.weight)) ≠ 0 := by
      split
      · exact ha
      · omega
    have h1 := i1 hk
    refine ⟨fun hk0 => ?_, fun b hb => ?_⟩
    · rw [if_neg hk0] at h1
      exact ⟨by omega, h1.2⟩
    · rcases List.mem_cons.1 hb with rfl | hb
      · have := h1.1
        split at this
        · exact this
        · omega
      · exact i2 b hb

theorem Step_congr {N N' : RNet} (h : N'.tr = N.tr) : N'.Step = N.Step := by
  funext m m'
  unfold RNet.Step
  rw [h]

/-- Rule Q: the initial tokens of the preset are moved on. -/
theorem q_same {Q : Nat → Bool} {N N' : RNet} (hN : N.WF) {t k : Nat} (hl : (N.tr t).skip = false)
    (hno : (N.tr t).inhib = false) (htr : N'.tr = N.tr)
    (hdis : ∀ q, (N.tr t).I q = 0 ∨ (N.tr t).O q = 0)
    (hfree : ∀ q, (N.tr t).I q ≠ 0 ∨ (N.tr t).O q ≠ 0 → N.pinhib q = false ∧ Q q = false)
    (hsole : ∀ q s, (N.tr t).I q ≠ 0 → s ≠ t → (N.tr s).I q = 0)
    (hk : ∀ q, k * (N.tr t).I q ≤ N.init q)
    (hinit : ∀ q, N'.init q = N.init q - k * (N.tr t).I q + k * (N.tr t).O q) : Same Q N N' := by
  have hsame : N'.Step = N.Step := Step_congr htr
  have hreach : N'.Reach = N.Reach := by unfold RNet.Reach; rw [hsame]
  have hNoInh : ∀ m, (N.tr t).NoInh m := by
    intro m a ha hi
    rw [(hN.tr t).noInh hno a ha] at hi; cases hi
  refine Same.of_sims (fun m m' => ∃ j, ∀ q, m' q + j * (N.tr t).I q = m q + j * (N.tr t).O q) (fun m' m => m' = m)
    ⟨N'.init, .refl, k, fun q => ?_⟩ ⟨N'.init, ?_, rfl⟩ ?_ ?_ ?_ ?_
  · rw [hinit]
    have := hk q
    omega
  · have h1 := iter_reach hl hNoInh k N.init hk
    rwa [← funext hinit] at h1
  · rintro m m' m1 ⟨j, hj⟩ ⟨s, hs, rfl⟩
    by_cases hst : s = t
    · subst hst
      cases j with
      | zero =>
        have : m' = m := funext fun q => by have := hj q; omega
        subst this
        refine ⟨_, .single ⟨s, by rw [htr]; exact hs, rfl⟩, 0, fun q => ?_⟩
        rw [htr]
        simp only [Nat.zero_mul]
      | succ j =>
        refine ⟨m', .refl, j, fun q => ?_⟩
        have h1 := hj q
        have h2 := hs.2.1 q
        unfold RTr.fire
        simp only [Nat.succ_mul] at h1
        omega
    · have hle : ∀ q, (N.tr s).I q ≤ m' q := by
        intro q
        have h1 := hj q
        have h2 := hs.2.1 q
        by_cases hI : (N.tr t).I q = 0
        · rw [hI] at h1; omega
        · rw [hsole q s hI hst]; exact Nat.zero_le _
      refine ⟨(N'.tr s).fire m', .single ⟨s, ?_, rfl⟩, j, fun q => ?_⟩
      · rw [htr]
        refine ⟨hs.1, hle, (hN.tr s).noInh_congr (fun q hq => ?_) hs.2.2⟩
        have h1 := hj q
        by_cases h0 : (N.tr t).I q ≠ 0 ∨ (N.tr t).O q ≠ 0
        · rw [(hfree q h0).1] at hq; cases hq
        · have e1 : (N.tr t).I q = 0 := by omega
          have e2 : (N.tr t).O q = 0 := by omega
          rw [e1, e2] at h1
          simpa using h1
      · have h1 := hj q
        have h2 := hs.2.1 q
        have h3 := hle q
        rw [htr]
        unfold RTr.fire
        omega
  · rintro m' m m1' rfl hs
    rw [hsame] at hs
    exact ⟨m1', .single hs, rfl⟩
  · rintro m m' ⟨j, hj⟩ q hq
    have h1 := hj q
    by_cases h0 : (N.tr t).I q ≠ 0 ∨ (N.tr t).O q ≠ 0
    · rw [(hfree q h0).2] at hq; cases hq
    · have e1 : (N.tr t).I q = 0 := by omega
      have e2 : (N.tr t).O q = 0 := by omega
      rw [e1, e2] at h1
      simpa using h1
  · rintro m' m rfl q _
    rfl

theorem ruleQStep_good {Q : Nat → Bool} {N N' : RNet} {t : Nat} (h : ruleQStep Q N t = some N') : Good Q N N' := by
  unfold ruleQStep at h
  simp only at h
  split at h
  · cases h
  rename_i hc
  split at h
  swap
  · cases h
  rename_i hok
  have hbad : N'.bad = N.bad ∧ N'.tr = N.tr ∧ (N'.okP = N.okP) := by
    have ht : ∀ (k : Nat) (l : List Arc) (N : RNet), (takeInit k l N).bad = N.bad ∧ (takeInit k l N).tr = N.tr ∧
        (takeInit k l N).okP = N.okP := by
      intro k l
      induction l with
      | nil => intro N; exact ⟨rfl, rfl, rfl⟩
      | cons a l ih => intro N; unfold takeInit; exact ih _
    have hm : ∀ (k : Nat) (l : List Arc) (N : RNet), (moveInit k l N).bad = N.bad ∧ (moveInit k l N).tr = N.tr ∧
        (moveInit k l N).okP = N.okP := by
      intro k l
      induction l with
      | nil => intro N; exact ⟨rfl, rfl, rfl⟩
      | cons a l ih => intro N; unfold moveInit; exact ih _
    obtain rfl := Option.some.inj h
    obtain ⟨a1, a2, a3⟩ := hm (qTimes N (N.tr t).pre 0) (N.tr t).post
      (takeInit (qTimes N (N.tr t).pre 0) (N.tr t).pre N)
    obtain ⟨b1, b2, b3⟩ := ht (qTimes N (N.tr t).pre 0) (N.tr t).pre N
    exact ⟨a1.trans b1, a2.trans b2, a3.trans b3⟩
  refine Good.of hbad.1 fun hN => ?_
  simp only [Bool.or_eq_true, decide_eq_true_eq, not_or, Bool.not_eq_true] at hc
  obtain ⟨⟨hl, hno⟩, hne⟩ := hc
  simp only [Bool.and_eq_true, bne_iff_ne, ne_eq] at hok
  obtain ⟨hall, hk0⟩ := hok
  have hpost := hN.postS t
  have hpre := hN.preS t
  have hinh := (hN.tr t).noInh hno
  have hIw : ∀ q, (N.tr t).I q = wAt (N.tr t).pre q := RTr.I_eq_wAt hinh
  have hpair : ∀ q, (arcAt (N.tr t).pre q, arcAt (N.tr t).post q) ≠ (none, none) →
      qOk Q N (arcAt (N.tr t).pre q, arcAt (N.tr t).post q) = true := fun q hq =>
    List.all_eq_true.1 hall _ ((mergeArcs_mem hpre hpost).2 q hq)
  have hcase : ∀ q, (arcAt (N.tr t).pre q = none ∨ arcAt (N.tr t).post q = none) ∧
      (∀ a, arcAt (N.tr t).pre q = some a → N.init q / a.weight ≠ 0 ∧ N.pinhib q = false ∧ Q q = false ∧
        (N.consumers q).length = 1) ∧
      (∀ b, arcAt (N.tr t).post q = some b → N.pinhib q = false ∧ Q q = false) := by
    intro q
    have h1 := hpair q
    cases ha : arcAt (N.tr t).pre q with
    | none =>
      cases hb : arcAt (N.tr t).post q with
      | none => exact ⟨Or.inl rfl, by simp, by simp⟩
      | some b =>
        rw [ha, hb] at h1
        have h2 := h1 (by simp)
        have hbp := (arcAt_mem hb).2
        simp only [qOk, hbp, Bool.and_eq_true, Bool.not_eq_true'] at h2
        exact ⟨Or.inl rfl, by simp, fun _ _ => h2⟩
    | some a =>
      cases hb : arcAt (N.tr t).post q with
      | none =>
        rw [ha, hb] at h1
        have h2 := h1 (by simp)
        have hap := (arcAt_mem ha).2
        simp only [qOk, hap, Bool.and_eq_true, Bool.not_eq_true', bne_iff_ne, ne_eq, decide_eq_true_eq] at h2
        refine ⟨Or.inr rfl, fun c hc => ?_, by simp⟩
        cases hc
        exact ⟨h2.1.1.1, h2.1.1.2, h2.1.2, h2.2⟩
      | some b =>
        rw [ha, hb] at h1
        have h2 := h1 (by simp)
        cases h2
  obtain ⟨_, hq2⟩ := qTimes_le N (N.tr t).pre 0 (fun a ha => by
    exact ((hcase a.place).2.1 a (arcAt_of_mem hpre ha)).1)
  have hN' : N' = { N with
      init := fun q => N.init q - qTimes N (N.tr t).pre 0 * wAt (N.tr t).pre q +
        qTimes N (N.tr t).pre 0 * wAt (N.tr t).post q } := by
    obtain rfl := Option.some.inj h
    rw [takeInit_eq _ _ _ hpre, moveInit_eq _ _ _ hpost]
  generalize qTimes N (N.tr t).pre 0 = k at *
  have harc : ∀ l q, wAt l q ≠ 0 → ∃ a, arcAt l q = some a := by
    intro l q hw
    cases he : arcAt l q with
    | none => exact absurd (wAt_none he) hw
    | some a => exact ⟨a, rfl⟩
  refine ⟨?_, q_same (k := k) hN hl hno hbad.2.1 (fun q => ?_) (fun q hq => ?_) (fun q s hq hst => ?_) (fun q => ?_)
    (fun q => ?_)⟩
  · rw [hN']
    exact ⟨hN.tr, hN.out, hN.sk, hN.nd⟩
  · rcases (hcase q).1 with h0 | h0
    · exact Or.inl (RTr.I_none h0)
    · exact Or.inr (wAt_none h0)
  · rcases hq with hq | hq
    · rw [hIw] at hq
      obtain ⟨a, ha⟩ := harc _ _ hq
      exact ⟨((hcase q).2.1 a ha).2.1, ((hcase q).2.1 a ha).2.2.1⟩
    · obtain ⟨b, hb⟩ := harc _ _ hq
      exact (hcase q).2.2 b hb
  · rw [hIw] at hq
    obtain ⟨a, ha⟩ := harc _ _ hq
    obtain ⟨ham, hap⟩ := arcAt_mem ha
    have hlen := ((hcase q).2.1 a ha).2.2.2
    have ht : t ∈ N.consumers q := (mem_consumers hN).2 ⟨a, ham, hap⟩
    exact RTr.I_none (arcAt_none_of_not_consumer hN fun hs => hst (length_one_mem hlen ht s hs))
  · rw [hIw]
    by_cases h0 : wAt (N.tr t).pre q = 0
    · rw [h0]; simp
    · obtain ⟨a, ha⟩ := harc _ _ h0
      obtain ⟨ham, hap⟩ := arcAt_mem ha
      have h1 := hq2 a ham
      rw [hap] at h1
      rw [wAt_of_arcAt ha]
      exact Nat.le_trans (Nat.mul_le_mul_right _ h1) (Nat.div_mul_le_self _ _)
  · rw [hN', hIw]; rfl

theorem ruleQ_good {Q : Nat → Bool} {N : RNet} (lim : Nat) : Good Q N (ruleQ Q lim N).1 :=
  sweep_good (fun _ _ _ hs => ruleQStep_good hs) _ _

/-! ### Rule L -/

/-- Removing a transition when another one needs no more and has the same effect. -/
theorem l_fine {Q : Nat → Bool} {N : RNet} (hN : N.WF) {t1 t2 : Nat} (h1 : (N.tr t1).skip = false) (hlt : t1 < N.nt)
    (h2 : (N.tr t2).skip = false) (hne : t2 ≠ t1) (hok : lOk (N.tr t1) (N.tr t2) = true) : Fine Q N (N.skipTrans t1) := by
  unfold lOk at hok
  simp only [Bool.and_eq_true, List.all_eq_true] at hok
  have hat : ∀ p, lAt (N.tr t1) (N.tr t2) p = true := by
    intro p
    by_cases hex : ∃ a ∈ (N.tr t2).pre ++ (N.tr t1).pre ++ (N.tr t2).post ++ (N.tr t1).post, a.place = p
    · obtain ⟨a, ha, rfl⟩ := hex
      exact hok.2 a ha
    · have hn : ∀ l, (∀ a ∈ l, a ∈ (N.tr t2).pre ++ (N.tr t1).pre ++ (N.tr t2).post ++ (N.tr t1).post) →
          arcAt l p = none := fun l hl => arcAt_none.2 fun a ha hap => hex ⟨a, hl a ha, hap⟩
      unfold lAt
      rw [hn _ (fun a ha => by simp [ha]), hn (N.tr t1).pre (fun a ha => by simp [ha]),
        wAt_none (hn (N.tr t1).post (fun a ha => by simp [ha])), wAt_none (hn (N.tr t2).post (fun a ha => by simp [ha]))]
      simp
  have heff : ∀ p, (N.tr t1).O p + (N.tr t2).I p = (N.tr t2).O p + (N.tr t1).I p := by
    intro p
    have := hat p
    unfold lAt at this
    simp only [Bool.and_eq_true, decide_eq_true_eq] at this
    exact this.2
  have hen : ∀ m, (N.tr t1).En m → (N.tr t2).En m := by
    intro m hm
    rw [En_iff (hN.preS t1)] at hm
    rw [En_iff (hN.preS t2)]
    refine ⟨h2, fun b hb => ?_⟩
    have := hat b.place
    unfold lAt at this
    rw [arcAt_of_mem (hN.preS t2) hb] at this
    cases ha : arcAt (N.tr t1).pre b.place with
    | none => rw [ha] at this; simp at this
    | some a =>
      rw [ha] at this
      simp only [Bool.and_eq_true, beq_iff_eq] at this
      obtain ⟨⟨e1, e2⟩, _⟩ := this
      obtain ⟨ham, hap⟩ := arcAt_mem ha
      have h3 := hm.2 a ham
      unfold ArcSat at h3 ⊢
      rw [hap, ← e1] at h3
      cases hi : b.inhib with
      | true =>
        rw [hi] at h3 e2
        simp only [if_true, decide_eq_true_eq] at h3 e2 ⊢
        omega
      | false =>
        rw [hi] at h3 e2
        simp only [Bool.false_eq_true, if_false, decide_eq_true_eq] at h3 e2 ⊢
        omega
  refine ⟨skipTrans_WF hN hlt h1, Same.of_sims (fun m m' => m' = m) (fun m' m => m' = m) ⟨N.init, .refl, rfl⟩
    ⟨N.init, .refl, rfl⟩ ?_ ?_ ?_ ?_⟩
  · rintro m m' m1 rfl ⟨s, hs, rfl⟩
    by_cases hst : s = t1
    · subst hst
      refine ⟨_, .single ⟨t2, ?_, ?_⟩, rfl⟩
      · rw [skipTrans_tr, if_neg hne]; exact hen _ hs
      · rw [skipTrans_tr, if_neg hne]
        funext p
        have e1 := heff p
        have e2 := hs.2.1 p
        have e3 := (hen _ hs).2.1 p
        unfold RTr.fire
        omega
    · exact ⟨_, .single ⟨s, by rw [skipTrans_tr, if_neg hst]; exact hs, by rw [skipTrans_tr, if_neg hst]⟩, rfl⟩
  · rintro m' m m1' rfl ⟨s, hs, rfl⟩
    obtain ⟨_, e⟩ := skipTrans_en hs
    rw [e] at hs ⊢
    exact ⟨_, .single ⟨s, hs, rfl⟩, rfl⟩
  · rintro m m' rfl q _
    rfl
  · rintro m m' rfl q _
    rfl

theorem lLoop_good {Q : Nat → Bool} : ∀ (l : List Nat) (N : RNet), Good Q N (lLoop l N).1 := by
  intro l
  induction l with
  | nil => intro N; exact Good.refl Q N
  | cons t l ih =>
    intro N
    unfold lLoop
    split
    · exact Good.refl Q N
    rename_i hs
    split
    · rename_i hf
      refine Good.trans (N' := N.skipTrans t) (Good.of rfl fun hN => ?_) (ih (N.skipTrans t))
      unfold lFind at hf
      simp only [List.any_eq_true, Bool.and_eq_true, decide_eq_true_eq, Bool.not_eq_true'] at hf
      obtain ⟨a, ha, t2, _, ⟨hne, h2⟩, hok⟩ := hf
      exact l_fine hN (by simpa using hs) (consumers_live hN ((mem_consumers hN).2 ⟨a, ha, rfl⟩)).2 h2 hne hok
    · exact ih N

theorem ruleL_good {Q : Nat → Bool} {N : RNet} (lim : Nat) : Good Q N (ruleL lim N).1 := lLoop_good _ _

/-! ### Rule I -/

theorem iPush_spec : ∀ (ts : List Nat) (s : List Nat × List Nat),
    (∀ t, t ∈ (iPush ts s).1 ↔ t ∈ s.1 ∨ t ∈ ts) ∧
    (∀ t ∈ (iPush ts s).1, t ∈ s.1 ∨ t ∈ (iPush ts s).2) ∧ (∀ t ∈ s.2, t ∈ (iPush ts s).2) := by
  intro ts
  induction ts with
  | nil => intro s; exact ⟨fun t => by simp [iPush], fun t h => Or.inl h, fun t h => h⟩
  | cons t ts ih =>
    intro s
    unfold iPush
    by_cases ht : t ∈ s.1
    · rw [if_pos ht]
      obtain ⟨h1, h2, h3⟩ := ih s
      refine ⟨fun i => ?_, h2, h3⟩
      rw [h1, List.mem_cons]
      constructor
      · rintro (h | h)
        · exact Or.inl h
        · exact Or.inr (Or.inr h)
      · rintro (h | rfl | h)
        · exact Or.inl h
        · exact Or.inl ht
        · exact Or.inr h
    · rw [if_neg ht]
      obtain ⟨h1, h2, h3⟩ := ih (t :: s.1, t :: s.2)
      refine ⟨fun i => ?_, fun i hi => ?_, fun i hi => h3 i (by simp [hi])⟩
      · rw [h1]; simp only [List.mem_cons]; exact ⟨fun h => by rcases h with (h | h) | h <;> simp [h],
          fun h => by rcases h with h | h | h <;> simp [h]⟩
      · rcases h2 i hi with h | h
        · rcases List.mem_cons.1 h with rfl | h
          · exact Or.inr (h3 i (by simp))
          · exact Or.inl h
        · exact Or.inr h

/-- What the arc of a seen transition makes seen. -/
def IDone (N : RNet) (seen : List Nat) (a : Arc) : Prop :=
  a.inhib = false → ∀ pt ∈ N.producers a.place, iSkipProd N a pt = true ∨ pt ∈ seen

theorem IDone.mono {N : RNet} {l l' : List Nat} (h : ∀ t ∈ l, t ∈ l') {a : Arc} (ha : IDone N l a) : IDone N l' a :=
  fun hi pt hp => (ha hi pt hp).imp_right (h pt)

/-- More seen, and what is new is on the stack. -/
structure IExt (s s' : List Nat × List Nat) : Prop where
  seen : ∀ t ∈ s.1, t ∈ s'.1
  new : ∀ t ∈ s'.1, t ∈ s.1 ∨ t ∈ s'.2
  stack : ∀ t ∈ s.2, t ∈ s'.2

theorem IExt.refl (s : List Nat × List Nat) : IExt s s := ⟨fun _ h => h, fun _ h => Or.inl h, fun _ h => h⟩

theorem IExt.trans {s s' s'' : List Nat × List Nat} (h : IExt s s') (h' : IExt s' s'') : IExt s s'' :=
  ⟨fun t ht => h'.seen t (h.seen t ht), fun t ht => by
    rcases h'.new t ht with h1 | h1
    · rcases h.new t h1 with h2 | h2
      · exact Or.inl h2
      · exact Or.inr (h'.stack t h2)
    · exact Or.inr h1, fun t ht => h'.stack t (h.stack t ht)⟩

theorem iPush_ext (ts : List Nat) (s : List Nat × List Nat) : IExt s (iPush ts s) := by
  obtain ⟨h1, h2, h3⟩ := iPush_spec ts s
  exact ⟨fun t ht => (h1 t).2 (Or.inl ht), h2, h3⟩

theorem iArc_spec (Q : Nat → Bool) (rc : Bool) (N : RNet) (a : Arc) (s : List Nat × List Nat) :
    IExt s (iArc Q rc N a s) ∧ IDone N (iArc Q rc N a s).1 a := by
  unfold iArc
  cases hi : a.inhib with
  | true => exact ⟨iPush_ext _ _, fun h => (by rw [hi] at h; cases h)⟩
  | false =>
    simp only [Bool.false_eq_true, if_false]
    have h1 : IDone N (iPush ((N.producers a.place).filter fun pt => !iSkipProd N a pt) s).1 a := by
      intro _ pt hp
      cases hk : iSkipProd N a pt with
      | true => exact Or.inl rfl
      | false => exact Or.inr (((iPush_spec _ _).1 pt).2 (Or.inr (List.mem_filter.2 ⟨hp, by simp [hk]⟩)))
    split
    · exact ⟨(iPush_ext _ _).trans (iPush_ext _ _), h1.mono (iPush_ext _ _).seen⟩
    · exact ⟨iPush_ext _ _, h1⟩

theorem iArcs_spec (Q : Nat → Bool) (rc : Bool) (N : RNet) (l : List Arc) : ∀ s,
    IExt s (l.foldl (fun s a => iArc Q rc N a s) s) ∧
      ∀ a ∈ l, IDone N (l.foldl (fun s a => iArc Q rc N a s) s).1 a := by
  induction l with
  | nil => intro s; exact ⟨IExt.refl s, by simp⟩
  | cons a l ih =>
    intro s
    obtain ⟨h1, h2⟩ := iArc_spec Q rc N a s
    obtain ⟨i1, i2⟩ := ih (iArc Q rc N a s)
    refine ⟨h1.trans i1, fun b hb => ?_⟩
    rcases List.mem_cons.1 hb with rfl | hb
    · exact h2.mono i1.seen
    · exact i2 b hb

theorem iLoop_spec {Q : Nat → Bool} {rc : Bool} {N : RNet} : ∀ (fuel : Nat) (s : List Nat × List Nat) (r : List Nat),
    (∀ t ∈ s.1, t ∈ s.2 ∨ ∀ a ∈ (N.tr t).pre, IDone N s.1 a) → iLoop Q rc N fuel s = some r →
    (∀ t ∈ s.1, t ∈ r) ∧ ∀ t ∈ r, ∀ a ∈ (N.tr t).pre, IDone N r a := by
  intro fuel
  induction fuel with
  | zero => intro s r _ h; cases h
  | succ fuel ih =>
    intro s r hs h
    unfold iLoop at h
    cases hst : s.2 with
    | nil =>
      rw [hst] at h
      simp only [Option.some.injEq] at h
      subst h
      refine ⟨fun _ h => h, fun t ht => ?_⟩
      rcases hs t ht with h1 | h1
      · rw [hst] at h1; cases h1
      · exact h1
    | cons t st =>
      rw [hst] at h
      simp only at h
      obtain ⟨e1, e2⟩ := iArcs_spec Q rc N (N.tr t).pre (s.1, st)
      obtain ⟨i1, i2⟩ := ih _ r (by
        intro i hi
        rcases e1.new i hi with h1 | h1
        · by_cases hit : i = t
          · subst hit; exact Or.inr e2
          · rcases hs i h1 with h2 | h2
            · rw [hst] at h2
              rcases List.mem_cons.1 h2 with h2 | h2
              · exact absurd h2 hit
              · exact Or.inl (e1.stack i h2)
            · exact Or.inr fun a ha => (h2 a ha).mono e1.seen
        · exact Or.inl h1) h
      exact ⟨fun i hi => i1 i (e1.seen i hi), i2⟩

theorem iSeeds_spec {Q : Nat → Bool} {N : RNet} : ∀ (l : List Nat) (s : List Nat × List Nat),
    IExt s (iSeeds Q N l s) ∧
      ∀ p ∈ l, Q p = true → ∀ t, t ∈ N.consumers p ∨ t ∈ N.producers p → t ∈ (iSeeds Q N l s).1 := by
  intro l
  induction l with
  | nil => intro s; exact ⟨IExt.refl s, by simp⟩
  | cons p l ih =>
    intro s
    unfold iSeeds
    by_cases hq : Q p = true
    · rw [if_pos hq]
      obtain ⟨i1, i2⟩ := ih (iPush (N.producers p) (iPush (N.consumers p) s))
      refine ⟨((iPush_ext _ _).trans (iPush_ext _ _)).trans i1, fun q hq' hQ t ht => ?_⟩
      rcases List.mem_cons.1 hq' with rfl | hq'
      · refine i1.seen t ?_
        rcases ht with ht | ht
        · exact (iPush_ext _ _).seen t (((iPush_spec _ _).1 t).2 (Or.inr ht))
        · exact ((iPush_spec _ _).1 t).2 (Or.inr ht)
      · exact i2 q hq' hQ t ht
    · rw [if_neg hq]
      obtain ⟨i1, i2⟩ := ih s
      refine ⟨i1, fun q hq' hQ t ht => ?_⟩
      rcases List.mem_cons.1 hq' with rfl | hq'
      · exact absurd hQ hq
      · exact i2 q hq' hQ t ht

theorem relevant_spec {Q : Nat → Bool} {rc : Bool} {N : RNet} {fuel : Nat} {r : List Nat}
    (h : relevant Q rc N fuel = some r) :
    (∀ p < N.np, Q p = true → ∀ t, t ∈ N.consumers p ∨ t ∈ N.producers p → t ∈ r) ∧
      ∀ t ∈ r, ∀ a ∈ (N.tr t).pre, IDone N r a := by
  unfold relevant at h
  obtain ⟨e1, e2⟩ := iSeeds_spec (Q := Q) (N := N) (List.range N.np) ([], [])
  obtain ⟨i1, i2⟩ := iLoop_spec fuel _ r (fun t ht => by
    rcases e1.new t ht with h1 | h1
    · cases h1
    · exact Or.inl h1) h
  exact ⟨fun p hp hQ t ht => i1 t (e2 p (List.mem_range.2 hp) hQ t ht), i2⟩

/-- What `skipTransition` makes of a transition. -/
def RTr.gone (x : RTr) : RTr := { x with pre := [], post := [], skip := true }

/-- A loop that removes transitions. -/
theorem sweep_skip {step : RNet → Nat → Option RNet} {c : Nat → Prop} [DecidablePred c]
    (hstep : ∀ N t, step N t = if c t ∧ (N.tr t).skip = false then some (N.skipTrans t) else none) :
    ∀ (l : List Nat) (N : RNet),
      (∀ t, (sweep step l N).1.tr t = if t ∈ l ∧ c t ∧ (N.tr t).skip = false
        then (N.tr t).gone else N.tr t) ∧
      (sweep step l N).1.init = N.init ∧ (sweep step l N).1.bad = N.bad ∧ (sweep step l N).1.np = N.np ∧
      (sweep step l N).1.nt = N.nt ∧ (sweep step l N).1.pskip = N.pskip ∧ (sweep step l N).1.pinhib = N.pinhib ∧
      (N.WF → (sweep step l N).1.WF) := by
  intro l
  induction l with
  | nil => intro N; exact ⟨fun t => by simp [sweep], rfl, rfl, rfl, rfl, rfl, rfl, fun h => h⟩
  | cons t l ih =>
    intro N
    unfold sweep
    by_cases hc : c t ∧ (N.tr t).skip = false
    · rw [hstep, if_pos hc]
      obtain ⟨i1, i2, i3, i4, i5, i6, i7, i8⟩ := ih (N.skipTrans t)
      refine ⟨fun i => ?_, i2, i3, i4, i5, i6, i7, fun hN => i8 (skipTrans_WF hN ?_ hc.2)⟩
      · simp only
        rw [i1, skipTrans_tr]
        by_cases hit : i = t
        · subst hit
          simp [hc, RTr.gone]
        · rw [if_neg hit]
          simp only [List.mem_cons, hit, false_or]
      · refine Nat.lt_of_not_le fun hle => ?_
        have := hN.out t hle
        rw [hc.2] at this; cases this
    · rw [hstep, if_neg hc]
      obtain ⟨i1, i2, i3, i4, i5, i6, i7, i8⟩ := ih N
      refine ⟨fun i => ?_, i2, i3, i4, i5, i6, i7, i8⟩
      simp only
      rw [i1]
      by_cases hit : i = t
      · subst hit
        simp [hc]
      · simp only [List.mem_cons, hit, false_or]

theorem ruleI_good {Q : Nat → Bool} {rc : Bool} {N : RNet} (lim : Nat) :
    Good Q N (ruleI Q rc lim N).1 := by
  unfold ruleI
  cases hr : relevant Q rc N lim with
  | none => exact Good.refl Q N
  | some seen =>
    simp only
    obtain ⟨r1, r2⟩ := relevant_spec hr
    obtain ⟨s1, s2, s3, s4, s5, s6, s7, s8⟩ := sweep_skip (step := iTrans seen) (c := fun t => t ∉ seen)
      (fun N t => rfl) (List.range N.nt) (N.flag (iBad N seen))
    have hbad2 : ∀ (l : List Nat) (M : RNet), (sweep (iPlace Q (iPseen N seen)) l M).1.bad = M.bad := by
      intro l M
      refine sweep_bad (fun A c A' h => ?_) l M
      unfold iPlace at h
      split at h
      · cases h; rfl
      · cases h
    refine Good.flag (b := iBad N seen) ((hbad2 _ _).trans s3) fun hb hN => ?_
    have hW := s8 (flag_WF hN _)
    generalize (sweep (iTrans seen) (List.range N.nt) (N.flag (iBad N seen))).1 = N1 at *
    have htr : ∀ t, N1.tr t = if t ∉ seen ∧ (N.tr t).skip = false
        then (N.tr t).gone else N.tr t := by
      intro t
      rw [s1]
      show (if t ∈ List.range N.nt ∧ t ∉ seen ∧ (N.tr t).skip = false then (N.tr t).gone else N.tr t) = _
      by_cases ht : t < N.nt
      · simp [ht]
      · have : (N.tr t).skip = true := hN.out t (by omega)
        simp [this]
    have hinh : ∀ t ∈ seen, ∀ a ∈ (N.tr t).pre, a.inhib = true → ∀ pt, pt ∉ seen →
        (N.tr pt).I a.place ≤ (N.tr pt).O a.place := by
      intro t ht a ha hi pt hpt
      refine Nat.le_of_not_lt fun hlt => ?_
      obtain ⟨c, hc, hcp, hci, hcw⟩ := RTr.I_mem (x := N.tr pt) (p := a.place) (by omega)
      have hlt' : pt < N.nt := (consumers_live hN ((mem_consumers hN).2 ⟨c, hc, rfl⟩)).2
      have : iBad N seen = true := by
        unfold iBad
        simp only [List.any_eq_true, Bool.and_eq_true, decide_eq_true_eq, List.mem_range]
        refine ⟨t, ht, a, ha, hi, pt, hlt', hpt, ?_⟩
        rw [← hcp, arcAt_of_mem (hN.preS pt) hc]
        simp only [hci, Bool.not_false, Bool.true_and, decide_eq_true_eq]
        rw [hcp, hcw]
        exact hlt
      rw [hb] at this; cases this
    have hprod : ∀ t ∈ seen, ∀ a ∈ (N.tr t).pre, a.inhib = false → ∀ pt, pt ∉ seen →
        (N.tr pt).O a.place ≤ (N.tr pt).I a.place := by
      intro t ht a ha hi pt hpt
      by_cases h0 : (N.tr pt).O a.place = 0
      · omega
      · obtain ⟨b, hb', hbp, hbw⟩ := mem_of_wAt_pos (l := (N.tr pt).post) (p := a.place) (by unfold RTr.O at h0; omega)
        rcases r2 t ht a ha hi pt ((mem_producers hN).2 ⟨b, hb', hbp⟩) with h1 | h1
        · unfold iSkipProd at h1
          cases hc : arcAt (N.tr pt).pre a.place with
          | none => rw [hc] at h1; cases h1
          | some c =>
            cases hd : arcAt (N.tr pt).post a.place with
            | none => rw [hc, hd] at h1; cases h1
            | some d =>
              rw [hc, hd] at h1
              simp only [Bool.and_eq_true, Bool.not_eq_true', decide_eq_true_eq] at h1
              unfold RTr.O RTr.I
              rw [hc, wAt_of_arcAt hd]
              simp only [h1.1, Bool.false_eq_true, if_false]
              exact h1.2
        · exact absurd h1 hpt
    have hQeff : ∀ p, Q p = true → ∀ pt, pt ∉ seen → (N.tr pt).I p = 0 ∧ (N.tr pt).O p = 0 := by
      intro p hp pt hpt
      by_cases hlt : p < N.np
      · exact ⟨RTr.I_none (arcAt_none_of_not_consumer hN fun hc => hpt (r1 p hlt hp pt (Or.inl hc))),
          wAt_none (arcAt_none_of_not_producer hN fun hc => hpt (r1 p hlt hp pt (Or.inr hc)))⟩
      · exact ⟨RTr.I_none (arcAt_none.2 fun a ha hap => hlt (by rw [← hap]; exact ((hN.tr pt).preP a ha).1)),
          wAt_none (arcAt_none.2 fun a ha hap => hlt (by rw [← hap]; exact ((hN.tr pt).postP a ha).1))⟩
    have hen1 : ∀ t m, (N1.tr t).En m → t ∈ seen ∧ N1.tr t = N.tr t := by
      intro t m hen
      have h0 := hen.1
      rw [htr] at h0
      by_cases hc : t ∉ seen ∧ (N.tr t).skip = false
      · rw [if_pos hc] at h0; cases h0
      · rw [if_neg hc] at h0
        have hts : t ∈ seen := by
          refine Decidable.of_not_not fun hn => hc ⟨hn, h0⟩
        exact ⟨hts, by rw [htr, if_neg hc]⟩
    have hsame : Same Q N N1 := by
      refine Same.of_sims
        (fun m m' => (∀ p, Q p = true → m' p = m p) ∧
          (∀ p, (∃ t ∈ seen, ∃ a ∈ (N.tr t).pre, a.place = p ∧ a.inhib = false) → m p ≤ m' p) ∧
          (∀ p, (∃ t ∈ seen, ∃ a ∈ (N.tr t).pre, a.place = p ∧ a.inhib = true) → m' p ≤ m p))
        (fun m' m => m' = m) ⟨N1.init, .refl, ?_⟩ ⟨N.init, .refl, s2⟩ ?_ ?_ (fun _ _ h => h.1) ?_
      · rw [s2]
        exact ⟨fun _ _ => rfl, fun _ _ => Nat.le_refl _, fun _ _ => Nat.le_refl _⟩
      · rintro m m' m1 ⟨h1, h2, h3⟩ ⟨t, ht, rfl⟩
        by_cases hts : t ∈ seen
        · have he : N1.tr t = N.tr t := by rw [htr, if_neg (fun hc => hc.1 hts)]
          have hle : ∀ p, (N.tr t).I p ≤ m' p := by
            intro p
            by_cases h0 : (N.tr t).I p = 0
            · omega
            · obtain ⟨a, ha, hap, hai, _⟩ := RTr.I_mem (x := N.tr t) (p := p) (by omega)
              exact Nat.le_trans (ht.2.1 p) (h2 p ⟨t, hts, a, ha, hap, hai⟩)
          refine ⟨(N.tr t).fire m', .single ⟨t, ?_, by rw [he]⟩, fun p hp => ?_, fun p hp => ?_, fun p hp => ?_⟩
          · rw [he]
            exact ⟨ht.1, hle, fun a ha hi => Nat.lt_of_le_of_lt (h3 _ ⟨t, hts, a, ha, rfl, hi⟩) (ht.2.2 a ha hi)⟩
          · unfold RTr.fire; rw [h1 p hp]
          · have := h2 p hp
            unfold RTr.fire; omega
          · have := h3 p hp
            unfold RTr.fire; omega
        · refine ⟨m', .refl, fun p hp => ?_, fun p hp => ?_, fun p hp => ?_⟩
          · obtain ⟨e1, e2⟩ := hQeff p hp t hts
            unfold RTr.fire
            rw [e1, e2, h1 p hp]; rfl
          · have h4 := h2 p hp
            obtain ⟨s, hs, a, ha, rfl, hi⟩ := hp
            have := hprod s hs a ha hi t hts
            have := ht.2.1 a.place
            unfold RTr.fire; omega
          · have h4 := h3 p hp
            obtain ⟨s, hs, a, ha, rfl, hi⟩ := hp
            have := hinh s hs a ha hi t hts
            unfold RTr.fire; omega
      · rintro m' m m1' rfl ⟨t, ht, rfl⟩
        obtain ⟨_, he⟩ := hen1 t _ ht
        rw [he] at ht ⊢
        exact ⟨_, .single ⟨t, ht, rfl⟩, rfl⟩
      · rintro m' m rfl p _
        rfl
    have hpl : ∀ (l : List Nat) (M : RNet), M.WF → (∀ t, ∀ a ∈ (M.tr t).pre, iPseen N seen a.place = true) →
        Fine Q M (sweep (iPlace Q (iPseen N seen)) l M).1 := by
      intro l
      induction l with
      | nil => intro M hM _; exact Fine.refl hM
      | cons p l ih =>
        intro M hM hps
        unfold sweep
        by_cases hc : iPseen N seen p = false ∧ M.pskip p = false ∧ Q p = false
        · have : iPlace Q (iPseen N seen) M p = some (M.skipPlace p) := by unfold iPlace; rw [if_pos hc]
          rw [this]
          refine Fine.trans ⟨skipPlace_WF hM p, ?_⟩ (ih (M.skipPlace p) (skipPlace_WF hM p) fun t a ha => ?_)
          · refine skipPlace_same hM hc.2.2 (fun _ => True) trivial (fun _ _ _ _ => trivial) fun m _ t _ a ha hap => ?_
            have := hps t a ha
            rw [hap, hc.1] at this; cases this
          · exact hps t a (mem_dropArc.1 ha).1
        · have : iPlace Q (iPseen N seen) M p = none := by unfold iPlace; rw [if_neg hc]
          rw [this]
          exact ih M hM hps
    refine Fine.trans ⟨hW, hsame⟩ (hpl _ N1 hW fun t a ha => ?_)
    have hl : (N1.tr t).skip = false := (consumers_live hW ((mem_consumers hW).2 ⟨a, ha, rfl⟩)).1
    rw [htr] at ha hl
    by_cases hc : t ∉ seen ∧ (N.tr t).skip = false
    · rw [if_pos hc] at hl; cases hl
    · rw [if_neg hc] at ha hl
      have hts : t ∈ seen := Decidable.of_not_not fun hn => hc ⟨hn, hl⟩
      unfold iPseen
      simp only [List.any_eq_true]
      exact ⟨t, hts, a, ha, by simp⟩

end Reduce
end Verif
