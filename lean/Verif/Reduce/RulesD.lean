import Verif.Reduce.RulesF

/-!
# Rule D
-/

namespace Verif
namespace Reduce

/-- A transition fired `k` times in a row. -/
theorem iter_reach {N : RNet} {t : Nat} (hs : (N.tr t).skip = false) (hno : ∀ m, (N.tr t).NoInh m) :
    ∀ (k : Nat) (m : Nat → Nat), (∀ p, k * (N.tr t).I p ≤ m p) →
      N.Reach m (fun p => m p - k * (N.tr t).I p + k * (N.tr t).O p) := by
  intro k
  induction k with
  | zero =>
    intro m _
    have : (fun p => m p - 0 * (N.tr t).I p + 0 * (N.tr t).O p) = m := by funext p; simp
    rw [this]; exact .refl
  | succ k ih =>
    intro m hm
    have hm' : ∀ p, k * (N.tr t).I p + (N.tr t).I p ≤ m p := fun p => by have := hm p; rwa [Nat.succ_mul] at this
    have h1 := ih m (fun p => by have := hm' p; omega)
    refine h1.tail ⟨t, ⟨hs, fun p => ?_, hno _⟩, ?_⟩
    · have := hm' p; simp only; omega
    · funext p
      unfold RTr.fire
      have := hm' p
      simp only [Nat.succ_mul]
      omega

theorem dSkipPre_ok (Q : Nat → Bool) : ∀ (l : List (Option Arc × Option Arc)) (s : DState), (dSkipPre Q l s).ok = s.ok := by
  intro l
  induction l with
  | nil => intro s; rfl
  | cons x l ih =>
    intro s
    have : dSkipPre Q (x :: l) s = dSkipPre Q l (match x.2 with
      | some b => { s with preEq := s.preEq && !Q b.place, exact := false }
      | none => s) := rfl
    rw [this, ih]
    cases x.2 <;> rfl

theorem dSkipPost_ok (Q : Nat → Bool) : ∀ (l : List (Option Arc × Option Arc)) (s : DState), (dSkipPost Q l s).ok = s.ok := by
  intro l
  induction l with
  | nil => intro s; rfl
  | cons x l ih =>
    intro s
    have : dSkipPost Q (x :: l) s = dSkipPost Q l (match x.2 with
      | some b => { s with postEq := s.postEq && !Q b.place, exact := false }
      | none => s) := rfl
    rw [this, ih]
    cases x.2 <;> rfl

/-- What the comparison of the presets establishes. -/
theorem dPre_spec (Q : Nat → Bool) : ∀ (l : List (Option Arc × Option Arc)) (s : DState),
    (∀ x ∈ l, ∀ a, x.1 = some a → 0 < a.weight) → (∀ k, s.mult = some k → 0 < k) →
    (dPre Q l s).preEq = true → (dPre Q l s).ok = 0 →
    s.preEq = true ∧ (∀ k, s.mult = some k → ∃ k', (dPre Q l s).mult = some k' ∧ k' ≤ k) ∧
      (∀ k, (dPre Q l s).mult = some k → 0 < k) ∧
      ∀ x ∈ l, (x.1 = none ∧ ∀ b, x.2 = some b → Q b.place = false) ∨
        (∃ a b, x = (some a, some b) ∧ ∃ k, (dPre Q l s).mult = some k ∧ k * a.weight ≤ b.weight ∧
          (Q b.place = true → k * a.weight = b.weight)) := by
  intro l
  induction l with
  | nil =>
    intro s _ hs h1 _
    exact ⟨h1, fun k hk => ⟨k, hk, Nat.le_refl _⟩, hs, fun x hx => by cases hx⟩
  | cons x l ih =>
    intro s hl hs h1 h2
    have hl' : ∀ x ∈ l, ∀ a, x.1 = some a → 0 < a.weight := fun x hx => hl x (by simp [hx])
    obtain ⟨oa, ob⟩ := x
    cases oa with
    | none =>
      cases ob with
      | none =>
        simp only [dPre] at h1 h2 ⊢
        obtain ⟨a1, a2, a3, a4⟩ := ih s hl' hs h1 h2
        refine ⟨a1, a2, a3, fun x hx => ?_⟩
        rcases List.mem_cons.1 hx with rfl | hx
        · exact Or.inl ⟨rfl, fun b hb => by cases hb⟩
        · exact a4 x hx
      | some b =>
        simp only [dPre] at h1 h2 ⊢
        obtain ⟨a1, a2, a3, a4⟩ := ih { s with preEq := s.preEq && !Q b.place, exact := false } hl' hs h1 h2
        simp only [Bool.and_eq_true, Bool.not_eq_true'] at a1
        refine ⟨a1.1, a2, a3, fun x hx => ?_⟩
        rcases List.mem_cons.1 hx with rfl | hx
        · exact Or.inl ⟨rfl, fun c hc => by cases hc; exact a1.2⟩
        · exact a4 x hx
    | some a =>
      cases ob with
      | none =>
        simp only [dPre] at h2
        rw [dSkipPre_ok] at h2; cases h2
      | some b =>
        have haw := hl (some a, some b) (by simp) a rfl
        by_cases hw : b.weight < a.weight
        · simp only [dPre, if_pos hw] at h2
          rw [dSkipPre_ok] at h2; cases h2
        · simp only [dPre, if_neg hw] at h1 h2 ⊢
          generalize hmu : min (b.weight / a.weight) (s.mult.getD (b.weight / a.weight)) = mu at h1 h2 ⊢
          have hdp : 0 < b.weight / a.weight := Nat.div_pos (by omega) haw
          have hmu0 : 0 < mu := by
            rw [← hmu]
            cases hsm : s.mult with
            | none => simpa using hdp
            | some k => have := hs k hsm; simp only [Option.getD_some]; omega
          have hmud : mu ≤ b.weight / a.weight := by rw [← hmu]; omega
          have hmuk : ∀ k, s.mult = some k → mu ≤ k := by
            intro k hk; rw [← hmu, hk]; simp only [Option.getD_some]; omega
          split at h1
          case isFalse hf => exact absurd h1 (by simpa using hf)
          case isTrue hpe =>
            simp only [hpe, if_true] at h1 h2 ⊢
            have hmult : ∀ k : Nat, some mu = some k → 0 < k := by intro k hk; cases hk; exact hmu0
            obtain ⟨_, a2, a3, a4⟩ := ih _ hl' hmult h1 h2
            obtain ⟨k', hk', hle⟩ := a2 mu rfl
            have hk'0 := a3 k' hk'
            simp only [Bool.and_eq_true, Bool.or_eq_true, Bool.not_eq_true', decide_eq_true_eq] at hpe
            refine ⟨hpe.1.1, fun k hk => ⟨k', hk', by have := hmuk k hk; omega⟩, a3, fun x hx => ?_⟩
            rcases List.mem_cons.1 hx with rfl | hx
            · refine Or.inr ⟨a, b, rfl, k', hk', ?_, fun hq => ?_⟩
              · calc k' * a.weight ≤ (b.weight / a.weight) * a.weight := Nat.mul_le_mul_right _ (by omega)
                  _ ≤ b.weight := Nat.div_mul_le_self _ _
              · have h5 : a.weight = b.weight * mu := by
                  rcases hpe.2 with h | h
                  · rw [h] at hq; cases hq
                  · exact h
                have h6 : b.weight * 1 ≤ b.weight * mu := Nat.mul_le_mul_left _ hmu0
                have h7 : mu = 1 := by
                  rcases Nat.lt_or_ge 1 mu with h | h
                  · have : b.weight * 2 ≤ b.weight * mu := Nat.mul_le_mul_left _ h
                    omega
                  · omega
                have h8 : k' = 1 := by omega
                subst h7 h8
                omega
            · exact a4 x hx

/-- What the comparison of the postsets establishes. -/
theorem dPost_spec (Q : Nat → Bool) (k : Nat) : ∀ (l : List (Option Arc × Option Arc)) (s : DState),
    (dPost Q k l s).postEq = true → (dPost Q k l s).ok = 0 →
    s.postEq = true ∧
      ∀ x ∈ l, (x.1 = none ∧ ∀ a, x.2 = some a → Q a.place = false) ∨
        (∃ b a, x = (some b, some a) ∧ b.weight ≤ k * a.weight ∧ (Q b.place = true → k * a.weight = b.weight)) := by
  intro l
  induction l with
  | nil =>
    intro s h1 _
    exact ⟨h1, fun x hx => by cases hx⟩
  | cons x l ih =>
    intro s h1 h2
    obtain ⟨ob, oa⟩ := x
    cases ob with
    | none =>
      cases oa with
      | none =>
        simp only [dPost] at h1 h2 ⊢
        obtain ⟨a1, a4⟩ := ih s h1 h2
        refine ⟨a1, fun x hx => ?_⟩
        rcases List.mem_cons.1 hx with rfl | hx
        · exact Or.inl ⟨rfl, fun b hb => by cases hb⟩
        · exact a4 x hx
      | some a =>
        simp only [dPost] at h1 h2 ⊢
        obtain ⟨a1, a4⟩ := ih { s with postEq := s.postEq && !Q a.place, exact := false } h1 h2
        simp only [Bool.and_eq_true, Bool.not_eq_true'] at a1
        refine ⟨a1.1, fun x hx => ?_⟩
        rcases List.mem_cons.1 hx with rfl | hx
        · exact Or.inl ⟨rfl, fun c hc => by cases hc; exact a1.2⟩
        · exact a4 x hx
    | some b =>
      cases oa with
      | none =>
        simp only [dPost] at h2
        rw [dSkipPost_ok] at h2; cases h2
      | some a =>
        by_cases hw : a.weight * k < b.weight
        · simp only [dPost, if_pos hw] at h2
          rw [dSkipPost_ok] at h2; cases h2
        · simp only [dPost, if_neg hw] at h1 h2 ⊢
          split at h1
          case isFalse hf => exact absurd h1 (by simpa using hf)
          case isTrue hpe =>
            simp only [hpe, if_true] at h1 h2 ⊢
            obtain ⟨_, a4⟩ := ih _ h1 h2
            simp only [Bool.and_eq_true, Bool.or_eq_true, Bool.not_eq_true', decide_eq_true_eq] at hpe
            refine ⟨hpe.1, fun x hx => ?_⟩
            rcases List.mem_cons.1 hx with rfl | hx
            · refine Or.inr ⟨b, a, rfl, by rw [Nat.mul_comm]; omega, fun hq => ?_⟩
              rcases hpe.2 with h | h
              · rw [h] at hq; cases hq
              · rw [Nat.mul_comm]; exact h
            · exact a4 x hx

theorem dPre_ok_le (Q : Nat → Bool) : ∀ (l : List (Option Arc × Option Arc)) (s : DState), s.ok ≤ 1 → (dPre Q l s).ok ≤ 1 := by
  intro l
  induction l with
  | nil => intro s hs; exact hs
  | cons x l ih =>
    intro s hs
    obtain ⟨oa, ob⟩ := x
    cases oa with
    | none =>
      cases ob with
      | none => exact ih s hs
      | some b => exact ih _ hs
    | some a =>
      cases ob with
      | none => simp only [dPre]; rw [dSkipPre_ok]; exact Nat.le_refl _
      | some b =>
        simp only [dPre]
        split
        · rw [dSkipPre_ok]; exact Nat.le_refl _
        · split
          · exact ih _ hs
          · exact hs

theorem dPost_ok_le (Q : Nat → Bool) (k : Nat) :
    ∀ (l : List (Option Arc × Option Arc)) (s : DState), s.ok ≤ 2 → (dPost Q k l s).ok ≤ 2 := by
  intro l
  induction l with
  | nil => intro s hs; exact hs
  | cons x l ih =>
    intro s hs
    obtain ⟨oa, ob⟩ := x
    cases oa with
    | none =>
      cases ob with
      | none => exact ih s hs
      | some b => exact ih _ hs
    | some a =>
      cases ob with
      | none => simp only [dPost]; rw [dSkipPost_ok]; exact (by omega : 1 ≤ 2)
      | some b =>
        simp only [dPost]
        split
        · rw [dSkipPost_ok]; exact Nat.le_refl _
        · split
          · exact ih _ hs
          · exact hs

theorem dTry_cond {Q : Nat → Bool} {ar nb : Bool} {x1 x2 : RTr} {r r' : DState}
    (hr : dPre Q (mergeArcs x1.pre x2.pre) {} = r)
    (hr' : dPost Q (r.mult.getD 4294967295) (mergeArcs x2.post x1.post) { r with ok := 0 } = r')
    (h : dTry Q ar nb x1 x2 = .remove) : r.preEq = true ∧ r.ok = 0 ∧ r'.postEq = true ∧ r'.ok = 0 := by
  have h1 : r.ok ≤ 1 := hr ▸ dPre_ok_le Q _ _ (Nat.zero_le _)
  have h2 : r'.ok ≤ 2 := hr' ▸ dPost_ok_le Q _ _ _ (Nat.zero_le _)
  unfold dTry at h
  simp only [hr, hr'] at h
  clear hr hr'
  generalize (4294967295 : Nat) = big at *
  have skel : ∀ (c : Prop) [Decidable c] (a b : DOut), (if c then a else b) = .remove → a ≠ .remove →
      ¬ c ∧ b = .remove := by
    intro c _ a b hc ha
    by_cases hcc : c
    · rw [if_pos hcc] at hc; exact absurd hc ha
    · rw [if_neg hcc] at hc; exact ⟨hcc, hc⟩
  obtain ⟨_, h⟩ := skel _ _ _ h (by decide)
  obtain ⟨_, h⟩ := skel _ _ _ h (by decide)
  obtain ⟨_, h⟩ := skel _ _ _ h (by decide)
  obtain ⟨b1, h⟩ := skel _ _ _ h (by decide)
  obtain ⟨b2, h⟩ := skel _ _ _ h (by decide)
  obtain ⟨b3, h⟩ := skel _ _ _ h (by decide)
  obtain ⟨_, h⟩ := skel _ _ _ h (by decide)
  obtain ⟨_, h⟩ := skel _ _ _ h (by decide)
  obtain ⟨b4, h⟩ := skel _ _ _ h (by decide)
  obtain ⟨b5, h⟩ := skel _ _ _ h (by decide)
  obtain ⟨b6, h⟩ := skel _ _ _ h (by decide)
  exact ⟨by simpa using b1, by omega, by simpa using b4, by omega⟩

/-- When `dTry` removes `x2`, firing `x1` some number of times does as well. -/
theorem dTry_spec {Q : Nat → Bool} {ar nb : Bool} {x1 x2 : RTr} (h1S : Sorted x1.pre) (h2S : Sorted x2.pre)
    (h1O : Sorted x1.post) (h2O : Sorted x2.post) (hW : ∀ a ∈ x1.pre, 0 < a.weight) (hne : x1.pre ≠ [])
    (h : dTry Q ar nb x1 x2 = .remove) :
    ∃ k, (dPre Q (mergeArcs x1.pre x2.pre) {}).mult = some k ∧
      (∀ p, k * wAt x1.pre p ≤ wAt x2.pre p ∧ (Q p = true → k * wAt x1.pre p = wAt x2.pre p)) ∧
      (∀ p, wAt x2.post p ≤ k * wAt x1.post p ∧ (Q p = true → k * wAt x1.post p = wAt x2.post p)) := by
  generalize hr : dPre Q (mergeArcs x1.pre x2.pre) {} = r at *
  generalize hr' : dPost Q (r.mult.getD 4294967295) (mergeArcs x2.post x1.post) { r with ok := 0 } = r'
  obtain ⟨hpe, hok, hpe', hok'⟩ := dTry_cond hr hr' h
  have hpos : ∀ x ∈ mergeArcs x1.pre x2.pre, ∀ a, x.1 = some a → 0 < a.weight := by
    intro x hx a hxa
    obtain ⟨p, hxe, _⟩ := (mergeArcs_mem h1S h2S).1 x hx
    subst hxe
    exact hW a (arcAt_mem hxa).1
  have hS := dPre_spec Q (mergeArcs x1.pre x2.pre) {} hpos (fun k hk => by cases hk)
    (by rw [hr]; exact hpe) (by rw [hr]; exact hok)
  rw [hr] at hS
  obtain ⟨_, _, hk0, hpre⟩ := hS
  obtain ⟨a0, ha0⟩ := List.exists_mem_of_ne_nil _ hne
  obtain ⟨k, hk⟩ : ∃ k, r.mult = some k := by
    have hm := (mergeArcs_mem h1S h2S).2 a0.place (by rw [arcAt_of_mem h1S ha0]; simp)
    rcases hpre _ hm with ⟨h3, _⟩ | ⟨a, b, _, k, hk, _⟩
    · simp only [arcAt_of_mem h1S ha0] at h3; cases h3
    · exact ⟨k, hk⟩
  refine ⟨k, hk, fun p => ?_, ?_⟩
  · by_cases hn : (arcAt x1.pre p, arcAt x2.pre p) = (none, none)
    · simp only [Prod.mk.injEq] at hn
      rw [wAt_none hn.1, wAt_none hn.2]; simp
    · rcases hpre _ ((mergeArcs_mem h1S h2S).2 p hn) with ⟨h3, h4⟩ | ⟨a, b, he, k', hk', h5, h6⟩
      · simp only at h3 h4
        rw [wAt_none h3]
        refine ⟨by simp, fun hq => ?_⟩
        cases hb : arcAt x2.pre p with
        | none => rw [wAt_none hb]; rfl
        | some b =>
          have := h4 b hb
          rw [(arcAt_mem hb).2, hq] at this; cases this
      · simp only [Prod.mk.injEq] at he
        rw [hk] at hk'; cases hk'
        rw [wAt_of_arcAt he.1, wAt_of_arcAt he.2]
        refine ⟨h5, fun hq => h6 ?_⟩
        rw [(arcAt_mem he.2).2]; exact hq
  · rw [show r.mult.getD 4294967295 = k by rw [hk]; rfl] at hr'
    have hpost := (dPost_spec Q k (mergeArcs x2.post x1.post) { r with ok := 0 }
      (by rw [hr']; exact hpe') (by rw [hr']; exact hok')).2
    intro p
    by_cases hn : (arcAt x2.post p, arcAt x1.post p) = (none, none)
    · simp only [Prod.mk.injEq] at hn
      rw [wAt_none hn.1, wAt_none hn.2]; simp
    · rcases hpost _ ((mergeArcs_mem h2O h1O).2 p hn) with ⟨h3, h4⟩ | ⟨b, a, he, h5, h6⟩
      · simp only at h3 h4
        rw [wAt_none h3]
        refine ⟨by simp, fun hq => ?_⟩
        cases hb : arcAt x1.post p with
        | none => rw [wAt_none hb]; simp
        | some b =>
          have := h4 b hb
          rw [(arcAt_mem hb).2, hq] at this; cases this
      · simp only [Prod.mk.injEq] at he
        rw [wAt_of_arcAt he.1, wAt_of_arcAt he.2]
        refine ⟨h5, fun hq => h6 ?_⟩
        rw [(arcAt_mem he.1).2]; exact hq

/-- Removing `t2` when firing `t1` a few times does as well. -/
theorem d_fine {Q : Nat → Bool} {N : RNet} (hN : N.WF) {t1 t2 k : Nat} (hne : t1 ≠ t2) (h1 : (N.tr t1).skip = false)
    (h2 : (N.tr t2).skip = false) (i1 : (N.tr t1).inhib = false) (i2 : (N.tr t2).inhib = false)
    (hpre : ∀ p, k * wAt (N.tr t1).pre p ≤ wAt (N.tr t2).pre p ∧
      (Q p = true → k * wAt (N.tr t1).pre p = wAt (N.tr t2).pre p))
    (hpost : ∀ p, wAt (N.tr t2).post p ≤ k * wAt (N.tr t1).post p ∧
      (Q p = true → k * wAt (N.tr t1).post p = wAt (N.tr t2).post p))
    (hinh : ∀ p, N.pinhib p = true → wAt (N.tr t2).pre p = k * wAt (N.tr t1).pre p ∧
      wAt (N.tr t2).post p = k * wAt (N.tr t1).post p) : Fine Q N (N.skipTrans t2) := by
  have ht2 : t2 < N.nt := Nat.lt_of_not_le fun h => by rw [hN.out _ h] at h2; cases h2
  refine skipTrans_fine_dom hN ht2 h2 fun m m' hd hen => ?_
  have e1 : (N.skipTrans t2).tr t1 = N.tr t1 := by rw [skipTrans_tr, if_neg hne]
  have hI1 : ∀ p, (N.tr t1).I p = wAt (N.tr t1).pre p := RTr.I_eq_wAt ((hN.tr t1).noInh i1)
  have hI2 : ∀ p, (N.tr t2).I p = wAt (N.tr t2).pre p := RTr.I_eq_wAt ((hN.tr t2).noInh i2)
  have hno : ∀ m, (N.tr t1).NoInh m := fun m a ha hi => by
    rw [(hN.tr t1).noInh i1 a ha] at hi; cases hi
  have hr := iter_reach (N := N.skipTrans t2) (t := t1) (by rw [e1]; exact h1) (by rw [e1]; exact hno) k m' (fun p => by
    rw [e1, hI1]
    have h3 := (hpre p).1
    have h4 := hen.2.1 p
    have h5 := (hd p).1
    rw [hI2] at h4
    omega)
  refine ⟨_, hr, fun p => ?_⟩
  rw [e1, hI1]
  unfold RTr.fire
  rw [hI2]
  have h3 := hpre p
  have h4 := hen.2.1 p
  rw [hI2] at h4
  have h5 := hd p
  have h6 := hpost p
  have h7 : (N.tr t1).O p = wAt (N.tr t1).post p := rfl
  have h8 : (N.tr t2).O p = wAt (N.tr t2).post p := rfl
  rw [h7, h8]
  refine ⟨by omega, fun hq => ?_⟩
  rw [h5.2 hq]
  rcases hq with hq | hq
  · rw [h3.2 hq, h6.2 hq]
  · obtain ⟨h9, h10⟩ := hinh p hq
    rw [← h9, ← h10]

theorem dPair_good {Q : Nat → Bool} {ar nb : Bool} {N : RNet} {p to ti t2 : Nat} (hne : to ≠ ti)
    (hto : to ∈ N.consumers p) (hti : ti ∈ N.consumers p)
    (h : dPair Q ar nb N to ti = some t2) : Good Q N (dRemove Q N to ti t2) ∧ (t2 = to ∨ t2 = ti) := by
  unfold dPair at h
  split at h
  · cases h
  rename_i hfl
  simp only [Bool.or_eq_true, not_or, Bool.not_eq_true] at hfl
  obtain ⟨⟨⟨so, si⟩, io⟩, ii⟩ := hfl
  have key : ∀ t1 t2', t1 ≠ t2' → t1 ∈ N.consumers p → (N.tr t1).skip = false → (N.tr t2').skip = false →
      (N.tr t1).inhib = false → (N.tr t2').inhib = false → dTry Q ar nb (N.tr t1) (N.tr t2') = .remove →
      Good Q N ((N.flag (dBad Q N (N.tr t1) (N.tr t2'))).skipTrans t2') := by
    intro t1 t2' hne h1 s1 s2 i1 i2 ht
    refine Good.flag (b := dBad Q N (N.tr t1) (N.tr t2')) rfl fun hbad hN => ?_
    have hn1 : (N.tr t1).pre ≠ [] := by
      obtain ⟨a, ha, _⟩ := (mem_consumers hN).1 h1
      intro he; rw [he] at ha; cases ha
    obtain ⟨k, hk, hpre, hpost⟩ := dTry_spec (hN.preS t1) (hN.preS t2') (hN.postS t1) (hN.postS t2') (hN.tr t1).preW hn1 ht
    refine d_fine (Q := Q) (N := N.flag (dBad Q N (N.tr t1) (N.tr t2'))) (flag_WF hN _) (k := k) hne s1 s2 i1 i2 hpre hpost ?_
    intro q hq
    unfold dBad at hbad
    rw [hk] at hbad
    simp only [List.any_eq_false, Option.getD_some] at hbad
    by_cases hm : ∃ a ∈ (N.tr t1).pre ++ (N.tr t2').pre ++ (N.tr t1).post ++ (N.tr t2').post, a.place = q
    · obtain ⟨a, ha, hap⟩ := hm
      have h3 := hbad a ha
      have hq' : N.pinhib q = true := hq
      rw [hap, hq'] at h3
      show wAt (N.tr t2').pre q = k * wAt (N.tr t1).pre q ∧ wAt (N.tr t2').post q = k * wAt (N.tr t1).post q
      simpa using h3
    · have hz : ∀ l : List Arc, (∀ a ∈ l, a ∈ (N.tr t1).pre ++ (N.tr t2').pre ++ (N.tr t1).post ++ (N.tr t2').post) →
          wAt l q = 0 := by
        intro l hl
        exact wAt_none (arcAt_none.2 fun a ha hap => hm ⟨a, hl a ha, hap⟩)
      show wAt (N.tr t2').pre q = k * wAt (N.tr t1).pre q ∧ wAt (N.tr t2').post q = k * wAt (N.tr t1).post q
      rw [hz (N.tr t2').pre (fun a ha => by simp [ha]), hz (N.tr t1).pre (fun a ha => by simp [ha]),
        hz (N.tr t2').post (fun a ha => by simp [ha]), hz (N.tr t1).post (fun a ha => by simp [ha])]
      simp
  split at h
  · rename_i ht
    obtain rfl := Option.some.inj h
    have h3 := key to ti hne hto so si io ii ht
    refine ⟨?_, Or.inr rfl⟩
    unfold dRemove
    rw [if_neg (Ne.symm hne)]; exact h3
  · cases h
  · split at h
    · rename_i ht
      obtain rfl := Option.some.inj h
      have h3 := key ti to (Ne.symm hne) hti si so ii io ht
      refine ⟨?_, Or.inl rfl⟩
      unfold dRemove
      rw [if_pos rfl]; exact h3
    · cases h

theorem skipTrans_consumers (N : RNet) (t p : Nat) :
    (N.skipTrans t).consumers p = (N.consumers p).filter (fun s => s != t) := by
  unfold RNet.consumers
  rw [List.filter_filter]
  apply List.filter_congr
  intro s _
  rw [skipTrans_tr]
  by_cases hs : s = t
  · subst hs; simp [arcAt]
  · simp [hs]

theorem filter_get {t b : Nat} (hb : b ≠ t) : ∀ (l : List Nat) (i : Nat), l[i]? = some b →
    ∃ j ≤ i, (l.filter (fun s => s != t))[j]? = some b := by
  intro l
  induction l with
  | nil => intro i h; simp at h
  | cons a l ih =>
    intro i h
    cases i with
    | zero =>
      simp only [List.getElem?_cons_zero, Option.some.injEq] at h
      subst h
      exact ⟨0, Nat.le_refl _, by simp [hb]⟩
    | succ i =>
      simp only [List.getElem?_cons_succ] at h
      obtain ⟨j, hj, he⟩ := ih i h
      by_cases hat : a = t
      · exact ⟨j, by omega, by simpa [hat] using he⟩
      · exact ⟨j + 1, by omega, by simpa [hat] using he⟩

theorem consumers_get {N : RNet} {p i j a b : Nat} (h : i < j) (ha : (N.consumers p)[i]? = some a)
    (hb : (N.consumers p)[j]? = some b) : a < b := by
  have hs : (N.consumers p).Pairwise (· < ·) := List.Pairwise.filter _ List.pairwise_lt_range
  obtain ⟨hi, rfl⟩ := List.getElem?_eq_some_iff.1 ha
  obtain ⟨hj, rfl⟩ := List.getElem?_eq_some_iff.1 hb
  exact List.pairwise_iff_getElem.1 hs i j hi hj h

theorem dInner_good {Q : Nat → Bool} {ar nb : Bool} (p to : Nat) : ∀ (fuel inner : Nat) (N : RNet),
    (∃ i < inner, (N.consumers p)[i]? = some to) → Good Q N (dInner Q ar nb p to fuel inner N).1 := by
  intro fuel
  induction fuel with
  | zero => intro inner N _; exact Good.refl Q N
  | succ fuel ih =>
    intro inner N hi
    unfold dInner
    cases ha : (N.consumers p)[inner]? with
    | none => exact Good.refl Q N
    | some ti =>
      simp only
      obtain ⟨i, hlt, hb⟩ := hi
      have hlt' := consumers_get hlt hb ha
      cases hp : dPair Q ar nb N to ti with
      | none => exact ih (inner + 1) N ⟨i, by omega, hb⟩
      | some t2 =>
        simp only
        obtain ⟨h1, h2⟩ := dPair_good (by omega) (List.mem_of_getElem? hb) (List.mem_of_getElem? ha) hp
        by_cases h3 : t2 = to
        · rw [if_pos h3]; exact h1
        · rw [if_neg h3]
          refine h1.trans (ih inner _ ?_)
          obtain ⟨j, hj, he⟩ := filter_get (t := t2) (b := to) (Ne.symm h3) _ i hb
          exact ⟨j, by omega, by rw [dRemove, skipTrans_consumers]; exact he⟩

theorem dOuter_good {Q : Nat → Bool} {ar nb : Bool} (p : Nat) : ∀ (fuel outer : Nat) (fl : List Nat) (N : RNet),
    Good Q N (dOuter Q ar nb p fuel outer fl N).1 := by
  intro fuel
  induction fuel with
  | zero => intro outer fl N; exact Good.refl Q N
  | succ fuel ih =>
    intro outer fl N
    unfold dOuter
    cases ha : (N.consumers p)[outer]? with
    | none => exact Good.refl Q N
    | some to =>
      simp only
      split
      · exact ih _ _ _
      · exact (dInner_good p to _ (outer + 1) N ⟨outer, by omega, ha⟩).trans (ih _ _ _)

theorem dEmpty_good {Q : Nat → Bool} : ∀ (ts : List Nat) (seen : Bool) (N : RNet), Good Q N (dEmpty ts seen N) := by
  intro ts
  induction ts with
  | nil => intro seen N; exact Good.refl Q N
  | cons t ts ih =>
    intro seen N
    unfold dEmpty
    split
    · rename_i he
      cases seen with
      | false => exact ih _ _
      | true =>
        rw [if_pos rfl]
        refine Good.trans (N' := N.skipTrans t) (Good.of rfl fun hN => ?_) (ih true (N.skipTrans t))
        have ht : t < N.nt := Nat.lt_of_not_le fun h => by
          have := hN.out _ h; rw [he.1] at this; cases this
        refine skipTrans_fine_dom hN ht he.1 fun m m' hd _ => ⟨m', .refl, ?_⟩
        have : (N.tr t).fire m = m := by
          funext p; unfold RTr.fire RTr.I RTr.O; rw [he.2.1, he.2.2]; simp [arcAt, wAt]
        rw [this]; exact hd
    · exact ih _ _

theorem ruleD_good {Q : Nat → Bool} {ar nb : Bool} {N : RNet} (lim : Nat) : Good Q N (ruleD Q ar nb lim N).1 := by
  unfold ruleD
  refine (dEmpty_good (List.range N.nt) false N).trans ?_
  have key : ∀ (ps : List Nat) (fl : List Nat) (N : RNet), Good Q N (dPlaces Q ar nb ps fl N).1 := by
    intro ps
    induction ps with
    | nil => intro fl N; exact Good.refl Q N
    | cons p ps ih =>
      intro fl N
      unfold dPlaces
      exact (dOuter_good p _ 0 fl N).trans (ih _ _)
  exact key _ _ _

end Reduce
end Verif
