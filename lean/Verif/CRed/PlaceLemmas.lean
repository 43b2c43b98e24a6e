import Verif.CRed.CoverLemmas

/-!
# Redundant places
-/

namespace Verif
namespace CRed
open CPN XCol

theorem redundantLoop_true {R : Red} {p : Nat} {ts : List Nat} (h : R.redundantLoop p ts = some true) :
    ∀ t ∈ ts, R.redundantFor p t = some true := by
  induction ts with
  | nil => intro t ht; cases ht
  | cons u ts ih =>
    rw [Red.redundantLoop] at h
    split at h
    · cases h
    · cases h
    · rename_i hc
      intro t ht
      rcases List.mem_cons.1 ht with rfl | ht
      · exact hc
      · exact ih h t ht

/-- what the rule has checked of a consumer -/
theorem redundantFor_true {R : Red} (w : R.net.WF) (hs : Sorted R.net) {p t : Nat} (ht : t < R.net.transitions.length)
    (h : R.redundantFor p t = some true) {ρ : Nat → Val} (hl : R.net.Legal t ρ) (x : Val) :
    arcsTokens R.net ρ (R.net.trans t).inputs p x ≤ R.net.init p x ∧
    arcsTokens R.net ρ (R.net.trans t).inputs p x ≤ arcsTokens R.net ρ (R.net.trans t).outputs p x := by
  unfold Red.redundantFor at h
  split at h
  · cases h
  · cases ho : R.outArc t p with
    | none => rw [ho] at h; cases h
    | some o =>
      cases hi : R.inArc p t with
      | none => rw [ho, hi] at h; cases h
      | some i =>
        rw [ho, hi] at h
        simp only at h
        split at h
        · cases h
        · cases h
        · rename_i hc
          rw [in_of_arc hs ht hi, out_of_arc hs ht ho]
          refine ⟨coversAll_ok w ht hi hc hl x, ?_⟩
          split at h
          · rename_i mi mo h1 h2
            have s1 := (inArc_wf w ht hi).2.2.1
            have s2 := (outArc_wf w ht ho).2.2.1
            exact subEq_le (extract_ok (T := R.net.types) ρ i.expr mi s1 h1) (extract_ok (T := R.net.types) ρ o.expr mo s2 h2) h x
          · cases h
          · cases h

theorem redundant_harmless {R : Red} (w : R.net.WF) (hs : Sorted R.net) {q : Uses} {p : Nat} (h : R.redundant q p = some true) :
    R.inhibitor p = 0 ∧ q.place p = false ∧ Harmless R p := by
  unfold Red.redundant at h
  split at h
  · cases h
  split at h
  · cases h
  rename_i hi
  split at h
  · cases h
  split at h
  · cases h
  rename_i hq
  refine ⟨by omega, by simpa using hq, ?_⟩
  have hall := redundantLoop_true h
  have hinv : ∀ M, R.Reach M → ∀ x, R.net.init p x ≤ M p x := by
    intro M hM
    induction hM with
    | init => intro x; exact Nat.le_refl _
    | @step M M' t ρ hr hst ih =>
      intro x
      obtain ⟨_, ht, hl, hen, rfl⟩ := hst
      unfold CNet.fire
      have := hen.1 p x
      by_cases hm : t ∈ R.post p
      · have h2 := (redundantFor_true w hs ht (hall t hm) hl x).2
        have := ih x
        omega
      · rw [in_zero ht hm]
        have := ih x
        omega
  intro M hM t ρ ht _ hl _ x
  by_cases hm : t ∈ R.post p
  · exact Nat.le_trans (redundantFor_true w hs ht (hall t hm) hl x).1 (hinv M hM x)
  · rw [in_zero ht hm]
    exact Nat.zero_le _

theorem sorted_filter {as : List CArc} {p : Nat} (h : (as.map (·.place)).Pairwise (· < ·)) :
    ((as.filter fun a => a.place != p).map (·.place)).Pairwise (· < ·) :=
  h.sublist ((List.filter_sublist).map _)

theorem sorted_skipPlace {R : Red} (hs : Sorted R.net) (p : Nat) : Sorted (R.skipPlace p).net := by
  intro t ht
  obtain ⟨u, hu, rfl⟩ := List.mem_map.1 ht
  exact ⟨sorted_filter (hs u hu).1, sorted_filter (hs u hu).2⟩

theorem sorted_skipTrans {R : Red} (hs : Sorted R.net) (t : Nat) : Sorted (R.skipTrans t).net := by
  intro u hu
  obtain ⟨y, hy, h | h⟩ := mem_modify hu
  · subst h; exact hs u hy
  · subst h; exact ⟨by simp [bare], by simp [bare]⟩

theorem redundantPlaces_same (q : Uses) (late : Nat → Bool) (ps : List Nat) : ∀ (R R' : Red), R.net.WF → Sorted R.net →
    Red.redundantPlaces q late ps R = some R' →
    Same R R' ∧ R'.net.WF ∧ Sorted R'.net ∧ ∀ p ∈ R'.skP, p ∈ R.skP ∨ q.place p = false := by
  induction ps with
  | nil =>
    intro R R' w hs h
    rw [Red.redundantPlaces] at h
    injection h with h
    subst h
    exact ⟨Same.refl R, w, hs, fun p hp => Or.inl hp⟩
  | cons p ps ih =>
    intro R R' w hs h
    rw [Red.redundantPlaces] at h
    split at h
    · injection h with h
      subst h
      exact ⟨Same.refl R, w, hs, fun p hp => Or.inl hp⟩
    split at h
    · injection h with h
      subst h
      exact ⟨Same.refl R, w, hs, fun p hp => Or.inl hp⟩
    split at h
    · cases h
    · exact ih R R' w hs h
    · rename_i hr
      obtain ⟨h1, h2, h3⟩ := redundant_harmless w hs hr
      obtain ⟨g1, g2, g3, g4⟩ := ih _ R' (wf_skipPlace w p) (sorted_skipPlace hs p) h
      refine ⟨(same_skipPlace w h1 h3).trans g1, g2, g3, fun r hr => ?_⟩
      rcases g4 r hr with h | h
      · rcases List.mem_cons.1 h with h | h
        · exact Or.inr (h ▸ h2)
        · exact Or.inl h
      · exact Or.inr h

/-! ### Dead transitions -/

theorem readable_skipPlace {nm : Names} {R : Red} (h : Readable nm R.net) (p : Nat) : Readable nm (R.skipPlace p).net := by
  intro t ht a ha b hb
  obtain ⟨u, hu, rfl⟩ := List.mem_map.1 ht
  refine h u hu a ?_ b ?_
  all_goals
    simp only [List.mem_append, List.mem_filter] at *
    tauto

theorem readable_skipTrans {nm : Names} {R : Red} (h : Readable nm R.net) (t : Nat) : Readable nm (R.skipTrans t).net := by
  intro u hu a ha b hb
  obtain ⟨y, hy, e | e⟩ := mem_modify hu
  · subst e; exact h u hy a ha b hb
  · subst e; simp [bare] at ha

/-- the outcomes of the loop -/
theorem deadLoop_true {R : Red} {nm : Names} {p : Nat} (ts : List Nat) : ∀ (ok : Bool) (acc D : List Nat),
    R.deadLoop nm p ts ok acc = some (true, D) → ok = true ∧ ∃ E, D = acc ++ E ∧ E.Sublist ts ∧
      (∀ t ∈ ts, R.deadStep nm p t = some .go ∨ (t ∈ E ∧ R.deadStep nm p t = some .dead)) ∧
      ∀ t ∈ E, R.deadStep nm p t = some .dead := by
  induction ts with
  | nil =>
    intro ok acc D h
    rw [Red.deadLoop] at h
    injection h with h
    injection h with h1 h2
    exact ⟨h1, [], by simp [h2], List.Sublist.refl _, (fun t ht => nomatch ht), (fun t ht => nomatch ht)⟩
  | cons u ts ih =>
    intro ok acc D h
    rw [Red.deadLoop] at h
    split at h
    · cases h
    · cases h
    · have := (ih _ _ _ h).1
      cases this
    · rename_i hc
      obtain ⟨h1, E, h2, h3, h4, h5⟩ := ih _ _ _ h
      refine ⟨h1, E, h2, h3.cons _, fun t ht => ?_, h5⟩
      rcases List.mem_cons.1 ht with rfl | ht
      · exact Or.inl hc
      · exact h4 t ht
    · rename_i hc
      obtain ⟨h1, E, h2, h3, h4, h5⟩ := ih _ _ _ h
      refine ⟨h1, u :: E, by rw [h2]; simp, h3.cons_cons _, fun t ht => ?_, fun t ht => ?_⟩
      · rcases List.mem_cons.1 ht with rfl | ht
        · exact Or.inr ⟨List.mem_cons_self, hc⟩
        · rcases h4 t ht with h | ⟨h, h'⟩
          · exact Or.inl h
          · exact Or.inr ⟨List.mem_cons_of_mem _ h, h'⟩
      · rcases List.mem_cons.1 ht with rfl | ht
        · exact hc
        · exact h5 t ht

theorem deadStep_dead {R : Red} (w : R.net.WF) (hs : Sorted R.net) {nm : Names} {p t : Nat} (ht : t < R.net.transitions.length)
    (h : R.deadStep nm p t = some .dead) {ρ : Nat → Val} (hl : R.net.Legal t ρ) :
    ¬∀ x, arcsTokens R.net ρ (R.net.trans t).inputs p x ≤ R.net.init p x := by
  unfold Red.deadStep at h
  cases hi : R.inArc p t with
  | none => rw [hi] at h; cases h
  | some i =>
    rw [hi] at h
    simp only at h
    split at h
    · cases h
    split at h
    · cases h
    split at h
    · cases h
    · unfold deadEnabled at h
      split at h
      · cases h
      · split at h
        · rename_i ri ro _ _
          cases hb : properSub ri ro with
          | none => rw [hb] at h; cases h
          | some b =>
            rw [hb] at h
            simp only [Option.map_some, Option.some.injEq] at h
            split at h <;> cases h
        · cases h
    · rename_i hc
      have := coversSome_no w ht hi hc hl
      intro hx
      exact this fun x => by rw [← in_of_arc hs ht hi]; exact hx x

theorem deadStep_go {R : Red} (hs : Sorted R.net) {nm : Names} (hr : Readable nm R.net) {p t : Nat}
    (ht : t < R.net.transitions.length) (h : R.deadStep nm p t = some .go) (ρ : Nat → Val) (x : Val) :
    arcsTokens R.net ρ (R.net.trans t).outputs p x ≤ arcsTokens R.net ρ (R.net.trans t).inputs p x := by
  unfold Red.deadStep at h
  cases hi : R.inArc p t with
  | none => rw [hi] at h; cases h
  | some i =>
    rw [hi] at h
    simp only at h
    split at h
    · cases h
    split at h
    · cases h
    split at h
    · cases h
    · cases ho : R.outArc t p with
      | none => rw [out_none hs ht ho]; exact Nat.zero_le _
      | some o =>
        rw [ho] at h
        rw [out_of_arc hs ht ho, in_of_arc hs ht hi]
        unfold deadEnabled at h
        simp only at h
        split at h
        · rename_i ri ro _ _
          cases hb : properSub ri ro with
          | none => rw [hb] at h; cases h
          | some b =>
            rw [hb] at h
            simp only [Option.map_some, Option.some.injEq] at h
            split at h
            · cases h
            · rename_i hn
              simp only [Bool.or_eq_true, decide_eq_true_eq, not_or, ne_eq, not_not] at hn
              exact Nat.le_of_eq (hr _ (trans_mem ht) o (List.mem_append_right _ (arcAt_some ho).1) i
                (List.mem_append_left _ (arcAt_some hi).1) hn.2 ρ x)
        · cases h
    · cases h

theorem deadAt_facts {R : Red} {nm : Names} {p : Nat} {D : List Nat} (hne : D ≠ []) (h : R.deadAt nm p = some D) :
    R.inhibitor p = 0 ∧ (R.producersConsume p = true) ∧ R.deadLoop nm p (R.post p) true [] = some (true, D) := by
  unfold Red.deadAt at h
  split at h
  · injection h with h; exact absurd h.symm hne
  split at h
  · injection h with h; exact absurd h.symm hne
  rename_i hi
  split at h
  · injection h with h; exact absurd h.symm hne
  split at h
  · injection h with h; exact absurd h.symm hne
  rename_i hp
  refine ⟨by omega, by simpa using hp, ?_⟩
  cases hd : R.deadLoop nm p (R.post p) true [] with
  | none => rw [hd] at h; cases h
  | some r =>
    rw [hd] at h
    obtain ⟨ok, E⟩ := r
    simp only [Option.map_some, Option.some.injEq] at h
    cases ok with
    | false => exact absurd h.symm hne
    | true => rw [← h]; rfl

/-- The transitions that the rule calls dead never fire. -/
theorem deadAt_dead {R : Red} (w : R.net.WF) (hs : Sorted R.net) {nm : Names} (hr : Readable nm R.net) {p : Nat} {D : List Nat}
    (hne : D ≠ []) (h : R.deadAt nm p = some D) :
    D.Sublist (R.post p) ∧ ∀ t ∈ D, ∀ M, R.Reach M → ¬R.CanFire M t := by
  obtain ⟨_, hp, hl⟩ := deadAt_facts hne h
  obtain ⟨_, E, hE, h3, h4, h5⟩ := deadLoop_true _ _ _ _ hl
  rw [List.nil_append] at hE
  subst hE
  have hinv : ∀ M, R.Reach M → ∀ x, M p x ≤ R.net.init p x := by
    intro M hM
    induction hM with
    | init => intro x; exact Nat.le_refl _
    | @step M M' t ρ hrc hst ih =>
      intro x
      obtain ⟨_, ht, hleg, hen, rfl⟩ := hst
      unfold CNet.fire
      by_cases hm : t ∈ R.post p
      · rcases h4 t hm with hgo | ⟨_, hde⟩
        · have h1 := deadStep_go hs hr ht hgo ρ x
          have h2 := hen.1 p x
          have := ih x
          omega
        · exact absurd (fun x => Nat.le_trans (hen.1 p x) (ih x)) (deadStep_dead w hs ht hde hleg)
      · have hpre : t ∉ R.pre p := by
          intro hpre
          have := List.all_eq_true.1 hp t hpre
          cases hi : R.inArc p t with
          | none => rw [hi] at this; cases this
          | some a => exact hm (mem_post.2 ⟨ht, a, (arcAt_some hi).1, (arcAt_some hi).2⟩)
        rw [in_zero ht hm, out_zero ht hpre]
        have := ih x
        omega
  refine ⟨h3, fun t ht M hM hf => ?_⟩
  obtain ⟨ρ, L, _, hlt, hleg, hen, _⟩ := hf
  exact deadStep_dead w hs hlt (h5 t ht) hleg fun x => Nat.le_trans (hen.1 p x) (hinv M hM x)

theorem Same.dead {R R' : Red} (s : Same R R') {t : Nat} (h : ∀ M, R.Reach M → ¬R.CanFire M t) : ∀ M, R'.Reach M → ¬R'.CanFire M t := by
  obtain ⟨S, b, _⟩ := s.bisim
  intro M' hM' hf
  obtain ⟨M, h1, h2⟩ := b.back hM'
  exact h M h1 ((b.canFire h1 hM' h2 t).1 hf)

/-- the class of nets of the lemmas is closed under the removals -/
structure Nice (nm : Names) (R : Red) : Prop where
  wf : R.net.WF
  sorted : Sorted R.net
  readable : Readable nm R.net

theorem Nice.skipPlace {nm : Names} {R : Red} (h : Nice nm R) (p : Nat) : Nice nm (R.skipPlace p) :=
  ⟨wf_skipPlace h.wf p, sorted_skipPlace h.sorted p, readable_skipPlace h.readable p⟩

theorem Nice.skipTrans {nm : Names} {R : Red} (h : Nice nm R) (t : Nat) : Nice nm (R.skipTrans t) :=
  ⟨wf_skipTrans h.wf t, sorted_skipTrans h.sorted t, readable_skipTrans h.readable t⟩

theorem skipAll_same {nm : Names} (q : Uses) (D : List Nat) : ∀ R : Red, Nice nm R → (∀ t ∈ D, ∀ M, R.Reach M → ¬R.CanFire M t) →
    Same R (Red.skipAll q D R) ∧ Nice nm (Red.skipAll q D R) ∧ (Red.skipAll q D R).skP = R.skP ∧
      (∀ p, (Red.skipAll q D R).inhibitor p ≤ R.inhibitor p) ∧
      (∀ t, t ∈ R.skT ∨ (t ∈ D ∧ q.trans t = false) → t ∈ (Red.skipAll q D R).skT) ∧
      (Red.skipAll q D R).net.transitions.length = R.net.transitions.length ∧
      ∀ t, (∀ a ∈ ((Red.skipAll q D R).net.trans t).inputs, a ∈ (R.net.trans t).inputs) := by
  induction D with
  | nil =>
    intro R hn _
    refine ⟨Same.refl R, hn, rfl, fun _ => Nat.le_refl _, fun t ht => ?_, rfl, fun _ a ha => ha⟩
    rcases ht with h | ⟨h, _⟩
    · exact h
    · cases h
  | cons u D ih =>
    intro R hn hd
    rw [Red.skipAll]
    by_cases hq : q.trans u = true
    · rw [if_pos hq]
      obtain ⟨h1, h2, h3, h4, h5, h6, h7⟩ := ih R hn fun t ht => hd t (List.mem_cons_of_mem _ ht)
      refine ⟨h1, h2, h3, h4, fun t ht => h5 t ?_, h6, h7⟩
      rcases ht with h | ⟨h, h'⟩
      · exact Or.inl h
      · rcases List.mem_cons.1 h with rfl | h
        · rw [hq] at h'; cases h'
        · exact Or.inr ⟨h, h'⟩
    · rw [if_neg hq]
      have hs := same_skipTrans (R := R) (t := u) (hd u List.mem_cons_self)
      obtain ⟨h1, h2, h3, h4, h5, h6, h7⟩ := ih (R.skipTrans u) (hn.skipTrans u) fun t ht => hs.dead (hd t (List.mem_cons_of_mem _ ht))
      refine ⟨hs.trans h1, h2, h3, fun p => Nat.le_trans (h4 p) ?_, fun t ht => h5 t ?_, h6.trans ?_, fun t a ha => ?_⟩
      · unfold Red.inhibitor Red.skipTrans
        exact ((List.filter_sublist).filter _).length_le
      · rcases ht with h | ⟨h, h'⟩
        · exact Or.inl (List.mem_cons_of_mem _ h)
        · rcases List.mem_cons.1 h with rfl | h
          · exact Or.inl List.mem_cons_self
          · exact Or.inr ⟨h, h'⟩
      · unfold Red.skipTrans; simp
      · have := h7 t a ha
        rw [trans_skipTrans] at this
        split at this
        · simp [bare] at this
        · exact this

/-- One removal is right if the place goes only with all its consumers. -/
theorem deadRemove_same {R : Red} {nm : Names} (hn : Nice nm R) {q : Uses} {p : Nat} {D : List Nat} (hne : D ≠ [])
    (h : R.deadAt nm p = some D) (hc : D.length = (R.pre p).length → D.length = (R.post p).length) :
    Same R (R.deadRemove q p D) ∧ Nice nm (R.deadRemove q p D) ∧ ∀ r ∈ (R.deadRemove q p D).skP, r ∈ R.skP ∨ q.place r = false := by
  obtain ⟨hi, _, _⟩ := deadAt_facts hne h
  obtain ⟨hsub, hdead⟩ := deadAt_dead hn.wf hn.sorted hn.readable hne h
  obtain ⟨h1, h2, h3, h4, h5, h6, h7⟩ := skipAll_same (nm := nm) q D R hn hdead
  unfold Red.deadRemove
  dsimp only
  split
  · rename_i hcond
    simp only [Bool.and_eq_true, decide_eq_true_eq, Bool.not_eq_true', List.all_eq_true] at hcond
    obtain ⟨⟨c1, c2⟩, c3⟩ := hcond
    have hDp : D = R.post p := hsub.eq_of_length (hc c1)
    refine ⟨h1.trans (same_skipPlace h2.wf ?_ ?_), h2.skipPlace p, fun r hr => ?_⟩
    · have := h4 p
      omega
    · intro M _ t ρ ht hsk _ _ x
      rw [arcsTokens_zero, ]
      · exact Nat.zero_le _
      · intro a ha he
        have hm : t ∈ R.post p := mem_post.2 ⟨h6 ▸ ht, a, h7 t a ha, he⟩
        rw [← hDp] at hm
        exact hsk (h5 t (Or.inr ⟨hm, c3 t hm⟩))
    · rcases List.mem_cons.1 hr with h | h
      · exact Or.inr (h ▸ c2)
      · exact Or.inl (h3 ▸ h)
  · exact ⟨h1, h2, fun r hr => Or.inl (h3 ▸ hr)⟩

theorem deadTransitions_same (nm : Names) (q : Uses) (late : Nat → Bool) (ps : List Nat) : ∀ (R R' : Red), Nice nm R →
    (∀ s ∈ Red.deadTrace nm q late ps R, s.2.2.length = (s.1.pre s.2.1).length → s.2.2.length = (s.1.post s.2.1).length) →
    Red.deadTransitions nm q late ps R = some R' →
    Same R R' ∧ Nice nm R' ∧ ∀ r ∈ R'.skP, r ∈ R.skP ∨ q.place r = false := by
  induction ps with
  | nil =>
    intro R R' hn _ h
    rw [Red.deadTransitions] at h
    injection h with h
    subst h
    exact ⟨Same.refl R, hn, fun p hp => Or.inl hp⟩
  | cons p ps ih =>
    intro R R' hn htr h
    rw [Red.deadTransitions] at h
    rw [Red.deadTrace] at htr
    split at h
    · injection h with h
      subst h
      exact ⟨Same.refl R, hn, fun p hp => Or.inl hp⟩
    rename_i hl
    rw [if_neg hl] at htr
    split at h
    · cases h
    · rename_i hd
      rw [hd] at htr
      exact ih R R' hn htr h
    · rename_i t ts hd
      rw [hd] at htr
      simp only [List.mem_cons, forall_eq_or_imp] at htr
      obtain ⟨g1, g2, g3⟩ := deadRemove_same hn (q := q) (by simp) hd htr.1
      obtain ⟨k1, k2, k3⟩ := ih _ R' g2 htr.2 h
      refine ⟨g1.trans k1, k2, fun r hr => ?_⟩
      rcases k3 r hr with h | h
      · exact g3 r h
      · exact Or.inr h

end CRed
end Verif
