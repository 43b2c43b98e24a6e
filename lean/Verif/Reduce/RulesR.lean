import Verif.Reduce.ModelR
import Verif.Reduce.RulesL

/-!
# Rule R
-/

namespace Verif
namespace Reduce

/-! ### New transitions -/

theorem addArc_end {a : Arc} : ∀ {l : List Arc}, (∀ b ∈ l, b.place < a.place) → addArc a l = l ++ [a] := by
  intro l
  induction l with
  | nil => intro _; rfl
  | cons b l ih =>
    intro h
    unfold addArc
    rw [if_pos (h b (by simp)), ih fun c hc => h c (by simp [hc])]
    rfl

theorem addAll_append : ∀ {l acc : List Arc}, Sorted (acc ++ l) → addAll l acc = acc ++ l := by
  intro l
  induction l with
  | nil => intro acc _; simp [addAll]
  | cons a l ih =>
    intro acc h
    have h1 : addArc a acc = acc ++ [a] := addArc_end fun b hb =>
      (List.pairwise_append.1 h).2.2 b hb a (by simp)
    show addAll l (addArc a acc) = _
    rw [h1, ih (by rw [List.append_assoc]; exact h), List.append_assoc]
    rfl

theorem addAll_nil {l : List Arc} (h : Sorted l) : addAll l [] = l := by
  rw [addAll_append (by simpa using h)]; rfl

theorem addAll_sorted {l : List Arc} (h : Sorted l) {acc : List Arc} (ha : Sorted acc) : Sorted (addAll l acc) ∧
    ∀ p, wAt (addAll l acc) p = wAt acc p + wAt l p := by
  obtain ⟨h1, h2⟩ := addAll_spec (f := fun a => a) (k := 1) (fun _ => rfl) (fun a => (Nat.one_mul _).symm) h ha
  exact ⟨h1, fun p => by have := h2 p; rwa [Nat.one_mul] at this⟩

theorem addAll_mem (P : Arc → Prop) (hP : ∀ b w, P b → P { b with weight := b.weight + w }) {l acc : List Arc}
    (hl : ∀ a ∈ l, P a) (ha : ∀ a ∈ acc, P a) : ∀ a ∈ addAll l acc, P a :=
  foldl_addArc_mem (fun a => a) P hP l hl acc ha

theorem newTrans_spec {N : RNet} (hN : N.WF) (x : RTr) :
    (N.tr (N.newTrans x).1).skip = true ∧
    (∀ s, (N.newTrans x).2.tr s = if s = (N.newTrans x).1 then x else N.tr s) ∧
    (N.newTrans x).2.init = N.init ∧ (N.newTrans x).2.bad = N.bad ∧ (N.newTrans x).2.pinhib = N.pinhib ∧
    (N.newTrans x).2.pskip = N.pskip ∧ (N.newTrans x).2.np = N.np ∧
    (x.WF N.okP N.pinhib → x.skip = false → (N.newTrans x).2.WF) := by
  unfold RNet.newTrans
  cases hs : N.skipped with
  | nil =>
    refine ⟨hN.out _ (Nat.le_refl _), fun s => rfl, rfl, rfl, rfl, rfl, rfl, fun hx hl => ?_⟩
    refine ⟨fun s => ?_, fun s h => ?_, fun s h => ?_, ?_⟩
    · show RTr.WF N.okP N.pinhib (if s = N.nt then x else N.tr s)
      split
      · exact hx
      · exact hN.tr s
    · show (if s = N.nt then x else N.tr s).skip = true
      have h' : N.nt + 1 ≤ s := h
      rw [if_neg (by omega)]
      exact hN.out s (by omega)
    · have h' : s ∈ N.skipped := h
      rw [hs] at h'; cases h'
    · exact hN.nd
  | cons i rest =>
    have hi := hN.sk i (by rw [hs]; simp)
    have hnd := hN.nd
    rw [hs] at hnd
    obtain ⟨n1, n2⟩ := List.nodup_cons.1 hnd
    refine ⟨hi.1, fun s => rfl, rfl, rfl, rfl, rfl, rfl, fun hx hl => ?_⟩
    refine ⟨fun s => ?_, fun s h => ?_, fun s h => ?_, n2⟩
    · show RTr.WF N.okP N.pinhib (if s = i then x else N.tr s)
      split
      · exact hx
      · exact hN.tr s
    · show (if s = i then x else N.tr s).skip = true
      have h' : N.nt ≤ s := h
      rw [if_neg (by omega)]
      exact hN.out s h'
    · have h' : s ∈ rest := h
      show (if s = i then x else N.tr s).skip = true ∧ s < N.nt
      rw [if_neg (by rintro rfl; exact n1 h')]
      exact hN.sk s (by rw [hs]; simp [h'])

/-- Transitions were added to the net. -/
structure Adds (P : RTr → Prop) (N0 N : RNet) : Prop where
  wf : N.WF
  init : N.init = N0.init
  bad : N.bad = N0.bad
  pinhib : N.pinhib = N0.pinhib
  pskip : N.pskip = N0.pskip
  np : N.np = N0.np
  old : ∀ s, (N0.tr s).skip = false → N.tr s = N0.tr s
  new : ∀ s, (N.tr s).skip = false → (N0.tr s).skip = false ∨ P (N.tr s)

theorem Adds.refl {P : RTr → Prop} {N : RNet} (h : N.WF) : Adds P N N :=
  ⟨h, rfl, rfl, rfl, rfl, rfl, fun _ _ => rfl, fun _ h => Or.inl h⟩

theorem Adds.okP {P : RTr → Prop} {N0 N : RNet} (h : Adds P N0 N) : N.okP = N0.okP := by
  unfold RNet.okP; rw [h.pskip, h.np]

theorem Adds.newTrans {P : RTr → Prop} {N0 N : RNet} (h : Adds P N0 N) {x : RTr} (hx : x.WF N0.okP N0.pinhib)
    (hl : x.skip = false) (hP : P x) : Adds P N0 (N.newTrans x).2 := by
  obtain ⟨h1, h2, h3, h4, h5, h6, h7, h8⟩ := newTrans_spec h.wf x
  refine ⟨h8 (by rw [h.okP, h.pinhib]; exact hx) hl, h3.trans h.init, h4.trans h.bad, h5.trans h.pinhib, h6.trans h.pskip,
    h7.trans h.np, fun s hs => ?_, fun s hs => ?_⟩
  · have : s ≠ (N.newTrans x).1 := by
      rintro rfl
      rw [h.old _ hs, hs] at h1; cases h1
    rw [h2, if_neg this]; exact h.old s hs
  · rw [h2] at hs ⊢
    by_cases he : s = (N.newTrans x).1
    · rw [if_pos he]; exact Or.inr hP
    · rw [if_neg he] at hs ⊢; exact h.new s hs

/-! ### Runs -/

/-- `n` firings of transitions with `P`. -/
def RunN (N : RNet) (P : Nat → Prop) : Nat → (Nat → Nat) → (Nat → Nat) → Prop
  | 0, m, m' => m = m'
  | n + 1, m, m' => ∃ t, P t ∧ (N.tr t).En m ∧ RunN N P n ((N.tr t).fire m) m'

theorem RunN.of_reach {N : RNet} {m m' : Nat → Nat} (h : N.Reach m m') : ∃ n, RunN N (fun _ => True) n m m' := by
  induction h using Relation.ReflTransGen.head_induction_on with
  | refl => exact ⟨0, rfl⟩
  | head hs _ ih =>
    obtain ⟨t, ht, rfl⟩ := hs
    obtain ⟨n, hn⟩ := ih
    exact ⟨n + 1, t, trivial, ht, hn⟩

theorem RunN.mono {N : RNet} {P P' : Nat → Prop} (h : ∀ t, P t → P' t) : ∀ {n : Nat} {m m' : Nat → Nat}, RunN N P n m m' →
    RunN N P' n m m' := by
  intro n
  induction n with
  | zero => exact fun h => h
  | succ n ih =>
    rintro m m' ⟨t, h1, h2, h3⟩
    exact ⟨t, h t h1, h2, ih h3⟩

theorem RunN.append {N : RNet} {P : Nat → Prop} {l : Nat} : ∀ {k : Nat} {m m1 m2 : Nat → Nat}, RunN N P k m m1 →
    RunN N P l m1 m2 → RunN N P (k + l) m m2 := by
  intro k
  induction k with
  | zero => intro m m1 m2 h h'; cases h; rw [Nat.zero_add]; exact h'
  | succ k ih =>
    rintro m m1 m2 ⟨t, h1, h2, h3⟩ h'
    rw [Nat.succ_add]
    exact ⟨t, h1, h2, ih h3 h'⟩

/-- A run up to the first transition of `C`. -/
theorem RunN.first {N : RNet} (C : Nat → Prop) [DecidablePred C] : ∀ {n : Nat} {m m' : Nat → Nat},
    RunN N (fun _ => True) n m m' → RunN N (fun t => ¬ C t) n m m' ∨
      ∃ k l m1 c, k + l + 1 = n ∧ RunN N (fun t => ¬ C t) k m m1 ∧ C c ∧ (N.tr c).En m1 ∧
        RunN N (fun _ => True) l ((N.tr c).fire m1) m' := by
  intro n
  induction n with
  | zero => intro m m' h; exact Or.inl h
  | succ n ih =>
    rintro m m' ⟨t, _, h2, h3⟩
    by_cases ht : C t
    · exact Or.inr ⟨0, n, m, t, by omega, rfl, ht, h2, h3⟩
    · rcases ih h3 with h | ⟨k, l, m1, c, h4, h5, h6, h7, h8⟩
      · exact Or.inl ⟨t, ht, h2, h⟩
      · exact Or.inr ⟨k + 1, l, m1, c, by omega, ⟨t, ht, h2, h5⟩, h6, h7, h8⟩

/-! ### One producer -/

/-- The producer and then the consumer. -/
structure RNewOf (x y z : RTr) : Prop where
  live : z.skip = false
  I : ∀ q, z.I q = x.I q
  no : ∀ m, z.NoInh m ↔ x.NoInh m
  O : ∀ q, z.O q = x.O q - y.I q + y.O q

theorem r_same {Q : Nat → Bool} {N N' : RNet} (hN : N.WF) {pid prod : Nat} {C : Nat → Prop} [DecidablePred C]
    (hinit : N'.init = N.init) (hpl : (N.tr prod).skip = false) (hpC : ¬ C prod)
    (hC : ∀ s, ¬ C s → arcAt (N.tr s).pre pid = none)
    (hCl : ∀ c, C c → (N.tr c).skip = false ∧ (N.tr c).inhib = false ∧ (∀ q, q ≠ pid → (N.tr c).I q = 0) ∧
      (∀ q, Q q = true ∨ N.pinhib q = true → (N.tr c).O q = 0) ∧ (N.tr c).I pid ≤ (N.tr prod).O pid)
    (hQ : Q pid = false) (hinh : N.pinhib pid = false) {c0 : Nat} (hc0 : C c0)
    (hold : ∀ s, s ≠ prod → (N.tr s).skip = false → N'.tr s = N.tr s)
    (hnew : ∀ c, C c → ∃ i, RNewOf (N.tr prod) (N.tr c) (N'.tr i))
    (hall : ∀ i, (N'.tr i).skip = false → (i ≠ prod ∧ N'.tr i = N.tr i) ∨ ∃ c, C c ∧ RNewOf (N.tr prod) (N.tr c) (N'.tr i)) :
    Same Q N N' := by
  have hNoC : ∀ c, C c → ∀ m, (N.tr c).NoInh m := by
    intro c hc m a ha hi
    rw [(hN.tr c).noInh (hCl c hc).2.1 a ha] at hi; cases hi
  have hI0 : ∀ s, ¬ C s → (N.tr s).I pid = 0 := fun s hs => RTr.I_none (hC s hs)
  have hcomm : ∀ (c : Nat), C c → ∀ (n : Nat) (m m' : Nat → Nat), (N.tr c).I pid ≤ m pid →
      RunN N (fun t => ¬ C t) n m m' → RunN N (fun t => ¬ C t) n ((N.tr c).fire m) ((N.tr c).fire m') := by
    intro c hc n
    induction n with
    | zero => intro m m' _ h; cases h; exact rfl
    | succ n ih =>
      rintro m m' hle ⟨t, h1, h2, h3⟩
      obtain ⟨_, _, c3, c4, _⟩ := hCl c hc
      have hfire : (N.tr t).fire ((N.tr c).fire m) = (N.tr c).fire ((N.tr t).fire m) := by
        funext q
        unfold RTr.fire
        by_cases hq : q = pid
        · subst hq
          rw [hI0 t h1]; omega
        · rw [c3 q hq]
          have := h2.2.1 q
          omega
      refine ⟨t, h1, ⟨h2.1, fun q => ?_, ?_⟩, ?_⟩
      · unfold RTr.fire
        by_cases hq : q = pid
        · subst hq; rw [hI0 t h1]; omega
        · rw [c3 q hq]
          have := h2.2.1 q
          omega
      · refine (hN.tr t).noInh_congr (fun q hq => ?_) h2.2.2
        have hqp : q ≠ pid := by rintro rfl; rw [hinh] at hq; cases hq
        unfold RTr.fire
        rw [c3 q hqp, c4 q (Or.inr hq)]; rfl
      · rw [hfire]
        refine ih _ _ ?_ h3
        unfold RTr.fire
        rw [hI0 t h1]; omega
  -- without consumers
  have hnoC : ∀ (n : Nat) (m m' mf : Nat → Nat), RunN N (fun t => ¬ C t) n m mf →
      (∀ q, q ≠ pid → m q ≤ m' q ∧ (Q q = true ∨ N.pinhib q = true → m' q = m q)) →
      ∃ mf', N'.Reach m' mf' ∧ ∀ q, Q q = true → mf' q = mf q := by
    intro n
    induction n with
    | zero =>
      intro m m' mf h hd
      cases h
      refine ⟨m', .refl, fun q hq => ?_⟩
      have hqp : q ≠ pid := by rintro rfl; rw [hQ] at hq; cases hq
      exact (hd q hqp).2 (Or.inl hq)
    | succ n ih =>
      rintro m m' mf ⟨t, h1, h2, h3⟩ hd
      have hle : ∀ q, (N.tr t).I q ≤ m' q := by
        intro q
        by_cases hq : q = pid
        · subst hq; rw [hI0 t h1]; omega
        · exact Nat.le_trans (h2.2.1 q) (hd q hq).1
      have hno : (N.tr t).NoInh m' := by
        refine (hN.tr t).noInh_congr (fun q hq => ?_) h2.2.2
        have hqp : q ≠ pid := by rintro rfl; rw [hinh] at hq; cases hq
        exact (hd q hqp).2 (Or.inr hq)
      by_cases htp : t = prod
      · subst htp
        obtain ⟨i, hi⟩ := hnew c0 hc0
        obtain ⟨_, _, c3, c4, _⟩ := hCl c0 hc0
        obtain ⟨mf', r1, r2⟩ := ih _ ((N'.tr i).fire m') mf h3 (fun q hq => by
          have h4 := h2.2.1 q
          obtain ⟨d1, d2⟩ := hd q hq
          unfold RTr.fire
          rw [hi.I, hi.O, c3 q hq]
          refine ⟨by omega, fun hqq => ?_⟩
          rw [c4 q hqq, d2 hqq]; omega)
        refine ⟨mf', Relation.ReflTransGen.head ⟨i, ⟨hi.live, fun q => ?_, (hi.no _).2 hno⟩, rfl⟩ r1, r2⟩
        rw [hi.I]; exact hle q
      · have he := hold t htp h2.1
        obtain ⟨mf', r1, r2⟩ := ih _ ((N.tr t).fire m') mf h3 (fun q hq => by
          have h4 := h2.2.1 q
          obtain ⟨d1, d2⟩ := hd q hq
          unfold RTr.fire
          exact ⟨by omega, fun hqq => by rw [d2 hqq]⟩)
        exact ⟨mf', Relation.ReflTransGen.head ⟨t, by rw [he]; exact ⟨h2.1, hle, hno⟩, by rw [he]⟩ r1, r2⟩
  have hfwd : ∀ (n : Nat) (k : Nat), k ≤ n → ∀ (m m' mf : Nat → Nat), RunN N (fun _ => True) k m mf → Dom Q N m m' →
      ∃ mf', N'.Reach m' mf' ∧ ∀ q, Q q = true → mf' q = mf q := by
    intro n
    induction n with
    | zero =>
      intro k hk m m' mf h hd
      have : k = 0 := by omega
      subst this
      cases h
      exact ⟨m', .refl, fun q hq => (hd q).2 (Or.inl hq)⟩
    | succ n ih =>
      intro k hk m m' mf h hd
      cases k with
      | zero => cases h; exact ⟨m', .refl, fun q hq => (hd q).2 (Or.inl hq)⟩
      | succ k =>
        obtain ⟨t, _, h2, h3⟩ := h
        obtain ⟨e1, e2⟩ := hd.en hN h2
        by_cases htp : t = prod
        · subst htp
          rcases RunN.first C h3 with h4 | ⟨a, b, m1, c, hab, h5, h6, h7, h8⟩
          · exact hnoC (k + 1) m m' mf ⟨t, hpC, h2, h4⟩ fun q _ => hd q
          · obtain ⟨c1, _, c3, c4, c5⟩ := hCl c h6
            have hle : (N.tr c).I pid ≤ (N.tr t).fire m pid := by
              unfold RTr.fire; omega
            have h9 := (hcomm c h6 a _ m1 hle h5).mono (P' := fun _ => True) (fun _ _ => trivial)
            obtain ⟨i, hi⟩ := hnew c h6
            obtain ⟨mf', r1, r2⟩ := ih (a + b) (by omega) _ ((N'.tr i).fire m') mf (h9.append h8) (fun q => by
              have h10 := h2.2.1 q
              obtain ⟨d1, d2⟩ := hd q
              unfold RTr.fire at hle ⊢
              rw [hi.I, hi.O]
              by_cases hq : q = pid
              · subst hq
                refine ⟨by omega, fun hqq => ?_⟩
                rw [d2 hqq]; omega
              · rw [c3 q hq]
                refine ⟨by omega, fun hqq => ?_⟩
                rw [d2 hqq]; omega)
            refine ⟨mf', Relation.ReflTransGen.head ⟨i, ⟨hi.live, fun q => ?_, (hi.no _).2 e1.2.2⟩, rfl⟩ r1, r2⟩
            rw [hi.I]; exact e1.2.1 q
        · have he := hold t htp h2.1
          obtain ⟨mf', r1, r2⟩ := ih k (by omega) _ _ mf h3 e2
          exact ⟨mf', Relation.ReflTransGen.head ⟨t, by rw [he]; exact e1, by rw [he]⟩ r1, r2⟩
  constructor
  · intro m hm
    obtain ⟨n, hn⟩ := RunN.of_reach hm
    rw [hinit]
    exact hfwd n n (Nat.le_refl _) _ _ _ hn fun q => ⟨Nat.le_refl _, fun _ => rfl⟩
  · intro m hm
    obtain ⟨m', h1, h2⟩ := reach_sim (N := N') (N' := N) (fun m' m => m' = m) (m0 := N'.init) (m0' := N.init) hinit (by
      rintro m' m m1' rfl ⟨i, hi, rfl⟩
      rcases hall i hi.1 with ⟨_, he⟩ | ⟨c, hc, hz⟩
      · rw [he] at hi ⊢
        exact ⟨_, .single ⟨i, hi, rfl⟩, rfl⟩
      · obtain ⟨c1, _, c3, c4, c5⟩ := hCl c hc
        have hle : ∀ q, (N.tr prod).I q ≤ m' q := fun q => by rw [← hz.I]; exact hi.2.1 q
        refine ⟨(N.tr c).fire ((N.tr prod).fire m'), (Relation.ReflTransGen.single
          ⟨prod, ⟨hpl, hle, (hz.no _).1 hi.2.2⟩, rfl⟩).tail
          ⟨c, ⟨c1, fun q => ?_, hNoC c hc _⟩, rfl⟩, ?_⟩
        · unfold RTr.fire
          by_cases hq : q = pid
          · subst hq; omega
          · rw [c3 q hq]; omega
        · funext q
          unfold RTr.fire
          rw [hz.I, hz.O]
          by_cases hq : q = pid
          · subst hq; omega
          · rw [c3 q hq]; omega) m hm
    exact ⟨m', h1, fun q _ => by rw [h2]⟩

end Reduce
end Verif
