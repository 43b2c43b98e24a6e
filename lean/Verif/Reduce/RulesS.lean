import Verif.Reduce.RulesR2

/-!
# Rule S
-/

namespace Verif
namespace Reduce

/-! ### One consumer -/

/-- The producer and then the consumer, which takes all that the producer made. -/
structure SNewOf (pid : Nat) (x y z : RTr) : Prop where
  live : z.skip = false
  I : ∀ q, z.I q = x.I q + if q = pid then 0 else y.I q
  no : ∀ m, z.NoInh m ↔ y.NoInh m
  O : ∀ q, z.O q = y.O q

/-- What the producers in the list take. -/
def takes (N : RNet) (L : List Nat) (q : Nat) : Nat := (L.map fun p => (N.tr p).I q).sum

theorem takes_cons (N : RNet) (p : Nat) (L : List Nat) (q : Nat) : takes N (p :: L) q = (N.tr p).I q + takes N L q := by
  simp [takes]

/-- The producers of the place. -/
structure SProd (Q : Nat → Bool) (N : RNet) (pid w p : Nat) : Prop where
  live : (N.tr p).skip = false
  inh : (N.tr p).inhib = false
  I : (N.tr p).I pid = 0
  O : (N.tr p).O pid = w
  O0 : ∀ q, q ≠ pid → (N.tr p).O q = 0
  I0 : ∀ q, Q q = true ∨ N.pinhib q = true → (N.tr p).I q = 0

/-- The producers in the list fired in the original net only. -/
structure SRel (Q : Nat → Bool) (N : RNet) (pid w : Nat) (L : List Nat) (m m' : Nat → Nat) : Prop where
  prod : ∀ p ∈ L, SProd Q N pid w p
  q : ∀ q, q ≠ pid → m' q = m q + takes N L q
  p : m pid = m' pid + L.length * w

theorem SRel.eq {Q : Nat → Bool} {N : RNet} {pid w : Nat} {L : List Nat} {m m' : Nat → Nat} (h : SRel Q N pid w L m m')
    {q : Nat} (hq : q ≠ pid) (hqq : Q q = true ∨ N.pinhib q = true) : m' q = m q := by
  have h0 : takes N L q = 0 := by
    have : ∀ p ∈ L, (N.tr p).I q = 0 := fun p hp => (h.prod p hp).I0 q hqq
    clear h
    induction L with
    | nil => rfl
    | cons p L ih =>
      rw [takes_cons, this p (by simp), ih fun p hp => this p (by simp [hp])]
  rw [h.q q hq, h0]; rfl

/-- The producers can catch up until there are enough tokens. -/
theorem SRel.catchUp {Q : Nat → Bool} {N N' : RNet} (hN : N.WF) {pid w k : Nat}
    (hp : ∀ p, SProd Q N pid w p → N'.tr p = N.tr p) : ∀ (L : List Nat) (m m' : Nat → Nat), SRel Q N pid w L m m' →
      m' pid < k + w → k ≤ m pid → ∃ L' m1', N'.Reach m' m1' ∧ SRel Q N pid w L' m m1' ∧ k ≤ m1' pid ∧ m1' pid < k + w := by
  intro L
  induction L with
  | nil =>
    intro m m' h hlt hk
    refine ⟨[], m', .refl, h, ?_, hlt⟩
    have := h.p
    simp at this
    omega
  | cons p L ih =>
    intro m m' h hlt hk
    by_cases hc : k ≤ m' pid
    · exact ⟨p :: L, m', .refl, h, hc, hlt⟩
    · have hpp := h.prod p (by simp)
      have hen : (N.tr p).En m' := by
        refine ⟨hpp.live, fun q => ?_, fun a ha hi => ?_⟩
        · by_cases hq : q = pid
          · subst hq; rw [hpp.I]; omega
          · rw [h.q q hq, takes_cons]; omega
        · rw [(hN.tr p).noInh hpp.inh a ha] at hi; cases hi
      obtain ⟨L', m1', r1, r2⟩ := ih m ((N.tr p).fire m') ⟨fun s hs => h.prod s (by simp [hs]), fun q hq => by
          unfold RTr.fire
          rw [h.q q hq, takes_cons, hpp.O0 q hq]; omega, by
          unfold RTr.fire
          rw [hpp.I, hpp.O]
          have := h.p
          rw [List.length_cons, Nat.succ_mul] at this
          omega⟩ (by unfold RTr.fire; rw [hpp.I, hpp.O]; omega) hk
      exact ⟨L', m1', Relation.ReflTransGen.head ⟨p, by rw [hp p hpp]; exact hen, by rw [hp p hpp]⟩ r1, r2⟩

theorem s_same {Q : Nat → Bool} {N N' : RNet} (hN : N.WF) {pid w c : Nat} {P : Nat → Prop} [DecidablePred P]
    (hinit : N'.init = N.init) (hlt : N.init pid < w) (hP : ∀ p, P p → SProd Q N pid w p)
    (hnP : ∀ s, ¬ P s → (N.tr s).O pid = 0) (hc : (N.tr c).skip = false) (hcw : (N.tr c).I pid = w) (hcP : ¬ P c)
    (hQ : Q pid = false) (hinh : N.pinhib pid = false)
    (hold : ∀ s, s ≠ c → (N.tr s).skip = false → N'.tr s = N.tr s)
    (hnew : ∀ p, P p → ∃ i, SNewOf pid (N.tr p) (N.tr c) (N'.tr i))
    (hall : ∀ i, (N'.tr i).skip = false →
      (i ≠ c ∧ N'.tr i = N.tr i) ∨ ∃ p, P p ∧ SNewOf pid (N.tr p) (N.tr c) (N'.tr i)) : Same Q N N' := by
  have hSP : ∀ p, SProd Q N pid w p → P p := fun p hp => Decidable.of_not_not fun hn => by
    have h1 := hnP p hn
    rw [hp.O] at h1; omega
  have hkeep : ∀ p, SProd Q N pid w p → N'.tr p = N.tr p := fun p hp =>
    hold p (by rintro rfl; exact hcP (hSP _ hp)) hp.live
  refine Same.of_sims (fun m m' => ∃ L, SRel Q N pid w L m m' ∧ m' pid < w) (fun m' m => m' = m)
    ⟨N'.init, .refl, [], ⟨by simp, fun q _ => by rw [hinit]; simp [takes], by rw [hinit]; simp⟩, by rw [hinit]; exact hlt⟩
    ⟨N.init, .refl, hinit⟩ ?_ ?_ ?_ ?_
  · rintro m m' m1 ⟨L, hr, hl⟩ ⟨s, hs, rfl⟩
    have hno : ∀ m1, (∀ q, q ≠ pid → Q q = true ∨ N.pinhib q = true → m1 q = m q) → (N.tr s).NoInh m1 := fun m1 h1 => by
      refine (hN.tr s).noInh_congr (fun q hq => ?_) hs.2.2
      have hqp : q ≠ pid := by rintro rfl; rw [hinh] at hq; cases hq
      exact h1 q hqp (Or.inr hq)
    by_cases hsP : P s
    · have hpp := hP s hsP
      refine ⟨m', .refl, s :: L, ⟨fun p hp => ?_, fun q hq => ?_, ?_⟩, hl⟩
      · rcases List.mem_cons.1 hp with rfl | hp
        · exact hpp
        · exact hr.prod p hp
      · have h1 := hs.2.1 q
        rw [hr.q q hq, takes_cons]
        unfold RTr.fire
        rw [hpp.O0 q hq]; omega
      · unfold RTr.fire
        rw [hpp.I, hpp.O, List.length_cons, Nat.succ_mul, hr.p]; omega
    · by_cases hsc : s = c
      · subst hsc
        cases L with
        | nil =>
          exfalso
          have h1 := hs.2.1 pid
          have h2 := hr.p
          simp at h2
          rw [hcw] at h1; omega
        | cons p L =>
          have hpp := hr.prod p (by simp)
          obtain ⟨i, hi⟩ := hnew p (hSP p hpp)
          have hp0 : m pid = m' pid + L.length * w + w := by
            have := hr.p
            rw [List.length_cons, Nat.succ_mul] at this
            omega
          refine ⟨(N'.tr i).fire m', .single ⟨i, ⟨hi.live, fun q => ?_, (hi.no _).2 (hno m' fun q hq => hr.eq hq)⟩, rfl⟩,
            L, ⟨fun p hp => hr.prod p (by simp [hp]), fun q hq => ?_, ?_⟩, ?_⟩
          · rw [hi.I]
            by_cases hq : q = pid
            · subst hq; rw [if_pos rfl, hpp.I]; omega
            · have h1 := hs.2.1 q
              rw [if_neg hq, hr.q q hq, takes_cons]; omega
          · have h1 := hs.2.1 q
            unfold RTr.fire
            rw [hi.I, hi.O, if_neg hq, hr.q q hq, takes_cons]; omega
          · unfold RTr.fire
            rw [hi.I, hi.O, if_pos rfl, hpp.I, hnP s hsP, hcw]; omega
          · unfold RTr.fire
            rw [hi.I, hi.O, if_pos rfl, hpp.I, hnP s hsP]; omega
      · have he := hold s hsc hs.1
        obtain ⟨L', m1', r1, r2, r3, r4⟩ := SRel.catchUp (N' := N') (k := (N.tr s).I pid) hN hkeep L m m' hr (by omega)
          (hs.2.1 pid)
        refine ⟨(N.tr s).fire m1', r1.tail ⟨s, ?_, by rw [he]⟩, L', ⟨r2.prod, fun q hq => ?_, ?_⟩, ?_⟩
        · rw [he]
          refine ⟨hs.1, fun q => ?_, hno m1' fun q hq => r2.eq hq⟩
          by_cases hq : q = pid
          · subst hq; exact r3
          · have h1 := hs.2.1 q
            rw [r2.q q hq]; omega
        · have h1 := hs.2.1 q
          unfold RTr.fire
          rw [r2.q q hq]; omega
        · unfold RTr.fire
          rw [r2.p]; omega
        · unfold RTr.fire
          rw [hnP s hsP]; omega
  · rintro m' m m1' rfl ⟨i, hi, rfl⟩
    rcases hall i hi.1 with ⟨_, he⟩ | ⟨p, hp, hz⟩
    · rw [he] at hi ⊢
      exact ⟨_, .single ⟨i, hi, rfl⟩, rfl⟩
    · have hpp := hP p hp
      have hle : ∀ q, (N.tr p).I q + (if q = pid then 0 else (N.tr c).I q) ≤ m' q := fun q => by rw [← hz.I]; exact hi.2.1 q
      have hep : (N.tr p).En m' := by
        refine ⟨hpp.live, fun q => ?_, fun a ha hi => ?_⟩
        · have := hle q; omega
        · rw [(hN.tr p).noInh hpp.inh a ha] at hi; cases hi
      have hec : (N.tr c).En ((N.tr p).fire m') := by
        refine ⟨hc, fun q => ?_, (hN.tr c).noInh_congr (fun q hq => ?_) ((hz.no _).1 hi.2.2)⟩
        · have h1 := hle q
          unfold RTr.fire
          by_cases hq : q = pid
          · subst hq; rw [hpp.O, hcw]; omega
          · rw [if_neg hq] at h1; rw [hpp.O0 q hq]; omega
        · have hqp : q ≠ pid := by rintro rfl; rw [hinh] at hq; cases hq
          unfold RTr.fire
          rw [hpp.O0 q hqp, hpp.I0 q (Or.inr hq)]; rfl
      refine ⟨(N.tr c).fire ((N.tr p).fire m'), (Relation.ReflTransGen.single ⟨p, hep, rfl⟩).tail ⟨c, hec, rfl⟩, ?_⟩
      funext q
      have h1 := hle q
      unfold RTr.fire
      rw [hz.I, hz.O]
      by_cases hq : q = pid
      · subst hq; rw [if_pos rfl, hpp.O, hcw, hpp.I]; omega
      · rw [if_neg hq] at h1 ⊢; rw [hpp.O0 q hq]; omega
  · rintro m m' ⟨L, hr, _⟩ q hq
    have hqp : q ≠ pid := by rintro rfl; rw [hQ] at hq; cases hq
    exact hr.eq hqp (Or.inl hq)
  · rintro m' m rfl q _
    rfl

/-! ### The new transitions -/

theorem mem_addArc_inhib {a : Arc} : ∀ {l : List Arc}, a.inhib = false → (∀ b ∈ l, b.place = a.place → b.inhib = false) →
    ∀ b : Arc, b.inhib = true → (b ∈ addArc a l ↔ b ∈ l) := by
  intro l
  induction l with
  | nil =>
    intro ha _ b hb
    simp only [addArc, List.mem_singleton, List.not_mem_nil, iff_false]
    rintro rfl
    rw [ha] at hb; cases hb
  | cons d l ih =>
    intro ha hl b hb
    unfold addArc
    split
    · rw [List.mem_cons, List.mem_cons, ih ha (fun b hb => hl b (by simp [hb])) b hb]
    · split
      · rename_i hd
        have h1 := hl d (by simp) hd
        rw [List.mem_cons, List.mem_cons]
        constructor
        · rintro (rfl | h)
          · rw [h1] at hb; cases hb
          · exact Or.inr h
        · rintro (rfl | h)
          · rw [h1] at hb; cases hb
          · exact Or.inr h
      · rw [List.mem_cons]
        constructor
        · rintro (rfl | h)
          · rw [ha] at hb; cases hb
          · exact h
        · exact Or.inr

theorem mem_addAll_inhib : ∀ {src l : List Arc}, (∀ a ∈ src, a.inhib = false) →
    (∀ a ∈ src, ∀ b ∈ l, b.inhib = true → b.place ≠ a.place) → ∀ b : Arc, b.inhib = true → (b ∈ addAll src l ↔ b ∈ l) := by
  intro src
  induction src with
  | nil => intro l _ _ b _; rfl
  | cons a src ih =>
    intro l hs hd b hb
    have h1 := mem_addArc_inhib (a := a) (l := l) (hs a (by simp)) (fun b hb hp => by
      cases hi : b.inhib with
      | false => rfl
      | true => exact absurd hp (hd a (by simp) b hb hi))
    show b ∈ addAll src (addArc a l) ↔ _
    rw [ih (fun a ha => hs a (by simp [ha])) (fun a' ha' b' hb' hi' => hd a' (by simp [ha']) b' ((h1 b' hi').1 hb') hi') b hb]
    exact h1 b hb

theorem RTr.I_wAt_of {x : RTr} {q : Nat} (h : ∀ a ∈ x.pre, a.place = q → a.inhib = false) : x.I q = wAt x.pre q := by
  unfold RTr.I wAt
  cases he : arcAt x.pre q with
  | none => rfl
  | some a => simp [h a (arcAt_mem he).1 (arcAt_mem he).2]

theorem map_mul_one (l : List Arc) : (l.map fun a => { a with weight := a.weight * 1 }) = l := by
  induction l with
  | nil => rfl
  | cons a l ih => rw [List.map_cons, ih, Nat.mul_one]

theorem sNew_spec {okP : Nat → Prop} {pinhib : Nat → Bool} {pid w : Nat} {x y : RTr} (hx : x.WF okP pinhib)
    (hy : y.WF okP pinhib) (hni : ∀ a ∈ x.pre, a.inhib = false) (hnp : ∀ a ∈ x.pre, pinhib a.place = false)
    (hxp : arcAt x.pre pid = none) (hpi : pinhib pid = false) :
    (sNew pid x y 1 1 w).WF okP pinhib ∧ SNewOf pid x y (sNew pid x y 1 1 w) ∧ (sNew pid x y 1 1 w).post = y.post ∧
      (∀ a ∈ (sNew pid x y 1 1 w).pre, a.place ≠ pid) := by
  have hdS := dropArc_sorted hy.preS pid
  have hpre : (sNew pid x y 1 1 w).pre = addAll x.pre (dropArc pid y.pre) := by
    show addAll x.pre (addAll (dropArc pid y.pre) []) = _
    rw [addAll_nil hdS]
  have hpost : (sNew pid x y 1 1 w).post = y.post := by
    show (if (1 : Nat) ≠ 1 then addArc ⟨pid, (1 - 1) * w, false⟩ (addAll (y.post.map fun a => { a with weight := a.weight * 1 }) []) else addAll (y.post.map fun a => { a with weight := a.weight * 1 }) []) = _
    rw [if_neg (by simp), map_mul_one, addAll_nil hy.postS]
  obtain ⟨p1, p2⟩ := addAll_sorted hx.preS hdS
  have hnoy : ∀ a ∈ y.pre, a.place = pid → a.inhib = false := fun a ha hap => by
    cases hi : a.inhib with
    | false => rfl
    | true =>
      have := hy.inhP a ha hi
      rw [hap, hpi] at this; cases this
  have hinhm : ∀ b : Arc, b.inhib = true → (b ∈ (sNew pid x y 1 1 w).pre ↔ b ∈ y.pre) := by
    intro b hb
    rw [hpre, mem_addAll_inhib hni (fun a ha b hb hi he => by
      have h1 := hy.inhP b (mem_dropArc.1 hb).1 hi
      rw [he, hnp a ha] at h1; cases h1) b hb, mem_dropArc]
    exact ⟨fun h => h.1, fun h => ⟨h, fun hp => by rw [hnoy b h hp] at hb; cases hb⟩⟩
  have hmem : ∀ a ∈ (sNew pid x y 1 1 w).pre, 0 < a.weight ∧ okP a.place ∧ a.place ≠ pid := by
    rw [hpre]
    refine addAll_mem (fun a => 0 < a.weight ∧ okP a.place ∧ a.place ≠ pid)
      (fun b w h => ⟨Nat.lt_of_lt_of_le h.1 (Nat.le_add_right _ _), h.2⟩) (fun a ha => ⟨hx.preW a ha, hx.preP a ha,
        arcAt_none.1 hxp a ha⟩) (fun a ha => ?_)
    obtain ⟨h1, h2⟩ := mem_dropArc.1 ha
    exact ⟨hy.preW a h1, hy.preP a h1, h2⟩
  have hpS : Sorted (sNew pid x y 1 1 w).pre := by rw [hpre]; exact p1
  refine ⟨?_, ⟨rfl, fun q => ?_, fun m => ?_, fun q => ?_⟩, hpost, fun a ha => (hmem a ha).2.2⟩
  · exact {
      preS := hpS
      postS := by rw [hpost]; exact hy.postS
      preW := fun a ha => (hmem a ha).1
      postW := by rw [hpost]; exact hy.postW
      postI := by rw [hpost]; exact hy.postI
      preP := fun a ha => (hmem a ha).2.1
      postP := by rw [hpost]; exact hy.postP
      empty := fun h => by cases h
      inhT := fun a ha hi => by
        show ((dropArc pid y.pre).any fun a => a.inhib) = true
        exact List.any_eq_true.2 ⟨a, mem_dropArc.2 ⟨(hinhm a hi).1 ha, (hmem a ha).2.2⟩, hi⟩
      inhP := fun a ha hi => hy.inhP a ((hinhm a hi).1 ha) hi }
  · by_cases hq : q = pid
    · subst hq
      rw [if_pos rfl, RTr.I_none hxp, RTr.I_none (arcAt_none.2 fun a ha => (hmem a ha).2.2)]
    · rw [if_neg hq]
      by_cases hin : ∃ a ∈ y.pre, a.place = q ∧ a.inhib = true
      · obtain ⟨a, ha, hap, hi⟩ := hin
        have e1 := RTr.I_inh hpS ((hinhm a hi).2 ha) hi
        have e2 := RTr.I_inh hy.preS ha hi
        rw [hap] at e1 e2
        have e3 : x.I q = 0 := RTr.I_none (arcAt_none.2 fun b hb hbq => by
          have h1 := hy.inhP a ha hi
          rw [hap, ← hbq, hnp b hb] at h1; cases h1)
        rw [e1, e2, e3]
      · have hy' : ∀ a ∈ y.pre, a.place = q → a.inhib = false := fun a ha hap => by
          cases hi : a.inhib with
          | false => rfl
          | true => exact absurd ⟨a, ha, hap, hi⟩ hin
        rw [RTr.I_wAt_of hy', RTr.I_wAt_of (x := x) (fun a ha _ => hni a ha), RTr.I_wAt_of (x := sNew pid x y 1 1 w)
          (fun a ha hap => by
            cases hi : a.inhib with
            | false => rfl
            | true => rw [hy' a ((hinhm a hi).1 ha) hap] at hi; cases hi), hpre, p2, wAt_dropArc, if_neg hq]
        omega
  · unfold RTr.NoInh
    exact ⟨fun h a ha hi => h a ((hinhm a hi).2 ha) hi, fun h a ha hi => h a ((hinhm a hi).1 ha) hi⟩
  · unfold RTr.O; rw [hpost]

theorem sAdd_bad (pid t c k w : Nat) : ∀ (l : List Nat) (N : RNet), (sAdd pid t c k w l N).bad = N.bad := by
  intro l
  induction l with
  | nil => intro N; rfl
  | cons a l ih =>
    intro N
    unfold sAdd
    rw [ih]
    simp only [RNet.newTrans]
    split <;> rfl

theorem sAddAll_bad (pid : Nat) (c : SCon) (split : Bool) : ∀ (l : List Nat) (s : RNet × Nat),
    (sAddAll pid c split l s).1.bad = s.1.bad := by
  intro l
  induction l with
  | nil => intro s; rfl
  | cons a l ih =>
    intro s
    unfold sAddAll
    simp only
    rw [ih, sAdd_bad]

theorem sCons_mono {atomic : Bool} {pid : Nat} {prods : List Nat} : ∀ (cs : List SCon) (o : SOut),
    Mono o.net (sCons atomic pid prods cs o).net := by
  intro cs
  induction cs with
  | nil => intro o; exact Mono.refl _
  | cons c cs ih =>
    intro o
    unfold sCons
    split
    · exact ih o
    · intro hb
      have h1 := ih _ hb
      simp only at h1
      have h2 : (sAddAll pid c (atomic && !c.one) prods (o.net.flag (atomic && !c.one), 0)).1.bad = false := h1
      rw [sAddAll_bad] at h2
      exact (flag_bad h2).1

/-- The new transitions for one consumer. -/
def SNew (N0 : RNet) (pid c : Nat) (P : List Nat) (z : RTr) : Prop :=
  z.post = (N0.tr c).post ∧ (∀ a ∈ z.pre, a.place ≠ pid) ∧ ∃ p ∈ P, SNewOf pid (N0.tr p) (N0.tr c) z

theorem sAddAll_spec {N0 : RNet} (h0 : N0.WF) {pid : Nat} {c : SCon} {P : List Nat} (hc : (N0.tr c.id).skip = false)
    (hpi : N0.pinhib pid = false)
    (hP : ∀ p ∈ P, (N0.tr p).skip = false ∧ (∀ a ∈ (N0.tr p).pre, a.inhib = false ∧ N0.pinhib a.place = false) ∧
      arcAt (N0.tr p).pre pid = none) :
    ∀ (ps done : List Nat) (N : RNet) (n : Nat), (∀ p ∈ ps, p ∈ P) → Adds (SNew N0 pid c.id P) N0 N →
      (∀ p ∈ done, ∃ i, SNewOf pid (N0.tr p) (N0.tr c.id) (N.tr i) ∧ (N0.tr i).skip = true) →
      Adds (SNew N0 pid c.id P) N0 (sAddAll pid c false ps (N, n)).1 ∧
      ∀ p, p ∈ done ∨ p ∈ ps →
        ∃ i, SNewOf pid (N0.tr p) (N0.tr c.id) ((sAddAll pid c false ps (N, n)).1.tr i) ∧ (N0.tr i).skip = true := by
  intro ps
  induction ps with
  | nil =>
    intro done N n _ h1 h3
    refine ⟨h1, fun p hp => ?_⟩
    rcases hp with hp | hp
    · exact h3 p hp
    · cases hp
  | cons p ps ih =>
    intro done N n hps h1 h3
    obtain ⟨p1, p2, p3⟩ := hP p (hps p (by simp))
    have hpe : N.tr p = N0.tr p := h1.old p p1
    have hce : N.tr c.id = N0.tr c.id := h1.old c.id hc
    obtain ⟨z1, z2, z3, z4⟩ := sNew_spec (w := c.w) (h0.tr p) (h0.tr c.id) (fun a ha => (p2 a ha).1)
      (fun a ha => (p2 a ha).2) p3 hpi
    have hadd := h1.newTrans z1 z2.live ⟨z3, z4, p, hps p (by simp), z2⟩
    obtain ⟨n1, n2, _⟩ := newTrans_spec h1.wf (sNew pid (N0.tr p) (N0.tr c.id) 1 1 c.w)
    have hstep : sAddAll pid c false (p :: ps) (N, n) =
        sAddAll pid c false ps ((N.newTrans (sNew pid (N0.tr p) (N0.tr c.id) 1 1 c.w)).2, n + 1) := by
      rw [← hpe, ← hce]; rfl
    rw [hstep]
    have hdead : (N0.tr (N.newTrans (sNew pid (N0.tr p) (N0.tr c.id) 1 1 c.w)).1).skip = true := by
      cases hs : (N0.tr (N.newTrans (sNew pid (N0.tr p) (N0.tr c.id) 1 1 c.w)).1).skip with
      | true => rfl
      | false => rw [h1.old _ hs, hs] at n1; cases n1
    generalize (N.newTrans (sNew pid (N0.tr p) (N0.tr c.id) 1 1 c.w)).2 = N1 at hadd n2 ⊢
    generalize (N.newTrans (sNew pid (N0.tr p) (N0.tr c.id) 1 1 c.w)).1 = id at n1 n2 hdead
    obtain ⟨i1, i2⟩ := ih (p :: done) N1 (n + 1) (fun d hd => hps d (by simp [hd])) hadd (fun d hd => by
      rcases List.mem_cons.1 hd with rfl | hd
      · exact ⟨id, by rw [n2, if_pos rfl]; exact z2, hdead⟩
      · obtain ⟨i, hi, hi'⟩ := h3 d hd
        have : i ≠ id := by
          rintro rfl
          rw [hi.live] at n1; cases n1
        exact ⟨i, by rw [n2, if_neg this]; exact hi, hi'⟩)
    refine ⟨i1, fun d hd => i2 d ?_⟩
    rcases hd with hd | hd
    · exact Or.inl (by simp [hd])
    · rcases List.mem_cons.1 hd with rfl | hd
      · exact Or.inl (by simp)
      · exact Or.inr hd

/-! ### The loop over the consumers -/

/-- The conditions on the producers that hold for all consumers. -/
def SOkP (Q : Nat → Bool) (N : RNet) (p : Nat) : Prop :=
  (N.tr p).inhib = false ∧ (N.tr p).post.length = 1 ∧ ∀ a ∈ (N.tr p).pre, Q a.place = false ∧ N.pinhib a.place = false

structure SInv (Q : Nat → Bool) (atomic : Bool) (pid : Nat) (prods : List Nat) (cs : List SCon) (N : RNet) : Prop where
  wf : N.WF
  prod : ∀ s, s ∈ N.producers pid ↔ s ∈ prods
  ok : ∀ p ∈ prods, SOkP Q N p ∧ p ∉ N.consumers pid
  nd : (cs.map (·.id)).Nodup
  con : ∀ c ∈ cs, c.id ∈ N.consumers pid ∧ c.w = wAt (N.tr c.id).pre pid
  eq : ∀ c ∈ cs, c.todo = true → (atomic && !c.one) = false → N.init pid < c.w ∧ ∀ p ∈ prods, wAt (N.tr p).post pid = c.w
  pinh : N.pinhib pid = false

theorem sStep_spec {Q : Nat → Bool} {atomic : Bool} {pid : Nat} {prods : List Nat} {c : SCon} {cs : List SCon} {N : RNet}
    (hQ : Q pid = false) (h : SInv Q atomic pid prods (c :: cs) N) (ht : c.todo = true) (ho : (atomic && !c.one) = false) :
    Fine Q N ((sAddAll pid c false prods (N, 0)).1.skipTrans c.id) ∧
      SInv Q atomic pid prods cs ((sAddAll pid c false prods (N, 0)).1.skipTrans c.id) := by
  have hN := h.wf
  obtain ⟨nd1, nd2⟩ := List.nodup_cons.1 h.nd
  obtain ⟨c1, c2⟩ := h.con c (by simp)
  obtain ⟨hcl, hcn⟩ := consumers_live hN c1
  obtain ⟨hlt, hw⟩ := h.eq c (by simp) ht ho
  have hplive : ∀ p ∈ prods, (N.tr p).skip = false := fun p hp => (producers_live hN ((h.prod p).2 hp)).1
  have hcP : c.id ∉ prods := fun hp => (h.ok c.id hp).2 c1
  have hpni : ∀ p ∈ prods, ∀ a ∈ (N.tr p).pre, a.inhib = false := fun p hp => (hN.tr p).noInh (h.ok p hp).1.1
  obtain ⟨a1, a3⟩ := sAddAll_spec hN (pid := pid) (c := c) (P := prods) hcl h.pinh (fun p hp =>
      ⟨hplive p hp, fun a ha => ⟨hpni p hp a ha, ((h.ok p hp).1.2.2 a ha).2⟩,
        arcAt_none_of_not_consumer hN (h.ok p hp).2⟩) prods [] N 0 (fun _ hp => hp) (Adds.refl hN) (by simp)
  generalize (sAddAll pid c false prods (N, 0)).1 = N1 at a1 a3 ⊢
  have ht1 : N1.tr c.id = N.tr c.id := a1.old c.id hcl
  have hl1 : (N1.tr c.id).skip = false := by rw [ht1]; exact hcl
  have hlt1 : c.id < N1.nt := Nat.lt_of_not_le fun hc => by
    have := a1.wf.out c.id hc
    rw [hl1] at this; cases this
  have hW := skipTrans_WF a1.wf hlt1 hl1
  have htr : ∀ s, s ≠ c.id → (N1.skipTrans c.id).tr s = N1.tr s := fun s hs => by rw [skipTrans_tr, if_neg hs]
  have hdead : ((N1.skipTrans c.id).tr c.id).skip = true := by rw [skipTrans_tr, if_pos rfl]
  have hold : ∀ s, s ≠ c.id → (N.tr s).skip = false → (N1.skipTrans c.id).tr s = N.tr s := fun s hs hl => by
    rw [htr s hs, a1.old s hl]
  have hci : (N.tr c.id).I pid = c.w := by
    rw [c2, RTr.I_wAt_of]
    intro a ha hap
    cases hi : a.inhib with
    | false => rfl
    | true =>
      have := (hN.tr c.id).inhP a ha hi
      rw [hap, h.pinh] at this; cases this
  refine ⟨⟨hW, ?_⟩, ?_⟩
  · refine s_same (pid := pid) (w := c.w) (c := c.id) (P := fun s => s ∈ prods) hN a1.init hlt (fun p hp => ?_) (fun s hs => ?_)
      hcl hci hcP hQ h.pinh hold (fun p hp => ?_) (fun i hi => ?_)
    · obtain ⟨⟨k1, k2, k3⟩, k4⟩ := h.ok p hp
      refine ⟨hplive p hp, k1, RTr.I_none (arcAt_none_of_not_consumer hN k4), hw p hp, fun q hq => ?_, fun q hq => ?_⟩
      · obtain ⟨b, hb, hbp⟩ := (mem_producers hN).1 ((h.prod p).2 hp)
        rw [List.length_eq_one_iff] at k2
        obtain ⟨d, hd⟩ := k2
        refine wAt_none (arcAt_none.2 fun a ha hap => hq ?_)
        rw [hd, List.mem_singleton] at ha hb
        rw [← hap, ha, ← hb, hbp]
      · refine RTr.I_none (arcAt_none.2 fun a ha hap => ?_)
        obtain ⟨e1, e2⟩ := k3 a ha
        rw [hap] at e1 e2
        rcases hq with hq | hq
        · rw [e1] at hq; cases hq
        · rw [e2] at hq; cases hq
    · exact wAt_none (arcAt_none_of_not_producer hN fun hp => hs ((h.prod s).1 hp))
    · obtain ⟨i, hi, hi'⟩ := a3 p (Or.inr hp)
      refine ⟨i, ?_⟩
      rw [htr i (by rintro rfl; rw [hcl] at hi'; cases hi')]
      exact hi
    · have hit : i ≠ c.id := by rintro rfl; rw [hdead] at hi; cases hi
      rw [htr i hit] at hi ⊢
      rcases a1.new i hi with hl | ⟨_, _, p, hp, hz⟩
      · exact Or.inl ⟨hit, a1.old i hl⟩
      · exact Or.inr ⟨p, hp, hz⟩
  · have hnprod : c.id ∉ N.producers pid := fun hp => hcP ((h.prod _).1 hp)
    have hprod : ∀ s, s ∈ (N1.skipTrans c.id).producers pid ↔ s ∈ prods := by
      intro s
      rw [mem_producers hW]
      constructor
      · rintro ⟨a, ha, hap⟩
        have hst : s ≠ c.id := by
          rintro rfl
          rw [skipTrans_tr, if_pos rfl] at ha; cases ha
        rw [htr s hst] at ha
        have hl : (N1.tr s).skip = false := by
          cases hs : (N1.tr s).skip with
          | false => rfl
          | true => rw [((a1.wf.tr s).empty hs).2] at ha; cases ha
        rcases a1.new s hl with hl0 | ⟨hp, _⟩
        · rw [a1.old s hl0] at ha
          exact (h.prod s).1 ((mem_producers hN).2 ⟨a, ha, hap⟩)
        · rw [hp] at ha
          exact absurd ((mem_producers hN).2 ⟨a, ha, hap⟩) hnprod
      · intro hs
        have hst : s ≠ c.id := by rintro rfl; exact hcP hs
        rw [hold s hst (hplive s hs)]
        exact (mem_producers hN).1 ((h.prod s).2 hs)
    have hcons : ∀ s, s ∈ (N1.skipTrans c.id).consumers pid → s ≠ c.id ∧ s ∈ N.consumers pid := by
      intro s hs
      obtain ⟨a, ha, hap⟩ := (mem_consumers hW).1 hs
      have hst : s ≠ c.id := by
        rintro rfl
        rw [skipTrans_tr, if_pos rfl] at ha; cases ha
      rw [htr s hst] at ha
      have hl : (N1.tr s).skip = false := by
        cases hs : (N1.tr s).skip with
        | false => rfl
        | true => rw [((a1.wf.tr s).empty hs).1] at ha; cases ha
      rcases a1.new s hl with hl0 | ⟨_, hp, _⟩
      · rw [a1.old s hl0] at ha
        exact ⟨hst, (mem_consumers hN).2 ⟨a, ha, hap⟩⟩
      · exact absurd hap (hp a ha)
    have hpt : ∀ p ∈ prods, (N1.skipTrans c.id).tr p = N.tr p := fun p hp =>
      hold p (by rintro rfl; exact hcP hp) (hplive p hp)
    refine ⟨hW, hprod, fun p hp => ⟨?_, fun hc => (h.ok p hp).2 (hcons p hc).2⟩, nd2, fun d hd => ?_, fun d hd => ?_, ?_⟩
    · obtain ⟨k1, k2, k3⟩ := (h.ok p hp).1
      unfold SOkP
      rw [hpt p hp]
      refine ⟨k1, k2, fun a ha => ⟨(k3 a ha).1, ?_⟩⟩
      show N1.pinhib a.place = false
      rw [a1.pinhib]; exact (k3 a ha).2
    · obtain ⟨d1, d2⟩ := h.con d (by simp [hd])
      have hdc : d.id ≠ c.id := fun he => nd1 (List.mem_map.2 ⟨d, hd, he⟩)
      have hdt := hold d.id hdc (consumers_live hN d1).1
      refine ⟨(mem_consumers hW).2 ?_, by rw [hdt]; exact d2⟩
      rw [hdt]
      exact (mem_consumers hN).1 d1
    · intro e1 e2
      obtain ⟨f1, f2⟩ := h.eq d (by simp [hd]) e1 e2
      refine ⟨?_, fun p hp => by rw [hpt p hp]; exact f2 p hp⟩
      show N1.init pid < d.w
      rw [a1.init]; exact f1
    · show N1.pinhib pid = false
      rw [a1.pinhib]; exact h.pinh

theorem sCons_spec {Q : Nat → Bool} {atomic : Bool} {pid : Nat} {prods : List Nat} (hQ : Q pid = false) :
    ∀ (cs : List SCon) (o : SOut), SInv Q atomic pid prods cs o.net → (sCons atomic pid prods cs o).net.bad = false →
      Fine Q o.net (sCons atomic pid prods cs o).net ∧ SInv Q atomic pid prods [] (sCons atomic pid prods cs o).net := by
  intro cs
  induction cs with
  | nil => intro o h _; exact ⟨Fine.refl h.wf, h⟩
  | cons c cs ih =>
    intro o h hb
    unfold sCons at hb ⊢
    by_cases hl : sLeave atomic o.net c = true
    · rw [if_pos hl] at hb ⊢
      exact ih o ⟨h.wf, h.prod, h.ok, (List.nodup_cons.1 h.nd).2, fun d hd => h.con d (by simp [hd]),
        fun d hd => h.eq d (by simp [hd]), h.pinh⟩ hb
    · rw [if_neg hl] at hb ⊢
      have ht : c.todo = true := by
        cases hc : c.todo with
        | true => rfl
        | false => exact absurd (by unfold sLeave; rw [hc]; rfl) hl
      have ho : (atomic && !c.one) = false := by
        have h1 := sCons_mono _ _ hb
        simp only at h1
        have h2 : (sAddAll pid c (atomic && !c.one) prods (o.net.flag (atomic && !c.one), 0)).1.bad = false := h1
        rw [sAddAll_bad] at h2
        exact (flag_bad h2).2
      simp only at hb ⊢
      rw [ho, flag_false] at hb ⊢
      obtain ⟨s1, s2⟩ := sStep_spec hQ h ht ho
      obtain ⟨i1, i2⟩ := ih ⟨(sAddAll pid c false prods (o.net, 0)).1.skipTrans c.id, true,
        o.diff + (sAddAll pid c false prods (o.net, 0)).2 - 1⟩ s2 hb
      exact ⟨s1.trans i1, i2⟩

/-! ### The conditions -/

theorem sUpd_spec (init kw : Nat) (c : SCon) : (sUpd init kw c).id = c.id ∧ (sUpd init kw c).w = c.w ∧
    ((sUpd init kw c).todo = true → c.todo = true ∧ init < c.w) ∧
    ((sUpd init kw c).todo = true → (sUpd init kw c).one = true → c.one = true ∧ kw = c.w) := by
  unfold sUpd
  split
  · exact ⟨rfl, rfl, fun h => (by cases h), fun h => (by cases h)⟩
  · rename_i h1
    split
    · exact ⟨rfl, rfl, fun h => ⟨h, by omega⟩, fun _ h => (by cases h)⟩
    · rename_i h2
      exact ⟨rfl, rfl, fun h => ⟨h, by omega⟩, fun _ h => ⟨h, Decidable.of_not_not h2⟩⟩

/-- What `sProds` guarantees for a consumer. -/
def SFrom (atomic : Bool) (N : RNet) (pid : Nat) (ts : List Nat) (c c' : SCon) : Prop :=
  c'.id = c.id ∧ c'.w = c.w ∧ (c'.todo = true → c.todo = true) ∧ (c'.todo = true → c'.one = true → c.one = true) ∧
  (c'.todo = true → (atomic && !c'.one) = false → ∀ t ∈ ts, N.init pid < c'.w ∧ wAt (N.tr t).post pid = c'.w)

theorem sProd_spec {Q : Nat → Bool} {atomic : Bool} {N : RNet} {pid t : Nat} {cs cs' : List SCon}
    (h : sProd Q atomic N pid t cs = some cs') : SOkP Q N t ∧ cs'.map (·.id) = cs.map (·.id) ∧
      ∀ c' ∈ cs', ∃ c ∈ cs, SFrom atomic N pid [t] c c' := by
  unfold sProd at h
  simp only at h
  generalize hg : (if atomic = true then cs.map (sUpd (N.init pid) (wAt (N.tr t).post pid)) else cs) = cs1 at h
  split at h
  · cases h
  rename_i h1
  split at h
  · cases h
  rename_i h2
  split at h
  · cases h
  split at h
  · cases h
  rename_i h4
  simp only [Bool.or_eq_true, decide_eq_true_eq, not_or, Bool.not_eq_true] at h1
  have hok : SOkP Q N t := by
    refine ⟨h1.1, Decidable.of_not_not h1.2, fun a ha => ?_⟩
    have h5 : ¬ _ := fun hc => h4 (List.any_eq_true.2 ⟨a, ha, hc⟩)
    simp only [Bool.or_eq_true, not_or, Bool.not_eq_true] at h5
    exact ⟨h5.1.2, h5.1.1⟩
  cases ha : atomic with
  | true =>
    subst ha
    rw [if_pos rfl] at hg
    obtain rfl := Option.some.inj h
    subst hg
    refine ⟨hok, ?_, fun c' hc' => ?_⟩
    · rw [List.map_map]
      apply List.map_congr_left
      intro c _
      exact (sUpd_spec _ _ c).1
    · obtain ⟨c, hc, rfl⟩ := List.mem_map.1 hc'
      obtain ⟨u1, u2, u3, u4⟩ := sUpd_spec (N.init pid) (wAt (N.tr t).post pid) c
      refine ⟨c, hc, u1, u2, fun h => (u3 h).1, fun h h' => (u4 h h').1, fun h h' s hs => ?_⟩
      rw [List.mem_singleton] at hs
      subst hs
      rw [u2]
      exact ⟨(u3 h).2, (u4 h (by simpa using h')).2⟩
  | false =>
    subst ha
    rw [if_neg (by simp)] at hg
    obtain rfl := Option.some.inj h
    subst hg
    refine ⟨hok, rfl, fun c hc => ⟨c, hc, rfl, rfl, fun h => h, fun _ h => h, fun _ _ s hs => ?_⟩⟩
    rw [List.mem_singleton] at hs
    subst hs
    have h5 : ¬ _ := fun hc' => h2 (by rw [Bool.and_eq_true]; exact ⟨rfl, List.any_eq_true.2 ⟨c, hc, hc'⟩⟩)
    simp only [Bool.or_eq_true, decide_eq_true_eq, not_or] at h5
    exact ⟨Nat.lt_of_not_le h5.1, Decidable.of_not_not h5.2⟩

theorem sProds_spec {Q : Nat → Bool} {atomic : Bool} {N : RNet} {pid : Nat} : ∀ {ts : List Nat} {cs cs' : List SCon},
    sProds Q atomic N pid ts cs = some cs' → (∀ t ∈ ts, SOkP Q N t) ∧ cs'.map (·.id) = cs.map (·.id) ∧
      ∀ c' ∈ cs', ∃ c ∈ cs, SFrom atomic N pid ts c c' := by
  intro ts
  induction ts with
  | nil =>
    intro cs cs' h
    obtain rfl := Option.some.inj h
    exact ⟨by simp, rfl, fun c hc => ⟨c, hc, rfl, rfl, fun h => h, fun _ h => h, by simp⟩⟩
  | cons t ts ih =>
    intro cs cs' h
    unfold sProds at h
    split at h
    · cases h
    rename_i cs1 h1
    obtain ⟨a1, a2, a3⟩ := sProd_spec h1
    obtain ⟨b1, b2, b3⟩ := ih h
    refine ⟨fun s hs => ?_, b2.trans a2, fun c' hc' => ?_⟩
    · rcases List.mem_cons.1 hs with rfl | hs
      · exact a1
      · exact b1 s hs
    · obtain ⟨c1, hc1, e1, e2, e3, e4, e5⟩ := b3 c' hc'
      obtain ⟨c, hc, f1, f2, f3, f4, f5⟩ := a3 c1 hc1
      refine ⟨c, hc, e1.trans f1, e2.trans f2, fun h => f3 (e3 h), fun h h' => f4 (e3 h) (e4 h h'), fun h h' s hs => ?_⟩
      rcases List.mem_cons.1 hs with rfl | hs
      · rw [e2]
        refine f5 (e3 h) ?_ s (by simp)
        cases ha : atomic with
        | false => rfl
        | true =>
          rw [ha] at h'
          have : c'.one = true := by simpa using h'
          rw [e4 h this]; rfl
      · exact e5 h h' s hs

/-! ### The end -/

/-- Transitions that only put tokens on a place that nobody uses. -/
theorem skip_sink {Q : Nat → Bool} {N : RNet} (hN : N.WF) {pid t : Nat} (hl : (N.tr t).skip = false)
    (hQ : Q pid = false) (hinh : N.pinhib pid = false) (hO : ∀ q, q ≠ pid → (N.tr t).O q = 0)
    (hI : ∀ q, Q q = true ∨ N.pinhib q = true → (N.tr t).I q = 0) (hC : ∀ s, (N.tr s).I pid = 0) :
    Fine Q N (N.skipTrans t) := by
  have hlt : t < N.nt := Nat.lt_of_not_le fun hc => by
    have := hN.out t hc
    rw [hl] at this; cases this
  refine ⟨skipTrans_WF hN hlt hl, Same.of_sims
    (fun m m' => ∀ q, q ≠ pid → m q ≤ m' q ∧ (Q q = true ∨ N.pinhib q = true → m' q = m q)) (fun m' m => m' = m)
    ⟨N.init, .refl, fun p _ => ⟨Nat.le_refl _, fun _ => rfl⟩⟩ ⟨N.init, .refl, rfl⟩ ?_ ?_ ?_ ?_⟩
  · rintro m m' m1 hd ⟨s, hs, rfl⟩
    by_cases hst : s = t
    · subst hst
      refine ⟨m', .refl, fun q hq => ?_⟩
      obtain ⟨d1, d2⟩ := hd q hq
      unfold RTr.fire
      rw [hO q hq]
      refine ⟨by omega, fun hqq => ?_⟩
      rw [d2 hqq, hI q hqq]; omega
    · refine ⟨(N.tr s).fire m', .single ⟨s, ?_, ?_⟩, fun q hq => ?_⟩
      · rw [skipTrans_tr, if_neg hst]
        refine ⟨hs.1, fun q => ?_, (hN.tr s).noInh_congr (fun q hq => ?_) hs.2.2⟩
        · by_cases hq : q = pid
          · subst hq; rw [hC]; omega
          · exact Nat.le_trans (hs.2.1 q) (hd q hq).1
        · have hqp : q ≠ pid := by rintro rfl; rw [hinh] at hq; cases hq
          exact (hd q hqp).2 (Or.inr hq)
      · rw [skipTrans_tr, if_neg hst]
      · obtain ⟨d1, d2⟩ := hd q hq
        have := hs.2.1 q
        unfold RTr.fire
        exact ⟨by omega, fun hqq => by rw [d2 hqq]⟩
  · rintro m' m m1' rfl ⟨s, hs, rfl⟩
    obtain ⟨h1, h2⟩ := skipTrans_en hs
    rw [h2] at hs ⊢
    exact ⟨_, .single ⟨s, hs, rfl⟩, rfl⟩
  · intro m m' hd q hq
    have hqp : q ≠ pid := by rintro rfl; rw [hQ] at hq; cases hq
    exact (hd q hqp).2 (Or.inl hq)
  · rintro m' m rfl q _
    rfl

theorem skipAll_sink {Q : Nat → Bool} {pid : Nat} (hQ : Q pid = false) : ∀ (l : List Nat) (N : RNet), N.WF → l.Nodup →
    (∀ t ∈ l, (N.tr t).skip = false) → N.pinhib pid = false → (∀ t ∈ l, ∀ q, q ≠ pid → (N.tr t).O q = 0) →
    (∀ t ∈ l, ∀ q, Q q = true ∨ N.pinhib q = true → (N.tr t).I q = 0) → (∀ s, ∀ a ∈ (N.tr s).pre, a.place ≠ pid) →
    Fine Q N (skipAll l N) ∧ ∀ s, ∀ a ∈ ((skipAll l N).tr s).pre, a.place ≠ pid := by
  intro l
  induction l with
  | nil => intro N hN _ _ _ _ _ h; exact ⟨Fine.refl hN, h⟩
  | cons t l ih =>
    intro N hN hnd hl hi hO hI hC
    obtain ⟨n1, n2⟩ := List.nodup_cons.1 hnd
    have hf : Fine Q N (N.skipTrans t) := skip_sink hN (hl t (by simp)) hQ hi (hO t (by simp)) (hI t (by simp))
      fun s => RTr.I_none (arcAt_none.2 (hC s))
    have hne : ∀ s ∈ l, (N.skipTrans t).tr s = N.tr s := fun s hs => by
      rw [skipTrans_tr, if_neg (by rintro rfl; exact n1 hs)]
    obtain ⟨i1, i2⟩ := ih (N.skipTrans t) hf.1 n2 (fun s hs => by rw [hne s hs]; exact hl s (by simp [hs])) hi
      (fun s hs => by rw [hne s hs]; exact hO s (by simp [hs])) (fun s hs => by rw [hne s hs]; exact hI s (by simp [hs]))
      (fun s a ha => by
        rw [skipTrans_tr] at ha
        split at ha
        · cases ha
        · exact hC s a ha)
    exact ⟨hf.trans i1, i2⟩

theorem sPlace_good {Q : Nat → Bool} {atomic : Bool} {N : RNet} {pid : Nat} {o : SOut}
    (h : sPlace Q atomic N pid = some o) : Good Q N o.net := by
  unfold sPlace at h
  split at h
  · cases h
  rename_i hok
  simp only [Bool.or_eq_true, not_or, Bool.not_eq_true] at hok
  obtain ⟨⟨⟨⟨⟨_, h2⟩, h3⟩, h4⟩, _⟩, h6⟩ := hok
  split at h
  · cases h
  rename_i cs hcs
  obtain ⟨p1, p2, p3⟩ := sProds_spec hcs
  simp only at h
  have hmono := sCons_mono (atomic := atomic) (pid := pid) (prods := N.producers pid) cs ⟨N, false, 0⟩
  have hinv : N.WF → SInv Q atomic pid (N.producers pid) cs N := fun hN => by
    refine ⟨hN, fun _ => Iff.rfl, fun p hp => ⟨p1 p hp, fun hc => ?_⟩, ?_, fun c hc => ?_, fun c hc e1 e2 => ?_, h2⟩
    · have := List.any_eq_false.1 h6 p hp
      rw [List.contains_iff_mem.2 hc] at this
      exact this rfl
    · rw [p2, List.map_map]
      have : ((fun x : SCon => x.id) ∘ fun c => (⟨c, wAt (N.tr c).pre pid, true, true⟩ : SCon)) = id := rfl
      rw [this, List.map_id]
      exact consumers_nodup N pid
    · obtain ⟨c0, hc0, e1, e2, _⟩ := p3 c hc
      obtain ⟨d, hd, rfl⟩ := List.mem_map.1 hc0
      rw [e1, e2]
      exact ⟨hd, rfl⟩
    · obtain ⟨c0, hc0, _, _, _, _, e5⟩ := p3 c hc
      have hne : N.producers pid ≠ [] := by
        intro he
        rw [he] at h4; cases h4
      obtain ⟨t, ht⟩ := List.exists_mem_of_ne_nil _ hne
      exact ⟨(e5 e1 e2 t ht).1, fun p hp => (e5 e1 e2 p hp).2⟩
  have hspec : N.WF → _ := fun hN => sCons_spec (Q := Q) (atomic := atomic) (pid := pid) (prods := N.producers pid) h3 cs
    ⟨N, false, 0⟩ (hinv hN)
  generalize sCons atomic pid (N.producers pid) cs ⟨N, false, 0⟩ = r at h hmono hspec
  simp only at hmono hspec
  split at h
  · rename_i hc
    rw [List.isEmpty_iff] at hc
    obtain rfl := Option.some.inj h
    have hb : ((skipAll (r.net.producers pid) r.net).skipPlace pid).bad = r.net.bad := skipAll_bad _ _
    refine ⟨fun hb' => hmono (by rw [← hb]; exact hb'), fun hN hb' => ?_⟩
    obtain ⟨s1, hr⟩ := hspec hN (by rw [← hb]; exact hb')
    have hW := hr.wf
    obtain ⟨e1, e2⟩ := skipAll_sink (Q := Q) (pid := pid) h3 (r.net.producers pid) r.net hW (producers_nodup _ _)
      (fun t ht => (producers_live hW ht).1) hr.pinh (fun p hp q hq => by
        obtain ⟨⟨_, k2, _⟩, _⟩ := hr.ok p ((hr.prod p).1 hp)
        obtain ⟨b, hb, hbp⟩ := (mem_producers hW).1 hp
        rw [List.length_eq_one_iff] at k2
        obtain ⟨d, hd⟩ := k2
        refine wAt_none (arcAt_none.2 fun a ha hap => hq ?_)
        rw [hd, List.mem_singleton] at ha hb
        rw [← hap, ha, ← hb, hbp]) (fun p hp q hq => by
        obtain ⟨⟨_, _, k3⟩, _⟩ := hr.ok p ((hr.prod p).1 hp)
        refine RTr.I_none (arcAt_none.2 fun a ha hap => ?_)
        obtain ⟨e1, e2⟩ := k3 a ha
        rw [hap] at e1 e2
        rcases hq with hq | hq
        · rw [e1] at hq; cases hq
        · rw [e2] at hq; cases hq) (fun s a ha hap => by
        have : s ∈ r.net.consumers pid := (mem_consumers hW).2 ⟨a, ha, hap⟩
        rw [hc] at this; cases this)
    refine s1.trans (e1.trans ⟨skipPlace_WF e1.1 pid, ?_⟩)
    exact skipPlace_same e1.1 h3 (fun _ => True) trivial (fun _ _ _ _ => trivial) fun m _ t _ a ha hap =>
      absurd hap (e2 t a ha)
  · obtain rfl := Option.some.inj h
    exact ⟨hmono, fun hN hb => (hspec hN hb).1⟩

theorem sPlaces_good {Q : Nat → Bool} {atomic : Bool} {expl : Nat} : ∀ (ps : List Nat) (N : RNet),
    Good Q N (sPlaces Q atomic expl ps N).1 := by
  intro ps
  induction ps with
  | nil => intro N; exact Good.refl Q N
  | cons p ps ih =>
    intro N
    unfold sPlaces
    cases h : sPlace Q atomic N p with
    | none => exact ih N
    | some o =>
      simp only
      have h1 := sPlace_good h
      split
      · exact h1
      · exact h1.trans (ih o.net)

theorem ruleS_good {Q : Nat → Bool} {rl ar : Bool} {expl lim : Nat} {N : RNet} : Good Q N (ruleS Q rl ar expl lim N).1 :=
  sPlaces_good _ _

end Reduce
end Verif
