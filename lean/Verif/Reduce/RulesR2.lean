import Verif.Reduce.RulesR

/-!
# Rule R: the loops
-/

namespace Verif
namespace Reduce

theorem flag_false (N : RNet) : N.flag false = N := by
  cases N; simp [RNet.flag]

theorem rNew_spec {okP : Nat → Prop} {pinhib : Nat → Bool} {pid : Nat} {x y : RTr} (hx : x.WF okP pinhib)
    (hy : y.WF okP pinhib) (hni : ∀ a ∈ x.pre, a.inhib = false) (hyi : ∀ a ∈ y.pre, a.inhib = false)
    (hy1 : ∀ a ∈ y.pre, a.place = pid) :
    (rNew pid x y).WF okP pinhib ∧ RNewOf x y (rNew pid x y) ∧ (rNew pid x y).pre = x.pre ∧
      wAt (rNew pid x y).post pid = wAt y.post pid + (wAt x.post pid - wAt y.pre pid) := by
  have hpre : (rNew pid x y).pre = x.pre := addAll_nil hx.preS
  have hrS : Sorted (rRest pid (wAt y.pre pid) x.post) := List.Pairwise.filter _ (subArc_sorted hx.postS _ _)
  have hyS : Sorted (addAll y.post []) := by rw [addAll_nil hy.postS]; exact hy.postS
  obtain ⟨p1, p2⟩ := addAll_sorted hrS hyS
  have hrw : ∀ q, wAt (rRest pid (wAt y.pre pid) x.post) q =
      if q = pid then wAt x.post pid - wAt y.pre pid else wAt x.post q := by
    intro q
    rw [← wAt_subArc]
    have hS := subArc_sorted hx.postS pid (wAt y.pre pid)
    show wAt ((subArc pid (wAt y.pre pid) x.post).filter fun a => a.place != pid || decide (0 < a.weight)) q = _
    clear hrS p1 p2
    generalize subArc pid (wAt y.pre pid) x.post = l at hS ⊢
    cases hl : arcAt l q with
    | none =>
      rw [wAt_none hl]
      apply wAt_none
      rw [arcAt_none] at hl ⊢
      exact fun a ha => hl a (List.mem_filter.1 ha).1
    | some a =>
      rw [wAt_of_arcAt hl]
      obtain ⟨ha, hap⟩ := arcAt_mem hl
      by_cases hc : (a.place != pid || decide (0 < a.weight)) = true
      · have hm : a ∈ l.filter (fun a => a.place != pid || decide (0 < a.weight)) := List.mem_filter.2 ⟨ha, hc⟩
        have := wAt_of_mem (List.Pairwise.filter (fun a : Arc => a.place != pid || decide (0 < a.weight)) hS) hm
        rw [hap] at this
        exact this
      · have h0 : a.weight = 0 := by
          simp only [Bool.or_eq_true, decide_eq_true_eq, not_or] at hc
          omega
        rw [h0]
        apply wAt_none
        rw [arcAt_none]
        intro b hb hbq
        obtain ⟨hb1, hb2⟩ := List.mem_filter.1 hb
        have e1 := arcAt_of_mem hS hb1
        rw [hbq, hl] at e1
        cases e1
        exact hc hb2
  have hmem : ∀ a ∈ (rNew pid x y).post, 0 < a.weight ∧ a.inhib = false ∧ okP a.place := by
    refine addAll_mem (fun a => 0 < a.weight ∧ a.inhib = false ∧ okP a.place)
      (fun b w h => ⟨Nat.lt_of_lt_of_le h.1 (Nat.le_add_right _ _), h.2.1, h.2.2⟩) (fun a ha => ?_) (fun a ha => ?_)
    · obtain ⟨h1, h2⟩ := List.mem_filter.1 ha
      obtain ⟨b, hb, e1, e2, e3⟩ := subArc_mem h1
      refine ⟨?_, by rw [e2]; exact hx.postI b hb, by rw [e1]; exact hx.postP b hb⟩
      by_cases hp : b.place = pid
      · have : a.place = pid := by rw [e1, hp]
        simpa [this] using h2
      · rw [e3, if_neg hp]; exact hx.postW b hb
    · rw [addAll_nil hy.postS] at ha
      exact ⟨hy.postW a ha, hy.postI a ha, hy.postP a ha⟩
  have hw : ∀ q, wAt (rNew pid x y).post q = wAt y.post q + if q = pid then wAt x.post pid - wAt y.pre pid else wAt x.post q := by
    intro q
    show wAt (addAll _ (addAll y.post [])) q = _
    rw [p2, hrw, addAll_nil hy.postS]
  have hI : ∀ q, (rNew pid x y).I q = x.I q := fun q => by unfold RTr.I; rw [hpre]
  refine ⟨?_, ⟨rfl, hI, fun m => ?_, fun q => ?_⟩, hpre, ?_⟩
  · exact {
      preS := by rw [hpre]; exact hx.preS
      postS := p1
      preW := by rw [hpre]; exact hx.preW
      postW := fun a ha => (hmem a ha).1
      postI := fun a ha => (hmem a ha).2.1
      preP := by rw [hpre]; exact hx.preP
      postP := fun a ha => (hmem a ha).2.2
      empty := fun h => by cases h
      inhT := fun a ha hi => by rw [hpre] at ha; rw [hni a ha] at hi; cases hi
      inhP := fun a ha hi => by rw [hpre] at ha; rw [hni a ha] at hi; cases hi }
  · unfold RTr.NoInh; rw [hpre]
  · unfold RTr.O
    rw [hw, RTr.I_eq_wAt hyi]
    by_cases hq : q = pid
    · subst hq; rw [if_pos rfl]; omega
    · rw [if_neg hq]
      have : wAt y.pre q = 0 := wAt_none (arcAt_none.2 fun a ha hap => hq (by rw [← hap]; exact hy1 a ha))
      omega
  · rw [hw, if_pos rfl]

/-- What is known about the stack while the transitions of one producer are added. -/
structure RTodo (N0 N : RNet) (pid : Nat) (todo0 todo : List Nat) : Prop where
  nd : todo.Nodup
  sub : ∀ s ∈ todo0, s ∈ todo
  mem : ∀ s ∈ todo, ((N.tr s).skip = false ∧ arcAt (N.tr s).post pid ≠ none) ∧ (s ∈ todo0 ∨ (N0.tr s).skip = true)
  compl : ∀ s, (N0.tr s).skip = true → (N.tr s).skip = false → arcAt (N.tr s).post pid ≠ none → s ∈ todo

theorem rCons_spec {N0 : RNet} (h0 : N0.WF) {pid : Nat} {x : RTr} (hx : x.WF N0.okP N0.pinhib)
    (hni : ∀ a ∈ x.pre, a.inhib = false) {C : List Nat}
    (hC : ∀ c ∈ C, (N0.tr c).skip = false ∧ (∀ a ∈ (N0.tr c).pre, a.inhib = false) ∧ (∀ a ∈ (N0.tr c).pre, a.place = pid) ∧
      wAt (N0.tr c).post pid = 0) {todo0 : List Nat} :
    ∀ (cs done : List Nat) (N : RNet) (todo : List Nat), (∀ c ∈ cs, c ∈ C) →
      Adds (fun z => z.pre = x.pre ∧ ∃ c ∈ C, RNewOf x (N0.tr c) z) N0 N → RTodo N0 N pid todo0 todo →
      (∀ c ∈ done, ∃ i, RNewOf x (N0.tr c) (N.tr i) ∧ (N0.tr i).skip = true) →
      Adds (fun z => z.pre = x.pre ∧ ∃ c ∈ C, RNewOf x (N0.tr c) z) N0 (rCons pid x cs (N, todo)).1 ∧
      RTodo N0 (rCons pid x cs (N, todo)).1 pid todo0 (rCons pid x cs (N, todo)).2 ∧
      ∀ c, c ∈ done ∨ c ∈ cs → ∃ i, RNewOf x (N0.tr c) ((rCons pid x cs (N, todo)).1.tr i) ∧ (N0.tr i).skip = true := by
  intro cs
  induction cs with
  | nil =>
    intro done N todo _ h1 h2 h3
    refine ⟨h1, h2, fun c hc => ?_⟩
    rcases hc with hc | hc
    · exact h3 c hc
    · cases hc
  | cons c cs ih =>
    intro done N todo hcs h1 h2 h3
    obtain ⟨c1, c2, c3, c4⟩ := hC c (hcs c (by simp))
    have hce : N.tr c = N0.tr c := h1.old c c1
    obtain ⟨z1, z2, z3, z4⟩ := rNew_spec hx (h0.tr c) hni c2 c3
    have hadd := h1.newTrans z1 z2.live ⟨z3, c, hcs c (by simp), z2⟩
    obtain ⟨n1, n2, _⟩ := newTrans_spec h1.wf (rNew pid x (N0.tr c))
    have hdead : (N0.tr (N.newTrans (rNew pid x (N0.tr c))).1).skip = true := by
      cases hs : (N0.tr (N.newTrans (rNew pid x (N0.tr c))).1).skip with
      | true => rfl
      | false => rw [h1.old _ hs, hs] at n1; cases n1
    unfold rCons
    simp only [hce]
    rw [c4, Nat.zero_add] at z4
    generalize (N.newTrans (rNew pid x (N0.tr c))).2 = N1 at hadd n2 ⊢
    generalize (N.newTrans (rNew pid x (N0.tr c))).1 = id at n1 n2 hdead ⊢
    have hnt : id ∉ todo := fun hm => by rw [((h2.mem id hm).1).1] at n1; cases n1
    obtain ⟨i1, i2, i3⟩ := ih (c :: done) N1
      (if 0 < wAt x.post pid - wAt (N0.tr c).pre pid then id :: todo else todo)
      (fun d hd => hcs d (by simp [hd])) hadd (by
        have hsame : ∀ s, s ≠ id → N1.tr s = N.tr s := fun s hs => by rw [n2, if_neg hs]
        have hid : N1.tr id = rNew pid x (N0.tr c) := by rw [n2, if_pos rfl]
        have hold : ∀ s ∈ todo, ((N1.tr s).skip = false ∧ arcAt (N1.tr s).post pid ≠ none) ∧
            (s ∈ todo0 ∨ (N0.tr s).skip = true) := fun s hs => by
          rw [hsame s (by rintro rfl; exact hnt hs)]; exact h2.mem s hs
        by_cases hl : 0 < wAt x.post pid - wAt (N0.tr c).pre pid
        · rw [if_pos hl]
          refine ⟨List.nodup_cons.2 ⟨hnt, h2.nd⟩, fun s hs => List.mem_cons_of_mem _ (h2.sub s hs), fun s hs => ?_,
            fun s a1 a2 a3 => ?_⟩
          · rcases List.mem_cons.1 hs with rfl | hs
            · refine ⟨⟨by rw [hid]; rfl, fun hn => ?_⟩, Or.inr hdead⟩
              rw [hid] at hn
              rw [wAt_none hn] at z4
              omega
            · exact hold s hs
          · by_cases hs : s = id
            · subst hs; simp
            · rw [hsame s hs] at a2 a3
              exact List.mem_cons_of_mem _ (h2.compl s a1 a2 a3)
        · rw [if_neg hl]
          refine ⟨h2.nd, h2.sub, hold, fun s a1 a2 a3 => ?_⟩
          by_cases hs : s = id
          · subst hs
            rw [hid] at a3
            exfalso
            cases he : arcAt (rNew pid x (N0.tr c)).post pid with
            | none => exact a3 he
            | some a =>
              rw [wAt_of_arcAt he] at z4
              have := z1.postW a (arcAt_mem he).1
              omega
          · rw [hsame s hs] at a2 a3
            exact h2.compl s a1 a2 a3)
      (fun d hd => by
        rcases List.mem_cons.1 hd with rfl | hd
        · exact ⟨id, by rw [n2, if_pos rfl]; exact z2, hdead⟩
        · obtain ⟨i, hi, hi'⟩ := h3 d hd
          have : i ≠ id := by
            rintro rfl
            rw [hi.live] at n1; cases n1
          exact ⟨i, by rw [n2, if_neg this]; exact hi, hi'⟩)
    refine ⟨i1, i2, fun d hd => i3 d ?_⟩
    rcases hd with hd | hd
    · exact Or.inl (by simp [hd])
    · rcases List.mem_cons.1 hd with rfl | hd
      · exact Or.inl (by simp)
      · exact Or.inr hd

theorem rCons_bad (pid : Nat) (x : RTr) : ∀ (cs : List Nat) (s : RNet × List Nat), (rCons pid x cs s).1.bad = s.1.bad := by
  intro cs
  induction cs with
  | nil => intro s; rfl
  | cons c cs ih =>
    intro s
    unfold rCons
    rw [ih]
    simp only [RNet.newTrans]
    split <;> rfl

theorem rLoop_mono {pid maxW : Nat} {cons : List Nat} : ∀ (fuel : Nat) (todo : List Nat) (o : ROut),
    Mono o.net (rLoop pid maxW cons fuel todo o).net := by
  intro fuel
  induction fuel with
  | zero => intro todo o h; exact h
  | succ fuel ih =>
    intro todo o
    cases todo with
    | nil => exact Mono.refl _
    | cons t todo =>
      unfold rLoop
      simp only
      split
      · exact ih _ _
      · intro hb
        have h1 : (o.net.flag ((o.net.tr t).pre.any fun a => a.inhib)).bad = false := by
          have := ih _ _ hb
          simp only at this
          rw [← rCons_bad pid (o.net.tr t) cons (o.net.flag ((o.net.tr t).pre.any fun a => a.inhib), todo)]
          exact this
        exact (flag_bad h1).1

/-- What the loop over the producers maintains. -/
structure RInv (Q : Nat → Bool) (pid maxW : Nat) (cons : List Nat) (N : RNet) (todo : List Nat) (all : Bool) : Prop where
  wf : N.WF
  todoP : ∀ s ∈ todo, s ∈ N.producers pid
  nd : todo.Nodup
  compl : all = true → ∀ s ∈ N.producers pid, s ∈ todo
  con : ∀ s, s ∈ N.consumers pid ↔ s ∈ cons
  ok : ∀ c ∈ cons, (N.tr c).inhib = false ∧ (∀ a ∈ (N.tr c).pre, a.place = pid) ∧
    (∀ a ∈ (N.tr c).post, Q a.place = false ∧ N.pinhib a.place = false) ∧ c ∉ N.producers pid ∧ wAt (N.tr c).pre pid ≤ maxW
  pinh : N.pinhib pid = false
  ne : cons ≠ []

theorem rStep_spec {Q : Nat → Bool} {pid maxW : Nat} {cons : List Nat} {N : RNet} {t : Nat} {todo : List Nat} {all : Bool}
    (hQ : Q pid = false) (h : RInv Q pid maxW cons N (t :: todo) all) (hni : ∀ a ∈ (N.tr t).pre, a.inhib = false)
    (hw : maxW ≤ wAt (N.tr t).post pid) :
    Fine Q N ((rCons pid (N.tr t) cons (N, todo)).1.skipTrans t) ∧
      RInv Q pid maxW cons ((rCons pid (N.tr t) cons (N, todo)).1.skipTrans t) (rCons pid (N.tr t) cons (N, todo)).2 all := by
  have hN := h.wf
  obtain ⟨nd1, nd2⟩ := List.nodup_cons.1 h.nd
  have htp := h.todoP t (by simp)
  obtain ⟨htl, htn⟩ := producers_live hN htp
  have hlive : ∀ c ∈ cons, (N.tr c).skip = false := fun c hc => (consumers_live hN ((h.con c).2 hc)).1
  have hCi : ∀ c ∈ cons, ∀ a ∈ (N.tr c).pre, a.inhib = false := fun c hc => (hN.tr c).noInh (h.ok c hc).1
  have htC : t ∉ cons := fun hc => (h.ok t hc).2.2.2.1 htp
  obtain ⟨a1, a2, a3⟩ := rCons_spec (x := N.tr t) hN (hN.tr t) hni (C := cons) (pid := pid) (fun c hc =>
      ⟨hlive c hc, hCi c hc, (h.ok c hc).2.1, wAt_none (arcAt_none_of_not_producer hN (h.ok c hc).2.2.2.1)⟩)
    (todo0 := todo) cons [] N todo (fun _ hc => hc) (Adds.refl hN)
    ⟨nd2, fun _ hs => hs, fun s hs => ⟨⟨(producers_live hN (h.todoP s (by simp [hs]))).1, fun hn => by
        obtain ⟨b, hb, hbp⟩ := (mem_producers hN).1 (h.todoP s (by simp [hs]))
        exact arcAt_none.1 hn b hb hbp⟩, Or.inl hs⟩,
      fun s b1 b2 => (by rw [b1] at b2; cases b2)⟩ (by simp)
  generalize (rCons pid (N.tr t) cons (N, todo)).2 = todo' at a2 ⊢
  generalize (rCons pid (N.tr t) cons (N, todo)).1 = N1 at a1 a2 a3 ⊢
  have ht1 : N1.tr t = N.tr t := a1.old t htl
  have hl1 : (N1.tr t).skip = false := by rw [ht1]; exact htl
  have hlt1 : t < N1.nt := Nat.lt_of_not_le fun hc => by
    have := a1.wf.out t hc
    rw [hl1] at this; cases this
  have hW := skipTrans_WF a1.wf hlt1 hl1
  have htr : ∀ s, s ≠ t → (N1.skipTrans t).tr s = N1.tr s := fun s hs => by rw [skipTrans_tr, if_neg hs]
  have hdead : ((N1.skipTrans t).tr t).skip = true := by rw [skipTrans_tr, if_pos rfl]
  have hold : ∀ s, s ≠ t → (N.tr s).skip = false → (N1.skipTrans t).tr s = N.tr s := fun s hs hl => by
    rw [htr s hs, a1.old s hl]
  have hpret : arcAt (N.tr t).pre pid = none := arcAt_none_of_not_consumer hN fun hc => htC ((h.con t).1 hc)
  obtain ⟨c0, hc0⟩ : ∃ c0, c0 ∈ cons := List.exists_mem_of_ne_nil _ h.ne
  refine ⟨⟨hW, ?_⟩, ?_⟩
  · refine r_same (C := fun s => s ∈ cons) hN a1.init htl htC
      (fun s hs => arcAt_none_of_not_consumer hN fun hc => hs ((h.con s).1 hc)) (fun c hc => ?_) hQ h.pinh hc0 hold
      (fun c hc => ?_) (fun i hi => ?_)
    · obtain ⟨k1, k2, k3, k4, k5⟩ := h.ok c hc
      refine ⟨hlive c hc, k1, fun q hq => ?_, fun q hq => ?_, ?_⟩
      · exact RTr.I_none (arcAt_none.2 fun a ha hap => hq (by rw [← hap]; exact k2 a ha))
      · refine wAt_none (arcAt_none.2 fun a ha hap => ?_)
        obtain ⟨e1, e2⟩ := k3 a ha
        rw [hap] at e1 e2
        rcases hq with hq | hq
        · rw [e1] at hq; cases hq
        · rw [e2] at hq; cases hq
      · rw [RTr.I_eq_wAt (hCi c hc)]
        exact Nat.le_trans k5 hw
    · obtain ⟨i, hi, hi'⟩ := a3 c (Or.inr hc)
      refine ⟨i, ?_⟩
      rw [htr i (by rintro rfl; rw [htl] at hi'; cases hi')]
      exact hi
    · have hit : i ≠ t := by rintro rfl; rw [hdead] at hi; cases hi
      rw [htr i hit] at hi ⊢
      rcases a1.new i hi with hl | ⟨_, c, hc, hz⟩
      · exact Or.inl ⟨hit, a1.old i hl⟩
      · exact Or.inr ⟨c, hc, hz⟩
  · have hprod : ∀ s, s ∈ (N1.skipTrans t).producers pid ↔ s ≠ t ∧ (N1.tr s).skip = false ∧ arcAt (N1.tr s).post pid ≠ none := by
      intro s
      rw [mem_producers hW]
      constructor
      · rintro ⟨a, ha, hap⟩
        have hst : s ≠ t := by
          rintro rfl
          rw [skipTrans_tr, if_pos rfl] at ha; cases ha
        rw [htr s hst] at ha
        refine ⟨hst, ?_, fun hn => arcAt_none.1 hn a ha hap⟩
        cases hs : (N1.tr s).skip with
        | false => rfl
        | true => rw [((a1.wf.tr s).empty hs).2] at ha; cases ha
      · rintro ⟨hst, _, hn⟩
        rw [htr s hst]
        cases he : arcAt (N1.tr s).post pid with
        | none => exact absurd he hn
        | some a => exact ⟨a, (arcAt_mem he).1, (arcAt_mem he).2⟩
    have hcons : ∀ s, s ∈ (N1.skipTrans t).consumers pid ↔ s ∈ cons := by
      intro s
      rw [mem_consumers hW]
      constructor
      · rintro ⟨a, ha, hap⟩
        have hst : s ≠ t := by
          rintro rfl
          rw [skipTrans_tr, if_pos rfl] at ha; cases ha
        rw [htr s hst] at ha
        have hl : (N1.tr s).skip = false := by
          cases hs : (N1.tr s).skip with
          | false => rfl
          | true => rw [((a1.wf.tr s).empty hs).1] at ha; cases ha
        rcases a1.new s hl with hl0 | ⟨hp, _⟩
        · rw [a1.old s hl0] at ha
          exact (h.con s).1 ((mem_consumers hN).2 ⟨a, ha, hap⟩)
        · rw [hp] at ha
          exact absurd hap (arcAt_none.1 hpret a ha)
      · intro hs
        have hst : s ≠ t := by rintro rfl; exact htC hs
        rw [hold s hst (hlive s hs)]
        exact (mem_consumers hN).1 ((h.con s).2 hs)
    refine ⟨hW, fun s hs => ?_, a2.nd, fun hall s hs => ?_, hcons, fun c hc => ?_, ?_, h.ne⟩
    · rw [hprod]
      obtain ⟨k1, k2⟩ := a2.mem s hs
      refine ⟨?_, k1⟩
      rintro rfl
      rcases k2 with k2 | k2
      · exact nd1 k2
      · rw [htl] at k2; cases k2
    · obtain ⟨k1, k2, k3⟩ := (hprod s).1 hs
      cases hs0 : (N.tr s).skip with
      | true => exact a2.compl s hs0 k2 k3
      | false =>
        rw [a1.old s hs0] at k3
        have hsp : s ∈ N.producers pid := by
          cases he : arcAt (N.tr s).post pid with
          | none => exact absurd he k3
          | some a => exact (mem_producers hN).2 ⟨a, (arcAt_mem he).1, (arcAt_mem he).2⟩
        rcases List.mem_cons.1 (h.compl hall s hsp) with rfl | hm
        · exact absurd rfl k1
        · exact a2.sub s hm
    · have hct : c ≠ t := by rintro rfl; exact htC hc
      obtain ⟨k1, k2, k3, k4, k5⟩ := h.ok c hc
      rw [hold c hct (hlive c hc)]
      refine ⟨k1, k2, fun a ha => ⟨(k3 a ha).1, ?_⟩, fun hp => ?_, k5⟩
      · show N1.pinhib a.place = false
        rw [a1.pinhib]; exact (k3 a ha).2
      · obtain ⟨_, _, e3⟩ := (hprod c).1 hp
        rw [a1.old c (hlive c hc)] at e3
        exact e3 (arcAt_none_of_not_producer hN k4)
    · show N1.pinhib pid = false
      rw [a1.pinhib]; exact h.pinh

theorem rLoop_spec {Q : Nat → Bool} {pid maxW : Nat} {cons : List Nat} (hQ : Q pid = false) :
    ∀ (fuel : Nat) (todo : List Nat) (o : ROut), RInv Q pid maxW cons o.net todo o.all →
      (rLoop pid maxW cons fuel todo o).net.bad = false →
      Fine Q o.net (rLoop pid maxW cons fuel todo o).net ∧
      ((rLoop pid maxW cons fuel todo o).fin = true →
        RInv Q pid maxW cons (rLoop pid maxW cons fuel todo o).net [] (rLoop pid maxW cons fuel todo o).all) := by
  intro fuel
  induction fuel with
  | zero =>
    intro todo o h _
    exact ⟨Fine.refl h.wf, fun hf => by cases hf⟩
  | succ fuel ih =>
    intro todo o h hb
    cases todo with
    | nil => exact ⟨Fine.refl h.wf, fun _ => h⟩
    | cons t todo =>
      unfold rLoop at hb ⊢
      simp only at hb ⊢
      by_cases hlt : wAt (o.net.tr t).post pid < maxW
      · rw [if_pos hlt] at hb ⊢
        refine ih todo { o with all := false } ?_ hb
        exact ⟨h.wf, fun s hs => h.todoP s (by simp [hs]), (List.nodup_cons.1 h.nd).2, fun hc => (by cases hc), h.con, h.ok,
          h.pinh, h.ne⟩
      · rw [if_neg hlt] at hb ⊢
        have hni : ((o.net.tr t).pre.any fun a => a.inhib) = false := by
          have h1 := rLoop_mono _ _ _ hb
          simp only at h1
          have h2 : (rCons pid (o.net.tr t) cons (o.net.flag ((o.net.tr t).pre.any fun a => a.inhib), todo)).1.bad = false := h1
          rw [rCons_bad] at h2
          exact (flag_bad h2).2
        rw [hni, flag_false] at hb ⊢
        obtain ⟨s1, s2⟩ := rStep_spec hQ h (fun a ha => by
          have := List.any_eq_false.1 hni a ha
          simpa using this) (Nat.le_of_not_lt hlt)
        obtain ⟨i1, i2⟩ := ih _ { o with
          net := (rCons pid (o.net.tr t) cons (o.net, todo)).1.skipTrans t
          changed := true
          diff := o.diff + cons.length - 1 } s2 hb
        exact ⟨s1.trans i1, i2⟩

theorem foldl_max_ge (f : Nat → Nat) : ∀ (l : List Nat) (m : Nat), m ≤ l.foldl (fun m c => max m (f c)) m ∧
    ∀ c ∈ l, f c ≤ l.foldl (fun m c => max m (f c)) m := by
  intro l
  induction l with
  | nil => intro m; exact ⟨Nat.le_refl _, by simp⟩
  | cons a l ih =>
    intro m
    obtain ⟨h1, h2⟩ := ih (max m (f a))
    rw [List.foldl_cons]
    refine ⟨by omega, fun c hc => ?_⟩
    rcases List.mem_cons.1 hc with rfl | hc
    · omega
    · exact h2 c hc

theorem skipAll_bad : ∀ (l : List Nat) (N : RNet), (skipAll l N).bad = N.bad := by
  intro l
  induction l with
  | nil => intro N; rfl
  | cons t l ih => intro N; exact ih _

/-- Transitions that consume from a place that stays empty. -/
theorem skipAll_empty {Q : Nat → Bool} {pid : Nat} : ∀ (l : List Nat) (N : RNet), N.WF → l.Nodup →
    (∀ t ∈ l, (N.tr t).skip = false) → (∀ t ∈ l, 0 < (N.tr t).I pid) → N.init pid = 0 → (∀ s, (N.tr s).O pid = 0) →
    Fine Q N (skipAll l N) ∧ ∀ s, (skipAll l N).tr s = if s ∈ l then (N.tr s).gone else N.tr s := by
  intro l
  induction l with
  | nil => intro N hN _ _ _ _ _; exact ⟨Fine.refl hN, fun s => by simp [skipAll]⟩
  | cons t l ih =>
    intro N hN hnd hl hI h0 hO
    obtain ⟨n1, n2⟩ := List.nodup_cons.1 hnd
    have hlt : t < N.nt := Nat.lt_of_not_le fun hc => by
      have := hN.out t hc
      rw [hl t (by simp)] at this; cases this
    have hf : Fine Q N (N.skipTrans t) := by
      refine Fine.skip hN (hl t (by simp)) hlt (Inv := fun m => m pid = 0) ⟨h0, fun m s hm _ => ?_⟩ fun m hm hen => ?_
      · unfold RTr.fire; rw [hO s]; omega
      · have h1 := hen.2.1 pid
        have h2 := hI t (by simp)
        omega
    have hne : ∀ s ∈ l, s ≠ t := fun s hs => by rintro rfl; exact n1 hs
    obtain ⟨i1, i2⟩ := ih (N.skipTrans t) hf.1 n2 (fun s hs => by rw [skipTrans_tr, if_neg (hne s hs)]; exact hl s (by simp [hs]))
      (fun s hs => by rw [skipTrans_tr, if_neg (hne s hs)]; exact hI s (by simp [hs])) h0
      (fun s => by
        rw [skipTrans_tr]
        split
        · rfl
        · exact hO s)
    refine ⟨hf.trans i1, fun s => ?_⟩
    show (skipAll l (N.skipTrans t)).tr s = _
    rw [i2, skipTrans_tr]
    by_cases hs : s = t
    · subst hs
      simp [n1, RTr.gone]
    · rw [if_neg hs]
      simp only [List.mem_cons, hs, false_or]

theorem rPlace_good {Q : Nat → Bool} {lim fuel : Nat} {N : RNet} {pid : Nat} {o : ROut}
    (h : rPlace Q lim fuel N pid = some o) : Good Q N o.net := by
  unfold rPlace at h
  split at h
  swap
  · cases h
  rename_i hok
  simp only at h
  unfold rOk at hok
  simp only [Bool.and_eq_true, Bool.not_eq_true', List.all_eq_true, decide_eq_true_eq] at hok
  obtain ⟨⟨⟨⟨⟨⟨⟨_, h2⟩, h3⟩, _⟩, h5⟩, _⟩, h7⟩, h8⟩ := hok
  have hmono := rLoop_mono (pid := pid) (maxW := rMax N pid) (cons := N.consumers pid) fuel (N.producers pid).reverse
    ⟨N, true, true, false, 0⟩
  have hinv : N.WF → RInv Q pid (rMax N pid) (N.consumers pid) N (N.producers pid).reverse true := fun hN => by
    refine ⟨hN, fun s hs => List.mem_reverse.1 hs, (List.reverse_perm _).nodup_iff.2 (producers_nodup N pid),
      fun _ s hs => List.mem_reverse.2 hs, fun _ => Iff.rfl, fun c hc => ?_, h2, ?_⟩
    · obtain ⟨⟨k1, k2⟩, k3⟩ := h8 c hc
      refine ⟨k1, fun a ha => ?_, k3, fun hp => ?_, (foldl_max_ge (fun c => wAt (N.tr c).pre pid) _ _).2 c hc⟩
      · obtain ⟨b, hb, hbp⟩ := (mem_consumers hN).1 hc
        rw [List.length_eq_one_iff] at k2
        obtain ⟨d, hd⟩ := k2
        rw [hd, List.mem_singleton] at ha hb
        rw [ha, ← hb]; exact hbp
      · have := h7 c hp
        rw [List.contains_iff_mem.2 hc] at this
        cases this
    · intro he
      rw [he] at h5; cases h5
  have hspec : N.WF → _ := fun hN => rLoop_spec (Q := Q) (pid := pid) h3 fuel (N.producers pid).reverse
    ⟨N, true, true, false, 0⟩ (hinv hN)
  generalize rLoop pid (rMax N pid) (N.consumers pid) fuel (N.producers pid).reverse ⟨N, true, true, false, 0⟩ = r at h hmono hspec
  simp only at hmono hspec
  split at h
  · rename_i hc
    simp only [Bool.and_eq_true, decide_eq_true_eq] at hc
    obtain ⟨⟨f1, f2⟩, f3⟩ := hc
    obtain rfl := Option.some.inj h
    have hb : ((skipAll (r.net.consumers pid) r.net).skipPlace pid).bad = r.net.bad := skipAll_bad _ _
    refine ⟨fun hb' => hmono (by rw [← hb]; exact hb'), fun hN hb' => ?_⟩
    obtain ⟨s1, s2⟩ := hspec hN (by rw [← hb]; exact hb')
    have hr := s2 f1
    rw [f2] at hr
    have hW := hr.wf
    have hO : ∀ s, (r.net.tr s).O pid = 0 := fun s =>
      wAt_none (arcAt_none_of_not_producer hW fun hp => by have := hr.compl rfl s hp; cases this)
    have hIpos : ∀ t ∈ r.net.consumers pid, 0 < (r.net.tr t).I pid := fun t ht => by
      obtain ⟨a, ha, hap⟩ := (mem_consumers hW).1 ht
      have hi := (hW.tr t).noInh (hr.ok t ((hr.con t).1 ht)).1 a ha
      have := RTr.I_of_mem (hW.preS t) ha hi
      rw [hap] at this
      rw [this]; exact (hW.tr t).preW a ha
    obtain ⟨e1, e2⟩ := skipAll_empty (Q := Q) (pid := pid) (r.net.consumers pid) r.net hW (consumers_nodup _ _)
      (fun t ht => (consumers_live hW ht).1) hIpos f3 hO
    refine s1.trans (e1.trans ⟨skipPlace_WF e1.1 pid, ?_⟩)
    refine skipPlace_same e1.1 h3 (fun _ => True) trivial (fun _ _ _ _ => trivial) fun m _ t _ a ha hap => ?_
    exfalso
    rw [e2] at ha
    by_cases ht : t ∈ r.net.consumers pid
    · rw [if_pos ht] at ha; cases ha
    · rw [if_neg ht] at ha
      exact ht ((mem_consumers hW).2 ⟨a, ha, hap⟩)
  · obtain rfl := Option.some.inj h
    exact ⟨hmono, fun hN hb => (hspec hN hb).1⟩

theorem rPlaces_good {Q : Nat → Bool} {lim fuel : Nat} : ∀ (ps : List Nat) (N : RNet),
    Good Q N (rPlaces Q lim fuel ps N).1 := by
  intro ps
  induction ps with
  | nil => intro N; exact Good.refl Q N
  | cons p ps ih =>
    intro N
    unfold rPlaces
    cases h : rPlace Q lim fuel N p with
    | none => exact ih N
    | some o =>
      simp only
      have h1 := rPlace_good h
      split
      · exact h1
      · split
        · exact h1
        · exact h1.trans (ih o.net)

theorem ruleR_good {Q : Nat → Bool} {expl fuel : Nat} {N : RNet} : Good Q N (ruleR Q expl fuel N).1 := rPlaces_good _ _

end Reduce
end Verif
