import Verif.CTL.FixedPointOps4

/-!
# The invariant is kept: exploring a configuration
-/

namespace Verif
namespace CTL

set_option linter.unusedSectionVars false
set_option linter.unusedSimpArgs false

variable {κ : Type} [DecidableEq κ]

open St

variable {G : Graph κ} {V : κ → Prop} {lev : κ → Nat} {H K X : List (EId κ)} {s : St κ}

/-- The first lines of `explore`: the configuration gets the value ZERO and new edges. -/
def St.exploreInit (G : Graph κ) (s : St κ) (c : κ) : St κ :=
  (s.upC c fun r => { r with asg := .zero, nsuccs := (G.succ c).length }).newEdges G c

theorem exploreInit_edge_in {c : κ} {e : EId κ} (he : e ∈ succIds G c) :
    (s.exploreInit G c).edge e =
      { targets := G.origTargets e, status := (s.edge e).status, refcnt := 1 } := by
  obtain ⟨h1, h2⟩ := mem_succIds.1 he
  unfold inRange at h2
  rw [h1] at h2
  simp only [St.exploreInit, St.newEdges, upC_edge]
  rw [if_pos ⟨h1, h2⟩]

theorem exploreInit_edge_out {c : κ} {e : EId κ} (he : e ∉ succIds G c) :
    (s.exploreInit G c).edge e = s.edge e := by
  simp only [St.exploreInit, St.newEdges, upC_edge]
  rw [if_neg]
  rintro ⟨h1, h2⟩
  exact he (mem_succIds.2 ⟨h1, by unfold inRange; rw [h1]; exact h2⟩)

theorem exploreInit_conf (c c' : κ) : (s.exploreInit G c).conf c' =
    if c' = c then { s.conf c with asg := .zero, nsuccs := (G.succ c).length } else s.conf c' := by
  simp only [St.exploreInit, St.newEdges, upC_conf]

theorem count_nodup_mem {α : Type} [BEq α] [LawfulBEq α] {l : List α} (hn : l.Nodup) {x : α} (hx : x ∈ l) :
    l.count x = 1 := List.count_eq_one_of_mem hn hx

theorem Inv.exploreInit {K0 : List (EId κ)} (h : Inv G V lev H K0 X s) {c : κ} (hc : s.asg c = .unknown)
    (hd : (s.conf c).dist = lev c) (hX : ∀ x ∈ X, x.1 ≠ c) (hsub : ∀ e ∈ K, e ∈ K0)
    (hK : ∀ e ∈ K0, e ∉ K →
      (G.isNeg e = true → Listed s e ∧ ∀ t ∈ (s.edge e).targets, t = c ∨ s.asg t ≠ .unknown) ∧
      (G.isNeg e = false → c ∈ (s.edge e).targets ∧ e ∈ (s.conf c).deps)) :
    Inv G V lev (succIds G c ++ H) (succIds G c ++ K) X (s.exploreInit G c) := by
  have hin : ∀ e, e ∈ succIds G c → (s.exploreInit G c).edge e = _ := fun e he => exploreInit_edge_in he
  have hout : ∀ e, e ∉ succIds G c → (s.exploreInit G c).edge e = s.edge e :=
    fun e he => exploreInit_edge_out he
  have hconf : ∀ c', (s.exploreInit G c).conf c' =
    if c' = c then { s.conf c with asg := .zero, nsuccs := (G.succ c).length } else s.conf c' :=
    fun c' => exploreInit_conf c c'
  have hW : (s.exploreInit G c).W = s.W := rfl
  have hN : (s.exploreInit G c).N = s.N := rfl
  have hD : (s.exploreInit G c).D = s.D := rfl
  generalize s.exploreInit G c = s' at *
  have hasg : ∀ c', s'.asg c' = if c' = c then .zero else s.asg c' := by
    intro c'; simp only [St.asg, hconf]; split <;> rfl
  have hdeps : ∀ c', (s'.conf c').deps = (s.conf c').deps := by
    intro c'; rw [hconf]; split
    · rename_i h; rw [h]
    · rfl
  have hdist : ∀ c', (s'.conf c').dist = (s.conf c').dist := by
    intro c'; rw [hconf]; split
    · rename_i h; rw [h]
    · rfl
  have hdone : s'.isDone = s.isDone := by
    funext c'
    simp only [St.isDone, hasg]
    split
    · rename_i h; subst h; rw [hc]; rfl
    · rfl
  have hL : ∀ e, Listed s' e ↔ Listed s e := by intro e; simp only [Listed, hW, hN, hD]
  have huz : ∀ c', s.asg c' = .zero → s'.asg c' = .zero := by
    intro c' h'; rw [hasg]; split
    · rfl
    · exact h'
  have hun : ∀ c', s.asg c' ≠ .unknown → s'.asg c' = s.asg c' := by
    intro c' h'; rw [hasg, if_neg]; rintro rfl; exact h' hc
  have hun' : ∀ c', s.asg c' ≠ .unknown → s'.asg c' ≠ .unknown := by
    intro c' h'; rw [hun c' h']; exact h'
  have hun2 : ∀ c', c' ≠ c → s'.asg c' = s.asg c' := by
    intro c' h'; rw [hasg, if_neg h']
  have ht0 : ∀ e, e ∈ succIds G c → total G H s e = 0 := by
    intro e he
    by_contra ht
    exact (h.range e (by omega)).1 (by rw [(mem_succIds.1 he).1]; exact hc)
  have htot : ∀ e, total G (succIds G c ++ H) s' e = total G H s e + (succIds G c).count e := by
    intro e
    simp only [total, hW, hN, hD, depCnt_congr (G := G) hdeps e, List.count_append]
    omega
  have hcin : ∀ e, e ∈ succIds G c → (succIds G c).count e = 1 :=
    fun e he => count_nodup_mem (nodup_succIds c) he
  have hcout : ∀ e, e ∉ succIds G c → (succIds G c).count e = 0 := fun e he => List.count_eq_zero.2 he
  have hlist : ∀ e, Listed s e → e ∉ succIds G c := by
    intro e hl he
    have := total_pos_of_listed (G := G) (H := H) hl
    have := ht0 e he
    omega
  have hne : ∀ e, inRange G e → e ∉ succIds G c → e.1 ≠ c := fun e hr he hec => he (mem_succIds.2 ⟨hec, hr⟩)
  have hpo : ∀ e, ((s'.edge e).processed = true → (s.edge e).processed = true ∧ e ∉ succIds G c) := by
    intro e hp
    by_cases he : e ∈ succIds G c
    · rw [hin e he] at hp; cases hp
    · rw [hout e he] at hp; exact ⟨hp, he⟩
  have hXL : ∀ e ∈ X, e ∉ succIds G c := fun e hx he => hX e hx (mem_succIds.1 he).1
  exact {
    rc := fun e => by
      rw [htot]
      by_cases he : e ∈ succIds G c
      · right; rw [hin e he, hcin e he, ht0 e he]; rfl
      · rw [hout e he, hcout e he]; exact h.rc e
    range := fun e ht => by
      by_cases he : e ∈ succIds G c
      · obtain ⟨h1, h2⟩ := mem_succIds.1 he
        exact ⟨by rw [hasg, if_pos h1]; simp, h2⟩
      · rw [htot, hcout e he] at ht
        obtain ⟨h1, h2⟩ := h.range e (by omega)
        exact ⟨hun' _ h1, h2⟩
    depT := fun t e he => h.depT t e (by rw [← hdeps]; exact he)
    one := fun c' h1 => by
      rw [hasg] at h1; split at h1
      · cases h1
      · exact h.one c' h1
    czero := fun c' h1 => by
      rw [hasg] at h1; split at h1
      · cases h1
      · exact h.czero c' h1
    tgt := fun e h1 h2 h3 => by
      by_cases he : e ∈ succIds G c
      · rw [hin e he]; exact ⟨fun _ h => h, fun _ h hn => absurd h hn⟩
      · rw [hout e he] at h1 ⊢
        rw [hun2 _ (hne e h3 he)] at h2
        obtain ⟨h4, h5⟩ := h.tgt e h1 h2 h3
        refine ⟨h4, fun t h6 h7 => ?_⟩
        have := h5 t h6 h7
        rw [hun t (by rw [this]; simp)]; exact this
    ns := fun c' hz => by
      by_cases hcc : c' = c
      · subst hcc
        rw [hconf, if_pos rfl]
        have : (succIds G c').countP s'.isOpen = (succIds G c').length := by
          rw [List.countP_eq_length]
          intro e he
          simp [St.isOpen, hin e he]
        rw [this]; simp [St.succIds]
      · rw [hun2 _ hcc] at hz
        rw [hconf, if_neg hcc, h.ns c' hz]
        refine List.countP_congr fun e he => ?_
        have : e ∉ succIds G c := fun h' => hcc ((mem_succIds.1 he).1.symm.trans (mem_succIds.1 h').1)
        simp only [St.isOpen, hout e this]
    clos := fun e hz hr ho => by
      by_cases he : e ∈ succIds G c
      · simp [St.isOpen, hin e he] at ho
      · rw [hun2 _ (hne e hr he)] at hz
        have := h.clos e hz hr (by simpa only [St.isOpen, hout e he] using ho)
        unfold Refuted at this ⊢
        split
        · rename_i hn
          rw [if_pos hn] at this
          intro t ht; rw [hun t (by rw [this t ht]; simp)]; exact this t ht
        · rename_i hn
          rw [if_neg hn] at this
          obtain ⟨t, ht, h1⟩ := this
          exact ⟨t, ht, by rw [hun t (by rw [h1]; simp)]; exact h1⟩
    pend := fun e hz hr ho hk => by
      simp only [List.mem_append, not_or] at hk
      rw [hun2 _ (hne e hr hk.1)] at hz
      rw [hL]
      by_cases hk0 : e ∈ K0
      · cases hn : G.isNeg e with
        | true => exact .inl (((hK e hk0 hk.2).1 hn).1)
        | false =>
          obtain ⟨h1, h2⟩ := (hK e hk0 hk.2).2 hn
          exact .inr ⟨hn, c, by rw [hout e hk.1]; exact h1, by rw [hasg, if_pos rfl], by rw [hdeps]; exact h2⟩
      · rcases h.pend e hz hr (by simpa only [St.isOpen, hout e hk.1] using ho) hk0 with
          h1 | ⟨h1, t, h2, h3, h4⟩
        · exact .inl h1
        · exact .inr ⟨h1, t, by rw [hout e hk.1]; exact h2, huz t h3, by rw [hdeps]; exact h4⟩
    wait := fun e hz hr ho hn hp t ht hd => by
      have he : e ∉ succIds G c := by
        rcases hp with hp | hp
        · exact (hpo e hp).2
        · exact hXL e hp
      rw [hun2 _ (hne e hr he)] at hz
      rw [hout e he] at hp ht
      rw [hdone] at hd
      rw [hdeps]
      exact h.wait e hz hr (by simpa only [St.isOpen, hout e he] using ho) hn hp t ht hd
    known := fun e hn hp t ht => by
      have he : e ∉ succIds G c := by
        rcases hp with hp | hp
        · exact (hpo e hp).2
        · exact hXL e hp.1
      rw [hout e he] at hp ht
      by_cases hp' : (s.edge e).processed = true
      · exact hun' t (h.known e hn (.inl hp') t ht)
      · have hp := hp.resolve_left hp'
        simp only [List.mem_append, not_or] at hp
        by_cases hk0 : e ∈ K0
        · rcases ((hK e hk0 hp.2.2).1 hn).2 t ht with h1 | h1
          · rw [hasg, if_pos h1]; simp
          · exact hun' t h1
        · exact hun' t (h.known e hn (.inr ⟨hp.1, hk0⟩) t ht)
    relW := fun e hm hn hp t ht hz hz2 => by
      rw [hW] at hm
      obtain ⟨hp', he⟩ := hpo e hp
      rw [hout e he] at ht
      have hk := h.known e hn (.inl hp') t ht
      rw [hun t hk] at hz
      have hu := (h.range e (total_pos_of_listed (.inl hm))).1
      rw [hun e.1 hu] at hz2
      exact h.relW e hm hn hp' t ht hz hz2
    relN := fun e hm => by
      rw [hN] at hm
      rw [hout e (hlist e (.inr (.inl hm)))]
      exact h.relN e hm
    relD := fun e hm hn t ht => by
      rw [hD] at hm
      rw [hout e (hlist e (.inr (.inr hm)))] at ht
      rw [hdone]
      exact h.relD e hm hn t ht
    uniq := by rw [hW, hN]; exact h.uniq
    dist := fun c' h1 => by
      rw [hdist]
      by_cases hcc : c' = c
      · rw [hcc]; exact hd
      · rw [hun2 _ hcc] at h1; exact h.dist c' h1
    distLe := fun c' => by rw [hdist]; exact h.distLe c'
    depD := fun t e he => by rw [hdist]; rw [hdeps] at he; exact h.depD t e he
    stat := fun e hs => by
      rw [hL]
      by_cases he : e ∈ succIds G c
      · rw [hin e he] at hs; exact h.stat e hs
      · rw [hout e he] at hs; exact h.stat e hs }

/-- A new edge that has not been looked at. -/
structure Live (G : Graph κ) (H : List (EId κ)) (s : St κ) (e : EId κ) : Prop where
  tot : total G H s e = 0
  proc : (s.edge e).processed = false
  stat : (s.edge e).status = 0
  opn : s.isOpen e = true

theorem total_congr {s s' : St κ} (hW : s'.W = s.W) (hN : s'.N = s.N) (hD : s'.D = s.D)
    (hd : ∀ t, (s'.conf t).deps = (s.conf t).deps) (H : List (EId κ)) (e : EId κ) :
    total G H s' e = total G H s e := by
  simp only [total, hW, hN, hD, depCnt_congr (G := G) hd e]

theorem total_append (L : List (EId κ)) (e : EId κ) : total G (L ++ H) s e = total G H s e + L.count e := by
  simp only [total, List.count_append]; omega

theorem cons_erase_append {α : Type} [BEq α] [LawfulBEq α] {x : α} {L H : List α} (hx : x ∈ L) :
    (x :: (L.erase x ++ H)).Perm (L ++ H) := by
  rw [← List.cons_append]
  exact (List.perm_cons_erase hx).symm.append_right H

theorem Inv.preCheck (hl : G.Layered lev) (hV : G.Solution V) (addr : EId κ → Nat) {c : κ}
    (hHK : ∀ x ∈ K, x ∈ H) : ∀ (todo L : List (EId κ)) {s : St κ},
    Inv G V lev (L ++ H) (L ++ K) X s → L.Nodup → todo.Nodup → (∀ e ∈ todo, e ∈ L) →
    (∀ e ∈ succIds G c, e ∉ L → (s.edge e).refcnt = -1) →
    (∀ e ∈ L, e ∈ succIds G c ∧ e ∉ X) → (∀ e ∈ L, Live G H s e) → s.asg c = .zero →
    ∃ L', Inv G V lev (L' ++ H) (L' ++ K) X (s.preCheck G addr c todo) ∧ L'.Nodup ∧
      (∀ e ∈ succIds G c, e ∉ L' → ((s.preCheck G addr c todo).edge e).refcnt = -1) ∧
      (∀ e ∈ L', e ∈ succIds G c ∧ e ∉ X) ∧
      ((s.preCheck G addr c todo).isDone c = true ∨
        ((s.preCheck G addr c todo).asg c = .zero ∧ ∀ e ∈ L', Live G H (s.preCheck G addr c todo) e)) ∧
      ConfFrame c s (s.preCheck G addr c todo)
  | [], L, s, h, hn, _, _, hr, hL, hlive, hz =>
    ⟨L, h, hn, hr, hL, .inr ⟨hz, hlive⟩, ConfFrame.refl c s⟩
  | e :: es, L, s, h, hn, hnt, ht, hr, hL, hlive, hz => by
    have heL : e ∈ L := ht e (by simp)
    obtain ⟨hsuc, heX⟩ := hL e heL
    obtain ⟨hec, hrng⟩ := mem_succIds.1 hsuc
    have hnt' := List.nodup_cons.1 hnt
    have h1 : Inv G V lev (e :: (L.erase e ++ H)) (e :: (L.erase e ++ K)) X s :=
      h.perm (cons_erase_append heL) (fun x => (cons_erase_append heL).mem_iff)
    have htot : total G (L.erase e ++ H) s e = 0 := by
      rw [total_append, (hlive e heL).tot, List.count_eq_zero.2 (List.Nodup.not_mem_erase hn)]
    have o := h1.checkOnly hl hV addr (fun x hx => by
      rcases List.mem_append.1 hx with hx | hx
      · exact List.mem_append_left _ hx
      · exact List.mem_append_right _ (hHK x hx)) (by rw [hec]; exact hz) hrng (hlive e heL).opn htot heX
    unfold St.preCheck
    simp only
    generalize hs1 : s.checkOnly G addr e = s1 at o ⊢
    have hfr := o.frame
    rw [hec] at hfr
    -- the edges still alive
    obtain ⟨L1, hi1, hL1, hn1, hsub1, hr1⟩ : ∃ L1, Inv G V lev (L1 ++ H) (L1 ++ K) X s1 ∧
        (∀ x ∈ L1, x ∈ L) ∧ L1.Nodup ∧ (∀ x ∈ L, x ≠ e → x ∈ L1) ∧
        (e ∈ L1 → s1.isDone e.1 = true ∨ ((s1.edge e).processed = (s.edge e).processed ∧
          (s1.edge e).status = (s.edge e).status ∧ s1.isOpen e = true)) ∧
        (e ∉ L1 → (s1.edge e).refcnt = -1) := by
      rcases o.inv with ⟨h2, h3⟩ | ⟨h2, h3⟩
      · exact ⟨L, h2.perm (cons_erase_append heL).symm (fun x => (cons_erase_append heL).symm.mem_iff),
          fun _ h => h, hn, fun _ h _ => h, fun _ => h3, fun h => absurd heL h⟩
      · exact ⟨L.erase e, h2, fun x hx => List.mem_of_mem_erase hx, hn.erase e,
          fun x hx hne => (List.mem_erase_of_ne hne).2 hx,
          fun h => absurd h (List.Nodup.not_mem_erase hn), fun _ => h3⟩
    have hr' : ∀ x ∈ succIds G c, x ∉ L1 → (s1.edge x).refcnt = -1 := by
      intro x hx hxL
      by_cases hxe : x = e
      · subst hxe; exact hr1.2 hxL
      · have : x ∉ L := fun h' => hxL (hsub1 x h' hxe)
        have h3 := hr x hx this
        rw [o.released x hxe h3]; exact h3
    have hL' : ∀ x ∈ L1, x ∈ succIds G c ∧ x ∉ X := fun x hx => hL x (hL1 x hx)
    split
    · rename_i hdn
      exact ⟨L1, hi1, hn1, hr', hL', .inl hdn, hfr⟩
    · rename_i hdn
      have hself := hfr.self.resolve_right hdn
      have hz1 : s1.asg c = .zero := by rw [hself.1]; exact hz
      have hoth := o.others.resolve_left (by rw [hec]; exact hdn)
      have hdeps : ∀ t, (s1.conf t).deps = (s.conf t).deps := by
        intro t
        by_cases htc : t = c
        · rw [htc]; exact hself.2.2
        · exact hfr.deps t htc
      have hlive1 : ∀ x ∈ L1, Live G H s1 x := by
        intro x hx
        have hlx := hlive x (hL1 x hx)
        have htx : total G H s1 x = 0 := by
          rw [total_congr hfr.W hfr.N hself.2.1 hdeps]; exact hlx.tot
        by_cases hxe : x = e
        · subst hxe
          have := (hr1.1 hx).resolve_left (by rw [hec]; exact hdn)
          exact ⟨htx, this.1.trans hlx.proc, this.2.1.trans hlx.stat, this.2.2⟩
        · have := hoth x hxe
          exact ⟨htx, by rw [this]; exact hlx.proc, by rw [this]; exact hlx.stat,
            by simpa only [St.isOpen, this] using hlx.opn⟩
      obtain ⟨L2, g1, g2, g3, g4, g5, g6⟩ := Inv.preCheck hl hV addr hHK es L1 hi1 hn1 hnt'.2
        (fun x hx => hsub1 x (ht x (by simp [hx])) (by rintro rfl; exact hnt'.1 hx)) hr' hL' hlive1 hz1
      exact ⟨L2, g1, g2, g3, g4, g5, hfr.trans g6⟩

/-- Giving up the references of the creating function. -/
theorem Inv.dropSuccs (hHK : ∀ x ∈ K, x ∈ H) : ∀ (todo L : List (EId κ)) {s : St κ},
    Inv G V lev (L ++ H) (L ++ K) X s → L.Nodup → todo.Nodup → (∀ e ∈ L, e ∈ todo) →
    (∀ e ∈ todo, e ∉ L → (s.edge e).refcnt = -1) →
    (∀ e ∈ L, e ∉ X ∧ (s.asg e.1 = .zero → s.isOpen e = false)) →
    Inv G V lev H K X (todo.foldl dropSucc s) ∧ Frame s (todo.foldl dropSucc s) ∧
      ∀ e, e ∉ todo → (todo.foldl dropSucc s).edge e = s.edge e
  | [], L, s, h, _, _, hL, _, _ => by
    have : L = [] := List.eq_nil_iff_forall_not_mem.2 fun e he => by simpa using hL e he
    subst this
    exact ⟨h, Frame.refl s, fun _ _ => rfl⟩
  | e :: es, L, s, h, hn, hnt, hL, hr, hok => by
    have hnt' := List.nodup_cons.1 hnt
    rw [List.foldl_cons]
    by_cases heL : e ∈ L
    · have h1 : Inv G V lev (e :: (L.erase e ++ H)) (L ++ K) X s :=
        h.perm (cons_erase_append heL) (fun _ => Iff.rfl)
      have hpos := h1.held_pos (e := e) (by simp)
      have h2 : Inv G V lev (L.erase e ++ H) (L.erase e ++ K) X (s.deref e) :=
        h1.drop (fun e' hne => by
          simp only [List.mem_append, List.mem_erase_of_ne hne]) (fun hz _ ho => by
            rw [(hok e heL).2 hz] at ho; cases ho) (fun _ hx => absurd hx (hok e heL).1)
      have h3 := h2.release0 e (fun hx => by
        rcases List.mem_append.1 hx with hx | hx
        · exact List.mem_append_left _ hx
        · exact List.mem_append_right _ (hHK e hx))
      have hds : s.dropSucc e = (s.deref e).releaseIf0 e := by
        unfold St.dropSucc; rw [if_pos (by omega)]
      have hfr : Frame s (s.dropSucc e) := by
        rw [hds]; exact (deref_frame s e).trans (releaseIf0_frame _ e)
      rw [← hds] at h3
      have hne : ∀ e', e' ≠ e → (s.dropSucc e).edge e' = s.edge e' := by
        intro e' hne; rw [hds, releaseIf0_edge_ne hne]; exact upE_ne _ hne _
      obtain ⟨g1, g2, g3⟩ := Inv.dropSuccs hHK es (L.erase e) h3 (hn.erase e) hnt'.2
        (fun x hx => by
          have hxe : x ≠ e := by rintro rfl; exact List.Nodup.not_mem_erase hn hx
          exact (List.mem_cons.1 (hL x (List.mem_of_mem_erase hx))).resolve_left hxe)
        (fun x hx hxL => by
          have hxe : x ≠ e := by rintro rfl; exact hnt'.1 hx
          rw [hne x hxe]
          exact hr x (by simp [hx]) (fun h' => hxL ((List.mem_erase_of_ne hxe).2 h')))
        (fun x hx => by
          have hxe : x ≠ e := by rintro rfl; exact List.Nodup.not_mem_erase hn hx
          have := hok x (List.mem_of_mem_erase hx)
          simpa only [St.asg, hfr.conf, St.isOpen, hne x hxe] using this)
      refine ⟨g1, hfr.trans g2, fun x hx => ?_⟩
      simp only [List.mem_cons, not_or] at hx
      rw [g3 x hx.2, hne x hx.1]
    · have hrc := hr e (by simp) heL
      have hds : s.dropSucc e = s := by
        unfold St.dropSucc
        rw [if_neg (by rw [hrc]; decide)]
        unfold St.releaseIf0
        rw [if_neg (by rw [hrc]; decide)]
      rw [hds]
      obtain ⟨g1, g2, g3⟩ := Inv.dropSuccs hHK es L h hn hnt'.2
        (fun x hx => (List.mem_cons.1 (hL x hx)).resolve_left (by rintro rfl; exact heL hx))
        (fun x hx hxL => hr x (by simp [hx]) hxL) hok
      exact ⟨g1, g2, fun x hx => g3 x (by simp only [List.mem_cons, not_or] at hx; exact hx.2)⟩

/-- Scheduling the new edges. -/
theorem Inv.pushSuccs (hHK : ∀ x ∈ K, x ∈ H) : ∀ (todo L : List (EId κ)) {s : St κ},
    Inv G V lev (L ++ H) (L ++ K) X s → L.Nodup → todo.Nodup → (∀ e ∈ L, e ∈ todo) →
    (∀ e ∈ todo, e ∉ L → (s.edge e).refcnt = -1) →
    (∀ e ∈ L, e ∉ X ∧ s.asg e.1 = .zero ∧ Live G H s e) →
    Inv G V lev H K X (todo.foldl (pushSucc G) s) ∧ (todo.foldl (pushSucc G) s).conf = s.conf ∧
      (todo.foldl (pushSucc G) s).N = s.N ∧ (todo.foldl (pushSucc G) s).D = s.D ∧
      (∀ e ∈ (todo.foldl (pushSucc G) s).W, e ∈ s.W ∨ e ∈ todo) ∧
      ∀ e, e ∉ todo → (todo.foldl (pushSucc G) s).edge e = s.edge e
  | [], L, s, h, _, _, hL, _, _ => by
    have : L = [] := List.eq_nil_iff_forall_not_mem.2 fun e he => by simpa using hL e he
    subst this
    exact ⟨h, rfl, rfl, rfl, fun _ h => .inl h, fun _ _ => rfl⟩
  | e :: es, L, s, h, hn, hnt, hL, hr, hok => by
    have hnt' := List.nodup_cons.1 hnt
    rw [List.foldl_cons]
    by_cases heL : e ∈ L
    · obtain ⟨heX, hz, hlive⟩ := hok e heL
      have h1 : Inv G V lev (e :: (L.erase e ++ H)) (L ++ K) X s :=
        h.perm (cons_erase_append heL) (fun _ => Iff.rfl)
      have hpos := h1.held_pos (e := e) (by simp)
      have ht0 := hlive.tot
      have hnl : ¬ Listed s e := fun hl => by
        have := total_pos_of_listed (G := G) (H := H) hl; omega
      have h2 := h1.pushW e 1 (total_pos_of_mem (by simp)) (fun h' => hnl (.inl h')) (fun h' => hnl (.inr (.inl h')))
        hlive.proc
      have hpe : s.pushEdge G e =
          { ((s.upE e fun r => { r with status := 1 }).ref e) with W := s.W ++ [e] } := by
        unfold St.pushEdge
        rw [if_neg (by rw [hlive.stat, zero_not_done hz]; simp), if_neg (by rw [hlive.proc]; simp)]
        rfl
      rw [← hpe] at h2
      have hps : s.pushSucc G e = ((s.pushEdge G e).deref e).releaseIf0 e := by
        unfold St.pushSucc; rw [if_pos hpos]
      have hW2 : (s.pushEdge G e).W = s.W ++ [e] := by rw [hpe]
      have h3 : Inv G V lev (L.erase e ++ H) (L.erase e ++ K) X ((s.pushEdge G e).deref e) :=
        h2.drop (fun e' hne => by
          simp only [List.mem_append, List.mem_erase_of_ne hne]) (fun _ _ _ _ => .inl (.inl (by rw [hW2]; simp)))
          (fun _ hx => absurd hx heX)
      have h4 := h3.release0 e (fun hx => by
        rcases List.mem_append.1 hx with hx | hx
        · exact List.mem_append_left _ hx
        · exact List.mem_append_right _ (hHK e hx))
      rw [← hps] at h4
      have hne : ∀ e', e' ≠ e → (s.pushSucc G e).edge e' = s.edge e' := by
        intro e' hne
        rw [hps, releaseIf0_edge_ne hne]
        show ((s.pushEdge G e).upE e _).edge e' = _
        rw [upE_ne _ hne, hpe]
        simp [St.ref, upE_ne _ hne]
      have hfr := (deref_frame (s.pushEdge G e) e).trans (releaseIf0_frame _ e)
      rw [← hps] at hfr
      have hconf : (s.pushSucc G e).conf = s.conf := by rw [hfr.conf, hpe]; rfl
      have hW : (s.pushSucc G e).W = s.W ++ [e] := by rw [hfr.W, hW2]
      have hN : (s.pushSucc G e).N = s.N := by rw [hfr.N, hpe]; rfl
      have hD : (s.pushSucc G e).D = s.D := by
        rw [hps]; unfold St.releaseIf0; split <;> (rw [hpe]; rfl)
      obtain ⟨g1, g2, g3, g4, g5, g6⟩ := Inv.pushSuccs hHK es (L.erase e) h4 (hn.erase e) hnt'.2
        (fun x hx => by
          have hxe : x ≠ e := by rintro rfl; exact List.Nodup.not_mem_erase hn hx
          exact (List.mem_cons.1 (hL x (List.mem_of_mem_erase hx))).resolve_left hxe)
        (fun x hx hxL => by
          have hxe : x ≠ e := by rintro rfl; exact hnt'.1 hx
          rw [hne x hxe]
          exact hr x (by simp [hx]) (fun h' => hxL ((List.mem_erase_of_ne hxe).2 h')))
        (fun x hx => by
          have hxe : x ≠ e := by rintro rfl; exact List.Nodup.not_mem_erase hn hx
          obtain ⟨k1, k2, k3⟩ := hok x (List.mem_of_mem_erase hx)
          refine ⟨k1, by simpa only [St.asg, hconf] using k2, ?_, by rw [hne x hxe]; exact k3.proc,
            by rw [hne x hxe]; exact k3.stat, by simpa only [St.isOpen, hne x hxe] using k3.opn⟩
          have : total G H (s.pushSucc G e) x = total G H s x := by
            simp only [total, hW, hN, hD, depCnt_congr (G := G) (s := s) (s' := s.pushSucc G e)
              (fun t => by rw [hconf]) x, List.count_append, List.count_cons]
            simp [Ne.symm hxe]
          rw [this]; exact k3.tot)
      refine ⟨g1, g2.trans hconf, g3.trans hN, g4.trans hD, fun x hx => ?_, fun x hx => ?_⟩
      · rcases g5 x hx with hx | hx
        · rw [hW] at hx
          rcases List.mem_append.1 hx with hx | hx
          · exact .inl hx
          · exact .inr (by simp at hx; simp [hx])
        · exact .inr (by simp [hx])
      · simp only [List.mem_cons, not_or] at hx
        rw [g6 x hx.2, hne x hx.1]
    · have hrc := hr e (by simp) heL
      have hds : s.pushSucc G e = s := by
        unfold St.pushSucc St.releaseIf0
        rw [if_neg (by rw [hrc]; decide), if_neg (by rw [hrc]; decide)]
      rw [hds]
      obtain ⟨g1, g2, g3, g4, g5, g6⟩ := Inv.pushSuccs hHK es L h hn hnt'.2
        (fun x hx => (List.mem_cons.1 (hL x hx)).resolve_left (by rintro rfl; exact heL hx))
        (fun x hx hxL => hr x (by simp [hx]) hxL) hok
      refine ⟨g1, g2, g3, g4, fun x hx => ?_, fun x hx => g6 x (by simp only [List.mem_cons, not_or] at hx; exact hx.2)⟩
      rcases g5 x hx with hx | hx
      · exact .inl hx
      · exact .inr (by simp [hx])

end CTL
end Verif
