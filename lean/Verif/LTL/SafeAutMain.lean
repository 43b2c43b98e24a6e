import Mathlib.Data.Nat.Find
import Verif.LTL.SafeAutLemmas
import Verif.LTL.Runs
import Verif.Props.Stubborn

/-!
# The automaton-guided reduction keeps accepting runs
-/

namespace Verif
namespace LTL
open PQL Stubborn StubbornProps

/-! ### Infinite runs of a net -/

section
variable {P T : Type} {N : Net P T} {S : T → Prop}

/-- The marking after `t`, as if it were enabled. -/
def shiftTo (N : Net P T) (t : T) (M : Marking P) : Marking P := fun p => M p + N.post t p - N.pre t p

theorem shiftTo_fire {t : T} {M : Marking P} (h : N.Enabled M t) : shiftTo N t M = N.fire M t := by
  funext p; have := h.1 p; simp only [shiftTo, Net.fire]; omega

theorem run_range_lt {ρ : Nat → Marking P} {τ : Nat → T} (n : Nat) (h : ∀ i, i < n → N.Step (ρ i) (τ i) (ρ (i + 1))) :
    N.Run (ρ 0) ((List.range n).map τ) (ρ n) := by
  induction n with
  | zero => exact .nil _
  | succ n ih =>
    rw [List.range_succ, List.map_append]
    exact (ih fun i hi => h i (by omega)).snoc _ (h n (by omega))

theorem run_range {ρ : Nat → Marking P} {τ : Nat → T} (h : ∀ i, N.Step (ρ i) (τ i) (ρ (i + 1))) (n : Nat) :
    N.Run (ρ 0) ((List.range n).map τ) (ρ n) := run_range_lt n fun i _ => h i

/-- Transitions outside the set can be fired after `t` as well. -/
theorem shift_steps_lt {t : T} {ρ : Nat → Marking P} {τ : Nat → T} (n : Nat)
    (h : ∀ i, i < n → N.Step (ρ i) (τ i) (ρ (i + 1)))
    (hc : ∀ p, (N.post t p < N.pre t p → ∀ u, 0 < N.pre u p → S u) ∧
      (N.pre t p < N.post t p → ∀ u w, N.inh u p = some w → S u))
    (he : N.Enabled (ρ 0) t) (hS : ∀ i, i < n → ¬ S (τ i)) :
    Shift (N := N) t (ρ n) (shiftTo N t (ρ n)) ∧
      ∀ i, i < n → N.Step (shiftTo N t (ρ i)) (τ i) (shiftTo N t (ρ (i + 1))) := by
  induction n with
  | zero =>
    refine ⟨fun p => ?_, fun i hi => by omega⟩
    have := he.1 p
    simp only [shiftTo]; omega
  | succ n ih =>
    obtain ⟨hs, ih⟩ := ih (fun i hi => h i (by omega)) fun i hi => hS i (by omega)
    have hu := hS n (by omega)
    have hst := h n (by omega)
    have hen : N.Enabled (shiftTo N t (ρ n)) (τ n) := by
      constructor
      · intro p
        have h1 := hst.1.1 p
        have h2 := hs p
        by_cases hlt : N.post t p < N.pre t p
        · have : ¬ 0 < N.pre (τ n) p := fun h => hu ((hc p).1 hlt _ h)
          omega
        · omega
      · intro p w hw
        have h1 := hst.1.2 p w hw
        have h2 := hs p
        by_cases hlt : N.pre t p < N.post t p
        · exact (hu ((hc p).2 hlt _ w hw)).elim
        · omega
    have hsh : Shift (N := N) t (ρ (n + 1)) (shiftTo N t (ρ (n + 1))) ∧
        shiftTo N t (ρ (n + 1)) = N.fire (shiftTo N t (ρ n)) (τ n) := by
      have key : ∀ p, N.pre t p ≤ ρ (n + 1) p + N.post t p ∧
          ρ (n + 1) p + N.post t p - N.pre t p = N.fire (shiftTo N t (ρ n)) (τ n) p := by
        intro p
        have h1 := hen.1 p
        have h2 := hst.1.1 p
        have h3 := hs p
        rw [hst.2]
        simp only [Net.fire] at h1 h3 ⊢
        omega
      exact ⟨fun p => by have := key p; simp only [shiftTo]; omega, funext fun p => (key p).2⟩
    refine ⟨hsh.1, fun i hi => ?_⟩
    by_cases hin : i < n
    · exact ih i hin
    · have : i = n := by omega
      subst this
      exact ⟨hen, hsh.2⟩

theorem shift_steps {t : T} {ρ : Nat → Marking P} {τ : Nat → T} (h : ∀ i, N.Step (ρ i) (τ i) (ρ (i + 1)))
    (hc : ∀ p, (N.post t p < N.pre t p → ∀ u, 0 < N.pre u p → S u) ∧
      (N.pre t p < N.post t p → ∀ u w, N.inh u p = some w → S u))
    (he : N.Enabled (ρ 0) t) (n : Nat) (hS : ∀ i, i < n → ¬ S (τ i)) :
    Shift (N := N) t (ρ n) (shiftTo N t (ρ n)) ∧
      ∀ i, i < n → N.Step (shiftTo N t (ρ i)) (τ i) (shiftTo N t (ρ (i + 1))) :=
  shift_steps_lt n (fun i _ => h i) hc he hS
end

variable {N : FlatNet} {A : Buchi} {ap : Mark → Nat → Bool} {G : Nat → Conds} {σ : Mark → Nat → Mem} {m0 : Mark}

/-- Specification: the automaton can go from `q` to `q'` reading the marking. -/
def Buchi.Can (A : Buchi) (ap : Mark → Nat → Bool) (q q' : Nat) (m : Mark) : Prop :=
  ∃ g, (q', g) ∈ A.edges q ∧ g.valid (ap m) = true

theorem can_of_ret {q : Nat} {m : Mark} (h : A.retB q (ap m) = true) : A.Can ap q q m := by
  unfold Buchi.retB at h
  cases hl : ((A.edges q).filter fun e => decide (e.1 = q)).getLast? with
  | none => rw [hl] at h; simp at h
  | some e =>
    rw [hl] at h
    have hm := List.mem_of_getLast? hl
    rw [List.mem_filter] at hm
    obtain ⟨h1, h2⟩ := hm
    simp only [decide_eq_true_eq] at h2
    refine ⟨e.2, ?_, by simpa using h⟩
    have : (q, e.2) = e := by rw [← h2]
    rw [this]; exact h1

theorem stays {q q' : Nat} {m : Mark} (h : A.Can ap q q' m) (hp : A.progB q (ap m) = false) : q' = q := by
  obtain ⟨g, hg, hv⟩ := h
  refine Classical.byContradiction fun hne => ?_
  unfold Buchi.progB at hp
  rw [List.any_eq_false] at hp
  exact hp _ hg (by simp [hne, hv])

theorem nodup_fst_unique {l : List (Nat × Bdd)} (hn : (l.map (·.1)).Nodup) {e f : Nat × Bdd} (he : e ∈ l) (hf : f ∈ l)
    (h : e.1 = f.1) : e = f := by
  induction l with
  | nil => cases he
  | cons a l ih =>
    rw [List.map_cons, List.nodup_cons] at hn
    rcases List.mem_cons.1 he with rfl | he <;> rcases List.mem_cons.1 hf with h' | hf
    · exact h'.symm
    · exact (hn.1 (List.mem_map.2 ⟨f, hf, h.symm⟩)).elim
    · exact (hn.1 (List.mem_map.2 ⟨e, he, by rw [← h']; exact h⟩)).elim
    · exact ih hn.2 he hf

theorem ret_of_can (hs : A.Simple) {q : Nat} {m : Mark} (h : A.Can ap q q m) : A.retB q (ap m) = true := by
  obtain ⟨g, hg, hv⟩ := h
  unfold Buchi.retB
  cases hl : ((A.edges q).filter fun e => decide (e.1 = q)).getLast? with
  | none =>
    rw [List.getLast?_eq_none_iff] at hl
    have : (q, g) ∈ (A.edges q).filter fun e => decide (e.1 = q) := List.mem_filter.2 ⟨hg, by simp⟩
    rw [hl] at this; cases this
  | some e =>
    have hm := List.mem_of_getLast? hl
    rw [List.mem_filter] at hm
    have : e = (q, g) := nodup_fst_unique (hs q) hm.1 hg (by simpa using hm.2)
    simp [this, hv]

/-- Specification: what the conditions have to do with the automaton, and what is required of them. -/
structure CondsOK (N : FlatNet) (A : Buchi) (ap : Mark → Nat → Bool) (G : Nat → Conds) (m0 : Mark) : Prop where
  /-- the conditions have the values of the guards they were made from -/
  prog : ∀ m, N.toNet.Reach m0 m → ∀ q, evaluateSet (N.deadlocked m) m (G q).prog = .ofBool (A.progB q (ap m))
  ret : ∀ m, N.toNet.Reach m0 m → ∀ q, evaluateSet (N.deadlocked m) m (G q).ret = .ofBool (A.retB q (ap m))
  noSink : ∀ m, N.toNet.Reach m0 m → ∀ q, (G q).noSink = true → (A.retB q (ap m) || A.progB q (ap m)) = true
  tameP : ∀ q, tameCond (G q).prog = true
  tameR : ∀ q, tameCond (G q).ret = true
  fitP : ∀ m, N.toNet.Reach m0 m → ∀ q, Fit32 m (G q).prog
  fitR : ∀ m, N.toNet.Reach m0 m → ∀ q, Fit32 m (G q).ret
  /-- from every state there is an edge whatever holds, or the condition for staying is steady -/
  steady : ∀ q, (G q).noSink = true ∨ Cx.steadyC true (G q).ret = true

/-- What the proof uses of a set of transitions. -/
structure Useful (N : FlatNet) (A : Buchi) (ap : Mark → Nat → Bool) (m0 m : Mark) (q : Nat)
    (S : Fin N.ntransitions → Prop) : Prop where
  closed : Closed N.toNet m S
  acc : A.acc q = true → ∃ t, S t ∧ N.toNet.Enabled m t
  out : ∀ us M', N.toNet.Run m us M' → (∀ u ∈ us, ¬ S u) → A.progB q (ap M') = false
  first : ∀ t, S t → N.toNet.Enabled m t → ∀ us M', N.toNet.Run m (t :: us) M' → (∀ u ∈ us, ¬ S u) →
    A.progB q (ap M') = false
  ret : ∀ t, S t → N.toNet.Enabled m t → ∀ Mb M', N.toNet.Reach m0 Mb → N.toNet.Reach m0 M' → Shift (N := N.toNet) t Mb M' →
    A.retB q (ap Mb) = true → A.progB q (ap M') = false → A.retB q (ap M') = true

theorem lcx_en (w : N.WF) (m : Mark) : EnOK N m (lcx N m).en := cx_en w m

theorem safe_useful (w : N.WF) (hd : N.DirOK) (hb : ∀ m, N.toNet.Reach m0 m → ∀ p, m p + 1 < W32)
    (hG : CondsOK N A ap G m0) {m : Mark} (hm : N.toNet.Reach m0 m) (q : Nat) (hf : A.fullB q (ap m) = false) (M : Mem)
    (hnd : ¬ N.toNet.Dead m) :
    (∀ t : Fin N.ntransitions, N.toNet.Enabled m t → safeSet N m (A.acc q) (G q).prog (G q).sink M t = true) ∨
    Useful N A ap m0 m q fun t => safeSet N m (A.acc q) (G q).prog (G q).sink M t = true := by
  have hen : EnOK (lcx N m).N (lcx N m).m (lcx N m).en := lcx_en w m
  have hord : ∀ t : Fin N.ntransitions, N.toNet.Enabled m t ↔ t.1 ∈ ordering N m := fun t => by
    rw [mem_ordering w, FlatNet.checkPreset_iff w]; exact ⟨fun h => ⟨t.2, h⟩, fun h => h.2⟩
  have hen' : ∀ t : Fin N.ntransitions, N.toNet.Enabled m t → (lcx N m).en t = true := fun t h =>
    List.contains_iff_mem.2 ((hord t).1 h)
  have hdl : ∀ m, N.deadlocked m = true ↔ N.toNet.Dead m := C02_deadlock_exact N w
  have hdf : N.deadlocked m = false := by
    cases h : N.deadlocked m with
    | false => rfl
    | true => exact (hnd ((hdl m).1 h)).elim
  -- values of the conditions
  have hpf : A.progB q (ap m) = false := by
    unfold Buchi.fullB at hf; simp only [Bool.or_eq_false_iff] at hf; exact hf.1
  have hrt : A.retB q (ap m) = true := by
    unfold Buchi.fullB at hf; rw [hpf] at hf; simpa using hf
  have hvp : evaluateSet false m (G q).prog = .ofBool false := by
    have := hG.prog m hm q; rw [hdf, hpf] at this; exact this
  have hvr : evaluateSet false m (G q).ret = .ofBool true := by
    have := hG.ret m hm q; rw [hdf, hrt] at this; exact this
  -- the memory
  have htp := tame_nontemporal _ (hG.tameP q)
  have htr := tame_nontemporal _ (hG.tameR q)
  have hts : (G q).sink.isTemporal = false := by
    unfold Conds.sink; split
    · rfl
    · simp [Cond.isTemporal, anyTemporal, htp, htr]
  obtain ⟨_, _, p3, p4⟩ := evalMem_spec (dl := false) (m := m) [0] (G q).prog M htp
  obtain ⟨_, s2, s3, s4⟩ := evalMem_spec (dl := false) (m := m) [1] (G q).sink
    (evalMem false m [0] (G q).prog M).2 hts
  have hmem : safeMem N m (G q).prog (G q).sink M =
      (evalMem false m [1] (G q).sink (evalMem false m [0] (G q).prog M).2).2 := by unfold safeMem; rw [hdf]
  rw [← hmem] at s2 s3 s4
  have hdis : ∀ r : List Nat, [0] <+: r → ¬ [1] <+: r := fun r h => pre_disj (pos := []) (i := 0) (j := 1) (by omega) h
  have hrp : Rec (safeMem N m (G q).prog (G q).sink M) false m [0] (G q).prog :=
    rec_congr _ _ (fun r hr => s2 r (hdis r hr)) p4
  have hsp : (safeMem N m (G q).prog (G q).sink M).sat [0] = evaluateSet false m (G q).prog := by
    rw [← (s2 [0] (hdis _ (List.prefix_refl _))).1]; exact p3
  -- the sets
  have hboth : Cx.Both (lcx N m) := ⟨rfl, hen, w, hd, hb m hm⟩
  have e0 := Cx.visit_ext (C := lcx N m) (M := safeMem N m (G q).prog (G q).sink M) hen false [0] (G q).prog {}
  have u0 := Cx.visitL_ext (C := lcx N m) (M := safeMem N m (G q).prog (G q).sink M) rfl hen false [0] (G q).prog {}
  have i0 := e0.inv (inv_empty m (lcx N m).en)
  have ui0 := u0.inv (inv_empty m (lcx N m).en)
  have cov := Cx.visit_cov (C := lcx N m) hboth false [0] (G q).prog {} {} (hG.tameP q) hsp hrp hvp
    (inv_empty m (lcx N m).en) (fun t _ h => by cases h)
  have u1 := Cx.visitL_ext (C := lcx N m) (M := safeMem N m (G q).prog (G q).sink M) rfl hen false [1] (G q).sink
    ((lcx N m).visitL (safeMem N m (G q).prog (G q).sink M) false [0] (G q).prog {})
  have ui1 := u1.inv ui0
  have covU : ∀ t, (lcx N m).en t = true →
      ((lcx N m).visit (safeMem N m (G q).prog (G q).sink M) false [0] (G q).prog {}).stub t = true →
      (unsafeSet N m (G q).prog (G q).sink M).stub t = true := fun t he ht => u1.le.stub t (cov t he ht)
  obtain ⟨c1, ci1, cu1⟩ := closure_done hen _ i0
  -- what holds for a set that is not bad
  have key : ∀ s : Stub, Le (progSet N m (G q).prog (G q).sink M) s → Inv N m (lcx N m).en (fun _ => False) s →
      s.unproc = [] → isBad N m (unsafeSet N m (G q).prog (G q).sink M).stub s = false →
      (A.acc q = true → ∃ t ∈ ordering N m, s.stub t = true) →
      Useful N A ap m0 m q fun t => s.stub t = true := by
    intro s hle hi hu hnb hacc
    have hle0 : ∀ t, ((lcx N m).visit (safeMem N m (G q).prog (G q).sink M) false [0] (G q).prog {}).stub t = true →
        s.stub t = true := fun t ht => hle.stub t (c1.stub t ht)
    have hunsafe : ∀ t : Fin N.ntransitions, s.stub t = true → N.toNet.Enabled m t →
        ¬ (unsafeSet N m (G q).prog (G q).sink M).stub t = true := fun t ht he hU => by
      unfold isBad at hnb
      rw [List.any_eq_false] at hnb
      exact hnb t ((hord t).1 he) (by simp [ht, hU])
    have hreach : ∀ us M', N.toNet.Run m us M' → N.toNet.Reach m0 M' := fun us M' hr =>
      Net.Reach.trans _ hm ⟨us, hr⟩
    have hprog : ∀ us M', N.toNet.Run m us M' → (∀ u ∈ us,
        ¬ ((lcx N m).visit (safeMem N m (G q).prog (G q).sink M) false [0] (G q).prog {}).stub u = true) →
        A.progB q (ap M') = false := by
      intro us M' hr hus
      have hM' := hreach us M' hr
      have hK : Keeps m M' ((lcx N m).visit (safeMem N m (G q).prog (G q).sink M) false [0] (G q).prog {}) :=
        keeps_of_run hd i0 (S := fun u =>
          ((lcx N m).visit (safeMem N m (G q).prog (G q).sink M) false [0] (G q).prog {}).stub u = true)
          (fun _ h => h) hr hus
      have hsome : ∃ t, t < (lcx N m).N.ntransitions ∧ (lcx N m).en t = true := by
        refine Classical.byContradiction fun hno => hnd fun t ht => hno ⟨t, t.2, hen' t ht⟩
      have hhere : Cx.Here (lcx N m) M' (N.deadlocked M') := by
        refine ⟨hen, hsome, fun p => ?_, fun p => ?_, fun u hu hc => ?_⟩
        · have := hb m hm p; show m p < W32; omega
        · have := hb M' hM' p; omega
        · cases h : N.deadlocked M' with
          | false => rfl
          | true => exact ((hdl M').1 h ⟨u, hu⟩ ((FlatNet.checkPreset_iff w M' ⟨u, hu⟩).1 hc)).elim
      have := Cx.visit_ok hhere false [0] (G q).prog {} (hG.tameP q) (hG.fitP m hm q) hrp hvp hK
      rw [hG.prog M' hM' q, ofBool_eq] at this
      exact this
    refine ⟨closed_of_inv w hd hen hi hu, fun ha => ?_, fun us M' hr hus => ?_, fun t ht he us M' hr hus => ?_,
      fun t ht he Mb M' hMb hM' hsh hret hpr => ?_⟩
    · obtain ⟨t, ht, hs⟩ := hacc ha
      have hlt := ((mem_ordering w).1 ht).1
      exact ⟨⟨t, hlt⟩, hs, (hord ⟨t, hlt⟩).2 ht⟩
    · exact hprog us M' hr fun u hu h => hus u hu (hle0 u h)
    · refine hprog (t :: us) M' hr fun u hu h => ?_
      rcases List.mem_cons.1 hu with rfl | hu
      · exact hunsafe u ht he (covU u (hen' u he) h)
      · exact hus u hu (hle0 u h)
    · rcases hG.steady q with hn | hst
      · have := hG.noSink M' hM' q hn
        rw [hpr] at this; simpa using this
      · by_cases hn : (G q).noSink = true
        · have := hG.noSink M' hM' q hn
          rw [hpr] at this; simpa using this
        · have hsink : (G q).sink = .not (.or [(G q).prog, (G q).ret]) := by unfold Conds.sink; rw [if_neg hn]
          rw [hsink] at s4
          simp only [Rec, RecOr, List.cons_append, List.nil_append] at s4
          obtain ⟨_, r1, r2, r3⟩ := s4
          obtain ⟨r4, r5, _⟩ := r3 (by rw [hvp]; simp [Res.ofBool])
          rw [← hsink] at r1 r2 r4 r5
          have hUeq : unsafeSet N m (G q).prog (G q).sink M =
              (lcx N m).visitL (safeMem N m (G q).prog (G q).sink M) true [1, 0, 1] (G q).ret
                ((lcx N m).visitL (safeMem N m (G q).prog (G q).sink M) false [0] (G q).prog {}) := by
            unfold unsafeSet
            generalize safeMem N m (G q).prog (G q).sink M = MM at r1 r4 ⊢
            rw [hsink]
            simp only [Cx.visitL, Cx.visitLSat, Bool.not_false, Bool.not_true, Bool.false_eq_true, if_false,
              List.cons_append, List.nil_append, Nat.zero_add]
            rw [if_neg (by rw [r1, hvp]; simp [Res.ofBool]), if_pos (by rw [r4, hvr]; rfl)]
          have hKU : Keeps Mb M' (unsafeSet N m (G q).prog (G q).sink M) := by
            have hnt := hunsafe t ht he
            refine ⟨fun p hp => ?_, fun p hp => ?_⟩
            · have : ¬ N.toNet.pre t p < N.toNet.post t p := fun h => hnt (ui1.pre p hp _ (mem_preT hd t p h))
              have := hsh p
              omega
            · have : ¬ N.toNet.post t p < N.toNet.pre t p := fun h => by
                obtain ⟨d, hd0, hdm⟩ := mem_postT_decr hd t p h
                exact hnt (ui1.post p hp _ hdm hd0)
              have := hsh p
              omega
          rw [hUeq] at hKU
          have := Cx.visitL_steady (C := lcx N m) (dlb := N.deadlocked Mb) (dl' := N.deadlocked M') hboth
            (fun p => by have := hb Mb hMb p; omega) (fun p => by have := hb M' hM' p; omega) true [1, 0, 1] (G q).ret _
            (hG.tameR q) hst (hG.fitR m hm q) r4 r5 hvr (by rw [hG.ret Mb hMb q, hret]) hKU
          rw [hG.ret M' hM' q, ofBool_eq] at this
          exact this
  -- the cases of `prepare`
  rcases ho : ordering N m with _ | ⟨t, _ | ⟨t', l⟩⟩
  · exact (hnd fun t ht => by have := (hord t).1 ht; rw [ho] at this; cases this).elim
  · left
    intro u hu
    have := (hord u).1 hu
    rw [ho, List.mem_singleton] at this
    unfold safeSet
    rw [ho, this]; exact setB_self ..
  · have hto : t ∈ ordering N m := by rw [ho]; exact List.mem_cons_self ..
    have htlt := ((mem_ordering w).1 hto).1
    have hsafe : safeSet N m (A.acc q) (G q).prog (G q).sink M =
        (if isBad N m (unsafeSet N m (G q).prog (G q).sink M).stub (progSet N m (G q).prog (G q).sink M) then fun _ => true
        else if A.acc q && !((ordering N m).any (progSet N m (G q).prog (G q).sink M).stub) then
          if isBad N m (unsafeSet N m (G q).prog (G q).sink M).stub
              (closure N m (lcx N m).en (addToStub (progSet N m (G q).prog (G q).sink M) t)) then fun _ => true
          else (closure N m (lcx N m).en (addToStub (progSet N m (G q).prog (G q).sink M) t)).stub
        else (progSet N m (G q).prog (G q).sink M).stub) := by
      unfold safeSet; rw [ho]
    rw [hsafe]
    cases hb1 : isBad N m (unsafeSet N m (G q).prog (G q).sink M).stub (progSet N m (G q).prog (G q).sink M) with
    | true => left; intro u _; simp
    | false =>
      simp only [Bool.false_eq_true, if_false]
      cases ha : A.acc q && !((ordering N m).any (progSet N m (G q).prog (G q).sink M).stub) with
      | true =>
        simp only [if_true]
        have g1 := addToStub_grow (s := progSet N m (G q).prog (G q).sink M) htlt
        obtain ⟨c2, ci2, cu2⟩ := closure_done hen (addToStub (progSet N m (G q).prog (G q).sink M) t)
          (g1.1.inv ci1)
        cases hb2 : isBad N m (unsafeSet N m (G q).prog (G q).sink M).stub
            (closure N m (lcx N m).en (addToStub (progSet N m (G q).prog (G q).sink M) t)) with
        | true => left; intro u _; simp
        | false =>
          right
          simp only [Bool.false_eq_true, if_false]
          exact key _ (g1.1.le.trans c2) ci2 cu2 hb2 fun _ => ⟨t, hto, c2.stub t g1.2⟩
      | false =>
        right
        simp only [Bool.false_eq_true, if_false]
        refine key _ (.refl _) ci1 cu1 hb1 fun hac => ?_
        rw [hac] at ha
        simp only [Bool.true_and, Bool.not_eq_false'] at ha
        rw [List.any_eq_true] at ha
        exact ha

/-- A run of the product, with the transitions fired. -/
structure PRun (N : FlatNet) (A : Buchi) (ap : Mark → Nat → Bool) (ρ : Nat → Mark) (τ : Nat → Fin N.ntransitions)
    (b : Nat → Nat) : Prop where
  step : ∀ i, N.toNet.Step (ρ i) (τ i) (ρ (i + 1))
  can : ∀ i, A.Can ap (b i) (b (i + 1)) (ρ (i + 1))

theorem PRun.reach {ρ : Nat → Mark} {τ : Nat → Fin N.ntransitions} {b : Nat → Nat} (h : PRun N A ap ρ τ b)
    (h0 : N.toNet.Reach m0 (ρ 0)) (n : Nat) : N.toNet.Reach m0 (ρ n) :=
  Net.Reach.trans _ h0 ⟨_, run_range h.step n⟩

/-- One step of the reduced product, and a run of the full one that goes on from there with the same states of the
automaton. -/
theorem advance (w : N.WF) (hd : N.DirOK) (hb : ∀ m, N.toNet.Reach m0 m → ∀ p, m p + 1 < W32) (hsi : A.Simple)
    (hG : CondsOK N A ap G m0) {ρ : Nat → Mark} {τ : Nat → Fin N.ntransitions} {b : Nat → Nat}
    (h : PRun N A ap ρ τ b) (h0 : N.toNet.Reach m0 (ρ 0)) (hacc : ∀ n, ∃ k, n ≤ k ∧ A.acc (b k) = true) :
    ∃ ρ' τ', PRun N A ap ρ' τ' (fun i => b (i + 1)) ∧ N.toNet.Reach m0 (ρ' 0) ∧
      RedStep N A ap G σ (ρ 0, b 0) (ρ' 0, b 1) := by
  have hgo : (autSet N A ap G σ (ρ 0) (b 0) (τ 0) = true) → ∃ ρ' τ', PRun N A ap ρ' τ' (fun i => b (i + 1)) ∧
      N.toNet.Reach m0 (ρ' 0) ∧ RedStep N A ap G σ (ρ 0, b 0) (ρ' 0, b 1) := fun hs =>
    ⟨fun i => ρ (i + 1), fun i => τ (i + 1), ⟨fun i => h.step (i + 1), fun i => h.can (i + 1)⟩, h.reach h0 1,
      .inl ⟨τ 0, hs, h.step 0⟩, h.can 0⟩
  cases hf : A.fullB (b 0) (ap (ρ 0)) with
  | true => exact hgo (by unfold autSet; rw [if_pos hf])
  | false =>
    have hset : autSet N A ap G σ (ρ 0) (b 0) =
        safeSet N (ρ 0) (A.acc (b 0)) (G (b 0)).prog (G (b 0)).sink (σ (ρ 0) (b 0)) := by
      unfold autSet; rw [if_neg (by simp [hf])]
    rcases safe_useful w hd hb hG h0 (b 0) hf (σ (ρ 0) (b 0)) (fun hdd => hdd _ (h.step 0).1) with hall | hu
    · exact hgo (by rw [hset]; exact hall _ (h.step 0).1)
    · rw [← hset] at hu
      generalize hS : (fun t : Fin N.ntransitions => autSet N A ap G σ (ρ 0) (b 0) t = true) = S at hu
      have hSt : ∀ t, S t ↔ autSet N A ap G σ (ρ 0) (b 0) t = true := fun t => by rw [← hS]
      -- the state of the automaton does not change before a transition of the set
      have hstay : ∀ n, (∀ i, i < n → ¬ S (τ i)) → ∀ i, i ≤ n → b i = b 0 := by
        intro n hn i
        induction i with
        | zero => intro _; rfl
        | succ i ih =>
          intro hi
          have h1 := ih (by omega)
          have hc := h.can i
          rw [h1] at hc
          refine stays hc (hu.out _ _ (run_range h.step (i + 1)) fun u hu => ?_)
          obtain ⟨j, hj, rfl⟩ := List.mem_map.1 hu
          exact hn j (by have := List.mem_range.1 hj; omega)
      -- moving a transition of the set to the front
      have hshift : ∀ n t, S t → N.toNet.Enabled (ρ 0) t → (∀ i, i < n → ¬ S (τ i)) → ∀ i, i ≤ n →
          (∀ j, j < i → N.toNet.Step (shiftTo N.toNet t (ρ j)) (τ j) (shiftTo N.toNet t (ρ (j + 1)))) ∧
          N.toNet.Reach m0 (shiftTo N.toNet t (ρ i)) ∧ A.Can ap (b 0) (b 0) (shiftTo N.toNet t (ρ i)) := by
        intro n t ht he hn i hi
        obtain ⟨k1, k2⟩ := shift_steps h.step (hu.closed.en t ht he) he i fun j hj => hn j (by omega)
        have hrun : N.toNet.Run (ρ 0) (t :: (List.range i).map τ) (shiftTo N.toNet t (ρ i)) := by
          refine .cons ⟨he, (shiftTo_fire he)⟩ ?_
          have : ∀ j, j ≤ i → N.toNet.Run (shiftTo N.toNet t (ρ 0)) ((List.range j).map τ) (shiftTo N.toNet t (ρ j)) := by
            intro j
            induction j with
            | zero => intro _; exact .nil _
            | succ j ih => intro hj; rw [List.range_succ, List.map_append]; exact (ih (by omega)).snoc _ (k2 j (by omega))
          exact this i (Nat.le_refl _)
        have hre : N.toNet.Reach m0 (shiftTo N.toNet t (ρ i)) := Net.Reach.trans _ h0 ⟨_, hrun⟩
        have hpr := hu.first t ht he _ _ hrun fun u hu => by
          obtain ⟨j, hj, rfl⟩ := List.mem_map.1 hu
          exact hn j (by have := List.mem_range.1 hj; omega)
        refine ⟨k2, hre, can_of_ret (hu.ret t ht he (ρ i) _ (h.reach h0 i) hre k1 ?_ hpr)⟩
        cases i with
        | zero =>
          unfold Buchi.fullB at hf
          simp only [Bool.or_eq_false_iff, Bool.not_eq_false', Bool.or_eq_true] at hf
          rcases hf.2 with h | h
          · exact h
          · rw [hf.1] at h; cases h
        | succ i =>
          have hc := h.can i
          rw [hstay n hn i (by omega), hstay n hn (i + 1) hi] at hc
          exact ret_of_can hsi hc
      by_cases hex : ∃ i, S (τ i)
      · classical
        obtain ⟨hi, hmin⟩ : S (τ (Nat.find hex)) ∧ ∀ j, j < Nat.find hex → ¬ S (τ j) :=
          ⟨Nat.find_spec hex, fun j hj => Nat.find_min hex hj⟩
        generalize Nat.find hex = i at hi hmin
        rcases Nat.eq_zero_or_pos i with rfl | hpos
        · exact hgo ((hSt _).1 hi)
        · have he : N.toNet.Enabled (ρ 0) (τ i) := hu.closed.enabled hi (run_range h.step i) (fun u hu => by
            obtain ⟨j, hj, rfl⟩ := List.mem_map.1 hu
            exact hmin j (List.mem_range.1 hj)) (h.step i).1
          have hend : shiftTo N.toNet (τ i) (ρ i) = ρ (i + 1) := by
            rw [shiftTo_fire (h.step i).1]; exact (h.step i).2.symm
          have hsh := hshift i (τ i) hi he hmin
          have hst := hstay i hmin
          let ρ' : Nat → Mark := fun j => if j < i then shiftTo N.toNet (τ i) (ρ j) else ρ (j + 1)
          let τ' : Nat → Fin N.ntransitions := fun j => if j < i then τ j else τ (j + 1)
          have hlt : ∀ j, j ≤ i → ρ' j = shiftTo N.toNet (τ i) (ρ j) := fun j hj => by
            by_cases hji : j < i
            · simp only [ρ', if_pos hji]
            · have : j = i := by omega
              subst this
              simp only [ρ', if_neg hji]; exact hend.symm
          have hge : ∀ j, i ≤ j → ρ' j = ρ (j + 1) := fun j hj => by simp only [ρ', if_neg (show ¬ j < i by omega)]
          refine ⟨ρ', τ', ⟨fun j => ?_, fun j => ?_⟩, ?_, ?_⟩
          · by_cases hj : j < i
            · rw [hlt j (by omega), hlt (j + 1) (by omega)]
              simp only [τ', if_pos hj]
              exact (hsh i (Nat.le_refl _)).1 j hj
            · rw [hge j (by omega), hge (j + 1) (by omega)]
              simp only [τ', if_neg hj]
              exact h.step (j + 1)
          · by_cases hj : j + 1 < i
            · rw [hlt (j + 1) (by omega)]
              rw [hst (j + 1) (by omega), hst (j + 1 + 1) (by omega)]
              exact (hsh (j + 1) (by omega)).2.2
            · rw [hge (j + 1) (by omega)]
              exact h.can (j + 1)
          · rw [hlt 0 (by omega)]; exact (hsh 0 (by omega)).2.1
          · refine ⟨.inl ⟨τ i, (hSt _).1 hi, he, ?_⟩, ?_⟩
            · rw [hlt 0 (by omega)]; exact shiftTo_fire he
            · show A.Can ap (b 0) (b 1) (ρ' 0)
              rw [hlt 0 (by omega), hst 1 (by omega)]
              exact (hsh 0 (by omega)).2.2
      · have hno : ∀ j, ¬ S (τ j) := fun j hj => hex ⟨j, hj⟩
        have hst : ∀ j, b j = b 0 := fun j => hstay j (fun i _ => hno i) j (Nat.le_refl _)
        obtain ⟨k, _, hk⟩ := hacc 0
        rw [hst k] at hk
        obtain ⟨t, ht, he⟩ := hu.acc hk
        have hsh := fun j => hshift j t ht he (fun i _ => hno i) j (Nat.le_refl _)
        refine ⟨fun j => shiftTo N.toNet t (ρ j), τ, ⟨fun j => (hsh (j + 1)).1 j (Nat.lt_succ_self _), fun j => ?_⟩,
          (hsh 0).2.1, .inl ⟨t, (hSt _).1 ht, he, shiftTo_fire he⟩, ?_⟩
        · rw [hst (j + 1), hst (j + 1 + 1)]
          exact (hsh (j + 1)).2.2
        · show A.Can ap (b 0) (b 1) _
          rw [hst 1]
          exact (hsh 0).2.2

/-- An accepting run of the full product gives one of the reduced product. -/
theorem red_of_full (w : N.WF) (hd : N.DirOK) (hb : ∀ m, N.toNet.Reach m0 m → ∀ p, m p + 1 < W32) (hsi : A.Simple)
    (hG : CondsOK N A ap G m0) (hnd : ∀ m, N.toNet.Reach m0 m → ¬ N.toNet.Dead m) {q0 : Nat}
    (h : AccRun (FullStep N A ap) (fun x => A.acc x.2) (m0, q0)) :
    AccRun (RedStep N A ap G σ) (fun x => A.acc x.2) (m0, q0) := by
  obtain ⟨r, hr0, hr, hacc⟩ := h
  have hreach : ∀ n, N.toNet.Reach m0 (r n).1 := by
    intro n
    induction n with
    | zero => rw [hr0]; exact Net.Reach.refl _ _
    | succ n ih =>
      rcases (hr n).1 with ⟨t, ht⟩ | ⟨hdd, _⟩
      · exact ih.step _ ht
      · exact (hnd _ ih hdd).elim
  have hstep : ∀ n, ∃ t, N.toNet.Step (r n).1 t (r (n + 1)).1 := fun n => by
    rcases (hr n).1 with h | ⟨hdd, _⟩
    · exact h
    · exact (hnd _ (hreach n) hdd).elim
  choose τ hτ using hstep
  have hrun : PRun N A ap (fun i => (r i).1) τ (fun i => (r i).2) := ⟨hτ, fun i => (hr i).2⟩
  let Q (n : Nat) (x : (Nat → Mark) × (Nat → Fin N.ntransitions)) : Prop :=
    PRun N A ap x.1 x.2 (fun i => (r (i + n)).2) ∧ N.toNet.Reach m0 (x.1 0)
  have hnext : ∀ n (x : {x // Q n x}), ∃ y : {y // Q (n + 1) y},
      RedStep N A ap G σ (x.1.1 0, (r n).2) (y.1.1 0, (r (n + 1)).2) := by
    rintro n ⟨⟨ρ, τ⟩, hp, hre⟩
    obtain ⟨ρ', τ', hp', hre', hst⟩ := advance (σ := σ) w hd hb hsi hG hp hre (fun k => by
      obtain ⟨j, hj, ha⟩ := hacc (k + n)
      exact ⟨j - n, by omega, by rw [show j - n + n = j by omega]; exact ha⟩)
    refine ⟨⟨⟨ρ', τ'⟩, ?_, hre'⟩, ?_⟩
    · have : (fun i => (r (i + (n + 1))).2) = fun i => (r (i + 1 + n)).2 := by
        funext i; rw [show i + (n + 1) = i + 1 + n by omega]
      rw [this]; exact hp'
    · have h1 : (0 + n) = n := by omega
      have h2 : (1 + n) = n + 1 := by omega
      rw [h1, h2] at hst; exact hst
  choose next hnx using hnext
  let seq : (n : Nat) → {x // Q n x} := fun n => Nat.rec ⟨⟨fun i => (r i).1, τ⟩, hrun, by
    show N.toNet.Reach m0 (r 0).1
    exact hreach 0⟩ (fun n x => next n x) n
  refine ⟨fun n => ((seq n).1.1 0, (r n).2), ?_, fun n => hnx n (seq n), hacc⟩
  show ((r 0).1, (r 0).2) = (m0, q0)
  rw [hr0]

/-- An accepting run of the reduced product is one of the full product. -/
theorem full_of_red (w : N.WF) (hd : N.DirOK) (hb : ∀ m, N.toNet.Reach m0 m → ∀ p, m p + 1 < W32)
    (hG : CondsOK N A ap G m0) (hnd : ∀ m, N.toNet.Reach m0 m → ¬ N.toNet.Dead m) {q0 : Nat}
    (h : AccRun (RedStep N A ap G σ) (fun x => A.acc x.2) (m0, q0)) :
    AccRun (FullStep N A ap) (fun x => A.acc x.2) (m0, q0) := by
  obtain ⟨r, hr0, hr, hacc⟩ := h
  have hreach : ∀ n, N.toNet.Reach m0 (r n).1 := by
    intro n
    induction n with
    | zero => rw [hr0]; exact Net.Reach.refl _ _
    | succ n ih =>
      rcases (hr n).1 with ⟨t, _, ht⟩ | ⟨_, he⟩
      · exact ih.step _ ht
      · rw [he]; exact ih
  refine ⟨r, hr0, fun n => ⟨?_, (hr n).2⟩, hacc⟩
  rcases (hr n).1 with ⟨t, _, ht⟩ | ⟨hno, he⟩
  · exact .inl ⟨t, ht⟩
  · exfalso
    have hex : ∃ t, N.toNet.Enabled (r n).1 t := Classical.byContradiction fun h =>
      hnd _ (hreach n) fun t ht => h ⟨t, ht⟩
    obtain ⟨t, ht⟩ := hex
    cases hf : A.fullB (r n).2 (ap (r n).1) with
    | true => exact hno t (by unfold autSet; rw [if_pos hf]) ht
    | false =>
      have hset : autSet N A ap G σ (r n).1 (r n).2 =
          safeSet N (r n).1 (A.acc (r n).2) (G (r n).2).prog (G (r n).2).sink (σ (r n).1 (r n).2) := by
        unfold autSet; rw [if_neg (by simp [hf])]
      rcases safe_useful w hd hb hG (hreach n) (r n).2 hf (σ (r n).1 (r n).2) (hnd _ (hreach n)) with hall | hu
      · exact hno t (by rw [hset]; exact hall t ht) ht
      · rw [← hset] at hu
        have hpf : A.progB (r n).2 (ap (r n).1) = false := by
          unfold Buchi.fullB at hf; simp only [Bool.or_eq_false_iff] at hf; exact hf.1
        have hstay : ∀ k, r (n + k) = r n := by
          intro k
          induction k with
          | zero => rfl
          | succ k ih =>
            have hk := hr (n + k)
            rw [ih] at hk
            have h1 : (r (n + k + 1)).1 = (r n).1 := by
              rcases hk.1 with ⟨u, hu1, hu2⟩ | ⟨_, h⟩
              · exact (hno u hu1 hu2.1).elim
              · exact h
            have h2 : (r (n + k + 1)).2 = (r n).2 := by
              refine stays (ap := ap) (m := (r n).1) ?_ hpf
              have := hk.2
              rw [h1] at this
              exact this
            exact Prod.ext h1 h2
        obtain ⟨k, hk, ha⟩ := hacc n
        obtain ⟨j, rfl⟩ := Nat.exists_eq_add_of_le hk
        rw [hstay j] at ha
        obtain ⟨u, hu1, hu2⟩ := hu.acc ha
        exact hno u hu1 hu2

end LTL
end Verif
