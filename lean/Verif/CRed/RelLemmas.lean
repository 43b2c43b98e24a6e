import Verif.CRed.Relevance
import Verif.CRed.MultLemmas
import Verif.CRed.PlaceLemmas
import Verif.CRed.Weights

/-!
# Relevance
-/

namespace Verif
namespace CRed
open CPN XCol

/-! ### The flags -/

/-- flags are only added; new transitions are on the stack -/
structure Grows (s s' : Rel) : Prop where
  tf : ∀ t ∈ s.tf, t ∈ s'.tf
  pf : ∀ p ∈ s.pf, p ∈ s'.pf
  work : ∀ t ∈ s.work, t ∈ s'.work
  fresh : ∀ t ∈ s'.tf, t ∈ s.tf ∨ t ∈ s'.work
  even : s'.work.length + s.tf.length = s.work.length + s'.tf.length
  nodup : s.tf.Nodup → s'.tf.Nodup

theorem Grows.refl (s : Rel) : Grows s s := ⟨fun _ h => h, fun _ h => h, fun _ h => h, fun _ h => Or.inl h, rfl, id⟩

theorem Grows.trans {s s' s'' : Rel} (h : Grows s s') (h' : Grows s' s'') : Grows s s'' where
  tf := fun t ht => h'.tf t (h.tf t ht)
  pf := fun t ht => h'.pf t (h.pf t ht)
  work := fun t ht => h'.work t (h.work t ht)
  fresh := fun t ht => by
    rcases h'.fresh t ht with h1 | h1
    · rcases h.fresh t h1 with h2 | h2
      · exact Or.inl h2
      · exact Or.inr (h'.work t h2)
    · exact Or.inr h1
  even := by have := h.even; have := h'.even; omega
  nodup := fun hn => h'.nodup (h.nodup hn)

theorem grows_push (s : Rel) (t : Nat) : Grows s (s.push t) ∧ t ∈ (s.push t).tf := by
  unfold Rel.push
  by_cases h : t ∈ s.tf
  · rw [if_pos h]; exact ⟨.refl s, h⟩
  · rw [if_neg h]
    refine ⟨⟨fun _ h => List.mem_cons_of_mem _ h, fun _ h => h, fun _ h => List.mem_cons_of_mem _ h, fun u hu => ?_, ?_, fun hn => ?_⟩, List.mem_cons_self⟩
    · rcases List.mem_cons.1 hu with rfl | hu
      · exact Or.inr List.mem_cons_self
      · exact Or.inl hu
    · show (t :: s.work).length + s.tf.length = s.work.length + (t :: s.tf).length
      rw [List.length_cons, List.length_cons]
      omega
    · exact List.nodup_cons.2 ⟨h, hn⟩

theorem grows_pushAll (ts : List Nat) : ∀ s, Grows s (Rel.pushAll ts s) ∧ ∀ t ∈ ts, t ∈ (Rel.pushAll ts s).tf := by
  induction ts with
  | nil => intro s; exact ⟨.refl s, (fun t ht => nomatch ht)⟩
  | cons a ts ih =>
    intro s
    obtain ⟨h1, h2⟩ := ih (s.push a)
    obtain ⟨h3, h4⟩ := grows_push s a
    refine ⟨h3.trans h1, fun t ht => ?_⟩
    rcases List.mem_cons.1 ht with rfl | ht
    · exact h1.tf _ h4
    · exact h2 t ht

theorem grows_place (s : Rel) (p : Nat) : Grows s (s.place p) :=
  ⟨fun _ h => h, fun _ h => List.mem_cons_of_mem _ h, fun _ h => h, fun _ h => Or.inl h, rfl, id⟩

/-- all consumers and producers of the place are flagged, and so is the place -/
def Full (R : Red) (s : Rel) (p : Nat) : Prop := p ∈ s.pf ∧ (∀ t ∈ R.pre p, t ∈ s.tf) ∧ ∀ t ∈ R.post p, t ∈ s.tf

theorem Full.mono {R : Red} {s s' : Rel} {p : Nat} (h : Full R s p) (g : Grows s s') : Full R s' p :=
  ⟨g.pf p h.1, fun t ht => g.tf t (h.2.1 t ht), fun t ht => g.tf t (h.2.2 t ht)⟩

theorem grows_relPlace (R : Red) (p : Nat) (s : Rel) : Grows s (R.relPlace p s) ∧ Full R (R.relPlace p s) p := by
  obtain ⟨h1, h2⟩ := grows_pushAll (R.post p) (s.place p)
  obtain ⟨h3, h4⟩ := grows_pushAll (R.pre p) (Rel.pushAll (R.post p) (s.place p))
  refine ⟨((grows_place s p).trans h1).trans h3, h3.pf _ (h1.pf _ List.mem_cons_self), h4, fun t ht => h3.tf t (h2 t ht)⟩

theorem grows_relPlaces (R : Red) (q : Uses) (ps : List Nat) : ∀ s, Grows s (R.relPlaces q ps s) ∧
    ∀ p ∈ ps, q.place p = true → Full R (R.relPlaces q ps s) p := by
  induction ps with
  | nil => intro s; exact ⟨.refl s, (fun t ht => nomatch ht)⟩
  | cons a ps ih =>
    intro s
    rw [Red.relPlaces]
    obtain ⟨h1, h2⟩ := ih (if q.place a then R.relPlace a s else s)
    obtain ⟨h3, h4⟩ := grows_relPlace R a s
    refine ⟨Grows.trans ?_ h1, fun p hp hq => ?_⟩
    · split
      · exact h3
      · exact .refl s
    · rcases List.mem_cons.1 hp with rfl | hp
      · rw [if_pos hq] at h1
        rw [if_pos hq]
        exact h4.mono h1
      · exact h2 p hp hq

theorem grows_relArcs (R : Red) (as : List CArc) : ∀ s, Grows s (R.relArcs as s) ∧ ∀ a ∈ as, Full R (R.relArcs as s) a.place := by
  induction as with
  | nil => intro s; exact ⟨.refl s, (fun t ht => nomatch ht)⟩
  | cons a as ih =>
    intro s
    obtain ⟨h1, h2⟩ := ih (R.relPlace a.place s)
    obtain ⟨h3, h4⟩ := grows_relPlace R a.place s
    refine ⟨h3.trans h1, fun b hb => ?_⟩
    rcases List.mem_cons.1 hb with rfl | hb
    · exact h4.mono h1
    · exact h2 b hb

theorem grows_relTrans (R : Red) (q : Uses) (ts : List Nat) : ∀ s, Grows s (R.relTrans q ts s) ∧
    ∀ t ∈ ts, q.trans t = true → t ∈ (R.relTrans q ts s).tf := by
  induction ts with
  | nil => intro s; exact ⟨.refl s, (fun t ht => nomatch ht)⟩
  | cons a ts ih =>
    intro s
    rw [Red.relTrans]
    by_cases hc : a ∉ s.tf ∧ q.trans a = true
    · rw [if_pos hc]
      obtain ⟨h1, h2⟩ := ih (R.relArcs (R.net.trans a).inputs (s.push a))
      obtain ⟨h3, _⟩ := grows_relArcs R (R.net.trans a).inputs (s.push a)
      obtain ⟨h5, h6⟩ := grows_push s a
      refine ⟨(h5.trans h3).trans h1, fun t ht hq => ?_⟩
      rcases List.mem_cons.1 ht with rfl | ht
      · exact h1.tf _ (h3.tf _ h6)
      · exact h2 t ht hq
    · rw [if_neg hc]
      obtain ⟨h1, h2⟩ := ih s
      refine ⟨h1, fun t ht hq => ?_⟩
      rcases List.mem_cons.1 ht with rfl | ht
      · refine h1.tf _ ?_
        by_contra hn
        exact hc ⟨hn, hq⟩
      · exact h2 t ht hq

/-- the producers of the place that are not flagged leave it alone -/
def Settled (R : Red) (s : Rel) (p : Nat) : Prop := p ∈ s.pf ∧ ∀ u ∈ R.pre p, u ∈ s.tf ∨ R.sameLoop p u = some true

theorem Settled.mono {R : Red} {s s' : Rel} {p : Nat} (h : Settled R s p) (g : Grows s s') : Settled R s' p :=
  ⟨g.pf p h.1, fun u hu => (h.2 u hu).imp (g.tf u) id⟩

theorem grows_scanPlace (R : Red) (p : Nat) (us : List Nat) : ∀ s s', R.scanPlace p us s = some s' → Grows s s' ∧
    ∀ u ∈ us, u ∈ s'.tf ∨ R.sameLoop p u = some true := by
  induction us with
  | nil => intro s s' h; rw [Red.scanPlace] at h; injection h with h; subst h; exact ⟨.refl s, (fun t ht => nomatch ht)⟩
  | cons u us ih =>
    intro s s' h
    rw [Red.scanPlace] at h
    by_cases hc : u ∈ s.tf
    · rw [if_pos hc] at h
      obtain ⟨h1, h2⟩ := ih s s' h
      refine ⟨h1, fun v hv => ?_⟩
      rcases List.mem_cons.1 hv with rfl | hv
      · exact Or.inl (h1.tf _ hc)
      · exact h2 v hv
    · rw [if_neg hc] at h
      cases hl : R.sameLoop p u with
      | none => rw [hl] at h; cases h
      | some b =>
        rw [hl] at h
        cases b with
        | true =>
          obtain ⟨h1, h2⟩ := ih s s' h
          refine ⟨h1, fun v hv => ?_⟩
          rcases List.mem_cons.1 hv with rfl | hv
          · exact Or.inr hl
          · exact h2 v hv
        | false =>
          obtain ⟨h1, h2⟩ := ih (s.push u) s' h
          obtain ⟨h3, h4⟩ := grows_push s u
          refine ⟨h3.trans h1, fun v hv => ?_⟩
          rcases List.mem_cons.1 hv with rfl | hv
          · exact Or.inl (h1.tf _ h4)
          · exact h2 v hv

theorem grows_scanIn (R : Red) (as : List CArc) : ∀ s s', R.scanIn as s = some s' → Grows s s' ∧ ∀ a ∈ as, Settled R s' a.place := by
  induction as with
  | nil => intro s s' h; rw [Red.scanIn] at h; injection h with h; subst h; exact ⟨.refl s, (fun t ht => nomatch ht)⟩
  | cons a as ih =>
    intro s s' h
    rw [Red.scanIn] at h
    cases hp : R.scanPlace a.place (R.pre a.place) (s.place a.place) with
    | none => rw [hp] at h; cases h
    | some s1 =>
      rw [hp] at h
      obtain ⟨h1, h2⟩ := ih s1 s' h
      obtain ⟨h3, h4⟩ := grows_scanPlace R _ _ _ _ hp
      refine ⟨((grows_place s a.place).trans h3).trans h1, fun b hb => ?_⟩
      rcases List.mem_cons.1 hb with rfl | hb
      · exact Settled.mono ⟨h3.pf _ List.mem_cons_self, h4⟩ h1
      · exact h2 b hb

/-- the loop of the transition on the inhibiting place passes for harmless -/
def Red.Spared (R : Red) (h : CInhib) (u : Nat) : Prop := ∃ i o, R.inArc h.place u = some i ∧ R.outArc u h.place = some o ∧
  (arcWeight o.expr ≥ h.weight ∨ arcWeight o.expr ≥ arcWeight i.expr)

theorem grows_scanCons (R : Red) (h : CInhib) (us : List Nat) : ∀ s s', R.scanCons h us s = some s' → Grows s s' ∧
    ∀ u ∈ us, u ∈ s'.tf ∨ R.Spared h u := by
  induction us with
  | nil => intro s s' e; rw [Red.scanCons] at e; injection e with e; subst e; exact ⟨.refl s, (fun t ht => nomatch ht)⟩
  | cons u us ih =>
    intro s s' e
    have pushed : ∀ s', R.scanCons h us (s.push u) = some s' → Grows s s' ∧ ∀ v ∈ u :: us, v ∈ s'.tf ∨ R.Spared h v := by
      intro s' e
      obtain ⟨h1, h2⟩ := ih (s.push u) s' e
      obtain ⟨h3, h4⟩ := grows_push s u
      refine ⟨h3.trans h1, fun v hv => ?_⟩
      rcases List.mem_cons.1 hv with rfl | hv
      · exact Or.inl (h1.tf _ h4)
      · exact h2 v hv
    rw [Red.scanCons] at e
    split at e
    · rename_i hc
      obtain ⟨h1, h2⟩ := ih s s' e
      refine ⟨h1, fun v hv => ?_⟩
      rcases List.mem_cons.1 hv with rfl | hv
      · exact Or.inl (h1.tf _ hc)
      · exact h2 v hv
    · split at e
      · exact pushed s' e
      · split at e
        · cases e
        · split at e
          · obtain ⟨h1, h2⟩ := ih s s' e
            refine ⟨h1, fun v hv => ?_⟩
            rcases List.mem_cons.1 hv with rfl | hv
            · exact Or.inr ⟨_, _, by assumption, by assumption, by assumption⟩
            · exact h2 v hv
          · exact pushed s' e

/-- the consumers of the inhibiting place that are not flagged pass for harmless -/
def Guarded (R : Red) (s : Rel) (h : CInhib) : Prop := h.place ∈ s.pf ∧ ∀ u ∈ R.post h.place, u ∈ s.tf ∨ R.Spared h u

theorem Guarded.mono {R : Red} {s s' : Rel} {h : CInhib} (hg : Guarded R s h) (g : Grows s s') : Guarded R s' h :=
  ⟨g.pf _ hg.1, fun u hu => (hg.2 u hu).imp (g.tf u) id⟩

theorem grows_scanInh (R : Red) (t : Nat) (hs : List CInhib) : ∀ s s', R.scanInh t hs s = some s' → Grows s s' ∧
    ∀ h ∈ hs, h.trans = t → Guarded R s' h := by
  induction hs with
  | nil => intro s s' e; rw [Red.scanInh] at e; injection e with e; subst e; exact ⟨.refl s, (fun t ht => nomatch ht)⟩
  | cons h hs ih =>
    intro s s' e
    rw [Red.scanInh] at e
    split at e
    · rename_i hn
      obtain ⟨h1, h2⟩ := ih s s' e
      refine ⟨h1, fun k hk => ?_⟩
      rcases List.mem_cons.1 hk with rfl | hk
      · exact fun e => absurd e hn
      · exact h2 k hk
    · cases hp : R.scanCons h (R.post h.place) (s.place h.place) with
      | none => rw [hp] at e; cases e
      | some s1 =>
        rw [hp] at e
        obtain ⟨h1, h2⟩ := ih s1 s' e
        obtain ⟨h3, h4⟩ := grows_scanCons R h _ _ _ hp
        refine ⟨((grows_place s h.place).trans h3).trans h1, fun k hk => ?_⟩
        rcases List.mem_cons.1 hk with rfl | hk
        · exact fun _ => Guarded.mono ⟨h3.pf _ List.mem_cons_self, h4⟩ h1
        · exact h2 k hk

/-- all input places and inhibiting places of the transition are seen to -/
def Done (R : Red) (s : Rel) (t : Nat) : Prop := (∀ a ∈ (R.net.trans t).inputs, Settled R s a.place) ∧
  ∀ h ∈ R.net.inhibitors, h.trans = t → Guarded R s h

/-- flags are only added by the loop, and in the end all flagged transitions are done -/
theorem relLoop_ok (R : Red) (fuel : Nat) : ∀ s s', (∀ t ∈ s.tf, t ∈ s.work ∨ Done R s t) → R.relLoop fuel s = some s' →
    (∀ t ∈ s.tf, t ∈ s'.tf) ∧ (∀ p ∈ s.pf, p ∈ s'.pf) ∧ ∀ t ∈ s'.tf, Done R s' t := by
  have base : ∀ s : Rel, s.work = [] → (∀ t ∈ s.tf, t ∈ s.work ∨ Done R s t) → ∀ t ∈ s.tf, Done R s t := by
    intro s hw hi t ht
    rcases hi t ht with h | h
    · rw [hw] at h; cases h
    · exact h
  induction fuel with
  | zero =>
    intro s s' hi h
    rw [Red.relLoop] at h
    split at h
    · rename_i hw
      injection h with h
      subst h
      exact ⟨fun _ h => h, fun _ h => h, base s hw hi⟩
    · cases h
  | succ fuel ih =>
    intro s s' hi h
    rw [Red.relLoop] at h
    cases hw : s.work with
    | nil =>
      rw [hw] at h
      injection h with h
      subst h
      exact ⟨fun _ h => h, fun _ h => h, base s hw hi⟩
    | cons t w =>
      rw [hw] at h
      simp only at h
      cases h1 : R.scanIn (R.net.trans t).inputs { s with work := w } with
      | none => rw [h1] at h; cases h
      | some s1 =>
        rw [h1] at h
        simp only at h
        cases h2 : R.scanInh t R.net.inhibitors s1 with
        | none => rw [h2] at h; cases h
        | some s2 =>
          rw [h2] at h
          obtain ⟨g1, d1⟩ := grows_scanIn R _ _ _ h1
          obtain ⟨g2, d2⟩ := grows_scanInh R t _ _ _ h2
          have g := g1.trans g2
          obtain ⟨e1, e2, e3⟩ := ih s2 s' (fun u hu => by
            rcases g.fresh u hu with hu | hu
            · rcases hi u hu with h3 | h3
              · rw [hw] at h3
                rcases List.mem_cons.1 h3 with rfl | h3
                · exact Or.inr ⟨fun a ha => (d1 a ha).mono g2, d2⟩
                · exact Or.inl (g.work u h3)
              · exact Or.inr ⟨fun a ha => ⟨g.pf _ (h3.1 a ha).1, fun v hv => ((h3.1 a ha).2 v hv).imp (g.tf v) id⟩,
                  fun h hh he => ⟨g.pf _ (h3.2 h hh he).1, fun v hv => ((h3.2 h hh he).2 v hv).imp (g.tf v) id⟩⟩
            · exact Or.inl hu) h
          exact ⟨fun u hu => e1 u (g.tf u hu), fun p hp => e2 p (g.pf p hp), e3⟩

/-- what the flags say in the end -/
structure Flagged (R : Red) (q : Uses) (s : Rel) : Prop where
  places : ∀ p < R.net.places.length, q.place p = true → Full R s p
  trans : ∀ t < R.net.transitions.length, q.trans t = true → t ∈ s.tf
  done : ∀ t ∈ s.tf, Done R s t

theorem relevant_ok {R : Red} {q : Uses} {s : Rel} (h : R.relevant q = some s) : Flagged R q s := by
  unfold Red.relevant Red.relSeed at h
  obtain ⟨g1, h1⟩ := grows_relPlaces R q (List.range R.net.places.length) {}
  obtain ⟨g2, h2⟩ := grows_relTrans R q (List.range R.net.transitions.length) (R.relPlaces q (List.range R.net.places.length) {})
  obtain ⟨e1, e2, e3⟩ := relLoop_ok R _ _ _ (fun t ht => by
    rcases (g1.trans g2).fresh t ht with h | h
    · cases h
    · exact Or.inl h) h
  refine ⟨fun p hp hq => ?_, fun t ht hq => e1 t (h2 t (List.mem_range.2 ht) hq), e3⟩
  have := (h1 p (List.mem_range.2 hp) hq).mono g2
  exact ⟨e2 p this.1, fun t ht => e1 t (this.2.1 t ht), fun t ht => e1 t (this.2.2 t ht)⟩

/-! ### The loop comes to an end -/

theorem scanPlace_some {R : Red} (p : Nat) (us : List Nat) (hn : ∀ u ∈ us, R.sameLoop p u ≠ none) : ∀ s, R.scanPlace p us s ≠ none := by
  induction us with
  | nil => intro s h; rw [Red.scanPlace] at h; cases h
  | cons u us ih =>
    intro s
    have ih := ih fun v hv => hn v (List.mem_cons_of_mem _ hv)
    rw [Red.scanPlace]
    split
    · exact ih s
    · split
      · exact absurd (by assumption) (hn u List.mem_cons_self)
      · exact ih s
      · exact ih _

theorem scanIn_some {R : Red} (hn : ∀ p, ∀ u ∈ R.pre p, R.sameLoop p u ≠ none) (as : List CArc) : ∀ s, R.scanIn as s ≠ none := by
  induction as with
  | nil => intro s h; rw [Red.scanIn] at h; cases h
  | cons a as ih =>
    intro s h
    rw [Red.scanIn] at h
    cases hp : R.scanPlace a.place (R.pre a.place) (s.place a.place) with
    | none => exact scanPlace_some a.place _ (hn a.place) _ hp
    | some s1 => rw [hp] at h; exact ih s1 h

theorem scanCons_some {R : Red} (hs : Sorted R.net) (h : CInhib) (us : List Nat) (hu : ∀ u ∈ us, u ∈ R.post h.place) : ∀ s, R.scanCons h us s ≠ none := by
  induction us with
  | nil => intro s e; rw [Red.scanCons] at e; cases e
  | cons u us ih =>
    intro s
    have ih := ih fun v hv => hu v (List.mem_cons_of_mem _ hv)
    rw [Red.scanCons]
    split
    · exact ih s
    · split
      · exact ih _
      · split
        · rename_i hi
          have := inArc_isSome hs (hu u List.mem_cons_self)
          rw [hi] at this
          cases this
        · split
          · exact ih s
          · exact ih _

theorem scanInh_some {R : Red} (hs : Sorted R.net) (t : Nat) (is : List CInhib) : ∀ s, R.scanInh t is s ≠ none := by
  induction is with
  | nil => intro s e; rw [Red.scanInh] at e; cases e
  | cons h is ih =>
    intro s e
    rw [Red.scanInh] at e
    split at e
    · exact ih s e
    · cases hp : R.scanCons h (R.post h.place) (s.place h.place) with
      | none => exact scanCons_some hs h _ (fun _ h => h) _ hp
      | some s1 => rw [hp] at e; exact ih s1 e

/-- all flagged transitions belong to the net -/
def Rel.In (s : Rel) (n : Nat) : Prop := ∀ t ∈ s.tf, t < n

theorem in_push {s : Rel} {n t : Nat} (h : s.In n) (ht : t < n) : (s.push t).In n := by
  unfold Rel.push
  split
  · exact h
  · intro u hu
    rcases List.mem_cons.1 hu with rfl | hu
    · exact ht
    · exact h u hu

theorem in_pushAll {n : Nat} (ts : List Nat) (ht : ∀ t ∈ ts, t < n) : ∀ s : Rel, s.In n → (Rel.pushAll ts s).In n := by
  induction ts with
  | nil => intro s h; exact h
  | cons t ts ih => intro s h; exact ih (fun u hu => ht u (List.mem_cons_of_mem _ hu)) _ (in_push h (ht t List.mem_cons_self))

theorem pre_lt {R : Red} {p t : Nat} (h : t ∈ R.pre p) : t < R.net.transitions.length := (mem_pre.1 h).1
theorem post_lt {R : Red} {p t : Nat} (h : t ∈ R.post p) : t < R.net.transitions.length := (mem_post.1 h).1

theorem in_relPlace {R : Red} {p : Nat} {s : Rel} (h : s.In R.net.transitions.length) : (R.relPlace p s).In R.net.transitions.length :=
  in_pushAll _ (fun _ h => pre_lt h) _ (in_pushAll _ (fun _ h => post_lt h) _ h)

theorem in_relPlaces {R : Red} {q : Uses} (ps : List Nat) : ∀ s : Rel, s.In R.net.transitions.length → (R.relPlaces q ps s).In R.net.transitions.length := by
  induction ps with
  | nil => intro s h; exact h
  | cons p ps ih =>
    intro s h
    rw [Red.relPlaces]
    refine ih _ ?_
    split
    · exact in_relPlace h
    · exact h

theorem in_relArcs {R : Red} (as : List CArc) : ∀ s : Rel, s.In R.net.transitions.length → (R.relArcs as s).In R.net.transitions.length := by
  induction as with
  | nil => intro s h; exact h
  | cons a as ih => intro s h; exact ih _ (in_relPlace h)

theorem in_relTrans {R : Red} {q : Uses} (ts : List Nat) (ht : ∀ t ∈ ts, t < R.net.transitions.length) : ∀ s : Rel, s.In R.net.transitions.length →
    (R.relTrans q ts s).In R.net.transitions.length := by
  induction ts with
  | nil => intro s h; exact h
  | cons t ts ih =>
    intro s h
    rw [Red.relTrans]
    refine ih (fun u hu => ht u (List.mem_cons_of_mem _ hu)) _ ?_
    split
    · exact in_relArcs _ _ (in_push h (ht t List.mem_cons_self))
    · exact h

theorem in_scanPlace {R : Red} (p : Nat) (us : List Nat) (hu : ∀ u ∈ us, u < R.net.transitions.length) : ∀ s s' : Rel, s.In R.net.transitions.length →
    R.scanPlace p us s = some s' → s'.In R.net.transitions.length := by
  induction us with
  | nil => intro s s' h e; rw [Red.scanPlace] at e; injection e with e; subst e; exact h
  | cons u us ih =>
    intro s s' h e
    have ih := ih fun v hv => hu v (List.mem_cons_of_mem _ hv)
    rw [Red.scanPlace] at e
    split at e
    · exact ih s s' h e
    · split at e
      · cases e
      · exact ih s s' h e
      · exact ih _ s' (in_push h (hu u List.mem_cons_self)) e

theorem in_scanIn {R : Red} (as : List CArc) : ∀ s s' : Rel, s.In R.net.transitions.length → R.scanIn as s = some s' → s'.In R.net.transitions.length := by
  induction as with
  | nil => intro s s' h e; rw [Red.scanIn] at e; injection e with e; subst e; exact h
  | cons a as ih =>
    intro s s' h e
    rw [Red.scanIn] at e
    cases hp : R.scanPlace a.place (R.pre a.place) (s.place a.place) with
    | none => rw [hp] at e; cases e
    | some s1 => rw [hp] at e; exact ih s1 s' (in_scanPlace _ _ (fun _ h => pre_lt h) (s.place a.place) _ h hp) e

theorem in_scanCons {R : Red} (h : CInhib) (us : List Nat) (hu : ∀ u ∈ us, u < R.net.transitions.length) : ∀ s s' : Rel, s.In R.net.transitions.length →
    R.scanCons h us s = some s' → s'.In R.net.transitions.length := by
  induction us with
  | nil => intro s s' hI e; rw [Red.scanCons] at e; injection e with e; subst e; exact hI
  | cons u us ih =>
    intro s s' hI e
    have ih := ih fun v hv => hu v (List.mem_cons_of_mem _ hv)
    have hp := in_push hI (hu u List.mem_cons_self)
    rw [Red.scanCons] at e
    split at e
    · exact ih s s' hI e
    · split at e
      · exact ih _ s' hp e
      · split at e
        · cases e
        · split at e
          · exact ih s s' hI e
          · exact ih _ s' hp e

theorem in_scanInh {R : Red} (t : Nat) (is : List CInhib) : ∀ s s' : Rel, s.In R.net.transitions.length → R.scanInh t is s = some s' →
    s'.In R.net.transitions.length := by
  induction is with
  | nil => intro s s' hI e; rw [Red.scanInh] at e; injection e with e; subst e; exact hI
  | cons h is ih =>
    intro s s' hI e
    rw [Red.scanInh] at e
    split at e
    · exact ih s s' hI e
    · cases hp : R.scanCons h (R.post h.place) (s.place h.place) with
      | none => rw [hp] at e; cases e
      | some s1 => rw [hp] at e; exact ih s1 s' (in_scanCons h _ (fun _ h => post_lt h) (s.place h.place) _ hI hp) e

theorem length_le_of_lt {l : List Nat} {n : Nat} (hn : l.Nodup) (h : ∀ t ∈ l, t < n) : l.length ≤ n := by
  have := hn.length_le_of_subset (l₂ := List.range n) (fun t ht => List.mem_range.2 (h t ht))
  simpa using this

theorem relLoop_some {R : Red} (hs : Sorted R.net) (hn : ∀ p, ∀ u ∈ R.pre p, R.sameLoop p u ≠ none) (fuel : Nat) : ∀ s : Rel,
    s.In R.net.transitions.length → s.tf.Nodup → s.work.length + R.net.transitions.length ≤ fuel + s.tf.length → R.relLoop fuel s ≠ none := by
  induction fuel with
  | zero =>
    intro s hI hd hf h
    have := length_le_of_lt hd hI
    rw [Red.relLoop] at h
    split at h
    · cases h
    · rename_i hw
      apply hw
      exact List.length_eq_zero_iff.1 (by omega)
  | succ fuel ih =>
    intro s hI hd hf h
    rw [Red.relLoop] at h
    cases hw : s.work with
    | nil => rw [hw] at h; cases h
    | cons t w =>
      rw [hw] at h
      simp only at h
      cases h1 : R.scanIn (R.net.trans t).inputs { s with work := w } with
      | none => exact scanIn_some hn _ _ h1
      | some s1 =>
        rw [h1] at h
        simp only at h
        cases h2 : R.scanInh t R.net.inhibitors s1 with
        | none => exact scanInh_some hs _ _ _ h2
        | some s2 =>
          rw [h2] at h
          have g := (grows_scanIn R _ _ _ h1).1.trans (grows_scanInh R t _ _ _ h2).1
          have he := g.even
          dsimp only at he
          refine ih s2 (in_scanInh t _ _ _ (in_scanIn _ { s with work := w } _ hI h1) h2) (g.nodup hd) ?_ h
          rw [hw, List.length_cons] at hf
          omega

/-- The rule comes to its end unless an expression makes it throw. -/
theorem relevant_some {R : Red} (hs : Sorted R.net) (hn : ∀ p, ∀ u ∈ R.pre p, R.sameLoop p u ≠ none) (q : Uses) : R.relevant q ≠ none := by
  unfold Red.relevant Red.relSeed
  have g := (grows_relPlaces R q (List.range R.net.places.length) {}).1.trans
    (grows_relTrans R q (List.range R.net.transitions.length) (R.relPlaces q (List.range R.net.places.length) {})).1
  have he := g.even
  refine relLoop_some hs hn _ _ (in_relTrans _ (fun t ht => List.mem_range.1 ht) _ (in_relPlaces _ _ (fun t ht => nomatch ht))) (g.nodup List.nodup_nil) ?_
  simp only [List.length_nil] at he
  omega

/-! ### Loops that leave the place alone -/

theorem eq_ok {m o : VMS} {a c : Nat} {ρ : Nat → Val} {f g : Val → Nat} (h : m.eq o = some true) (hm : Means m a ρ f) (ho : Means o c ρ g)
    (x : Val) : f x = g x := by
  unfold VMS.eq at h
  cases h1 : m.sub o with
  | none => rw [h1] at h; cases h
  | some d =>
    rw [h1] at h
    simp only [Option.bind_some] at h
    cases h2 : o.sub m with
    | none => rw [h2] at h; cases h
    | some e =>
      rw [h2] at h
      simp only [Option.map_some, Option.some.injEq, Bool.and_eq_true] at h
      rw [← hm.val, ← ho.val]
      exact Nat.le_antisymm (vden_le hm.nodup (sub_empty h1 h.1) ρ x) (vden_le ho.nodup (sub_empty h2 h.2) ρ x)

theorem sameLoop_ok {R : Red} (w : R.net.WF) (hs : Sorted R.net) {p t : Nat} (ht : t < R.net.transitions.length) (h : R.sameLoop p t = some true)
    (ρ : Nat → Val) (x : Val) :
    arcsTokens R.net ρ (R.net.trans t).inputs p x = arcsTokens R.net ρ (R.net.trans t).outputs p x := by
  unfold Red.sameLoop at h
  cases hi : R.inArc p t with
  | none => rw [hi] at h; cases h
  | some i =>
    cases ho : R.outArc t p with
    | none => rw [hi, ho] at h; cases h
    | some o =>
      rw [hi, ho] at h
      simp only at h
      cases h1 : extract R.net.vty i.expr with
      | none => rw [h1] at h; cases h
      | some r =>
        rw [h1] at h
        cases r with
        | none => simp at h
        | some m =>
          simp only at h
          cases h2 : extract R.net.vty o.expr with
          | none => rw [h2] at h; cases h
          | some r =>
            rw [h2] at h
            cases r with
            | none => simp at h
            | some m' =>
              rw [in_of_arc hs ht hi, out_of_arc hs ht ho]
              exact eq_ok h (extract_ok ρ _ _ (inArc_wf w ht hi).2.2.1 h1) (extract_ok ρ _ _ (outArc_wf w ht ho).2.2.1 h2) x

/-! ### Leaving out lists of places and transitions -/

theorem step_skipTranss (ts : List Nat) : ∀ (R : Red) {M L : CMark} {u : Nat} {ρ : Nat → Val},
    (Red.skipTranss ts R).Step M u ρ L ↔ u ∉ ts ∧ R.Step M u ρ L := by
  induction ts with
  | nil => intro R M L u ρ; simp [Red.skipTranss]
  | cons t ts ih =>
    intro R M L u ρ
    rw [Red.skipTranss, ih, step_skipTrans, List.mem_cons, not_or]
    tauto

/-- what leaving out places does to a net -/
structure Stripped (R R' : Red) (D : List Nat) : Prop where
  types : R'.net.types = R.net.types
  vty : R'.net.vty = R.net.vty
  init : R'.net.init = R.net.init
  tys : ∀ p, (R'.net.place p).ty = (R.net.place p).ty
  len : R'.net.transitions.length = R.net.transitions.length
  skT : R'.skT = R.skT
  guard : ∀ t, (R'.net.trans t).guard = (R.net.trans t).guard
  vars : ∀ t, ∀ v ∈ (R'.net.trans t).vars, v ∈ (R.net.trans t).vars
  ins : ∀ ρ t p x, arcsTokens R'.net ρ (R'.net.trans t).inputs p x = if p ∈ D then 0 else arcsTokens R.net ρ (R.net.trans t).inputs p x
  outs : ∀ ρ t p x, arcsTokens R'.net ρ (R'.net.trans t).outputs p x = if p ∈ D then 0 else arcsTokens R.net ρ (R.net.trans t).outputs p x
  inhib : ∀ h, h ∈ R'.net.inhibitors ↔ h ∈ R.net.inhibitors ∧ h.place ∉ D

theorem stripped_skipPlaces (D : List Nat) : ∀ R : Red, Stripped R (Red.skipPlaces D R) D := by
  induction D with
  | nil =>
    intro R
    exact ⟨rfl, rfl, rfl, fun _ => rfl, rfl, rfl, fun _ => rfl, fun _ _ h => h, fun _ _ _ _ => by simp [Red.skipPlaces],
      fun _ _ _ _ => by simp [Red.skipPlaces], fun h => by simp [Red.skipPlaces]⟩
  | cons d D ih =>
    intro R
    have h := ih (R.skipPlace d)
    rw [Red.skipPlaces]
    have hin : ∀ ρ t q x, arcsTokens (R.skipPlace d).net ρ ((R.skipPlace d).net.trans t).inputs q x =
        if q = d then 0 else arcsTokens R.net ρ (R.net.trans t).inputs q x := fun ρ t q x => by
      rw [trans_skipPlace]
      exact arcsTokens_filter R.net (R.skipPlace d).net rfl rfl ρ _ d q x
    have hout : ∀ ρ t q x, arcsTokens (R.skipPlace d).net ρ ((R.skipPlace d).net.trans t).outputs q x =
        if q = d then 0 else arcsTokens R.net ρ (R.net.trans t).outputs q x := fun ρ t q x => by
      rw [trans_skipPlace]
      exact arcsTokens_filter R.net (R.skipPlace d).net rfl rfl ρ _ d q x
    refine ⟨h.types, h.vty, h.init, h.tys, h.len.trans (by unfold Red.skipPlace; simp), h.skT, fun t => ?_, fun t v hv => ?_, fun ρ t p x => ?_,
      fun ρ t p x => ?_, fun i => ?_⟩
    · rw [h.guard, trans_skipPlace]; rfl
    · have := h.vars t v hv
      rw [trans_skipPlace] at this
      exact vars_strip this
    · rw [h.ins, hin]
      by_cases h1 : p = d
      · simp [h1]
      · simp [h1]
    · rw [h.outs, hout]
      by_cases h1 : p = d
      · simp [h1]
      · simp [h1]
    · rw [h.inhib]
      show i ∈ R.net.inhibitors.filter (fun h => h.place != d) ∧ _ ↔ _
      rw [List.mem_filter, List.mem_cons, not_or]
      simp only [bne_iff_ne]
      tauto

/-! ### Queries -/

/-- none of these transitions takes from the place -/
def Untaken (R : Red) (F : List Nat) (p : Nat) : Prop := ∀ t ∈ F, t < R.net.transitions.length → ∀ a ∈ (R.net.trans t).inputs, a.place ≠ p

/-- What the rule has to leave in place: transitions `F` such that places outside `D` hold what they take, and other transitions do
not add to it. -/
structure Enough (R : Red) (F D : List Nat) : Prop where
  keep : ∀ t ∈ F, t < R.net.transitions.length → ∀ a ∈ (R.net.trans t).inputs, a.place ∉ D
  calm : ∀ t ∈ F, t < R.net.transitions.length → ∀ a ∈ (R.net.trans t).inputs, ∀ u < R.net.transitions.length, u ∉ F → ∀ ρ x,
    arcsTokens R.net ρ (R.net.trans u).outputs a.place x ≤ arcsTokens R.net ρ (R.net.trans u).inputs a.place x
  inh : ∀ h ∈ R.net.inhibitors, h.trans ∈ F → h.trans < R.net.transitions.length → h.place ∉ D
  more : ∀ h ∈ R.net.inhibitors, h.trans ∈ F → h.trans < R.net.transitions.length →
    (∀ u < R.net.transitions.length, u ∉ F → ∀ ρ, R.net.Legal u ρ →
      R.net.total (arcsTokens R.net ρ (R.net.trans u).inputs) h.place ≤ R.net.total (arcsTokens R.net ρ (R.net.trans u).outputs) h.place) ∨
    Untaken R F h.place ∧ ∀ u < R.net.transitions.length, u ∉ F → ∀ ρ, R.net.Legal u ρ →
      R.net.total (arcsTokens R.net ρ (R.net.trans u).inputs) h.place ≤ R.net.total (arcsTokens R.net ρ (R.net.trans u).outputs) h.place ∨
      h.weight ≤ R.net.total (arcsTokens R.net ρ (R.net.trans u).outputs) h.place

/-- a place that only transitions of `F` change -/
def Own (R : Red) (F D : List Nat) (p : Nat) : Prop := p ∉ D ∧ (∀ t ∈ R.pre p, t ∈ F) ∧ ∀ t ∈ R.post p, t ∈ F

section Proof

variable {R : Red} {F D E : List Nat}

theorem total_le (N : CNet) {M M' : CMark} {p : Nat} (h : ∀ x, M p x ≤ M' p x) : N.total M p ≤ N.total M' p := by
  unfold CNet.total
  induction N.types.values (N.place p).ty with
  | nil => exact Nat.le_refl _
  | cons x l ih => simp only [List.map_cons, List.sum_cons]; have := h x; omega

theorem total_fire (N : CNet) {M : CMark} {f g : CMark} {p : Nat} (h : ∀ x, f p x ≤ M p x) :
    N.total (fun p x => M p x - f p x + g p x) p + N.total f p = N.total M p + N.total g p := by
  unfold CNet.total
  induction N.types.values (N.place p).ty with
  | nil => rfl
  | cons x l ih =>
    dsimp only at ih
    simp only [List.map_cons, List.sum_cons]
    have := h x
    omega

theorem total_same {N N' : CNet} (ht : N'.types = N.types) (hp : ∀ p, (N'.place p).ty = (N.place p).ty) {M M' : CMark} {p : Nat}
    (h : M' p = M p) : N'.total M' p = N.total M p := by
  unfold CNet.total
  rw [ht, hp, h]

/-- the reduced net -/
abbrev cut (R : Red) (D E : List Nat) : Red := Red.skipTranss E (Red.skipPlaces D R)

theorem in_ne {t p : Nat} {ρ : Nat → Val} {x : Val} (h : arcsTokens R.net ρ (R.net.trans t).inputs p x ≠ 0) :
    ∃ a ∈ (R.net.trans t).inputs, a.place = p := by
  by_contra hc
  apply h
  exact arcsTokens_zero (fun a ha e => hc ⟨a, ha, e⟩) x

theorem cut_step (hF : Enough R F D) (hE : ∀ t < R.net.transitions.length, t ∉ R.skT → (t ∈ E ↔ t ∉ F)) {M M' L : CMark} {t : Nat} {ρ : Nat → Val}
    (ht : t ∈ F) (h : R.Step M t ρ L) (hle : ∀ a ∈ (R.net.trans t).inputs, ∀ x, M a.place x ≤ M' a.place x)
    (hge : ∀ h ∈ R.net.inhibitors, h.trans = t → R.net.total M h.place < h.weight → R.net.total M' h.place < h.weight) :
    ∃ L', (cut R D E).Step M' t ρ L' ∧ ∀ p, p ∉ D → ∀ x, L' p x = M' p x - arcsTokens R.net ρ (R.net.trans t).inputs p x +
      arcsTokens R.net ρ (R.net.trans t).outputs p x := by
  have s := stripped_skipPlaces D R
  obtain ⟨h1, h2, h3, ⟨h4, h5⟩, rfl⟩ := h
  refine ⟨(Red.skipPlaces D R).net.fire M' t ρ, (step_skipTranss E _).2 ⟨fun he => (hE t h2 h1).1 he ht, s.skT.symm ▸ h1, s.len.symm ▸ h2, ⟨fun v hv => ?_, ?_⟩,
    ⟨fun p x => ?_, fun h hm he => ?_⟩, rfl⟩, fun p hp x => ?_⟩
  · rw [s.types, s.vty]; exact h3.1 v (s.vars t v hv)
  · rw [s.types, s.vty, s.guard]; exact h3.2
  · rw [s.ins]
    split
    · exact Nat.zero_le _
    · by_cases hz : arcsTokens R.net ρ (R.net.trans t).inputs p x = 0
      · rw [hz]; exact Nat.zero_le _
      · obtain ⟨a, ha, rfl⟩ := in_ne hz
        exact Nat.le_trans (h4 a.place x) (hle a ha x)
  · rw [total_same s.types s.tys rfl]
    exact hge h ((s.inhib h).1 hm).1 he (h5 h ((s.inhib h).1 hm).1 he)
  · unfold CNet.fire
    rw [s.ins, s.outs, if_neg hp, if_neg hp]

theorem cut_back (w : R.net.WF) (hF : Enough R F D) (hE : ∀ t < R.net.transitions.length, t ∉ R.skT → (t ∈ E ↔ t ∉ F)) {M M' L' : CMark} {t : Nat}
    {ρ : Nat → Val} (h : (cut R D E).Step M' t ρ L') (hle : ∀ a ∈ (R.net.trans t).inputs, ∀ x, M' a.place x ≤ M a.place x)
    (hge : ∀ h ∈ R.net.inhibitors, h.trans = t → R.net.total M h.place ≤ R.net.total M' h.place) :
    ∃ σ L, R.Step M t σ L ∧ t ∈ F ∧ ∀ p, p ∉ D → M p = M' p → L p = L' p := by
  have s := stripped_skipPlaces D R
  obtain ⟨h0, h1, h2, h3, ⟨h4, h5⟩, rfl⟩ := (step_skipTranss E _).1 h
  rw [s.skT] at h1
  rw [s.len] at h2
  have ht : t ∈ F := by
    by_contra hc
    exact h0 ((hE t h2 h1).2 hc)
  let σ := fillIn R.net ((Red.skipPlaces D R).net.trans t).vars ρ
  have hσ : ∀ v ∈ ((Red.skipPlaces D R).net.trans t).vars, σ v = ρ v := fun v hv => by
    show fillIn _ _ _ _ = _
    unfold fillIn
    rw [if_pos hv]
  have hvp := w.vpos _ (trans_mem h2)
  have hi : ∀ p, p ∉ D → ∀ x, arcsTokens R.net σ (R.net.trans t).inputs p x = arcsTokens (Red.skipPlaces D R).net ρ ((Red.skipPlaces D R).net.trans t).inputs p x := by
    intro p hp x
    have e := s.ins σ t p x
    rw [if_neg hp] at e
    rw [← e, arcsTokens_congr _ fun v hv => hσ v (arcsVars_sub_in _ v hv)]
  have ho : ∀ p, p ∉ D → ∀ x, arcsTokens R.net σ (R.net.trans t).outputs p x = arcsTokens (Red.skipPlaces D R).net ρ ((Red.skipPlaces D R).net.trans t).outputs p x := by
    intro p hp x
    have e := s.outs σ t p x
    rw [if_neg hp] at e
    rw [← e, arcsTokens_congr _ fun v hv => hσ v (arcsVars_sub_out _ v hv)]
  refine ⟨σ, R.net.fire M t σ, ⟨h1, h2, ⟨fun v hv => fillIn_mem (hvp v hv) fun hm => ?_, ?_⟩, ⟨fun p x => ?_, fun h hm he => ?_⟩, rfl⟩, ht, fun p hp hM => ?_⟩
  · have := h3.1 v hm
    rw [s.types, s.vty] at this
    exact this
  · have h6 := h3.2
    rw [s.types, s.vty, s.guard] at h6
    refine (guardHolds_congr _ fun v hv => (hσ v ?_).symm).1 h6
    exact guardVars_sub _ v (by rw [s.guard]; exact hv)
  · by_cases hz : arcsTokens R.net σ (R.net.trans t).inputs p x = 0
    · rw [hz]; exact Nat.zero_le _
    · obtain ⟨a, ha, rfl⟩ := in_ne hz
      rw [hi _ (hF.keep t ht h2 a ha)]
      exact Nat.le_trans (h4 a.place x) (hle a ha x)
  · have hh := h5 h ((s.inhib h).2 ⟨hm, hF.inh h hm (he ▸ ht) (he ▸ h2)⟩) he
    rw [total_same s.types s.tys rfl] at hh
    exact Nat.lt_of_le_of_lt (hge h hm he) hh
  · funext x
    unfold CNet.fire
    rw [hi p hp, ho p hp, hM]

theorem cut_reach (hF : Enough R F D) (hE : ∀ t < R.net.transitions.length, t ∉ R.skT → (t ∈ E ↔ t ∉ F)) {M : CMark} (h : R.Reach M) :
    ∃ M', (cut R D E).Reach M' ∧ (∀ t ∈ F, t < R.net.transitions.length → ∀ a ∈ (R.net.trans t).inputs, ∀ x, M a.place x ≤ M' a.place x) ∧
      (∀ h ∈ R.net.inhibitors, h.trans ∈ F → h.trans < R.net.transitions.length → R.net.total M' h.place ≤ R.net.total M h.place ∨
        Untaken R F h.place ∧ h.weight ≤ R.net.total M h.place) ∧
      ∀ p, Own R F D p → M p = M' p := by
  have hinit : (cut R D E).net.init = R.net.init := by
    have : ∀ (E : List Nat) (S : Red), (Red.skipTranss E S).net.init = S.net.init := by
      intro E
      induction E with
      | nil => intro S; rfl
      | cons e E ih => intro S; rw [Red.skipTranss, ih]; rfl
    rw [this, (stripped_skipPlaces D R).init]
  induction h with
  | init => exact ⟨_, .init, fun _ _ _ _ _ _ => by rw [hinit], fun _ _ _ _ => Or.inl (by rw [hinit]), fun p _ => by rw [hinit]⟩
  | @step M L t ρ hr hs ih =>
    obtain ⟨M', h1, h2, h2', h3⟩ := ih
    have hlt := hs.2.1
    by_cases ht : t ∈ F
    · obtain ⟨L', hs', hL⟩ := cut_step hF hE ht hs (M' := M') (fun a ha x => h2 t ht hlt a ha x) (fun h hm he hlt' => by
        have := h2' h hm (he ▸ ht) (he ▸ hlt)
        omega)
      have hen' : ∀ p, p ∉ D → ∀ x, arcsTokens R.net ρ (R.net.trans t).inputs p x ≤ M' p x := fun p hp x => by
        have := ((step_skipTranss E _).1 hs').2.2.2.2.1.1 p x
        rw [(stripped_skipPlaces D R).ins, if_neg hp] at this
        exact this
      obtain ⟨_, _, _, ⟨hen, _⟩, rfl⟩ := hs
      refine ⟨L', h1.step hs', fun u hu hul a ha x => ?_, fun h hm hh hhl => ?_, fun p hp => ?_⟩
      · rw [hL _ (hF.keep u hu hul a ha)]
        unfold CNet.fire
        have := h2 u hu hul a ha x
        have := hen a.place x
        omega
      · have e : R.net.total L' h.place = R.net.total (R.net.fire M' t ρ) h.place :=
          total_same rfl (fun _ => rfl) (funext fun x => hL _ (hF.inh h hm hh hhl) x)
        rw [e]
        have e1 := total_fire R.net (M := M') (f := arcsTokens R.net ρ (R.net.trans t).inputs)
          (g := arcsTokens R.net ρ (R.net.trans t).outputs) (p := h.place) (hen' _ (hF.inh h hm hh hhl))
        have e2 := total_fire R.net (M := M) (f := arcsTokens R.net ρ (R.net.trans t).inputs)
          (g := arcsTokens R.net ρ (R.net.trans t).outputs) (p := h.place) (hen _)
        unfold CNet.fire
        rcases h2' h hm hh hhl with e3 | ⟨e3, e4⟩
        · left; omega
        · refine Or.inr ⟨e3, ?_⟩
          have e5 : R.net.total (arcsTokens R.net ρ (R.net.trans t).inputs) h.place = 0 := by
            unfold CNet.total
            refine List.sum_eq_zero_iff_forall_eq_nat.2 fun k hk => ?_
            obtain ⟨x, _, rfl⟩ := List.mem_map.1 hk
            exact arcsTokens_zero (fun a ha => e3 t ht hlt a ha) x
          omega
      · funext x
        rw [hL _ hp.1, ← h3 p hp]
        rfl
    · obtain ⟨_, _, hleg, ⟨hen, _⟩, rfl⟩ := hs
      refine ⟨M', h1, fun u hu hul a ha x => ?_, fun h hm hh hhl => ?_, fun p hp => ?_⟩
      · unfold CNet.fire
        have := h2 u hu hul a ha x
        have := hen a.place x
        have := hF.calm u hu hul a ha t hlt ht ρ x
        omega
      · have e2 := total_fire R.net (M := M) (f := arcsTokens R.net ρ (R.net.trans t).inputs)
          (g := arcsTokens R.net ρ (R.net.trans t).outputs) (p := h.place) (hen _)
        have e3 := h2' h hm hh hhl
        have e4 := total_le R.net (p := h.place) fun x => hen h.place x
        unfold CNet.fire
        rcases hF.more h hm hh hhl with e1 | ⟨e1, e5⟩
        · have e1 := e1 t hlt ht ρ hleg
          rcases e3 with e3 | ⟨e3, e6⟩
          · left; omega
          · exact Or.inr ⟨e3, by omega⟩
        · rcases e5 t hlt ht ρ hleg with e5 | e5
          · rcases e3 with e3 | ⟨e3, e6⟩
            · left; omega
            · exact Or.inr ⟨e3, by omega⟩
          · exact Or.inr ⟨e1, by omega⟩
      · funext x
        rw [← h3 p hp]
        unfold CNet.fire
        rw [in_zero hlt (fun h => ht (hp.2.2 t h)), out_zero hlt (fun h => ht (hp.2.1 t h))]
        omega

theorem reach_cut (w : R.net.WF) (hF : Enough R F D) (hE : ∀ t < R.net.transitions.length, t ∉ R.skT → (t ∈ E ↔ t ∉ F)) {M' : CMark}
    (h : (cut R D E).Reach M') : ∃ M, R.Reach M ∧ ∀ p, p ∉ D → M p = M' p := by
  have hinit : (cut R D E).net.init = R.net.init := by
    have : ∀ (E : List Nat) (S : Red), (Red.skipTranss E S).net.init = S.net.init := by
      intro E
      induction E with
      | nil => intro S; rfl
      | cons e E ih => intro S; rw [Red.skipTranss, ih]; rfl
    rw [this, (stripped_skipPlaces D R).init]
  induction h with
  | init => exact ⟨_, .init, fun p _ => by rw [hinit]⟩
  | @step M' L' t ρ hr hs ih =>
    obtain ⟨M, h1, h2⟩ := ih
    have s := stripped_skipPlaces D R
    have hst := (step_skipTranss E _).1 hs
    have hlt : t < R.net.transitions.length := s.len ▸ hst.2.2.1
    have hsk : t ∉ R.skT := s.skT ▸ hst.2.1
    have htF : t ∈ F := by
      by_contra hc
      exact hst.1 ((hE t hlt hsk).2 hc)
    obtain ⟨σ, L, h3, h4, h5⟩ := cut_back w hF hE hs (M := M) (fun a ha x => by rw [h2 _ (hF.keep t htF hlt a ha)])
      (fun h hm he => Nat.le_of_eq (total_same rfl (fun _ => rfl) (h2 _ (hF.inh h hm (he ▸ htF) (he ▸ hlt)))))
    exact ⟨L, h1.step h3, fun p hp => h5 p hp (h2 p hp)⟩

theorem cut_keeps (w : R.net.WF) (hF : Enough R F D) (hE : ∀ t < R.net.transitions.length, t ∉ R.skT → (t ∈ E ↔ t ∉ F)) {φ : XQ}
    (hd : qdead φ = false) (hp : ∀ p ∈ qplaces φ, Own R F D p)
    (ht : ∀ t ∈ qtrans φ, t < R.net.transitions.length → t ∈ F ∧ (∀ a ∈ (R.net.trans t).inputs, Own R F D a.place) ∧
      ∀ h ∈ R.net.inhibitors, h.trans = t → Own R F D h.place) : Keeps R (cut R D E) φ := by
  have s := stripped_skipPlaces D R
  have hty : ∀ (E : List Nat) (S : Red), (Red.skipTranss E S).net.types = S.net.types ∧ ∀ p, ((Red.skipTranss E S).net.place p).ty = (S.net.place p).ty := by
    intro E
    induction E with
    | nil => intro S; exact ⟨rfl, fun _ => rfl⟩
    | cons e E ih => intro S; rw [Red.skipTranss]; exact ⟨(ih _).1, (ih _).2⟩
  have key : ∀ M M', (∀ p, Own R F D p → M p = M' p) → ((cut R D E).holds M' φ ↔ R.holds M φ) := by
    intro M M' hM
    refine holds_congr' ((hty _ _).1.trans s.types) (fun p => ((hty _ _).2 p).trans (s.tys p)) φ (fun p h => hM p (hp p h)) (fun t hm => ?_)
      (fun h => by rw [hd] at h; cases h)
    constructor
    · rintro ⟨ρ, L, hs⟩
      have hlt : t < R.net.transitions.length := s.len ▸ ((step_skipTranss E _).1 hs).2.2.1
      obtain ⟨σ, L, h, _⟩ := cut_back w hF hE hs (M := M) (fun a ha x => by rw [hM _ ((ht t hm hlt).2.1 a ha)])
        (fun h hh he => Nat.le_of_eq (total_same rfl (fun _ => rfl) (hM _ ((ht t hm hlt).2.2 h hh he))))
      exact ⟨σ, L, h⟩
    · rintro ⟨ρ, L, hs⟩
      have hlt := hs.2.1
      obtain ⟨L', h, _⟩ := cut_step hF hE (ht t hm hlt).1 hs (M' := M') (fun a ha x => by rw [hM _ ((ht t hm hlt).2.1 a ha)])
        (fun h hh he hw => by rw [total_same rfl (fun _ => rfl) (hM _ ((ht t hm hlt).2.2 h hh he)).symm]; exact hw)
      exact ⟨ρ, L', h⟩
  constructor
  · rintro ⟨M, h1, h2⟩
    obtain ⟨M', h3, _, _, h4⟩ := cut_reach hF hE h1
    exact ⟨M', h3, (key M M' h4).2 h2⟩
  · rintro ⟨M', h1, h2⟩
    obtain ⟨M, h3, h4⟩ := reach_cut w hF hE h1
    exact ⟨M, h3, (key M M' fun p hp => h4 p hp.1).1 h2⟩

end Proof

/-- Arcs at inhibiting places have no subtractions. -/
def Plain (R : Red) : Prop := ∀ h ∈ R.net.inhibitors, ∀ t ∈ R.net.transitions, ∀ a ∈ t.inputs ++ t.outputs, a.place = h.place → noSub a.expr = true

theorem total_arc {R : Red} {f : CMark} {p : Nat} {e : ArcE} {ρ : Nat → Val} (w : R.net.WF) (h : ∀ x, f p x = tokens R.net.types R.net.vty ρ e x)
    (hty : ArcTy R.net.types R.net.vty (R.net.place p).ty e) (hn : noSub e = true) (hb : e.bound < 2 ^ 31)
    (hρ : ∀ v ∈ e.vars, ρ v ∈ R.net.types.values (R.net.vty v)) : R.net.total f p = arcWeight e := by
  obtain ⟨n, _, ha⟩ := exists_bnd (T := R.net.types) (vty := R.net.vty) (dedup e.vars) (nodup_dedup _) (fun v hv => hρ v (mem_dedup.1 hv))
  obtain ⟨h1, h2⟩ := weight_sum w.types e hty hn (by unfold W32; omega) (ha.mono fun v hv => mem_dedup.2 hv)
  unfold CNet.total
  rw [h2, ← h1]
  congr 1
  exact List.map_congr_left fun x _ => h x

theorem enough_of {R : Red} (w : R.net.WF) (hs : Sorted R.net) (hst : Plain R) {q : Uses} {s : Rel} (h : Flagged R q s) {D : List Nat}
    (hD : ∀ p ∈ D, p ∉ s.pf) : Enough R s.tf D where
  keep := fun t ht _ a ha hd => hD _ hd ((h.done t ht).1 a ha).1
  calm := by
    intro t ht _ a ha u hu hn ρ x
    by_cases hp : u ∈ R.pre a.place
    · rcases ((h.done t ht).1 a ha).2 u hp with h1 | h1
      · exact absurd h1 hn
      · rw [sameLoop_ok w hs hu h1]
    · rw [out_zero hu hp]; exact Nat.zero_le _
  inh := fun k hk ht _ hd => hD _ hd ((h.done _ ht).2 k hk rfl).1
  more := by
    intro k hk ht _
    have none : ∀ u < R.net.transitions.length, u ∉ R.post k.place → ∀ ρ, R.net.total (arcsTokens R.net ρ (R.net.trans u).inputs) k.place ≤
        R.net.total (arcsTokens R.net ρ (R.net.trans u).outputs) k.place := by
      intro u hu hp ρ
      refine total_le _ fun x => ?_
      rw [in_zero hu hp]
      exact Nat.zero_le _
    by_cases hc : Untaken R s.tf k.place
    · refine Or.inr ⟨hc, fun u hu hn ρ hl => ?_⟩
      by_cases hp : u ∈ R.post k.place
      · rcases ((h.done _ ht).2 k hk rfl).2 u hp with h1 | ⟨i, o, hi, ho, h1⟩
        · exact absurd h1 hn
        · have w1 := inArc_wf w hu hi
          have w2 := outArc_wf w hu ho
          obtain ⟨i1, i2⟩ := arcAt_some hi
          obtain ⟨o1, o2⟩ := arcAt_some ho
          have m1 := List.mem_append_left (R.net.trans u).outputs i1
          have m2 := List.mem_append_right (R.net.trans u).inputs o1
          rw [total_arc w (in_of_arc hs hu hi ρ) w1.2.1 (hst k hk _ (trans_mem hu) i m1 i2) (w.arcs _ (trans_mem hu) i m1).2.2.2
              (fun v hv => hl.1 v (w1.2.2.2 v hv)),
            total_arc w (out_of_arc hs hu ho ρ) w2.2.1 (hst k hk _ (trans_mem hu) o m2 o2) (w.arcs _ (trans_mem hu) o m2).2.2.2
              (fun v hv => hl.1 v (w2.2.2.2 v hv))]
          omega
      · exact Or.inl (none u hu hp ρ)
    · left
      have ⟨t, ht', hlt, a, ha, hap⟩ : ∃ t ∈ s.tf, t < R.net.transitions.length ∧ ∃ a ∈ (R.net.trans t).inputs, a.place = k.place := by
        unfold Untaken at hc
        push Not at hc
        obtain ⟨t, h1, h2, a, h3, h4⟩ := hc
        exact ⟨t, h1, h2, a, h3, h4⟩
      intro u hu hn ρ _
      by_cases hp : u ∈ R.post k.place
      · rcases ((h.done _ ht).2 k hk rfl).2 u hp with h1 | ⟨i, o, hi, ho, h1⟩
        · exact absurd h1 hn
        · obtain ⟨o1, o2⟩ := arcAt_some ho
          rcases ((h.done t ht').1 a ha).2 u (by rw [hap]; exact mem_pre.2 ⟨hu, o, o1, o2⟩) with h2 | h2
          · exact absurd h2 hn
          · rw [hap] at h2
            exact total_le _ fun x => by rw [sameLoop_ok w hs hu h2]
      · exact none u hu hp ρ

theorem own_of {R : Red} {s : Rel} {p : Nat} {D : List Nat} (h : Full R s p) (hD : ∀ p ∈ D, p ∉ s.pf) : Own R s.tf D p :=
  ⟨fun hd => hD p hd h.1, h.2.1, h.2.2⟩

end CRed
end Verif
