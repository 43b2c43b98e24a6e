import Verif.CRed.Base
import Verif.CRed.VarLemmas

/-!
# Arcs of a place, and markings that cover them
-/

namespace Verif
namespace CRed
open CPN XCol

theorem arcAt_some {as : List CArc} {p : Nat} {a : CArc} (h : arcAt as p = some a) : a ∈ as ∧ a.place = p := by
  unfold arcAt at h
  split at h
  · cases h
  · rename_i b hb
    split at h
    · cases h
    · rename_i hne
      injection h with h
      subst h
      exact ⟨List.mem_of_find?_eq_some hb, by simpa using hne⟩

theorem arcAt_none {as : List CArc} {p : Nat} (hs : (as.map (·.place)).Pairwise (· < ·)) (h : arcAt as p = none) :
    ∀ a ∈ as, a.place ≠ p := by
  induction as with
  | nil => intro a ha; cases ha
  | cons b as ih =>
    rw [List.map_cons, List.pairwise_cons] at hs
    unfold arcAt at h
    rw [List.find?_cons] at h
    by_cases hb : b.place ≥ p
    · simp only [hb, decide_true] at h
      split at h
      · rename_i hne
        intro a ha
        rcases List.mem_cons.1 ha with rfl | ha
        · exact hne
        · have := hs.1 a.place (List.mem_map_of_mem ha)
          omega
      · cases h
    · simp only [hb, decide_false] at h
      intro a ha
      rcases List.mem_cons.1 ha with rfl | ha
      · omega
      · exact ih hs.2 h a ha

theorem arcsTokens_zero {N : CNet} {ρ : Nat → Val} {as : List CArc} {p : Nat} (h : ∀ a ∈ as, a.place ≠ p) (x : Val) :
    arcsTokens N ρ as p x = 0 := by
  unfold arcsTokens
  apply List.sum_eq_zero_iff_forall_eq_nat.2
  intro k hk
  obtain ⟨a, ha, rfl⟩ := List.mem_map.1 hk
  rw [if_neg (h a ha)]

theorem arcsTokens_at {N : CNet} {ρ : Nat → Val} {as : List CArc} {p : Nat} {a : CArc} (hs : (as.map (·.place)).Pairwise (· < ·))
    (h : a ∈ as) (hp : a.place = p) (x : Val) : arcsTokens N ρ as p x = tokens N.types N.vty ρ a.expr x := by
  subst hp
  induction as with
  | nil => cases h
  | cons b as ih =>
    rw [List.map_cons, List.pairwise_cons] at hs
    have e : arcsTokens N ρ (b :: as) a.place x = (if b.place = a.place then tokens N.types N.vty ρ b.expr x else 0) + arcsTokens N ρ as a.place x := rfl
    rw [e]
    rcases List.mem_cons.1 h with rfl | h
    · rw [if_pos rfl, arcsTokens_zero (fun c hc he => ?_), Nat.add_zero]
      have := hs.1 c.place (List.mem_map_of_mem hc)
      omega
    · have := hs.1 a.place (List.mem_map_of_mem h)
      rw [if_neg (by omega), ih hs.2 h, Nat.zero_add]

theorem mem_post {R : Red} {p t : Nat} : t ∈ R.post p ↔ t < R.net.transitions.length ∧ ∃ a ∈ (R.net.trans t).inputs, a.place = p := by
  unfold Red.post
  simp [List.mem_filter]

theorem mem_pre {R : Red} {p t : Nat} : t ∈ R.pre p ↔ t < R.net.transitions.length ∧ ∃ a ∈ (R.net.trans t).outputs, a.place = p := by
  unfold Red.pre
  simp [List.mem_filter]

theorem in_of_arc {R : Red} (hs : Sorted R.net) {p t : Nat} (ht : t < R.net.transitions.length) {a : CArc} (h : R.inArc p t = some a)
    (ρ : Nat → Val) (x : Val) : arcsTokens R.net ρ (R.net.trans t).inputs p x = tokens R.net.types R.net.vty ρ a.expr x :=
  arcsTokens_at (hs _ (trans_mem ht)).1 (arcAt_some h).1 (arcAt_some h).2 x

theorem out_of_arc {R : Red} (hs : Sorted R.net) {p t : Nat} (ht : t < R.net.transitions.length) {a : CArc} (h : R.outArc t p = some a)
    (ρ : Nat → Val) (x : Val) : arcsTokens R.net ρ (R.net.trans t).outputs p x = tokens R.net.types R.net.vty ρ a.expr x :=
  arcsTokens_at (hs _ (trans_mem ht)).2 (arcAt_some h).1 (arcAt_some h).2 x

theorem in_zero {R : Red} {p t : Nat} (ht : t < R.net.transitions.length) (h : t ∉ R.post p) (ρ : Nat → Val) (x : Val) :
    arcsTokens R.net ρ (R.net.trans t).inputs p x = 0 :=
  arcsTokens_zero (fun a ha he => h (mem_post.2 ⟨ht, a, ha, he⟩)) x

theorem out_zero {R : Red} {p t : Nat} (ht : t < R.net.transitions.length) (h : t ∉ R.pre p) (ρ : Nat → Val) (x : Val) :
    arcsTokens R.net ρ (R.net.trans t).outputs p x = 0 :=
  arcsTokens_zero (fun a ha he => h (mem_pre.2 ⟨ht, a, ha, he⟩)) x

theorem out_none {R : Red} (hs : Sorted R.net) {p t : Nat} (ht : t < R.net.transitions.length) (h : R.outArc t p = none)
    (ρ : Nat → Val) (x : Val) : arcsTokens R.net ρ (R.net.trans t).outputs p x = 0 :=
  arcsTokens_zero (arcAt_none (hs _ (trans_mem ht)).2 h) x

theorem inArc_isSome {R : Red} (hs : Sorted R.net) {p t : Nat} (h : t ∈ R.post p) : (R.inArc p t).isSome := by
  obtain ⟨ht, a, ha, he⟩ := mem_post.1 h
  cases hi : R.inArc p t with
  | some b => rfl
  | none => exact absurd he (arcAt_none (hs _ (trans_mem ht)).1 hi a ha)

/-! ### Covering -/

theorem holds_mark {N : CNet} (w : N.WF) {p : Nat} (hp : p < N.places.length) :
    Holds N.types (markMS (N.place p)) (N.place p).ty (fun i => N.init p (N.types.value ⟨(N.place p).ty, i⟩)) := by
  have hm := w.marking _ (place_mem hp)
  refine ⟨?_, hm.1, hm.2.1, fun i hi => (init_value w hp hi).symm⟩
  unfold markMS
  split
  · rename_i h; right; exact ⟨rfl, h⟩
  · left; rfl

theorem covers_iff {R : Red} (w : R.net.WF) {p : Nat} (hp : p < R.net.places.length) {e : ArcE}
    (hty : ArcTy R.net.types R.net.vty (R.net.place p).ty e) (hsm : e.Small) {b : Binding} {ρ : Nat → Val}
    (ha : Agree R.net.types R.net.vty b ρ e.vars) :
    ∃ r, R.covers (markMS (R.net.place p)) e b = some r ∧
      (r = true ↔ ∀ x, tokens R.net.types R.net.vty ρ e x ≤ R.net.init p x) := by
  obtain ⟨m, hm, hh⟩ := arc_ok w.types e {} hty hsm ha
  obtain ⟨d, hd, hh'⟩ := holds_sub hh (holds_mark w hp)
  refine ⟨d.set.all fun q => q.2 == 0, ?_, ?_⟩
  · unfold Red.covers ArcE.evaluate
    rw [hm]
    show msSubEq m _ = _
    unfold msSubEq
    rw [hd]
    rfl
  · rw [List.all_eq_true]
    constructor
    · intro h x
      by_cases hx : tokens R.net.types R.net.vty ρ e x = 0
      · rw [hx]; exact Nat.zero_le _
      · obtain ⟨i, hi, rfl⟩ := (mem_values _).1 (tokens_mem w.types e hty ha x hx)
        have hv := hh'.val i hi
        by_cases hmem : i ∈ d.set.map (·.1)
        · obtain ⟨q, hq, rfl⟩ := List.mem_map.1 hmem
          have h0 := mem_entry hh'.nodup hq
          have := beq_iff_eq.1 (h q hq)
          omega
        · have := entry_notMem hmem
          omega
    · intro h q hq
      have hlt := hh'.lt q.1 (List.mem_map_of_mem hq)
      have hv := hh'.val q.1 hlt
      have h0 := mem_entry hh'.nodup hq
      have := h (R.net.types.value ⟨(R.net.place p).ty, q.1⟩)
      rw [beq_iff_eq]
      omega

theorem bindings_ok {R : Red} (w : R.net.WF) {t : Nat} (ht : t < R.net.transitions.length) :
    ∃ bs, R.bindings t = some bs ∧ (∀ b ∈ bs, ∃ ρ, Agree R.net.types R.net.vty b ρ (R.net.trans t).vars ∧ R.net.Legal t ρ) ∧
      ∀ ρ, R.net.Legal t ρ → ∃ b ∈ bs, Agree R.net.types R.net.vty b ρ (R.net.trans t).vars := by
  rcases naive_one w (trans_mem ht) (vsizes R.net.types R.net.vty (R.net.trans t).vars).prod with ⟨h, _⟩ | ⟨bs, h1, h2, h3, h4, _⟩
  · exact absurd h (Nat.lt_irrefl _)
  · refine ⟨bs, h1, fun b hb => ?_, fun ρ hl => ?_⟩
    · obtain ⟨ρ, hρ⟩ := h2 b hb
      refine ⟨ρ, hρ, fun v hv => ?_, h3 b hb ρ hρ⟩
      obtain ⟨i, hi, _, he⟩ := hρ v hv
      exact (mem_values _).2 ⟨i, hi, he.symm⟩
    · obtain ⟨i, b, hb, ha⟩ := h4 ρ hl.1 hl.2
      exact ⟨b, List.mem_of_getElem? hb, ha⟩

theorem coversAll_true {R : Red} {m : CPN.MS} {e : ArcE} {bs : List Binding} (h : R.coversAll m e bs = some true) :
    ∀ b ∈ bs, R.covers m e b = some true := by
  induction bs with
  | nil => intro b hb; cases hb
  | cons c bs ih =>
    rw [Red.coversAll] at h
    split at h
    · cases h
    · cases h
    · rename_i hc
      intro b hb
      rcases List.mem_cons.1 hb with rfl | hb
      · exact hc
      · exact ih h b hb

theorem coversSome_false {R : Red} {m : CPN.MS} {e : ArcE} {bs : List Binding} (h : R.coversSome m e bs = some false) :
    ∀ b ∈ bs, R.covers m e b = some false := by
  induction bs with
  | nil => intro b hb; cases hb
  | cons c bs ih =>
    rw [Red.coversSome] at h
    split at h
    · cases h
    · cases h
    · rename_i hc
      intro b hb
      rcases List.mem_cons.1 hb with rfl | hb
      · exact hc
      · exact ih h b hb

theorem arc_vars {as : List CArc} {a : CArc} (h : a ∈ as) : ∀ v ∈ a.expr.vars, v ∈ arcsVars as := by
  intro v hv
  unfold arcsVars
  exact List.mem_flatten.2 ⟨_, List.mem_map_of_mem h, hv⟩

/-- the facts about an input arc -/
theorem inArc_wf {R : Red} (w : R.net.WF) {p t : Nat} (ht : t < R.net.transitions.length) {a : CArc} (h : R.inArc p t = some a) :
    p < R.net.places.length ∧ ArcTy R.net.types R.net.vty (R.net.place p).ty a.expr ∧ a.expr.Small ∧
      ∀ v ∈ a.expr.vars, v ∈ (R.net.trans t).vars := by
  obtain ⟨h1, h2⟩ := arcAt_some h
  have := w.arcs _ (trans_mem ht) a (List.mem_append_left _ h1)
  rw [h2] at this
  exact ⟨this.1, this.2.1, this.2.2.1, fun v hv => arcsVars_sub_in _ v (arc_vars h1 v hv)⟩

theorem outArc_wf {R : Red} (w : R.net.WF) {p t : Nat} (ht : t < R.net.transitions.length) {a : CArc} (h : R.outArc t p = some a) :
    p < R.net.places.length ∧ ArcTy R.net.types R.net.vty (R.net.place p).ty a.expr ∧ a.expr.Small ∧
      ∀ v ∈ a.expr.vars, v ∈ (R.net.trans t).vars := by
  obtain ⟨h1, h2⟩ := arcAt_some h
  have := w.arcs _ (trans_mem ht) a (List.mem_append_right _ h1)
  rw [h2] at this
  exact ⟨this.1, this.2.1, this.2.2.1, fun v hv => arcsVars_sub_out _ v (arc_vars h1 v hv)⟩

theorem coversAll_ok {R : Red} (w : R.net.WF) {p t : Nat} (ht : t < R.net.transitions.length) {a : CArc} (h : R.inArc p t = some a)
    (hc : (R.bindings t).bind (R.coversAll (markMS (R.net.place p)) a.expr) = some true) {ρ : Nat → Val} (hl : R.net.Legal t ρ) (x : Val) :
    tokens R.net.types R.net.vty ρ a.expr x ≤ R.net.init p x := by
  obtain ⟨bs, h1, _, h3⟩ := bindings_ok w ht
  rw [h1] at hc
  obtain ⟨b, hb, ha⟩ := h3 ρ hl
  obtain ⟨w1, w2, w3, w4⟩ := inArc_wf w ht h
  obtain ⟨r, hr, hiff⟩ := covers_iff w w1 w2 w3 (ha.mono w4)
  have := coversAll_true hc b hb
  rw [hr] at this
  injection this with this
  exact hiff.1 this x

theorem coversSome_no {R : Red} (w : R.net.WF) {p t : Nat} (ht : t < R.net.transitions.length) {a : CArc} (h : R.inArc p t = some a)
    (hc : (R.bindings t).bind (R.coversSome (markMS (R.net.place p)) a.expr) = some false) {ρ : Nat → Val} (hl : R.net.Legal t ρ) :
    ¬∀ x, tokens R.net.types R.net.vty ρ a.expr x ≤ R.net.init p x := by
  obtain ⟨bs, h1, _, h3⟩ := bindings_ok w ht
  rw [h1] at hc
  obtain ⟨b, hb, ha⟩ := h3 ρ hl
  obtain ⟨w1, w2, w3, w4⟩ := inArc_wf w ht h
  obtain ⟨r, hr, hiff⟩ := covers_iff w w1 w2 w3 (ha.mono w4)
  have := coversSome_false hc b hb
  rw [hr] at this
  injection this with this
  intro hx
  rw [hiff.2 hx] at this
  cases this

end CRed
end Verif
