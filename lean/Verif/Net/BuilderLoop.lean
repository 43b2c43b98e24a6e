import Verif.Net.BuilderLemmas

/-! # Loop invariants of `makePetriNet` -/

namespace Verif
namespace Builder

variable {B : Builder}

def hasPre (B : Builder) (p t : Nat) : Bool := decide (p ∈ (B.trans t).pre.map Arc.place)
def hasPost (B : Builder) (p t : Nat) : Bool := decide (p ∈ (B.trans t).post.map Arc.place)
def allInhib (B : Builder) (t : Nat) : Bool := (B.trans t).pre.all (·.inhib)

/-- Invariant of the emission state: `em` are the emitted transitions in order, `emN` those emitted
by the second (non-orphan) loop. -/
structure St (B : Builder) (s : MkState) (em emN : List Nat) : Prop where
  invs : s.invs = layInv (preI B) (postI B) em
  trans : s.trans = layPtr (preI B) (postI B) em
  tmap : ∀ t k, s.tmap t = some k ↔ em[k]? = some t
  nodup : em.Nodup
  ok : ∀ t ∈ em, t < B.transitions.length ∧ (B.trans t).skip = false
  nodupN : emN.Nodup
  subN : ∀ t ∈ emN, t ∈ em
  cons : ∀ p, s.consCount p + em.countP (hasPre B p) = (B.place p).consumers.length
  prod : ∀ p, s.prodCount p + emN.countP (hasPost B p) = (B.place p).producers.length
  ctrl : ∀ k t, em[k]? = some t →
    s.ctrl k = if allInhib B t then true else decide ((B.trans t).player = 0)

theorem decAll_apply : ∀ (l : List Arc) (c : Nat → Nat), (l.map Arc.place).Nodup → ∀ p,
    decAll c l p = if p ∈ l.map Arc.place then dec32 (c p) else c p
  | [], c, _, p => by simp [decAll]
  | a :: l, c, hn, p => by
    simp only [List.map_cons, List.nodup_cons] at hn
    rw [decAll, decAll_apply l _ hn.2]
    by_cases hp : p = a.place
    · subst hp
      rw [if_neg hn.1, if_pos (by simp)]
      simp [upd]
    · have h1 : upd c a.place (dec32 (c a.place)) p = c p := by simp [upd, hp]
      have h2 : (p ∈ (a :: l).map Arc.place) ↔ p ∈ l.map Arc.place := by simp [hp]
      rw [h1]; simp only [h2]

theorem countP_lt {l c : List Nat} {q : Nat → Bool} {t : Nat} (hn : l.Nodup) (ht : t ∉ l)
    (hq : q t = true) (hsub : ∀ u, q u = true → u ∈ c) : l.countP q + 1 ≤ c.length := by
  rw [List.countP_eq_length_filter]
  have h1 : (t :: l.filter q).Nodup := by
    rw [List.nodup_cons]
    exact ⟨fun h => ht (List.mem_of_mem_filter h), hn.filter q⟩
  have h2 : (t :: l.filter q) ⊆ c := by
    intro u hu
    rcases List.mem_cons.1 hu with rfl | hu
    · exact hsub _ hq
    · exact hsub u (by simpa using (List.mem_filter.1 hu).2)
  simpa using (List.subperm_of_subset h1 h2).length_le

theorem snoc_getElem? {α} (l : List α) (x y : α) (k : Nat) :
    (l ++ [x])[k]? = some y ↔ l[k]? = some y ∨ (k = l.length ∧ y = x) := by
  by_cases hk : k < l.length
  · rw [List.getElem?_append_left hk]
    constructor
    · exact .inl
    · rintro (h | ⟨h, _⟩)
      · exact h
      · omega
  · rw [List.getElem?_append_right (by omega)]
    by_cases he : k = l.length
    · subst he
      simp [eq_comm]
    · have : 0 < k - l.length := by omega
      rw [List.getElem?_eq_none (by simp; omega), List.getElem?_eq_none (by omega)]
      simp [he]

theorem getElem?_mem' {α} {l : List α} {k : Nat} {x : α} (h : l[k]? = some x) : x ∈ l :=
  List.mem_of_getElem? h

/-- Emitting one more transition keeps the invariant. -/
theorem St.emit {s : MkState} {em emN : List Nat} (w : B.WF) (h : St B s em emN) {t : Nat}
    (ht : t ∉ em) (hlt : t < B.transitions.length) (hs : (B.trans t).skip = false)
    (s' : MkState) (nonorph : Bool)
    (hcons : s'.consCount = decAll s.consCount (B.trans t).pre)
    (hprod : s'.prodCount = if nonorph then decAll s.prodCount (B.trans t).post else s.prodCount)
    (htmap : s'.tmap = fun u => if u = t then some s.trans.length else s.tmap u)
    (htrans : s'.trans = s.trans ++ [⟨s.invs.length, s.invs.length + (B.trans t).pre.length⟩])
    (hinvs : s'.invs = s.invs ++ (B.trans t).pre.map preInv ++ (B.trans t).post.map postInv)
    (hctrl : ∀ k, k ≠ s.trans.length → s'.ctrl k = s.ctrl k)
    (hctrl' : s'.ctrl s.trans.length = if allInhib B t then true else decide ((B.trans t).player = 0)) :
    St B s' (em ++ [t]) (if nonorph then emN ++ [t] else emN) := by
  have hlen : s.trans.length = em.length := by rw [h.trans, layPtr_length]
  have htN : t ∉ emN := fun hh => ht (h.subN t hh)
  refine ⟨?_, ?_, ?_, ?_, ?_, ?_, ?_, ?_, ?_, ?_⟩
  · rw [hinvs, h.invs, layInv_snoc]; rfl
  · rw [htrans, h.trans, layPtr_snoc, h.invs]
    simp [preI]
  · intro u k
    rw [htmap]
    simp only [snoc_getElem?]
    by_cases hu : u = t
    · subst hu
      simp only [if_true, Option.some.injEq, hlen]
      constructor
      · rintro rfl; exact .inr ⟨rfl, trivial⟩
      · rintro (hh | ⟨hh, _⟩)
        · exact absurd (getElem?_mem' hh) ht
        · exact hh.symm
    · simp only [hu, if_false, and_false, or_false]
      exact h.tmap u k
  · rw [List.nodup_append]
    refine ⟨h.nodup, by simp, ?_⟩
    intro a ha b hb
    simp at hb; subst hb
    rintro rfl; exact ht ha
  · intro u hu
    rcases List.mem_append.1 hu with hu | hu
    · exact h.ok u hu
    · simp at hu; subst hu; exact ⟨hlt, hs⟩
  · split
    · rw [List.nodup_append]
      refine ⟨h.nodupN, by simp, ?_⟩
      intro a ha b hb
      simp at hb; subst hb
      rintro rfl; exact htN ha
    · exact h.nodupN
  · intro u hu
    split at hu
    · rcases List.mem_append.1 hu with hu | hu
      · simp [h.subN u hu]
      · simp at hu; simp [hu]
    · simp [h.subN u hu]
  · intro p
    rw [hcons, decAll_apply _ _ (w.pre_nodup t), List.countP_append]
    have hc := h.cons p
    by_cases hp : p ∈ (B.trans t).pre.map Arc.place
    · have hle := countP_lt (q := hasPre B p) (c := (B.place p).consumers) h.nodup ht
        (by simpa [hasPre] using hp) (fun u hu => (w.cons_iff p u).2 (by simpa [hasPre] using hu))
      have hq : hasPre B p t = true := by simpa [hasPre] using hp
      rw [if_pos hp]
      have hdec : dec32 (s.consCount p) = s.consCount p - 1 := by
        unfold dec32; rw [if_neg (by omega)]
      rw [hdec]
      simp [hq]; omega
    · have hq : hasPre B p t = false := by simpa [hasPre] using hp
      rw [if_neg hp]; simp [hq]; omega
  · intro p
    have hc := h.prod p
    cases nonorph with
    | false => simpa [hprod] using hc
    | true =>
      simp only [if_true] at hprod ⊢
      rw [hprod, decAll_apply _ _ (w.post_nodup t), List.countP_append]
      by_cases hp : p ∈ (B.trans t).post.map Arc.place
      · have hle := countP_lt (q := hasPost B p) (c := (B.place p).producers) h.nodupN htN
          (by simpa [hasPost] using hp) (fun u hu => (w.prod_iff p u).2 (by simpa [hasPost] using hu))
        have hq : hasPost B p t = true := by simpa [hasPost] using hp
        rw [if_pos hp]
        have hdec : dec32 (s.prodCount p) = s.prodCount p - 1 := by
          unfold dec32; rw [if_neg (by omega)]
        rw [hdec]
        simp [hq]; omega
      · have hq : hasPost B p t = false := by simpa [hasPost] using hp
        rw [if_neg hp]; simp [hq]; omega
  · intro k u hk
    rw [snoc_getElem?] at hk
    rcases hk with hk | ⟨rfl, rfl⟩
    · have : k < em.length := by
        by_contra hc
        rw [List.getElem?_eq_none (by omega)] at hk; simp at hk
      rw [hctrl k (by omega)]
      exact h.ctrl k u hk
    · rw [← hlen]; exact hctrl'

/-- Transitions emitted by the orphan loop. -/
def isOrph (B : Builder) (t : Nat) : Bool := allInhib B t && !(B.trans t).skip

theorem orphan_fold (w : B.WF) : ∀ (l : List Nat) (s : MkState) (em : List Nat),
    St B s em [] → l.Nodup → (∀ t ∈ l, t < B.transitions.length ∧ t ∉ em) →
    (∀ k, s.ctrl k = true) →
    St B (l.foldl (orphanStep B) s) (em ++ l.filter (isOrph B)) [] ∧
      (l.foldl (orphanStep B) s).idmap = s.idmap ∧
      (l.foldl (orphanStep B) s).free = s.free ∧
      (l.foldl (orphanStep B) s).ptrs = s.ptrs ∧
      (∀ k, (l.foldl (orphanStep B) s).ctrl k = true)
  | [], s, em, h, _, _, hc => by simpa using ⟨h, hc⟩
  | t :: l, s, em, h, hn, hl, hc => by
    rw [List.nodup_cons] at hn
    have ht := hl t (by simp)
    rw [List.foldl_cons]
    by_cases ho : isOrph B t = true
    · have ho' := ho
      simp only [isOrph, allInhib, Bool.and_eq_true, Bool.not_eq_true'] at ho'
      have hstep : orphanStep B s t =
          { s with
            consCount := decAll s.consCount (B.trans t).pre
            tmap := fun u => if u = t then some s.trans.length else s.tmap u
            trans := s.trans ++ [⟨s.invs.length, s.invs.length + (B.trans t).pre.length⟩]
            invs := s.invs ++ (B.trans t).pre.map preInv ++ (B.trans t).post.map postInv } := by
        simp only [orphanStep]
        rw [if_pos ho'.1, if_neg (by simp [ho'.2])]
      have hst := St.emit w h ht.2 ht.1 ho'.2 (orphanStep B s t) false (by rw [hstep])
        (by rw [hstep]; simp) (by rw [hstep]) (by rw [hstep]) (by rw [hstep])
        (by rw [hstep]; simp) (by rw [hstep]; simp [hc, allInhib, ho'.1])
      simp only [Bool.false_eq_true, if_false] at hst
      have ih := orphan_fold w l (orphanStep B s t) (em ++ [t]) hst hn.2 (by
        intro u hu
        refine ⟨(hl u (by simp [hu])).1, ?_⟩
        simp only [List.mem_append, List.mem_singleton, not_or]
        refine ⟨(hl u (by simp [hu])).2, ?_⟩
        rintro rfl; exact hn.1 hu) (by rw [hstep]; exact hc)
      rw [List.filter_cons_of_pos (by simpa using ho)]
      rw [List.append_assoc] at ih
      refine ⟨by simpa using ih.1, ?_⟩
      rw [ih.2.1, ih.2.2.1, ih.2.2.2.1]
      refine ⟨by rw [hstep], by rw [hstep], by rw [hstep], ih.2.2.2.2⟩
    · have hstep : orphanStep B s t = s := by
        simp only [isOrph, allInhib, Bool.and_eq_true, Bool.not_eq_true'] at ho
        simp only [orphanStep]
        split
        · rename_i h1
          rw [if_pos (by
            by_contra hcon
            exact ho ⟨h1, by simpa using hcon⟩)]
        · rfl
      rw [hstep, List.filter_cons_of_neg (by simpa using ho)]
      exact orphan_fold w l s em h hn.2 (fun u hu => hl u (by simp [hu])) hc

/-! ### The consumer loop -/

def arcOK (s : MkState) (next : Nat) (a : Arc) : Bool :=
  !(!a.inhib && oldPlace s a.place) && !(decide (a.place = next) && a.inhib)

theorem checkArcs_sound (s : MkState) (ninv next : Nat) : ∀ (l : List Arc) (cnt : Nat) (ai : Bool),
    (checkArcs s ninv next l cnt ai).1 = true →
    l.all (arcOK s next) = true ∧ (checkArcs s ninv next l cnt ai).2 = (ai && l.all (·.inhib))
  | [], cnt, ai, _ => by simp [checkArcs]
  | a :: l, cnt, ai, h => by
    unfold checkArcs at h ⊢
    simp only at h ⊢
    split at h
    · simp at h
    · rename_i h1
      split at h
      · simp at h
      · rename_i h2
        obtain ⟨ih1, ih2⟩ := checkArcs_sound s ninv next l (cnt + 1) _ h
        rw [if_neg h1, if_neg h2]
        refine ⟨?_, ?_⟩
        · rw [List.all_cons, ih1, Bool.and_true]
          unfold arcOK
          simp only [Bool.or_eq_true, not_or] at h1
          have h1 := h1.1
          rw [Bool.and_eq_true]
          refine ⟨?_, ?_⟩
          · cases hi : a.inhib <;> simp_all
          · cases hi : a.inhib <;> simp_all
        · rw [ih2]; simp [Bool.and_assoc]

theorem checkArcs_complete (s : MkState) (ninv next : Nat) : ∀ (l : List Arc) (cnt : Nat) (ai : Bool),
    l.all (arcOK s next) = true → s.invs.length + cnt + l.length ≤ ninv →
    (checkArcs s ninv next l cnt ai).1 = true
  | [], cnt, ai, _, _ => by simp [checkArcs]
  | a :: l, cnt, ai, h, hlen => by
    rw [List.all_cons, Bool.and_eq_true] at h
    simp only [List.length_cons] at hlen
    unfold checkArcs
    simp only
    have h1 := h.1
    unfold arcOK at h1
    rw [Bool.and_eq_true] at h1
    rw [if_neg, if_neg]
    · exact checkArcs_complete s ninv next l (cnt + 1) _ h.2 (by omega)
    · intro hc; simp [hc.1, hc.2] at h1
    · simp only [Bool.or_eq_true, not_or]
      refine ⟨by intro hc; simp only [hc] at h1; simp at h1, ?_⟩
      simp; omega

/-- The transitions a round of the loop emits. -/
def okB (B : Builder) (s : MkState) (next t : Nat) : Bool :=
  !(B.trans t).skip && (B.trans t).pre.all (arcOK s next) && !allInhib B t

theorem okB_congr {s s' : MkState} (h1 : s'.idmap = s.idmap) (h2 : s'.free = s.free) (next t : Nat) :
    okB B s' next t = okB B s next t := by
  unfold okB arcOK oldPlace
  rw [h1, h2]

theorem consumer_fold (w : B.WF) (next : Nat) : ∀ (l : List Nat) (s : MkState) (em emN : List Nat),
    St B s em emN → l.Nodup → (∀ t ∈ l, t < B.transitions.length ∧ (okB B s next t = true → t ∉ em)) →
    (∃ emN', St B (l.foldl (consumerStep B B.nInvariants next) s) (em ++ l.filter (okB B s next)) emN') ∧
      (l.foldl (consumerStep B B.nInvariants next) s).idmap = s.idmap ∧
      (l.foldl (consumerStep B B.nInvariants next) s).free = s.free ∧
      (l.foldl (consumerStep B B.nInvariants next) s).ptrs = s.ptrs
  | [], s, em, emN, h, _, _ => by simpa using ⟨emN, h⟩
  | t :: l, s, em, emN, h, hn, hl => by
    rw [List.nodup_cons] at hn
    have ht := hl t (by simp)
    have hlen : s.trans.length = em.length := by rw [h.trans, layPtr_length]
    rw [List.foldl_cons]
    by_cases hok : okB B s next t = true
    · have htem := ht.2 hok
      have hok' := hok
      simp only [okB, Bool.and_eq_true, Bool.not_eq_true'] at hok'
      obtain ⟨⟨hskip, harcs⟩, hninh⟩ := hok'
      -- enough room for the arcs
      have hroom : s.invs.length + 0 + (B.trans t).pre.length ≤ B.nInvariants := by
        have hn2 : (em ++ [t]).Nodup := by
          rw [List.nodup_append]
          refine ⟨h.nodup, by simp, ?_⟩
          intro a ha b hb
          simp at hb; subst hb
          rintro rfl; exact htem ha
        have := layInv_le w hn2 (by
          intro u hu
          rcases List.mem_append.1 hu with hu | hu
          · exact (h.ok u hu).1
          · simp at hu; subst hu; exact ht.1)
        rw [layInv_snoc, ← h.invs] at this
        simp [preI] at this
        omega
      let s1 : MkState := { s with ctrl := fun k =>
        if k = s.trans.length then decide ((B.trans t).player = 0) else s.ctrl k }
      have hc1 : (checkArcs s1 B.nInvariants next (B.trans t).pre 0 true).1 = true :=
        checkArcs_complete s1 _ next _ 0 true harcs hroom
      have hc2 := (checkArcs_sound s1 _ next _ 0 true hc1).2
      have hstep : consumerStep B B.nInvariants next s t =
          { s1 with
            consCount := decAll s.consCount (B.trans t).pre
            prodCount := decAll s.prodCount (B.trans t).post
            tmap := fun u => if u = t then some s.trans.length else s.tmap u
            trans := s.trans ++ [⟨s.invs.length, s.invs.length + (B.trans t).pre.length⟩]
            invs := s.invs ++ (B.trans t).pre.map preInv ++ (B.trans t).post.map postInv } := by
        simp only [consumerStep]
        rw [if_neg (by simp [hskip]), if_neg]
        rw [show checkArcs _ B.nInvariants next (B.trans t).pre 0 true =
          checkArcs s1 B.nInvariants next (B.trans t).pre 0 true from rfl, hc1, hc2]
        simp only [allInhib] at hninh
        simp [hninh]
      have hst := St.emit w h htem ht.1 hskip (consumerStep B B.nInvariants next s t) true
        (by rw [hstep]) (by rw [hstep]; simp) (by rw [hstep]) (by rw [hstep]) (by rw [hstep])
        (by rw [hstep]; intro k hk; simp [s1, hk]) (by rw [hstep]; simp [s1, hninh])
      simp only [if_true] at hst
      have hid : (consumerStep B B.nInvariants next s t).idmap = s.idmap := by rw [hstep]
      have hfr : (consumerStep B B.nInvariants next s t).free = s.free := by rw [hstep]
      have hpt : (consumerStep B B.nInvariants next s t).ptrs = s.ptrs := by rw [hstep]
      have ih := consumer_fold w next l _ (em ++ [t]) _ hst hn.2 (by
        intro u hu
        refine ⟨(hl u (by simp [hu])).1, fun hk => ?_⟩
        rw [okB_congr hid hfr] at hk
        simp only [List.mem_append, List.mem_singleton, not_or]
        refine ⟨(hl u (by simp [hu])).2 hk, ?_⟩
        rintro rfl; exact hn.1 hu)
      obtain ⟨⟨emN', ih1⟩, ih2, ih3, ih4⟩ := ih
      have hfun : okB B (consumerStep B B.nInvariants next s t) next = okB B s next :=
        funext fun u => okB_congr hid hfr next u
      rw [hfun] at ih1
      rw [List.filter_cons_of_pos (by simpa using hok)]
      refine ⟨⟨emN', by simpa using ih1⟩, by rw [ih2, hid], by rw [ih3, hfr], by rw [ih4, hpt]⟩
    · -- nothing emitted, only `ctrl` at the free index may change
      have hrest : (consumerStep B B.nInvariants next s t) = s ∨
          (consumerStep B B.nInvariants next s t) = { s with ctrl := fun k =>
            if k = s.trans.length then (decide ((B.trans t).player = 0)) else s.ctrl k } := by
        simp only [consumerStep]
        split
        · exact .inl rfl
        · rename_i hskip
          right
          rw [if_pos]
          by_contra hcon
          simp only [Bool.or_eq_true, Bool.not_eq_true', not_or, Bool.not_eq_false,
            Bool.not_eq_true] at hcon
          obtain ⟨hc1, hc2⟩ := checkArcs_sound _ _ next _ 0 true hcon.1
          rw [hcon.2] at hc2
          refine hok ?_
          simp only [okB, Bool.and_eq_true, Bool.not_eq_true']
          refine ⟨⟨by simpa using hskip, hc1⟩, ?_⟩
          unfold allInhib
          rw [← Bool.true_and ((B.trans t).pre.all fun x => x.inhib), ← hc2]
      have hst : St B (consumerStep B B.nInvariants next s t) em emN := by
        rcases hrest with e | e
        · rw [e]; exact h
        · rw [e]
          refine ⟨h.invs, h.trans, h.tmap, h.nodup, h.ok, h.nodupN, h.subN, h.cons, h.prod, ?_⟩
          intro k u hk
          have : k < em.length := by
            by_contra hc
            rw [List.getElem?_eq_none (by omega)] at hk; simp at hk
          simp only
          rw [if_neg (by omega)]
          exact h.ctrl k u hk
      have hid : (consumerStep B B.nInvariants next s t).idmap = s.idmap := by
        rcases hrest with e | e <;> rw [e]
      have hfr : (consumerStep B B.nInvariants next s t).free = s.free := by
        rcases hrest with e | e <;> rw [e]
      have hpt : (consumerStep B B.nInvariants next s t).ptrs = s.ptrs := by
        rcases hrest with e | e <;> rw [e]
      have hfun : okB B (consumerStep B B.nInvariants next s t) next = okB B s next :=
        funext fun u => okB_congr hid hfr next u
      have ih := consumer_fold w next l _ em emN hst hn.2 (by
        intro u hu
        rw [hfun]
        exact hl u (by simp [hu]))
      rw [hfun] at ih
      rw [List.filter_cons_of_neg (by simpa using hok)]
      refine ⟨ih.1, by rw [ih.2.1, hid], by rw [ih.2.2.1, hfr], by rw [ih.2.2.2, hpt]⟩

/-! ### Choosing the next place -/

theorem nextPlaceAux_some (s : MkState) (reorder : Bool) : ∀ (l : List Nat) (cand : Option Nat)
    (cnt : Nat) (p : Nat), nextPlaceAux B s reorder l cand cnt = some p →
    cand = some p ∨ (p ∈ l ∧ s.idmap p = none ∧ (B.place p).skip = false)
  | [], cand, cnt, p, h => .inl h
  | i :: l, cand, cnt, p, h => by
    unfold nextPlaceAux at h
    split at h
    · rename_i hc
      have hgood : s.idmap i = none ∧ (B.place i).skip = false := by
        refine ⟨by simpa using hc.1, by simpa using hc.2.2⟩
      split at h
      · simp at h; subst h
        exact .inr ⟨by simp, hgood⟩
      · rcases nextPlaceAux_some s reorder l _ _ p h with h | h
        · simp at h; subst h; exact .inr ⟨by simp, hgood⟩
        · exact .inr ⟨by simp [h.1], h.2⟩
    · rcases nextPlaceAux_some s reorder l _ _ p h with h | h
      · exact .inl h
      · exact .inr ⟨by simp [h.1], h.2⟩

theorem nextPlaceAux_isSome (s : MkState) (reorder : Bool) : ∀ (l : List Nat) (c : Nat)
    (cnt : Nat), nextPlaceAux B s reorder l (some c) cnt ≠ none
  | [], c, cnt => by simp [nextPlaceAux]
  | i :: l, c, cnt => by
    unfold nextPlaceAux
    split
    · split
      · simp
      · exact nextPlaceAux_isSome s reorder l _ _
    · exact nextPlaceAux_isSome s reorder l _ _

theorem nextPlaceAux_none (s : MkState) (reorder : Bool)
    (hb : ∀ p, s.consCount p < W32 - 1 ∧ s.prodCount p < W32 - 1) : ∀ (l : List Nat),
    nextPlaceAux B s reorder l none (W32 - 1) = none →
    ∀ p ∈ l, (B.place p).skip = false → s.idmap p ≠ none
  | [], _, p, hp, _ => by simp at hp
  | i :: l, h, p, hp, hs => by
    unfold nextPlaceAux at h
    split at h
    · split at h
      · simp at h
      · exact absurd h (nextPlaceAux_isSome s reorder l _ _)
    · rename_i hc
      rcases List.mem_cons.1 hp with rfl | hp
      · intro hn
        apply hc
        refine ⟨by simp [hn], ?_, by simp [hs]⟩
        have := hb p
        unfold nnum
        split
        · simp [W32]
        · split
          · simp [W32]
          · exact Nat.max_lt.2 this
      · exact nextPlaceAux_none s reorder hb l h p hp hs

theorem consumers_length_le (w : B.WF) (p : Nat) :
    (B.place p).consumers.length ≤ B.transitions.length := by
  have := (List.subperm_of_subset (w.cons_nodup p)
    (fun t ht => List.mem_range.2 (mem_consumers_lt w ht))).length_le
  simpa using this

theorem producers_length_le (w : B.WF) (p : Nat) :
    (B.place p).producers.length ≤ B.transitions.length := by
  have := (List.subperm_of_subset (w.prod_nodup p)
    (fun t ht => List.mem_range.2 (mem_producers_lt w ht))).length_le
  simpa using this

theorem St.bound {s : MkState} {em emN : List Nat} (w : B.WF) (h : St B s em emN) (p : Nat) :
    s.consCount p < W32 - 1 ∧ s.prodCount p < W32 - 1 := by
  have h1 := h.cons p
  have h2 := h.prod p
  have h3 := consumers_length_le w p
  have h4 := producers_length_le w p
  have h5 := w.size
  omega

/-! ### The place loop -/

structure LoopInv (B : Builder) (s : MkState) (order : List Nat) (blocks : List (List Nat)) : Prop where
  st : ∃ emN, St B s blocks.flatten emN
  len : blocks.length = order.length
  free : s.free = order.length
  idmap : ∀ p k, s.idmap p = some k ↔ order[k]? = some p
  order_ok : ∀ p ∈ order, p < B.places.length ∧ (B.place p).skip = false
  ptrs : s.ptrs = (List.range order.length).map (fun k => (blocks.take k).flatten.length)
  block : ∀ k b p t, 0 < k → blocks[k]? = some b → order[k]? = some p → t ∈ b →
    ∃ a ∈ (B.trans t).pre, a.place = p ∧ a.inhib = false
  mem : ∀ t, t ∈ blocks.flatten ↔ (t < B.transitions.length ∧ (B.trans t).skip = false ∧
    (allInhib B t = true ∨ ∃ a ∈ (B.trans t).pre, a.inhib = false ∧ a.place ∈ order))

/-- One round for place `p`, given the state right after `assign`. -/
theorem process_round (w : B.WF) {s : MkState} {em emN : List Nat} {order : List Nat} {p : Nat}
    (hst : St B s em emN) (hfree : s.free = order.length)
    (hid : ∀ q k, s.idmap q = some k ↔ (order ++ [p])[k]? = some q)
    (hmem : ∀ t, t ∈ em ↔ (t < B.transitions.length ∧ (B.trans t).skip = false ∧
      (allInhib B t = true ∨ ∃ a ∈ (B.trans t).pre, a.inhib = false ∧ a.place ∈ order))) :
    ∃ bl, (∃ emN', St B (processPlace B B.nInvariants s p) (em ++ bl) emN') ∧
      (processPlace B B.nInvariants s p).idmap = s.idmap ∧
      (processPlace B B.nInvariants s p).free = order.length + 1 ∧
      (processPlace B B.nInvariants s p).ptrs = s.ptrs ∧
      (∀ t ∈ bl, ∃ a ∈ (B.trans t).pre, a.place = p ∧ a.inhib = false) ∧
      (∀ t, t ∈ em ++ bl ↔ (t < B.transitions.length ∧ (B.trans t).skip = false ∧
        (allInhib B t = true ∨ ∃ a ∈ (B.trans t).pre, a.inhib = false ∧ a.place ∈ order ++ [p]))) := by
  have hp : p ∉ order := by
    intro hc
    obtain ⟨k, hk, hke⟩ := List.getElem_of_mem hc
    have h1 : (order ++ [p])[k]? = some p := by
      rw [snoc_getElem?]; left; rw [List.getElem?_eq_getElem hk, hke]
    have h2 : (order ++ [p])[order.length]? = some p := by simp
    have e1 := (hid p k).2 h1
    have e2 := (hid p order.length).2 h2
    rw [e1] at e2
    simp at e2; omega
  have hold : ∀ q, oldPlace s q = true ↔ q ∈ order := by
    intro q
    unfold oldPlace
    cases hq : s.idmap q with
    | none =>
      simp only [Bool.false_eq_true, false_iff]
      intro hc
      obtain ⟨k, hk, hke⟩ := List.getElem_of_mem hc
      have := (hid q k).2 (by rw [snoc_getElem?]; left; rw [List.getElem?_eq_getElem hk, hke])
      rw [hq] at this; simp at this
    | some k =>
      have h1 := (hid q k).1 hq
      rw [snoc_getElem?] at h1
      simp only [decide_eq_true_eq, hfree]
      rcases h1 with h1 | ⟨rfl, rfl⟩
      · have : k < order.length := by
          by_contra hc
          rw [List.getElem?_eq_none (by omega)] at h1; simp at h1
        exact ⟨fun _ => getElem?_mem' h1, fun _ => this⟩
      · simp [hp]
  have hokB : ∀ t ∈ (B.place p).consumers, (okB B s p t = true ↔
      ((B.trans t).skip = false ∧ (∃ a ∈ (B.trans t).pre, a.place = p ∧ a.inhib = false) ∧
        ∀ a ∈ (B.trans t).pre, a.inhib = false → a.place ∉ order)) := by
    intro t ht
    have hpt := (w.cons_iff p t).1 ht
    obtain ⟨a0, ha0, hap⟩ := List.mem_map.1 hpt
    simp only [okB, Bool.and_eq_true, Bool.not_eq_true', List.all_eq_true, arcOK]
    constructor
    · rintro ⟨⟨h1, h2⟩, h3⟩
      refine ⟨h1, ⟨a0, ha0, hap, ?_⟩, fun a ha hi hao => ?_⟩
      · have := (h2 a0 ha0).2
        simpa [hap] using this
      · have := (h2 a ha).1
        rw [(hold a.place).2 hao] at this
        simp [hi] at this
    · rintro ⟨h1, ⟨a, ha, hap', hai⟩, h3⟩
      refine ⟨⟨h1, fun b hb => ⟨?_, ?_⟩⟩, ?_⟩
      · cases hbi : b.inhib with
        | true => simp
        | false =>
          have := h3 b hb hbi
          rw [← hold] at this
          simp at this
          simp [this]
      · by_cases hbp : b.place = p
        · have : b = a := by
            have hnd := w.pre_nodup t
            exact List.inj_on_of_nodup_map hnd hb ha (by rw [hbp, hap'])
          subst this; simp [hai]
        · simp [hbp]
      · unfold allInhib
        rw [Bool.eq_false_iff]
        intro hall
        rw [List.all_eq_true] at hall
        have := hall a ha
        simp [hai] at this
  have hpre : ∀ t ∈ (B.place p).consumers,
      t < B.transitions.length ∧ (okB B s p t = true → t ∉ em) := by
    intro t ht
    refine ⟨mem_consumers_lt w ht, fun hk hc => ?_⟩
    obtain ⟨h1, ⟨a, ha, _, hai⟩, h3⟩ := (hokB t ht).1 hk
    rcases ((hmem t).1 hc).2.2 with h | ⟨b, hb, hbi, hbo⟩
    · unfold allInhib at h
      rw [List.all_eq_true] at h
      have := h a ha
      simp [hai] at this
    · exact h3 b hb hbi hbo
  obtain ⟨⟨emN', h1⟩, h2, h3, h4⟩ := consumer_fold w p (B.place p).consumers s em emN hst
    (w.cons_nodup p) hpre
  refine ⟨(B.place p).consumers.filter (okB B s p), ⟨emN', ?_⟩, ?_, ?_, ?_, ?_, ?_⟩
  · exact ⟨h1.invs, h1.trans, h1.tmap, h1.nodup, h1.ok, h1.nodupN, h1.subN, h1.cons, h1.prod, h1.ctrl⟩
  · exact h2
  · simp only [processPlace]; rw [h3, hfree]
  · exact h4
  · intro t ht
    rw [List.mem_filter] at ht
    exact ((hokB t ht.1).1 ht.2).2.1
  · intro t
    rw [List.mem_append, List.mem_filter, hmem]
    constructor
    · rintro (⟨a1, a2, a3⟩ | ⟨a1, a2⟩)
      · refine ⟨a1, a2, ?_⟩
        rcases a3 with a3 | ⟨a, ha, hai, hao⟩
        · exact .inl a3
        · exact .inr ⟨a, ha, hai, by simp [hao]⟩
      · obtain ⟨b1, ⟨a, ha, hap, hai⟩, b3⟩ := (hokB t a1).1 a2
        exact ⟨mem_consumers_lt w a1, b1, .inr ⟨a, ha, hai, by simp [hap]⟩⟩
    · rintro ⟨a1, a2, a3⟩
      by_cases hin : allInhib B t = true ∨ ∃ a ∈ (B.trans t).pre, a.inhib = false ∧ a.place ∈ order
      · exact .inl ⟨a1, a2, hin⟩
      · right
        simp only [not_or] at hin
        rcases a3 with a3 | ⟨a, ha, hai, hao⟩
        · exact absurd a3 hin.1
        · have hno : ∀ b ∈ (B.trans t).pre, b.inhib = false → b.place ∉ order :=
            fun b hb hbi hbo => hin.2 ⟨b, hb, hbi, hbo⟩
          have hap : a.place = p := by
            rcases List.mem_append.1 hao with h | h
            · exact absurd h (hno a ha hai)
            · simpa using h
          have htc : t ∈ (B.place p).consumers :=
            (w.cons_iff p t).2 (List.mem_map.2 ⟨a, ha, hap⟩)
          exact ⟨htc, (hokB t htc).2 ⟨a2, ⟨a, ha, hap, hai⟩, hno⟩⟩

theorem flatten_snoc (bs : List (List Nat)) (b : List Nat) :
    (bs ++ [b]).flatten = bs.flatten ++ b := by simp

theorem ptrs_snoc (bs : List (List Nat)) (b : List Nat) (n : Nat) (h : bs.length = n) :
    (List.range (n + 1)).map (fun k => ((bs ++ [b]).take k).flatten.length) =
      (List.range n).map (fun k => (bs.take k).flatten.length) ++ [bs.flatten.length] := by
  rw [List.range_succ, List.map_append, List.map_singleton]
  congr 1
  · apply List.map_congr_left
    intro k hk
    have hk : k < n := by simpa using hk
    rw [List.take_append_of_le_length (by omega)]
  · rw [List.take_append_of_le_length (by omega), List.take_of_length_le (by omega)]

theorem LoopInv.step (w : B.WF) {s : MkState} {order : List Nat} {blocks : List (List Nat)}
    (h : LoopInv B s order blocks) {p : Nat} (hn : s.idmap p = none)
    (hp : p < B.places.length) (hs : (B.place p).skip = false) :
    ∃ bl, LoopInv B (processPlace B B.nInvariants (assign s p) p) (order ++ [p]) (blocks ++ [bl]) := by
  obtain ⟨emN, hst⟩ := h.st
  have hst1 : St B (assign s p) blocks.flatten emN :=
    ⟨hst.invs, hst.trans, hst.tmap, hst.nodup, hst.ok, hst.nodupN, hst.subN, hst.cons, hst.prod, hst.ctrl⟩
  have hid : ∀ q k, (assign s p).idmap q = some k ↔ (order ++ [p])[k]? = some q := by
    intro q k
    rw [snoc_getElem?, ← h.idmap]
    simp only [assign]
    by_cases hq : q = p
    · subst hq
      simp only [if_true, hn, Option.some.injEq, reduceCtorEq, false_or, and_true, h.free]
      exact ⟨fun e => e.symm, fun e => e.symm⟩
    · simp [hq]
  obtain ⟨bl, h1, h2, h3, h4, h5, h6⟩ := process_round w hst1 h.free hid h.mem
  refine ⟨bl, ?_, ?_, ?_, ?_, ?_, ?_, ?_, ?_⟩
  · rw [flatten_snoc]; exact h1
  · simp [h.len]
  · simp [h3]
  · intro q k; rw [h2]; exact hid q k
  · intro q hq
    rcases List.mem_append.1 hq with hq | hq
    · exact h.order_ok q hq
    · simp at hq; subst hq; exact ⟨hp, hs⟩
  · rw [h4]
    simp only [assign, List.length_append, List.length_singleton]
    rw [h.ptrs, ptrs_snoc blocks bl order.length h.len, hst.trans, layPtr_length]
  · intro k b q t hk hb hq ht
    rw [snoc_getElem?] at hb hq
    rcases hb with hb | ⟨rfl, rfl⟩
    · rcases hq with hq | ⟨rfl, rfl⟩
      · exact h.block k b q t hk hb hq ht
      · rw [← h.len, List.getElem?_eq_none (by omega)] at hb; simp at hb
    · rcases hq with hq | ⟨_, rfl⟩
      · rw [h.len, List.getElem?_eq_none (by omega)] at hq; simp at hq
      · exact h5 t ht
  · intro t
    rw [flatten_snoc]; exact h6 t

theorem LoopInv.order_nodup {s : MkState} {order : List Nat} {blocks : List (List Nat)}
    (h : LoopInv B s order blocks) : order.Nodup := by
  rw [List.nodup_iff_injective_get]
  intro i j hij
  have h1 : order[i.1]? = some (order.get i) := by simp
  have h2 : order[j.1]? = some (order.get j) := by simp
  rw [← h.idmap] at h1 h2
  rw [hij, h2] at h1
  simp at h1
  exact Fin.ext h1.symm

theorem placeLoop_inv (w : B.WF) (reorder : Bool) : ∀ (fuel : Nat) (s : MkState) (order : List Nat)
    (blocks : List (List Nat)), LoopInv B s order blocks → 0 < order.length →
    B.places.length ≤ fuel + order.length →
    ∃ order' blocks', LoopInv B (placeLoop B reorder B.nInvariants fuel s) order' blocks' ∧
      0 < order'.length ∧
      ∀ p, p < B.places.length → (B.place p).skip = false → p ∈ order'
  | 0, s, order, blocks, h, hne, hf => by
    refine ⟨order, blocks, h, hne, fun p hp _ => ?_⟩
    have hsub : order ⊆ List.range B.places.length := fun q hq => by
      simpa using (h.order_ok q hq).1
    have hsp := List.subperm_of_subset h.order_nodup hsub
    have hperm := hsp.perm_of_length_le (by simpa using hf)
    exact hperm.mem_iff.2 (by simpa using hp)
  | fuel + 1, s, order, blocks, h, hne, hf => by
    rw [placeLoop]
    cases hnx : nextPlaceId B s reorder with
    | none =>
      refine ⟨order, blocks, h, hne, fun p hp hs => ?_⟩
      obtain ⟨emN, hst⟩ := h.st
      have := nextPlaceAux_none s reorder (hst.bound w) _ hnx p (by simpa using hp) hs
      cases hq : s.idmap p with
      | none => exact absurd hq this
      | some k => exact getElem?_mem' ((h.idmap p k).1 hq)
    | some p =>
      rcases nextPlaceAux_some s reorder _ _ _ p hnx with h0 | ⟨hp, hn, hs⟩
      · simp at h0
      · obtain ⟨bl, hstep⟩ := h.step w hn (by simpa using hp) hs
        exact placeLoop_inv w reorder fuel _ _ _ hstep (by simp) (by simp; omega)

theorem St_init (w : B.WF) : St B (mkInit B) [] [] := by
  refine ⟨rfl, rfl, by simp [mkInit], by simp, by simp, by simp, by simp, ?_, ?_, by simp⟩
  · intro p
    simp only [mkInit, List.countP_nil, Nat.add_zero]
    cases h : (B.place p).skip with
    | false => simp
    | true => simp [(skip_no_consumers w h).1]
  · intro p
    simp only [mkInit, List.countP_nil, Nat.add_zero]
    cases h : (B.place p).skip with
    | false => simp
    | true => simp [(skip_no_consumers w h).2]

/-- The whole construction: an order of the places and blocks of transitions. -/
theorem mkAll_inv (w : B.WF) (reorder : Bool)
    (hne : ∃ p, p < B.places.length ∧ (B.place p).skip = false) :
    ∃ order blocks, LoopInv B (mkAll B reorder) order blocks ∧ 0 < order.length ∧
      ∀ p, p < B.places.length → (B.place p).skip = false → p ∈ order := by
  unfold mkAll
  simp only
  cases hnx : nextPlaceId B B.mkInit reorder with
  | none =>
    obtain ⟨p, hp, hs⟩ := hne
    have := nextPlaceAux_none B.mkInit reorder ((St_init w).bound w) _ hnx p (by simpa using hp) hs
    simp [mkInit] at this
  | some p =>
    rcases nextPlaceAux_some B.mkInit reorder _ _ _ p hnx with h0 | ⟨hp, hn, hs⟩
    · simp at h0
    simp only
    have hst0 := St_init w
    have hst : St B (assign (mkInit B) p) [] [] :=
      ⟨hst0.invs, hst0.trans, hst0.tmap, hst0.nodup, hst0.ok, hst0.nodupN, hst0.subN, hst0.cons,
        hst0.prod, hst0.ctrl⟩
    obtain ⟨o1, o2, o3, o4, o5⟩ := orphan_fold w (List.range B.transitions.length)
      (assign (mkInit B) p) [] hst List.nodup_range (by simp) (by simp [assign, mkInit])
    generalize hs1 : (List.range B.transitions.length).foldl (orphanStep B) (assign B.mkInit p) = s1 at *
    simp only [List.nil_append] at o1
    have hid : ∀ q k, s1.idmap q = some k ↔ (([] : List Nat) ++ [p])[k]? = some q := by
      intro q k
      rw [o2, snoc_getElem?]
      simp only [assign, mkInit]
      by_cases hq : q = p
      · subst hq; simp [eq_comm]
      · simp [hq]
    have hmem : ∀ t, t ∈ (List.range B.transitions.length).filter (isOrph B) ↔
        (t < B.transitions.length ∧ (B.trans t).skip = false ∧
          (allInhib B t = true ∨ ∃ a ∈ (B.trans t).pre, a.inhib = false ∧ a.place ∈ ([] : List Nat))) := by
      intro t
      simp [isOrph, and_comm]
    obtain ⟨bl, h1, h2, h3, h4, h5, h6⟩ := process_round w o1 (order := []) (by rw [o3]; rfl) hid hmem
    have hinv : LoopInv B (processPlace B B.nInvariants s1 p) [p]
        [(List.range B.transitions.length).filter (isOrph B) ++ bl] := by
      refine ⟨?_, rfl, by simpa using h3, ?_, ?_, ?_, ?_, ?_⟩
      · simpa using h1
      · intro q k; rw [h2]; simpa using hid q k
      · intro q hq; simp at hq; subst hq; exact ⟨by simpa using hp, hs⟩
      · rw [h4, o4]; simp [assign, mkInit]
      · intro k b q t hk hb
        rw [List.getElem?_eq_none (by simp; omega)] at hb; simp at hb
      · intro t; simpa using h6 t
    exact placeLoop_inv w reorder B.places.length _ _ _ hinv (by simp) (by simp)

end Builder
end Verif
