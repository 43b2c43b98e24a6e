import Verif.Net.BuilderFinal
import Verif.Net.BuilderSpec

/-! # The builder operations: histories, their meaning, and the invariant they maintain -/

namespace Verif
namespace Builder

/-! ### Lookups in arc lists -/

def lookPre (l : List Arc) (p : Nat) : Nat :=
  match l.find? (fun a => a.place == p && !a.inhib) with
  | some a => a.weight
  | none => 0
def lookInh (l : List Arc) (p : Nat) : Option Nat :=
  match l.find? (fun a => a.place == p && a.inhib) with
  | some a => some a.weight
  | none => none
def lookPost (l : List Arc) (p : Nat) : Nat :=
  match l.find? (fun a => a.place == p) with
  | some a => a.weight
  | none => 0

theorem mergePre_none {p inh w} : ∀ {l : List Arc}, mergePre p inh w l = some none →
    p ∉ l.map Arc.place
  | [], _ => by simp
  | a :: l, h => by
    unfold mergePre at h
    split at h
    · split at h
      · split at h <;> simp at h
      · simp at h
    · rename_i hne
      cases hm : mergePre p inh w l with
      | none => simp [hm] at h
      | some o =>
        cases o with
        | some l' => simp [hm] at h
        | none =>
          have := mergePre_none hm
          simp only [List.map_cons, List.mem_cons, not_or]
          exact ⟨fun e => hne e.symm, this⟩

theorem lookPre_cons (a : Arc) (l : List Arc) (q : Nat) : lookPre (a :: l) q =
    if a.place = q ∧ a.inhib = false then a.weight else lookPre l q := by
  unfold lookPre
  rw [List.find?_cons]
  by_cases h : a.place = q ∧ a.inhib = false
  · simp [h]
  · rw [if_neg h]
    have : (a.place == q && !a.inhib) = false := by
      rw [Bool.eq_false_iff]; simpa using h
    rw [this]

theorem lookInh_cons (a : Arc) (l : List Arc) (q : Nat) : lookInh (a :: l) q =
    if a.place = q ∧ a.inhib = true then some a.weight else lookInh l q := by
  unfold lookInh
  rw [List.find?_cons]
  by_cases h : a.place = q ∧ a.inhib = true
  · simp [h]
  · rw [if_neg h]
    have : (a.place == q && a.inhib) = false := by
      rw [Bool.eq_false_iff]; simpa using h
    rw [this]

theorem lookPost_cons (a : Arc) (l : List Arc) (q : Nat) : lookPost (a :: l) q =
    if a.place = q then a.weight else lookPost l q := by
  unfold lookPost
  rw [List.find?_cons]
  by_cases h : a.place = q
  · simp [h]
  · have : (a.place == q) = false := by simpa using h
    rw [if_neg h, this]

theorem look_absent {l : List Arc} {p : Nat} (h : p ∉ l.map Arc.place) :
    lookPre l p = 0 ∧ lookInh l p = none ∧ lookPost l p = 0 := by
  induction l with
  | nil => simp [lookPre, lookInh, lookPost]
  | cons a l ih =>
    simp only [List.map_cons, List.mem_cons, not_or] at h
    rw [lookPre_cons, lookInh_cons, lookPost_cons]
    have h1 : ¬ a.place = p := fun e => h.1 e.symm
    simp [h1, ih h.2]

theorem mergePre_some {p inh w} : ∀ {l l' : List Arc}, (l.map Arc.place).Nodup →
    mergePre p inh w l = some (some l') →
    l'.map Arc.place = l.map Arc.place ∧ p ∈ l.map Arc.place ∧
    (∀ q, lookPre l' q = if q = p ∧ inh = false then (lookPre l q + w) % W32 else lookPre l q) ∧
    (∀ q, lookInh l' q = if q = p ∧ inh = true then
      (match lookInh l q with | some j => some (min j w) | none => some w) else lookInh l q) ∧
    (∀ a' ∈ l', a' ∈ l ∨ ∃ a ∈ l, a.place = p ∧ a'.weight =
      if inh then min a.weight w else (a.weight + w) % W32)
  | [], l', _, h => by simp [mergePre] at h
  | a :: l, l', hn, h => by
    have hnd := hn
    simp only [List.map_cons, List.nodup_cons] at hn
    unfold mergePre at h
    split at h
    · rename_i hp
      split at h
      · rename_i hi
        have habs : p ∉ l.map Arc.place := hp ▸ hn.1
        have hl := look_absent habs
        cases inh with
        | false =>
          simp at h; subst h
          refine ⟨by simp, by simp [hp], fun q => ?_, fun q => ?_, ?_⟩
          · rw [lookPre_cons, lookPre_cons]
            by_cases hq : q = p
            · subst hq; simp [hp, ← hi]
            · have : ¬ a.place = q := fun e => hq (by rw [← e, hp])
              simp [hq, this]
          · rw [lookInh_cons, lookInh_cons]
            simp [← hi]
          · intro a' ha'
            rcases List.mem_cons.1 ha' with rfl | ha'
            · exact .inr ⟨a, by simp, hp, by simp⟩
            · exact .inl (by simp [ha'])
        | true =>
          simp at h; subst h
          refine ⟨by simp, by simp [hp], fun q => ?_, fun q => ?_, ?_⟩
          · rw [lookPre_cons, lookPre_cons]
            simp [← hi]
          · rw [lookInh_cons, lookInh_cons]
            by_cases hq : q = p
            · subst hq; simp [hp, ← hi]
            · have : ¬ a.place = q := fun e => hq (by rw [← e, hp])
              simp [hq, this]
          · intro a' ha'
            rcases List.mem_cons.1 ha' with rfl | ha'
            · exact .inr ⟨a, by simp, hp, by simp⟩
            · exact .inl (by simp [ha'])
      · simp at h
    · rename_i hp
      cases hm : mergePre p inh w l with
      | none => simp [hm] at h
      | some o =>
        cases o with
        | none => simp [hm] at h
        | some l2 =>
          simp [hm] at h; subst h
          obtain ⟨h1, h2, h3, h4, h5⟩ := mergePre_some hn.2 hm
          refine ⟨by simp [h1], by simp [h2], fun q => ?_, fun q => ?_, ?_⟩
          · rw [lookPre_cons, lookPre_cons, h3]
            by_cases hq : a.place = q ∧ a.inhib = false
            · have : ¬ q = p := fun e => hp (by rw [hq.1, e])
              simp [hq, this]
            · simp only [hq, if_false]
          · rw [lookInh_cons, lookInh_cons, h4]
            by_cases hq : a.place = q ∧ a.inhib = true
            · have : ¬ q = p := fun e => hp (by rw [hq.1, e])
              simp [hq, this]
            · simp only [hq, if_false]
          · intro a' ha'
            rcases List.mem_cons.1 ha' with rfl | ha'
            · exact .inl (by simp)
            · rcases h5 a' ha' with h | ⟨b, hb, h⟩
              · exact .inl (by simp [h])
              · exact .inr ⟨b, by simp [hb], h⟩

/-- An existing arc of the other kind makes the call throw, so a place is never both. -/
theorem mergePre_kind {p inh w} : ∀ {l l' : List Arc}, (l.map Arc.place).Nodup →
    mergePre p inh w l = some (some l') → ∀ a ∈ l, a.place = p → a.inhib = inh
  | [], l', _, h => by simp
  | a :: l, l', hn, h => by
    simp only [List.map_cons, List.nodup_cons] at hn
    unfold mergePre at h
    split at h
    · rename_i hp
      split at h
      · rename_i hi
        intro b hb hbp
        rcases List.mem_cons.1 hb with rfl | hb
        · exact hi.symm
        · exact absurd (List.mem_map.2 ⟨b, hb, by rw [hbp, hp]⟩) hn.1
      · simp at h
    · rename_i hp
      cases hm : mergePre p inh w l with
      | none => simp [hm] at h
      | some o =>
        cases o with
        | none => simp [hm] at h
        | some l2 =>
          intro b hb hbp
          rcases List.mem_cons.1 hb with rfl | hb
          · exact absurd hbp hp
          · exact mergePre_kind hn.2 hm b hb hbp

theorem mergePost_none {p w} : ∀ {l : List Arc}, mergePost p w l = none → p ∉ l.map Arc.place
  | [], _ => by simp
  | a :: l, h => by
    unfold mergePost at h
    split at h
    · simp at h
    · rename_i hne
      have : mergePost p w l = none := by simpa using h
      have := mergePost_none this
      simp only [List.map_cons, List.mem_cons, not_or]
      exact ⟨fun e => hne e.symm, this⟩

theorem mergePost_some {p w} : ∀ {l l' : List Arc}, (l.map Arc.place).Nodup →
    mergePost p w l = some l' →
    l'.map Arc.place = l.map Arc.place ∧ p ∈ l.map Arc.place ∧
    (∀ q, lookPost l' q = if q = p then (lookPost l q + w) % W32 else lookPost l q) ∧
    (∀ a' ∈ l', a' ∈ l ∨ ∃ a ∈ l, a.place = p ∧ a'.weight = (a.weight + w) % W32)
  | [], l', _, h => by simp [mergePost] at h
  | a :: l, l', hn, h => by
    simp only [List.map_cons, List.nodup_cons] at hn
    unfold mergePost at h
    split at h
    · rename_i hp
      simp at h; subst h
      refine ⟨by simp, by simp [hp], fun q => ?_, ?_⟩
      · rw [lookPost_cons, lookPost_cons]
        by_cases hq : q = p
        · subst hq; simp [hp]
        · have : ¬ a.place = q := fun e => hq (by rw [← e, hp])
          simp [hq, this]
      · intro a' ha'
        rcases List.mem_cons.1 ha' with rfl | ha'
        · exact .inr ⟨a, by simp, hp, by simp⟩
        · exact .inl (by simp [ha'])
    · rename_i hp
      cases hm : mergePost p w l with
      | none => simp [hm] at h
      | some l2 =>
        simp [hm] at h; subst h
        obtain ⟨h1, h2, h3, h5⟩ := mergePost_some hn.2 hm
        refine ⟨by simp [h1], by simp [h2], fun q => ?_, ?_⟩
        · rw [lookPost_cons, lookPost_cons, h3]
          by_cases hq : a.place = q
          · have : ¬ q = p := fun e => hp (by rw [hq, e])
            simp [hq, this]
          · simp only [hq, if_false]
        · intro a' ha'
          rcases List.mem_cons.1 ha' with rfl | ha'
          · exact .inl (by simp)
          · rcases h5 a' ha' with h | ⟨b, hb, h⟩
            · exact .inl (by simp [h])
            · exact .inr ⟨b, by simp [hb], h⟩

theorem lookPre_mem {l : List Arc} (hn : (l.map Arc.place).Nodup) {a : Arc} (ha : a ∈ l)
    (hi : a.inhib = false) : lookPre l a.place = a.weight := by
  unfold lookPre
  rw [(find_arc hn a.place (fun a => !a.inhib) a).2 ⟨ha, rfl, by simp [hi]⟩]

theorem lookInh_mem {l : List Arc} (hn : (l.map Arc.place).Nodup) {a : Arc} (ha : a ∈ l)
    (hi : a.inhib = true) : lookInh l a.place = some a.weight := by
  unfold lookInh
  rw [(find_arc hn a.place (fun a => a.inhib) a).2 ⟨ha, rfl, hi⟩]

theorem lookPost_mem {l : List Arc} (hn : (l.map Arc.place).Nodup) {a : Arc} (ha : a ∈ l) :
    lookPost l a.place = a.weight := by
  have := (find_arc hn a.place (fun _ => true) a).2 ⟨ha, rfl, rfl⟩
  simp only [Bool.and_true] at this
  unfold lookPost
  rw [this]

/-! ### The invariant over histories -/

/-- Everything that holds after a history of calls that did not throw. -/
structure OpInv (B : Builder) (ops : List Op) : Prop where
  pn : B.pnames.Nodup
  tn : B.tnames.Nodup
  plen : B.pnames.length = B.places.length
  tlen : B.tnames.length = B.transitions.length
  ilen : B.init.length = B.places.length
  noskipP : ∀ p, (B.place p).skip = false
  noskipT : ∀ t, (B.trans t).skip = false
  pre_nodup : ∀ t, ((B.trans t).pre.map Arc.place).Nodup
  post_nodup : ∀ t, ((B.trans t).post.map Arc.place).Nodup
  cons_nodup : ∀ p, (B.place p).consumers.Nodup
  prod_nodup : ∀ p, (B.place p).producers.Nodup
  cons_iff : ∀ p t, t ∈ (B.place p).consumers ↔ p ∈ (B.trans t).pre.map Arc.place
  prod_iff : ∀ p t, t ∈ (B.place p).producers ↔ p ∈ (B.trans t).post.map Arc.place
  arc_place : ∀ t, ∀ a ∈ (B.trans t).pre ++ (B.trans t).post, a.place < B.places.length
  arc_pos : ∀ t, ∀ a ∈ (B.trans t).pre ++ (B.trans t).post, 0 < a.weight
  arc_lt : ∀ t, ∀ a ∈ (B.trans t).pre ++ (B.trans t).post, a.weight < W32
  pre_spec : ∀ i j t p, B.tnames[i]? = some t → B.pnames[j]? = some p →
    lookPre (B.trans i).pre j = specPre ops t p
  inh_spec : ∀ i j t p, B.tnames[i]? = some t → B.pnames[j]? = some p →
    lookInh (B.trans i).pre j = specInh ops t p
  post_spec : ∀ i j t p, B.tnames[i]? = some t → B.pnames[j]? = some p →
    lookPost (B.trans i).post j = specPost ops t p
  init_spec : ∀ j p, B.pnames[j]? = some p → B.init.getD j 0 = specInit ops p
  fresh_p : ∀ p, p ∉ B.pnames → (∀ t, specPre ops t p = 0 ∧ specInh ops t p = none ∧ specPost ops t p = 0)
    ∧ specInit ops p = 0
  fresh_t : ∀ t, t ∉ B.tnames → ∀ p, specPre ops t p = 0 ∧ specInh ops t p = none ∧ specPost ops t p = 0

theorem specPre_snoc (ops o t p) : specPre (ops ++ [o]) t p = specPre ops t p +
    (match o with
    | .input p' t' false k => if p' = p ∧ t' = t then k else 0
    | _ => 0) := by
  unfold specPre
  rw [List.map_append, List.sum_append]
  cases o <;> simp <;> rfl

theorem specPost_snoc (ops o t p) : specPost (ops ++ [o]) t p = specPost ops t p +
    (match o with
    | .output t' p' k => if p' = p ∧ t' = t then k else 0
    | _ => 0) := by
  unfold specPost
  rw [List.map_append, List.sum_append]
  cases o <;> simp <;> rfl

theorem specInh_snoc (ops o t p) : specInh (ops ++ [o]) t p =
    (match o with
    | .input p' t' true k => if p' = p ∧ t' = t then
        (match specInh ops t p with | some j => some (min j k) | none => some k) else specInh ops t p
    | _ => specInh ops t p) := by
  unfold specInh
  rw [List.foldl_append]
  rfl

theorem specInit_snoc (ops o p) : specInit (ops ++ [o]) p =
    (match o with
    | .place p' k => if p' = p then k else specInit ops p
    | _ => specInit ops p) := by
  unfold specInit
  rw [List.foldl_append]
  rfl

theorem Sane.prefix {ops : List Op} {o : Op} (h : Sane (ops ++ [o])) : Sane ops := by
  obtain ⟨h1, h2, h3, h4⟩ := h
  refine ⟨fun p t i k hm => h1 p t i k (by simp [hm]), fun t p k hm => h2 t p k (by simp [hm]),
    fun t p => ?_, fun t p => ?_⟩
  · have := h3 t p; rw [specPre_snoc] at this; omega
  · have := h4 t p; rw [specPost_snoc] at this; omega

theorem run_snoc (ops : List Op) (o : Op) : run (ops ++ [o]) = (run ops).bind (·.apply o) := by
  unfold run; rw [List.foldl_append]; rfl

theorem idxOf?_some' {l : List String} {s : String} {i : Nat} (h : l.idxOf? s = some i) :
    l[i]? = some s := by
  rw [List.idxOf?] at h
  rw [List.findIdx?_eq_some_iff_getElem] at h
  obtain ⟨h1, h2, _⟩ := h
  rw [List.getElem?_eq_getElem h1]
  simpa using h2

theorem idxOf?_none' {l : List String} {s : String} (h : l.idxOf? s = none) : s ∉ l := by
  rw [List.idxOf?_eq_none_iff] at h
  exact h

theorem getElem?_inj_of_nodup {α} {l : List α} (hn : l.Nodup) {i j : Nat} {x : α}
    (hi : l[i]? = some x) (hj : l[j]? = some x) : i = j := by
  have h1 : i < l.length := by
    by_contra hc
    rw [List.getElem?_eq_none (by omega)] at hi; simp at hi
  exact (List.getElem?_inj h1 hn).1 (by rw [hi, hj])

/-- Adding a name-fresh place. -/
theorem OpInv.addFresh {B : Builder} {ops : List Op} (h : OpInv B ops) {name : String} (k : Nat)
    (hf : name ∉ B.pnames) :
    OpInv { B with pnames := B.pnames ++ [name], places := B.places ++ [{}], init := B.init ++ [k] }
      (ops ++ [.place name k]) := by
  have hplace : ∀ p, Builder.place { B with pnames := B.pnames ++ [name], places := B.places ++ [{}], init := B.init ++ [k] } p = B.place p := by
    intro p
    simp only [Builder.place, List.getD_eq_getElem?_getD]
    by_cases hp : p < B.places.length
    · rw [List.getElem?_append_left hp]
    · rw [List.getElem?_append_right (by omega), List.getElem?_eq_none (l := B.places) (by omega)]
      by_cases he : p = B.places.length
      · subst he; simp; rfl
      · rw [List.getElem?_eq_none (by simp; omega)]
  have htrans : ∀ t, Builder.trans { B with pnames := B.pnames ++ [name], places := B.places ++ [{}], init := B.init ++ [k] } t = B.trans t := fun t => rfl
  have hsp : ∀ t p, specPre (ops ++ [.place name k]) t p = specPre ops t p := fun t p => by
    rw [specPre_snoc]; rfl
  have hso : ∀ t p, specPost (ops ++ [.place name k]) t p = specPost ops t p := fun t p => by
    rw [specPost_snoc]; rfl
  have hsi : ∀ t p, specInh (ops ++ [.place name k]) t p = specInh ops t p := fun t p => by
    rw [specInh_snoc]
  have hfr := h.fresh_p name hf
  -- arcs never mention the new index
  have habs : ∀ i, B.places.length ∉ (B.trans i).pre.map Arc.place ∧
      B.places.length ∉ (B.trans i).post.map Arc.place := by
    intro i
    constructor
    · intro hc
      obtain ⟨a, ha, hp⟩ := List.mem_map.1 hc
      have := h.arc_place i a (by simp [ha]); omega
    · intro hc
      obtain ⟨a, ha, hp⟩ := List.mem_map.1 hc
      have := h.arc_place i a (by simp [ha]); omega
  constructor
  · rw [List.nodup_append]
    refine ⟨h.pn, by simp, ?_⟩
    intro a ha b hb
    simp at hb; subst hb
    rintro rfl; exact hf ha
  · exact h.tn
  · simp [h.plen]
  · exact h.tlen
  · simp [h.ilen]
  · intro p; rw [hplace]; exact h.noskipP p
  · intro t; rw [htrans]; exact h.noskipT t
  · intro t; rw [htrans]; exact h.pre_nodup t
  · intro t; rw [htrans]; exact h.post_nodup t
  · intro p; rw [hplace]; exact h.cons_nodup p
  · intro p; rw [hplace]; exact h.prod_nodup p
  · intro p t; rw [hplace, htrans]; exact h.cons_iff p t
  · intro p t; rw [hplace, htrans]; exact h.prod_iff p t
  · intro t a ha
    rw [htrans] at ha
    have := h.arc_place t a ha
    simp; omega
  · intro t a ha; rw [htrans] at ha; exact h.arc_pos t a ha
  · intro t a ha; rw [htrans] at ha; exact h.arc_lt t a ha
  · intro i j t p hi hj
    rw [htrans, hsp]
    rcases (snoc_getElem? _ _ _ _).1 hj with hj | ⟨rfl, rfl⟩
    · exact h.pre_spec i j t p hi hj
    · rw [(hfr.1 t).1, h.plen]; exact (look_absent (habs i).1).1
  · intro i j t p hi hj
    rw [htrans, hsi]
    rcases (snoc_getElem? _ _ _ _).1 hj with hj | ⟨rfl, rfl⟩
    · exact h.inh_spec i j t p hi hj
    · rw [(hfr.1 t).2.1, h.plen]; exact (look_absent (habs i).1).2.1
  · intro i j t p hi hj
    rw [htrans, hso]
    rcases (snoc_getElem? _ _ _ _).1 hj with hj | ⟨rfl, rfl⟩
    · exact h.post_spec i j t p hi hj
    · rw [(hfr.1 t).2.2, h.plen]; exact (look_absent (habs i).2).2.2
  · intro j p hj
    rw [specInit_snoc]
    simp only
    rcases (snoc_getElem? _ _ _ _).1 hj with hj | ⟨rfl, rfl⟩
    · have hne : name ≠ p := by rintro rfl; exact hf (getElem?_mem' hj)
      rw [if_neg hne, ← h.init_spec j p hj]
      have : j < B.init.length := by
        rw [h.ilen, ← h.plen]
        by_contra hc
        rw [List.getElem?_eq_none (by omega)] at hj; simp at hj
      simp only [List.getD_eq_getElem?_getD, List.getElem?_append_left this]
    · have : B.pnames.length = B.init.length := by rw [h.plen, h.ilen]
      simp [this]
  · intro p hp
    simp only [List.mem_append, List.mem_singleton, not_or] at hp
    refine ⟨fun t => ?_, ?_⟩
    · rw [hsp, hsi, hso]; exact (h.fresh_p p hp.1).1 t
    · rw [specInit_snoc]
      simp only
      rw [if_neg (fun e => hp.2 e.symm)]; exact (h.fresh_p p hp.1).2
  · intro t ht p
    rw [hsp, hsi, hso]
    exact h.fresh_t t ht p

theorem OpInv.congr {B : Builder} {ops ops' : List Op} (h : OpInv B ops)
    (h1 : ∀ t p, specPre ops' t p = specPre ops t p) (h2 : ∀ t p, specInh ops' t p = specInh ops t p)
    (h3 : ∀ t p, specPost ops' t p = specPost ops t p) (h4 : ∀ p, specInit ops' p = specInit ops p) :
    OpInv B ops' := by
  refine ⟨h.pn, h.tn, h.plen, h.tlen, h.ilen, h.noskipP, h.noskipT, h.pre_nodup, h.post_nodup,
    h.cons_nodup, h.prod_nodup, h.cons_iff, h.prod_iff, h.arc_place, h.arc_pos, h.arc_lt, ?_, ?_, ?_, ?_, ?_, ?_⟩
  · intro i j t p hi hj; rw [h1]; exact h.pre_spec i j t p hi hj
  · intro i j t p hi hj; rw [h2]; exact h.inh_spec i j t p hi hj
  · intro i j t p hi hj; rw [h3]; exact h.post_spec i j t p hi hj
  · intro j p hj; rw [h4]; exact h.init_spec j p hj
  · intro p hp
    refine ⟨fun t => ?_, ?_⟩
    · rw [h1, h2, h3]; exact (h.fresh_p p hp).1 t
    · rw [h4]; exact (h.fresh_p p hp).2
  · intro t ht p; rw [h1, h2, h3]; exact h.fresh_t t ht p

theorem OpInv.place {B : Builder} {ops : List Op} (h : OpInv B ops) (name : String) (k : Nat) :
    OpInv (B.addPlace name k) (ops ++ [.place name k]) := by
  unfold addPlace
  cases hix : B.pnames.idxOf? name with
  | none => exact h.addFresh k (idxOf?_none' hix)
  | some i =>
    have hi := idxOf?_some' hix
    have hil : i < B.init.length := by
      rw [h.ilen, ← h.plen]
      by_contra hc
      rw [List.getElem?_eq_none (by omega)] at hi; simp at hi
    simp only
    refine ⟨h.pn, h.tn, h.plen, h.tlen, by simp [h.ilen], h.noskipP, h.noskipT, h.pre_nodup, h.post_nodup,
      h.cons_nodup, h.prod_nodup, h.cons_iff, h.prod_iff, h.arc_place, h.arc_pos, h.arc_lt, ?_, ?_, ?_, ?_, ?_, ?_⟩
    · intro i j t p hi hj; rw [specPre_snoc]; exact h.pre_spec i j t p hi hj
    · intro i j t p hi hj; rw [specInh_snoc]; exact h.inh_spec i j t p hi hj
    · intro i j t p hi hj; rw [specPost_snoc]; exact h.post_spec i j t p hi hj
    · intro j p hj
      rw [specInit_snoc]
      simp only [List.getD_eq_getElem?_getD, List.getElem?_set]
      by_cases he : i = j
      · subst he
        rw [hi] at hj
        simp at hj
        simp [hj, hil]
      · have : name ≠ p := by
          rintro rfl; exact he (getElem?_inj_of_nodup h.pn hi hj)
        rw [if_neg he, if_neg this, ← h.init_spec j p hj, List.getD_eq_getElem?_getD]
    · intro p hp
      refine ⟨fun t => ?_, ?_⟩
      · rw [specPre_snoc, specInh_snoc, specPost_snoc]; exact (h.fresh_p p hp).1 t
      · rw [specInit_snoc]
        have : name ≠ p := by rintro rfl; exact hp (getElem?_mem' hi)
        simp only [this, if_false]; exact (h.fresh_p p hp).2
    · intro t ht p; rw [specPre_snoc, specInh_snoc, specPost_snoc]; exact h.fresh_t t ht p

/-- The implicit declaration done by the arc functions. -/
theorem OpInv.ensure {B : Builder} {ops : List Op} (h : OpInv B ops) (name : String) :
    OpInv (if name ∈ B.pnames then B else B.addPlace name 0) ops := by
  split
  · exact h
  · rename_i hf
    refine (h.place name 0).congr ?_ ?_ ?_ ?_
    · intro t p; rw [specPre_snoc]; rfl
    · intro t p; rw [specInh_snoc]
    · intro t p; rw [specPost_snoc]; rfl
    · intro p; rw [specInit_snoc]
      simp only
      split
      · rename_i e; subst e; exact (h.fresh_p name hf).2
      · rfl

theorem ensure_spec {B : Builder} {ops : List Op} (_h : OpInv B ops) (name : String) :
    (if name ∈ B.pnames then B else B.addPlace name 0).tnames = B.tnames ∧
    name ∈ (if name ∈ B.pnames then B else B.addPlace name 0).pnames := by
  split
  · exact ⟨rfl, by assumption⟩
  · rename_i hf
    unfold addPlace
    cases hix : B.pnames.idxOf? name with
    | none => simp
    | some i => exact absurd (getElem?_mem' (idxOf?_some' hix)) hf

theorem OpInv.transition {B : Builder} {ops : List Op} (h : OpInv B ops) (name : String) (pl : Int) :
    OpInv (B.addTransition name pl) (ops ++ [.trans name pl]) := by
  have hsp : ∀ t p, specPre (ops ++ [.trans name pl]) t p = specPre ops t p := fun t p => by
    rw [specPre_snoc]; rfl
  have hso : ∀ t p, specPost (ops ++ [.trans name pl]) t p = specPost ops t p := fun t p => by
    rw [specPost_snoc]; rfl
  have hsi : ∀ t p, specInh (ops ++ [.trans name pl]) t p = specInh ops t p := fun t p => by
    rw [specInh_snoc]
  have hst : ∀ p, specInit (ops ++ [.trans name pl]) p = specInit ops p := fun p => by
    rw [specInit_snoc]
  unfold addTransition
  cases hix : B.tnames.idxOf? name with
  | some i => exact h.congr hsp hsi hso hst
  | none =>
    have hf := idxOf?_none' hix
    refine OpInv.congr (ops := ops) ?_ hsp hsi hso hst
    simp only
    generalize hB' : ({ B with tnames := B.tnames ++ [name], transitions := B.transitions ++ [{ player := pl }] } : Builder) = B'
    have htr : ∀ t, (B'.trans t).pre = (B.trans t).pre ∧ (B'.trans t).post = (B.trans t).post ∧
        (B'.trans t).skip = (B.trans t).skip := by
      intro t
      subst hB'
      simp only [Builder.trans, List.getD_eq_getElem?_getD]
      by_cases ht : t < B.transitions.length
      · rw [List.getElem?_append_left ht]; simp
      · rw [List.getElem?_append_right (by omega), List.getElem?_eq_none (l := B.transitions) (by omega)]
        by_cases he : t = B.transitions.length
        · subst he; simp; exact ⟨rfl, rfl, rfl⟩
        · rw [List.getElem?_eq_none (by simp; omega)]; simp
    have hpl : ∀ p, B'.place p = B.place p := fun p => by subst hB'; rfl
    have e1 : B'.pnames = B.pnames := by subst hB'; rfl
    have e2 : B'.tnames = B.tnames ++ [name] := by subst hB'; rfl
    have e3 : B'.places = B.places := by subst hB'; rfl
    have e4 : B'.init = B.init := by subst hB'; rfl
    have e5 : B'.transitions.length = B.transitions.length + 1 := by subst hB'; simp
    have hnew : (B.trans B.tnames.length).pre = [] ∧ (B.trans B.tnames.length).post = [] := by
      rw [trans_of_ge B (by rw [h.tlen])]; exact ⟨rfl, rfl⟩
    have hfr := h.fresh_t name hf
    refine ⟨by rw [e1]; exact h.pn, ?_, by rw [e1, e3]; exact h.plen, by rw [e2, e5]; simp [h.tlen],
      by rw [e4, e3]; exact h.ilen, fun p => by rw [hpl]; exact h.noskipP p,
      fun t => by rw [(htr t).2.2]; exact h.noskipT t, fun t => by rw [(htr t).1]; exact h.pre_nodup t,
      fun t => by rw [(htr t).2.1]; exact h.post_nodup t, fun p => by rw [hpl]; exact h.cons_nodup p,
      fun p => by rw [hpl]; exact h.prod_nodup p, fun p t => by rw [hpl, (htr t).1]; exact h.cons_iff p t,
      fun p t => by rw [hpl, (htr t).2.1]; exact h.prod_iff p t,
      fun t a ha => by rw [(htr t).1, (htr t).2.1] at ha; rw [e3]; exact h.arc_place t a ha,
      fun t a ha => by rw [(htr t).1, (htr t).2.1] at ha; exact h.arc_pos t a ha,
      fun t a ha => by rw [(htr t).1, (htr t).2.1] at ha; exact h.arc_lt t a ha, ?_, ?_, ?_, ?_, ?_, ?_⟩
    · rw [e2, List.nodup_append]
      refine ⟨h.tn, by simp, ?_⟩
      intro a ha b hb
      simp at hb; subst hb
      rintro rfl; exact hf ha
    · intro i j t p hi hj
      rw [e2] at hi; rw [e1] at hj; rw [(htr i).1]
      rcases (snoc_getElem? _ _ _ _).1 hi with hi | ⟨rfl, rfl⟩
      · exact h.pre_spec i j t p hi hj
      · rw [hnew.1, (hfr p).1]; rfl
    · intro i j t p hi hj
      rw [e2] at hi; rw [e1] at hj; rw [(htr i).1]
      rcases (snoc_getElem? _ _ _ _).1 hi with hi | ⟨rfl, rfl⟩
      · exact h.inh_spec i j t p hi hj
      · rw [hnew.1, (hfr p).2.1]; rfl
    · intro i j t p hi hj
      rw [e2] at hi; rw [e1] at hj; rw [(htr i).2.1]
      rcases (snoc_getElem? _ _ _ _).1 hi with hi | ⟨rfl, rfl⟩
      · exact h.post_spec i j t p hi hj
      · rw [hnew.2, (hfr p).2.2]; rfl
    · intro j p hj; rw [e1] at hj; rw [e4]; exact h.init_spec j p hj
    · intro p hp; rw [e1] at hp; exact h.fresh_p p hp
    · intro t ht
      rw [e2] at ht
      simp only [List.mem_append, List.mem_singleton, not_or] at ht
      exact h.fresh_t t ht.1

theorem getD_set {α} (l : List α) (i j : Nat) (x d : α) (hi : i < l.length) :
    (l.set i x).getD j d = if j = i then x else l.getD j d := by
  simp only [List.getD_eq_getElem?_getD, List.getElem?_set]
  by_cases h : i = j
  · subst h; simp [hi]
  · rw [if_neg h, if_neg (fun e => h e.symm)]

theorem lookPre_snoc {l : List Arc} (a : Arc) (h : a.place ∉ l.map Arc.place) (q : Nat) :
    lookPre (l ++ [a]) q = if a.place = q ∧ a.inhib = false then a.weight else lookPre l q := by
  induction l with
  | nil => rw [List.nil_append, lookPre_cons]
  | cons b l ih =>
    simp only [List.map_cons, List.mem_cons, not_or] at h
    rw [List.cons_append, lookPre_cons, lookPre_cons, ih h.2]
    by_cases hb : b.place = q ∧ b.inhib = false
    · have : ¬ a.place = q := fun e => h.1 (by rw [e, hb.1])
      simp [hb, this]
    · simp only [hb, if_false]

theorem lookInh_snoc {l : List Arc} (a : Arc) (h : a.place ∉ l.map Arc.place) (q : Nat) :
    lookInh (l ++ [a]) q = if a.place = q ∧ a.inhib = true then some a.weight else lookInh l q := by
  induction l with
  | nil => rw [List.nil_append, lookInh_cons]
  | cons b l ih =>
    simp only [List.map_cons, List.mem_cons, not_or] at h
    rw [List.cons_append, lookInh_cons, lookInh_cons, ih h.2]
    by_cases hb : b.place = q ∧ b.inhib = true
    · have : ¬ a.place = q := fun e => h.1 (by rw [e, hb.1])
      simp [hb, this]
    · simp only [hb, if_false]

theorem lookPost_snoc {l : List Arc} (a : Arc) (h : a.place ∉ l.map Arc.place) (q : Nat) :
    lookPost (l ++ [a]) q = if a.place = q then a.weight else lookPost l q := by
  induction l with
  | nil => rw [List.nil_append, lookPost_cons]
  | cons b l ih =>
    simp only [List.map_cons, List.mem_cons, not_or] at h
    rw [List.cons_append, lookPost_cons, lookPost_cons, ih h.2]
    by_cases hb : b.place = q
    · have : ¬ a.place = q := fun e => h.1 (by rw [e, hb])
      simp [hb, this]
    · simp only [hb, if_false]

/-- Generic update of one transition's arcs and one place's lists. -/
theorem OpInv.update {B B' : Builder} {ops : List Op} {o : Op} (h : OpInv B ops)
    {t0 p0 : Nat} {tname pname : String}
    (ht0 : B.tnames[t0]? = some tname) (hp0 : B.pnames[p0]? = some pname)
    (e1 : B'.pnames = B.pnames) (e2 : B'.tnames = B.tnames)
    (e3 : B'.places.length = B.places.length) (e4 : B'.init = B.init)
    (e5 : B'.transitions.length = B.transitions.length)
    (htr : ∀ t, t ≠ t0 → B'.trans t = B.trans t) (hpl : ∀ p, p ≠ p0 → B'.place p = B.place p)
    (hskT : (B'.trans t0).skip = false) (hskP : (B'.place p0).skip = false)
    (hpre : ((B'.trans t0).pre.map Arc.place).Nodup) (hpost : ((B'.trans t0).post.map Arc.place).Nodup)
    (hpreM : ∀ q, q ∈ (B'.trans t0).pre.map Arc.place ↔ (q ∈ (B.trans t0).pre.map Arc.place ∨
      (q = p0 ∧ t0 ∈ (B'.place p0).consumers)))
    (hpostM : ∀ q, q ∈ (B'.trans t0).post.map Arc.place ↔ (q ∈ (B.trans t0).post.map Arc.place ∨
      (q = p0 ∧ t0 ∈ (B'.place p0).producers)))
    (hcn : (B'.place p0).consumers.Nodup) (hpn : (B'.place p0).producers.Nodup)
    (hcM : ∀ u, u ≠ t0 → (u ∈ (B'.place p0).consumers ↔ u ∈ (B.place p0).consumers))
    (hpM : ∀ u, u ≠ t0 → (u ∈ (B'.place p0).producers ↔ u ∈ (B.place p0).producers))
    (hcsub : t0 ∈ (B.place p0).consumers → t0 ∈ (B'.place p0).consumers)
    (hpsub : t0 ∈ (B.place p0).producers → t0 ∈ (B'.place p0).producers)
    (hw : ∀ a ∈ (B'.trans t0).pre ++ (B'.trans t0).post, 0 < a.weight ∧ a.weight < W32)
    (hs1 : ∀ t p, (t, p) ≠ (tname, pname) → specPre (ops ++ [o]) t p = specPre ops t p)
    (hs2 : ∀ t p, (t, p) ≠ (tname, pname) → specInh (ops ++ [o]) t p = specInh ops t p)
    (hs3 : ∀ t p, (t, p) ≠ (tname, pname) → specPost (ops ++ [o]) t p = specPost ops t p)
    (hs4 : ∀ p, specInit (ops ++ [o]) p = specInit ops p)
    (hl1 : ∀ q, q ≠ p0 → lookPre (B'.trans t0).pre q = lookPre (B.trans t0).pre q)
    (hl2 : ∀ q, q ≠ p0 → lookInh (B'.trans t0).pre q = lookInh (B.trans t0).pre q)
    (hl3 : ∀ q, q ≠ p0 → lookPost (B'.trans t0).post q = lookPost (B.trans t0).post q)
    (hm1 : lookPre (B'.trans t0).pre p0 = specPre (ops ++ [o]) tname pname)
    (hm2 : lookInh (B'.trans t0).pre p0 = specInh (ops ++ [o]) tname pname)
    (hm3 : lookPost (B'.trans t0).post p0 = specPost (ops ++ [o]) tname pname) :
    OpInv B' (ops ++ [o]) := by
  have hp0l : p0 < B.places.length := by
    rw [← h.plen]
    by_contra hc
    rw [List.getElem?_eq_none (by omega)] at hp0; simp at hp0
  have hpair : ∀ i j t p, B.tnames[i]? = some t → B.pnames[j]? = some p → (i ≠ t0 ∨ j ≠ p0) →
      (t, p) ≠ (tname, pname) := by
    intro i j t p hi hj hne he
    simp only [Prod.mk.injEq] at he
    obtain ⟨rfl, rfl⟩ := he
    rcases hne with hne | hne
    · exact hne (getElem?_inj_of_nodup h.tn hi ht0)
    · exact hne (getElem?_inj_of_nodup h.pn hj hp0)
  refine ⟨by rw [e1]; exact h.pn, by rw [e2]; exact h.tn, by rw [e1, e3]; exact h.plen,
    by rw [e2, e5]; exact h.tlen, by rw [e4, e3]; exact h.ilen, ?_, ?_, ?_, ?_, ?_, ?_, ?_, ?_, ?_, ?_, ?_,
    ?_, ?_, ?_, ?_, ?_, ?_⟩
  · intro p
    by_cases hp : p = p0
    · subst hp; exact hskP
    · rw [hpl p hp]; exact h.noskipP p
  · intro t
    by_cases ht : t = t0
    · subst ht; exact hskT
    · rw [htr t ht]; exact h.noskipT t
  · intro t
    by_cases ht : t = t0
    · subst ht; exact hpre
    · rw [htr t ht]; exact h.pre_nodup t
  · intro t
    by_cases ht : t = t0
    · subst ht; exact hpost
    · rw [htr t ht]; exact h.post_nodup t
  · intro p
    by_cases hp : p = p0
    · subst hp; exact hcn
    · rw [hpl p hp]; exact h.cons_nodup p
  · intro p
    by_cases hp : p = p0
    · subst hp; exact hpn
    · rw [hpl p hp]; exact h.prod_nodup p
  · intro p t
    by_cases ht : t = t0
    · subst ht
      rw [hpreM]
      by_cases hp : p = p0
      · subst hp
        constructor
        · intro hh; exact .inr ⟨rfl, hh⟩
        · rintro (hh | hh)
          · exact hcsub ((h.cons_iff p t).2 hh)
          · exact hh.2
      · rw [hpl p hp, h.cons_iff]; simp [hp]
    · rw [htr t ht]
      by_cases hp : p = p0
      · subst hp; rw [hcM t ht]; exact h.cons_iff p t
      · rw [hpl p hp]; exact h.cons_iff p t
  · intro p t
    by_cases ht : t = t0
    · subst ht
      rw [hpostM]
      by_cases hp : p = p0
      · subst hp
        constructor
        · intro hh; exact .inr ⟨rfl, hh⟩
        · rintro (hh | hh)
          · exact hpsub ((h.prod_iff p t).2 hh)
          · exact hh.2
      · rw [hpl p hp, h.prod_iff]; simp [hp]
    · rw [htr t ht]
      by_cases hp : p = p0
      · subst hp; rw [hpM t ht]; exact h.prod_iff p t
      · rw [hpl p hp]; exact h.prod_iff p t
  · intro t a ha
    rw [e3]
    by_cases ht : t = t0
    · subst ht
      rcases List.mem_append.1 ha with ha | ha
      · rcases (hpreM a.place).1 (List.mem_map_of_mem ha) with hh | ⟨hh, _⟩
        · obtain ⟨b, hb, hbe⟩ := List.mem_map.1 hh
          rw [← hbe]; exact h.arc_place t b (by simp [hb])
        · rw [hh]; exact hp0l
      · rcases (hpostM a.place).1 (List.mem_map_of_mem ha) with hh | ⟨hh, _⟩
        · obtain ⟨b, hb, hbe⟩ := List.mem_map.1 hh
          rw [← hbe]; exact h.arc_place t b (by simp [hb])
        · rw [hh]; exact hp0l
    · rw [htr t ht] at ha; exact h.arc_place t a ha
  · intro t a ha
    by_cases ht : t = t0
    · subst ht; exact (hw a ha).1
    · rw [htr t ht] at ha; exact h.arc_pos t a ha
  · intro t a ha
    by_cases ht : t = t0
    · subst ht; exact (hw a ha).2
    · rw [htr t ht] at ha; exact h.arc_lt t a ha
  · intro i j t p hi hj
    rw [e2] at hi; rw [e1] at hj
    by_cases hi0 : i = t0
    · subst hi0
      by_cases hj0 : j = p0
      · subst hj0
        rw [ht0] at hi; rw [hp0] at hj
        simp at hi hj; subst hi; subst hj; exact hm1
      · rw [hl1 j hj0, hs1 t p (hpair i j t p hi hj (.inr hj0))]; exact h.pre_spec i j t p hi hj
    · rw [htr i hi0, hs1 t p (hpair i j t p hi hj (.inl hi0))]; exact h.pre_spec i j t p hi hj
  · intro i j t p hi hj
    rw [e2] at hi; rw [e1] at hj
    by_cases hi0 : i = t0
    · subst hi0
      by_cases hj0 : j = p0
      · subst hj0
        rw [ht0] at hi; rw [hp0] at hj
        simp at hi hj; subst hi; subst hj; exact hm2
      · rw [hl2 j hj0, hs2 t p (hpair i j t p hi hj (.inr hj0))]; exact h.inh_spec i j t p hi hj
    · rw [htr i hi0, hs2 t p (hpair i j t p hi hj (.inl hi0))]; exact h.inh_spec i j t p hi hj
  · intro i j t p hi hj
    rw [e2] at hi; rw [e1] at hj
    by_cases hi0 : i = t0
    · subst hi0
      by_cases hj0 : j = p0
      · subst hj0
        rw [ht0] at hi; rw [hp0] at hj
        simp at hi hj; subst hi; subst hj; exact hm3
      · rw [hl3 j hj0, hs3 t p (hpair i j t p hi hj (.inr hj0))]; exact h.post_spec i j t p hi hj
    · rw [htr i hi0, hs3 t p (hpair i j t p hi hj (.inl hi0))]; exact h.post_spec i j t p hi hj
  · intro j p hj; rw [e1] at hj; rw [e4, hs4]; exact h.init_spec j p hj
  · intro p hp
    rw [e1] at hp
    refine ⟨fun t => ?_, by rw [hs4]; exact (h.fresh_p p hp).2⟩
    have : (t, p) ≠ (tname, pname) := by
      intro he; simp only [Prod.mk.injEq] at he
      exact hp (he.2 ▸ getElem?_mem' hp0)
    rw [hs1 t p this, hs2 t p this, hs3 t p this]; exact (h.fresh_p p hp).1 t
  · intro t ht p
    rw [e2] at ht
    have : (t, p) ≠ (tname, pname) := by
      intro he; simp only [Prod.mk.injEq] at he
      exact ht (he.1 ▸ getElem?_mem' ht0)
    rw [hs1 t p this, hs2 t p this, hs3 t p this]; exact h.fresh_t t ht p

theorem look_none_of_kind {l : List Arc} {p : Nat} {inh : Bool}
    (h : ∀ a ∈ l, a.place = p → a.inhib = inh) :
    (inh = true → lookPre l p = 0) ∧ (inh = false → lookInh l p = none) := by
  constructor
  · rintro rfl
    unfold lookPre
    have : l.find? (fun a => a.place == p && !a.inhib) = none := by
      rw [List.find?_eq_none]; intro a ha hc
      simp at hc
      have := h a ha hc.1
      simp [hc.2] at this
    rw [this]
  · rintro rfl
    unfold lookInh
    have : l.find? (fun a => a.place == p && a.inhib) = none := by
      rw [List.find?_eq_none]; intro a ha hc
      simp at hc
      have := h a ha hc.1
      simp [hc.2] at this
    rw [this]

theorem OpInv.input {B B' : Builder} {ops : List Op} (h : OpInv B ops) {pname tname : String}
    {inh : Bool} {k : Nat} (hs : Sane (ops ++ [.input pname tname inh k]))
    (hB : B.addInputArc pname tname inh k = some B') :
    OpInv B' (ops ++ [.input pname tname inh k]) := by
  unfold addInputArc at hB
  cases hix : B.tnames.idxOf? tname with
  | none => simp [hix] at hB
  | some t0 =>
    simp only [hix] at hB
    have h1 := h.ensure pname
    obtain ⟨ht1, hmem⟩ := ensure_spec h pname
    generalize (if pname ∈ B.pnames then B else B.addPlace pname 0) = B1 at *
    have ht0 : B1.tnames[t0]? = some tname := by rw [ht1]; exact idxOf?_some' hix
    generalize hp0 : B1.pnames.idxOf pname = p0 at *
    have hp0e : B1.pnames[p0]? = some pname := by
      have hlt : B1.pnames.idxOf pname < B1.pnames.length := List.idxOf_lt_length_iff.2 hmem
      subst hp0
      rw [List.getElem?_eq_getElem hlt]
      simp
    have htl : t0 < B1.transitions.length := by
      rw [← h1.tlen]
      by_contra hc
      rw [List.getElem?_eq_none (by omega)] at ht0; simp at ht0
    have hpl : p0 < B1.places.length := by
      rw [← h1.plen]
      by_contra hc
      rw [List.getElem?_eq_none (by omega)] at hp0e; simp at hp0e
    have hk := hs.1 pname tname inh k (by simp)
    have hsum := hs.2.2.1 tname pname
    have spre : ∀ t p, (t, p) ≠ (tname, pname) →
        specPre (ops ++ [.input pname tname inh k]) t p = specPre ops t p := by
      intro t p hne
      rw [specPre_snoc]
      have : ¬ (pname = p ∧ tname = t) := fun e => hne (by rw [e.1, e.2])
      cases inh <;> simp [this]
    have sinh : ∀ t p, (t, p) ≠ (tname, pname) →
        specInh (ops ++ [.input pname tname inh k]) t p = specInh ops t p := by
      intro t p hne
      rw [specInh_snoc]
      have : ¬ (pname = p ∧ tname = t) := fun e => hne (by rw [e.1, e.2])
      cases inh <;> simp [this]
    have spost : ∀ t p, specPost (ops ++ [.input pname tname inh k]) t p = specPost ops t p := by
      intro t p; rw [specPost_snoc]; rfl
    have sinit : ∀ p, specInit (ops ++ [.input pname tname inh k]) p = specInit ops p := by
      intro p; rw [specInit_snoc]
    have pspec := h1.pre_spec t0 p0 tname pname ht0 hp0e
    have ispec := h1.inh_spec t0 p0 tname pname ht0 hp0e
    have ospec := h1.post_spec t0 p0 tname pname ht0 hp0e
    cases hm : mergePre p0 inh k (B1.trans t0).pre with
    | none => simp [hm] at hB
    | some r =>
      cases r with
      | none =>
        simp only [hm, Option.some.injEq] at hB
        have habs := mergePre_none hm
        have hla := look_absent habs
        have hnotc : t0 ∉ (B1.place p0).consumers := fun hc => habs ((h1.cons_iff p0 t0).1 hc)
        have hT : ∀ t, B'.trans t = if t = t0 then { B1.trans t0 with pre := (B1.trans t0).pre ++ [⟨p0, k, inh⟩] } else B1.trans t := by
          intro t; subst hB; exact getD_set _ _ _ _ _ htl
        have hP : ∀ p, B'.place p = if p = p0 then { B1.place p0 with consumers := (B1.place p0).consumers ++ [t0] } else B1.place p := by
          intro p; subst hB; exact getD_set _ _ _ _ _ hpl
        have hT0 := hT t0
        have hP0 := hP p0
        simp only [if_true] at hT0 hP0
        refine h1.update ht0 hp0e (by subst hB; rfl) (by subst hB; rfl) (by subst hB; simp)
          (by subst hB; rfl) (by subst hB; simp) (fun t ht => by rw [hT, if_neg ht])
          (fun p hp => by rw [hP, if_neg hp]) (by rw [hT0]; exact h1.noskipT t0)
          (by rw [hP0]; exact h1.noskipP p0) ?_ (by rw [hT0]; exact h1.post_nodup t0) ?_ ?_ ?_
          (by rw [hP0]; exact h1.prod_nodup p0) ?_ ?_ ?_ ?_ ?_ spre sinh (fun t p _ => spost t p)
          sinit ?_ ?_ ?_ ?_ ?_ ?_
        · rw [hT0]
          simp only [List.map_append, List.map_singleton]
          rw [List.nodup_append]
          refine ⟨h1.pre_nodup t0, by simp, ?_⟩
          intro a ha b hb
          simp at hb; subst hb
          rintro rfl; exact habs ha
        · intro q
          rw [hT0, hP0]
          simp
        · intro q
          rw [hT0, hP0]
          simp only
          constructor
          · exact .inl
          · rintro (hh | ⟨rfl, hh⟩)
            · exact hh
            · exact (h1.prod_iff q t0).1 hh
        · rw [hP0]
          simp only
          rw [List.nodup_append]
          refine ⟨h1.cons_nodup p0, by simp, ?_⟩
          intro a ha b hb
          simp at hb; subst hb
          rintro rfl; exact hnotc ha
        · intro u hu; rw [hP0]; simp [hu]
        · intro u hu; rw [hP0]
        · intro _; rw [hP0]; simp
        · intro hh; rw [hP0]; exact hh
        · intro a ha
          rw [hT0] at ha
          simp only [List.mem_append, List.mem_singleton] at ha
          rcases ha with (ha | rfl) | ha
          · exact ⟨h1.arc_pos t0 a (by simp [ha]), h1.arc_lt t0 a (by simp [ha])⟩
          · exact hk
          · exact ⟨h1.arc_pos t0 a (by simp [ha]), h1.arc_lt t0 a (by simp [ha])⟩
        · intro q hq; rw [hT0]; simp only
          rw [lookPre_snoc _ (by simpa using habs)]; simp [Ne.symm hq]
        · intro q hq; rw [hT0]; simp only
          rw [lookInh_snoc _ (by simpa using habs)]; simp [Ne.symm hq]
        · intro q hq; rw [hT0]
        · rw [hT0]; simp only
          rw [lookPre_snoc _ (by simpa using habs), specPre_snoc, ← pspec, hla.1]
          cases inh <;> simp
        · rw [hT0]; simp only
          rw [lookInh_snoc _ (by simpa using habs), specInh_snoc, ← ispec, hla.2.1]
          cases inh <;> simp
        · rw [hT0, spost]; exact ospec
      | some pre' =>
        simp only [hm, Option.some.injEq] at hB
        obtain ⟨m1, m2, m3, m4, m5⟩ := mergePre_some (h1.pre_nodup t0) hm
        have mk := mergePre_kind (h1.pre_nodup t0) hm
        have hkind := look_none_of_kind mk
        have hc : t0 ∈ (B1.place p0).consumers := (h1.cons_iff p0 t0).2 m2
        have hT : ∀ t, B'.trans t = if t = t0 then { B1.trans t0 with pre := pre' } else B1.trans t := by
          intro t; subst hB; exact getD_set _ _ _ _ _ htl
        have hP : ∀ p, B'.place p = B1.place p := by intro p; subst hB; rfl
        have hT0 := hT t0
        simp only [if_true] at hT0
        refine h1.update ht0 hp0e (by subst hB; rfl) (by subst hB; rfl) (by subst hB; simp)
          (by subst hB; rfl) (by subst hB; simp) (fun t ht => by rw [hT, if_neg ht])
          (fun p _ => hP p) (by rw [hT0]; exact h1.noskipT t0)
          (by rw [hP]; exact h1.noskipP p0) ?_ (by rw [hT0]; exact h1.post_nodup t0) ?_ ?_
          (by rw [hP]; exact h1.cons_nodup p0)
          (by rw [hP]; exact h1.prod_nodup p0) (fun u _ => by rw [hP]) (fun u _ => by rw [hP])
          (fun hh => by rw [hP]; exact hh) (fun hh => by rw [hP]; exact hh) ?_ spre sinh
          (fun t p _ => spost t p) sinit ?_ ?_ ?_ ?_ ?_ ?_
        · rw [hT0]; simp only; rw [m1]; exact h1.pre_nodup t0
        · intro q
          rw [hT0, hP]
          simp only
          rw [m1]
          constructor
          · exact .inl
          · rintro (hh | ⟨rfl, _⟩)
            · exact hh
            · exact m2
        · intro q
          rw [hT0, hP]
          simp only
          constructor
          · exact .inl
          · rintro (hh | ⟨rfl, hh⟩)
            · exact hh
            · exact (h1.prod_iff q t0).1 hh
        · intro a ha
          rw [hT0] at ha
          simp only [List.mem_append] at ha
          rcases ha with ha | ha
          · rcases m5 a ha with hh | ⟨b, hb, hbp, hbw⟩
            · exact ⟨h1.arc_pos t0 a (by simp [hh]), h1.arc_lt t0 a (by simp [hh])⟩
            · have hbpos := h1.arc_pos t0 b (by simp [hb])
              have hblt := h1.arc_lt t0 b (by simp [hb])
              rw [hbw]
              cases inh with
              | true => simp only [if_true]; omega
              | false =>
                simp only [Bool.false_eq_true, if_false]
                have hbk := lookPre_mem (h1.pre_nodup t0) hb (mk b hb hbp)
                rw [hbp, pspec] at hbk
                rw [specPre_snoc] at hsum
                simp at hsum
                rw [Nat.mod_eq_of_lt (by omega)]; omega
          · exact ⟨h1.arc_pos t0 a (by simp [ha]), h1.arc_lt t0 a (by simp [ha])⟩
        · intro q hq; rw [hT0]; simp only; rw [m3]; simp [hq]
        · intro q hq; rw [hT0]; simp only; rw [m4]; simp [hq]
        · intro q hq; rw [hT0]
        · rw [hT0]; simp only; rw [m3, specPre_snoc, ← pspec]
          rw [specPre_snoc, ← pspec] at hsum
          cases inh with
          | true => simp
          | false =>
            simp at hsum ⊢
            exact Nat.mod_eq_of_lt hsum
        · rw [hT0]; simp only; rw [m4, specInh_snoc, ← ispec]
          cases inh <;> simp
        · rw [hT0, spost]; exact ospec

theorem OpInv.output {B B' : Builder} {ops : List Op} (h : OpInv B ops) {pname tname : String}
    {k : Nat} (hs : Sane (ops ++ [.output tname pname k]))
    (hB : B.addOutputArc tname pname k = some B') :
    OpInv B' (ops ++ [.output tname pname k]) := by
  unfold addOutputArc at hB
  cases hix : B.tnames.idxOf? tname with
  | none => simp [hix] at hB
  | some t0 =>
    simp only [hix] at hB
    have h1 := h.ensure pname
    obtain ⟨ht1, hmem⟩ := ensure_spec h pname
    generalize (if pname ∈ B.pnames then B else B.addPlace pname 0) = B1 at *
    have ht0 : B1.tnames[t0]? = some tname := by rw [ht1]; exact idxOf?_some' hix
    generalize hp0 : B1.pnames.idxOf pname = p0 at *
    have hp0e : B1.pnames[p0]? = some pname := by
      have hlt : B1.pnames.idxOf pname < B1.pnames.length := List.idxOf_lt_length_iff.2 hmem
      subst hp0
      rw [List.getElem?_eq_getElem hlt]
      simp
    have htl : t0 < B1.transitions.length := by
      rw [← h1.tlen]
      by_contra hc
      rw [List.getElem?_eq_none (by omega)] at ht0; simp at ht0
    have hpl : p0 < B1.places.length := by
      rw [← h1.plen]
      by_contra hc
      rw [List.getElem?_eq_none (by omega)] at hp0e; simp at hp0e
    have hk := hs.2.1 tname pname k (by simp)
    have hsum := hs.2.2.2 tname pname
    have spost : ∀ t p, (t, p) ≠ (tname, pname) →
        specPost (ops ++ [.output tname pname k]) t p = specPost ops t p := by
      intro t p hne
      rw [specPost_snoc]
      have : ¬ (pname = p ∧ tname = t) := fun e => hne (by rw [e.1, e.2])
      simp [this]
    have sinh : ∀ t p, specInh (ops ++ [.output tname pname k]) t p = specInh ops t p := by
      intro t p; rw [specInh_snoc]
    have spre : ∀ t p, specPre (ops ++ [.output tname pname k]) t p = specPre ops t p := by
      intro t p; rw [specPre_snoc]; rfl
    have sinit : ∀ p, specInit (ops ++ [.output tname pname k]) p = specInit ops p := by
      intro p; rw [specInit_snoc]
    have pspec := h1.pre_spec t0 p0 tname pname ht0 hp0e
    have ispec := h1.inh_spec t0 p0 tname pname ht0 hp0e
    have ospec := h1.post_spec t0 p0 tname pname ht0 hp0e
    cases hm : mergePost p0 k (B1.trans t0).post with
    | none =>
      simp only [hm, Option.some.injEq] at hB
      have habs := mergePost_none hm
      have hla := look_absent habs
      have hnotc : t0 ∉ (B1.place p0).producers := fun hc => habs ((h1.prod_iff p0 t0).1 hc)
      have hT : ∀ t, B'.trans t = if t = t0 then { B1.trans t0 with post := (B1.trans t0).post ++ [⟨p0, k, false⟩] } else B1.trans t := by
        intro t; subst hB; exact getD_set _ _ _ _ _ htl
      have hP : ∀ p, B'.place p = if p = p0 then { B1.place p0 with producers := (B1.place p0).producers ++ [t0] } else B1.place p := by
        intro p; subst hB; exact getD_set _ _ _ _ _ hpl
      have hT0 := hT t0
      have hP0 := hP p0
      simp only [if_true] at hT0 hP0
      refine h1.update ht0 hp0e (by subst hB; rfl) (by subst hB; rfl) (by subst hB; simp)
        (by subst hB; rfl) (by subst hB; simp) (fun t ht => by rw [hT, if_neg ht])
        (fun p hp => by rw [hP, if_neg hp]) (by rw [hT0]; exact h1.noskipT t0)
        (by rw [hP0]; exact h1.noskipP p0) (by rw [hT0]; exact h1.pre_nodup t0) ?_ ?_ ?_
        (by rw [hP0]; exact h1.cons_nodup p0) ?_ ?_ ?_ ?_ ?_ ?_ (fun t p _ => spre t p)
        (fun t p _ => sinh t p) spost sinit ?_ ?_ ?_ ?_ ?_ ?_
      · rw [hT0]
        simp only [List.map_append, List.map_singleton]
        rw [List.nodup_append]
        refine ⟨h1.post_nodup t0, by simp, ?_⟩
        intro a ha b hb
        simp at hb; subst hb
        rintro rfl; exact habs ha
      · intro q
        rw [hT0, hP0]
        simp only
        constructor
        · exact .inl
        · rintro (hh | ⟨rfl, hh⟩)
          · exact hh
          · exact (h1.cons_iff q t0).1 hh
      · intro q
        rw [hT0, hP0]
        simp
      · rw [hP0]
        simp only
        rw [List.nodup_append]
        refine ⟨h1.prod_nodup p0, by simp, ?_⟩
        intro a ha b hb
        simp at hb; subst hb
        rintro rfl; exact hnotc ha
      · intro u hu; rw [hP0]
      · intro u hu; rw [hP0]; simp [hu]
      · intro hh; rw [hP0]; exact hh
      · intro _; rw [hP0]; simp
      · intro a ha
        rw [hT0] at ha
        simp only [List.mem_append, List.mem_singleton] at ha
        rcases ha with ha | (ha | rfl)
        · exact ⟨h1.arc_pos t0 a (by simp [ha]), h1.arc_lt t0 a (by simp [ha])⟩
        · exact ⟨h1.arc_pos t0 a (by simp [ha]), h1.arc_lt t0 a (by simp [ha])⟩
        · exact hk
      · intro q hq; rw [hT0]
      · intro q hq; rw [hT0]
      · intro q hq; rw [hT0]; simp only
        rw [lookPost_snoc _ (by simpa using habs)]; simp [Ne.symm hq]
      · rw [hT0, spre]; exact pspec
      · rw [hT0, sinh]; exact ispec
      · rw [hT0]; simp only
        rw [lookPost_snoc _ (by simpa using habs), specPost_snoc, ← ospec, hla.2.2]
        simp
    | some post' =>
      simp only [hm, Option.some.injEq] at hB
      obtain ⟨m1, m2, m3, m5⟩ := mergePost_some (h1.post_nodup t0) hm
      have hT : ∀ t, B'.trans t = if t = t0 then { B1.trans t0 with post := post' } else B1.trans t := by
        intro t; subst hB; exact getD_set _ _ _ _ _ htl
      have hP : ∀ p, B'.place p = B1.place p := by intro p; subst hB; rfl
      have hT0 := hT t0
      simp only [if_true] at hT0
      refine h1.update ht0 hp0e (by subst hB; rfl) (by subst hB; rfl) (by subst hB; simp)
        (by subst hB; rfl) (by subst hB; simp) (fun t ht => by rw [hT, if_neg ht])
        (fun p _ => hP p) (by rw [hT0]; exact h1.noskipT t0)
        (by rw [hP]; exact h1.noskipP p0) (by rw [hT0]; exact h1.pre_nodup t0) ?_ ?_ ?_
        (by rw [hP]; exact h1.cons_nodup p0)
        (by rw [hP]; exact h1.prod_nodup p0) (fun u _ => by rw [hP]) (fun u _ => by rw [hP])
        (fun hh => by rw [hP]; exact hh) (fun hh => by rw [hP]; exact hh) ?_ (fun t p _ => spre t p)
        (fun t p _ => sinh t p) spost sinit ?_ ?_ ?_ ?_ ?_ ?_
      · rw [hT0]; simp only; rw [m1]; exact h1.post_nodup t0
      · intro q
        rw [hT0, hP]
        simp only
        constructor
        · exact .inl
        · rintro (hh | ⟨rfl, hh⟩)
          · exact hh
          · exact (h1.cons_iff q t0).1 hh
      · intro q
        rw [hT0, hP]
        simp only
        rw [m1]
        constructor
        · exact .inl
        · rintro (hh | ⟨rfl, _⟩)
          · exact hh
          · exact m2
      · intro a ha
        rw [hT0] at ha
        simp only [List.mem_append] at ha
        rcases ha with ha | ha
        · exact ⟨h1.arc_pos t0 a (by simp [ha]), h1.arc_lt t0 a (by simp [ha])⟩
        · rcases m5 a ha with hh | ⟨b, hb, hbp, hbw⟩
          · exact ⟨h1.arc_pos t0 a (by simp [hh]), h1.arc_lt t0 a (by simp [hh])⟩
          · have hbpos := h1.arc_pos t0 b (by simp [hb])
            rw [hbw]
            have hbk := lookPost_mem (h1.post_nodup t0) hb
            rw [hbp, ospec] at hbk
            rw [specPost_snoc] at hsum
            simp at hsum
            rw [Nat.mod_eq_of_lt (by omega)]; omega
      · intro q hq; rw [hT0]
      · intro q hq; rw [hT0]
      · intro q hq; rw [hT0]; simp only; rw [m3]; simp [hq]
      · rw [hT0, spre]; exact pspec
      · rw [hT0, sinh]; exact ispec
      · rw [hT0]; simp only; rw [m3, specPost_snoc, ← ospec]
        rw [specPost_snoc, ← ospec] at hsum
        simp at hsum ⊢
        exact Nat.mod_eq_of_lt hsum

theorem run_inv : ∀ (ops : List Op) (B : Builder), Sane ops → run ops = some B → OpInv B ops := by
  intro ops
  induction ops using List.reverseRecOn with
  | nil =>
    intro B _ h
    simp [run] at h
    subst h
    have d1 : (default : BTrans).pre = [] := rfl
    have d2 : (default : BTrans).post = [] := rfl
    have d3 : (default : BPlace).consumers = [] := rfl
    have d4 : (default : BPlace).producers = [] := rfl
    have d5 : (default : BPlace).skip = false := rfl
    have d6 : (default : BTrans).skip = false := rfl
    refine ⟨by simp, by simp, rfl, rfl, rfl, ?_, ?_, ?_, ?_, ?_, ?_, ?_, ?_, ?_, ?_, ?_, ?_, ?_, ?_, ?_, ?_, ?_⟩ <;>
      simp [Builder.place, Builder.trans, specPre, specInh, specPost, specInit, d1, d2, d3, d4, d5, d6]
  | append_singleton ops o ih =>
    intro B hs h
    rw [run_snoc] at h
    cases hr : run ops with
    | none => simp [hr] at h
    | some B0 =>
      have h0 := ih B0 hs.prefix hr
      rw [hr] at h
      simp only [Option.bind_some] at h
      cases o with
      | place n k => simp [apply] at h; subst h; exact h0.place n k
      | trans n pl => simp [apply] at h; subst h; exact h0.transition n pl
      | input p t i k => exact h0.input hs h
      | output t p k => exact h0.output hs h

theorem addPlace_names (B : Builder) (n : String) (k : Nat) :
    (B.addPlace n k).tnames = B.tnames ∧ ∀ x, x ∈ (B.addPlace n k).pnames ↔ (x ∈ B.pnames ∨ x = n) := by
  unfold addPlace
  cases hix : B.pnames.idxOf? n with
  | none => simp
  | some i =>
    have := getElem?_mem' (idxOf?_some' hix)
    refine ⟨rfl, fun x => ⟨.inl, ?_⟩⟩
    rintro (h | rfl)
    · exact h
    · exact this

theorem apply_names {B B' : Builder} {o : Op} (h : B.apply o = some B') :
    (∀ x, x ∈ B'.pnames ↔ (x ∈ B.pnames ∨ o.placeName = some x)) ∧
    (∀ x, x ∈ B'.tnames ↔ (x ∈ B.tnames ∨ o.transName = some x)) := by
  have ens : ∀ n, (if n ∈ B.pnames then B else B.addPlace n 0).tnames = B.tnames ∧
      ∀ x, x ∈ (if n ∈ B.pnames then B else B.addPlace n 0).pnames ↔ (x ∈ B.pnames ∨ x = n) := by
    intro n
    split
    · rename_i hm
      refine ⟨rfl, fun x => ⟨.inl, ?_⟩⟩
      rintro (h | rfl)
      · exact h
      · exact hm
    · exact addPlace_names B n 0
  cases o with
  | place n k =>
    simp [apply] at h; subst h
    have := addPlace_names B n k
    exact ⟨fun x => by rw [this.2]; simp [Op.placeName, eq_comm], fun x => by rw [this.1]; simp [Op.transName]⟩
  | trans n pl =>
    simp [apply] at h; subst h
    unfold addTransition
    cases hix : B.tnames.idxOf? n with
    | none => simp [Op.placeName, Op.transName, eq_comm]
    | some i =>
      have := getElem?_mem' (idxOf?_some' hix)
      refine ⟨fun x => by simp [Op.placeName], fun x => ⟨.inl, ?_⟩⟩
      simp only [Op.transName, Option.some.injEq]
      rintro (h | rfl)
      · exact h
      · exact this
  | input p t i k =>
    simp only [apply, addInputArc] at h
    obtain ⟨e1, e2⟩ := ens p
    generalize (if p ∈ B.pnames then B else B.addPlace p 0) = B1 at *
    split at h
    · simp at h
    · split at h
      · simp at h
      · simp at h; subst h
        exact ⟨fun x => by simp only [e2, Op.placeName, Option.some.injEq, eq_comm], fun x => by simp [e1, Op.transName]⟩
      · simp at h; subst h
        exact ⟨fun x => by simp only [e2, Op.placeName, Option.some.injEq, eq_comm], fun x => by simp [e1, Op.transName]⟩
  | output t p k =>
    simp only [apply, addOutputArc] at h
    obtain ⟨e1, e2⟩ := ens p
    generalize (if p ∈ B.pnames then B else B.addPlace p 0) = B1 at *
    split at h
    · simp at h
    · split at h
      · simp at h; subst h
        exact ⟨fun x => by simp only [e2, Op.placeName, Option.some.injEq, eq_comm], fun x => by simp [e1, Op.transName]⟩
      · simp at h; subst h
        exact ⟨fun x => by simp only [e2, Op.placeName, Option.some.injEq, eq_comm], fun x => by simp [e1, Op.transName]⟩

theorem run_names : ∀ (ops : List Op) (B : Builder), run ops = some B →
    (∀ x, x ∈ B.pnames ↔ ∃ o ∈ ops, o.placeName = some x) ∧
    (∀ x, x ∈ B.tnames ↔ ∃ o ∈ ops, o.transName = some x) := by
  intro ops
  induction ops using List.reverseRecOn with
  | nil => intro B h; simp [run] at h; subst h; simp
  | append_singleton ops o ih =>
    intro B h
    rw [run_snoc] at h
    cases hr : run ops with
    | none => simp [hr] at h
    | some B0 =>
      rw [hr] at h
      simp only [Option.bind_some] at h
      have := apply_names h
      have ih := ih B0 hr
      constructor
      · intro x; rw [this.1, ih.1]; simp [or_and_right, exists_or]
      · intro x; rw [this.2, ih.2]; simp [or_and_right, exists_or]

theorem OpInv.wf {B : Builder} {ops : List Op} (h : OpInv B ops)
    (hsize : B.transitions.length < W32 - 1) : B.WF where
  pre_nodup := h.pre_nodup
  post_nodup := h.post_nodup
  cons_nodup := h.cons_nodup
  prod_nodup := h.prod_nodup
  cons_iff := h.cons_iff
  prod_iff := h.prod_iff
  arc_place t a ha := ⟨h.arc_place t a ha, h.noskipP _⟩
  arc_weight t a ha := ⟨h.arc_pos t a ha, h.arc_lt t a ha⟩
  skip_empty t ht := by rw [h.noskipT] at ht; simp at ht
  size := hsize
  init_len := h.ilen

end Builder
end Verif
