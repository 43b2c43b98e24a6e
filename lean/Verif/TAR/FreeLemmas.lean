import Verif.TAR.CheckLemmas
import Verif.TAR.RangeEvalLemmas

/-! # The interpolants computed forwards from a suffix of the trace -/

namespace Verif
namespace TAR
open PRVec Solver TraceSet PQL

/-- Lower bounds only, on places of the query. -/
structure LB (S : Solver) (v : PRVec) : Prop where
  good : Good S.net.nplaces v
  upper : ∀ p, (rng v p).upper = rmax
  lower : ∀ p, (rng v p).lower ≤ rmax
  inq : ∀ p, S.inq p = false → (rng v p).lower = 0

/-- The lower bounds after a transition. -/
def Lnk (N : FlatNet) (P : PRVec) (s : Nat) (v : PRVec) : Prop :=
  1 ≤ s ∧ s ≤ N.ntransitions ∧ ∀ p, (rng v p).lower ≤ (rng P p).lower - pre N (s - 1) p + post N (s - 1) p

/-- The predicates so far, the last first. -/
def FCh (S : Solver) : PRVec → Inter → Prop
  | v, [] => LB S v
  | v, (P, s) :: rest => LB S v ∧ Lnk S.net P s v ∧ FCh S P rest

variable {S : Solver} {G : (Nat → Nat) → Prop}

theorem FCh.lb {v : PRVec} {l : Inter} (h : FCh S v l) : LB S v := by
  cases l with
  | nil => exact h
  | cons x l => exact h.1

theorem lb_nil : LB S [] := ⟨good_nil _, fun _ => rfl, fun _ => Nat.zero_le _, fun _ _ => rfl⟩

theorem lb_compact {v : PRVec} (h : LB S v) : LB S v.compact :=
  ⟨good_compact h.good, fun p => by rw [rng_compact h.good.sorted]; exact h.upper p,
    fun p => by rw [rng_compact h.good.sorted]; exact h.lower p,
    fun p hp => by rw [rng_compact h.good.sorted]; exact h.inq p hp⟩

/-- Changing a lower bound. -/
theorem lb_update {v : PRVec} (h : LB S v) {p : Nat} (hp : p < S.net.nplaces) (hq : S.inq p = true) {f : Range → Range}
    (hu : (f (rng v p)).upper = (rng v p).upper) (hl : (f (rng v p)).lower ≤ rmax) : LB S (v.update p f) := by
  have hr := fun q => rng_update h.good.sorted p q f
  refine ⟨good_update h.good hp (by rw [hu]; exact rng_le h.good p), fun q => ?_, fun q => ?_, fun q hn => ?_⟩
  · rw [hr]; split
    · rw [hu]; exact h.upper p
    · exact h.upper q
  · rw [hr]; split
    · exact hl
    · exact h.lower q
  · rw [hr, if_neg (by rintro rfl; rw [hq] at hn; cases hn)]
    exact h.inq q hn

theorem sat_lb {v : PRVec} (h : LB S v) {m : Nat → Nat} : SatI v m ↔ ∀ p, (rng v p).lower ≤ m p := by
  constructor
  · intro hm p; exact (hm p).1
  · intro hm p; exact ⟨hm p, Or.inl (h.upper p)⟩

theorem lnk_edge {P v x : PRVec} {s : Nat} (hP : LB S P) (hv : LB S v) (h : Lnk S.net P s v) (hx : ∀ m, SatI v m → SatI x m) :
    EdgeOK S.net G P s x := by
  obtain ⟨h1, _, h3⟩ := h
  obtain ⟨t, rfl⟩ : ∃ t, s = t + 1 := ⟨s - 1, by omega⟩
  intro m m' hm hf _
  refine hx m' ((sat_lb hv).2 fun p => ?_)
  obtain ⟨_, h4, rfl⟩ := hf
  have h5 := (sat_lb hP).1 hm p
  have h6 := h3 p
  have h7 := h4 p
  simp only [Nat.add_sub_cancel] at h6
  show (rng v p).lower ≤ m p - pre S.net t p + post S.net t p
  omega

/-- The predicates computed forwards, in front of a chain. -/
theorem chain_fch : ∀ (l : Inter) (v x : PRVec) (s : Nat) (acc : Inter), FCh S v l →
    (∀ m, SatI v m → SatI x m) → Chain S.net G ((x, s) :: acc) → Chain S.net G (l.reverse ++ (x, s) :: acc) := by
  intro l
  induction l with
  | nil => intro v x s acc _ _ h; exact h
  | cons y l ih =>
    intro v x s acc hf hx h
    obtain ⟨P, sp⟩ := y
    obtain ⟨h1, h2, h3⟩ := hf
    rw [List.reverse_cons, List.append_assoc]
    exact ih P P sp ((x, s) :: acc) h3 (fun m hm => hm) ⟨h3.lb.good, lnk_edge h3.lb h1 h2 hx, h⟩

/-! ## Going forwards -/

theorem rng_freeAt {v : PRVec} (hs : Sorted v) (p q : Nat) :
    rng (freeAt p v) q = if q = p then { rng v p with lower := 0 } else rng v q := by
  unfold freeAt
  cases hf : v.find? p with
  | none =>
    simp only [Option.isSome_none, Bool.false_eq_true, if_false]
    by_cases h : q = p
    · subst h; rw [if_pos rfl]; unfold rng; rw [hf]; rfl
    · rw [if_neg h]
  | some r =>
    simp only [Option.isSome_some, if_true]
    rw [rng_compact (update_sorted hs _ _), rng_update hs]

theorem lb_freeAt {v : PRVec} (h : LB S v) (p : Nat) : LB S (freeAt p v) := by
  have hr := fun q => rng_freeAt h.good.sorted p q
  refine ⟨?_, fun q => ?_, fun q => ?_, fun q hn => ?_⟩
  · unfold freeAt
    cases hf : v.find? p with
    | none => exact h.good
    | some r =>
      simp only [Option.isSome_some, if_true]
      have hpn : p < S.net.nplaces := h.good.lt _ ((find?_some_iff h.good.sorted).1 hf)
      exact good_compact (good_update h.good hpn (rng_le h.good p))
  · rw [hr]; split
    · exact h.upper p
    · exact h.upper q
  · rw [hr]; split
    · exact Nat.zero_le _
    · exact h.lower q
  · rw [hr]; split
    · rfl
    · exact h.inq q hn

theorem lnk_freeAt {P v : PRVec} {s : Nat} (hP : LB S P) (hv : LB S v) (h : Lnk S.net P s v) (q : Nat) :
    Lnk S.net (freeAt q P) s (freeAt q v) := by
  refine ⟨h.1, h.2.1, fun p => ?_⟩
  rw [rng_freeAt hP.good.sorted, rng_freeAt hv.good.sorted]
  by_cases hp : p = q
  · rw [if_pos hp]; exact Nat.zero_le _
  · rw [if_neg hp, if_neg hp]; exact h.2.2 p

theorem fch_freeAt (q : Nat) : ∀ (l : Inter) (v : PRVec), FCh S v l → FCh S (freeAt q v) (l.map fun x => (freeAt q x.1, x.2)) := by
  intro l
  induction l with
  | nil => intro v h; exact lb_freeAt h q
  | cons y l ih =>
    intro v h
    obtain ⟨P, s⟩ := y
    obtain ⟨h1, h2, h3⟩ := h
    exact ⟨lb_freeAt h1 q, lnk_freeAt h3.lb h1 h2 q, ih P h3⟩

theorem freePre_spec {t : Nat} {sy : Nat} (hpl : ∀ a ∈ S.net.preset t, a.place < S.net.nplaces) :
    ∀ (l : List Invariant) (v P : PRVec) (rest : Inter), (∀ a ∈ l, a ∈ S.net.preset t) → LB S v → FCh S P rest →
    (∀ p, (rng v p).lower - arcSum l p ≤ (rng P p).lower - pre S.net t p) →
    ∃ v' P' rest', freePre S l v ((P, sy) :: rest) = (v', (P', sy) :: rest') ∧ LB S v' ∧ FCh S P' rest' ∧
      (∀ p, (rng v' p).lower ≤ (rng P' p).lower - pre S.net t p) ∧ rest'.map (·.2) = rest.map (·.2) := by
  intro l
  induction l with
  | nil =>
    intro v P rest _ h1 h2 h3
    refine ⟨v, P, rest, rfl, h1, h2, fun p => ?_, rfl⟩
    have := h3 p
    rw [arcSum_nil] at this
    exact this
  | cons i l ih =>
    intro v P rest hsub h1 h2 h3
    have hi := hpl i (hsub i (by simp))
    have hsub' : ∀ a ∈ l, a ∈ S.net.preset t := fun a ha => hsub a (by simp [ha])
    have hskip : (rng v i.place).lower = 0 → ∀ p, (rng v p).lower - arcSum l p ≤ (rng P p).lower - pre S.net t p := by
      intro h0 p
      by_cases hp : p = i.place
      · subst hp; rw [h0]; omega
      · have := h3 p; rw [arcSum_cons_ne hp] at this; exact this
    simp only [freePre]
    cases hq : S.inq i.place with
    | false =>
      simp only [Bool.false_eq_true, if_false]
      exact ih v P rest hsub' h1 h2 (hskip (h1.inq _ hq))
    | true =>
      simp only [if_true]
      cases hf : v.find? i.place with
      | none =>
        simp only
        exact ih v P rest hsub' h1 h2 (hskip (by unfold rng; rw [hf]; rfl))
      | some r =>
        simp only
        have hr : rng v i.place = r := rng_of_find hf
        by_cases hle : r.lower ≤ i.tokens
        · rw [if_pos hle]
          obtain ⟨v', P', rest', e1, e2, e3, e4, e5⟩ := ih (freeAt i.place v) (freeAt i.place P)
            (rest.map fun x => (freeAt i.place x.1, x.2)) hsub' (lb_freeAt h1 _) (fch_freeAt _ rest P h2) (by
              intro p
              rw [rng_freeAt h1.good.sorted, rng_freeAt h2.lb.good.sorted]
              by_cases hp : p = i.place
              · rw [if_pos hp, if_pos hp]; simp
              · rw [if_neg hp, if_neg hp]
                have := h3 p; rw [arcSum_cons_ne hp] at this; exact this)
          refine ⟨v', P', rest', e1, e2, e3, e4, ?_⟩
          rw [e5, List.map_map]; rfl
        · rw [if_neg hle]
          have hl := h1.lower i.place
          refine ih _ P rest hsub' (lb_update h1 hi hq rfl (by rw [hr] at hl ⊢; simp only; omega)) h2 ?_
          intro p
          rw [rng_update h1.good.sorted]
          by_cases hp : p = i.place
          · rw [if_pos hp]
            have := h3 p
            rw [hp] at this ⊢
            rw [arcSum_cons, if_pos rfl] at this
            simp only
            omega
          · rw [if_neg hp]
            have := h3 p; rw [arcSum_cons_ne hp] at this; exact this

theorem freePost_spec {X : Nat → Nat} : ∀ (l : List Invariant) (v w : PRVec), (∀ a ∈ l, a.place < S.net.nplaces) → LB S v →
    (∀ p, (rng v p).lower + arcSum l p ≤ X p) → freePost S l v = .ok w → LB S w ∧ ∀ p, (rng w p).lower ≤ X p := by
  intro l
  induction l with
  | nil =>
    intro v w _ h hX hr
    simp only [freePost, Except.ok.injEq] at hr; subst hr
    exact ⟨h, fun p => by have := hX p; rw [arcSum_nil] at this; exact this⟩
  | cons i l ih =>
    intro v w hl h hX hr
    simp only [freePost] at hr
    have hl' : ∀ a ∈ l, a.place < S.net.nplaces := fun a ha => hl a (by simp [ha])
    cases hq : S.inq i.place with
    | false =>
      rw [hq] at hr
      simp only [Bool.false_eq_true, if_false] at hr
      refine ih v w hl' h (fun p => ?_) hr
      have := hX p
      rw [arcSum_cons] at this
      omega
    | true =>
      rw [hq] at hr
      simp only [if_true] at hr
      split at hr
      · cases hr
      · rename_i hov
        rw [lower_eq] at hov
        refine ih _ w hl' (lb_update h (hl i (by simp)) hq rfl (by simp only; omega)) (fun p => ?_) hr
        rw [rng_update h.good.sorted]
        have := hX p
        by_cases hp : p = i.place
        · rw [if_pos hp]
          rw [hp] at this ⊢
          rw [arcSum_cons, if_pos rfl] at this
          simp only
          omega
        · rw [if_neg hp]; rw [arcSum_cons_ne hp] at this; exact this

theorem freeFirst_spec {X : Nat → Nat} : ∀ (l : List Invariant) (v : PRVec), (∀ a ∈ l, a.place < S.net.nplaces ∧ a.tokens ≤ rmax ∧ a.tokens ≤ X a.place) →
    LB S v → (∀ p, (rng v p).lower ≤ X p) → LB S (freeFirst S l v) ∧ ∀ p, (rng (freeFirst S l v) p).lower ≤ X p := by
  intro l
  induction l with
  | nil => intro v _ h hX; exact ⟨h, hX⟩
  | cons i l ih =>
    intro v hl h hX
    simp only [freeFirst]
    have hl' : ∀ a ∈ l, a.place < S.net.nplaces ∧ a.tokens ≤ rmax ∧ a.tokens ≤ X a.place := fun a ha => hl a (by simp [ha])
    cases hq : S.inq i.place with
    | false =>
      simp only [Bool.false_eq_true, if_false]
      exact ih v hl' h hX
    | true =>
      simp only [if_true]
      obtain ⟨h1, h2, h3⟩ := hl i (by simp)
      refine ih _ hl' (lb_update h h1 hq rfl h2) (fun p => ?_)
      rw [rng_update h.good.sorted]
      by_cases hp : p = i.place
      · rw [if_pos hp, hp]; exact h3
      · rw [if_neg hp]; exact hX p

/-! ## Back to the start -/

theorem not_finU {v : PRVec} {n : Nat} (g : Good n v) (h : ¬ FinU v) (p : Nat) : (rng v p).upper = rmax := by
  have h1 := rng_le g p
  have h2 : ¬ (rng v p).upper < rmax := fun hlt => h ⟨p, hlt⟩
  omega

theorem flushPost_spec {n : Nat} : ∀ (l : List Invariant) (v : PRVec), (∀ a ∈ l, a.place < n ∧ a.tokens ≤ rmax) → Good n v →
    Good n (flushPost l v) ∧ (FinU v → FinU (flushPost l v)) ∧
      (¬ FinU v → ¬ FinU (flushPost l v) ∧ ∀ p y, (rng (flushPost l v) p).Has y → (rng v p).Has (y + arcSum l p)) := by
  intro l
  induction l with
  | nil => intro v _ g; exact ⟨g, fun h => h, fun h => ⟨h, fun p y hy => hy⟩⟩
  | cons i l ih =>
    intro v hl g
    obtain ⟨hi, ht⟩ := hl i (by simp)
    have hl' : ∀ a ∈ l, a.place < n ∧ a.tokens ≤ rmax := fun a ha => hl a (by simp [ha])
    simp only [flushPost]
    cases hf : v.find? i.place with
    | none =>
      simp only
      obtain ⟨h1, h2, h3⟩ := ih v hl' g
      refine ⟨h1, h2, fun hn => ⟨(h3 hn).1, fun p y hy => ?_⟩⟩
      by_cases hp : p = i.place
      · have : rng v p = {} := by unfold rng; rw [hp, hf]; rfl
        rw [this]; exact has_default _
      · rw [arcSum_cons_ne hp]; exact (h3 hn).2 p y hy
    | some r =>
      simp only
      have hr : rng v i.place = r := rng_of_find hf
      by_cases hlt : r.upper < i.tokens
      · rw [if_pos hlt]
        refine ⟨g, fun h => h, fun hn => ?_⟩
        have := not_finU g hn i.place
        rw [hr] at this
        omega
      · rw [if_neg hlt]
        have hrl := rng_le g i.place
        have hg := good_update g hi (f := fun r => r.sub i.tokens) (sub_upper hrl)
        have hrr := fun q => rng_update g.sorted i.place q (fun r => r.sub i.tokens)
        obtain ⟨h1, h2, h3⟩ := ih _ hl' hg
        have hfin : FinU v ↔ FinU (v.update i.place fun r => r.sub i.tokens) := by
          unfold FinU
          refine exists_congr fun p => ?_
          rw [hrr]
          by_cases hp : p = i.place
          · rw [if_pos hp, hp, hr]
            rw [hr] at hrl
            simp only [Range.sub]
            split
            · omega
            · rfl
          · rw [if_neg hp]
        refine ⟨h1, fun h => h2 (hfin.1 h), fun hn => ?_⟩
        have hn' : ¬ FinU (v.update i.place fun r => r.sub i.tokens) := fun h => hn (hfin.2 h)
        refine ⟨(h3 hn').1, fun p y hy => ?_⟩
        have h4 := (h3 hn').2 p y hy
        rw [hrr] at h4
        by_cases hp : p = i.place
        · rw [if_pos hp] at h4
          have h5 := sub_has hrl (by rw [hr]; exact hlt) h4
          rw [hp] at h5 ⊢
          rw [arcSum_cons, if_pos rfl]
          have he : y + (i.tokens + arcSum l i.place) = y + arcSum l i.place + i.tokens := by omega
          rw [he]; exact h5
        · rw [if_neg hp] at h4; rw [arcSum_cons_ne hp]; exact h4

theorem flushPre_spec {n : Nat} : ∀ (l : List Invariant) (v w : PRVec), (∀ a ∈ l, a.place < n) → Good n v → flushPre l v = .ok w →
    Good n w ∧ (FinU v → FinU w) ∧ ∀ p y, arcSum l p ≤ y → (rng w p).Has y → (rng v p).Has (y - arcSum l p) := by
  intro l
  induction l with
  | nil =>
    intro v w _ g h
    simp only [flushPre, Except.ok.injEq] at h; subst h
    exact ⟨g, fun h => h, fun p y _ hy => hy⟩
  | cons i l ih =>
    intro v w hl g h
    have hi := hl i (by simp)
    have hl' : ∀ a ∈ l, a.place < n := fun a ha => hl a (by simp [ha])
    simp only [flushPre] at h
    cases hf : v.find? i.place with
    | none =>
      rw [hf] at h
      simp only at h
      obtain ⟨h1, h2, h3⟩ := ih v w hl' g h
      refine ⟨h1, h2, fun p y hle hy => ?_⟩
      by_cases hp : p = i.place
      · have : rng v p = {} := by unfold rng; rw [hp, hf]; rfl
        rw [this]; exact has_default _
      · rw [arcSum_cons_ne hp] at hle ⊢; exact h3 p y hle hy
    | some r =>
      rw [hf] at h
      simp only at h
      cases ha : addAt v i.place i.tokens with
      | error e => rw [ha] at h; cases h
      | ok v' =>
        rw [ha] at h
        simp only [bind, Except.bind] at h
        obtain ⟨r', h1, h2, h3⟩ := addAt_spec g hi ha
        obtain ⟨h4, h5, h6⟩ := ih v' w hl' h2 h
        refine ⟨h4, fun hfin => h5 ?_, fun p y hle hy => ?_⟩
        · obtain ⟨p, hp⟩ := hfin
          refine ⟨p, ?_⟩
          rw [h3]
          by_cases hpi : p = i.place
          · rw [if_pos hpi]
            rw [hpi] at hp
            unfold addRange at h1
            split at h1
            · cases h1
            · split at h1
              · cases h1
              · rename_i hx
                cases h1
                simp only [Range.add]
                split <;> omega
          · rw [if_neg hpi]; exact hp
        · by_cases hpi : p = i.place
          · rw [hpi] at hle hy ⊢
            rw [arcSum_cons, if_pos rfl] at hle ⊢
            have h7 := h6 i.place y (by omega) hy
            rw [h3, if_pos rfl] at h7
            have h8 := addRange_has (rng_le g _) h1 (show i.tokens ≤ y - arcSum l i.place by omega) h7
            have he : y - (i.tokens + arcSum l i.place) = y - arcSum l i.place - i.tokens := by omega
            rw [he]; exact h8
          · rw [arcSum_cons_ne hpi] at hle ⊢
            have h7 := h6 p y hle hy
            rw [h3, if_neg hpi] at h7
            exact h7

theorem flush_spec (ok : NetOK S.net) : ∀ (l : Inter) (P next : PRVec) (s : Nat) (acc r : Inter), FCh S P l → Good S.net.nplaces next →
    (FinU next ∨ Chain S.net G ((next, s) :: acc)) → flush S l next ((next, s) :: acc) = .ok r →
    (r.headD ([], 0)).1.isTrue = true → Chain S.net G r := by
  intro l
  induction l with
  | nil =>
    intro P next s acc r _ g hc h hh
    simp only [flush, Except.ok.injEq] at h; subst h
    rcases hc with hc | hc
    · exfalso
      obtain ⟨p, hp⟩ := hc
      have : next = [] := by simpa [PRVec.isTrue] using hh
      rw [this] at hp
      exact absurd hp (Nat.lt_irrefl rmax)
    · exact hc
  | cons x l ih =>
    intro P next s acc r hf g hc h hh
    obtain ⟨P', sym⟩ := x
    obtain ⟨_, hlnk, hf'⟩ := hf
    have ht : sym - 1 < S.net.ntransitions := by have := hlnk.1; have := hlnk.2.1; omega
    obtain ⟨t, rfl⟩ : ∃ t, sym = t + 1 := ⟨sym - 1, by have := hlnk.1; omega⟩
    simp only [Nat.add_sub_cancel] at ht
    simp only [flush, Nat.add_sub_cancel] at h
    obtain ⟨g1, h1, h2⟩ := flushPost_spec (n := S.net.nplaces) (S.net.postset t) next (fun a ha => ⟨(ok.postLt t ht a ha).1, (ok.postLt t ht a ha).2.2⟩) g
    generalize flushPost (S.net.postset t) next = v at *
    cases htr : v.compact.isTrue with
    | true =>
      rw [htr] at h
      simp only [if_true, Except.ok.injEq] at h
      subst h
      have hn : ¬ FinU next := fun hfin => by
        have := finU_not_true g1.sorted (h1 hfin)
        rw [htr] at this; cases this
      rcases hc with hc | hc
      · exact (hn hc).elim
      · refine chain_fch l P' [] (t + 1) _ hf' (fun m _ => satI_nil m) ⟨good_nil _, ?_, hc⟩
        intro m m' _ hfi _ p
        have hs : SatI v m := satI_of_compact_nil g1.sorted htr m
        have h3 := (h2 hn).2 p (m p - pre S.net t p) (by
          have : rng v p = {} := by
            have : v.compact = [] := by simpa [PRVec.isTrue] using htr
            rw [← rng_compact g1.sorted, this]; rfl
          rw [this]; exact has_default _)
        obtain ⟨_, _, rfl⟩ := hfi
        exact h3
    | false =>
      rw [htr] at h
      simp only [Bool.false_eq_true, if_false] at h
      cases hp : flushPre (S.net.preset t) v.compact with
      | error e => rw [hp] at h; cases h
      | ok w =>
        rw [hp] at h
        simp only [bind, Except.bind] at h
        obtain ⟨g2, h3, h4⟩ := flushPre_spec (n := S.net.nplaces) (S.net.preset t) v.compact w (fun a ha => (ok.preLt t ht a ha).1) (good_compact g1) hp
        refine ih P' w (t + 1) _ r hf' g2 ?_ h hh
        by_cases hfin : FinU next
        · left
          refine h3 ?_
          obtain ⟨p, hp⟩ := h1 hfin
          exact ⟨p, by rw [rng_compact g1.sorted]; exact hp⟩
        · right
          rcases hc with hc | hc
          · exact (hfin hc).elim
          · refine ⟨g2, ?_, hc⟩
            intro m m' hm hfi _ p
            obtain ⟨_, h5, rfl⟩ := hfi
            have h6 := h4 p (m p) (h5 p) (hm p)
            rw [rng_compact g1.sorted] at h6
            exact (h2 hfin).2 p _ h6

/-- The goal of a query. -/
def Goal (N : FlatNet) (q : Cond) (m : Nat → Nat) : Prop := goalI (N.deadlocked m) m q = true

theorem freeForward_spec (ok : NetOK S.net) (hq : QOK S.net.nplaces S.query) (hs : reSafe (fun _ => false) S.query = true) (junk : Bool × Int) :
    ∀ (tr : List Nat) (v : PRVec) (prev r : Inter), (∀ e ∈ tr, e ≤ S.net.ntransitions) → FCh S v prev →
    freeForward S junk tr v prev = .ok (some r) → Chain S.net (Goal S.net S.query) r := by
  intro tr
  induction tr with
  | nil => intro v prev r _ _ h; simp only [freeForward, Except.ok.injEq] at h; cases h
  | cons e tr ih =>
    intro v prev r hl hf h
    cases e with
    | zero =>
      simp only [freeForward] at h
      cases hc : ECtx.cond ⟨v, S.uses⟩ S.query ⟨[], junk.1, junk.2, []⟩ with
      | error e => rw [hc] at h; cases h
      | ok x =>
        rw [hc] at h
        simp only [bind, Except.bind] at h
        have hE : ∀ p r, (⟨v, S.uses⟩ : ECtx).ranges.find? p = some r → r.lower ≤ rmax := by
          intro p r hr
          have := hf.lb.lower p
          rw [rng_of_find hr] at this; exact this
        split at h
        · rename_i hres
          simp only [Bool.and_eq_true, Bool.not_eq_true'] at hres
          have hu := ECtx.cond_upd hE S.query _ _ hq (good_nil _) hc
          have hsp := ECtx.cond_spec hE S.net.deadlocked S.query (fun _ => false) _ _ hq hs (good_nil _) (fun _ _ => rfl) hc hres.1
          cases hfl : flush S prev x.suff.compact [(x.suff.compact, 0)] with
          | error e => rw [hfl] at h; cases h
          | ok inter =>
            rw [hfl] at h
            simp only [pure, Except.pure, Except.ok.injEq] at h
            split at h
            · rename_i hh
              obtain rfl := Option.some.inj h
              refine flush_spec ok prev v x.suff.compact 0 [] inter hf (good_compact hu.good) ?_ hfl hh
              rcases hsp with hsp | hsp
              · left
                obtain ⟨p, hp⟩ := hsp
                exact ⟨p, by rw [rng_compact hu.good.sorted]; exact hp⟩
              · right
                refine ⟨good_compact hu.good, fun m hm _ hg => ?_⟩
                have := hsp m ((satI_compact hu.good.sorted).1 hm)
                unfold Goal at hg
                rw [this] at hg; cases hg
            · cases h
        · simp only [pure, Except.pure, Except.ok.injEq] at h; cases h
    | succ t =>
      simp only [freeForward] at h
      have ht : t < S.net.ntransitions := by have := hl (t + 1) (by simp); omega
      obtain ⟨v', P', rest', e1, e2, e3, e4, _⟩ := freePre_spec (S := S) (t := t) (sy := t + 1) (fun a ha => (ok.preLt t ht a ha).1)
        (S.net.preset t) v v prev (fun a ha => ha) hf.lb hf (fun p => Nat.le_refl _)
      rw [e1] at h
      simp only [bind, Except.bind] at h
      cases hp : freePost S (S.net.postset t) v' with
      | error e => rw [hp] at h; cases h
      | ok w =>
        rw [hp] at h
        simp only at h
        obtain ⟨h1, h2⟩ := freePost_spec (S := S) (X := fun p => (rng P' p).lower - pre S.net t p + post S.net t p) (S.net.postset t) v' w
          (fun a ha => (ok.postLt t ht a ha).1) e2 (fun p => by have := e4 p; unfold post; omega) hp
        refine ih w.compact ((P', t + 1) :: rest') r (fun e he => hl e (by simp [he])) ⟨lb_compact h1, ⟨by omega, by omega, fun p => ?_⟩, e3⟩ h
        rw [rng_compact h1.good.sorted, Nat.add_sub_cancel]
        exact h2 p

theorem findFree_spec (ok : NetOK S.net) (hq : QOK S.net.nplaces S.query) (hs : reSafe (fun _ => false) S.query = true)
    (junk : Nat → Bool × Int) (tr : List Nat) (htr : ∀ e ∈ tr, e ≤ S.net.ntransitions) : ∀ (step : Nat) (r : Inter),
    (∀ i, 1 ≤ i → i ≤ step → 1 ≤ tr.getD i 0 ∧ tr.getD i 0 ≤ S.net.ntransitions) → findFree S junk tr step = .ok r →
    r ≠ [] → Chain S.net (Goal S.net S.query) r := by
  intro step
  induction step with
  | zero => intro r _ h hr; simp only [findFree, Except.ok.injEq] at h; exact (hr h.symm).elim
  | succ step ih =>
    intro r hi h hr
    simp only [findFree] at h
    have ih' := ih r (fun i h1 h2 => hi i h1 (by omega))
    have hsym := hi (step + 1) (by omega) (Nat.le_refl _)
    generalize tr.getD (step + 1) 0 = sym at *
    split at h
    · exact ih' h hr
    · have ht : sym - 1 < S.net.ntransitions := by omega
      obtain ⟨h1, h2⟩ := freeFirst_spec (S := S) (X := fun p => post S.net (sym - 1) p) (S.net.postset (sym - 1)) []
        (fun a ha => ⟨(ok.postLt _ ht a ha).1, (ok.postLt _ ht a ha).2.2, by
          unfold post; rw [arcSum_mem (ok.postSorted _ ht) ha]⟩) lb_nil (fun p => Nat.zero_le _)
      cases hff : freeForward S (junk step) (tr.drop (step + 2)) (freeFirst S (S.net.postset (sym - 1)) []).compact [([], sym)] with
      | error e => rw [hff] at h; cases h
      | ok o =>
        rw [hff] at h
        simp only [bind, Except.bind] at h
        cases o with
        | none => exact ih' h hr
        | some inter =>
          simp only [pure, Except.pure, Except.ok.injEq] at h
          subst h
          refine freeForward_spec ok hq hs (junk step) (tr.drop (step + 2)) _ _ inter (fun e he => htr e (List.mem_of_mem_drop he)) ?_ hff
          refine ⟨lb_compact h1, ⟨hsym.1, hsym.2, fun p => ?_⟩, lb_nil⟩
          rw [rng_compact h1.good.sorted]
          have := h2 p
          omega

end TAR
end Verif
