import Verif.XCol.FindLemmas
import Verif.Spec.ColQuery

/-!
# The successors of a state
-/

namespace Verif
namespace XCol
open Colored CPN OffsetsProps

/-- The nets for which the engine is right: see the fields. -/
structure XFit (N : CNet) (X : XNet) : Prop where
  ok : XOK N
  built : build N = some X
  single : Single N
  min : ∀ x ∈ X.trans, ∀ a ∈ x.inputs, a.2.minOK
  cons : ∀ (t : Nat) (x : XTrans), X.trans[t]? = some x → 30 < x.total → ConsOK N t
  few : X.trans.length ≤ 2 ^ 16

theorem XFit.tok {N : CNet} {X : XNet} (w : XFit N X) {t : Nat} {x : XTrans} (h : X.trans[t]? = some x) : TOK N t x :=
  (build_trans w.ok w.built).2 t x h

/-- At the number `K`, or before it, the generator finds the marking. -/
def FindAt (N : CNet) (X : XNet) (m : XMark) (x : XTrans) (K : Nat) (M' : CMark) : Prop :=
  ∀ bid ≤ K, ∀ b cache, CacheOK X m x cache → ∃ k b', (findNext X m x bid b cache).2 = some (k, b') ∧ bid ≤ k ∧ k ≤ K ∧
    (k = K → abs N (fire m x b') = M')

theorem fire_spec_congr {N : CNet} {M : CMark} {t : Nat} {ρ σ : Nat → Val} (h : ∀ v ∈ (N.trans t).vars, ρ v = σ v) :
    N.fire M t ρ = N.fire M t σ := by
  have hi := arcsTokens_congr (N := N) (ρ := ρ) (σ := σ) (N.trans t).inputs fun v hv => h v (mem_ctvars.2 (.inr (.inl hv)))
  have ho := arcsTokens_congr (N := N) (ρ := ρ) (σ := σ) (N.trans t).outputs fun v hv => h v (mem_ctvars.2 (.inr (.inr hv)))
  unfold CNet.fire; rw [hi, ho]

theorem step_findAt {N : CNet} {X : XNet} (w : XFit N X) {m : XMark} (hm : MOK N m) {t : Nat} {ρ : Nat → Val} {M' : CMark}
    (hs : N.Step (abs N m) t ρ M') : ∃ x K, X.trans[t]? = some x ∧ K < x.bids ∧ FindAt N X m x K M' := by
  have hlt : t < X.trans.length := by rw [(build_trans w.ok w.built).1]; exact hs.1
  have hx' := List.getElem?_eq_getElem hlt
  generalize X.trans[t] = x at hx'
  have hx := w.tok hx'
  have hrank : ∀ v ∈ (N.trans t).vars, rank (N.types.dims (N.vty v)) (ρ v) < N.types.size (N.vty v) ∧
      unrank (N.types.dims (N.vty v)) (rank (N.types.dims (N.vty v)) (ρ v)) = ρ v := fun v hv => by
    have hin := mem_values_iff.1 (hs.2.1.1 v hv)
    exact ⟨by rw [size_eq]; exact rank_lt _ _ hin, unrank_rank hin⟩
  have hβ : Bound N.types N.vty (fun v => rank (N.types.dims (N.vty v)) (ρ v)) x.vars := fun v hv => (hrank v ((hx.vars v).1 hv)).1
  have hag : ∀ v ∈ (N.trans t).vars, ρ v = asg N.types N.vty (fun v => rank (N.types.dims (N.vty v)) (ρ v)) v := fun v hv =>
    (hrank v hv).2.symm
  have hs' := step_congr hag hs
  have hc := checkPG_of_fed w.ok hx hm hβ hs'.2.1.2 hs'.2.2.1.1
  have hi := (checkInh_iff w.ok hx hm).2 hs'.2.2.1.2
  obtain ⟨K, hK, h⟩ := find_complete w.ok w.built hx (w.min x (List.mem_of_getElem? hx')) (w.cons t x hx') hm hβ hc hi
  refine ⟨x, K, hx', hK, fun bid hbid b cache hcache => ?_⟩
  obtain ⟨k, b', e1, e2, e3, e4⟩ := h bid hbid b cache hcache
  refine ⟨k, b', e1, e2, e3, fun hk => ?_⟩
  have hb' := ((find_sound w.ok w.built hx hm (bid := bid) (b := b) hcache).2 k b' e1).2.2.1
  rw [(fire_ok w.ok hx hm hb').2, hs'.2.2.2]
  exact fire_spec_congr fun v hv => by unfold asg; rw [e4 hk v ((hx.vars v).2 hv)]

/-- A found binding is a step of the net. -/
theorem found_step {N : CNet} {X : XNet} (w : XFit N X) {m : XMark} (hm : MOK N m) {t : Nat} {x : XTrans} (hx' : X.trans[t]? = some x)
    {bid : Nat} {b : Bind} {cache : Option CData} (hcache : CacheOK X m x cache) (hi : bid ≠ 0 → checkInh m x = true) {k : Nat} {b' : Bind}
    (hf : (findNext X m x bid b cache).2 = some (k, b')) : Bound N.types N.vty b' x.vars ∧ checkInh m x = true ∧
      N.Step (abs N m) t (asg N.types N.vty b') (abs N (fire m x b')) ∧ MOK N (fire m x b') := by
  have hx := w.tok hx'
  obtain ⟨_, _, s3, s4, s5⟩ := (find_sound w.ok w.built hx hm (bid := bid) (b := b) hcache).2 k b' hf
  have hinh : checkInh m x = true := by
    by_cases h0 : bid = 0
    · exact s5 h0
    · exact hi h0
  obtain ⟨g1, g2⟩ := fed_of_checkPG w.ok w.single hx hm s3 s4
  obtain ⟨f1, f2⟩ := fire_ok w.ok hx hm s3
  refine ⟨s3, hinh, ⟨hx.lt, ⟨fun v hv => ?_, g1⟩, ⟨g2, (checkInh_iff w.ok hx hm).1 hinh⟩, f2⟩, f1⟩
  exact mem_values_iff.2 (asg_spec w.ok.types (s3 v ((hx.vars v).2 hv))).1

/-! ## Shrunk markings -/

theorem shrinkM_ok {N : CNet} {m : XMark} (h : MOK N m) : MOK N (shrinkM m) ∧ abs N (shrinkM m) = abs N m := by
  have hv : ∀ p c, (shrinkM m p).val c = (m p).val c := fun p c => MS.shrink_val (h p).1.wf (h p).1.nn c
  refine ⟨fun p => ⟨⟨MS.shrink_wf (h p).1.wf (h p).1.nn, fun e he => ?_⟩, fun c hc => by rw [hv]; exact (h p).2 c hc⟩, ?_⟩
  · have := MS.shrink_pos (m p) e he; omega
  · unfold abs; simp only [hv]

theorem abs_inj {N : CNet} (w : XOK N) {m m' : XMark} (h : MOK N m) (h' : MOK N m') (he : abs N m = abs N m') (p c : Nat) :
    (m p).val c = (m' p).val c := by
  by_cases hc : c < N.types.size (N.place p).ty
  · rw [← abs_unrank w h hc, ← abs_unrank w h' hc, he]
  · rw [(h p).2 c (by omega), (h' p).2 c (by omega)]

theorem shrink_eq {N : CNet} (w : XOK N) {m m' : XMark} (h : MOK N m) (h' : MOK N m') (he : abs N m = abs N m') :
    shrinkM m = shrinkM m' := by
  funext p
  refine MS.shrunk_ext (MS.shrink_wf (h p).1.wf (h p).1.nn) (MS.shrink_wf (h' p).1.wf (h' p).1.nn)
    (MS.shrink_pos _) (MS.shrink_pos _) fun x => ?_
  exact (MS.shrink_val (h p).1.wf (h p).1.nn x).trans ((abs_inj w h h' he p x).trans (MS.shrink_val (h' p).1.wf (h' p).1.nn x).symm)

/-! ## Finding again -/

/-- What was found at a number is found there again, from an empty cache. -/
theorem find_again {N : CNet} {X : XNet} (w : XFit N X) {m : XMark} (hm : MOK N m) {t : Nat} {x : XTrans} (hx' : X.trans[t]? = some x)
    {bid : Nat} {b : Bind} {cache : Option CData} (hcache : CacheOK X m x cache) {k : Nat} {b' : Bind}
    (hf : (findNext X m x bid b cache).2 = some (k, b')) (b0 : Bind) :
    ∃ b'', (findNext X m x k b0 none).2 = some (k, b'') ∧ ∀ v ∈ x.vars, b'' v = b' v := by
  have hx := w.tok hx'
  obtain ⟨s1, s2, s3, s4, s5⟩ := (find_sound w.ok w.built hx hm (bid := bid) (b := b) hcache).2 k b' hf
  have hearly : ¬(k = 0 ∧ earlyStop m x = true) := by
    rintro ⟨rfl, he⟩
    have hb0 : bid = 0 := by omega
    subst hb0
    unfold findNext at hf
    rw [if_pos ⟨rfl, he⟩] at hf
    cases hf
  have hnb : ¬(bid = 0 ∧ earlyStop m x = true) := by
    intro he
    unfold findNext at hf
    rw [if_pos he] at hf
    cases hf
  unfold findNext at hf ⊢
  rw [if_neg hearly]
  rw [if_neg hnb] at hf
  by_cases h0 : x.total = 0
  · rw [if_pos h0] at hf ⊢
    dsimp only at hf ⊢
    split at hf
    · rename_i hc
      simp only [Option.some.injEq, Prod.mk.injEq] at hf
      rw [if_pos ⟨by omega, hc.2⟩]
      have hvn : x.vars = [] := by
        have ht := hx.total
        split at ht
        · assumption
        · rw [h0] at ht
          have hp := inSizes_pos (x.vars.map fun v => N.types.size (N.vty v)) fun s hs => by
            obtain ⟨v, _, rfl⟩ := List.mem_map.1 hs
            exact vsize_pos w.ok v
          omega
      exact ⟨b0, rfl, fun v hv => by rw [hvn] at hv; cases hv⟩
    · cases hf
  · rw [if_neg h0] at hf ⊢
    dsimp only at hf ⊢
    by_cases h30 : x.total > 30
    · have hsame : (if x.total > 30 ∧ cache = none then calcData X m x else cache) = calcData X m x := by
        cases cache with
        | none => rw [if_pos ⟨h30, rfl⟩]
        | some d => rw [if_neg (by simp)]; exact (hcache d rfl).1.symm
      have hs2 : (if x.total > 30 ∧ (none : Option CData) = none then calcData X m x else none) = calcData X m x := if_pos ⟨h30, rfl⟩
      rw [hsame] at hf
      rw [hs2]
      cases hd : calcData X m x with
      | none =>
        rw [hd] at hf
        split at hf
        · cases hf
        · rename_i hn
          cases cache with
          | none => exact absurd ⟨h30, rfl, rfl⟩ hn
          | some d => have := (hcache d rfl).1; rw [hd] at this; cases this
      | some d =>
        rw [hd, if_neg (by simp)] at hf
        rw [if_neg (by simp)]
        dsimp only at hf ⊢
        obtain ⟨_, hk, hc, b1, rfl⟩ := scan_some _ _ _ _ _ _ hf
        obtain ⟨c1, c2, c3⟩ := (calcData_ok w.ok w.built hx h0 hm).1 d hd
        have hkm : k < codecMax d.sizes := by omega
        have hc' : checkPG m x (dataBind d.sizes k 0 d.vars d.values b0) = true := by
          rw [checkPG_congr hx m (c := dataBind d.sizes k 0 d.vars d.values b1) (c3 k hkm b0 b1)]; exact hc
        rw [show codecMax d.sizes - k = (codecMax d.sizes - k - 1) + 1 by omega, scan, if_pos hc']
        exact ⟨_, rfl, c3 k hkm b0 b1⟩
    · have hcn : cache = none := by
        cases cache with
        | none => rfl
        | some d => exact absurd (hcache d rfl).2 h30
      subst hcn
      rw [if_neg (fun h => h30 h.1), if_neg (fun h => h30 h.1)] at hf
      rw [if_neg (fun h => h30 h.1), if_neg (fun h => h30 h.1)]
      dsimp only at hf ⊢
      obtain ⟨_, hk, hc, b1, rfl⟩ := scan_some _ _ _ _ _ _ hf
      rw [show x.total - k = (x.total - k - 1) + 1 by omega, scan, if_pos hc]
      exact ⟨_, rfl, fun _ _ => rfl⟩

/-- The step of a trace: found at its number, it gives the marking. -/
def Redo (X : XNet) (m : XMark) (t k : Nat) (m' : XMark) : Prop :=
  ∃ x b, X.trans[t]? = some x ∧ (findNext X m x k Bind.none none).2 = some (k, b) ∧ checkInh m x = true ∧ shrinkM (fire m x b) = m'

theorem redo_ok {N : CNet} {X : XNet} (w : XFit N X) {m : XMark} (hm : MOK N m) {t : Nat} {x : XTrans} (hx' : X.trans[t]? = some x)
    {bid : Nat} {b : Bind} {cache : Option CData} (hcache : CacheOK X m x cache) (hi : bid ≠ 0 → checkInh m x = true) {k : Nat} {b' : Bind}
    (hf : (findNext X m x bid b cache).2 = some (k, b')) : Redo X m t k (shrinkM (fire m x b')) := by
  have hx := w.tok hx'
  obtain ⟨b'', e1, e2⟩ := find_again w hm hx' hcache hf Bind.none
  have s3 := ((find_sound w.ok w.built hx hm (bid := bid) (b := b) hcache).2 k b' hf).2.2.1
  have s3' : Bound N.types N.vty b'' x.vars := fun v hv => by rw [e2 v hv]; exact s3 v hv
  refine ⟨x, b'', hx', e1, (found_step w hm hx' hcache hi hf).2.1, shrink_eq w.ok (fire_ok w.ok hx hm s3').1 (fire_ok w.ok hx hm s3).1 ?_⟩
  rw [(fire_ok w.ok hx hm s3').2, (fire_ok w.ok hx hm s3).2]
  exact fire_spec_congr fun v hv => by unfold asg; rw [e2 v ((hx.vars v).2 hv)]

/-! ## The cache -/

theorem getKey_inj {i j t u : Nat} (ht : t < 2 ^ 16) (hu : u < 2 ^ 16) (h : getKey i t = getKey j u) : i % 2 ^ 48 = j % 2 ^ 48 ∧ t = u := by
  unfold getKey at h
  omega

def CacheFor (X : XNet) (m : XMark) (id : Nat) (c : Cache) : Prop :=
  ∀ (t : Nat) (x : XTrans), X.trans[t]? = some x → CacheOK X m x (c (getKey id t))

/-- Only entries of one state changed. -/
def CacheRel (id : Nat) (c c' : Cache) : Prop := ∀ j, (∀ t < 2 ^ 16, j ≠ getKey id t) → c' j = c j

theorem CacheRel.refl (id : Nat) (c : Cache) : CacheRel id c c := fun _ _ => rfl

theorem CacheRel.trans {id : Nat} {a b c : Cache} (h : CacheRel id a b) (h' : CacheRel id b c) : CacheRel id a c :=
  fun j hj => (h' j hj).trans (h j hj)

theorem findIn_cache {N : CNet} {X : XNet} (w : XFit N X) {m : XMark} (hm : MOK N m) {t : Nat} {x : XTrans} (hx' : X.trans[t]? = some x)
    {id bid : Nat} {c : Cache} (hc : CacheFor X m id c) : CacheFor X m id (findIn X m id t x bid c).1 ∧ CacheRel id c (findIn X m id t x bid c).1 := by
  have ht : t < 2 ^ 16 := by have := (List.getElem?_eq_some_iff.1 hx').1; have := w.few; omega
  refine ⟨fun t' x' h' => ?_, fun j hj => ?_⟩
  · have ht' : t' < 2 ^ 16 := by have := (List.getElem?_eq_some_iff.1 h').1; have := w.few; omega
    unfold findIn Cache.put
    dsimp only
    split
    · rename_i he
      obtain rfl := (getKey_inj ht' ht he).2
      obtain rfl : x' = x := by rw [h'] at hx'; exact Option.some.inj hx'
      exact (find_sound w.ok w.built (w.tok hx') hm (hc _ _ hx')).1
    · exact hc t' x' h'
  · unfold findIn Cache.put
    dsimp only
    rw [if_neg (hj t ht)]

/-! ## Propositions -/

theorem canFire_ok {N : CNet} {X : XNet} (w : XFit N X) {m : XMark} (hm : MOK N m) {id : Nat} {c : Cache} (hc : CacheFor X m id c) (t : Nat) :
    CacheFor X m id (canFire X m id t c).1 ∧ CacheRel id c (canFire X m id t c).1 ∧
    ((canFire X m id t c).2 = true ↔ CanFire N (abs N m) t) := by
  unfold canFire
  cases hx' : X.trans[t]? with
  | none =>
    refine ⟨hc, CacheRel.refl _ _, ⟨(fun h => by cases h), fun ⟨ρ, M', h⟩ => ?_⟩⟩
    obtain ⟨x, K, e, _⟩ := step_findAt w hm h
    rw [hx'] at e; cases e
  | some x =>
    dsimp only
    obtain ⟨h1, h2⟩ := findIn_cache w hm hx' (bid := 0) hc
    refine ⟨h1, h2, ?_⟩
    constructor
    · intro h
      obtain ⟨⟨k, b⟩, hk⟩ := Option.isSome_iff_exists.1 h
      exact ⟨_, _, (found_step w hm hx' (hc _ _ hx') (by simp) hk).2.2.1⟩
    · rintro ⟨ρ, M', h⟩
      obtain ⟨y, K, e1, _, e2⟩ := step_findAt w hm h
      obtain rfl : x = y := by rw [hx'] at e1; exact Option.some.inj e1
      obtain ⟨k, b', f1, _⟩ := e2 0 (by omega) Bind.none _ (hc _ _ hx')
      unfold findIn
      dsimp only
      rw [f1]; rfl

theorem deadLoop_ok {N : CNet} {X : XNet} (w : XFit N X) {m : XMark} (hm : MOK N m) {id : Nat} : ∀ (n t : Nat) {c : Cache}, CacheFor X m id c →
    CacheFor X m id (deadLoop X m id n t c).1 ∧ CacheRel id c (deadLoop X m id n t c).1 ∧
    ((deadLoop X m id n t c).2 = true ↔ ∀ u, t ≤ u → u < t + n → ¬CanFire N (abs N m) u)
  | 0, t, c, hc => ⟨hc, CacheRel.refl _ _, ⟨fun _ u h1 h2 => absurd h2 (by omega), fun _ => rfl⟩⟩
  | n + 1, t, c, hc => by
    obtain ⟨h1, h2, h3⟩ := canFire_ok w hm hc t
    rw [deadLoop]
    split
    · rename_i hf
      refine ⟨h1, h2, ⟨(fun h => by cases h), fun h => absurd (h3.1 hf) (h t (by omega) (by omega))⟩⟩
    · rename_i hf
      obtain ⟨i1, i2, i3⟩ := deadLoop_ok w hm n (t + 1) h1
      refine ⟨i1, h2.trans i2, i3.trans ⟨fun h u hu hu' => ?_, fun h u hu hu' => h u (by omega) (by omega)⟩⟩
      rcases Nat.lt_or_ge t u with h' | h'
      · exact h u h' (by omega)
      · obtain rfl : t = u := by omega
        exact fun hh => hf (h3.2 hh)

theorem qval_ok {N : CNet} (w : XOK N) {m : XMark} (hm : MOK N m) {v : QVal} (hv : v.fine) : v.get m = v.sem N (abs N m) := by
  cases v with
  | place p => exact total_ok w hm p
  | lit k => exact Int.emod_eq_of_lt hv.1 hv.2

theorem eval_ok {N : CNet} {X : XNet} (w : XFit N X) {m : XMark} (hm : MOK N m) {id : Nat} : ∀ (q : XQ), q.fine → ∀ {c : Cache}, CacheFor X m id c →
    CacheFor X m id (q.eval X m id c).1 ∧ CacheRel id c (q.eval X m id c).1 ∧ ((q.eval X m id c).2 = true ↔ q.holds N (abs N m))
  | .and a b, hq, c, hc => by
    obtain ⟨a1, a2, a3⟩ := eval_ok w hm a hq.1 hc
    rw [XQ.eval]
    cases ha : (a.eval X m id c).2 with
    | false =>
      rw [ha] at a3
      exact ⟨a1, a2, ⟨(fun h => by cases h), fun h => absurd (a3.2 h.1) (by simp)⟩⟩
    | true =>
      obtain ⟨b1, b2, b3⟩ := eval_ok w hm b hq.2 a1
      exact ⟨b1, a2.trans b2, b3.trans ⟨fun h => ⟨a3.1 ha, h⟩, fun h => h.2⟩⟩
  | .or a b, hq, c, hc => by
    obtain ⟨a1, a2, a3⟩ := eval_ok w hm a hq.1 hc
    rw [XQ.eval]
    cases ha : (a.eval X m id c).2 with
    | true => exact ⟨a1, a2, ⟨fun _ => .inl (a3.1 ha), fun _ => rfl⟩⟩
    | false =>
      rw [ha] at a3
      obtain ⟨b1, b2, b3⟩ := eval_ok w hm b hq.2 a1
      exact ⟨b1, a2.trans b2, b3.trans ⟨fun h => .inr h, fun h => h.resolve_left fun h' => absurd (a3.2 h') (by simp)⟩⟩
  | .not a, hq, c, hc => by
    obtain ⟨a1, a2, a3⟩ := eval_ok w hm a hq hc
    rw [XQ.eval]
    refine ⟨a1, a2, ?_⟩
    rw [XQ.holds, ← a3]
    simp
  | .lt x y, hq, c, hc => by
    rw [XQ.eval, XQ.holds, ← qval_ok w.ok hm hq.1, ← qval_ok w.ok hm hq.2]
    exact ⟨hc, CacheRel.refl _ _, by simp⟩
  | .le x y, hq, c, hc => by
    rw [XQ.eval, XQ.holds, ← qval_ok w.ok hm hq.1, ← qval_ok w.ok hm hq.2]
    exact ⟨hc, CacheRel.refl _ _, by simp⟩
  | .eq x y, hq, c, hc => by
    rw [XQ.eval, XQ.holds, ← qval_ok w.ok hm hq.1, ← qval_ok w.ok hm hq.2]
    exact ⟨hc, CacheRel.refl _ _, by simp⟩
  | .ne x y, hq, c, hc => by
    rw [XQ.eval, XQ.holds, ← qval_ok w.ok hm hq.1, ← qval_ok w.ok hm hq.2]
    exact ⟨hc, CacheRel.refl _ _, by simp⟩
  | .dead, _, c, hc => by
    rw [XQ.eval]
    obtain ⟨d1, d2, d3⟩ := deadLoop_ok w hm X.trans.length 0 hc
    refine ⟨d1, d2, d3.trans ⟨fun h u hu => ?_, fun h u _ _ => h u⟩⟩
    obtain ⟨ρ, M', hs⟩ := hu
    have : u < X.trans.length := by rw [(build_trans w.ok w.built).1]; exact hs.1
    exact h u (by omega) (by omega) ⟨ρ, M', hs⟩
  | .fire t, _, c, hc => by rw [XQ.eval]; exact canFire_ok w hm hc t

/-! ## The generators -/

/-- The number from which the bindings of a transition are still to be looked at. -/
def Gen.bidOf : Gen → Nat → Option Nat
  | .fixed t bid, u => if u < t then none else if u = t then some bid else some 0
  | .even map _ _ _, u => map.getD u none

def Gen.pending (g : Gen) (t K : Nat) : Prop := ∃ b, g.bidOf t = some b ∧ b ≤ K

/-- The bindings still to be looked at, and one more for each transition. -/
def remOf (x : XTrans) : Option Nat → Nat
  | none => 0
  | some b => x.bids + 1 - b

def openSum : List XTrans → List (Option Nat) → Nat
  | x :: xs, e :: es => remOf x e + openSum xs es
  | _, _ => 0

def fullSum (xs : List XTrans) : Nat := (xs.map fun x => x.bids + 1).sum

def Gen.meas (X : XNet) : Gen → Nat
  | .fixed t bid => fullSum (X.trans.drop t) - bid
  | .even map idx _ _ => 2 * openSum X.trans map + if firstOpen (map.drop idx) idx = none then 1 else 0

def Gen.inv (X : XNet) (m : XMark) (g : Gen) : Prop :=
  (∀ t x b, X.trans[t]? = some x → g.bidOf t = some b → (b ≠ 0 → checkInh m x = true) ∧ b ≤ x.bids) ∧
  match g with
  | .fixed _ _ => True
  | .even map _ n d => map.length = X.trans.length ∧ n = map.countP Option.isNone ∧ (d = true ↔ n = map.length)

/-- What a call of `next` does. -/
structure NextOK (N : CNet) (X : XNet) (m : XMark) (id : Nat) (c : Cache) (P : Nat → Nat → Prop) (μ : Nat)
    (r : Cache × Gen × NextRes) : Prop where
  own : CacheFor X m id r.1
  rel : CacheRel id c r.1
  done : r.2.2 = .done → ∀ t x K M', X.trans[t]? = some x → FindAt N X m x K M' → ¬P t K
  inv : r.2.2 ≠ .done → r.2.1.inv X m
  less : r.2.2 ≠ .done → r.2.1.meas X < μ
  shuffle : r.2.2 = .shuffle → ∀ t x K M', X.trans[t]? = some x → FindAt N X m x K M' → P t K → r.2.1.pending t K
  succ : ∀ m' t k, r.2.2 = .succ m' t k → MOK N m' ∧ (∃ ρ, N.Step (abs N m) t ρ (abs N m')) ∧ Redo X m t k (shrinkM m') ∧
    ∀ u x K M', X.trans[u]? = some x → FindAt N X m x K M' → P u K → r.2.1.pending u K ∨ u = t ∧ abs N m' = M'

theorem NextOK.mono {N : CNet} {X : XNet} {m : XMark} {id : Nat} {c c' : Cache} {P P' : Nat → Nat → Prop} {μ μ' : Nat}
    {r : Cache × Gen × NextRes} (h : NextOK N X m id c' P' μ' r) (hc : CacheRel id c c') (hμ : μ' ≤ μ)
    (hP : ∀ t x K M', X.trans[t]? = some x → FindAt N X m x K M' → P t K → P' t K) : NextOK N X m id c P μ r where
  own := h.own
  rel := hc.trans h.rel
  done hd t x K M' hx hf hp := h.done hd t x K M' hx hf (hP t x K M' hx hf hp)
  inv := h.inv
  less hn := Nat.lt_of_lt_of_le (h.less hn) hμ
  shuffle hs t x K M' hx hf hp := h.shuffle hs t x K M' hx hf (hP t x K M' hx hf hp)
  succ m' t k hs := by
    obtain ⟨s1, s2, s3, s4⟩ := h.succ m' t k hs
    exact ⟨s1, s2, s3, fun t x K M' hx hf hp => s4 t x K M' hx hf (hP t x K M' hx hf hp)⟩

theorem bidOf_fixed (t bid u : Nat) : (Gen.fixed t bid).bidOf u = if u < t then none else if u = t then some bid else some 0 := rfl

theorem bidOf_even (map : List (Option Nat)) (idx n : Nat) (d : Bool) (u : Nat) : (Gen.even map idx n d).bidOf u = map.getD u none := rfl

theorem meas_fixed (X : XNet) (t bid : Nat) : (Gen.fixed t bid).meas X = fullSum (X.trans.drop t) - bid := rfl

theorem meas_even (X : XNet) (map : List (Option Nat)) (idx n : Nat) (d : Bool) :
    (Gen.even map idx n d).meas X = 2 * openSum X.trans map + if firstOpen (map.drop idx) idx = none then 1 else 0 := rfl

theorem fixed_ok {N : CNet} {X : XNet} (w : XFit N X) {m : XMark} (hm : MOK N m) {id : Nat} : ∀ (xs : List XTrans) (t bid : Nat) {c : Cache},
    CacheFor X m id c → X.trans.drop t = xs → (Gen.fixed t bid).inv X m →
    NextOK N X m id c (Gen.fixed t bid).pending ((Gen.fixed t bid).meas X) (fixedLoop X m id xs t bid c)
  | [], t, bid, c, hc, hd, hi => by
    rw [fixedLoop]
    have hlen : X.trans.length ≤ t := by
      have := congrArg List.length hd
      simp only [List.length_drop, List.length_nil] at this
      omega
    refine ⟨hc, CacheRel.refl _ _, ?_, (fun h => absurd rfl h), (fun h => absurd rfl h), (fun h => by cases h), (fun _ _ _ h => by cases h)⟩
    rintro - u x K M' hx hf ⟨b, hb, _⟩
    have := (List.getElem?_eq_some_iff.1 hx).1
    rw [bidOf_fixed] at hb
    rw [if_pos (by omega)] at hb
    cases hb
  | x :: xs, t, bid, c, hc, hd, hi => by
    have hx' : X.trans[t]? = some x := by
      have := congrArg (·[0]?) hd
      simpa using this
    have hd' : X.trans.drop (t + 1) = xs := by
      rw [← List.drop_drop, hd]; rfl
    have hbt : (Gen.fixed t bid).bidOf t = some bid := by rw [bidOf_fixed]; rw [if_neg (by omega), if_pos rfl]
    have hib := hi.1 t x bid hx' hbt
    obtain ⟨c1, c2⟩ := findIn_cache w hm hx' (bid := bid) hc
    have hmeas : (Gen.fixed t bid).meas X = x.bids + 1 + fullSum xs - bid := by
      rw [meas_fixed]; unfold fullSum; rw [hd]; rfl
    rw [fixedLoop]
    cases hf : (findIn X m id t x bid c).2 with
    | none =>
      dsimp only
      have hi' : (Gen.fixed (t + 1) 0).inv X m := by
        refine ⟨fun u y b hy hb => ?_, trivial⟩
        rw [bidOf_fixed] at hb
        split at hb
        · cases hb
        · split at hb <;> (obtain rfl := Option.some.inj hb; exact ⟨fun h => absurd rfl h, Nat.zero_le _⟩)
      refine (fixed_ok w hm xs (t + 1) 0 c1 hd' hi').mono c2 ?_ ?_
      · rw [hmeas]
        simp only [meas_fixed]
        rw [hd']
        omega
      · rintro u y K M' hy hfa ⟨b, hb, hbK⟩
        rw [bidOf_fixed] at hb
        split at hb
        · cases hb
        · split at hb
          · rename_i hut
            subst hut
            obtain rfl := Option.some.inj hb
            obtain rfl : y = x := by rw [hx'] at hy; exact (Option.some.inj hy).symm
            obtain ⟨k, b', e, _⟩ := hfa bid hbK Bind.none _ (hc _ _ hx')
            unfold findIn at hf
            rw [e] at hf; cases hf
          · refine ⟨0, ?_, Nat.zero_le _⟩
            rw [bidOf_fixed]
            rw [if_neg (by omega)]
            split <;> rfl
    | some kb =>
      obtain ⟨k, b⟩ := kb
      dsimp only
      have hf' : (findNext X m x bid Bind.none (c (getKey id t))).2 = some (k, b) := hf
      obtain ⟨s1, s2, s3, s4⟩ := found_step w hm hx' (hc _ _ hx') hib.1 hf'
      obtain ⟨r1, r2, _⟩ := (find_sound w.ok w.built (w.tok hx') hm (bid := bid) (b := Bind.none) (hc _ _ hx')).2 k b hf'
      refine ⟨c1, c2, (fun h => by cases h), fun _ => ⟨fun u y b0 hy hb => ?_, trivial⟩, fun _ => ?_, (fun h => by cases h), ?_⟩
      · rw [bidOf_fixed] at hb
        split at hb
        · cases hb
        · split at hb
          · rename_i hut
            subst hut
            obtain rfl := Option.some.inj hb
            obtain rfl : y = x := by rw [hx'] at hy; exact (Option.some.inj hy).symm
            exact ⟨fun _ => s2, r2⟩
          · obtain rfl := Option.some.inj hb
            exact ⟨fun h => absurd rfl h, Nat.zero_le _⟩
      · rw [hmeas]
        rw [meas_fixed]; unfold fullSum
        rw [hd]
        simp only [List.map_cons, List.sum_cons]
        have : (xs.map fun x => x.bids + 1).sum = fullSum xs := rfl
        omega
      · intro m' t' k' he
        simp only [NextRes.succ.injEq] at he
        obtain ⟨rfl, rfl, rfl⟩ := he
        refine ⟨s4, ⟨_, s3⟩, redo_ok w hm hx' (hc _ _ hx') hib.1 hf', ?_⟩
        rintro u y K M' hy hfa ⟨b0, hb, hbK⟩
        rw [bidOf_fixed] at hb
        split at hb
        · cases hb
        · split at hb
          · rename_i hut
            subst hut
            obtain rfl := Option.some.inj hb
            obtain rfl : y = x := by rw [hx'] at hy; exact (Option.some.inj hy).symm
            obtain ⟨k2, b2, e1, e2, e3, e4⟩ := hfa bid hbK Bind.none _ (hc _ _ hx')
            rw [hf'] at e1
            simp only [Option.some.injEq, Prod.mk.injEq] at e1
            obtain ⟨rfl, rfl⟩ := e1
            by_cases hkK : k = K
            · exact .inr ⟨rfl, e4 hkK⟩
            · refine .inl ⟨k + 1, ?_, by omega⟩
              rw [bidOf_fixed]
              rw [if_neg (by omega), if_pos rfl]
          · refine .inl ⟨0, ?_, Nat.zero_le _⟩
            rw [bidOf_fixed]
            rw [if_neg (by omega), if_neg (by omega)]

theorem firstOpen_some : ∀ (l : List (Option Nat)) (i : Nat) {t b : Nat}, firstOpen l i = some (t, b) → i ≤ t ∧ l[t - i]? = some (some b)
  | [], i, t, b, h => by cases h
  | none :: l, i, t, b, h => by
    rw [firstOpen] at h
    obtain ⟨h1, h2⟩ := firstOpen_some l (i + 1) h
    refine ⟨by omega, ?_⟩
    rw [show t - i = (t - (i + 1)) + 1 by omega, List.getElem?_cons_succ]
    exact h2
  | some c :: l, i, t, b, h => by
    rw [firstOpen] at h
    simp only [Option.some.injEq, Prod.mk.injEq] at h
    obtain ⟨rfl, rfl⟩ := h
    exact ⟨Nat.le_refl _, by simp⟩

theorem firstOpen_none : ∀ (l : List (Option Nat)) (i : Nat), firstOpen l i = none → ∀ e ∈ l, e = none
  | [], _, _ => (fun e he => by cases he)
  | none :: l, i, h => by
    rw [firstOpen] at h
    intro e he
    rcases List.mem_cons.1 he with rfl | he
    · rfl
    · exact firstOpen_none l (i + 1) h e he
  | some c :: l, i, h => by rw [firstOpen] at h; cases h

theorem openSum_set : ∀ (xs : List XTrans) (es : List (Option Nat)) (t : Nat) {x : XTrans} {e : Option Nat} (e' : Option Nat),
    xs[t]? = some x → es[t]? = some e → openSum xs (es.set t e') + remOf x e = openSum xs es + remOf x e'
  | [], _, t, x, e, e', h, _ => by simp at h
  | _ :: _, [], t, x, e, e', _, h => by simp at h
  | y :: xs, d :: es, 0, x, e, e', h1, h2 => by
    simp only [List.getElem?_cons_zero, Option.some.injEq] at h1 h2
    subst h1 h2
    rw [List.set_cons_zero, openSum, openSum]; omega
  | y :: xs, d :: es, t + 1, x, e, e', h1, h2 => by
    rw [List.getElem?_cons_succ] at h1 h2
    rw [List.set_cons_succ, openSum, openSum]
    have := openSum_set xs es t e' h1 h2
    omega

theorem countNone_set : ∀ (es : List (Option Nat)) (t : Nat) {b : Nat}, es[t]? = some (some b) →
    (es.set t none).countP Option.isNone = es.countP Option.isNone + 1 ∧ ∀ k, (es.set t (some k)).countP Option.isNone = es.countP Option.isNone
  | [], t, b, h => by simp at h
  | d :: es, 0, b, h => by
    simp only [List.getElem?_cons_zero, Option.some.injEq] at h
    subst h
    simp
  | d :: es, t + 1, b, h => by
    rw [List.getElem?_cons_succ] at h
    obtain ⟨h1, h2⟩ := countNone_set es t h
    simp only [List.set_cons_succ, List.countP_cons, h1, h2]
    exact ⟨by omega, fun _ => trivial⟩

theorem flag_le (map : List (Option Nat)) (idx : Nat) : (if firstOpen (map.drop idx) idx = none then 1 else 0) ≤ 1 := by split <;> omega

theorem even_ok {N : CNet} {X : XNet} (w : XFit N X) {m : XMark} (hm : MOK N m) {id : Nat} : ∀ (fuel : Nat) (map : List (Option Nat)) (idx n : Nat) (d : Bool) {c : Cache},
    CacheFor X m id c → (Gen.even map idx n d).inv X m → map.length - n < fuel →
    NextOK N X m id c (Gen.even map idx n d).pending ((Gen.even map idx n d).meas X) (evenLoop X m id fuel map idx n d c)
  | 0, map, idx, n, d, c, hc, hi, hf => by omega
  | fuel + 1, map, idx, n, d, c, hc, hi, hfu => by
    obtain ⟨hi1, hlen, hn, hd⟩ := hi
    rw [evenLoop]
    cases d with
    | true =>
      rw [if_pos rfl]
      refine ⟨hc, CacheRel.refl _ _, ?_, (fun h => absurd rfl h), (fun h => absurd rfl h), (fun h => by cases h), (fun _ _ _ h => by cases h)⟩
      rintro - u x K M' hx hf ⟨b, hb, _⟩
      have hall : ∀ e ∈ map, e.isNone = true := List.countP_eq_length.1 (by rw [← hn]; exact hd.1 rfl)
      rw [bidOf_even] at hb
      rw [List.getD_eq_getElem?_getD] at hb
      cases he : map[u]? with
      | none => rw [he] at hb; cases hb
      | some e =>
        rw [he, Option.getD_some] at hb
        have := hall e (List.mem_of_getElem? he)
        rw [hb] at this; cases this
    | false =>
      rw [if_neg (by simp)]
      have hopen : map.countP Option.isNone < map.length := by
        have h1 := List.countP_le_length (p := Option.isNone) (l := map)
        have h2 : n ≠ map.length := fun h => by have := hd.2 h; cases this
        omega
      cases hfo : firstOpen (map.drop idx) idx with
      | none =>
        dsimp only
        refine ⟨hc, CacheRel.refl _ _, (fun h => by cases h), fun _ => ⟨hi1, hlen, hn, hd⟩, fun _ => ?_, fun _ t x K M' _ _ hp => hp, (fun _ _ _ h => by cases h)⟩
        simp only [meas_even]
        rw [if_pos hfo]
        have hne : firstOpen (map.drop 0) 0 ≠ none := fun h => by
          rw [List.drop_zero] at h
          have : map.countP Option.isNone = map.length := List.countP_eq_length.2 fun e he => by
            rw [firstOpen_none map 0 h e he]; rfl
          omega
        rw [if_neg hne]
        omega
      | some tb =>
        obtain ⟨t, bid⟩ := tb
        dsimp only
        obtain ⟨o1, o2⟩ := firstOpen_some _ _ hfo
        rw [List.getElem?_drop, show idx + (t - idx) = t by omega] at o2
        have htl : t < map.length := (List.getElem?_eq_some_iff.1 o2).1
        have hx' := List.getElem?_eq_getElem (hlen ▸ htl : t < X.trans.length)
        generalize X.trans[t] = x at hx'
        rw [hx']
        dsimp only
        have hbt : (Gen.even map idx n false).bidOf t = some bid := by
          rw [bidOf_even]; rw [List.getD_eq_getElem?_getD, o2]; rfl
        have hib := hi1 t x bid hx' hbt
        obtain ⟨c1, c2⟩ := findIn_cache w hm hx' (bid := bid) hc
        have hset : ∀ (e : Option Nat) (idx' n' : Nat) (d' : Bool) (u : Nat), (Gen.even (map.set t e) idx' n' d').bidOf u = if u = t then e else (Gen.even map idx n false).bidOf u := by
          intro e idx' n' d' u
          rw [bidOf_even, bidOf_even]
          rw [List.getD_eq_getElem?_getD, List.getD_eq_getElem?_getD, List.getElem?_set]
          by_cases hu : u = t
          · subst hu; rw [if_pos rfl, if_pos htl, if_pos rfl]; rfl
          · rw [if_neg (fun h => hu h.symm), if_neg hu]
        cases hf : (findIn X m id t x bid c).2 with
        | none =>
          dsimp only
          have hcn := (countNone_set map t o2).1
          have hi' : (Gen.even (map.set t none) (t + 1) (n + 1) (decide (n + 1 = map.length))).inv X m := by
            refine ⟨fun u y b hy hb => ?_, by rw [List.length_set]; exact hlen, by rw [hcn, hn], by rw [List.length_set]; simp⟩
            rw [hset] at hb
            split at hb
            · cases hb
            · exact hi1 u y b hy hb
          refine (even_ok w hm fuel (map.set t none) (t + 1) (n + 1) (decide (n + 1 = map.length)) c1 hi' (by rw [List.length_set]; omega)).mono c2 ?_ ?_
          · simp only [meas_even]
            have h1 := openSum_set X.trans map t none hx' o2
            have h2 := flag_le (map.set t none) (t + 1)
            rw [remOf, remOf] at h1
            omega
          · rintro u y K M' hy hfa ⟨b, hb, hbK⟩
            refine ⟨b, ?_, hbK⟩
            rw [hset]
            split
            · rename_i hut
              subst hut
              rw [hbt] at hb
              obtain rfl := Option.some.inj hb
              obtain rfl : y = x := by rw [hx'] at hy; exact (Option.some.inj hy).symm
              obtain ⟨k, b', e, _⟩ := hfa bid hbK Bind.none _ (hc _ _ hx')
              unfold findIn at hf
              rw [e] at hf; cases hf
            · exact hb
        | some kb =>
          obtain ⟨k, b⟩ := kb
          dsimp only
          have hf' : (findNext X m x bid Bind.none (c (getKey id t))).2 = some (k, b) := hf
          obtain ⟨s1, s2, s3, s4⟩ := found_step w hm hx' (hc _ _ hx') hib.1 hf'
          obtain ⟨r1, r2, _⟩ := (find_sound w.ok w.built (w.tok hx') hm (bid := bid) (b := Bind.none) (hc _ _ hx')).2 k b hf'
          refine ⟨c1, c2, (fun h => by cases h), fun _ => ⟨fun u y b0 hy hb => ?_, by rw [List.length_set]; exact hlen, ?_, ?_⟩, fun _ => ?_, (fun h => by cases h), ?_⟩
          · rw [hset] at hb
            split at hb
            · rename_i hut
              subst hut
              obtain rfl := Option.some.inj hb
              obtain rfl : y = x := by rw [hx'] at hy; exact (Option.some.inj hy).symm
              exact ⟨fun _ => s2, r2⟩
            · exact hi1 u y b0 hy hb
          · rw [(countNone_set map t o2).2, hn]
          · rw [List.length_set]; exact hd
          · simp only [meas_even]
            have h1 := openSum_set X.trans map t (some (k + 1)) hx' o2
            have h2 := flag_le (map.set t (some (k + 1))) (t + 1)
            rw [remOf, remOf] at h1
            omega
          · intro m' t' k' he
            simp only [NextRes.succ.injEq] at he
            obtain ⟨rfl, rfl, rfl⟩ := he
            refine ⟨s4, ⟨_, s3⟩, redo_ok w hm hx' (hc _ _ hx') hib.1 hf', ?_⟩
            rintro u y K M' hy hfa ⟨b0, hb, hbK⟩
            by_cases hut : u = t
            · subst hut
              rw [hbt] at hb
              obtain rfl := Option.some.inj hb
              obtain rfl : y = x := by rw [hx'] at hy; exact (Option.some.inj hy).symm
              obtain ⟨k2, b2, e1, e2, e3, e4⟩ := hfa bid hbK Bind.none _ (hc _ _ hx')
              rw [hf'] at e1
              simp only [Option.some.injEq, Prod.mk.injEq] at e1
              obtain ⟨rfl, rfl⟩ := e1
              by_cases hkK : k = K
              · exact .inr ⟨rfl, e4 hkK⟩
              · refine .inl ⟨k + 1, ?_, by omega⟩
                rw [hset, if_pos rfl]
            · refine .inl ⟨b0, ?_, hbK⟩
              rw [hset, if_neg hut]; exact hb

theorem next_ok {N : CNet} {X : XNet} (w : XFit N X) {m : XMark} (hm : MOK N m) {id : Nat} {c : Cache} (hc : CacheFor X m id c) {g : Gen} (hi : g.inv X m) :
    NextOK N X m id c g.pending (g.meas X) (g.next X m id c) := by
  cases g with
  | fixed t bid => exact fixed_ok w hm _ t bid hc rfl hi
  | even map idx n d =>
    exact even_ok w hm _ map idx n d hc hi (by omega)

theorem new_ok {N : CNet} {X : XNet} (w : XFit N X) (m : XMark) (even : Bool) (h0 : X.trans.length ≠ 0) : (Gen.new X even).inv X m ∧
    (Gen.new X even).meas X ≤ 2 * fullSum X.trans ∧ ∀ t K, t < X.trans.length → (Gen.new X even).pending t K := by
  have _ := w
  unfold Gen.new
  cases even with
  | false =>
    rw [if_neg (by simp)]
    refine ⟨⟨fun t x b hx hb => ?_, trivial⟩, ?_, fun t K _ => ⟨0, ?_, Nat.zero_le _⟩⟩
    · rw [bidOf_fixed] at hb
      split at hb
      · cases hb
      · split at hb <;> (obtain rfl := Option.some.inj hb; exact ⟨fun h => absurd rfl h, Nat.zero_le _⟩)
    · simp only [meas_fixed]; rw [List.drop_zero]; omega
    · rw [bidOf_fixed]
      rw [if_neg (by omega)]
      split <;> rfl
  | true =>
    rw [if_pos rfl]
    have hget : ∀ t, (Gen.even (List.replicate X.trans.length (some 0)) 0 0 false).bidOf t = if t < X.trans.length then some 0 else none := fun t => by
      rw [bidOf_even]
      rw [List.getD_eq_getElem?_getD, List.getElem?_replicate]
      split <;> rfl
    refine ⟨⟨fun t x b hx hb => ?_, by simp, ?_, ?_⟩, ?_, fun t K ht => ⟨0, by rw [hget, if_pos ht], Nat.zero_le _⟩⟩
    · rw [hget] at hb
      split at hb
      · obtain rfl := Option.some.inj hb; exact ⟨fun h => absurd rfl h, Nat.zero_le _⟩
      · cases hb
    · rw [List.countP_replicate]; simp
    · simp only [List.length_replicate]
      constructor
      · intro h; cases h
      · intro h; exact absurd h.symm h0
    · simp only [meas_even]
      have hs : ∀ xs : List XTrans, openSum xs (List.replicate xs.length (some 0)) = fullSum xs := by
        intro xs
        induction xs with
        | nil => rfl
        | cons x xs ih =>
          rw [List.length_cons, List.replicate_succ, openSum, ih]
          unfold fullSum remOf
          simp
      rw [hs]
      have : firstOpen ((List.replicate X.trans.length (some 0)).drop 0) 0 ≠ none := by
        rw [List.drop_zero]
        obtain ⟨n, hn⟩ := Nat.exists_eq_succ_of_ne_zero h0
        rw [hn, List.replicate_succ, firstOpen]
        simp
      rw [if_neg this]
      omega

end XCol
end Verif
