import Verif.XCol.GenLemmas

/-!
# `findNextValidBinding`
-/

namespace Verif
namespace XCol
open Colored CPN OffsetsProps

/-! ## The constraints of an arc are necessary -/

theorem seqVals_len {b : Bind} {T : Types} {vty : Nat → Nat} : ∀ {ss : List Nat} {q : List PC}, SeqFit T vty ss q → (∀ s ∈ ss, 0 < s) →
    InSizes ss (seqVals b ss q)
  | [], [], _, _ => trivial
  | s :: ss, c :: q, h, hp => ⟨PC.val_lt b c (hp s (by simp)), seqVals_len h.2 fun t ht => hp t (by simp [ht])⟩
  | [], _ :: _, h, _ => h.elim
  | _ :: _, [], h, _ => h.elim

theorem seqCons_mem {b : Bind} {T : Types} {vty : Nat → Nat} {v p i : Nat} {o : Int} {p' : Nat} : ∀ {ss : List Nat} {q : List PC} {k : Nat},
    SeqFit T vty ss q → VC.at i o p' ∈ seqCons v p k q → p' = p ∧ ∃ j s, i = k + j ∧ ss[j]? = some s ∧ s = T.size (vty v) ∧
      (seqVals b ss q)[j]? = some (addColorOffset (b v) o s).toNat
  | [], [], _, _, h => by simp [seqCons] at h
  | s :: ss, c :: q, k, hf, h => by
    rw [seqCons] at h
    by_cases hc : c.isVar = true ∧ c.value = v
    · rw [if_pos hc] at h
      rcases List.mem_cons.1 h with h | h
      · simp only [VC.at.injEq] at h
        obtain ⟨rfl, rfl, rfl⟩ := h
        refine ⟨rfl, 0, s, rfl, rfl, ?_, ?_⟩
        · rw [← hc.2]; exact (hf.1 hc.1).2.symm
        · simp only [seqVals, List.getElem?_cons_zero, PC.val, PC.base, hc.1, hc.2, if_true]
      · obtain ⟨e, j, s', e1, e2, e3, e4⟩ := seqCons_mem (b := b) hf.2 h
        exact ⟨e, j + 1, s', by omega, by simpa using e2, e3, by simpa [seqVals] using e4⟩
    · rw [if_neg hc] at h
      obtain ⟨e, j, s', e1, e2, e3, e4⟩ := seqCons_mem (b := b) hf.2 h
      exact ⟨e, j + 1, s', by omega, by simpa using e2, e3, by simpa [seqVals] using e4⟩
  | [], _ :: _, _, h, _ => h.elim
  | _ :: _, [], _, h, _ => h.elim

theorem cnt_pos {b : Bind} {sizes : List Nat} {qs : List (List PC)} {q : List PC} (h : q ∈ qs) : 0 < cnt b sizes (seqColor b sizes q) qs := by
  induction qs with
  | nil => cases h
  | cons d qs ih =>
    rw [cnt]
    rcases List.mem_cons.1 h with rfl | h
    · rw [if_pos rfl]; omega
    · have := ih h; omega

theorem cons_sound {N : CNet} (w : XOK N) {X : XNet} (hX : build N = some X) {m : XMark} {p : Nat} {b : Bind} {v : Nat}
    (hv : b v < N.types.size (N.vty v)) : ∀ {a : Arc}, a.OK → Shape N.types N.vty (N.types.dims (N.place p).ty) a →
    (∀ c, (a.eval b).val c ≤ (m p).val c) → ∀ i o p', VC.at i o p' ∈ a.cons v p → b v ∈ possible X m (X.vsize v) i o p'
  | .add l r, ho, hs, hle, i, o, p', h => by
    rw [Arc.cons] at h
    have hval : ∀ c, ((Arc.add l r).eval b).val c = (l.eval b).val c + (r.eval b).val c := fun c => by
      rw [Arc.eval, MS.plus_val (eval_good b ho.1).wf (eval_good b ho.2).wf]
    rcases List.mem_append.1 h with h | h
    · refine cons_sound w hX hv ho.2 hs.2 (fun c => ?_) i o p' h
      have := hle c
      rw [hval] at this
      have := (eval_good b ho.1).val_nonneg c
      omega
    · refine cons_sound w hX hv ho.1 hs.1 (fun c => ?_) i o p' h
      have := hle c
      rw [hval] at this
      have := (eval_good b ho.2).val_nonneg c
      omega
  | .sub l r, _, _, _, i, o, p', h => by
    rw [Arc.cons] at h
    split at h <;> simp at h
  | .const _, _, _, _, i, o, p', h => by simp [Arc.cons] at h
  | .coll qs sizes k, _, hs, hle, i, o, p', h => by
    obtain ⟨hk, rfl, hq⟩ := hs
    rw [Arc.cons] at h
    obtain ⟨l, l1, l2⟩ := List.mem_flatten.1 h
    obtain ⟨q, q1, rfl⟩ := List.mem_map.1 l1
    have hd := w.types.pos (N.place p).ty
    obtain ⟨rfl, j, s, e1, e2, e3, e4⟩ := seqCons_mem (b := b) (hq q q1) l2
    rw [Nat.zero_add] at e1
    subst e1
    have hin := seqVals_len (b := b) (hq q q1) hd
    have hW : (N.types.dims (N.place p').ty).prod < 2 ^ 32 := by rw [← size_eq]; exact w.types.small _
    have hcol : seqColor b (N.types.dims (N.place p').ty) q = rank (N.types.dims (N.place p').ty) (seqVals b (N.types.dims (N.place p').ty) q) :=
      pack_eq hin hW
    have hpos : 0 < (m p').val (seqColor b (N.types.dims (N.place p').ty) q) := by
      have h1 := hle (seqColor b (N.types.dims (N.place p').ty) q)
      obtain ⟨_, a2, _⟩ := addSeqs_spec b (N.types.dims (N.place p').ty) k qs MS.empty MS.empty_wf
      rw [Arc.eval, a2] at h1
      have e0 : MS.empty.val (seqColor b (N.types.dims (N.place p').ty) q) = 0 := rfl
      rw [e0] at h1
      have hc := cnt_pos (b := b) (sizes := N.types.dims (N.place p').ty) q1
      have : 0 < (k : Int) * (cnt b (N.types.dims (N.place p').ty) (seqColor b (N.types.dims (N.place p').ty) q) qs : Int) :=
        Int.mul_pos (by omega) (by omega)
      omega
    obtain ⟨n, n1, _⟩ := valL_ne (l := (m p').counts) (c := seqColor b (N.types.dims (N.place p').ty) q) (by
      unfold MS.val at hpos; omega)
    unfold possible
    rw [mem_toSet, List.mem_map]
    refine ⟨_, n1, ?_⟩
    obtain ⟨_, d2, d3, _⟩ := build_data hX
    have hlt := rank_lt _ _ hin
    have hjl : i < (N.types.dims (N.place p').ty).length := (List.getElem?_eq_some_iff.1 e2).1
    dsimp only
    rw [d2, hcol, decodeAt_eq hd (by omega) hlt hjl, unrank_rank hin, List.getD_eq_getElem?_getD, e4, Option.getD_some, d3, ← e3]
    have hs0 : 0 < s := by omega
    rw [off_cast _ _ hs0, C32_inverse _ _ _ (by omega) (by omega)]
    rfl

theorem preCons_mem {v : Nat} : ∀ (ins : List (Nat × Arc)) (acc : Option (List VC)) {cs : List VC},
    ins.foldl (fun acc a => if v ∈ a.2.vars then some (a.2.cons v a.1 ++ acc.getD []) else acc) acc = some cs →
    ∀ c ∈ cs, c ∈ acc.getD [] ∨ ∃ a ∈ ins, c ∈ a.2.cons v a.1
  | [], acc, cs, h, c, hc => by
    rw [List.foldl_nil] at h
    rw [h]
    exact .inl hc
  | a :: ins, acc, cs, h, c, hc => by
    rw [List.foldl_cons] at h
    rcases preCons_mem ins _ h c hc with h' | ⟨a', h1, h2⟩
    · split at h'
      · rw [Option.getD_some, List.mem_append] at h'
        rcases h' with h' | h'
        · exact .inr ⟨a, by simp, h'⟩
        · exact .inl h'
      · exact .inl h'
    · exact .inr ⟨a', by simp [h1], h2⟩

/-- The conditions under which the constraints on the variables are right: plain types and positive numbers in the input
arcs. -/
def ConsOK (N : CNet) (t : Nat) : Prop := ∀ e ∈ (N.trans t).inputs,
  arcPos e.expr ∧ ∀ v ∈ e.expr.vars, N.types.parts (N.vty v) = none

theorem all_cons_sound {N : CNet} (w : XOK N) {X : XNet} (hX : build N = some X) {t : Nat} {x : XTrans} (hx : TOK N t x)
    (hcons : ConsOK N t) {m : XMark} (hm : MOK N m) {b : Bind} (hb : Bound N.types N.vty b x.vars) (hc : checkPG m x b = true) :
    ∀ v ∈ x.vars, ∀ cs, x.cons v = some cs → ∀ i o p, VC.at i o p ∈ cs → b v ∈ possible X m (X.vsize v) i o p := by
  intro v hv cs hcs i o p hmem
  rw [hx.cons] at hcs
  unfold preCons at hcs
  rcases preCons_mem _ _ hcs _ hmem with h | ⟨a, ha, h⟩
  · simp at h
  · obtain ⟨e, e1, e2, e3⟩ := hx.inputs a ha
    have hmt := trans_mem hx.lt
    obtain ⟨t1, t2, t3⟩ := w.arcs _ hmt e (List.mem_append_left _ e1)
    obtain ⟨c1, _, _, c4⟩ := compile_ok w.types t1 t2 t3 e3
    obtain ⟨p1, p2⟩ := hcons e e1
    have hsh := c4 p1 p2
    rw [e2] at hsh
    exact cons_sound w hX (hb v hv) c1 hsh (((checkPG_iff hx hm hb).1 hc).2 a ha) i o p h

/-! ## The two ways of numbering -/

/-- A numbering of bindings: all of the right types. -/
structure Numbering (N : CNet) (x : XTrans) (mk : Nat → Bind → Bind) (n : Nat) : Prop where
  bound : ∀ k < n, ∀ b, Bound N.types N.vty (mk k b) x.vars

theorem map_eq_on {f g : Nat → Nat} {l : List Nat} (h : l.map f = l.map g) : ∀ v ∈ l, f v = g v := by
  induction l with
  | nil => intro v hv; cases hv
  | cons a l ih =>
    intro v hv
    simp only [List.map_cons, List.cons.injEq] at h
    rcases List.mem_cons.1 hv with rfl | hv
    · exact h.1
    · exact ih h.2 v hv

theorem inSizes_on {s f : Nat → Nat} : ∀ {l : List Nat}, InSizes (l.map s) (l.map f) ↔ ∀ v ∈ l, f v < s v
  | [] => ⟨(fun _ v hv => by cases hv), fun _ => trivial⟩
  | a :: l => by
    simp only [List.map_cons, InSizes, inSizes_on (l := l), List.mem_cons]
    constructor
    · rintro ⟨h1, h2⟩ v (rfl | hv)
      · exact h1
      · exact h2 v hv
    · intro h; exact ⟨h a (.inl rfl), fun v hv => h v (.inr hv)⟩

theorem vsize_pos {N : CNet} (w : XOK N) (v : Nat) : 0 < N.types.size (N.vty v) := by
  rw [size_eq]; exact inSizes_pos _ (w.types.pos _)

theorem total_pos {N : CNet} {t : Nat} {x : XTrans} (hx : TOK N t x) (h : x.total ≠ 0) :
    x.total = (x.vars.map fun v => N.types.size (N.vty v)).prod := by
  have ht := hx.total
  split at ht
  · exact absurd ht h
  · exact ht

theorem getBinding_ok {N : CNet} (w : XOK N) {X : XNet} (hX : build N = some X) {t : Nat} {x : XTrans} (hx : TOK N t x) (h0 : x.total ≠ 0) :
    (∀ k, Bound N.types N.vty (getBinding X x k) x.vars) ∧
    ∀ b, Bound N.types N.vty b x.vars → ∃ k < x.total, ∀ v ∈ x.vars, getBinding X x k v = b v := by
  have ht := total_pos hx h0
  obtain ⟨_, _, d3, _⟩ := build_data hX
  have hvs : X.vsize = fun v => N.types.size (N.vty v) := funext d3
  have hsp : ∀ k, x.vars.map (getBinding X x k) = unrank (x.vars.map fun v => N.types.size (N.vty v)) k := fun k => by
    unfold getBinding
    rw [if_pos h0, hvs, ht]
    exact (bindLoop_spec _ k x.vars Bind.none hx.nodup fun v _ => vsize_pos w v).2
  have hpos : ∀ s ∈ x.vars.map (fun v => N.types.size (N.vty v)), 0 < s := fun s hs => by
    obtain ⟨v, _, rfl⟩ := List.mem_map.1 hs
    exact vsize_pos w v
  refine ⟨fun k => ?_, fun b hb => ?_⟩
  · have hin := (unrank_spec _ hpos (k % (x.vars.map fun v => N.types.size (N.vty v)).prod) (Nat.mod_lt _ (inSizes_pos _ hpos))).1
    rw [unrank_mod, ← hsp, inSizes_on] at hin
    exact hin
  · have hin : InSizes (x.vars.map fun v => N.types.size (N.vty v)) (x.vars.map b) := inSizes_on.2 hb
    refine ⟨rank _ _, by rw [ht]; exact rank_lt _ _ hin, map_eq_on ?_⟩
    rw [hsp, unrank_rank hin]

theorem calcData_ok {N : CNet} (w : XOK N) {X : XNet} (hX : build N = some X) {t : Nat} {x : XTrans} (hx : TOK N t x) (h0 : x.total ≠ 0)
    {m : XMark} (hm : MOK N m) :
    (∀ d, calcData X m x = some d → codecMax d.sizes ≤ x.total ∧
      (∀ k < codecMax d.sizes, ∀ b, Bound N.types N.vty (dataBind d.sizes k 0 d.vars d.values b) x.vars) ∧
      ∀ k < codecMax d.sizes, ∀ b b', ∀ v ∈ x.vars, dataBind d.sizes k 0 d.vars d.values b v = dataBind d.sizes k 0 d.vars d.values b' v) ∧
    (ConsOK N t → ∀ b, Bound N.types N.vty b x.vars → checkPG m x b = true →
      ∃ d, calcData X m x = some d ∧ ∃ k < codecMax d.sizes, ∀ b', ∀ v ∈ x.vars, dataBind d.sizes k 0 d.vars d.values b' v = b v) := by
  have ht := total_pos hx h0
  obtain ⟨_, _, d3, _⟩ := build_data hX
  have hvs : X.vsize = fun v => N.types.size (N.vty v) := funext d3
  have hvp : ∀ v ∈ x.vars, 0 < X.vsize v := fun v _ => by rw [d3]; exact vsize_pos w v
  obtain ⟨p1, p2⟩ := possibleAll_ok X m x x.vars hvp
  have key : ∀ pvs, PVs X.vsize x.vars pvs → codecMax (stateMaxes X x.vars pvs) = (stateMaxes X x.vars pvs).prod ∧
      codecMax (stateMaxes X x.vars pvs) ≤ x.total ∧ ∀ k < codecMax (stateMaxes X x.vars pvs), ∀ b,
        x.vars.map (dataBind (stateMaxes X x.vars pvs) k 0 x.vars pvs b) = picks pvs (unrank (stateMaxes X x.vars pvs) k) := by
    intro pvs hp
    obtain ⟨m1, m2, m3⟩ := maxes_le hp hvp
    rw [hvs, ← ht] at m2
    rw [show (fun v => N.types.size (N.vty v)) = X.vsize from hvs.symm] at *
    have hW : (stateMaxes X x.vars pvs).prod < W64 := by have := hx.total64; unfold W64; omega
    have hc : codecMax (stateMaxes X x.vars pvs) = (stateMaxes X x.vars pvs).prod := by
      unfold codecMax; rw [codec_new _ m1 hW]; rfl
    refine ⟨hc, by rw [hc]; exact m2, fun k hk b => ?_⟩
    rw [hc] at hk
    have hul := (unrank_spec _ m1 k hk).1
    have hlen : (unrank (stateMaxes X x.vars pvs) k).length = x.vars.length := by
      rw [← m3]; exact inSizes_length hul
    have hpl : x.vars.length = pvs.length := pvs_length hp
    have hdec : ∀ i, decodeAt (stateMaxes X x.vars pvs) k i = decodeAt (stateMaxes X x.vars pvs) k i := fun _ => rfl
    rw [(dataBind_spec _ k _ hdec x.vars pvs 0 b hx.nodup hpl).2]
    congr 1
    apply List.ext_getElem?
    intro j
    by_cases hj : j < x.vars.length
    · rw [List.getElem?_map, List.getElem?_range hj, Option.map_some, Nat.zero_add, decodeAt_eq m1 (by unfold W64 at hW; omega) hk (by rw [m3]; exact hj),
        List.getD_eq_getElem?_getD, List.getElem?_eq_getElem (by rw [hlen]; exact hj)]
      rfl
    · rw [List.getElem?_eq_none (by simp; omega), List.getElem?_eq_none (by rw [hlen]; omega)]
  refine ⟨fun d hd => ?_, fun hcons b hb hc => ?_⟩
  · unfold calcData at hd
    obtain ⟨pvs, q1, rfl⟩ := Option.map_eq_some_iff.1 hd
    have hp := p1 pvs q1
    obtain ⟨k1, k2, k3⟩ := key pvs hp
    refine ⟨k2, fun k hk b => ?_, fun k hk b b' => map_eq_on (by rw [k3 k hk b, k3 k hk b'])⟩
    have hin := (unrank_spec _ (maxes_le hp hvp).1 k (by rw [← k1]; exact hk)).1
    have := picks_lt hp hin
    rw [← k3 k hk b, hvs, inSizes_on] at this
    exact this
  · obtain ⟨pvs, q1, q2⟩ := p2 b (all_cons_sound w hX hx hcons hm hb hc)
    have hp := p1 pvs q1
    obtain ⟨k1, k2, k3⟩ := key pvs hp
    refine ⟨⟨_, _, pvs⟩, by unfold calcData; rw [q1]; rfl, ?_⟩
    obtain ⟨ks, s1, s2⟩ := picks_has hp q2 fun v hv => by rw [d3]; exact hb v hv
    have hr : rank (stateMaxes X x.vars pvs) ks < codecMax (stateMaxes X x.vars pvs) := by rw [k1]; exact rank_lt _ _ s1
    refine ⟨rank (stateMaxes X x.vars pvs) ks, hr, fun b' => map_eq_on ?_⟩
    rw [k3 _ hr b', unrank_rank s1, s2]
where
  inSizes_length : ∀ {ss vs : List Nat}, InSizes ss vs → vs.length = ss.length
    | [], [], _ => rfl
    | _ :: _, _ :: _, h => by simp [inSizes_length h.2]
    | [], _ :: _, h => h.elim
    | _ :: _, [], h => h.elim
  pvs_length {f : Nat → Nat} : ∀ {vs : List Nat} {pvs : List PV}, PVs f vs pvs → vs.length = pvs.length
    | _, _, .nil => rfl
    | _, _, .cons _ h => by simp [pvs_length h]

/-! ## Finding -/

/-- What the cache may hold for a state and a transition. -/
def CacheOK (X : XNet) (m : XMark) (x : XTrans) (cache : Option CData) : Prop :=
  ∀ d, cache = some d → calcData X m x = some d ∧ 30 < x.total

/-- the number of bindings to look at -/
def XTrans.bids (x : XTrans) : Nat := if x.total = 0 then 1 else x.total

/-- A found binding is enabled in the sense of the engine, except for inhibitors; the cache stays right. -/
theorem find_sound {N : CNet} (w : XOK N) {X : XNet} (hX : build N = some X) {t : Nat} {x : XTrans} (hx : TOK N t x)
    {m : XMark} (hm : MOK N m) {bid : Nat} {b : Bind} {cache : Option CData} (hcache : CacheOK X m x cache) :
    CacheOK X m x (findNext X m x bid b cache).1 ∧ ∀ k b', (findNext X m x bid b cache).2 = some (k, b') →
      bid ≤ k ∧ k < x.bids ∧ Bound N.types N.vty b' x.vars ∧ checkPG m x b' = true ∧ (bid = 0 → checkInh m x = true) := by
  have hinh : ¬(bid = 0 ∧ earlyStop m x = true) → bid = 0 → checkInh m x = true := fun h h0 => by
    unfold earlyStop at h
    cases hi : checkInh m x with
    | true => rfl
    | false => exact absurd ⟨h0, by rw [hi]; rfl⟩ h
  unfold findNext
  by_cases he : bid = 0 ∧ earlyStop m x = true
  · rw [if_pos he]
    exact ⟨hcache, fun k b' h => by cases h⟩
  · rw [if_neg he]
    by_cases h0 : x.total = 0
    · rw [if_pos h0]
      refine ⟨hcache, fun k b' h => ?_⟩
      dsimp only at h
      split at h
      · rename_i hc
        simp only [Option.some.injEq, Prod.mk.injEq] at h
        obtain ⟨rfl, rfl⟩ := h
        have hvn : x.vars = [] := by
          have ht := hx.total
          split at ht
          · assumption
          · rw [h0] at ht
            have hp := inSizes_pos (x.vars.map fun v => N.types.size (N.vty v)) fun s hs => by
              obtain ⟨v, _, rfl⟩ := List.mem_map.1 hs
              exact vsize_pos w v
            omega
        refine ⟨Nat.le_refl _, by unfold XTrans.bids; rw [if_pos h0]; omega, ?_, ?_, hinh he⟩
        · intro v hv; rw [hvn] at hv; cases hv
        · rw [checkPG_congr hx m (c := Bind.none) fun v hv => by rw [hvn] at hv; cases hv]
          exact hc.2
      · cases h
    · rw [if_neg h0]
      have hb0 : x.bids = x.total := by unfold XTrans.bids; rw [if_neg h0]
      dsimp only
      generalize hc' : (if x.total > 30 ∧ cache = none then calcData X m x else cache) = cache'
      have hok : CacheOK X m x cache' := by
        rw [← hc']
        split
        · rename_i h; intro d hd; exact ⟨hd, h.1⟩
        · exact hcache
      split
      · exact ⟨(fun d hd => by cases hd), fun k b' h => by cases h⟩
      · cases cache' with
        | none =>
          dsimp only
          refine ⟨(fun d hd => by cases hd), fun k b' h => ?_⟩
          obtain ⟨s1, s2, s3, b0, rfl⟩ := scan_some _ _ _ _ _ _ h
          exact ⟨s1, by omega, (getBinding_ok w hX hx h0).1 k, s3, hinh he⟩
        | some d =>
          dsimp only
          refine ⟨hok, fun k b' h => ?_⟩
          obtain ⟨s1, s2, s3, b0, rfl⟩ := scan_some _ _ _ _ _ _ h
          obtain ⟨c1, c2, _⟩ := (calcData_ok w hX hx h0 hm).1 d (hok d rfl).1
          exact ⟨s1, by omega, c2 k (by omega) b0, s3, hinh he⟩

/-- Every binding that the net allows has a number at which it is found, unless another is found before. -/
theorem find_complete {N : CNet} (w : XOK N) {X : XNet} (hX : build N = some X) {t : Nat} {x : XTrans} (hx : TOK N t x)
    (hmin : ∀ a ∈ x.inputs, a.2.minOK) (hcons : 30 < x.total → ConsOK N t)
    {m : XMark} (hm : MOK N m) {β : Bind} (hβ : Bound N.types N.vty β x.vars) (hc : checkPG m x β = true) (hi : checkInh m x = true) :
    ∃ K < x.bids, ∀ bid ≤ K, ∀ b cache, CacheOK X m x cache → ∃ k b', (findNext X m x bid b cache).2 = some (k, b') ∧
      bid ≤ k ∧ k ≤ K ∧ (k = K → ∀ v ∈ x.vars, b' v = β v) := by
  have he := early_ok hx hm hmin hβ hc hi
  have hne : ∀ bid, ¬(bid = 0 ∧ earlyStop m x = true) := fun bid h => by rw [he] at h; simp at h
  by_cases h0 : x.total = 0
  · have hvn : x.vars = [] := by
      have ht := hx.total
      split at ht
      · assumption
      · rw [h0] at ht
        have hp := inSizes_pos (x.vars.map fun v => N.types.size (N.vty v)) fun s hs => by
          obtain ⟨v, _, rfl⟩ := List.mem_map.1 hs
          exact vsize_pos w v
        omega
    refine ⟨0, by unfold XTrans.bids; rw [if_pos h0]; omega, fun bid hbid b cache _ => ?_⟩
    have hb : bid = 0 := by omega
    subst hb
    have hcn : checkPG m x Bind.none = true := by
      rw [checkPG_congr hx m (c := β) fun v hv => by rw [hvn] at hv; cases hv]; exact hc
    unfold findNext
    rw [if_neg (hne 0), if_pos h0]
    dsimp only
    rw [if_pos ⟨rfl, hcn⟩]
    exact ⟨0, b, rfl, Nat.le_refl _, Nat.le_refl _, fun _ v hv => by rw [hvn] at hv; cases hv⟩
  · have hb0 : x.bids = x.total := by unfold XTrans.bids; rw [if_neg h0]
    by_cases h30 : 30 < x.total
    · obtain ⟨d, d1, K, hK, d2⟩ := (calcData_ok w hX hx h0 hm).2 (hcons h30) β hβ hc
      obtain ⟨c1, c2, c3⟩ := (calcData_ok w hX hx h0 hm).1 d d1
      refine ⟨K, by omega, fun bid hbid b cache hcache => ?_⟩
      have hc' : (if x.total > 30 ∧ cache = none then calcData X m x else cache) = some d := by
        cases cache with
        | none => rw [if_pos ⟨h30, rfl⟩, d1]
        | some d' =>
          rw [if_neg (by simp)]
          have := (hcache d' rfl).1
          rw [d1] at this
          exact this.symm
      unfold findNext
      rw [if_neg (hne bid), if_neg h0]
      dsimp only
      rw [hc', if_neg (by simp)]
      dsimp only
      obtain ⟨k, b', s1, s2, s3⟩ := scan_find m x (fun i b => dataBind d.sizes i 0 d.vars d.values b) (K := K) (fun b' => by
        rw [checkPG_congr hx m (c := β) (d2 b')]; exact hc) (codecMax d.sizes - bid) bid b hbid (by omega)
      refine ⟨k, b', s1, s2, s3, fun hk v hv => ?_⟩
      obtain ⟨_, _, _, b0, rfl⟩ := scan_some _ _ _ _ _ _ s1
      rw [hk]
      exact d2 b0 v hv
    · obtain ⟨K, hK, g2⟩ := (getBinding_ok w hX hx h0).2 β hβ
      refine ⟨K, by omega, fun bid hbid b cache hcache => ?_⟩
      have hcn : cache = none := by
        cases cache with
        | none => rfl
        | some d => exact absurd (hcache d rfl).2 h30
      subst hcn
      unfold findNext
      rw [if_neg (hne bid), if_neg h0]
      dsimp only
      rw [if_neg (fun h => h30 h.1), if_neg (fun h => h30 h.1)]
      dsimp only
      obtain ⟨k, b', s1, s2, s3⟩ := scan_find m x (fun i _ => getBinding X x i) (K := K) (fun b' => by
        rw [checkPG_congr hx m (c := β) g2]; exact hc) (x.total - bid) bid b hbid (by omega)
      refine ⟨k, b', s1, s2, s3, fun hk v hv => ?_⟩
      obtain ⟨_, _, _, b0, rfl⟩ := scan_some _ _ _ _ _ _ s1
      rw [hk]
      exact g2 v hv

end XCol
end Verif
