import Verif.XCol.MarkLemmas

/-!
# The successor generator finds the enabled bindings
-/

namespace Verif
namespace XCol
open Colored CPN OffsetsProps

/-! ## Only the variables of a transition matter -/

theorem seqVals_congr {b c : Bind} : ∀ (sizes : List Nat) (q : List PC), (∀ v ∈ pcVars q, b v = c v) → seqVals b sizes q = seqVals c sizes q
  | [], [], _ => rfl
  | [], _ :: _, _ => rfl
  | _ :: _, [], _ => rfl
  | s :: ss, p :: q, h => by
    rw [pcVars_cons] at h
    rw [seqVals, seqVals, seqVals_congr ss q fun v hv => h v (List.mem_append_right _ hv)]
    congr 1
    unfold PC.val PC.base
    cases hp : p.isVar with
    | false => rfl
    | true =>
      simp only [if_true]
      rw [h p.value (List.mem_append_left _ (by simp [pcVars, hp]))]

theorem addSeqs_congr {b c : Bind} (sizes : List Nat) (k : Int) : ∀ (qs : List (List PC)) (m : MS),
    (∀ v ∈ (qs.map pcVars).flatten, b v = c v) → addSeqs b sizes k qs m = addSeqs c sizes k qs m
  | [], _, _ => rfl
  | q :: qs, m, h => by
    rw [List.map_cons, List.flatten_cons] at h
    have e : seqColor b sizes q = seqColor c sizes q := by
      unfold seqColor; rw [seqVals_congr sizes q fun v hv => h v (List.mem_append_left _ hv)]
    rw [addSeqs, addSeqs, e, addSeqs_congr sizes k qs _ fun v hv => h v (List.mem_append_right _ hv)]

theorem eval_congr {b c : Bind} (a : Arc) (h : ∀ v ∈ a.vars, b v = c v) :
    a.eval b = a.eval c ∧ ∀ out, a.consume b out = a.consume c out := by
  induction a with
  | add l r il ir =>
    rw [Arc.vars] at h
    obtain ⟨l1, l2⟩ := il fun v hv => h v (List.mem_append_left _ hv)
    obtain ⟨r1, r2⟩ := ir fun v hv => h v (List.mem_append_right _ hv)
    exact ⟨by rw [Arc.eval, Arc.eval, l1, r1], fun out => by rw [Arc.consume, Arc.consume, l2, r2]⟩
  | sub l r il ir =>
    rw [Arc.vars] at h
    obtain ⟨l1, l2⟩ := il fun v hv => h v (List.mem_append_left _ hv)
    obtain ⟨r1, r2⟩ := ir fun v hv => h v (List.mem_append_right _ hv)
    exact ⟨by rw [Arc.eval, Arc.eval, l1, r2], fun out => by rw [Arc.consume, Arc.consume, l1, r2]⟩
  | const m => exact ⟨by rw [Arc.eval, Arc.eval], fun out => by rw [Arc.consume, Arc.consume]⟩
  | coll qs sizes k =>
    rw [Arc.vars] at h
    exact ⟨by rw [Arc.eval, Arc.eval, addSeqs_congr _ _ _ _ h], fun out => by rw [Arc.consume, Arc.consume, addSeqs_congr _ _ _ _ h]⟩

theorem gv_congr {b c : Bind} {g : GV} (h : ∀ v ∈ gvVars [g], b v = c v) : g.get b = g.get c := by
  unfold GV.get
  cases hg : g.isVar with
  | false => rfl
  | true =>
    simp only [if_true]
    rw [h g.value (by simp [gvVars, hg])]

theorem eqLoop_congr {b c : Bind} : ∀ (xs ys : List GV), (∀ v ∈ gvVars xs ++ gvVars ys, b v = c v) → eqLoop b xs ys = eqLoop c xs ys
  | [], [], _ => rfl
  | [], _ :: _, _ => rfl
  | _ :: _, [], _ => rfl
  | x :: xs, y :: ys, h => by
    rw [gvVars_cons x xs, gvVars_cons y ys] at h
    rw [eqLoop, eqLoop, gv_congr (g := x) (b := b) (c := c) fun v hv => h v (by simp [hv]),
      gv_congr (g := y) (b := b) (c := c) fun v hv => h v (by simp [hv]),
      eqLoop_congr xs ys fun v hv => h v (by rcases List.mem_append.1 hv with hv | hv <;> simp [hv])]

theorem xguard_congr {b c : Bind} (g : XGuard) (h : ∀ v ∈ g.vars, b v = c v) : g.eval b = g.eval c := by
  induction g with
  | lt x y =>
    rw [XGuard.vars, gvVars_cons] at h
    rw [XGuard.eval, XGuard.eval, gv_congr (g := x) (b := b) (c := c) fun v hv => h v (List.mem_append_left _ hv),
      gv_congr (g := y) (b := b) (c := c) fun v hv => h v (List.mem_append_right _ hv)]
  | le x y =>
    rw [XGuard.vars, gvVars_cons] at h
    rw [XGuard.eval, XGuard.eval, gv_congr (g := x) (b := b) (c := c) fun v hv => h v (List.mem_append_left _ hv),
      gv_congr (g := y) (b := b) (c := c) fun v hv => h v (List.mem_append_right _ hv)]
  | eq xs ys => rw [XGuard.eval, XGuard.eval, eqLoop_congr xs ys h]
  | ne xs ys => rw [XGuard.eval, XGuard.eval, neLoop_eq, neLoop_eq, eqLoop_congr xs ys h]
  | and g h' ig ih =>
    rw [XGuard.vars] at h
    rw [XGuard.eval, XGuard.eval, ig fun v hv => h v (List.mem_append_left _ hv), ih fun v hv => h v (List.mem_append_right _ hv)]
  | or g h' ig ih =>
    rw [XGuard.vars] at h
    rw [XGuard.eval, XGuard.eval, ig fun v hv => h v (List.mem_append_left _ hv), ih fun v hv => h v (List.mem_append_right _ hv)]

theorem checkPG_congr {N : CNet} {t : Nat} {x : XTrans} (hx : TOK N t x) (m : XMark) {b c : Bind} (h : ∀ v ∈ x.vars, b v = c v) :
    checkPG m x b = checkPG m x c := by
  have hg : guardOK x.guard b = guardOK x.guard c := by
    cases hg : x.guard with
    | none => rfl
    | some g => exact xguard_congr g fun v hv => h v (hx.gvars g hg v hv)
  unfold checkPG
  rw [hg]
  have : (x.inputs.all fun a => a.2.isSubSet b (m a.1)) = x.inputs.all fun a => a.2.isSubSet c (m a.1) := by
    rw [Bool.eq_iff_iff, List.all_eq_true, List.all_eq_true]
    have key : ∀ a ∈ x.inputs, a.2.isSubSet b (m a.1) = a.2.isSubSet c (m a.1) := fun a ha => by
      unfold Arc.isSubSet
      rw [(eval_congr a.2 fun v hv => h v (hx.ivars a ha v hv)).1]
    constructor
    · intro h' a ha; rw [← key a ha]; exact h' a ha
    · intro h' a ha; rw [key a ha]; exact h' a ha
  rw [this]

/-! ## The initial marking -/

theorem dec_comps : ∀ (ns : List Nat) (i : Nat), comps ns i = dec ns i
  | [], _ => rfl
  | n :: ns, i => by rw [comps, dec, dec_comps]

theorem fold_set (κ : Nat → Nat) : ∀ (l : List (Nat × Nat)) (m : MS), m.Good → (l.map fun q => κ q.1).Nodup →
    (∀ q ∈ l, m.val (κ q.1) = 0) →
    (l.foldl (fun m q => m.setCount (κ q.1) (q.2 : Nat)) m).Good ∧
    ∀ c, (l.foldl (fun m q => m.setCount (κ q.1) (q.2 : Nat)) m).val c = m.val c + ((l.map fun q => if κ q.1 = c then q.2 else 0).sum : Nat)
  | [], m, hm, _, _ => ⟨hm, fun c => by simp⟩
  | q :: l, m, hm, hn, h0 => by
    rw [List.map_cons, List.nodup_cons] at hn
    have hz := h0 q (by simp)
    have hs : m.setCount (κ q.1) (q.2 : Nat) = m.addCount (κ q.1) (q.2 : Nat) := by
      rw [MS.setCount_eq hm.wf, hz, Int.sub_zero]
    have hv : ∀ c, (m.addCount (κ q.1) (q.2 : Nat)).val c = m.val c + if c = κ q.1 then (q.2 : Int) else 0 := MS.addCount_val hm.wf _ _
    have hg : (m.addCount (κ q.1) (q.2 : Nat)).Good := MS.good_of_val (MS.addCount_wf hm.wf _ _) fun c => by
      rw [hv]
      have := hm.val_nonneg c
      split <;> omega
    obtain ⟨i1, i2⟩ := fold_set κ l (m.addCount (κ q.1) (q.2 : Nat)) hg hn.2 fun r hr => by
      rw [hv, h0 r (by simp [hr]), if_neg (fun e => hn.1 (by rw [← e]; exact List.mem_map.2 ⟨r, hr, rfl⟩))]
      rfl
    rw [List.foldl_cons, hs]
    refine ⟨i1, fun c => ?_⟩
    rw [i2, hv, List.map_cons, List.sum_cons]
    by_cases hc : κ q.1 = c
    · rw [if_pos hc.symm, if_pos hc]; omega
    · rw [if_neg (fun e => hc e.symm), if_neg hc]; omega

theorem tokenSeq_eq {T : Types} {ty i : Nat} (h : i < T.size ty) : tokenSeq T ty i = dec (T.dims ty) i := by
  unfold tokenSeq Types.dims
  cases hp : T.parts ty with
  | none =>
    rw [size_plain hp] at h
    simp [dec, Nat.mod_eq_of_lt h]
  | some cs => exact dec_comps _ _

theorem placeInit_ok {T : Types} (w : TFit T) {pl : CPlace} (hn : (pl.marking.map (·.1)).Nodup)
    (hl : ∀ i ∈ pl.marking.map (·.1), i < T.size pl.ty) : (placeInit T pl).Good ∧
      ∀ c, (placeInit T pl).val c = ((pl.marking.map fun q => if rank (T.dims pl.ty) (T.value ⟨pl.ty, q.1⟩) = c then q.2 else 0).sum : Nat) := by
  have hval : ∀ i ∈ pl.marking.map (·.1), InSizes (T.dims pl.ty) (T.value ⟨pl.ty, i⟩) := fun i hi =>
    mem_values_iff.1 (mem_values T |>.2 ⟨i, hl i hi, rfl⟩)
  have hk : ∀ i ∈ pl.marking.map (·.1), pack (xdims T pl.ty) (tokenSeq T pl.ty i) = rank (T.dims pl.ty) (T.value ⟨pl.ty, i⟩) := fun i hi => by
    rw [xdims_eq, tokenSeq_eq (hl i hi), ← value_eq T (hl i hi)]
    exact pack_eq (hval i hi) (by rw [← size_eq]; exact w.small _)
  obtain ⟨f1, f2⟩ := fold_set (fun i => pack (xdims T pl.ty) (tokenSeq T pl.ty i)) pl.marking MS.empty MS.good_empty (by
      have : (pl.marking.map fun q => pack (xdims T pl.ty) (tokenSeq T pl.ty q.1)) =
          (pl.marking.map (·.1)).map fun i => pack (xdims T pl.ty) (tokenSeq T pl.ty i) := by rw [List.map_map]; rfl
      rw [this]
      refine nodup_map_on ?_ hn
      intro i hi j hj hij
      rw [hk i hi, hk j hj] at hij
      exact value_inj T (hl i hi) (hl j hj) (rank_inj (hval i hi) (hval j hj) hij)) (fun q _ => rfl)
  refine ⟨f1, fun c => ?_⟩
  have e := f2 c
  unfold placeInit
  rw [e]
  have e0 : MS.empty.val c = 0 := rfl
  rw [e0, Int.zero_add]
  congr 1
  apply sum_congr
  intro q hq
  rw [hk q.1 (List.mem_map.2 ⟨q, hq, rfl⟩)]
where
  nodup_map_on {f : Nat → Nat} {l : List Nat} (h : ∀ i ∈ l, ∀ j ∈ l, f i = f j → i = j) (hn : l.Nodup) : (l.map f).Nodup := by
    induction l with
    | nil => simp
    | cons a l ih =>
      rw [List.nodup_cons] at hn
      rw [List.map_cons, List.nodup_cons]
      refine ⟨fun hm => ?_, ih (fun i hi j hj => h i (by simp [hi]) j (by simp [hj])) hn.2⟩
      obtain ⟨x, hx, he⟩ := List.mem_map.1 hm
      have := h x (by simp [hx]) a (by simp) he
      subst this
      exact hn.1 hx

/-- The initial marking of the engine is the initial marking of the net. -/
theorem init_ok {N : CNet} (w : XOK N) {X : XNet} (h : build N = some X) : MOK N X.init ∧ abs N X.init = N.init := by
  obtain ⟨_, _, _, hi⟩ := build_data h
  have hv : ∀ p, (X.init p).Good ∧ ∀ c, (X.init p).val c =
      (((N.place p).marking.map fun q => if rank (N.types.dims (N.place p).ty) (N.types.value ⟨(N.place p).ty, q.1⟩) = c then q.2 else 0).sum : Nat) := fun p => by
    rw [hi]
    dsimp only
    split
    · rename_i hp
      obtain ⟨m1, m2⟩ := w.marking _ (place_mem hp)
      exact placeInit_ok w.types m1 m2
    · rename_i hp
      have : (N.place p).marking = [] := by
        unfold CNet.place
        rw [List.getD_eq_getElem?_getD, List.getElem?_eq_none (by omega)]
        rfl
      rw [this]
      exact ⟨MS.good_empty, fun c => rfl⟩
  have hin : ∀ p, ∀ q ∈ (N.place p).marking, InSizes (N.types.dims (N.place p).ty) (N.types.value ⟨(N.place p).ty, q.1⟩) := fun p q hq => by
    by_cases hp : p < N.places.length
    · exact mem_values_iff.1 (mem_values N.types |>.2 ⟨q.1, (w.marking _ (place_mem hp)).2 q.1 (List.mem_map.2 ⟨q, hq, rfl⟩), rfl⟩)
    · have : (N.place p).marking = [] := by
        unfold CNet.place
        rw [List.getD_eq_getElem?_getD, List.getElem?_eq_none (by omega)]
        rfl
      rw [this] at hq; cases hq
  have hM : MOK N X.init := fun p => ⟨(hv p).1, fun c hc => by
    rw [(hv p).2 c]
    have : ((N.place p).marking.map fun q => if rank (N.types.dims (N.place p).ty) (N.types.value ⟨(N.place p).ty, q.1⟩) = c then q.2 else 0).sum = 0 := by
      apply sum_zero
      intro q hq
      have := rank_lt _ _ (hin p q hq)
      rw [← size_eq] at this
      rw [if_neg (by omega)]
    rw [this]; rfl⟩
  refine ⟨hM, ?_⟩
  funext p x
  unfold CNet.init
  by_cases hx : x ∈ N.types.values (N.place p).ty
  · have h1 := abs_eq hM hx
    rw [(hv p).2] at h1
    have h2 : ((N.place p).marking.map fun q => if rank (N.types.dims (N.place p).ty) (N.types.value ⟨(N.place p).ty, q.1⟩) = rank (N.types.dims (N.place p).ty) x then q.2 else 0).sum =
        ((N.place p).marking.map fun q => if N.types.value ⟨(N.place p).ty, q.1⟩ = x then q.2 else 0).sum := by
      apply sum_congr
      intro q hq
      by_cases e : N.types.value ⟨(N.place p).ty, q.1⟩ = x
      · rw [if_pos e, if_pos (by rw [e])]
      · rw [if_neg e, if_neg fun e' => e (rank_inj (hin p q hq) (mem_values_iff.1 hx) e')]
    rw [h2] at h1
    exact Int.ofNat.inj h1
  · unfold abs
    rw [if_neg hx]
    symm
    apply sum_zero
    intro q hq
    rw [if_neg fun e => hx (by rw [← e]; exact mem_values_iff.2 (hin p q hq))]

/-! ## Numbers of bindings -/

theorem unrank_mod : ∀ (ss : List Nat) (k : Nat), unrank ss (k % ss.prod) = unrank ss k
  | [], _ => rfl
  | s :: ss, k => by
    rw [unrank, unrank, List.prod_cons]
    congr 1
    · rw [Nat.mod_mul_left_div_self, Nat.mod_mod]
    · rw [Nat.mod_mul_left_mod]

theorem bindLoop_spec (vsize : Nat → Nat) (bid : Nat) : ∀ (vs : List Nat) (b : Bind), vs.Nodup → (∀ v ∈ vs, 0 < vsize v) →
    (∀ v, v ∉ vs → bindLoop vsize bid (vs.map vsize).prod vs b v = b v) ∧
    vs.map (bindLoop vsize bid (vs.map vsize).prod vs b) = unrank (vs.map vsize) bid
  | [], b, _, _ => ⟨fun _ _ => rfl, rfl⟩
  | v :: vs, b, hn, hp => by
    rw [List.nodup_cons] at hn
    have hv := hp v (by simp)
    have hd : (vsize v * (vs.map vsize).prod) / vsize v = (vs.map vsize).prod := Nat.mul_div_cancel_left _ hv
    obtain ⟨i1, i2⟩ := bindLoop_spec vsize bid vs (b.set v (bid / (vs.map vsize).prod % vsize v)) hn.2 fun u hu => hp u (by simp [hu])
    rw [List.map_cons, List.prod_cons, bindLoop, hd]
    refine ⟨fun u hu => ?_, ?_⟩
    · rw [List.mem_cons, not_or] at hu
      rw [i1 u hu.2]
      unfold Bind.set
      rw [if_neg hu.1]
    · rw [List.map_cons, i1 v hn.1, i2, unrank, unrank_mod]
      unfold Bind.set
      rw [if_pos rfl]

/-! ## The early stop -/

/-- The smallest demand of an arc is computed rightly: nothing is subtracted from a subtrahend, and no number is
negative. -/
def Arc.minOK (a : Arc) : Prop := a.subOK = true ∧ NonNeg a.minMark.1.counts

theorem minOK_of_noSub {a : Arc} (h : a.OK) (hs : a.noSub = true) : a.minOK := by
  refine ⟨Arc.subOK_of_noSub a hs, ?_⟩
  have : a.minMark.1.Good := by
    induction a with
    | add l r il ir =>
      simp only [Arc.noSub, Bool.and_eq_true] at hs
      exact MS.good_plus (il h.1 hs.1) (ir h.2 hs.2)
    | sub l r => simp [Arc.noSub] at hs
    | const m => exact h
    | coll qs sizes k => exact (collMin_spec Bind.none sizes k qs MS.empty 0 MS.good_empty).1
  exact this.nn

theorem early_ok {N : CNet} {t : Nat} {x : XTrans} (hx : TOK N t x) {m : XMark} (hm : MOK N m)
    (hmin : ∀ a ∈ x.inputs, a.2.minOK) {b : Bind} (hb : Bound N.types N.vty b x.vars) (hc : checkPG m x b = true)
    (hi : checkInh m x = true) : earlyStop m x = false := by
  unfold earlyStop
  rw [hi]
  simp only [Bool.not_true, Bool.false_eq_true, if_false, Bool.not_eq_false']
  unfold hasMinimal
  rw [List.all_eq_true]
  intro a ha
  have hle := ((checkPG_iff hx hm hb).1 hc).2 a ha
  have ho := hx.ins a ha
  have hcard := MS.card_mono (eval_good b ho).wf (hm a.1).1.wf hle
  have hcb := (card_bounds b a.2 ho).1
  rw [if_neg (by omega)]
  obtain ⟨m1, m2⟩ := min_spec b a.2 ho (hmin a ha).1
  rw [MS.le_spec m1 (hm a.1).1.wf (hmin a ha).2 (hm a.1).1.nn]
  intro c
  have := m2 c
  have := hle c
  omega

/-! ## Scanning -/

theorem scan_some (m : XMark) (x : XTrans) (mk : Nat → Bind → Bind) : ∀ (n bid : Nat) (b : Bind) {k : Nat} {b' : Bind},
    scan m x mk n bid b = some (k, b') → bid ≤ k ∧ k < bid + n ∧ checkPG m x b' = true ∧ ∃ b0, b' = mk k b0
  | 0, bid, b, k, b', h => by simp [scan] at h
  | n + 1, bid, b, k, b', h => by
    rw [scan] at h
    split at h
    · rename_i hc
      simp only [Option.some.injEq, Prod.mk.injEq] at h
      obtain ⟨rfl, rfl⟩ := h
      exact ⟨Nat.le_refl _, by omega, hc, b, rfl⟩
    · obtain ⟨h1, h2, h3⟩ := scan_some m x mk n (bid + 1) _ h
      exact ⟨by omega, by omega, h3⟩

theorem scan_find (m : XMark) (x : XTrans) (mk : Nat → Bind → Bind) {K : Nat} (hK : ∀ b, checkPG m x (mk K b) = true) :
    ∀ (n bid : Nat) (b : Bind), bid ≤ K → K < bid + n → ∃ k b', scan m x mk n bid b = some (k, b') ∧ bid ≤ k ∧ k ≤ K
  | 0, bid, b, h1, h2 => by omega
  | n + 1, bid, b, h1, h2 => by
    rw [scan]
    split
    · exact ⟨bid, _, rfl, Nat.le_refl _, h1⟩
    · rename_i hc
      have hne : bid ≠ K := fun e => hc (by rw [e]; exact hK b)
      obtain ⟨k, b', i1, i2, i3⟩ := scan_find m x mk hK n (bid + 1) (mk bid b) (by omega) (by omega)
      exact ⟨k, b', i1, by omega, i3⟩

/-! ## Constraints -/

theorem decodeAt_eq {sizes : List Nat} (hp : ∀ s ∈ sizes, 0 < s) (hW : sizes.prod < 2 ^ 64) {c : Nat} (hc : c < sizes.prod) {i : Nat}
    (hi : i < sizes.length) : decodeAt sizes c i = (unrank sizes c).getD i 0 := by
  obtain ⟨u1, u2⟩ := unrank_spec sizes hp c hc
  obtain ⟨k, k1, _, k3⟩ := C35_decode_rank sizes (unrank sizes c) u1 hW
  have := k3 i hi
  rw [u2] at this
  unfold decodeAt
  rw [k1, Option.bind_some, this, List.getD_eq_getElem?_getD]

/-- What the possible values of a variable have to do with its value. -/
structure PVOK (size : Nat) (pv : PV) : Prop where
  lt : ∀ c ∈ pv.colors, c < size
  nodup : pv.colors.Nodup
  ne : pv.all = false → pv.colors ≠ []
  allNil : pv.all = true → pv.colors = []

def PV.has (pv : PV) (c : Nat) : Prop := pv.all = true ∨ c ∈ pv.colors

theorem possible_lt (X : XNet) (m : XMark) {size : Nat} (hs : 0 < size) (i : Nat) (o : Int) (p : Nat) : ∀ c ∈ possible X m size i o p, c < size := by
  intro c hc
  unfold possible at hc
  rw [mem_toSet] at hc
  obtain ⟨e, _, rfl⟩ := List.mem_map.1 hc
  exact off_lt _ _ hs

/-- the possible values after one constraint -/
def consNext (pos : List Nat) (size : Nat) (pv : PV) : PV :=
  if pv.all then (if pos.length ≠ size then ⟨false, pv.colors ++ pos⟩ else pv) else ⟨false, pv.colors.filter fun c => pos.contains c⟩

theorem consLoop_at (X : XNet) (m : XMark) (size i : Nat) (o : Int) (p : Nat) (cs : List VC) (pv : PV) :
    consLoop X m size (.at i o p :: cs) pv =
      if (consNext (possible X m size i o p) size pv).colors = [] ∧ (consNext (possible X m size i o p) size pv).all = false then none
      else consLoop X m size cs (consNext (possible X m size i o p) size pv) := rfl

theorem consNext_ok {pos : List Nat} {size : Nat} {pv : PV} (h : PVOK size pv) (hl : ∀ c ∈ pos, c < size) (hn : pos.Nodup)
    (hne : ¬((consNext pos size pv).colors = [] ∧ (consNext pos size pv).all = false)) : PVOK size (consNext pos size pv) := by
  unfold consNext at hne ⊢
  by_cases ha : pv.all = true
  · rw [if_pos ha] at hne ⊢
    by_cases hp : pos.length ≠ size
    · rw [if_pos hp] at hne ⊢
      rw [h.allNil ha, List.nil_append] at hne ⊢
      exact ⟨hl, hn, fun _ e => hne ⟨e, rfl⟩, fun e => by cases e⟩
    · rw [if_neg hp] at hne ⊢; exact h
  · rw [if_neg ha] at hne ⊢
    exact ⟨fun c hc => h.lt c (List.mem_filter.1 hc).1, h.nodup.filter _, fun _ e => hne ⟨e, rfl⟩, fun e => by cases e⟩

theorem consNext_has {pos : List Nat} {size : Nat} {pv : PV} {c : Nat} (hc : pv.has c) (hp : c ∈ pos) :
    (consNext pos size pv).has c := by
  unfold consNext PV.has at *
  by_cases ha : pv.all = true
  · rw [if_pos ha]
    by_cases hl : pos.length ≠ size
    · rw [if_pos hl]; right; exact List.mem_append_right _ hp
    · rw [if_neg hl]; exact hc
  · rw [if_neg ha]
    right
    rw [List.mem_filter]
    exact ⟨hc.resolve_left ha, by simpa using hp⟩

theorem consLoop_ok (X : XNet) (m : XMark) {size : Nat} (hs : 0 < size) : ∀ (cs : List VC) (pv : PV), PVOK size pv →
    (∀ pv', consLoop X m size cs pv = some pv' → PVOK size pv') ∧
    ∀ c, pv.has c → (∀ i o p, VC.at i o p ∈ cs → c ∈ possible X m size i o p) →
      ∃ pv', consLoop X m size cs pv = some pv' ∧ pv'.has c
  | [], pv, h => ⟨fun pv' e => by rw [consLoop] at e; obtain rfl := Option.some.inj e; exact h, fun c hc _ => ⟨pv, rfl, hc⟩⟩
  | .top :: cs, pv, h => by
    obtain ⟨i1, i2⟩ := consLoop_ok X m hs cs pv h
    rw [consLoop]
    exact ⟨i1, fun c hc ha => i2 c hc fun i o p hm => ha i o p (by simp [hm])⟩
  | .at i o p :: cs, pv, h => by
    rw [consLoop_at]
    have hl := possible_lt X m hs i o p
    have hn : (possible X m size i o p).Nodup := toSet_nodup _
    by_cases hne : (consNext (possible X m size i o p) size pv).colors = [] ∧ (consNext (possible X m size i o p) size pv).all = false
    · rw [if_pos hne]
      refine ⟨(fun pv' e => by cases e), fun c hc ha => ?_⟩
      have := consNext_has (size := size) hc (ha i o p (by simp))
      rcases this with e | e
      · rw [hne.2] at e; cases e
      · rw [hne.1] at e; cases e
    · rw [if_neg hne]
      have hk := consNext_ok h hl hn hne
      obtain ⟨i1, i2⟩ := consLoop_ok X m hs cs _ hk
      exact ⟨i1, fun c hc ha => i2 c (consNext_has (size := size) hc (ha i o p (by simp))) fun i' o' p' hm => ha i' o' p' (by simp [hm])⟩

/-- the lists of variables and of possible values -/
inductive PVs (vsize : Nat → Nat) : List Nat → List PV → Prop
  | nil : PVs vsize [] []
  | cons {v : Nat} {vs : List Nat} {pv : PV} {pvs : List PV} : PVOK (vsize v) pv → PVs vsize vs pvs → PVs vsize (v :: vs) (pv :: pvs)

inductive Has (b : Bind) : List Nat → List PV → Prop
  | nil : Has b [] []
  | cons {v : Nat} {vs : List Nat} {pv : PV} {pvs : List PV} : pv.has (b v) → Has b vs pvs → Has b (v :: vs) (pv :: pvs)

theorem pvok_all (size : Nat) : PVOK size ⟨true, []⟩ := ⟨(fun c hc => by cases hc), List.nodup_nil, (fun h => by cases h), fun _ => rfl⟩

theorem possibleAll_ok (X : XNet) (m : XMark) (x : XTrans) : ∀ (vs : List Nat), (∀ v ∈ vs, 0 < X.vsize v) →
    (∀ pvs, possibleAll X m x vs = some pvs → PVs X.vsize vs pvs) ∧
    ∀ b : Bind, (∀ v ∈ vs, ∀ cs, x.cons v = some cs → ∀ i o p, VC.at i o p ∈ cs → b v ∈ possible X m (X.vsize v) i o p) →
      ∃ pvs, possibleAll X m x vs = some pvs ∧ Has b vs pvs
  | [], _ => ⟨fun pvs h => by rw [possibleAll] at h; obtain rfl := Option.some.inj h; exact .nil, fun b _ => ⟨[], rfl, .nil⟩⟩
  | v :: vs, hp => by
    obtain ⟨i1, i2⟩ := possibleAll_ok X m x vs fun u hu => hp u (by simp [hu])
    rw [possibleAll]
    cases hc : x.cons v with
    | none =>
      refine ⟨fun pvs h => ?_, fun b hb => ?_⟩
      · obtain ⟨l, l1, rfl⟩ := Option.map_eq_some_iff.1 h
        exact .cons (pvok_all _) (i1 l l1)
      · obtain ⟨l, l1, l2⟩ := i2 b fun u hu => hb u (by simp [hu])
        exact ⟨_, by rw [l1]; rfl, .cons (.inl rfl) l2⟩
    | some cs =>
      obtain ⟨c1, c2⟩ := consLoop_ok X m (hp v (by simp)) cs ⟨true, []⟩ (pvok_all _)
      dsimp only
      refine ⟨fun pvs h => ?_, fun b hb => ?_⟩
      · cases hl : consLoop X m (X.vsize v) cs ⟨true, []⟩ with
        | none => rw [hl] at h; cases h
        | some pv =>
          rw [hl] at h
          obtain ⟨l, l1, rfl⟩ := Option.map_eq_some_iff.1 h
          exact .cons (c1 pv hl) (i1 l l1)
      · obtain ⟨pv, p1, p2⟩ := c2 (b v) (.inl rfl) (hb v (by simp) cs hc)
        obtain ⟨l, l1, l2⟩ := i2 b fun u hu => hb u (by simp [hu])
        rw [p1]
        exact ⟨_, by rw [l1]; rfl, .cons p2 l2⟩

/-- the values for the given choices -/
def picks : List PV → List Nat → List Nat
  | pv :: pvs, k :: ks => (if pv.all then k else pv.colors.getD k 0) :: picks pvs ks
  | _, _ => []

theorem maxes_le {X : XNet} : ∀ {vs : List Nat} {pvs : List PV}, PVs X.vsize vs pvs → (∀ v ∈ vs, 0 < X.vsize v) →
    (∀ s ∈ stateMaxes X vs pvs, 0 < s) ∧ (stateMaxes X vs pvs).prod ≤ (vs.map X.vsize).prod ∧ (stateMaxes X vs pvs).length = vs.length
  | _, _, .nil, _ => ⟨(fun s hs => by cases hs), Nat.le_refl _, rfl⟩
  | _, _, .cons (v := v) (vs := vs) (pv := pv) (pvs := pvs) h1 h2, hp => by
    obtain ⟨i1, i2, i3⟩ := maxes_le h2 fun u hu => hp u (by simp [hu])
    have hv := hp v (by simp)
    have hlen : (if pv.all then X.vsize v else pv.colors.length) ≤ X.vsize v ∧ 0 < (if pv.all then X.vsize v else pv.colors.length) := by
      by_cases ha : pv.all = true
      · rw [if_pos ha]; omega
      · rw [if_neg ha]
        have hne := h1.ne (by simpa using ha)
        refine ⟨?_, List.length_pos_iff.2 hne⟩
        have := h1.nodup.length_le_of_subset (l₂ := List.range (X.vsize v)) fun c hc => List.mem_range.2 (h1.lt c hc)
        simpa using this
    rw [stateMaxes]
    refine ⟨fun s hs => ?_, ?_, by simp [i3]⟩
    · rcases List.mem_cons.1 hs with rfl | hs
      · exact hlen.2
      · exact i1 s hs
    · rw [List.prod_cons, List.map_cons, List.prod_cons]
      exact Nat.mul_le_mul hlen.1 i2

theorem picks_lt {X : XNet} : ∀ {vs : List Nat} {pvs : List PV} {ks : List Nat}, PVs X.vsize vs pvs → InSizes (stateMaxes X vs pvs) ks →
    InSizes (vs.map X.vsize) (picks pvs ks)
  | _, _, [], .nil, _ => trivial
  | _, _, _ :: _, .nil, h => h.elim
  | _, _, [], .cons _ _, h => h.elim
  | _, _, k :: ks, .cons (v := v) (pv := pv) h1 h2, h => by
    rw [stateMaxes] at h
    refine ⟨?_, picks_lt h2 h.2⟩
    have hk := h.1
    by_cases ha : pv.all = true
    · rw [if_pos ha] at hk ⊢; exact hk
    · rw [if_neg ha] at hk ⊢
      rw [List.getD_eq_getElem?_getD, List.getElem?_eq_getElem hk]
      exact h1.lt _ (List.getElem_mem hk)

theorem picks_has {X : XNet} {b : Bind} : ∀ {vs : List Nat} {pvs : List PV}, PVs X.vsize vs pvs → Has b vs pvs →
    (∀ v ∈ vs, b v < X.vsize v) → ∃ ks, InSizes (stateMaxes X vs pvs) ks ∧ picks pvs ks = vs.map b
  | _, _, .nil, _, _ => ⟨[], trivial, rfl⟩
  | _, _, .cons (v := v) (pv := pv) h1 h2, .cons c1 c2, hb => by
    obtain ⟨ks, k1, k2⟩ := picks_has h2 c2 fun u hu => hb u (by simp [hu])
    by_cases ha : pv.all = true
    · refine ⟨b v :: ks, ?_, ?_⟩
      · rw [stateMaxes, if_pos ha]; exact ⟨hb v (by simp), k1⟩
      · rw [picks, if_pos ha, k2]; rfl
    · have hm := c1.resolve_left ha
      obtain ⟨j, hj, he⟩ := List.mem_iff_getElem.1 hm
      refine ⟨j :: ks, ?_, ?_⟩
      · rw [stateMaxes, if_neg ha]; exact ⟨hj, k1⟩
      · rw [picks, if_neg ha, k2, List.getD_eq_getElem?_getD, List.getElem?_eq_getElem hj]
        simp [he]

theorem dataBind_spec (sizes : List Nat) (bid : Nat) (ds : Nat → Nat) (hd : ∀ i, decodeAt sizes bid i = ds i) :
    ∀ (vs : List Nat) (pvs : List PV) (i : Nat) (b : Bind), vs.Nodup → vs.length = pvs.length →
    (∀ v, v ∉ vs → dataBind sizes bid i vs pvs b v = b v) ∧
    vs.map (dataBind sizes bid i vs pvs b) = picks pvs ((List.range vs.length).map fun j => ds (i + j))
  | [], [], i, b, _, _ => ⟨fun _ _ => rfl, rfl⟩
  | [], _ :: _, _, _, _, h => by simp at h
  | _ :: _, [], _, _, _, h => by simp at h
  | v :: vs, pv :: pvs, i, b, hn, hl => by
    rw [List.nodup_cons] at hn
    obtain ⟨i1, i2⟩ := dataBind_spec sizes bid ds hd vs pvs (i + 1)
      (b.set v (if pv.all then decodeAt sizes bid i else pv.colors.getD (decodeAt sizes bid i) 0)) hn.2 (by simpa using hl)
    rw [dataBind]
    refine ⟨fun u hu => ?_, ?_⟩
    · rw [List.mem_cons, not_or] at hu
      rw [i1 u hu.2]
      unfold Bind.set
      rw [if_neg hu.1]
    · rw [List.map_cons, i1 v hn.1, i2, List.length_cons, List.range_succ_eq_map, List.map_cons, picks]
      unfold Bind.set
      rw [if_pos rfl, hd, Nat.add_zero, List.map_map]
      congr 2
      apply List.map_congr_left
      intro j _
      simp only [Function.comp]
      rw [show i + 1 + j = i + (j + 1) by omega]

end XCol
end Verif
