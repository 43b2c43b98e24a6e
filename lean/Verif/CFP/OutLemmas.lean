import Verif.CFP.Align

/-!
# The intervals of output arcs have the colours produced
-/

namespace Verif
namespace CFP

open CPN

variable {T : Types} {vty : Nat → Nat}

theorem outDims_plain (w : T.WF) {e : CExpr} {c : Nat} (h : HasTy T vty e c) (hp : T.parts c = none) : outDims T vty e = [T.basic c] := by
  match e, h with
  | .dot, h => rw [HasTy] at h; subst h; rw [outDims, size_plain hp]
  | .var v, h => rw [HasTy] at h; subst h; rw [outDims, dims_plain hp]
  | .const d, h => rw [HasTy] at h; rw [outDims, ← h.1, size_plain hp]
  | .succ e, h => rw [HasTy] at h; rw [outDims]; exact outDims_plain w h.1 hp
  | .pred e, h => rw [HasTy] at h; rw [outDims]; exact outDims_plain w h.1 hp
  | .tuple es, h => rw [HasTy] at h; obtain ⟨cs, h1, _⟩ := h; rw [hp] at h1; cases h1

theorem nil_box (m : Int) : [] ∈ shiftBox m [] [] := List.mem_singleton.2 rfl

theorem shiftIntervals_has {n : Nat} {m : Int} (hm : -(n : Int) ≤ m) {v : IVec} (hv : IVec.In [n] v) {a : Nat} (h : IVec.Has v [a]) :
    IVec.Has (shiftIntervals m [n] v) [shiftN 32 n m a] := by
  obtain ⟨i, hi, hx⟩ := h
  match i, hx, hv i hi with
  | [r], hx, hin =>
    obtain ⟨q, hq, h1⟩ := shiftRanges_has hm hin.1.1 hin.1.2 hx.1.1 hx.1.2
    refine IVec.addAll_has_right [] ⟨[q], List.mem_flatten.2 ⟨_, List.mem_map.2 ⟨[r], hi, rfl⟩, ?_⟩, h1, trivial⟩
    rw [shiftBox]
    exact List.mem_flatten.2 ⟨_, List.mem_map.2 ⟨q, hq, rfl⟩, List.mem_map.2 ⟨[], nil_box m, rfl⟩⟩

theorem shiftIntervals_in {n : Nat} (hn : 0 < n) {m : Int} {v : IVec} (hv : IVec.In [n] v) : IVec.In [n] (shiftIntervals m [n] v) := by
  refine IVec.In.addAll (nil_in _) fun k hk => ?_
  obtain ⟨l, hl, hk⟩ := List.mem_flatten.1 hk
  obtain ⟨i, hi, rfl⟩ := List.mem_map.1 hl
  match i, hk, hv i hi with
  | [r], hk, hin =>
    rw [shiftBox] at hk
    obtain ⟨l, hl, hk⟩ := List.mem_flatten.1 hk
    obtain ⟨q, hq, rfl⟩ := List.mem_map.1 hl
    obtain ⟨j, hj, rfl⟩ := List.mem_map.1 hk
    have hj' : j = [] := List.mem_singleton.1 hj
    subst hj'
    exact ⟨shiftRanges_in hn m r q hq, trivial⟩

theorem in_append : {ds es : List Nat} → {i j : Interval} → Interval.In ds i → Interval.In es j → Interval.In (ds ++ es) (i ++ j)
  | [], _, [], _, _, h => h
  | _ :: _, _, _ :: _, _, h, g => ⟨h.1, in_append h.2 g⟩
  | [], _, _ :: _, _, h, _ => h.elim
  | _ :: _, _, [], _, h, _ => h.elim

theorem cross_has {acc res : IVec} {x y : Val} (h1 : IVec.Has acc x) (h2 : IVec.Has res y) : IVec.Has (crossIntervals acc res) (x ++ y) := by
  unfold crossIntervals
  rw [if_neg (by rw [isEmpty_of_has h1]; exact Bool.false_ne_true)]
  obtain ⟨i, hi, hx⟩ := h1
  obtain ⟨r, hr, hy⟩ := h2
  obtain ⟨k, hk, hz⟩ := IVec.addAll_has_right (x := x ++ y) [] (l := acc.map fun i => i ++ r)
    ⟨i ++ r, List.mem_map.2 ⟨i, hi, rfl⟩, (Interval.has_append hx.length).2 ⟨hx, hy⟩⟩
  exact IVec.addAll_has_right [] ⟨k, List.mem_flatten.2 ⟨_, List.mem_map.2 ⟨r, hr, rfl⟩, hk⟩, hz⟩

theorem cross_in {ds es : List Nat} {acc res : IVec} (h1 : IVec.In ds acc) (h2 : IVec.In es res) (hne : acc ≠ []) : IVec.In (ds ++ es) (crossIntervals acc res) := by
  unfold crossIntervals
  have : acc.isEmpty = false := by
    cases acc with
    | nil => exact absurd rfl hne
    | cons => rfl
  rw [if_neg (by rw [this]; exact Bool.false_ne_true)]
  refine IVec.In.addAll (nil_in _) fun k hk => ?_
  obtain ⟨l, hl, hk⟩ := List.mem_flatten.1 hk
  obtain ⟨r, hr, rfl⟩ := List.mem_map.1 hl
  refine IVec.In.addAll (dims := ds ++ es) (nil_in _) (fun j hj => ?_) k hk
  obtain ⟨i, hi, rfl⟩ := List.mem_map.1 hj
  exact in_append (h1 i hi) (h2 r hr)

/-- A plain term. -/
theorem outTerm_ok (w : T.WF) {ρ : Nat → Val} {m : VMap} (hm : m.Covers ρ) (hin : m.In T vty) : (t : CExpr) → {c : Nat} → HasTy T vty t c →
    T.parts c = none → (∀ v ∈ t.vars, Fits (T.dims (vty v)) (ρ v)) →
    IVec.Has (outIntervals T vty m t) (den T vty ρ t) ∧ IVec.In [T.basic c] (outIntervals T vty m t)
  | .dot, c, h, hp, _ => by
    rw [HasTy] at h
    subst h
    rw [outIntervals, den, w.dot_one]
    exact ⟨⟨_, List.mem_singleton.2 rfl, ⟨Nat.le_refl _, Nat.le_refl _⟩, trivial⟩, fun i hi => by
      rw [List.mem_singleton] at hi; subst hi; exact ⟨⟨Nat.le_refl _, Nat.zero_lt_one⟩, trivial⟩⟩
  | .var v, c, h, hp, hv => by
    rw [HasTy] at h
    subst h
    have hf := hv v (by rw [CExpr.vars]; exact List.mem_singleton.2 rfl)
    have hn := fits_pos _ _ hf
    rw [outIntervals, den]
    cases hl : m.lookup v with
    | none =>
      refine ⟨⟨_, List.mem_singleton.2 rfl, full_has _ _ hf⟩, fun i hi => ?_⟩
      rw [List.mem_singleton] at hi
      subst hi
      have := full_in _ hn
      rw [dims_plain hp] at this ⊢
      exact this
    | some u =>
      have hm' := lookup_mem' hl
      have h2 := hin _ hm'
      simp only at h2 ⊢
      rw [dims_plain hp] at h2
      exact ⟨IVec.addAll_has_right [] (hm _ hm'), IVec.In.addAll (nil_in _) h2⟩
  | .const d, c, h, hp, _ => by
    rw [HasTy] at h
    obtain ⟨rfl, h2⟩ := h
    rw [outIntervals, den, value_plain T (ty := d.ty) hp h2]
    rw [size_plain hp] at h2
    exact ⟨⟨_, List.mem_singleton.2 rfl, ⟨Nat.le_refl _, Nat.le_refl _⟩, trivial⟩, fun i hi => by
      rw [List.mem_singleton] at hi; subst hi; exact ⟨⟨Nat.le_refl _, h2⟩, trivial⟩⟩
  | .succ t, c, h, hp, hv => by
    rw [HasTy] at h
    rw [CExpr.vars] at hv
    obtain ⟨g1, g2⟩ := outTerm_ok w hm hin t h.1 hp hv
    obtain ⟨i, _, hi, hd⟩ := den_base w t h.1 hp hv
    have hd' := hd
    generalize (((i : Int) + off t) % T.basic c).toNat = a at hd
    rw [hd] at g1
    rw [outIntervals, outDims_plain w h.1 hp, den, hd, tyOf_of h.1 hp]
    refine ⟨?_, shiftIntervals_in (by omega) g2⟩
    have := shiftIntervals_has (m := 1) (by omega) g2 g1
    rw [shiftN_eq (by omega)] at this
    exact this
  | .pred t, c, h, hp, hv => by
    rw [HasTy] at h
    rw [CExpr.vars] at hv
    obtain ⟨g1, g2⟩ := outTerm_ok w hm hin t h.1 hp hv
    obtain ⟨i, _, hi, hd⟩ := den_base w t h.1 hp hv
    generalize (((i : Int) + off t) % T.basic c).toNat = a at hd
    rw [hd] at g1
    rw [outIntervals, outDims_plain w h.1 hp, den, hd, tyOf_of h.1 hp]
    refine ⟨?_, shiftIntervals_in (by omega) g2⟩
    have ha : a < T.basic c := by
      obtain ⟨j, hj, hx⟩ := g1
      have := (g2 j hj).fits hx
      exact this.1
    have := shiftIntervals_has (m := -1) (by omega) g2 g1
    rw [shiftN_eq (by omega)] at this
    have e := pred_eq (T.basic c) (by omega) a 0
    rw [Int.add_zero, Int.emod_eq_of_lt (by omega) (by omega)] at e
    have e2 : (0 : Int) - 1 = -1 := by omega
    rw [e2, Int.toNat_natCast] at e
    rw [List.map_cons, List.map_nil, e]
    exact this
  | .tuple es, c, h, hp, _ => by
    rw [HasTy] at h
    obtain ⟨cs, h1, _⟩ := h
    rw [hp] at h1; cases h1

theorem outTuple_ok (w : T.WF) {ρ : Nat → Val} {m : VMap} (hm : m.Covers ρ) (hin : m.In T vty) (es : List CExpr) (cs : List Nat)
    (hes : HasTys T vty es cs) (hv : ∀ v ∈ CExpr.varsL es, Fits (T.dims (vty v)) (ρ v)) (acc : IVec) (x : Val) (ds : List Nat)
    (h : (acc = [] ∧ x = [] ∧ ds = [] ∧ es ≠ []) ∨ (IVec.Has acc x ∧ IVec.In ds acc)) :
    IVec.Has (outTuple T vty m acc es) (x ++ denL T vty ρ es) ∧ IVec.In (ds ++ cs.map T.basic) (outTuple T vty m acc es) := by
  induction es generalizing cs acc x ds with
  | nil =>
    rw [HasTys] at hes
    subst hes
    rw [outTuple, denL, List.append_nil, List.map_nil, List.append_nil]
    rcases h with h | h
    · exact absurd rfl h.2.2.2
    · exact h
  | cons e es ih =>
    rw [HasTys] at hes
    obtain ⟨c, cs', rfl, hp, h1, h2⟩ := hes
    rw [CExpr.varsL] at hv
    obtain ⟨g1, g2⟩ := outTerm_ok w hm hin e h1 hp (fun v hh => hv v (List.mem_append_left _ hh))
    rw [outTuple, denL]
    have key : IVec.Has (crossIntervals acc (outIntervals T vty m e)) (x ++ den T vty ρ e) ∧
        IVec.In (ds ++ [T.basic c]) (crossIntervals acc (outIntervals T vty m e)) := by
      rcases h with ⟨rfl, rfl, rfl, _⟩ | ⟨h3, h4⟩
      · exact ⟨g1, g2⟩
      · refine ⟨cross_has h3 g1, cross_in h4 g2 ?_⟩
        rintro rfl
        exact IVec.has_nil h3
    have := ih cs' h2 (fun v hh => hv v (List.mem_append_right _ hh)) _ _ _ (Or.inr key)
    rw [List.append_assoc, List.append_assoc] at this
    exact this

/-- A term of the type of the place. -/
theorem out_ok (w : T.WF) {ρ : Nat → Val} {m : VMap} (hm : m.Covers ρ) (hin : m.In T vty) {t : CExpr} {ty : Nat} (ht : HasTy T vty t ty)
    (hpl : PlainConsts T t) (hne : T.dims ty ≠ []) (hv : ∀ v ∈ t.vars, Fits (T.dims (vty v)) (ρ v)) :
    IVec.Has (outIntervals T vty m t) (den T vty ρ t) ∧ IVec.In (T.dims ty) (outIntervals T vty m t) := by
  by_cases hp : T.parts ty = none
  · rw [dims_plain hp]; exact outTerm_ok w hm hin t ht hp hv
  · match t, ht with
    | .dot, ht => rw [HasTy] at ht; subst ht; exact absurd w.dot_plain hp
    | .var v, ht =>
      rw [HasTy] at ht
      subst ht
      have hf := hv v (by rw [CExpr.vars]; exact List.mem_singleton.2 rfl)
      rw [outIntervals, den]
      cases hl : m.lookup v with
      | none =>
        refine ⟨⟨_, List.mem_singleton.2 rfl, full_has _ _ hf⟩, fun i hi => ?_⟩
        rw [List.mem_singleton] at hi
        subst hi
        exact full_in _ (fits_pos _ _ hf)
      | some u =>
        have hm' := lookup_mem' hl
        exact ⟨IVec.addAll_has_right [] (hm _ hm'), IVec.In.addAll (nil_in _) (hin _ hm')⟩
    | .const c, ht => rw [HasTy] at ht; exact absurd (by rw [ht.1]; exact hpl) hp
    | .succ e, ht => rw [HasTy] at ht; exact absurd ht.2 hp
    | .pred e, ht => rw [HasTy] at ht; exact absurd ht.2 hp
    | .tuple es, ht =>
      rw [HasTy] at ht
      obtain ⟨cs, h1, h2⟩ := ht
      rw [outIntervals, den]
      rw [CExpr.vars] at hv
      have hd : T.dims ty = cs.map T.basic := by unfold Types.dims; rw [h1]
      rw [hd] at hne ⊢
      have := outTuple_ok w hm hin es cs h2 hv [] [] [] (Or.inl ⟨rfl, rfl, rfl, by
        rintro rfl
        rw [HasTys] at h2
        subst h2
        exact hne rfl⟩)
      simpa using this

/-! ### That the boxes lie in the types, whatever the assignment -/

theorem outTerm_in (w : T.WF) (hn : ∀ v, ∀ n ∈ T.dims (vty v), 0 < n) {m : VMap} (hin : m.In T vty) : (t : CExpr) → {c : Nat} → HasTy T vty t c →
    T.parts c = none → 0 < T.basic c → IVec.In [T.basic c] (outIntervals T vty m t)
  | .dot, c, h, hp, hc => by
    rw [HasTy] at h
    subst h
    rw [outIntervals, w.dot_one]
    exact fun i hi => by rw [List.mem_singleton] at hi; subst hi; exact ⟨⟨Nat.le_refl _, Nat.zero_lt_one⟩, trivial⟩
  | .var v, c, h, hp, hc => by
    rw [HasTy] at h
    subst h
    rw [outIntervals]
    cases hl : m.lookup v with
    | none =>
      intro i hi
      rw [List.mem_singleton] at hi
      subst hi
      have := full_in _ (hn v)
      rw [dims_plain hp] at this ⊢
      exact this
    | some u =>
      have h2 := hin _ (lookup_mem' hl)
      simp only at h2 ⊢
      rw [dims_plain hp] at h2
      exact IVec.In.addAll (nil_in _) h2
  | .const d, c, h, hp, hc => by
    rw [HasTy] at h
    obtain ⟨rfl, h2⟩ := h
    rw [outIntervals]
    rw [size_plain hp] at h2
    exact fun i hi => by rw [List.mem_singleton] at hi; subst hi; exact ⟨⟨Nat.le_refl _, h2⟩, trivial⟩
  | .succ t, c, h, hp, hc => by
    rw [HasTy] at h
    rw [outIntervals, outDims_plain w h.1 hp]
    exact shiftIntervals_in hc (outTerm_in w hn hin t h.1 hp hc)
  | .pred t, c, h, hp, hc => by
    rw [HasTy] at h
    rw [outIntervals, outDims_plain w h.1 hp]
    exact shiftIntervals_in hc (outTerm_in w hn hin t h.1 hp hc)
  | .tuple es, c, h, hp, hc => by
    rw [HasTy] at h
    obtain ⟨cs, h1, _⟩ := h
    rw [hp] at h1; cases h1

/-- A list of boxes is not empty because an element was added, or it is a shift of such a list. -/
theorem add_ne (v : IVec) (i : Interval) : v.add i ≠ [] := by
  cases v with
  | nil => rw [IVec.add]; simp
  | cons l ls => rw [IVec.add]; split; (· simp); split <;> simp

theorem addAll_ne {v : IVec} {l : List Interval} (h : v ≠ [] ∨ l ≠ []) : v.addAll l ≠ [] := by
  unfold IVec.addAll
  induction l generalizing v with
  | nil => exact h.elim id fun h => absurd rfl h
  | cons i l ih => rw [List.foldl_cons]; exact ih (Or.inl (add_ne v i))

theorem shiftIntervals_ne {n : Nat} {m : Int} {v : IVec} (hv : IVec.In [n] v) (h : v ≠ []) : shiftIntervals m [n] v ≠ [] := by
  apply addAll_ne
  right
  obtain ⟨i, hi⟩ := List.exists_mem_of_ne_nil _ h
  match i, hi, hv i hi with
  | [r], hi, hin =>
    have : ∃ q, q ∈ shiftRanges n m r := by
      unfold shiftRanges
      simp only
      split
      · exact ⟨_, List.mem_cons_self⟩
      · split <;> exact ⟨_, List.mem_cons_self⟩
    obtain ⟨q, hq⟩ := this
    have : [q] ∈ (v.map fun i => shiftBox m [n] i).flatten := by
      refine List.mem_flatten.2 ⟨_, List.mem_map.2 ⟨[r], hi, rfl⟩, ?_⟩
      rw [shiftBox]
      exact List.mem_flatten.2 ⟨_, List.mem_map.2 ⟨q, hq, rfl⟩, List.mem_map.2 ⟨[], nil_box m, rfl⟩⟩
    intro e
    rw [e] at this
    cases this

/-- No list of the map is empty. -/
def VMap.Full (m : VMap) : Prop := ∀ q ∈ m, q.2 ≠ []

theorem outTerm_ne (w : T.WF) (hn : ∀ v, ∀ n ∈ T.dims (vty v), 0 < n) {m : VMap} (hin : m.In T vty) (hfull : m.Full) : (t : CExpr) → {c : Nat} → HasTy T vty t c →
    T.parts c = none → 0 < T.basic c → outIntervals T vty m t ≠ []
  | .dot, c, h, hp, hc => by rw [outIntervals]; simp
  | .var v, c, h, hp, hc => by
    rw [outIntervals]
    cases hl : m.lookup v with
    | none => simp
    | some u => exact addAll_ne (Or.inr (hfull _ (lookup_mem' hl)))
  | .const d, c, h, hp, hc => by rw [outIntervals]; simp
  | .succ t, c, h, hp, hc => by
    rw [HasTy] at h
    rw [outIntervals, outDims_plain w h.1 hp]
    exact shiftIntervals_ne (outTerm_in w hn hin t h.1 hp hc) (outTerm_ne w hn hin hfull t h.1 hp hc)
  | .pred t, c, h, hp, hc => by
    rw [HasTy] at h
    rw [outIntervals, outDims_plain w h.1 hp]
    exact shiftIntervals_ne (outTerm_in w hn hin t h.1 hp hc) (outTerm_ne w hn hin hfull t h.1 hp hc)
  | .tuple es, c, h, hp, hc => by
    rw [HasTy] at h
    obtain ⟨cs, h1, _⟩ := h
    rw [hp] at h1; cases h1

theorem cross_ne {acc res : IVec} (h1 : acc ≠ []) (h2 : res ≠ []) : crossIntervals acc res ≠ [] := by
  unfold crossIntervals
  split
  · exact h2
  · apply addAll_ne
    right
    obtain ⟨r, hr⟩ := List.exists_mem_of_ne_nil _ h2
    have h3 : IVec.addAll [] (acc.map fun i => i ++ r) ≠ [] := addAll_ne (Or.inr (by simpa using h1))
    obtain ⟨k, hk⟩ := List.exists_mem_of_ne_nil _ h3
    intro e
    have : k ∈ (res.map fun r => IVec.addAll [] (acc.map fun i => i ++ r)).flatten :=
      List.mem_flatten.2 ⟨_, List.mem_map.2 ⟨r, hr, rfl⟩, hk⟩
    rw [e] at this
    cases this

theorem outTuple_in (w : T.WF) (hn : ∀ v, ∀ n ∈ T.dims (vty v), 0 < n) {m : VMap} (hin : m.In T vty) (hfull : m.Full) (es : List CExpr) (cs : List Nat)
    (hes : HasTys T vty es cs) (hc : ∀ n ∈ cs.map T.basic, 0 < n) (acc : IVec) (ds : List Nat)
    (h : (acc = [] ∧ ds = [] ∧ es ≠ []) ∨ (acc ≠ [] ∧ IVec.In ds acc)) :
    outTuple T vty m acc es ≠ [] ∧ IVec.In (ds ++ cs.map T.basic) (outTuple T vty m acc es) := by
  induction es generalizing cs acc ds with
  | nil =>
    rw [HasTys] at hes
    subst hes
    rw [outTuple, List.map_nil, List.append_nil]
    rcases h with h | h
    · exact absurd rfl h.2.2
    · exact h
  | cons e es ih =>
    rw [HasTys] at hes
    obtain ⟨c, cs', rfl, hp, h1, h2⟩ := hes
    have hc0 : 0 < T.basic c := hc _ (by rw [List.map_cons]; exact List.mem_cons_self)
    have g2 := outTerm_in w hn hin e h1 hp hc0
    have g1 := outTerm_ne w hn hin hfull e h1 hp hc0
    rw [outTuple]
    have key : crossIntervals acc (outIntervals T vty m e) ≠ [] ∧
        IVec.In (ds ++ [T.basic c]) (crossIntervals acc (outIntervals T vty m e)) := by
      rcases h with ⟨rfl, rfl, _⟩ | ⟨h3, h4⟩
      · exact ⟨g1, g2⟩
      · exact ⟨cross_ne h3 g1, cross_in h4 g2 h3⟩
    have := ih cs' h2 (fun n hn => hc n (by rw [List.map_cons]; exact List.mem_cons_of_mem _ hn)) _ _ (Or.inr key)
    rw [List.append_assoc] at this
    exact this

theorem out_in (w : T.WF) (hn : ∀ v, ∀ n ∈ T.dims (vty v), 0 < n) {m : VMap} (hin : m.In T vty) (hfull : m.Full) {t : CExpr} {ty : Nat} (ht : HasTy T vty t ty)
    (hpl : PlainConsts T t) (hne : T.dims ty ≠ []) (hpos : ∀ n ∈ T.dims ty, 0 < n) : IVec.In (T.dims ty) (outIntervals T vty m t) := by
  by_cases hp : T.parts ty = none
  · rw [dims_plain hp] at hpos ⊢
    exact outTerm_in w hn hin t ht hp (hpos _ (List.mem_singleton.2 rfl))
  · match t, ht with
    | .dot, ht => rw [HasTy] at ht; subst ht; exact absurd w.dot_plain hp
    | .var v, ht =>
      rw [HasTy] at ht
      subst ht
      rw [outIntervals]
      cases hl : m.lookup v with
      | none =>
        intro i hi
        rw [List.mem_singleton] at hi
        subst hi
        exact full_in _ (hn v)
      | some u => exact IVec.In.addAll (nil_in _) (hin _ (lookup_mem' hl))
    | .const c, ht => rw [HasTy] at ht; exact absurd (by rw [ht.1]; exact hpl) hp
    | .succ e, ht => rw [HasTy] at ht; exact absurd ht.2 hp
    | .pred e, ht => rw [HasTy] at ht; exact absurd ht.2 hp
    | .tuple es, ht =>
      rw [HasTy] at ht
      obtain ⟨cs, h1, h2⟩ := ht
      rw [outIntervals]
      have hd : T.dims ty = cs.map T.basic := by unfold Types.dims; rw [h1]
      rw [hd] at hne hpos ⊢
      have := (outTuple_in w hn hin hfull es cs h2 hpos [] [] (Or.inl ⟨rfl, rfl, by
        rintro rfl
        rw [HasTys] at h2
        subst h2
        exact hne rfl⟩)).2
      simpa using this

/-! ### Arcs -/

mutual
theorem outArc_ok {ρ : Nat → Val} {maps : List VMap} {m : VMap} (hm : m ∈ maps) : (e : ArcE) → ∀ t ∈ leaves e, outIntervals T vty m t ∈ outArc T vty maps e
  | .num n es => fun t ht => by
    rw [leaves] at ht
    rw [outArc]
    exact List.mem_flatten.2 ⟨_, List.mem_map.2 ⟨t, ht, rfl⟩, List.mem_map.2 ⟨m, hm, rfl⟩⟩
  | .add as => fun t ht => by rw [leaves] at ht; rw [outArc]; exact outArcs_ok (ρ := ρ) hm as t ht
  | .sub a b => fun t ht => by rw [leaves] at ht; rw [outArc]; exact outArc_ok (ρ := ρ) hm a t ht
  | .scal k a => fun t ht => by rw [leaves] at ht; rw [outArc]; exact outArc_ok (ρ := ρ) hm a t ht
theorem outArcs_ok {ρ : Nat → Val} {maps : List VMap} {m : VMap} (hm : m ∈ maps) : (as : List ArcE) → ∀ t ∈ leavesL as, outIntervals T vty m t ∈ outArcs T vty maps as
  | [] => fun t ht => by rw [leavesL] at ht; cases ht
  | a :: as => fun t ht => by
    rw [leavesL] at ht
    rw [outArcs]
    rcases List.mem_append.1 ht with ht | ht
    · exact List.mem_append_left _ (outArc_ok (ρ := ρ) hm a t ht)
    · exact List.mem_append_right _ (outArcs_ok (ρ := ρ) hm as t ht)
end

mutual
theorem outArc_mem {maps : List VMap} : (e : ArcE) → ∀ v ∈ outArc T vty maps e, ∃ m ∈ maps, ∃ t ∈ leaves e, v = outIntervals T vty m t
  | .num n es => fun v hv => by
    rw [outArc] at hv
    rw [leaves]
    obtain ⟨l, hl, hv⟩ := List.mem_flatten.1 hv
    obtain ⟨t, ht, rfl⟩ := List.mem_map.1 hl
    obtain ⟨m, hm, rfl⟩ := List.mem_map.1 hv
    exact ⟨m, hm, t, ht, rfl⟩
  | .add as => fun v hv => by rw [outArc] at hv; rw [leaves]; exact outArcs_mem as v hv
  | .sub a b => fun v hv => by rw [outArc] at hv; rw [leaves]; exact outArc_mem a v hv
  | .scal k a => fun v hv => by rw [outArc] at hv; rw [leaves]; exact outArc_mem a v hv
theorem outArcs_mem {maps : List VMap} : (as : List ArcE) → ∀ v ∈ outArcs T vty maps as, ∃ m ∈ maps, ∃ t ∈ leavesL as, v = outIntervals T vty m t
  | [] => fun v hv => by rw [outArcs] at hv; cases hv
  | a :: as => fun v hv => by
    rw [outArcs] at hv
    rw [leavesL]
    rcases List.mem_append.1 hv with hv | hv
    · obtain ⟨m, hm, t, ht, e⟩ := outArc_mem a v hv
      exact ⟨m, hm, t, List.mem_append_left _ ht, e⟩
    · obtain ⟨m, hm, t, ht, e⟩ := outArcs_mem as v hv
      exact ⟨m, hm, t, List.mem_append_right _ ht, e⟩
end

mutual
/-- A token that an expression denotes is the value of one of its leaves. -/
theorem tokens_leaf {ρ : Nat → Val} {x : Val} : (e : ArcE) → 0 < tokens T vty ρ e x → ∃ t ∈ leaves e, den T vty ρ t = x
  | .num n es, h => by
    rw [tokens] at h
    rw [leaves]
    have : 0 < (es.map fun e => den T vty ρ e).count x := Nat.pos_of_mul_pos_left h
    obtain ⟨t, ht, e⟩ := List.mem_map.1 (List.count_pos_iff.1 this)
    exact ⟨t, ht, e⟩
  | .add as, h => by rw [tokens] at h; rw [leaves]; exact tokensL_leaf as h
  | .sub a b, h => by rw [tokens] at h; rw [leaves]; simp only at h; exact tokens_leaf a (by omega)
  | .scal k a, h => by rw [tokens] at h; rw [leaves]; exact tokens_leaf a (Nat.pos_of_mul_pos_left h)
theorem tokensL_leaf {ρ : Nat → Val} {x : Val} : (as : List ArcE) → 0 < tokensL T vty ρ as x → ∃ t ∈ leavesL as, den T vty ρ t = x
  | [], h => by rw [tokensL] at h; exact absurd h (Nat.lt_irrefl 0)
  | a :: as, h => by
    rw [tokensL] at h
    rw [leavesL]
    simp only at h
    by_cases c : 0 < tokens T vty ρ a x
    · obtain ⟨t, ht, e⟩ := tokens_leaf a c
      exact ⟨t, List.mem_append_left _ ht, e⟩
    · obtain ⟨t, ht, e⟩ := tokensL_leaf (ρ := ρ) (x := x) as (by omega)
      exact ⟨t, List.mem_append_right _ ht, e⟩
end

mutual
/-- Expressions without subtraction, whose numbers are positive. -/
def Positive : ArcE → Prop
  | .num n _ => 0 < n
  | .add as => PositiveL as
  | .sub _ _ => False
  | .scal k a => 0 < k ∧ Positive a
def PositiveL : List ArcE → Prop
  | [] => True
  | a :: as => Positive a ∧ PositiveL as
end

mutual
/-- Every leaf of such an expression is a token. -/
theorem leaf_tokens {ρ : Nat → Val} : (e : ArcE) → Positive e → ∀ t ∈ leaves e, 0 < tokens T vty ρ e (den T vty ρ t)
  | .num n es, h => fun t ht => by
    rw [Positive] at h
    rw [leaves] at ht
    rw [tokens]
    exact Nat.mul_pos h (List.count_pos_iff.2 (List.mem_map.2 ⟨t, ht, rfl⟩))
  | .add as, h => fun t ht => by rw [Positive] at h; rw [leaves] at ht; rw [tokens]; exact leafL_tokens as h t ht
  | .sub a b, h => by rw [Positive] at h; exact h.elim
  | .scal k a, h => fun t ht => by rw [Positive] at h; rw [leaves] at ht; rw [tokens]; exact Nat.mul_pos h.1 (leaf_tokens a h.2 t ht)
theorem leafL_tokens {ρ : Nat → Val} : (as : List ArcE) → PositiveL as → ∀ t ∈ leavesL as, 0 < tokensL T vty ρ as (den T vty ρ t)
  | [], _ => fun t ht => by rw [leavesL] at ht; cases ht
  | a :: as, h => fun t ht => by
    rw [PositiveL] at h
    rw [leavesL] at ht
    rw [tokensL]
    rcases List.mem_append.1 ht with ht | ht
    · exact Nat.add_pos_left (leaf_tokens (ρ := ρ) a h.1 t ht) _
    · exact Nat.add_pos_right _ (leafL_tokens (ρ := ρ) as h.2 t ht)
end

end CFP
end Verif
