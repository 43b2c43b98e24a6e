import Verif.CPN.Values

/-!
# Evaluation agrees with the semantics of coloured nets
-/

namespace Verif
namespace CPN

/-- The types are usable: the dot type has one colour and no two product types have the same constituents. -/
structure Types.WF (T : Types) : Prop where
  dot_plain : T.parts dotTy = none
  dot_one : T.basic dotTy = 1
  prods_ne : (T.prods.map (·.2)).Nodup

/-- the binding `b` of the code gives the variables `vs` the values of `ρ` -/
def Agree (T : Types) (vty : Nat → Nat) (b : Binding) (ρ : Nat → Val) (vs : List Nat) : Prop :=
  ∀ v ∈ vs, ∃ i < T.size (vty v), b.lookup v = some i ∧ ρ v = T.value ⟨vty v, i⟩

theorem Agree.mono {T vty b ρ vs ws} (h : Agree T vty b ρ vs) (hs : ∀ v ∈ ws, v ∈ vs) : Agree T vty b ρ ws :=
  fun v hv => h v (hs v hv)

theorem lookup_mem {l : List (Nat × List Nat)} {a : Nat} {x : List Nat} (h : l.lookup a = some x) : (a, x) ∈ l := by
  induction l with
  | nil => simp at h
  | cons q l ih =>
    obtain ⟨k, y⟩ := q
    rw [List.lookup_cons] at h
    by_cases hk : a = k
    · subst hk; simp at h; subst h; exact List.mem_cons_self
    · have : (a == k) = false := by simpa using hk
      rw [this] at h
      exact List.mem_cons_of_mem _ (ih h)

theorem find_snd {l : List (Nat × List Nat)} (hn : (l.map (·.2)).Nodup) {a : Nat} {x : List Nat} (h : (a, x) ∈ l) :
    l.find? (fun q => q.2 == x) = some (a, x) := by
  induction l with
  | nil => simp at h
  | cons q l ih =>
    rw [List.map_cons, List.nodup_cons] at hn
    rw [List.find?_cons]
    rcases List.mem_cons.1 h with rfl | h
    · simp
    · have : (q.2 == x) = false := by
        simp only [beq_eq_false_iff_ne, ne_eq]
        rintro rfl
        exact hn.1 (List.mem_map.2 ⟨_, h, rfl⟩)
      rw [this]
      exact ih hn.2 h

variable {T : Types} {vty : Nat → Nat}

theorem findProd_of (w : T.WF) {ty : Nat} {cs : List Nat} (h : T.parts ty = some cs) : findProd T cs = some ty := by
  unfold findProd
  rw [find_snd w.prods_ne (lookup_mem h)]
  rfl

theorem tyOf_of {e : CExpr} {ty : Nat} (h : HasTy T vty e ty) (hp : T.parts ty = none) : tyOf T vty e = ty := by
  match e, h with
  | .dot, h => rw [HasTy] at h; exact h.symm
  | .var v, h => rw [HasTy] at h; exact h.symm
  | .const c, h => rw [HasTy] at h; exact h.1.symm
  | .succ e, h => rw [HasTy] at h; rw [tyOf]; exact tyOf_of h.1 hp
  | .pred e, h => rw [HasTy] at h; rw [tyOf]; exact tyOf_of h.1 hp
  | .tuple es, h =>
    rw [HasTy] at h
    obtain ⟨cs, h1, _⟩ := h
    rw [hp] at h1; cases h1

mutual
theorem eval_ok (w : T.WF) {b : Binding} {ρ : Nat → Val} : (e : CExpr) → {ty : Nat} → HasTy T vty e ty →
    Agree T vty b ρ e.vars → ∃ i < T.size ty, e.eval T vty b = some ⟨ty, i⟩ ∧ den T vty ρ e = T.value ⟨ty, i⟩
  | .dot, ty, h, _ => by
    rw [HasTy] at h
    subst h
    have hs : T.size dotTy = 1 := by unfold Types.size; rw [w.dot_plain]; exact w.dot_one
    refine ⟨0, by omega, by rw [CExpr.eval], ?_⟩
    rw [den, value_plain T w.dot_plain (by omega)]
  | .var v, ty, h, ha => by
    rw [HasTy] at h
    subst h
    obtain ⟨i, hi, hl, hr⟩ := ha v (by simp [CExpr.vars])
    refine ⟨i, hi, ?_, ?_⟩
    · rw [CExpr.eval, hl]; rfl
    · rw [den, hr]
  | .const c, ty, h, _ => by
    rw [HasTy] at h
    obtain ⟨rfl, h⟩ := h
    exact ⟨c.id, h, by rw [CExpr.eval], by rw [den]⟩
  | .succ e, ty, h, ha => by
    rw [HasTy] at h
    obtain ⟨i, hi, h1, h2⟩ := eval_ok w e h.1 (by rw [CExpr.vars] at ha; exact ha)
    have hs : T.size ty = T.basic ty := by unfold Types.size; rw [h.2]
    have hm : (i + 1) % T.basic ty < T.size ty := by rw [hs]; exact Nat.mod_lt _ (by omega)
    refine ⟨(i + 1) % T.basic ty, hm, ?_, ?_⟩
    · rw [CExpr.eval, h1]
      simp only [Option.map_some, succC]
      split
      · rename_i hc
        have : i + 1 = T.basic ty := by omega
        rw [this, Nat.mod_self]
      · rename_i hc
        rw [Nat.mod_eq_of_lt (by omega)]
    · rw [den, h2, value_plain T h.2 hi, value_plain T h.2 hm, tyOf_of h.1 h.2]
      rfl
  | .pred e, ty, h, ha => by
    rw [HasTy] at h
    obtain ⟨i, hi, h1, h2⟩ := eval_ok w e h.1 (by rw [CExpr.vars] at ha; exact ha)
    have hs : T.size ty = T.basic ty := by unfold Types.size; rw [h.2]
    have hm : (i + (T.basic ty - 1)) % T.basic ty < T.size ty := by rw [hs]; exact Nat.mod_lt _ (by omega)
    refine ⟨(i + (T.basic ty - 1)) % T.basic ty, hm, ?_, ?_⟩
    · rw [CExpr.eval, h1]
      simp only [Option.map_some, predC]
      split
      · rename_i hc
        have : i = 0 := by omega
        rw [this, Nat.zero_add, Nat.mod_eq_of_lt (by omega), hs]
      · rename_i hc
        have : i + (T.basic ty - 1) = (i - 1) + T.basic ty := by omega
        rw [this, Nat.add_mod_right, Nat.mod_eq_of_lt (by omega)]
    · rw [den, h2, value_plain T h.2 hi, value_plain T h.2 hm, tyOf_of h.1 h.2]
      rfl
  | .tuple es, ty, h, ha => by
    rw [HasTy] at h
    obtain ⟨cs, hp, hts⟩ := h
    obtain ⟨colors, h1, h2, h3, h4⟩ := evalL_ok w es hts (by rw [CExpr.vars] at ha; exact ha)
    have hd : T.dims ty = cs.map T.basic := by unfold Types.dims; rw [hp]
    have hb : colors.map (fun c => T.basic c.ty) = cs.map T.basic := by rw [← h2, List.map_map]; rfl
    obtain ⟨h5, h6⟩ := enc_lt (cs.map T.basic) (colors.map (·.id)) (by rw [← hb]; exact h3)
    have hs : enc (cs.map T.basic) (colors.map (·.id)) < T.size ty := by rw [size_eq, hd]; exact h5
    refine ⟨enc (cs.map T.basic) (colors.map (·.id)), hs, ?_, ?_⟩
    · rw [CExpr.eval, h1]
      simp only
      rw [h2, findProd_of w hp, getColorLoop_eq, hb]
      simp
    · rw [den, h4, value_eq T hs, hd, h6]
theorem evalL_ok (w : T.WF) {b : Binding} {ρ : Nat → Val} : (es : List CExpr) → {cs : List Nat} → HasTys T vty es cs →
    Agree T vty b ρ (CExpr.varsL es) → ∃ colors : List Color, CExpr.evalL T vty b es = some colors ∧ colors.map (·.ty) = cs ∧
      Fits (colors.map fun c => T.basic c.ty) (colors.map (·.id)) ∧ denL T vty ρ es = colors.map (·.id)
  | [], cs, h, _ => by
    rw [HasTys] at h
    exact ⟨[], by rw [CExpr.evalL], h.symm, trivial, by rw [denL]; rfl⟩
  | e :: es, cs, h, ha => by
    rw [HasTys] at h
    rw [CExpr.varsL] at ha
    obtain ⟨c, cs', rfl, hp, he, hes⟩ := h
    obtain ⟨i, hi, h1, h2⟩ := eval_ok w e he (ha.mono fun v hv => List.mem_append_left _ hv)
    obtain ⟨colors, h3, h4, h5, h6⟩ := evalL_ok w es hes (ha.mono fun v hv => List.mem_append_right _ hv)
    refine ⟨⟨c, i⟩ :: colors, ?_, ?_, ?_, ?_⟩
    · rw [CExpr.evalL, h1, h3]
    · rw [List.map_cons, h4]
    · refine ⟨?_, h5⟩
      unfold Types.size at hi
      rw [hp] at hi
      exact hi
    · rw [denL, h6, h2, value_plain T hp hi]; rfl
end

theorem not_tuple {c : Color} (h : T.parts c.ty = none) : isTuple T c = false := by unfold isTuple; rw [h]

theorem guard_ok (w : T.WF) {b : Binding} {ρ : Nat → Val} (g : Guard) (h : GuardTy T vty g) (ha : Agree T vty b ρ g.vars) :
    ∃ r, g.eval T vty b = some r ∧ (r = true ↔ g.holds T vty ρ) := by
  induction g with
  | lt x y =>
    obtain ⟨ty, hp, hx, hy⟩ := h
    obtain ⟨i, hi, h1, h2⟩ := eval_ok w x hx (ha.mono fun v hv => List.mem_append_left _ hv)
    obtain ⟨j, hj, h3, h4⟩ := eval_ok w y hy (ha.mono fun v hv => List.mem_append_right _ hv)
    refine ⟨decide (i < j), ?_, ?_⟩
    · rw [Guard.eval, h1, h3]
      simp only [cmpE, cmpC]
      rw [not_tuple (c := ⟨ty, i⟩) hp, not_tuple (c := ⟨ty, j⟩) hp]
      simp
    · rw [Guard.holds, h2, h4, value_plain T hp hi, value_plain T hp hj]
      simp
  | le x y =>
    obtain ⟨ty, hp, hx, hy⟩ := h
    obtain ⟨i, hi, h1, h2⟩ := eval_ok w x hx (ha.mono fun v hv => List.mem_append_left _ hv)
    obtain ⟨j, hj, h3, h4⟩ := eval_ok w y hy (ha.mono fun v hv => List.mem_append_right _ hv)
    refine ⟨decide (i ≤ j), ?_, ?_⟩
    · rw [Guard.eval, h1, h3]
      simp only [cmpE, cmpC]
      rw [not_tuple (c := ⟨ty, i⟩) hp, not_tuple (c := ⟨ty, j⟩) hp]
      simp
    · rw [Guard.holds, h2, h4, value_plain T hp hi, value_plain T hp hj]
      simp
  | eq x y =>
    obtain ⟨ty, hx, hy⟩ := h
    obtain ⟨i, hi, h1, h2⟩ := eval_ok w x hx (ha.mono fun v hv => List.mem_append_left _ hv)
    obtain ⟨j, hj, h3, h4⟩ := eval_ok w y hy (ha.mono fun v hv => List.mem_append_right _ hv)
    refine ⟨decide ((⟨ty, i⟩ : Color) = ⟨ty, j⟩), ?_, ?_⟩
    · rw [Guard.eval, h1, h3]
      simp only [cmpE]
    · rw [Guard.holds, h2, h4, decide_eq_true_iff]
      constructor
      · intro h; rw [h]
      · intro h; rw [value_inj T hi hj h]
  | ne x y =>
    obtain ⟨ty, hx, hy⟩ := h
    obtain ⟨i, hi, h1, h2⟩ := eval_ok w x hx (ha.mono fun v hv => List.mem_append_left _ hv)
    obtain ⟨j, hj, h3, h4⟩ := eval_ok w y hy (ha.mono fun v hv => List.mem_append_right _ hv)
    refine ⟨decide ((⟨ty, i⟩ : Color) ≠ ⟨ty, j⟩), ?_, ?_⟩
    · rw [Guard.eval, h1, h3]
      simp only [cmpE]
    · rw [Guard.holds, h2, h4, decide_eq_true_iff]
      constructor
      · intro h h'; exact h (by rw [value_inj T hi hj h'])
      · intro h h'; exact h (by rw [h'])
  | and g g' ih1 ih2 =>
    have hg := h
    obtain ⟨r1, e1, i1⟩ := ih1 (by rw [GuardTy] at hg; exact hg.1) (ha.mono fun v hv => List.mem_append_left _ hv)
    obtain ⟨r2, e2, i2⟩ := ih2 (by rw [GuardTy] at hg; exact hg.2) (ha.mono fun v hv => List.mem_append_right _ hv)
    refine ⟨r1 && r2, ?_, ?_⟩
    · rw [Guard.eval, e1, e2]; rfl
    · rw [Guard.holds, ← i1, ← i2, Bool.and_eq_true]
  | or g g' ih1 ih2 =>
    have hg := h
    obtain ⟨r1, e1, i1⟩ := ih1 (by rw [GuardTy] at hg; exact hg.1) (ha.mono fun v hv => List.mem_append_left _ hv)
    obtain ⟨r2, e2, i2⟩ := ih2 (by rw [GuardTy] at hg; exact hg.2) (ha.mono fun v hv => List.mem_append_right _ hv)
    refine ⟨r1 || r2, ?_, ?_⟩
    · rw [Guard.eval, e1, e2]; rfl
    · rw [Guard.holds, ← i1, ← i2, Bool.or_eq_true]

theorem guardEval_ok (w : T.WF) {b : Binding} {ρ : Nat → Val} (g : Option Guard) (h : ∀ g' ∈ g, GuardTy T vty g')
    (ha : Agree T vty b ρ (guardVars g)) :
    ∃ r, guardEval T vty b g = some r ∧ (r = true ↔ guardHolds T vty ρ g) := by
  cases g with
  | none => exact ⟨true, rfl, by simp [guardHolds]⟩
  | some g => exact guard_ok w g (h g rfl) ha

/-! ### Arc expressions -/

theorem entry_cons (q : Nat × Nat) (l : List (Nat × Nat)) (j : Nat) :
    entry (q :: l) j = if j = q.1 then q.2 else entry l j := by
  unfold entry
  obtain ⟨k, n⟩ := q
  rw [List.lookup_cons]
  by_cases h : j = k
  · subst h; simp
  · have : (j == k) = false := by simpa using h
    rw [this, if_neg h]

theorem entry_notMem {l : List (Nat × Nat)} {j : Nat} (h : j ∉ l.map (·.1)) : entry l j = 0 := by
  induction l with
  | nil => rfl
  | cons q l ih =>
    rw [List.map_cons, List.mem_cons] at h
    rw [entry_cons, if_neg (fun hc => h (Or.inl hc)), ih (fun hc => h (Or.inr hc))]

theorem entry_bump (l : List (Nat × Nat)) (i k j : Nat) :
    entry (bump l i k) j = if j = i then (entry l i + k) % W32 else entry l j := by
  induction l with
  | nil => rw [bump, entry_cons]; simp [entry]
  | cons q l ih =>
    obtain ⟨a, n⟩ := q
    rw [bump]
    split
    · rename_i h
      subst h
      rw [entry_cons, entry_cons, entry_cons]
      split
      · rw [if_pos rfl]
      · rfl
    · rename_i h
      rw [entry_cons, entry_cons, entry_cons, ih]
      by_cases hj : j = i
      · subst hj; rw [if_pos rfl, if_neg (fun hc => h hc.symm), if_pos rfl]; rw [if_neg (fun hc => h hc.symm)]
      · simp only [if_neg hj]

theorem keys_bump (l : List (Nat × Nat)) (i k : Nat) (hn : (l.map (·.1)).Nodup) :
    ((bump l i k).map (·.1)).Nodup ∧ ∀ j, j ∈ (bump l i k).map (·.1) ↔ j = i ∨ j ∈ l.map (·.1) := by
  induction l with
  | nil => simp [bump]
  | cons q l ih =>
    obtain ⟨a, n⟩ := q
    rw [List.map_cons, List.nodup_cons] at hn
    obtain ⟨h1, h2⟩ := ih hn.2
    rw [bump]
    split
    · rename_i h
      subst h
      refine ⟨by rw [List.map_cons, List.nodup_cons]; exact hn, fun j => ?_⟩
      simp
    · rename_i h
      refine ⟨?_, fun j => ?_⟩
      · rw [List.map_cons, List.nodup_cons]
        refine ⟨fun hc => ?_, h1⟩
        rcases (h2 a).1 hc with hc | hc
        · exact h hc
        · exact hn.1 hc
      · rw [List.map_cons, List.mem_cons, h2, List.map_cons, List.mem_cons]
        constructor
        · rintro (h | h | h)
          · exact Or.inr (Or.inl h)
          · exact Or.inl h
          · exact Or.inr (Or.inr h)
        · rintro (h | h | h)
          · exact Or.inr (Or.inl h)
          · exact Or.inl h
          · exact Or.inr (Or.inr h)

/-- the multiset `m` of the code contains colour `i` of type `ty` `f i` times -/
structure Holds (T : Types) (m : MS) (ty : Nat) (f : Nat → Nat) : Prop where
  ty_ok : m.ty = some ty ∨ (m.ty = none ∧ m.set = [])
  nodup : (m.set.map (·.1)).Nodup
  lt : ∀ i ∈ m.set.map (·.1), i < T.size ty
  val : ∀ i, i < T.size ty → entry m.set i = f i

theorem Holds.zero {f : Nat → Nat} {m : MS} {ty : Nat} (h : Holds T m ty f) (hn : m.ty = none) (i : Nat) (hi : i < T.size ty) : f i = 0 := by
  rcases h.ty_ok with h1 | ⟨_, h1⟩
  · rw [hn] at h1; cases h1
  · rw [← h.val i hi, h1]; rfl

theorem Holds.congr {f g : Nat → Nat} {m : MS} {ty : Nat} (h : Holds T m ty f) (hfg : ∀ i, i < T.size ty → f i = g i) : Holds T m ty g :=
  ⟨h.ty_ok, h.nodup, h.lt, fun i hi => by rw [h.val i hi, hfg i hi]⟩

theorem holds_empty (ty : Nat) : Holds T {} ty fun _ => 0 where
  ty_ok := Or.inr ⟨rfl, rfl⟩
  nodup := List.nodup_nil
  lt := by simp
  val := fun _ _ => rfl

theorem holds_addAt {m : MS} {ty : Nat} {f : Nat → Nat} (h : Holds T m ty f) {i k : Nat} (hi : i < T.size ty)
    (hb : f i + k < W32) :
    ∃ m', m.addAt ⟨ty, i⟩ k = some m' ∧ m'.ty = some ty ∧ Holds T m' ty fun j => f j + if j = i then k else 0 := by
  have hk := keys_bump m.set i k h.nodup
  have key : Holds T ⟨some ty, bump m.set i k⟩ ty fun j => f j + if j = i then k else 0 := by
    refine ⟨Or.inl rfl, hk.1, ?_, ?_⟩
    · intro j hj
      rcases (hk.2 j).1 hj with rfl | hj
      · exact hi
      · exact h.lt j hj
    · intro j hj
      simp only
      rw [entry_bump]
      split
      · rename_i hc
        subst hc
        rw [h.val j hj, Nat.mod_eq_of_lt hb]
      · rw [h.val j hj]; rfl
  unfold MS.addAt
  rcases h.ty_ok with h1 | ⟨h1, _⟩
  · rw [h1]
    simp only [if_true]
    exact ⟨_, rfl, rfl, key⟩
  · rw [h1]
    exact ⟨_, rfl, rfl, key⟩

theorem holds_ofList {n ty : Nat} (ids : List Nat) {m : MS} {f : Nat → Nat} (h : Holds T m ty f)
    (hi : ∀ i ∈ ids, i < T.size ty) (hb : ∀ i, i < T.size ty → f i + n * ids.count i < W32) :
    ∃ m', MS.ofList n (ids.map fun i => ⟨ty, i⟩) m = some m' ∧ Holds T m' ty fun j => f j + n * ids.count j := by
  induction ids generalizing m f with
  | nil => exact ⟨m, rfl, h.congr fun i _ => by simp⟩
  | cons i ids ih =>
    have hi0 := hi i List.mem_cons_self
    have hcount : ∀ j, (i :: ids).count j = ids.count j + if j = i then 1 else 0 := by
      intro j
      rw [List.count_cons]
      by_cases hj : j = i
      · subst hj; simp
      · rw [if_neg hj, if_neg (by simpa using fun hc => hj hc.symm)]
    have hb0 : f i + n < W32 := by
      have := hb i hi0
      rw [hcount, if_pos rfl, Nat.mul_add, Nat.mul_one] at this
      omega
    obtain ⟨m1, h1, _, h2⟩ := holds_addAt h hi0 hb0
    have hstep : ∀ j, f j + n * (i :: ids).count j = (f j + if j = i then n else 0) + n * ids.count j := by
      intro j
      rw [hcount, Nat.mul_add]
      split <;> omega
    obtain ⟨m2, h3, h4⟩ := ih h2 (fun j hj => hi j (List.mem_cons_of_mem _ hj)) (fun j hj => by
      have := hb j hj
      rw [hstep] at this
      exact this)
    refine ⟨m2, ?_, h4.congr fun j _ => (hstep j).symm⟩
    rw [List.map_cons, MS.ofList, h1]
    exact h3

theorem holds_addAll {ty : Nat} (l : List (Nat × Nat)) {m : MS} {f : Nat → Nat} (h : Holds T m ty f)
    (hn : (l.map (·.1)).Nodup) (hi : ∀ i ∈ l.map (·.1), i < T.size ty)
    (hb : ∀ i, i < T.size ty → f i + entry l i < W32) :
    ∃ m', MS.addAll ty l m = some m' ∧ (l ≠ [] → m'.ty = some ty) ∧ Holds T m' ty fun j => f j + entry l j := by
  induction l generalizing m f with
  | nil => exact ⟨m, rfl, fun h => absurd rfl h, h.congr fun i _ => by simp [entry]⟩
  | cons q l ih =>
    obtain ⟨i, k⟩ := q
    rw [List.map_cons, List.nodup_cons] at hn
    have hi0 := hi i (by simp)
    have hb0 : f i + k < W32 := by
      have := hb i hi0
      rw [entry_cons, if_pos rfl] at this
      exact this
    obtain ⟨m1, h1, ht, h2⟩ := holds_addAt h hi0 hb0
    have hstep : ∀ j, f j + entry ((i, k) :: l) j = (f j + if j = i then k else 0) + entry l j := by
      intro j
      rw [entry_cons]
      split
      · rename_i hj
        simp only at hj
        subst hj
        rw [entry_notMem hn.1]
        rfl
      · omega
    obtain ⟨m2, h3, h3t, h4⟩ := ih h2 hn.2 (fun j hj => hi j (by rw [List.map_cons]; exact List.mem_cons_of_mem _ hj)) (fun j hj => by
      have := hb j hj
      rw [hstep] at this
      exact this)
    refine ⟨m2, ?_, ?_, h4.congr fun j _ => (hstep j).symm⟩
    · rw [MS.addAll, h1]; exact h3
    · intro _
      by_cases hl : l = []
      · subst hl
        rw [MS.addAll] at h3
        cases h3
        exact ht
      · exact h3t hl

theorem joinTy_ok {m o : MS} {ty : Nat} {f g : Nat → Nat} (h : Holds T m ty f) (ho : Holds T o ty g) :
    ∃ t, joinTy m.ty o.ty = some t ∧ (t = some ty ∨ (t = none ∧ m.set = [] ∧ o.set = [])) := by
  rcases h.ty_ok with h1 | ⟨h1, e1⟩ <;> rcases ho.ty_ok with h2 | ⟨h2, e2⟩ <;> rw [h1, h2]
  · exact ⟨_, if_pos rfl, Or.inl rfl⟩
  · exact ⟨_, rfl, Or.inl rfl⟩
  · exact ⟨_, rfl, Or.inl rfl⟩
  · exact ⟨_, rfl, Or.inr ⟨rfl, e1, e2⟩⟩

theorem holds_add {m o : MS} {ty : Nat} {f g : Nat → Nat} (h : Holds T m ty f) (ho : Holds T o ty g)
    (hb : ∀ i, i < T.size ty → f i + g i < W32) : ∃ m', m.add o = some m' ∧ Holds T m' ty fun i => f i + g i := by
  obtain ⟨t, ht, hc⟩ := joinTy_ok h ho
  unfold MS.add
  rw [ht]
  simp only
  rcases hc with rfl | ⟨rfl, e1, e2⟩
  · have h' : Holds T ⟨some ty, m.set⟩ ty f := ⟨Or.inl rfl, h.nodup, h.lt, h.val⟩
    obtain ⟨m', h1, _, h2⟩ := holds_addAll o.set h' ho.nodup ho.lt (fun i hi => by rw [ho.val i hi]; exact hb i hi)
    exact ⟨m', h1, h2.congr fun i hi => by rw [ho.val i hi]⟩
  · rw [e2]
    refine ⟨_, rfl, Or.inr ⟨rfl, e1⟩, h.nodup, h.lt, fun i hi => ?_⟩
    rw [← ho.val i hi, e2]
    exact h.val i hi

theorem entry_map (l : List (Nat × Nat)) (f : Nat → Nat → Nat) (hf : ∀ i, f i 0 = 0) (j : Nat) :
    entry (l.map fun q => (q.1, f q.1 q.2)) j = f j (entry l j) := by
  induction l with
  | nil => simp [entry, hf]
  | cons q l ih =>
    rw [List.map_cons, entry_cons, entry_cons, ih]
    split
    · rename_i h; rw [h]
    · rfl

theorem keys_map (l : List (Nat × Nat)) (f : Nat → Nat → Nat) : (l.map fun q => (q.1, f q.1 q.2)).map (·.1) = l.map (·.1) := by
  rw [List.map_map]; rfl

theorem holds_sub {m o : MS} {ty : Nat} {f g : Nat → Nat} (h : Holds T m ty f) (ho : Holds T o ty g) :
    ∃ m', m.sub o = some m' ∧ Holds T m' ty fun i => f i - g i := by
  obtain ⟨t, ht, hc⟩ := joinTy_ok h ho
  unfold MS.sub
  rw [ht]
  simp only
  rcases hc with rfl | ⟨rfl, e1, e2⟩
  · refine ⟨_, rfl, ?_⟩
    have hk := keys_map m.set (fun i n => if n < o.get ⟨ty, i⟩ then 0 else n - o.get ⟨ty, i⟩)
    refine ⟨Or.inl rfl, ?_, ?_, ?_⟩
    · exact hk ▸ h.nodup
    · intro i hi
      exact h.lt i (hk ▸ hi)
    · intro i hi
      have := entry_map m.set (fun i n => if n < o.get ⟨ty, i⟩ then 0 else n - o.get ⟨ty, i⟩) (fun i => by simp) i
      simp only [Option.getD_some]
      rw [this, h.val i hi]
      have hg : o.get ⟨ty, i⟩ = g i := by
        unfold MS.get
        rw [if_pos, ho.val i hi]
        rcases ho.ty_ok with h2 | h2
        · exact Or.inl h2
        · exact Or.inr h2.1
      rw [hg]
      split
      · omega
      · rfl
  · refine ⟨_, rfl, Or.inr ⟨rfl, by rw [e1]; rfl⟩, by rw [e1]; exact List.nodup_nil, by rw [e1]; simp, ?_⟩
    intro i hi
    have hf : f i = 0 := by rw [← h.val i hi, e1]; rfl
    rw [hf, e1]
    simp [entry]

theorem holds_scale {m : MS} {ty k : Nat} {f : Nat → Nat} (h : Holds T m ty f) (hb : ∀ i, i < T.size ty → k * f i < W32) :
    Holds T (m.scale k) ty fun i => k * f i := by
  have hk := keys_map m.set (fun _ n => (n * k) % W32)
  refine ⟨?_, ?_, ?_, ?_⟩
  · rcases h.ty_ok with h1 | ⟨h1, h2⟩
    · exact Or.inl h1
    · exact Or.inr ⟨h1, by unfold MS.scale; rw [h2]; rfl⟩
  · exact hk ▸ h.nodup
  · intro i hi
    exact h.lt i (hk ▸ hi)
  · intro i hi
    have := entry_map m.set (fun _ n => (n * k) % W32) (fun i => by simp) i
    unfold MS.scale
    simp only
    rw [this, h.val i hi, Nat.mul_comm, Nat.mod_eq_of_lt (hb i hi)]

mutual
/-- an upper bound of the number of tokens of an arc expression -/
def ArcE.bound : ArcE → Nat
  | .num n es => n * es.length
  | .add as => ArcE.boundL as
  | .sub a _ => a.bound
  | .scal k a => k * a.bound
def ArcE.boundL : List ArcE → Nat
  | [] => 0
  | a :: as => a.bound + ArcE.boundL as
end

mutual
/-- the numbers met in the evaluation are below `2^32` -/
def ArcE.Small : ArcE → Prop
  | .num n es => n * es.length < W32
  | .add as => ArcE.boundL as < W32 ∧ ArcE.SmallL as
  | .sub a b => a.Small ∧ b.Small
  | .scal k a => k * a.bound < W32 ∧ a.Small
def ArcE.SmallL : List ArcE → Prop
  | [] => True
  | a :: as => a.Small ∧ ArcE.SmallL as
end

mutual
theorem tokens_le (ρ : Nat → Val) : (e : ArcE) → (x : Val) → tokens T vty ρ e x ≤ e.bound
  | .num n es, x => by
    rw [tokens, ArcE.bound]
    apply Nat.mul_le_mul_left
    exact Nat.le_trans List.count_le_length (by simp)
  | .add as, x => by rw [tokens, ArcE.bound]; exact tokensL_le ρ as x
  | .sub a b, x => by rw [tokens, ArcE.bound]; exact Nat.le_trans (Nat.sub_le _ _) (tokens_le ρ a x)
  | .scal k a, x => by rw [tokens, ArcE.bound]; exact Nat.mul_le_mul_left k (tokens_le ρ a x)
theorem tokensL_le (ρ : Nat → Val) : (es : List ArcE) → (x : Val) → tokensL T vty ρ es x ≤ ArcE.boundL es
  | [], x => by rw [tokensL, ArcE.boundL]; exact Nat.le_refl 0
  | a :: as, x => by rw [tokensL, ArcE.boundL]; exact Nat.add_le_add (tokens_le ρ a x) (tokensL_le ρ as x)
end

theorem evalL_map (w : T.WF) {b : Binding} {ρ : Nat → Val} {ty : Nat} (es : List CExpr) (h : ∀ e ∈ es, HasTy T vty e ty)
    (ha : Agree T vty b ρ (CExpr.varsL es)) : ∃ ids : List Nat, CExpr.evalL T vty b es = some (ids.map fun i => ⟨ty, i⟩) ∧
      (∀ i ∈ ids, i < T.size ty) ∧ (es.map fun e => den T vty ρ e) = ids.map fun i => T.value ⟨ty, i⟩ := by
  induction es with
  | nil => exact ⟨[], by rw [CExpr.evalL]; rfl, by simp, rfl⟩
  | cons e es ih =>
    rw [CExpr.varsL] at ha
    obtain ⟨i, hi, h1, h2⟩ := eval_ok w e (h e List.mem_cons_self) (ha.mono fun v hv => List.mem_append_left _ hv)
    obtain ⟨ids, h3, h4, h5⟩ := ih (fun e' he => h e' (List.mem_cons_of_mem _ he)) (ha.mono fun v hv => List.mem_append_right _ hv)
    refine ⟨i :: ids, ?_, ?_, ?_⟩
    · rw [CExpr.evalL, h1, h3]; rfl
    · intro j hj
      rcases List.mem_cons.1 hj with rfl | hj
      · exact hi
      · exact h4 j hj
    · rw [List.map_cons, List.map_cons, h2, h5]

theorem count_value {ty : Nat} (ids : List Nat) (h : ∀ i ∈ ids, i < T.size ty) {j : Nat} (hj : j < T.size ty) :
    (ids.map fun i => T.value ⟨ty, i⟩).count (T.value ⟨ty, j⟩) = ids.count j := by
  induction ids with
  | nil => rfl
  | cons i ids ih =>
    rw [List.map_cons, List.count_cons, List.count_cons, ih fun k hk => h k (List.mem_cons_of_mem _ hk)]
    by_cases hij : i = j
    · subst hij; simp
    · rw [if_neg, if_neg (by simpa using hij)]
      simp only [beq_iff_eq]
      intro hc
      exact hij (value_inj T (h i List.mem_cons_self) hj hc)

mutual
theorem arc_ok (w : T.WF) {b : Binding} {ρ : Nat → Val} {ty : Nat} : (e : ArcE) → (stale : MS) → ArcTy T vty ty e → e.Small →
    Agree T vty b ρ e.vars → ∃ m, e.eval T vty b stale = some m ∧ Holds T m ty fun i => tokens T vty ρ e (T.value ⟨ty, i⟩)
  | .num n es, stale, h, hs, ha => by
    rw [ArcTy] at h
    rw [ArcE.vars] at ha
    obtain ⟨ids, h1, h2, h3⟩ := evalL_map w es h.2 ha
    have hl : ids.length = es.length := by
      have := congrArg List.length h3
      simpa using this.symm
    rw [ArcE.Small] at hs
    obtain ⟨m, h4, h5⟩ := holds_ofList (n := n) ids (holds_empty (T := T) ty) h2 (fun i _ => by
      have : n * ids.count i ≤ n * es.length := Nat.mul_le_mul_left n (hl ▸ List.count_le_length)
      omega)
    refine ⟨m, ?_, h5.congr fun i hi => ?_⟩
    · rw [ArcE.eval]
      have : es.isEmpty = false := by
        cases es with
        | nil => exact absurd rfl h.1
        | cons => rfl
      rw [this, h1]
      simpa using h4
    · rw [tokens, h3]
      simp only
      rw [count_value ids h2 hi]
      omega
  | .add as, stale, h, hs, ha => by
    rw [ArcTy] at h
    rw [ArcE.vars] at ha
    rw [ArcE.Small] at hs
    obtain ⟨m, h1, h2⟩ := arcL_ok w as stale {} (fun _ => 0) h hs.2 ha (holds_empty ty) (by intro i _; simpa using hs.1)
    refine ⟨m, by rw [ArcE.eval]; exact h1, h2.congr fun i _ => ?_⟩
    rw [tokens]; simp
  | .sub x y, stale, h, hs, ha => by
    rw [ArcTy] at h
    rw [ArcE.vars] at ha
    rw [ArcE.Small] at hs
    obtain ⟨m, h1, h2⟩ := arc_ok w x stale h.1 hs.1 (ha.mono fun v hv => List.mem_append_left _ hv)
    obtain ⟨o, h3, h4⟩ := arc_ok w y m h.2 hs.2 (ha.mono fun v hv => List.mem_append_right _ hv)
    obtain ⟨r, h5, h6⟩ := holds_sub h2 h4
    refine ⟨r, ?_, h6.congr fun i _ => by rw [tokens]⟩
    rw [ArcE.eval, h1, Option.bind_some, h3, Option.bind_some, h5]
  | .scal k x, stale, h, hs, ha => by
    rw [ArcTy] at h
    rw [ArcE.vars] at ha
    rw [ArcE.Small] at hs
    obtain ⟨m, h1, h2⟩ := arc_ok w x stale h hs.2 ha
    refine ⟨m.scale k, by rw [ArcE.eval, h1]; rfl, (holds_scale (k := k) h2 fun i _ => ?_).congr fun i _ => by rw [tokens]⟩
    exact Nat.lt_of_le_of_lt (Nat.mul_le_mul_left k (tokens_le ρ x _)) hs.1
theorem arcL_ok (w : T.WF) {b : Binding} {ρ : Nat → Val} {ty : Nat} : (es : List ArcE) → (stale acc : MS) → (f : Nat → Nat) →
    ArcTys T vty ty es → ArcE.SmallL es →
    Agree T vty b ρ (ArcE.varsL es) → Holds T acc ty f → (∀ i, i < T.size ty → f i + ArcE.boundL es < W32) →
    ∃ m, ArcE.evalL T vty b stale acc es = some m ∧ Holds T m ty fun i => f i + tokensL T vty ρ es (T.value ⟨ty, i⟩)
  | [], stale, acc, f, _, _, _, hh, _ => ⟨acc, by rw [ArcE.evalL], hh.congr fun i _ => by rw [tokensL]; rfl⟩
  | e :: es, stale, acc, f, h, hs, ha, hh, hb => by
    rw [ArcTys] at h
    rw [ArcE.varsL] at ha
    rw [ArcE.SmallL] at hs
    obtain ⟨m, h1, h2⟩ := arc_ok w e stale h.1 hs.1 (ha.mono fun v hv => List.mem_append_left _ hv)
    have hb' : ∀ i, i < T.size ty → f i + tokens T vty ρ e (T.value ⟨ty, i⟩) + ArcE.boundL es < W32 := by
      intro i hi
      have h3 := hb i hi
      rw [ArcE.boundL] at h3
      have := tokens_le (T := T) (vty := vty) ρ e (T.value ⟨ty, i⟩)
      omega
    obtain ⟨acc', h3, h4⟩ := holds_add hh h2 (fun i hi => by have := hb' i hi; omega)
    obtain ⟨r, h5, h6⟩ := arcL_ok w es m acc' _ h.2 hs.2 (ha.mono fun v hv => List.mem_append_right _ hv) h4 hb'
    refine ⟨r, ?_, h6.congr fun i _ => by rw [tokensL]; simp only; omega⟩
    rw [ArcE.evalL, h1, Option.bind_some, h3, Option.bind_some, h5]
end

mutual
theorem tokens_mem (w : T.WF) {b : Binding} {ρ : Nat → Val} {ty : Nat} : (e : ArcE) → ArcTy T vty ty e →
    Agree T vty b ρ e.vars → ∀ x, tokens T vty ρ e x ≠ 0 → x ∈ T.values ty
  | .num n es, h, ha, x, hx => by
    rw [ArcTy] at h
    rw [ArcE.vars] at ha
    obtain ⟨ids, h1, h2, h3⟩ := evalL_map w es h.2 ha
    rw [tokens, h3] at hx
    simp only at hx
    have : 0 < (ids.map fun i => T.value ⟨ty, i⟩).count x := by
      rcases Nat.eq_zero_or_pos ((ids.map fun i => T.value ⟨ty, i⟩).count x) with hc | hc
      · rw [hc] at hx; simp at hx
      · exact hc
    obtain ⟨i, hi, rfl⟩ := List.mem_map.1 (List.count_pos_iff.1 this)
    exact (mem_values T).2 ⟨i, h2 i hi, rfl⟩
  | .add as, h, ha, x, hx => by
    rw [ArcTy] at h
    rw [ArcE.vars] at ha
    rw [tokens] at hx
    exact tokensL_mem w as h ha x hx
  | .sub a c, h, ha, x, hx => by
    rw [ArcTy] at h
    rw [ArcE.vars] at ha
    rw [tokens] at hx
    simp only at hx
    exact tokens_mem w a h.1 (ha.mono fun v hv => List.mem_append_left _ hv) x (by omega)
  | .scal k a, h, ha, x, hx => by
    rw [ArcTy] at h
    rw [ArcE.vars] at ha
    rw [tokens] at hx
    simp only at hx
    exact tokens_mem w a h ha x (fun hc => hx (by rw [hc, Nat.mul_zero]))
theorem tokensL_mem (w : T.WF) {b : Binding} {ρ : Nat → Val} {ty : Nat} : (es : List ArcE) → ArcTys T vty ty es →
    Agree T vty b ρ (ArcE.varsL es) → ∀ x, tokensL T vty ρ es x ≠ 0 → x ∈ T.values ty
  | [], _, _, x, hx => by rw [tokensL] at hx; exact absurd rfl hx
  | e :: es, h, ha, x, hx => by
    rw [ArcTys] at h
    rw [ArcE.varsL] at ha
    rw [tokensL] at hx
    simp only at hx
    by_cases hc : tokens T vty ρ e x = 0
    · exact tokensL_mem w es h.2 (ha.mono fun v hv => List.mem_append_right _ hv) x (by omega)
    · exact tokens_mem w e h.1 (ha.mono fun v hv => List.mem_append_left _ hv) x hc
end

end CPN
end Verif
