import Verif.CFP.GuardLemmas

/-!
# Restriction by a whole guard
-/

namespace Verif
namespace CFP

open CPN

variable {T : Types} {vty : Nat → Nat}

/-- the sizes of the types of variables that are compared agree (this follows from typing) -/
def sameSizes (T : Types) (vty : Nat → Nat) (l r : Side) : Bool := l.pos.all fun q =>
  match r.pos.lookup q.1 with
  | some w => decide (T.basic (vty q.2) = T.basic (vty w))
  | none => true

/-- a term that is not a tuple -/
def isTerm : CExpr → Bool
  | .tuple _ => false
  | _ => true

/-- The guards for which the restriction is right. -/
def guardOk (T : Types) (vty : Nat → Nat) : Guard → Bool
  | .lt a b => sideOk T vty a && sideOk T vty b && lessShape (side T a) (side T b)
  | .le a b => sideOk T vty a && sideOk T vty b && lessShape (side T a) (side T b)
  | .eq a b => sideOk T vty a && sideOk T vty b && eqShape (side T a) (side T b) && sameSizes T vty (side T a) (side T b)
  | .ne a b => sideOk T vty a && sideOk T vty b && neShape (side T a) (side T b) && isTerm a && isTerm b
  | .and g h => guardOk T vty g && guardOk T vty h
  | .or g h => guardOk T vty g && guardOk T vty h

/-- The numbers of colours that are counted do not exceed 32 bits. -/
def smallG (T : Types) (vty : Nat → Nat) : Guard → List VMap → Bool
  | .lt _ _, _ => true
  | .le _ _, _ => true
  | .eq _ _, _ => true
  | .ne a b, maps => maps.all fun m => neSmall (side T a) (side T b) m
  | .and g h, maps => smallG T vty g maps && smallG T vty h (restrictG T vty g maps)
  | .or g h, maps => smallG T vty g maps && smallG T vty h maps

theorem SideOk.mono {ρ : Nat → Val} {vs us : List Nat} {x : Val} {s : Side} (h : SideOk T vty ρ vs x s) (hs : ∀ v ∈ vs, v ∈ us) :
    SideOk T vty ρ us x s := ⟨fun q hq => ⟨hs _ (h.pos q hq).1, (h.pos q hq).2⟩, h.consts⟩

theorem atom_ok {vs : List Nat} {ρ : Nat → Val} {f : Side → Side → VMap → VMap} {a b : CExpr} {P : Prop} {S : VMap → Prop}
    (h1 : ∀ m, MOk T vty vs m → MOk T vty vs (f (side T a) (side T b) m))
    (h2 : ∀ m, MOk T vty vs m → m.Covers ρ → P → S m → VMap.Covers (f (side T a) (side T b) m) ρ) (maps : List VMap)
    (hm : ∀ m ∈ maps, MOk T vty vs m) :
    (∀ m ∈ maps.map (atomOf T f a b), MOk T vty vs m) ∧
    ((∀ m ∈ maps, S m) → (∃ m ∈ maps, m.Covers ρ) → P → ∃ m ∈ maps.map (atomOf T f a b), m.Covers ρ) := by
  constructor
  · intro m hmm
    obtain ⟨m', h', rfl⟩ := List.mem_map.1 hmm
    unfold atomOf
    split
    · exact hm m' h'
    · exact h1 m' (hm m' h')
  · rintro hs ⟨m, h, hc⟩ hP
    refine ⟨_, List.mem_map.2 ⟨m, h, rfl⟩, ?_⟩
    unfold atomOf
    split
    · exact hc
    · exact h2 m (hm m h) hc hP (hs m h)

/-- a term whose entries are right is of a plain type -/
theorem plain_of_term (w : T.WF) {ρ : Nat → Val} {a : CExpr} {ty : Nat} (h : HasTy T vty a ty) (hs : sideOk T vty a = true) (ht : isTerm a = true)
    (hne : (side T a).pos ≠ [] ∨ (side T a).consts ≠ []) : T.parts ty = none := by
  unfold sideOk at hs
  rw [Bool.and_eq_true, List.all_eq_true, List.all_eq_true] at hs
  have hcomp : ∀ k t, compAt a k = some t → t = a := by
    intro k t hk
    cases a with
    | tuple es => cases ht
    | dot => rw [compAt] at hk; split at hk <;> cases hk; rfl
    | var v => rw [compAt] at hk; split at hk <;> cases hk; rfl
    | const v => rw [compAt] at hk; split at hk <;> cases hk; rfl
    | succ v => rw [compAt] at hk; split at hk <;> cases hk; rfl
    | pred v => rw [compAt] at hk; split at hk <;> cases hk; rfl
  rcases hne with hne | hne
  · obtain ⟨q, hq⟩ := List.exists_mem_of_ne_nil _ hne
    have := hs.1 q hq
    unfold posOk at this
    cases hc : compAt a q.1 with
    | none => rw [hc] at this; cases this
    | some t =>
      rw [hc, Option.map_some] at this
      have := hcomp _ _ hc
      subst this
      split at this
      · rename_i v o heq
        cases heq'' : base t <;> (rw [heq''] at heq; cases heq)
        simp only [Bool.and_eq_true, decide_eq_true_eq, Option.isNone_iff_eq_none] at this
        rw [base_ty_var h heq'']
        exact this.1.1.2
      · cases this
  · obtain ⟨q, hq⟩ := List.exists_mem_of_ne_nil _ hne
    have := hs.2 q hq
    unfold constOk at this
    cases hc : compAt a q.1 with
    | none => rw [hc] at this; cases this
    | some t =>
      rw [hc, Option.map_some] at this
      have e := hcomp _ _ hc
      subst e
      split at this
      · rename_i d o heq
        cases heq'' : base t <;> (rw [heq''] at heq; cases heq)
        simp only [Bool.and_eq_true, decide_eq_true_eq, Option.isNone_iff_eq_none] at this
        rw [(base_ty_const h heq'').1]
        exact this.2
      · rename_i o heq
        cases heq'' : base t <;> (rw [heq''] at heq; cases heq)
        rw [base_ty_dot h heq'']
        exact w.dot_plain
      · cases this

/-- the variables of a term that is of a plain type -/
theorem pos_ty {a : CExpr} {ty : Nat} (h : HasTy T vty a ty) (hs : sideOk T vty a = true) (ht : isTerm a = true) :
    ∀ q ∈ (side T a).pos, vty q.2 = ty := by
  intro q hq
  unfold sideOk at hs
  rw [Bool.and_eq_true, List.all_eq_true, List.all_eq_true] at hs
  have := hs.1 q hq
  unfold posOk at this
  cases hc : compAt a q.1 with
  | none => rw [hc] at this; cases this
  | some t =>
    rw [hc, Option.map_some] at this
    have e : t = a := by
      cases a with
      | tuple es => cases ht
      | dot => rw [compAt] at hc; split at hc <;> cases hc; rfl
      | var v => rw [compAt] at hc; split at hc <;> cases hc; rfl
      | const v => rw [compAt] at hc; split at hc <;> cases hc; rfl
      | succ v => rw [compAt] at hc; split at hc <;> cases hc; rfl
      | pred v => rw [compAt] at hc; split at hc <;> cases hc; rfl
    subst e
    split at this
    · rename_i v o heq
      cases heq'' : base t <;> (rw [heq''] at heq; cases heq)
      simp only [Bool.and_eq_true, decide_eq_true_eq] at this
      rw [← this.1.1.1.1]
      exact (base_ty_var h heq'').symm
    · cases this

theorem den_one (w : T.WF) {ρ : Nat → Val} {t : CExpr} {c : Nat} (h : HasTy T vty t c) (hp : T.parts c = none)
    (hv : ∀ v ∈ t.vars, Fits (T.dims (vty v)) (ρ v)) : ∃ i, den T vty ρ t = [i] ∧ i < T.basic c := by
  obtain ⟨i, _, hi, hd⟩ := den_base w t h hp hv
  refine ⟨_, hd, ?_⟩
  have h1 := Int.emod_nonneg ((i : Int) + off t) (show (T.basic c : Int) ≠ 0 by omega)
  have h2 := Int.emod_lt_of_pos ((i : Int) + off t) (show (0 : Int) < T.basic c by omega)
  omega

/-- The restriction of the maps keeps the bindings that satisfy the guard. -/
theorem restrictG_ok (w : T.WF) (hn : ∀ v, ∀ n ∈ T.dims (vty v), 0 < n) {ρ : Nat → Val} {vs : List Nat} :
    (g : Guard) → GuardTy T vty g → guardOk T vty g = true → (∀ v ∈ g.vars, v ∈ vs) → (∀ v ∈ g.vars, Fits (T.dims (vty v)) (ρ v)) →
    (maps : List VMap) → (∀ m ∈ maps, MOk T vty vs m) →
    (∀ m ∈ restrictG T vty g maps, MOk T vty vs m) ∧
    (smallG T vty g maps = true → (∃ m ∈ maps, m.Covers ρ) → g.holds T vty ρ → ∃ m ∈ restrictG T vty g maps, m.Covers ρ)
  | .lt a b, ht, hk, hv, hf, maps, hm => by
    rw [GuardTy] at ht
    obtain ⟨ty, hp, h1, h2⟩ := ht
    rw [guardOk, Bool.and_eq_true, Bool.and_eq_true] at hk
    rw [Guard.vars] at hv hf
    have fa : ∀ v ∈ a.vars, Fits (T.dims (vty v)) (ρ v) := fun v h => hf v (List.mem_append_left _ h)
    have fb : ∀ v ∈ b.vars, Fits (T.dims (vty v)) (ρ v) := fun v h => hf v (List.mem_append_right _ h)
    have sa := (sideOk_spec w h1 fa hk.1.1).mono fun v h => hv v (List.mem_append_left _ h)
    have sb := (sideOk_spec w h2 fb hk.1.2).mono fun v h => hv v (List.mem_append_right _ h)
    obtain ⟨i, hi, _⟩ := den_one w h1 hp fa
    obtain ⟨j, hj, _⟩ := den_one w h2 hp fb
    rw [hi] at sa
    rw [hj] at sb
    rw [restrictG]
    have := atom_ok (T := T) (vty := vty) (vs := vs) (ρ := ρ) (f := restrictLess T vty true) (a := a) (b := b) (P := i < j) (S := fun _ => True)
      (fun m h => restrictLess_in h) (fun m h hc hP _ => restrictLess_ok sa sb hk.2 h hc hP) maps hm
    refine ⟨this.1, fun _ hc hh => this.2 (fun _ _ => trivial) hc ?_⟩
    rw [Guard.holds] at hh
    obtain ⟨i', j', e1, e2, h⟩ := hh
    rw [hi] at e1
    rw [hj] at e2
    cases e1; cases e2
    exact h
  | .le a b, ht, hk, hv, hf, maps, hm => by
    rw [GuardTy] at ht
    obtain ⟨ty, hp, h1, h2⟩ := ht
    rw [guardOk, Bool.and_eq_true, Bool.and_eq_true] at hk
    rw [Guard.vars] at hv hf
    have fa : ∀ v ∈ a.vars, Fits (T.dims (vty v)) (ρ v) := fun v h => hf v (List.mem_append_left _ h)
    have fb : ∀ v ∈ b.vars, Fits (T.dims (vty v)) (ρ v) := fun v h => hf v (List.mem_append_right _ h)
    have sa := (sideOk_spec w h1 fa hk.1.1).mono fun v h => hv v (List.mem_append_left _ h)
    have sb := (sideOk_spec w h2 fb hk.1.2).mono fun v h => hv v (List.mem_append_right _ h)
    obtain ⟨i, hi, _⟩ := den_one w h1 hp fa
    obtain ⟨j, hj, _⟩ := den_one w h2 hp fb
    rw [hi] at sa
    rw [hj] at sb
    rw [restrictG]
    have := atom_ok (T := T) (vty := vty) (vs := vs) (ρ := ρ) (f := restrictLess T vty false) (a := a) (b := b) (P := i ≤ j) (S := fun _ => True)
      (fun m h => restrictLess_in h) (fun m h hc hP _ => restrictLess_ok sa sb hk.2 h hc hP) maps hm
    refine ⟨this.1, fun _ hc hh => this.2 (fun _ _ => trivial) hc ?_⟩
    rw [Guard.holds] at hh
    obtain ⟨i', j', e1, e2, h⟩ := hh
    rw [hi] at e1
    rw [hj] at e2
    cases e1; cases e2
    exact h
  | .eq a b, ht, hk, hv, hf, maps, hm => by
    rw [GuardTy] at ht
    obtain ⟨ty, h1, h2⟩ := ht
    rw [guardOk, Bool.and_eq_true, Bool.and_eq_true, Bool.and_eq_true] at hk
    rw [Guard.vars] at hv hf
    have fa : ∀ v ∈ a.vars, Fits (T.dims (vty v)) (ρ v) := fun v h => hf v (List.mem_append_left _ h)
    have fb : ∀ v ∈ b.vars, Fits (T.dims (vty v)) (ρ v) := fun v h => hf v (List.mem_append_right _ h)
    have sa := (sideOk_spec w h1 fa hk.1.1.1).mono fun v h => hv v (List.mem_append_left _ h)
    have sb := (sideOk_spec w h2 fb hk.1.1.2).mono fun v h => hv v (List.mem_append_right _ h)
    have hd : ∀ q ∈ (side T a).pos, ∀ u, (side T b).pos.lookup q.1 = some u → T.basic (vty q.2) = T.basic (vty u) := by
      intro q hq u hu
      have := List.all_eq_true.1 hk.2 q hq
      rw [hu] at this
      exact of_decide_eq_true this
    rw [restrictG]
    have := atom_ok (T := T) (vty := vty) (vs := vs) (ρ := ρ) (f := restrictEq T vty) (a := a) (b := b)
      (P := den T vty ρ a = den T vty ρ b) (S := fun _ => True)
      (fun m h => (restrictEq_ok hn sa sb hd hk.1.2 h).1) (fun m h hc hP _ => (restrictEq_ok hn sa sb hd hk.1.2 h).2 hc hP) maps hm
    exact ⟨this.1, fun _ hc hh => this.2 (fun _ _ => trivial) hc (by rw [Guard.holds] at hh; exact hh)⟩
  | .ne a b, ht, hk, hv, hf, maps, hm => by
    rw [GuardTy] at ht
    obtain ⟨ty, h1, h2⟩ := ht
    rw [guardOk, Bool.and_eq_true, Bool.and_eq_true, Bool.and_eq_true, Bool.and_eq_true] at hk
    rw [Guard.vars] at hv hf
    have fa : ∀ v ∈ a.vars, Fits (T.dims (vty v)) (ρ v) := fun v h => hf v (List.mem_append_left _ h)
    have fb : ∀ v ∈ b.vars, Fits (T.dims (vty v)) (ρ v) := fun v h => hf v (List.mem_append_right _ h)
    have sa := (sideOk_spec w h1 fa hk.1.1.1.1).mono fun v h => hv v (List.mem_append_left _ h)
    have sb := (sideOk_spec w h2 fb hk.1.1.1.2).mono fun v h => hv v (List.mem_append_right _ h)
    rw [restrictG]
    have := atom_ok (T := T) (vty := vty) (vs := vs) (ρ := ρ) (f := restrictNe T vty) (a := a) (b := b)
      (P := den T vty ρ a ≠ den T vty ρ b) (S := fun m => neSmall (side T a) (side T b) m = true)
      (fun m h => restrictNe_in hn sa sb hk.1.1.2 h) (fun m h hc hP hS => by
        by_cases hpos : (side T a).pos = [] ∧ (side T b).pos = []
        · unfold restrictNe restrictEq
          rw [hpos.1, hpos.2]
          exact hc
        · have hp : T.parts ty = none := by
            by_cases ha : (side T a).pos = []
            · exact plain_of_term w (ρ := ρ) h2 hk.1.1.1.2 hk.2 (Or.inl fun hb => hpos ⟨ha, hb⟩)
            · exact plain_of_term w (ρ := ρ) h1 hk.1.1.1.1 hk.1.2 (Or.inl ha)
          obtain ⟨i, hi, hin⟩ := den_one w h1 hp fa
          obtain ⟨j, hj, hjn⟩ := den_one w h2 hp fb
          rw [hi] at sa hP
          rw [hj] at sb hP
          refine restrictNe_ok hn sa sb hk.1.1.2 hin hjn ?_ ?_ h hc (fun e => hP (by rw [e])) hS
          · intro q hq; rw [pos_ty h1 hk.1.1.1.1 hk.1.2 q hq]
          · intro q hq; rw [pos_ty h2 hk.1.1.1.2 hk.2 q hq]) maps hm
    refine ⟨this.1, fun hs hc hh => this.2 ?_ hc (by rw [Guard.holds] at hh; exact hh)⟩
    rw [smallG, List.all_eq_true] at hs
    exact hs
  | .and g h, ht, hk, hv, hf, maps, hm => by
    rw [GuardTy] at ht
    rw [guardOk, Bool.and_eq_true] at hk
    rw [Guard.vars] at hv hf
    have k1 := restrictG_ok w hn g ht.1 hk.1 (fun v h => hv v (List.mem_append_left _ h)) (fun v h => hf v (List.mem_append_left _ h)) maps hm
    have k2 := restrictG_ok w hn h ht.2 hk.2 (fun v h => hv v (List.mem_append_right _ h)) (fun v h => hf v (List.mem_append_right _ h)) _ k1.1
    rw [restrictG]
    refine ⟨k2.1, fun hs hc hh => ?_⟩
    rw [Guard.holds] at hh
    rw [smallG, Bool.and_eq_true] at hs
    exact k2.2 hs.2 (k1.2 hs.1 hc hh.1) hh.2
  | .or g h, ht, hk, hv, hf, maps, hm => by
    rw [GuardTy] at ht
    rw [guardOk, Bool.and_eq_true] at hk
    rw [Guard.vars] at hv hf
    have k1 := restrictG_ok w hn g ht.1 hk.1 (fun v h => hv v (List.mem_append_left _ h)) (fun v h => hf v (List.mem_append_left _ h)) maps hm
    have k2 := restrictG_ok w hn h ht.2 hk.2 (fun v h => hv v (List.mem_append_right _ h)) (fun v h => hf v (List.mem_append_right _ h)) maps hm
    rw [restrictG]
    refine ⟨fun m hmm => ?_, fun hs hc hh => ?_⟩
    · rcases List.mem_append.1 hmm with h | h
      · exact k1.1 m h
      · exact k2.1 m h
    rw [Guard.holds] at hh
    rw [smallG, Bool.and_eq_true] at hs
    rcases hh with hh | hh
    · obtain ⟨m, h1, h2⟩ := k1.2 hs.1 hc hh
      exact ⟨m, List.mem_append_left _ h1, h2⟩
    · obtain ⟨m, h1, h2⟩ := k2.2 hs.2 hc hh
      exact ⟨m, List.mem_append_right _ h1, h2⟩

/-! ### The maps of a transition -/

theorem lookup_append_none {α : Type} {l r : List (Nat × α)} {k : Nat} (h : l.lookup k = none) : (l ++ r).lookup k = r.lookup k := by
  induction l with
  | nil => rfl
  | cons q l ih =>
    obtain ⟨j, b⟩ := q
    rw [List.lookup_cons] at h
    rw [List.cons_append, List.lookup_cons]
    by_cases e : (k == j) = true
    · rw [e] at h; cases h
    · have e' : (k == j) = false := by simpa using e
      rw [e'] at h ⊢
      exact ih h

theorem lookup_append_some {α : Type} {l r : List (Nat × α)} {k : Nat} (h : (l.lookup k).isSome = true) : (l ++ r).lookup k = l.lookup k := by
  induction l with
  | nil => cases h
  | cons q l ih =>
    obtain ⟨j, b⟩ := q
    rw [List.lookup_cons] at h
    rw [List.cons_append, List.lookup_cons, List.lookup_cons]
    by_cases e : (k == j) = true
    · rw [e]
    · have e' : (k == j) = false := by simpa using e
      rw [e'] at h ⊢
      exact ih h

/-- Missing variables get the full interval. -/
theorem addVars_ok (hn : ∀ v, ∀ n ∈ T.dims (vty v), 0 < n) (us : List Nat) (m : VMap) :
    (m.In T vty → (addVars T vty us m).In T vty) ∧ (∀ v ∈ us, (addVars T vty us m).Present v) ∧
    (∀ v, m.Present v → (addVars T vty us m).Present v) ∧
    (∀ ρ, m.Covers ρ → (∀ v ∈ us, Fits (T.dims (vty v)) (ρ v)) → (addVars T vty us m).Covers ρ) := by
  unfold addVars
  induction us generalizing m with
  | nil => exact ⟨id, (fun v h => by cases h), fun v h => h, fun ρ h _ => h⟩
  | cons u us ih =>
    rw [List.foldl_cons]
    generalize hm' : (if (List.lookup u m).isNone = true then m ++ [(u, [fullInterval (T.dims (vty u))])] else m) = m'
    have h1 : m.In T vty → VMap.In T vty m' := by
      intro h
      rw [← hm']
      split
      · intro q hq
        rcases List.mem_append.1 hq with hq | hq
        · exact h q hq
        · rw [List.mem_singleton] at hq
          subst hq
          intro i hi
          rw [List.mem_singleton] at hi
          subst hi
          exact full_in _ (hn u)
      · exact h
    have h2 : VMap.Present m' u := by
      rw [← hm']
      unfold VMap.Present
      split
      · rename_i h
        rw [Option.isNone_iff_eq_none] at h
        rw [lookup_append_none h]
        simp
      · rename_i h
        simpa [Option.isSome_iff_ne_none] using h
    have h3 : ∀ v, m.Present v → VMap.Present m' v := by
      intro v hv
      rw [← hm']
      split
      · unfold VMap.Present at hv ⊢
        rw [lookup_append_some hv]
        exact hv
      · exact hv
    have h4 : ∀ ρ, m.Covers ρ → Fits (T.dims (vty u)) (ρ u) → VMap.Covers m' ρ := by
      intro ρ hc hf
      rw [← hm']
      split
      · intro q hq
        rcases List.mem_append.1 hq with hq | hq
        · exact hc q hq
        · rw [List.mem_singleton] at hq
          subst hq
          exact ⟨_, List.mem_singleton.2 rfl, full_has _ _ hf⟩
      · exact hc
    obtain ⟨g1, g2, g3, g4⟩ := ih m'
    refine ⟨fun h => g1 (h1 h), ?_, fun v h => g3 v (h3 v h), fun ρ hc hf => g4 ρ (h4 ρ hc (hf u List.mem_cons_self)) fun v hv => hf v (List.mem_cons_of_mem _ hv)⟩
    intro v hv
    rcases List.mem_cons.1 hv with rfl | hv
    · exact g3 _ h2
    · exact g2 v hv

theorem removeInvalid_ok {maps : List VMap} :
    ((∀ m ∈ maps, m.In T vty) → ∀ m ∈ removeInvalid maps, m.In T vty) ∧
    ∀ ρ, (∃ m ∈ maps, m.Covers ρ) → ∃ m ∈ removeInvalid maps, m.Covers ρ := by
  constructor
  · intro h m hm
    obtain ⟨m', h', rfl⟩ := List.mem_map.1 hm
    obtain ⟨h', _⟩ := List.mem_filter.1 h'
    intro q hq
    obtain ⟨q', hq', rfl⟩ := List.mem_map.1 hq
    exact (h m' h' q' hq').simplify
  · rintro ρ ⟨m, hm, hc⟩
    refine ⟨_, List.mem_map.2 ⟨m, List.mem_filter.2 ⟨hm, ?_⟩, rfl⟩, ?_⟩
    · rw [List.all_eq_true]
      intro q hq
      obtain ⟨i, hi, hx⟩ := hc q hq
      exact List.any_eq_true.2 ⟨i, hi, hx.sound⟩
    · intro q hq
      obtain ⟨q', hq', rfl⟩ := List.mem_map.1 hq
      exact IVec.simplify_has (hc q' hq')

/-- The maps of a transition, restricted by its guard, still allow every binding that satisfies the guard. -/
theorem restrictMaps_ok (w : T.WF) (hn : ∀ v, ∀ n ∈ T.dims (vty v), 0 < n) {ρ : Nat → Val} {g : Guard} (ht : GuardTy T vty g)
    (hk : guardOk T vty g = true) (hf : ∀ v ∈ g.vars, Fits (T.dims (vty v)) (ρ v)) {maps : List VMap} (hm : ∀ m ∈ maps, m.In T vty) :
    (∀ m ∈ restrictMaps T vty (some g) maps, m.In T vty) ∧
    (smallG T vty g (maps.map (addVars T vty g.vars)) = true → (∃ m ∈ maps, m.Covers ρ) → g.holds T vty ρ →
      ∃ m ∈ restrictMaps T vty (some g) maps, m.Covers ρ) := by
  have h1 : ∀ m ∈ maps.map (addVars T vty g.vars), MOk T vty g.vars m := by
    intro m h
    obtain ⟨m', h', rfl⟩ := List.mem_map.1 h
    have := addVars_ok hn g.vars m' (T := T) (vty := vty)
    exact ⟨this.1 (hm m' h'), this.2.1⟩
  have k := restrictG_ok w hn (ρ := ρ) g ht hk (fun v h => h) hf _ h1
  unfold restrictMaps
  refine ⟨removeInvalid_ok.1 fun m h => (k.1 m h).inn, ?_⟩
  rintro hs ⟨m, h, hc⟩ hh
  refine (removeInvalid_ok (T := T) (vty := vty)).2 ρ (k.2 hs ⟨_, List.mem_map.2 ⟨m, h, rfl⟩, ?_⟩ hh)
  exact (addVars_ok hn g.vars m).2.2.2 ρ hc hf

end CFP
end Verif
