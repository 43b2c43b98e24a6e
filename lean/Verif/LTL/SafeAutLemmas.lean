import Verif.LTL.SafeAut
import Verif.Stubborn.Main

/-!
# What the two visitors of the automaton-guided stubborn sets guarantee
-/

namespace Verif
namespace Stubborn
open PQL
namespace Cx
variable {C : Cx}

/-! ### Every enabled transition the one visitor adds is added by the other -/

/-- Every enabled transition of the first set is in the second. -/
def Cov (C : Cx) (a b : Stub) : Prop := ∀ t, C.en t = true → a.stub t = true → b.stub t = true

abbrev InvC (C : Cx) (s : Stub) : Prop := Inv C.N C.m C.en (fun _ => False) s

theorem Cov.mono {a b b' : Stub} (h : Cov C a b) (hle : Le b b') : Cov C a b' := fun t he ht => hle.stub t (h t he ht)

theorem addAll_new (l : List Nat) (s : Stub) (t : Nat) (h : (l.foldl addToStub s).stub t = true) :
    s.stub t = true ∨ t ∈ l := by
  induction l generalizing s with
  | nil => exact .inl h
  | cons a l ih =>
    rcases ih _ h with h1 | h1
    · unfold addToStub at h1
      split at h1
      · rcases of_setB h1 with rfl | h1
        · exact .inr (List.mem_cons_self ..)
        · exact .inl h1
      · exact .inl h1
    · exact .inr (List.mem_cons_of_mem _ h1)

theorem addDecr_new (l : List (Nat × Int)) (s : Stub) (t : Nat) (h : (l.foldl addDecr s).stub t = true) :
    s.stub t = true ∨ ∃ a ∈ l, a.2 < 0 ∧ a.1 = t := by
  induction l generalizing s with
  | nil => exact .inl h
  | cons a l ih =>
    rcases ih _ h with h1 | ⟨b, hb, h1⟩
    · unfold addDecr at h1
      split at h1
      · rename_i ha
        unfold addToStub at h1
        split at h1
        · rcases of_setB h1 with rfl | h1
          · exact .inr ⟨a, List.mem_cons_self .., ha, rfl⟩
          · exact .inl h1
        · exact .inl h1
      · exact .inl h1
    · exact .inr ⟨b, List.mem_cons_of_mem _ hb, h1⟩

variable (hcl : C.cl = false)
include hcl

theorem pre_new (p : Nat) (s : Stub) (t : Nat) (h : (C.pre p s).stub t = true) : s.stub t = true ∨ t ∈ preT C.N p := by
  unfold pre finish presetOf at h
  simp only [hcl, Bool.false_eq_true, if_false] at h
  split at h
  · exact .inl h
  · exact addAll_new _ { s with seenPre := setB s.seenPre p } _ h

theorem post_new (p : Nat) (s : Stub) (t : Nat) (h : (C.post p s).stub t = true) :
    s.stub t = true ∨ ∃ a ∈ postT C.N p, a.2 < 0 ∧ a.1 = t := by
  unfold post finish postsetOf at h
  simp only [hcl, Bool.false_eq_true, if_false] at h
  split at h
  · exact .inl h
  · exact addDecr_new _ { s with seenPost := setB s.seenPost p } _ h

theorem pre_left {p : Nat} {a b : Stub} (hi : InvC C b) (hs : b.seenPre p = true) (h : Cov C a b) :
    Cov C (C.pre p a) b := fun t he ht => by
  rcases pre_new hcl p a t ht with h1 | h1
  · exact h t he h1
  · exact hi.pre p hs t h1

theorem post_left {p : Nat} {a b : Stub} (hi : InvC C b) (hs : b.seenPost p = true) (h : Cov C a b) :
    Cov C (C.post p a) b := fun t he ht => by
  rcases post_new hcl p a t ht with h1 | ⟨x, hx, h1, rfl⟩
  · exact h t he h1
  · exact hi.post p hs _ hx h1

omit hcl in
/-- A visitor that grows the set and keeps `Cov`. -/
structure Mono (C : Cx) (F : Stub → Stub) : Prop where
  ext : ∀ s, ExtC C s (F s)
  cov : ∀ a b, InvC C b → Cov C a b → Cov C (F a) (F b)

omit hcl in
theorem Mono.id : Mono C fun s => s := ⟨fun s => .refl s, fun _ _ _ h => h⟩

omit hcl in
theorem Mono.comp {F G : Stub → Stub} (hF : Mono C F) (hG : Mono C G) : Mono C fun s => G (F s) :=
  ⟨fun s => (hF.ext s).trans (hG.ext _), fun a b hi h => hG.cov _ _ ((hF.ext b).inv hi) (hF.cov a b hi h)⟩

omit hcl in
theorem Mono.foldl {α : Type} {F : Stub → α → Stub} (l : List α) (h : ∀ x ∈ l, Mono C fun s => F s x) :
    Mono C fun s => l.foldl F s := by
  induction l with
  | nil => exact .id
  | cons x l ih => exact (h x (List.mem_cons_self ..)).comp (ih fun y hy => h y (List.mem_cons_of_mem _ hy))

variable (hen : EnOK C.N C.m C.en)
include hen

theorem pre_mono (p : Nat) : Mono C (C.pre p) :=
  ⟨fun s => (pre_ext hen p s).1, fun _ b hi h =>
    pre_left hcl ((pre_ext hen p b).1.inv hi) (pre_ext hen p b).2 (h.mono (pre_ext hen p b).1.le)⟩

theorem post_mono (p : Nat) : Mono C (C.post p) :=
  ⟨fun s => (post_ext hen p s).1, fun _ b hi h =>
    post_left hcl ((post_ext hen p b).1.inv hi) (post_ext hen p b).2 (h.mono (post_ext hen p b).1.le)⟩

omit hcl hen in
theorem exprs_mono (es : List Expr) (h : ∀ e ∈ es, Mono C (C.incr e) ∧ Mono C (C.decr e)) :
    Mono C (C.incrAll es) ∧ Mono C (C.decrAll es) ∧ Mono C (C.bothAll es) := by
  induction es with
  | nil =>
    refine ⟨?_, ?_, ?_⟩
    · have : C.incrAll [] = fun s => s := by funext s; simp only [incrAll]
      rw [this]; exact .id
    · have : C.decrAll [] = fun s => s := by funext s; simp only [decrAll]
      rw [this]; exact .id
    · have : C.bothAll [] = fun s => s := by funext s; simp only [bothAll]
      rw [this]; exact .id
  | cons e es ih =>
    have h0 := h e (List.mem_cons_self ..)
    have h' := ih fun x hx => h x (List.mem_cons_of_mem _ hx)
    refine ⟨?_, ?_, ?_⟩
    · have : C.incrAll (e :: es) = fun s => C.incrAll es (C.incr e s) := by funext s; simp only [incrAll]
      rw [this]; exact h0.1.comp h'.1
    · have : C.decrAll (e :: es) = fun s => C.decrAll es (C.decr e s) := by funext s; simp only [decrAll]
      rw [this]; exact h0.2.comp h'.2.1
    · have : C.bothAll (e :: es) = fun s => C.bothAll es (C.decr e (C.incr e s)) := by funext s; simp only [bothAll]
      rw [this]; exact (h0.1.comp h0.2).comp h'.2.2

theorem expr_mono (e : Expr) : Mono C (C.incr e) ∧ Mono C (C.decr e) := by
  have hpre := fun p => pre_mono hcl hen p
  have hpost := fun p => post_mono hcl hen p
  have fpre : ∀ ids : List Nat, Mono C fun s => ids.foldl (fun s p => C.pre p s) s := fun ids => .foldl ids fun p _ => hpre p
  have fpost : ∀ ids : List Nat, Mono C fun s => ids.foldl (fun s p => C.post p s) s := fun ids =>
    .foldl ids fun p _ => hpost p
  have fboth : ∀ ids : List Nat, Mono C fun s => ids.foldl (fun s p => C.post p (C.pre p s)) s := fun ids =>
    .foldl (F := fun s p => C.post p (C.pre p s)) ids fun p _ => (hpre p).comp (hpost p)
  induction e using Expr.ind with
  | lit v =>
    have h1 : C.incr (.lit v) = fun s => s := by funext s; simp only [incr]
    have h2 : C.decr (.lit v) = fun s => s := by funext s; simp only [decr]
    rw [h1, h2]; exact ⟨.id, .id⟩
  | id p =>
    have h1 : C.incr (.id p) = C.pre p := by funext s; simp only [incr]
    have h2 : C.decr (.id p) = C.post p := by funext s; simp only [decr]
    rw [h1, h2]; exact ⟨hpre p, hpost p⟩
  | plus k ids es ih =>
    have h1 : C.incr (.plus k ids es) = fun s => C.incrAll es (ids.foldl (fun s p => C.pre p s) s) := by
      funext s; simp only [incr]
    have h2 : C.decr (.plus k ids es) = fun s => C.decrAll es (ids.foldl (fun s p => C.post p s) s) := by
      funext s; simp only [decr]
    rw [h1, h2]
    have := exprs_mono es ih
    exact ⟨(fpre ids).comp this.1, (fpost ids).comp this.2.1⟩
  | mul k ids es ih =>
    have := exprs_mono es ih
    by_cases hone : ids.length + es.length = 1
    · have h1 : C.incr (.mul k ids es) = fun s => C.incrAll es (ids.foldl (fun s p => C.pre p s) s) := by
        funext s; simp only [incr, if_pos hone]
      have h2 : C.decr (.mul k ids es) = fun s => C.decrAll es (ids.foldl (fun s p => C.post p s) s) := by
        funext s; simp only [decr, if_pos hone]
      rw [h1, h2]
      exact ⟨(fpre ids).comp this.1, (fpost ids).comp this.2.1⟩
    · have h1 : C.incr (.mul k ids es) = fun s => C.bothAll es (ids.foldl (fun s p => C.post p (C.pre p s)) s) := by
        funext s; simp only [incr, if_neg hone]
      have h2 : C.decr (.mul k ids es) = fun s => C.bothAll es (ids.foldl (fun s p => C.post p (C.pre p s)) s) := by
        funext s; simp only [decr, if_neg hone]
      rw [h1, h2]
      exact ⟨(fboth ids).comp this.2.2, (fboth ids).comp this.2.2⟩
  | sub e es h ih =>
    have := exprs_mono es ih
    have h1 : C.incr (.sub e es) = fun s => C.decrAll es (C.incr e s) := by funext s; simp only [incr]
    have h2 : C.decr (.sub e es) = fun s => C.incrAll es (C.decr e s) := by funext s; simp only [decr]
    rw [h1, h2]
    exact ⟨h.1.comp this.2.1, h.2.comp this.1⟩
  | minus e _ =>
    have h1 : C.incr (.minus e) = fun s => s := by funext s; simp only [incr]
    have h2 : C.decr (.minus e) = fun s => s := by funext s; simp only [decr]
    rw [h1, h2]; exact ⟨.id, .id⟩

theorem incr_mono (e : Expr) : Mono C (C.incr e) := (expr_mono hcl hen e).1
theorem decr_mono (e : Expr) : Mono C (C.decr e) := (expr_mono hcl hen e).2

theorem wantEq_mono (a b : Int) (e1 e2 : Expr) : Mono C (C.wantEq a b e1 e2) := by
  by_cases h : a = b
  · have : C.wantEq a b e1 e2 = fun s => s := by funext s; simp only [wantEq, if_pos h]
    rw [this]; exact .id
  · by_cases h' : a > b
    · have : C.wantEq a b e1 e2 = fun s => C.incr e2 (C.decr e1 s) := by funext s; simp only [wantEq, if_neg h, if_pos h']
      rw [this]; exact (decr_mono hcl hen e1).comp (incr_mono hcl hen e2)
    · have : C.wantEq a b e1 e2 = fun s => C.decr e2 (C.incr e1 s) := by funext s; simp only [wantEq, if_neg h, if_neg h']
      rw [this]; exact (incr_mono hcl hen e1).comp (decr_mono hcl hen e2)

theorem wantNe_mono (a b : Int) (e1 e2 : Expr) : Mono C (C.wantNe a b e1 e2) := by
  by_cases h : a ≠ b
  · have : C.wantNe a b e1 e2 = fun s => s := by funext s; simp only [wantNe, if_pos h]
    rw [this]; exact .id
  · have : C.wantNe a b e1 e2 = fun s => C.decr e2 (C.incr e2 (C.decr e1 (C.incr e1 s))) := by
      funext s; simp only [wantNe, if_neg h]
    rw [this]
    exact (((incr_mono hcl hen e1).comp (decr_mono hcl hen e1)).comp (incr_mono hcl hen e2)).comp (decr_mono hcl hen e2)

omit hcl hen in
theorem ite_mono {p : Prop} [Decidable p] {F G : Stub → Stub} (hF : Mono C F) (hG : Mono C G) :
    Mono C fun s => if p then F s else G s := by
  by_cases h : p
  · simp only [if_pos h]; exact hF
  · simp only [if_neg h]; exact hG

theorem visitCmp_mono (neg : Bool) (a b : Int) (op : Cmp) (e1 e2 : Expr) : Mono C (C.visitCmp neg a b op e1 e2) := by
  have hdi := (decr_mono hcl hen e1).comp (incr_mono hcl hen e2)
  have hid := (incr_mono hcl hen e1).comp (decr_mono hcl hen e2)
  cases op <;> cases neg
  case lt.false => exact ite_mono (p := a < b) .id hdi
  case lt.true => exact ite_mono (p := a ≥ b) .id hid
  case le.false => exact ite_mono (p := a ≤ b) .id hdi
  case le.true => exact ite_mono (p := a > b) .id hid
  case eq.false => exact wantEq_mono hcl hen a b e1 e2
  case eq.true => exact wantNe_mono hcl hen a b e1 e2
  case ne.false => exact wantNe_mono hcl hen a b e1 e2
  case ne.true => exact wantEq_mono hcl hen a b e1 e2

theorem visitDead_mono (M : Mem) (pos : List Nat) : Mono C (C.visitDead M pos) := by
  have hp : ∀ t, Mono C (C.postPreset t) := fun t =>
    .foldl (F := fun s (i : Invariant) => if i.inhibitor then C.pre i.place s else C.post i.place s) (C.N.preset t)
      fun i _ => ite_mono (p := i.inhibitor = true) (pre_mono hcl hen i.place) (post_mono hcl hen i.place)
  refine ite_mono (p := M.sat pos ≠ .rTrue) ?_ .id
  cases C.leastDependent with
  | none => exact .id
  | some t => exact hp t

/-! ### Conjunctions -/

theorem lccOne_ext (neg : Bool) (c : Cons) (s : Stub) : ExtC C s (C.lccOne neg s c) ∧
    (c.lower ≠ 0 → if neg then (C.lccOne neg s c).seenPost c.place = true else (C.lccOne neg s c).seenPre c.place = true) ∧
    (c.upper ≠ W32 - 1 →
      if neg then (C.lccOne neg s c).seenPre c.place = true else (C.lccOne neg s c).seenPost c.place = true) := by
  unfold lccOne
  cases neg
  · simp only [Bool.not_false, if_true, Bool.false_eq_true, if_false]
    by_cases h1 : c.lower ≠ 0 <;> by_cases h2 : c.upper ≠ W32 - 1
    · rw [if_pos h1, if_pos h2]
      have e1 := pre_ext hen c.place s
      have e2 := post_ext hen c.place (C.pre c.place s)
      exact ⟨e1.1.trans e2.1, fun _ => e2.1.le.pre _ e1.2, fun _ => e2.2⟩
    · rw [if_pos h1, if_neg h2]
      have e1 := pre_ext hen c.place s
      exact ⟨e1.1, fun _ => e1.2, fun h => (h2 h).elim⟩
    · rw [if_neg h1, if_pos h2]
      have e1 := post_ext hen c.place s
      exact ⟨e1.1, fun h => (h1 h).elim, fun _ => e1.2⟩
    · rw [if_neg h1, if_neg h2]
      exact ⟨.refl s, fun h => (h1 h).elim, fun h => (h2 h).elim⟩
  · simp only [Bool.not_true, if_true, Bool.false_eq_true, if_false]
    by_cases h1 : c.lower ≠ 0 <;> by_cases h2 : c.upper ≠ W32 - 1
    · rw [if_pos h1, if_pos h2]
      have e1 := post_ext hen c.place s
      have e2 := pre_ext hen c.place (C.post c.place s)
      exact ⟨e1.1.trans e2.1, fun _ => e2.1.le.post _ e1.2, fun _ => e2.2⟩
    · rw [if_pos h1, if_neg h2]
      have e1 := post_ext hen c.place s
      exact ⟨e1.1, fun _ => e1.2, fun h => (h2 h).elim⟩
    · rw [if_neg h1, if_pos h2]
      have e1 := pre_ext hen c.place s
      exact ⟨e1.1, fun h => (h1 h).elim, fun _ => e1.2⟩
    · rw [if_neg h1, if_neg h2]
      exact ⟨.refl s, fun h => (h1 h).elim, fun h => (h2 h).elim⟩

theorem lcc_ext (neg : Bool) (l : List Cons) (s : Stub) : ExtC C s (C.lcc neg l s) ∧ ∀ c ∈ l,
    (c.lower ≠ 0 → if neg then (C.lcc neg l s).seenPost c.place = true else (C.lcc neg l s).seenPre c.place = true) ∧
    (c.upper ≠ W32 - 1 →
      if neg then (C.lcc neg l s).seenPre c.place = true else (C.lcc neg l s).seenPost c.place = true) := by
  unfold lcc
  induction l generalizing s with
  | nil => exact ⟨.refl s, by simp⟩
  | cons d l ih =>
    have h1 := lccOne_ext hcl hen neg d s
    have h2 := ih (C.lccOne neg s d)
    refine ⟨h1.1.trans h2.1, fun c hc => ?_⟩
    rcases List.mem_cons.1 hc with rfl | hc
    · rw [List.foldl_cons]
      refine ⟨fun hl => ?_, fun hl => ?_⟩
      · have := h1.2.1 hl
        split at this
        · rw [if_pos (by assumption)]; exact h2.1.le.post _ this
        · rw [if_neg (by assumption)]; exact h2.1.le.pre _ this
      · have := h1.2.2 hl
        split at this
        · rw [if_pos (by assumption)]; exact h2.1.le.pre _ this
        · rw [if_neg (by assumption)]; exact h2.1.le.post _ this
    · exact h2.2 c hc

omit hcl hen in
/-- What the visitor does for a conjunction that has to become true. -/
theorem ccPos_cases (L : List Cons) (hw : ∀ c ∈ L, C.m c.place < W32) : ∀ (l : List Cons) (k : Option (Nat × Bool))
    (s : Stub), (∀ c ∈ l, c ∈ L) → CandOK C L k →
    C.ccPos l k s = s ∨ ∃ c ∈ L, (C.m c.place < c.lower ∧ C.ccPos l k s = C.pre c.place s) ∨
      (c.upper < C.m c.place ∧ C.ccPos l k s = C.post c.place s)
  | [], k, s, _, hk => by
    simp only [ccPos]
    rcases k with _ | ⟨p, b⟩
    · exact .inl rfl
    · obtain ⟨c, hc, rfl, hv⟩ := hk p b rfl
      right
      cases b
      · exact ⟨c, hc, .inr ⟨by simpa using hv, rfl⟩⟩
      · exact ⟨c, hc, .inl ⟨by simpa using hv, rfl⟩⟩
  | c :: l, k, s, hl, hk => by
    have hc := hl c (List.mem_cons_self ..)
    have h := ccCand_ok hc hk (hw c hc)
    have ih := ccPos_cases L hw l (C.ccCand c k).1 s (fun d hd => hl d (List.mem_cons_of_mem _ hd)) h.1
    simp only [ccPos]
    split
    · exact ih
    · split
      · exact .inl rfl
      · exact ih

theorem post_zero (w : C.N.WF) (hd : C.N.DirOK) {p : Nat} (h0 : C.m p = 0) {a b : Stub} (h : Cov C a b) :
    Cov C (C.post p a) b := fun t he ht => by
  rcases post_new hcl p a t ht with h1 | ⟨x, hx, h1, rfl⟩
  · exact h t he h1
  · exfalso
    have hlt := postT_lt hx
    simp only [postT, List.mem_flatMap, List.mem_range, List.mem_map, List.mem_filter] at hx
    obtain ⟨u, hu, i, ⟨hi, hip⟩, rfl⟩ := hx
    simp only [Bool.and_eq_true, beq_iff_eq, Bool.not_eq_true'] at hip
    simp only at h1 he hlt
    have hdir := hd ⟨u, hlt⟩ i (.inl hi)
    have hchk : C.N.checkPreset C.m u = true := by rw [← hen u hlt]; exact he
    have := ((FlatNet.checkPreset_iff w C.m ⟨u, hlt⟩).1 hchk).1 i.place
    have hm0 : C.m i.place = 0 := by rw [hip.1]; exact h0
    have hpre : C.N.toNet.pre ⟨u, hlt⟩ i.place = 0 := by omega
    rw [hpre] at hdir
    rcases Nat.eq_zero_or_pos (C.N.toNet.post ⟨u, hlt⟩ i.place) with hz | hz
    · rw [hz] at hdir; simp at hdir; omega
    · rw [Int.sign_eq_one_of_pos (by omega)] at hdir; omega

theorem visitCC_cov (w : C.N.WF) (hd : C.N.DirOK) (hw : ∀ p, C.m p + 1 < W32) (neg : Bool) (l : List Cons)
    (hv : neg = true → ∀ c ∈ l, c.holds C.m) {a b : Stub} (hi : InvC C b) (h : Cov C a b) :
    Cov C (C.visitCC neg l a) (C.lcc neg l b) := by
  unfold visitCC
  cases neg with
  | false =>
    simp only [Bool.false_eq_true, if_false]
    have hb := lcc_ext hcl hen false l b
    have hib := hb.1.inv hi
    have hab := h.mono hb.1.le
    rcases ccPos_cases (C := C) l (fun c _ => by have := hw c.place; omega) l none a (fun _ h => h)
      (fun p b h => by cases h) with he | ⟨c, hc, ⟨h1, he⟩ | ⟨h1, he⟩⟩
    · rw [he]; exact hab
    · rw [he]
      have := (hb.2 c hc).1 (by omega)
      simp only [Bool.false_eq_true, if_false] at this
      exact pre_left hcl hib this hab
    · rw [he]
      have := (hb.2 c hc).2 (by have := hw c.place; omega)
      simp only [Bool.false_eq_true, if_false] at this
      exact post_left hcl hib this hab
  | true =>
    simp only [if_true]
    have hv := hv rfl
    unfold lcc
    induction l generalizing a b with
    | nil => exact h
    | cons c l ih =>
      rw [List.foldl_cons, List.foldl_cons]
      have hb := lccOne_ext hcl hen true c b
      have hib := hb.1.inv hi
      have hab := h.mono hb.1.le
      simp only [if_true] at hb
      refine ih hib ?_ (fun _ d hd => hv d (List.mem_cons_of_mem _ hd)) (fun d hd => hv d (List.mem_cons_of_mem _ hd))
      obtain ⟨hl, hu⟩ := hv c (List.mem_cons_self ..)
      have hwc := hw c.place
      have hpre : ∀ {a}, c.upper ≠ W32 - 1 → Cov C a (C.lccOne true b c) → Cov C (C.pre c.place a) (C.lccOne true b c) :=
        fun hne h => pre_left hcl hib (hb.2.2 hne) h
      have hpost : ∀ {a}, (c.lower ≠ 0 ∨ C.m c.place = 0) → Cov C a (C.lccOne true b c) →
          Cov C (C.post c.place a) (C.lccOne true b c) := fun hne h => by
        rcases hne with hne | h0
        · exact post_left hcl hib (hb.2.1 hne) h
        · exact post_zero hcl hen w hd h0 h
      unfold ccNegOne
      by_cases h1 : c.lower = c.upper
      · rw [if_pos h1]
        split
        · exact hab
        · exact hpre (by omega) (hpost (by omega) hab)
      · rw [if_neg h1]
        dsimp only
        have h2 : Cov C (if C.m c.place ≥ c.lower ∧ c.lower ≠ 0 then C.post c.place a else a) (C.lccOne true b c) := by
          split
          · rename_i hh; exact hpost (.inl hh.2) hab
          · exact hab
        split
        · rename_i hh; exact hpre hh.2 h2
        · exact h2

end Cx

namespace Cx
variable {C : Cx} {M : Mem} (hcl : C.cl = false) (hen : EnOK C.N C.m C.en)

mutual
theorem visitL_ext (hcl : C.cl = false) (hen : EnOK C.N C.m C.en) : ∀ (neg : Bool) (pos : List Nat) (c : Cond) (s : Stub),
    ExtC C s (C.visitL M neg pos c s)
  | _, pos, .dead, s => by simp only [visitL]; exact visitDead_ext hen M pos s
  | _, _, .cmp _ _ _, s => by simp only [visitL]; exact visitCmp_ext hen ..
  | _, _, .cc _ _, s => by simp only [visitL]; exact (lcc_ext hcl hen ..).1
  | _, _, .not c, s => by simp only [visitL]; exact visitL_ext hcl hen _ _ c s
  | neg, pos, .and cs, s => by
    simp only [visitL]; split
    · exact visitLUnsat_ext hcl hen _ _ _ cs s
    · exact visitLAll_ext hcl hen _ _ _ cs s
  | neg, pos, .or cs, s => by
    simp only [visitL]; split
    · exact visitLAll_ext hcl hen _ _ _ cs s
    · exact visitLSat_ext hcl hen _ _ _ cs s
  | _, _, .bool _, s => by simp only [visitL]; exact .refl s
  | _, _, .EX _, s => by simp only [visitL]; exact .refl s
  | _, _, .AX _, s => by simp only [visitL]; exact .refl s
  | _, _, .EF _, s => by simp only [visitL]; exact .refl s
  | _, _, .AF _, s => by simp only [visitL]; exact .refl s
  | _, _, .EG _, s => by simp only [visitL]; exact .refl s
  | _, _, .AG _, s => by simp only [visitL]; exact .refl s
  | _, _, .E _, s => by simp only [visitL]; exact .refl s
  | _, _, .A _, s => by simp only [visitL]; exact .refl s
  | _, _, .X _, s => by simp only [visitL]; exact .refl s
  | _, _, .F _, s => by simp only [visitL]; exact .refl s
  | _, _, .G _, s => by simp only [visitL]; exact .refl s
  | _, _, .U _ _, s => by simp only [visitL]; exact .refl s
  | _, _, .EU _ _, s => by simp only [visitL]; exact .refl s
  | _, _, .AU _ _, s => by simp only [visitL]; exact .refl s
theorem visitLUnsat_ext (hcl : C.cl = false) (hen : EnOK C.N C.m C.en) : ∀ (neg : Bool) (pos : List Nat) (i : Nat)
    (cs : List Cond) (s : Stub), ExtC C s (C.visitLUnsat M neg pos i cs s)
  | _, _, _, [], s => by simp only [visitLUnsat]; exact .refl s
  | neg, pos, i, c :: cs, s => by
    simp only [visitLUnsat]; split
    · exact visitL_ext hcl hen _ _ c s
    · exact visitLUnsat_ext hcl hen _ _ _ cs s
theorem visitLSat_ext (hcl : C.cl = false) (hen : EnOK C.N C.m C.en) : ∀ (neg : Bool) (pos : List Nat) (i : Nat)
    (cs : List Cond) (s : Stub), ExtC C s (C.visitLSat M neg pos i cs s)
  | _, _, _, [], s => by simp only [visitLSat]; exact .refl s
  | neg, pos, i, c :: cs, s => by
    simp only [visitLSat]; split
    · exact visitL_ext hcl hen _ _ c s
    · exact visitLSat_ext hcl hen _ _ _ cs s
theorem visitLAll_ext (hcl : C.cl = false) (hen : EnOK C.N C.m C.en) : ∀ (neg : Bool) (pos : List Nat) (i : Nat)
    (cs : List Cond) (s : Stub), ExtC C s (C.visitLAll M neg pos i cs s)
  | _, _, _, [], s => by simp only [visitLAll]; exact .refl s
  | neg, pos, i, c :: cs, s => by
    simp only [visitLAll]
    exact (visitL_ext hcl hen _ _ c s).trans (visitLAll_ext hcl hen _ _ _ cs _)
end

theorem lneg_eq {neg : Bool} {r : Res} (h : r = .ofBool neg) : lneg neg r = neg := by
  subst h; cases neg <;> rfl

/-- What is known when the two visitors are compared. -/
structure Both (C : Cx) : Prop where
  cl : C.cl = false
  en : EnOK C.N C.m C.en
  w : C.N.WF
  d : C.N.DirOK
  b : ∀ p, C.m p + 1 < W32

theorem cc_value (m : Mark) (l : List Cons) (n neg : Bool) :
    Res.ofBool (n ^^ evalCons m l) = .ofBool neg ↔ ((∀ c ∈ l, c.holds m) ↔ (neg != n) = true) := by
  rw [← evalCons_iff, ofBool_eq]
  cases n <;> cases neg <;> cases evalCons m l <;> simp

theorem value_of_ne {dl : Bool} {m : Mark} {c : Cond} (ht : tameCond c = true) {neg : Bool}
    (h : evaluateSet dl m c ≠ .ofBool (!neg)) : evaluateSet dl m c = .ofBool neg := by
  obtain ⟨b, hb⟩ := evaluateSet_definite dl m c (tame_nontemporal c ht)
  rw [hb] at h ⊢
  rw [ofBool_eq]
  rw [ne_eq, ofBool_eq] at h
  cases b <;> cases neg <;> simp_all

mutual
/-- Every enabled transition that is interesting for a condition to change its value is in the set the other visitor
computes. -/
theorem visit_cov (h : Both C) : ∀ (neg : Bool) (pos : List Nat) (c : Cond) (a b : Stub), tameCond c = true →
    M.sat pos = evaluateSet false C.m c → Rec M false C.m pos c → evaluateSet false C.m c = .ofBool neg → InvC C b →
    Cov C a b → Cov C (C.visit M neg pos c a) (C.visitL M neg pos c b)
  | _, _, .bool _, _, _, _, _, _, _, _, hab => by simp only [visit, visitL]; exact hab
  | _, pos, .dead, a, b, _, _, _, _, hi, hab => by
    simp only [visit, visitL]; exact (visitDead_mono h.cl h.en M pos).cov a b hi hab
  | neg, pos, .cmp op e1 e2, a, b, _, hs, _, hv, hi, hab => by
    simp only [visit, visitL, lneg_eq (hs.trans hv)]
    exact (visitCmp_mono h.cl h.en ..).cov a b hi hab
  | neg, pos, .cc l n, a, b, _, _, _, hv, hi, hab => by
    simp only [visit, visitL, evaluateSet] at *
    rw [cc_value] at hv
    exact visitCC_cov h.cl h.en h.w h.d h.b _ l (fun hn => hv.2 hn) hi hab
  | neg, pos, .not c, a, b, ht, _, hr, hv, hi, hab => by
    simp only [visit, visitL, Rec, evaluateSet, tameCond] at *
    rw [neg_ofBool] at hv
    exact visit_cov h _ _ c a b ht hr.1 hr.2 hv hi hab
  | neg, pos, .and cs, a, b, ht, _, hr, hv, hi, hab => by
    simp only [visit, visitL, Rec, evaluateSet, tameCond] at *
    rw [evalAndSet_eq] at hv
    cases neg with
    | false =>
      simp only [Bool.not_false, if_true]
      exact visitUnsat_cov h _ 0 cs a b ht hr hi hab
    | true =>
      simp only [Bool.not_true, Bool.false_eq_true, if_false]
      simp only [Res.ofBool, if_true] at hv
      rw [andRes_true] at hv
      exact visitAll_covAnd h _ 0 cs a b ht hr hv.2 hi hab
  | neg, pos, .or cs, a, b, ht, _, hr, hv, hi, hab => by
    simp only [visit, visitL, Rec, evaluateSet, tameCond] at *
    rw [evalOrSet_eq] at hv
    cases neg with
    | true =>
      simp only [Bool.not_true, Bool.false_eq_true, if_false]
      exact visitSat_cov h _ 0 cs a b ht hr hi hab
    | false =>
      simp only [Bool.not_false, if_true]
      simp only [Res.ofBool, Bool.false_eq_true, if_false] at hv
      rw [orRes_false] at hv
      exact visitAll_covOr h _ 0 cs a b ht hr hv.2 hi hab
  | _, _, .EX _, _, _, ht, _, _, _, _, _ => by simp [tameCond] at ht
  | _, _, .AX _, _, _, ht, _, _, _, _, _ => by simp [tameCond] at ht
  | _, _, .EF _, _, _, ht, _, _, _, _, _ => by simp [tameCond] at ht
  | _, _, .AF _, _, _, ht, _, _, _, _, _ => by simp [tameCond] at ht
  | _, _, .EG _, _, _, ht, _, _, _, _, _ => by simp [tameCond] at ht
  | _, _, .AG _, _, _, ht, _, _, _, _, _ => by simp [tameCond] at ht
  | _, _, .EU _ _, _, _, ht, _, _, _, _, _ => by simp [tameCond] at ht
  | _, _, .AU _ _, _, _, ht, _, _, _, _, _ => by simp [tameCond] at ht
  | _, _, .E _, _, _, ht, _, _, _, _, _ => by simp [tameCond] at ht
  | _, _, .A _, _, _, ht, _, _, _, _, _ => by simp [tameCond] at ht
  | _, _, .X _, _, _, ht, _, _, _, _, _ => by simp [tameCond] at ht
  | _, _, .F _, _, _, ht, _, _, _, _, _ => by simp [tameCond] at ht
  | _, _, .G _, _, _, ht, _, _, _, _, _ => by simp [tameCond] at ht
  | _, _, .U _ _, _, _, ht, _, _, _, _, _ => by simp [tameCond] at ht
theorem visitUnsat_cov (h : Both C) : ∀ (pos : List Nat) (i : Nat) (cs : List Cond) (a b : Stub), tameConds cs = true →
    RecAnd M false C.m pos i cs → InvC C b → Cov C a b →
    Cov C (C.visitUnsat M false pos i cs a) (C.visitLUnsat M false pos i cs b)
  | _, _, [], _, _, _, _, _, hab => by simp only [visitUnsat, visitLUnsat]; exact hab
  | pos, i, c :: cs, a, b, ht, hr, hi, hab => by
    simp only [tameConds, RecAnd, Bool.and_eq_true, visitUnsat, visitLUnsat] at *
    by_cases hs : M.sat (pos ++ [i]) = .rTrue
    · rw [if_neg (not_not_intro hs), if_neg (not_not_intro hs)]
      exact visitUnsat_cov h _ _ cs a b ht.2 (hr.2.2 (by rw [← hr.1, hs]; simp)) hi hab
    · rw [if_pos hs, if_pos hs]
      exact visit_cov h _ _ c a b ht.1 hr.1 hr.2.1 (value_of_ne ht.1 (by rw [← hr.1]; exact hs)) hi hab
theorem visitSat_cov (h : Both C) : ∀ (pos : List Nat) (i : Nat) (cs : List Cond) (a b : Stub), tameConds cs = true →
    RecOr M false C.m pos i cs → InvC C b → Cov C a b →
    Cov C (C.visitSat M true pos i cs a) (C.visitLSat M true pos i cs b)
  | _, _, [], _, _, _, _, _, hab => by simp only [visitSat, visitLSat]; exact hab
  | pos, i, c :: cs, a, b, ht, hr, hi, hab => by
    simp only [tameConds, RecOr, Bool.and_eq_true, visitSat, visitLSat] at *
    by_cases hs : M.sat (pos ++ [i]) = .rTrue
    · rw [if_pos hs, if_pos hs]
      exact visit_cov h _ _ c a b ht.1 hr.1 hr.2.1 (by rw [← hr.1, hs]; rfl) hi hab
    · rw [if_neg hs, if_neg hs]
      exact visitSat_cov h _ _ cs a b ht.2 (hr.2.2 (by rw [← hr.1]; exact hs)) hi hab
theorem visitAll_covAnd (h : Both C) : ∀ (pos : List Nat) (i : Nat) (cs : List Cond) (a b : Stub), tameConds cs = true →
    RecAnd M false C.m pos i cs → (∀ x ∈ cs.map (evaluateSet false C.m), x = .rTrue) → InvC C b → Cov C a b →
    Cov C (C.visitAll M true pos i cs a) (C.visitLAll M true pos i cs b)
  | _, _, [], _, _, _, _, _, _, hab => by simp only [visitAll, visitLAll]; exact hab
  | pos, i, c :: cs, a, b, ht, hr, hv, hi, hab => by
    simp only [tameConds, RecAnd, Bool.and_eq_true, visitAll, visitLAll, List.map_cons, List.forall_mem_cons] at *
    exact visitAll_covAnd h _ _ cs _ _ ht.2 (hr.2.2 (by rw [hv.1]; simp)) hv.2 ((visitL_ext h.cl h.en ..).inv hi)
      (visit_cov h _ _ c a b ht.1 hr.1 hr.2.1 hv.1 hi hab)
theorem visitAll_covOr (h : Both C) : ∀ (pos : List Nat) (i : Nat) (cs : List Cond) (a b : Stub), tameConds cs = true →
    RecOr M false C.m pos i cs → (∀ x ∈ cs.map (evaluateSet false C.m), x = .rFalse) → InvC C b → Cov C a b →
    Cov C (C.visitAll M false pos i cs a) (C.visitLAll M false pos i cs b)
  | _, _, [], _, _, _, _, _, _, hab => by simp only [visitAll, visitLAll]; exact hab
  | pos, i, c :: cs, a, b, ht, hr, hv, hi, hab => by
    simp only [tameConds, RecOr, Bool.and_eq_true, visitAll, visitLAll, List.map_cons, List.forall_mem_cons] at *
    exact visitAll_covOr h _ _ cs _ _ ht.2 (hr.2.2 (by rw [hv.1]; simp)) hv.2 ((visitL_ext h.cl h.en ..).inv hi)
      (visit_cov h _ _ c a b ht.1 hr.1 hr.2.1 hv.1 hi hab)
end

/-! ### A change by one transition, in another marking -/

/-- the visitors of expressions do not look at the marking -/
theorem pre_indep {C C' : Cx} (hN : C.N = C'.N) (hc : C.cl = false) (hc' : C'.cl = false) : C.pre = C'.pre := by
  funext p s; simp only [pre, finish, hc, hc', hN]; rfl

theorem post_indep {C C' : Cx} (hN : C.N = C'.N) (hc : C.cl = false) (hc' : C'.cl = false) : C.post = C'.post := by
  funext p s; simp only [post, finish, hc, hc', hN]; rfl

theorem exprs_indep {C C' : Cx} (es : List Expr) (h : ∀ e ∈ es, C.incr e = C'.incr e ∧ C.decr e = C'.decr e) :
    C.incrAll es = C'.incrAll es ∧ C.decrAll es = C'.decrAll es ∧ C.bothAll es = C'.bothAll es := by
  induction es with
  | nil => refine ⟨?_, ?_, ?_⟩ <;> funext s <;> simp only [incrAll, decrAll, bothAll]
  | cons e es ih =>
    obtain ⟨h1, h2⟩ := h e (List.mem_cons_self ..)
    obtain ⟨i1, i2, i3⟩ := ih fun x hx => h x (List.mem_cons_of_mem _ hx)
    refine ⟨?_, ?_, ?_⟩ <;> funext s <;> simp only [incrAll, decrAll, bothAll, h1, h2, i1, i2, i3]

theorem expr_indep {C C' : Cx} (hN : C.N = C'.N) (hc : C.cl = false) (hc' : C'.cl = false) (e : Expr) :
    C.incr e = C'.incr e ∧ C.decr e = C'.decr e := by
  have h1 := pre_indep hN hc hc'
  have h2 := post_indep hN hc hc'
  induction e using Expr.ind with
  | lit v => constructor <;> funext s <;> simp only [incr, decr]
  | id p => constructor <;> funext s <;> simp only [incr, decr, h1, h2]
  | plus k ids es ih =>
    obtain ⟨i1, i2, i3⟩ := exprs_indep es ih
    constructor <;> funext s <;> simp only [incr, decr, h1, h2, i1, i2]
  | mul k ids es ih =>
    obtain ⟨i1, i2, i3⟩ := exprs_indep es ih
    constructor <;> funext s <;> simp only [incr, decr, h1, h2, i1, i2, i3]
  | sub e es h ih =>
    obtain ⟨i1, i2, i3⟩ := exprs_indep es ih
    constructor <;> funext s <;> simp only [incr, decr, i1, i2, h.1, h.2]
  | minus e _ => constructor <;> funext s <;> simp only [incr, decr]

mutual
/-- Specification: a condition for whose value (`neg`) the unsafe transitions do not depend on the marking: no choice
among operands, no deadlock proposition, and no comparison for which the direction of the change depends on the side
the marking is on. -/
def steadyC : Bool → Cond → Bool
  | _, .bool _ => true
  | _, .cc _ _ => true
  | neg, .cmp op _ _ => match op with
    | .lt => true
    | .le => true
    | .eq => neg
    | .ne => !neg
  | neg, .not c => steadyC (!neg) c
  | neg, .and cs => (neg || decide (cs.length ≤ 1)) && steadyCs neg cs
  | neg, .or cs => (!neg || decide (cs.length ≤ 1)) && steadyCs neg cs
  | _, _ => false
def steadyCs : Bool → List Cond → Bool
  | _, [] => true
  | neg, c :: cs => steadyC neg c && steadyCs neg cs
end

theorem visitCmp_steady (h : Both C) {Mb M' : Nat → Nat} {op : Cmp} {e1 e2 : Expr} (h1 : tame e1 = true)
    (h2 : tame e2 = true) (neg : Bool) (hst : steadyC neg (.cmp op e1 e2) = true)
    (hv : op.holds (e1.val C.m) (e2.val C.m) ↔ neg = true) (hb : op.holds (e1.val Mb) (e2.val Mb) ↔ neg = true) {s : Stub}
    (hk : Keeps Mb M' (C.visitCmp neg (e1.val C.m) (e2.val C.m) op e1 e2 s)) :
    op.holds (e1.val M') (e2.val M') ↔ neg = true := by
  have hen' : EnOK C.N Mb (fun t => C.N.checkPreset Mb t) := fun _ _ => rfl
  have he : C.visitCmp neg (e1.val C.m) (e2.val C.m) op e1 e2 s =
      (⟨C.N, Mb, fun t => C.N.checkPreset Mb t, false⟩ : Cx).visitCmp neg (e1.val Mb) (e2.val Mb) op e1 e2 s := by
    have i1 := expr_indep (C := C) (C' := ⟨C.N, Mb, fun t => C.N.checkPreset Mb t, false⟩) rfl h.cl rfl e1
    have i2 := expr_indep (C := C) (C' := ⟨C.N, Mb, fun t => C.N.checkPreset Mb t, false⟩) rfl h.cl rfl e2
    cases op <;> cases neg <;>
      simp only [steadyC, Bool.false_eq_true, Bool.not_true, Cmp.holds, iff_true, iff_false] at hst hv hb <;>
      simp only [visitCmp, wantNe, i1.1, i1.2, i2.1, i2.2]
    case lt.false => rw [if_neg hv, if_neg hb]
    case lt.true => rw [if_neg (by omega), if_neg (by omega)]
    case le.false => rw [if_neg hv, if_neg hb]
    case le.true => rw [if_neg (by omega), if_neg (by omega)]
    case eq.true => rw [if_neg (not_not_intro hv), if_neg (not_not_intro hb)]
    case ne.false => rw [if_neg hv, if_neg hb]
  rw [he] at hk
  exact visitCmp_ok (C := ⟨C.N, Mb, fun t => C.N.checkPreset Mb t, false⟩) hen' h1 h2 neg hb hk

theorem lcc_steady (h : Both C) {Mb M' : Nat → Nat} (hw : ∀ p, Mb p < W32) (hw' : ∀ p, M' p < W32) (neg : Bool)
    (l : List Cons) {s : Stub} (hb : (∀ c ∈ l, c.holds Mb) ↔ neg = true) (hk : Keeps Mb M' (C.lcc neg l s)) :
    (∀ c ∈ l, c.holds M') ↔ neg = true := by
  have hx := (lcc_ext h.cl h.en neg l s).2
  cases neg with
  | true =>
    simp only [if_true, iff_true] at hb hx ⊢
    intro c hc
    obtain ⟨x1, x2⟩ := hx c hc
    obtain ⟨y1, y2⟩ := hb c hc
    refine ⟨?_, ?_⟩
    · by_cases h0 : c.lower = 0
      · omega
      · have := hk.post _ (x1 h0); omega
    · by_cases h0 : c.upper = W32 - 1
      · have := hw' c.place; omega
      · have := hk.pre _ (x2 h0); omega
  | false =>
    simp only [Bool.false_eq_true, if_false, iff_false] at hb hx ⊢
    intro hall
    refine hb fun c hc => ?_
    obtain ⟨x1, x2⟩ := hx c hc
    obtain ⟨y1, y2⟩ := hall c hc
    refine ⟨?_, ?_⟩
    · by_cases h0 : c.lower = 0
      · omega
      · have := hk.pre _ (x1 h0); omega
    · by_cases h0 : c.upper = W32 - 1
      · have := hw c.place; omega
      · have := hk.post _ (x2 h0); omega

variable {Mb M' : Nat → Nat} {dlb dl' : Bool}

mutual
/-- The set computed for a steady condition in one marking tells which transitions cannot change its value in any
marking. -/
theorem visitL_steady (h : Both C) (hw : ∀ p, Mb p < W32) (hw' : ∀ p, M' p < W32) : ∀ (neg : Bool) (pos : List Nat)
    (c : Cond) (s : Stub), tameCond c = true → steadyC neg c = true → Fit32 C.m c →
    M.sat pos = evaluateSet false C.m c → Rec M false C.m pos c → evaluateSet false C.m c = .ofBool neg →
    evaluateSet dlb Mb c = .ofBool neg → Keeps Mb M' (C.visitL M neg pos c s) → evaluateSet dl' M' c = .ofBool neg
  | _, _, .bool _, _, _, _, _, _, _, hv, _, _ => hv
  | neg, pos, .cmp op e1 e2, s, ht, hst, hf, hs, hr, hv, hb, hK => by
    simp only [visitL, lneg_eq (hs.trans hv)] at hK
    simp only [Rec, evaluateSet, tameCond, Fit32, Bool.and_eq_true] at *
    rw [hr.1, hr.2, toInt32_eq hf.1, toInt32_eq hf.2] at hK
    rw [ofBool_iff (compare_iff ..)] at hv hb ⊢
    exact visitCmp_steady h ht.1 ht.2 neg hst hv hb hK
  | neg, pos, .cc l n, s, ht, hst, hf, hs, hr, hv, hb, hK => by
    simp only [visitL, evaluateSet] at *
    rw [cc_value] at hb ⊢
    exact lcc_steady h hw hw' _ l hb hK
  | neg, pos, .not c, s, ht, hst, hf, hs, hr, hv, hb, hK => by
    simp only [visitL, Rec, evaluateSet, tameCond, Fit32, steadyC] at *
    rw [neg_ofBool] at hv hb ⊢
    exact visitL_steady h hw hw' _ _ c s ht hst hf hr.1 hr.2 hv hb hK
  | neg, pos, .and cs, s, ht, hst, hf, hs, hr, hv, hb, hK => by
    simp only [visitL, Rec, evaluateSet, tameCond, Fit32, steadyC, Bool.and_eq_true] at *
    rw [evalAndSet_eq] at hv hb ⊢
    cases neg with
    | true =>
      simp only [Bool.not_true, Bool.false_eq_true, if_false] at hK
      simp only [Res.ofBool, if_true] at hv hb ⊢
      rw [andRes_true] at hv hb ⊢
      exact ⟨rfl, visitLAll_steadyAnd h hw hw' _ 0 cs s ht hst.2 hf hr hv.2 hb.2 hK⟩
    | false =>
      simp only [Bool.not_false, if_true] at hK
      simp only [Res.ofBool, Bool.false_eq_true, if_false] at hv hb ⊢
      rw [andRes_false _ _ (by simp)] at hv hb ⊢
      rcases cs with _ | ⟨c, _ | ⟨d, cs⟩⟩
      · simp at hv
      · simp only [tameConds, steadyCs, RecAnd, Fits32, List.map_cons, List.map_nil, List.mem_singleton, visitLUnsat,
          Bool.and_eq_true] at *
        rw [if_pos (by rw [hr.1, ← hv]; simp)] at hK
        exact (visitL_steady h hw hw' false _ c s ht.1 hst.2.1 hf.1 hr.1 hr.2.1 hv.symm hb.symm hK).symm
      · simp at hst
  | neg, pos, .or cs, s, ht, hst, hf, hs, hr, hv, hb, hK => by
    simp only [visitL, Rec, evaluateSet, tameCond, Fit32, steadyC, Bool.and_eq_true] at *
    rw [evalOrSet_eq] at hv hb ⊢
    cases neg with
    | false =>
      simp only [Bool.not_false, if_true] at hK
      simp only [Res.ofBool, Bool.false_eq_true, if_false] at hv hb ⊢
      rw [orRes_false] at hv hb ⊢
      exact ⟨rfl, visitLAll_steadyOr h hw hw' _ 0 cs s ht hst.2 hf hr hv.2 hb.2 hK⟩
    | true =>
      simp only [Bool.not_true, Bool.false_eq_true, if_false] at hK
      simp only [Res.ofBool, if_true] at hv hb ⊢
      rw [orRes_true _ _ (by simp)] at hv hb ⊢
      rcases cs with _ | ⟨c, _ | ⟨d, cs⟩⟩
      · simp at hv
      · simp only [tameConds, steadyCs, RecOr, Fits32, List.map_cons, List.map_nil, List.mem_singleton, visitLSat,
          Bool.and_eq_true] at *
        rw [if_pos (by rw [hr.1, ← hv])] at hK
        exact (visitL_steady h hw hw' true _ c s ht.1 hst.2.1 hf.1 hr.1 hr.2.1 hv.symm hb.symm hK).symm
      · simp at hst
  | _, _, .dead, _, _, hst, _, _, _, _, _, _ => by simp [steadyC] at hst
  | _, _, .EX _, _, ht, _, _, _, _, _, _, _ => by simp [tameCond] at ht
  | _, _, .AX _, _, ht, _, _, _, _, _, _, _ => by simp [tameCond] at ht
  | _, _, .EF _, _, ht, _, _, _, _, _, _, _ => by simp [tameCond] at ht
  | _, _, .AF _, _, ht, _, _, _, _, _, _, _ => by simp [tameCond] at ht
  | _, _, .EG _, _, ht, _, _, _, _, _, _, _ => by simp [tameCond] at ht
  | _, _, .AG _, _, ht, _, _, _, _, _, _, _ => by simp [tameCond] at ht
  | _, _, .EU _ _, _, ht, _, _, _, _, _, _, _ => by simp [tameCond] at ht
  | _, _, .AU _ _, _, ht, _, _, _, _, _, _, _ => by simp [tameCond] at ht
  | _, _, .E _, _, ht, _, _, _, _, _, _, _ => by simp [tameCond] at ht
  | _, _, .A _, _, ht, _, _, _, _, _, _, _ => by simp [tameCond] at ht
  | _, _, .X _, _, ht, _, _, _, _, _, _, _ => by simp [tameCond] at ht
  | _, _, .F _, _, ht, _, _, _, _, _, _, _ => by simp [tameCond] at ht
  | _, _, .G _, _, ht, _, _, _, _, _, _, _ => by simp [tameCond] at ht
  | _, _, .U _ _, _, ht, _, _, _, _, _, _, _ => by simp [tameCond] at ht
theorem visitLAll_steadyAnd (h : Both C) (hw : ∀ p, Mb p < W32) (hw' : ∀ p, M' p < W32) : ∀ (pos : List Nat) (i : Nat)
    (cs : List Cond) (s : Stub), tameConds cs = true → steadyCs true cs = true → Fits32 C.m cs →
    RecAnd M false C.m pos i cs → (∀ x ∈ cs.map (evaluateSet false C.m), x = .rTrue) →
    (∀ x ∈ cs.map (evaluateSet dlb Mb), x = .rTrue) → Keeps Mb M' (C.visitLAll M true pos i cs s) →
    ∀ x ∈ cs.map (evaluateSet dl' M'), x = .rTrue
  | _, _, [], _, _, _, _, _, _, _, _ => by simp
  | pos, i, c :: cs, s, ht, hst, hf, hr, hv, hb, hK => by
    simp only [tameConds, steadyCs, Fits32, RecAnd, Bool.and_eq_true, visitLAll, List.map_cons, List.forall_mem_cons] at *
    refine ⟨visitL_steady h hw hw' true _ c s ht.1 hst.1 hf.1 hr.1 hr.2.1 hv.1 hb.1
      (hK.mono (visitLAll_ext h.cl h.en _ _ _ cs _).le), ?_⟩
    exact visitLAll_steadyAnd h hw hw' _ _ cs _ ht.2 hst.2 hf.2 (hr.2.2 (by rw [hv.1]; simp)) hv.2 hb.2 hK
theorem visitLAll_steadyOr (h : Both C) (hw : ∀ p, Mb p < W32) (hw' : ∀ p, M' p < W32) : ∀ (pos : List Nat) (i : Nat)
    (cs : List Cond) (s : Stub), tameConds cs = true → steadyCs false cs = true → Fits32 C.m cs →
    RecOr M false C.m pos i cs → (∀ x ∈ cs.map (evaluateSet false C.m), x = .rFalse) →
    (∀ x ∈ cs.map (evaluateSet dlb Mb), x = .rFalse) → Keeps Mb M' (C.visitLAll M false pos i cs s) →
    ∀ x ∈ cs.map (evaluateSet dl' M'), x = .rFalse
  | _, _, [], _, _, _, _, _, _, _, _ => by simp
  | pos, i, c :: cs, s, ht, hst, hf, hr, hv, hb, hK => by
    simp only [tameConds, steadyCs, Fits32, RecOr, Bool.and_eq_true, visitLAll, List.map_cons, List.forall_mem_cons] at *
    refine ⟨visitL_steady h hw hw' false _ c s ht.1 hst.1 hf.1 hr.1 hr.2.1 hv.1 hb.1
      (hK.mono (visitLAll_ext h.cl h.en _ _ _ cs _).le), ?_⟩
    exact visitLAll_steadyOr h hw hw' _ _ cs _ ht.2 hst.2 hf.2 (hr.2.2 (by rw [hv.1]; simp)) hv.2 hb.2 hK
end

end Cx
end Stubborn
end Verif
