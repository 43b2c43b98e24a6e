import Verif.PQL.Ctl
import Verif.PQL.BinaryLemmas

/-!
# Lemmas about the conversion to CTL
-/

namespace Verif
namespace PQL
namespace Ctl
open Binary

mutual
/-- CTL formulas, the temporal operators also written as a quantifier and a path operator. -/
def shape : Cond → Bool
  | .bool _ | .dead | .cmp _ _ _ | .cc _ _ => true
  | .not c => shape c
  | .and cs => shapes cs
  | .or cs => shapes cs
  | .EX c | .AX c | .EF c | .AF c | .EG c | .AG c => shape c
  | .EU c d | .AU c d => shape c && shape d
  | .E c | .A c => pshape c
  | .X _ | .F _ | .G _ | .U _ _ => false
/-- One path operator on top of CTL formulas. -/
def pshape : Cond → Bool
  | .X c | .F c | .G c => shape c
  | .U c d => shape c && shape d
  | _ => false
def shapes : List Cond → Bool
  | [] => true
  | c :: cs => shape c && shapes cs
end

theorem shapes_iff (cs : List Cond) : shapes cs = true ↔ ∀ c ∈ cs, shape c = true := by
  induction cs with
  | nil => simp [shapes]
  | cons c cs ih => simp [shapes, ih]

mutual
/-- The conversion without the constructors of `and` and `or`; what cannot be converted is kept. -/
def ctlOf : Cond → Cond
  | .bool b => .bool b
  | .dead => .dead
  | .cmp op e1 e2 => .cmp op e1 e2
  | .cc l n => .cc l n
  | .not c => .not (ctlOf c)
  | .and cs => .and (ctlOfs cs)
  | .or cs => .or (ctlOfs cs)
  | .EX c => .EX (ctlOf c)
  | .AX c => .AX (ctlOf c)
  | .EF c => .EF (ctlOf c)
  | .AF c => .AF (ctlOf c)
  | .EG c => .EG (ctlOf c)
  | .AG c => .AG (ctlOf c)
  | .EU c d => .EU (ctlOf c) (ctlOf d)
  | .AU c d => .AU (ctlOf c) (ctlOf d)
  | .E c => ctlE c
  | .A c => ctlA c
  | .X c => .X c
  | .F c => .F c
  | .G c => .G c
  | .U c d => .U c d
def ctlE : Cond → Cond
  | .X c => .EX (ctlOf c)
  | .F c => .EF (ctlOf c)
  | .G c => .EG (ctlOf c)
  | .U c d => .EU (ctlOf c) (ctlOf d)
  | c => .E c
def ctlA : Cond → Cond
  | .X c => .AX (ctlOf c)
  | .F c => .AF (ctlOf c)
  | .G c => .AG (ctlOf c)
  | .U c d => .AU (ctlOf c) (ctlOf d)
  | c => .A c
def ctlOfs : List Cond → List Cond
  | [] => []
  | c :: cs => ctlOf c :: ctlOfs cs
end

theorem ctlOfs_eq (cs : List Cond) : ctlOfs cs = cs.map ctlOf := by
  induction cs with
  | nil => rfl
  | cons c cs ih => simp [ctlOfs, ih]

/-- Formulas with CTL operators only. -/
def pure : Cond → Bool
  | .bool _ | .dead | .cmp _ _ _ | .cc _ _ => true
  | .not c => pure c
  | .and cs => all cs
  | .or cs => all cs
  | .EX c | .AX c | .EF c | .AF c | .EG c | .AG c => pure c
  | .EU c d | .AU c d => pure c && pure d
  | .E _ | .A _ | .X _ | .F _ | .G _ | .U _ _ => false
where all : List Cond → Bool
  | [] => true
  | c :: cs => pure c && all cs

theorem pure_all (cs : List Cond) : pure.all cs = true ↔ ∀ c ∈ cs, pure c = true := by
  induction cs with
  | nil => simp [pure.all]
  | cons c cs ih => simp [pure.all, ih]

/-- Formulas without a `next` operator under a quantifier. -/
def noNext : Cond → Bool
  | .bool _ | .dead | .cmp _ _ _ | .cc _ _ => true
  | .not c => noNext c
  | .and cs => all cs
  | .or cs => all cs
  | .EX c | .AX c | .EF c | .AF c | .EG c | .AG c => noNext c
  | .EU c d | .AU c d | .U c d => noNext c && noNext d
  | .E c | .A c => noNext c
  | .F c | .G c => noNext c
  | .X _ => false
where all : List Cond → Bool
  | [] => true
  | c :: cs => noNext c && all cs

theorem noNext_all (cs : List Cond) : noNext.all cs = true ↔ ∀ c ∈ cs, noNext c = true := by
  induction cs with
  | nil => simp [noNext.all]
  | cons c cs ih => simp [noNext.all, ih]

/-! ### What the constructors keep -/

theorem tryMergeL_mem {P : Cond → Prop} (orp : Bool) (cs : List Cond)
    (ih : ∀ c ∈ cs, ∀ conds, (∀ x ∈ conds, P x) → P c → ∀ x ∈ tryMerge orp false conds c, P x)
    (conds : List Cond) (h : ∀ x ∈ conds, P x) (hc : ∀ c ∈ cs, P c) : ∀ x ∈ tryMergeL orp false conds cs, P x := by
  induction cs generalizing conds with
  | nil => exact h
  | cons c cs ihl =>
    rw [tryMergeL]
    exact ihl (fun x hx => ih x (List.mem_cons_of_mem _ hx)) _
      (ih c (List.mem_cons_self ..) conds h (hc c (List.mem_cons_self ..)))
      (fun x hx => hc x (List.mem_cons_of_mem _ hx))

/-- A property that passes from conjunctions and disjunctions to their operands holds of the operands that the
constructors make. -/
theorem tryMerge_mem {P : Cond → Prop} (hand : ∀ cs, P (.and cs) → ∀ c ∈ cs, P c)
    (hor : ∀ cs, P (.or cs) → ∀ c ∈ cs, P c) (orp : Bool) (c : Cond) (conds : List Cond)
    (h : ∀ x ∈ conds, P x) (hc : P c) : ∀ x ∈ tryMerge orp false conds c, P x := by
  have happ : ∀ (conds : List Cond) (d : Cond), (∀ x ∈ conds, P x) → P d → ∀ x ∈ conds ++ [d], P x := by
    intro conds d h1 h2 x hx
    rcases List.mem_append.1 hx with hx | hx
    · exact h1 x hx
    · rw [List.mem_singleton.1 hx]; exact h2
  induction c using Cond.ind generalizing conds with
  | and cs ih =>
    simp only [tryMerge]
    cases orp
    · simp only [Bool.false_eq_true, if_false]
      exact tryMergeL_mem false cs (fun c hc conds h1 h2 => ih c hc conds h1 h2) conds h (hand cs hc)
    · exact happ _ _ h hc
  | or cs ih =>
    simp only [tryMerge]
    cases orp
    · exact happ _ _ h hc
    · simp only [if_true]
      exact tryMergeL_mem true cs (fun c hc conds h1 h2 => ih c hc conds h1 h2) conds h (hor cs hc)
  | _ => exact happ _ _ h hc

theorem logOperands_mem {P : Cond → Prop} (hand : ∀ cs, P (.and cs) → ∀ c ∈ cs, P c)
    (hor : ∀ cs, P (.or cs) → ∀ c ∈ cs, P c) (orp : Bool) (cs : List Cond) (h : ∀ c ∈ cs, P c) :
    ∀ x ∈ logOperands orp cs, P x := by
  intro x hx
  rw [logOperands, mem_postMerge] at hx
  exact tryMergeL_mem orp cs (fun c _ conds h1 h2 => tryMerge_mem hand hor orp c conds h1 h2) []
    (by simp) h x hx

theorem tryMergeL_map (g : Cond → Cond) (orp : Bool) (cs : List Cond)
    (ih : ∀ c ∈ cs, ∀ conds, (tryMerge orp false conds c).map g = tryMerge orp false (conds.map g) (g c))
    (conds : List Cond) :
    (tryMergeL orp false conds cs).map g = tryMergeL orp false (conds.map g) (cs.map g) := by
  induction cs generalizing conds with
  | nil => rfl
  | cons c cs ihl =>
    rw [tryMergeL, List.map_cons, tryMergeL, ihl fun x hx => ih x (List.mem_cons_of_mem _ hx),
      ih c (List.mem_cons_self ..)]

theorem ctlE_not (c : Cond) (conds : List Cond) (orp : Bool) :
    tryMerge orp false conds (ctlE c) = conds ++ [ctlE c] ∧ tryMerge orp false conds (ctlA c) = conds ++ [ctlA c] := by
  cases c <;> simp [ctlE, ctlA, tryMerge]

theorem tryMerge_ctlOf (orp : Bool) (c : Cond) (conds : List Cond) :
    (tryMerge orp false conds c).map ctlOf = tryMerge orp false (conds.map ctlOf) (ctlOf c) := by
  induction c using Cond.ind generalizing conds with
  | and cs ih =>
    simp only [tryMerge, ctlOf, ctlOfs_eq]
    cases orp
    · simp only [Bool.false_eq_true, if_false]
      exact tryMergeL_map ctlOf false cs ih conds
    · simp [ctlOf, ctlOfs_eq]
  | or cs ih =>
    simp only [tryMerge, ctlOf, ctlOfs_eq]
    cases orp
    · simp [ctlOf, ctlOfs_eq]
    · simp only [if_true]
      exact tryMergeL_map ctlOf true cs ih conds
  | E c _ => simp only [ctlOf, (ctlE_not c _ orp).1]; simp [tryMerge, ctlOf]
  | A c _ => simp only [ctlOf, (ctlE_not c _ orp).2]; simp [tryMerge, ctlOf]
  | _ => simp [tryMerge, ctlOf]

theorem ctlEA_temporal (c : Cond) : (ctlE c).isTemporal = true ∧ (ctlA c).isTemporal = true := by
  cases c <;> simp [ctlE, ctlA, Cond.isTemporal]

theorem ctlOf_temporal (c : Cond) : (ctlOf c).isTemporal = c.isTemporal := by
  have hl : ∀ cs : List Cond, (∀ c ∈ cs, (ctlOf c).isTemporal = c.isTemporal) →
      anyTemporal (cs.map ctlOf) = anyTemporal cs := by
    intro cs
    induction cs with
    | nil => intro _; rfl
    | cons c cs ih =>
      intro h
      simp only [List.map_cons, anyTemporal, h c (List.mem_cons_self ..),
        ih fun x hx => h x (List.mem_cons_of_mem _ hx)]
  induction c using Cond.ind with
  | and cs ih | or cs ih => simp only [ctlOf, ctlOfs_eq, Cond.isTemporal]; exact hl cs ih
  | not c ih => simp only [ctlOf, Cond.isTemporal, ih]
  | E c _ => simp only [ctlOf, (ctlEA_temporal c).1, Cond.isTemporal]
  | A c _ => simp only [ctlOf, (ctlEA_temporal c).2, Cond.isTemporal]
  | _ => simp only [ctlOf, Cond.isTemporal]

/-- The constructors commute with the conversion. -/
theorem logOperands_ctlOf (orp : Bool) (cs : List Cond) :
    (logOperands orp cs).map ctlOf = logOperands orp (cs.map ctlOf) := by
  have h := tryMergeL_map ctlOf orp cs (fun c _ conds => tryMerge_ctlOf orp c conds) []
  rw [List.map_nil] at h
  simp only [logOperands, postMerge, List.map_append]
  rw [← h, List.filter_map, List.filter_map]
  congr 2
  · congr 1; funext c; simp [ctlOf_temporal]
  · congr 1; funext c; simp [ctlOf_temporal]

/-! ### The conversion -/

variable {T : TS}

theorem and_sat {cs ds : List Cond} {π : Nat → Mark}
    (h : List.Forall₂ (fun d c : Cond => d.sat T π ↔ c.sat T π) ds cs) :
    (Cond.and (logOperands false ds)).sat T π ↔ (Cond.and cs).sat T π := by
  have h1 := logOperands_sat (T := T) (π := π) false ds
  simp only [logHolds, Bool.false_eq_true, if_false] at h1
  simp only [Cond.sat, satAll_iff]
  rw [h1]
  clear h1
  induction h with
  | nil => simp
  | cons h _ ih => simp only [List.forall_mem_cons, h, ih]

theorem or_sat {cs ds : List Cond} {π : Nat → Mark}
    (h : List.Forall₂ (fun d c : Cond => d.sat T π ↔ c.sat T π) ds cs) :
    (Cond.or (logOperands true ds)).sat T π ↔ (Cond.or cs).sat T π := by
  have h1 := logOperands_sat (T := T) (π := π) true ds
  simp only [logHolds, if_true] at h1
  simp only [Cond.sat, satAny_iff]
  rw [h1]
  clear h1
  induction h with
  | nil => simp
  | cons h _ ih => simp only [List.exists_mem_cons_iff, h, ih]

/-- The result of the conversion. -/
def Conv (o : Option Cond) (c : Cond) : Prop :=
  ∃ d, o = some d ∧ pure d = true ∧ ∀ (T : TS) π, d.sat T π ↔ c.sat T π

theorem Conv.map {o : Option Cond} {c : Cond} (h : Conv o c) {k : Cond → Cond}
    (hp : ∀ d, pure d = true → pure (k d) = true)
    (hk : ∀ (T : TS) (d c : Cond), (∀ π, d.sat T π ↔ c.sat T π) → ∀ π, (k d).sat T π ↔ (k c).sat T π) :
    Conv (o.map k) (k c) := by
  obtain ⟨d, rfl, h1, h2⟩ := h
  exact ⟨k d, rfl, hp d h1, fun T => hk T d c (h2 T)⟩

theorem Conv.map2 {o p : Option Cond} {c d : Cond} (h : Conv o c) (h' : Conv p d) {k : Cond → Cond → Cond}
    (hp : ∀ c d, pure c = true → pure d = true → pure (k c d) = true)
    (hk : ∀ (T : TS) (c' d' c d : Cond), (∀ π, c'.sat T π ↔ c.sat T π) → (∀ π, d'.sat T π ↔ d.sat T π) →
      ∀ π, (k c' d').sat T π ↔ (k c d).sat T π) :
    Conv (o.bind fun c' => p.map fun d' => k c' d') (k c d) := by
  obtain ⟨c', rfl, h1, h2⟩ := h
  obtain ⟨d', rfl, h3, h4⟩ := h'
  exact ⟨k c' d', rfl, hp _ _ h1 h3, fun T => hk T _ _ _ _ (h2 T) (h4 T)⟩

theorem asCTLs_conv (cs : List Cond) (h : ∀ c ∈ cs, Conv (asCTL c) (ctlOf c)) :
    ∃ ds, asCTLs cs = some ds ∧ (∀ d ∈ ds, pure d = true) ∧ ∀ (T : TS) π,
      List.Forall₂ (fun d c : Cond => d.sat T π ↔ c.sat T π) ds (ctlOfs cs) := by
  induction cs with
  | nil => exact ⟨[], rfl, by simp, fun _ _ => .nil⟩
  | cons c cs ih =>
    obtain ⟨d, h1, h2, h3⟩ := h c (List.mem_cons_self ..)
    obtain ⟨ds, h4, h5, h6⟩ := ih fun x hx => h x (List.mem_cons_of_mem _ hx)
    refine ⟨d :: ds, by simp [asCTLs, h1, h4], ?_, fun T π => .cons (h3 T π) (h6 T π)⟩
    simpa using ⟨h2, h5⟩

/-- CTL formulas are converted. -/
theorem asCTL_conv (c : Cond) :
    (shape c = true → Conv (asCTL c) (ctlOf c)) ∧
    (pshape c = true → Conv (asCTL (.E c)) (ctlE c) ∧ Conv (asCTL (.A c)) (ctlA c)) := by
  have hAnd : ∀ ds : List Cond, pure (.and ds) = true ↔ ∀ d ∈ ds, pure d = true := fun ds => by
    simp [pure, pure_all]
  have hOr : ∀ ds : List Cond, pure (.or ds) = true ↔ ∀ d ∈ ds, pure d = true := fun ds => by
    simp [pure, pure_all]
  induction c using Cond.ind with
  | bool b => exact ⟨fun _ => ⟨_, rfl, rfl, fun _ _ => Iff.rfl⟩, fun h => by simp [pshape] at h⟩
  | dead => exact ⟨fun _ => ⟨_, rfl, rfl, fun _ _ => Iff.rfl⟩, fun h => by simp [pshape] at h⟩
  | cmp op e1 e2 => exact ⟨fun _ => ⟨_, rfl, rfl, fun _ _ => Iff.rfl⟩, fun h => by simp [pshape] at h⟩
  | cc l n => exact ⟨fun _ => ⟨_, rfl, rfl, fun _ _ => Iff.rfl⟩, fun h => by simp [pshape] at h⟩
  | not c ih =>
    exact ⟨fun h => (ih.1 h).map (k := .not) (fun d hd => hd) (fun T d c hdc π => not_congr (hdc π)),
      fun h => by simp [pshape] at h⟩
  | and cs ih =>
    refine ⟨fun h => ?_, fun h => by simp [pshape] at h⟩
    obtain ⟨ds, h1, h2, h3⟩ := asCTLs_conv cs fun c hc => (ih c hc).1 ((shapes_iff cs).1 h c hc)
    exact ⟨.and (logOperands false ds), by simp [asCTL, h1],
      (hAnd _).2 (logOperands_mem (P := fun d => pure d = true) (fun cs h => (hAnd cs).1 h) (fun cs h => (hOr cs).1 h)
        false ds h2), fun T π => by rw [ctlOf]; exact and_sat (h3 T π)⟩
  | or cs ih =>
    refine ⟨fun h => ?_, fun h => by simp [pshape] at h⟩
    obtain ⟨ds, h1, h2, h3⟩ := asCTLs_conv cs fun c hc => (ih c hc).1 ((shapes_iff cs).1 h c hc)
    exact ⟨.or (logOperands true ds), by simp [asCTL, h1],
      (hOr _).2 (logOperands_mem (P := fun d => pure d = true) (fun cs h => (hAnd cs).1 h) (fun cs h => (hOr cs).1 h)
        true ds h2), fun T π => by rw [ctlOf]; exact or_sat (h3 T π)⟩
  | EX c ih =>
    exact ⟨fun h => (ih.1 h).map (k := .EX) (fun d hd => hd) (fun T d c hdc π => by simp only [Cond.sat, hdc]),
      fun h => by simp [pshape] at h⟩
  | AX c ih =>
    exact ⟨fun h => (ih.1 h).map (k := .AX) (fun d hd => hd) (fun T d c hdc π => by simp only [Cond.sat, hdc]),
      fun h => by simp [pshape] at h⟩
  | EF c ih =>
    exact ⟨fun h => (ih.1 h).map (k := .EF) (fun d hd => hd) (fun T d c hdc π => by simp only [Cond.sat, hdc]),
      fun h => by simp [pshape] at h⟩
  | AF c ih =>
    exact ⟨fun h => (ih.1 h).map (k := .AF) (fun d hd => hd) (fun T d c hdc π => by simp only [Cond.sat, hdc]),
      fun h => by simp [pshape] at h⟩
  | EG c ih =>
    exact ⟨fun h => (ih.1 h).map (k := .EG) (fun d hd => hd) (fun T d c hdc π => by simp only [Cond.sat, hdc]),
      fun h => by simp [pshape] at h⟩
  | AG c ih =>
    exact ⟨fun h => (ih.1 h).map (k := .AG) (fun d hd => hd) (fun T d c hdc π => by simp only [Cond.sat, hdc]),
      fun h => by simp [pshape] at h⟩
  | EU c d ihc ihd =>
    refine ⟨fun h => ?_, fun h => by simp [pshape] at h⟩
    simp only [shape, Bool.and_eq_true] at h
    exact (ihc.1 h.1).map2 (ihd.1 h.2) (k := .EU) (fun c d hc hd => by simp [pure, hc, hd])
      (fun T c' d' c d h1 h2 π => by simp only [Cond.sat, h1, h2])
  | AU c d ihc ihd =>
    refine ⟨fun h => ?_, fun h => by simp [pshape] at h⟩
    simp only [shape, Bool.and_eq_true] at h
    exact (ihc.1 h.1).map2 (ihd.1 h.2) (k := .AU) (fun c d hc hd => by simp [pure, hc, hd])
      (fun T c' d' c d h1 h2 π => by simp only [Cond.sat, h1, h2])
  | E c ih => exact ⟨fun h => (ih.2 h).1, fun h => by simp [pshape] at h⟩
  | A c ih => exact ⟨fun h => (ih.2 h).2, fun h => by simp [pshape] at h⟩
  | X c ih =>
    refine ⟨fun h => by simp [shape] at h, fun h => ⟨?_, ?_⟩⟩
    · exact (ih.1 h).map (k := .EX) (fun d hd => hd) (fun T d c hdc π => by simp only [Cond.sat, hdc])
    · exact (ih.1 h).map (k := .AX) (fun d hd => hd) (fun T d c hdc π => by simp only [Cond.sat, hdc])
  | F c ih =>
    refine ⟨fun h => by simp [shape] at h, fun h => ⟨?_, ?_⟩⟩
    · exact (ih.1 h).map (k := .EF) (fun d hd => hd) (fun T d c hdc π => by simp only [Cond.sat, hdc])
    · exact (ih.1 h).map (k := .AF) (fun d hd => hd) (fun T d c hdc π => by simp only [Cond.sat, hdc])
  | G c ih =>
    refine ⟨fun h => by simp [shape] at h, fun h => ⟨?_, ?_⟩⟩
    · exact (ih.1 h).map (k := .EG) (fun d hd => hd) (fun T d c hdc π => by simp only [Cond.sat, hdc])
    · exact (ih.1 h).map (k := .AG) (fun d hd => hd) (fun T d c hdc π => by simp only [Cond.sat, hdc])
  | U c d ihc ihd =>
    refine ⟨fun h => by simp [shape] at h, fun h => ?_⟩
    simp only [pshape, Bool.and_eq_true] at h
    exact ⟨(ihc.1 h.1).map2 (ihd.1 h.2) (k := .EU) (fun c d hc hd => by simp [pure, hc, hd])
        (fun T c' d' c d h1 h2 π => by simp only [Cond.sat, h1, h2]),
      (ihc.1 h.1).map2 (ihd.1 h.2) (k := .AU) (fun c d hc hd => by simp [pure, hc, hd])
        (fun T c' d' c d h1 h2 π => by simp only [Cond.sat, h1, h2])⟩

/-- A state followed by a path. -/
def consPath (m : Mark) (π : Nat → Mark) : Nat → Mark
  | 0 => m
  | i + 1 => π i

theorem consPath_path {m : Mark} {π : Nat → Mark} (h : T.IsPath π) (hs : T.step m (π 0)) :
    T.IsPath (consPath m π) := by
  intro i
  cases i with
  | zero => exact .inl hs
  | succ i => exact h i

theorem suffix_consPath (m : Mark) (π : Nat → Mark) : suffix (consPath m π) 1 = π := by
  funext j
  show consPath m π (1 + j) = π j
  rw [Nat.add_comm]
  rfl

/-- Where nothing is dead, `next` under a quantifier is the CTL operator. -/
theorem next_sat (hd : ∀ m, ¬ T.Dead m) (c : Cond) (π : Nat → Mark) :
    ((Cond.EX c).sat T π ↔ (Cond.E (.X c)).sat T π) ∧ ((Cond.AX c).sat T π ↔ (Cond.A (.X c)).sat T π) := by
  have key : ∀ π' : Nat → Mark, T.IsPath π' → T.IsPath (suffix π' 1) ∧ T.step (π' 0) (suffix π' 1 0) :=
    fun π' h => ⟨suffix_path h 1, (h 0).resolve_right fun x => hd _ x.1⟩
  constructor
  · constructor
    · rintro ⟨π', h1, h2, h3⟩
      refine ⟨consPath (π 0) π', consPath_path h1 h2, rfl, ?_⟩
      show c.sat T (suffix (consPath (π 0) π') 1)
      rw [suffix_consPath]; exact h3
    · rintro ⟨π', h1, h2, h3⟩
      exact ⟨suffix π' 1, (key π' h1).1, h2 ▸ (key π' h1).2, h3⟩
  · constructor
    · intro h π' h1 h2
      exact h _ (key π' h1).1 (h2 ▸ (key π' h1).2)
    · intro h π' h1 h2
      have := h (consPath (π 0) π') (consPath_path h1 h2) rfl
      have h3 : c.sat T (suffix (consPath (π 0) π') 1) := this
      rwa [suffix_consPath] at h3

/-- The conversion keeps the meaning, of formulas without `next` everywhere and of all formulas where no state is
dead. -/
theorem ctlOf_sat (c : Cond) (h : noNext c = true ∨ ∀ m, ¬ T.Dead m) :
    (∀ π, (ctlOf c).sat T π ↔ c.sat T π) ∧
    ((∀ π, (ctlE c).sat T π ↔ (Cond.E c).sat T π) ∧ (∀ π, (ctlA c).sat T π ↔ (Cond.A c).sat T π)) := by
  induction c using Cond.ind with
  | bool b | dead | cmp op e1 e2 | cc l n =>
    exact ⟨fun π => by rw [ctlOf], fun π => by simp only [ctlE], fun π => by simp only [ctlA]⟩
  | not c ih =>
    exact ⟨fun π => by simp only [ctlOf, Cond.sat, (ih h).1], fun π => by simp only [ctlE], fun π => by simp only [ctlA]⟩
  | and cs ih =>
    refine ⟨fun π => ?_, fun π => by simp only [ctlE], fun π => by simp only [ctlA]⟩
    simp only [ctlOf, ctlOfs_eq, Cond.sat, satAll_iff, List.forall_mem_map]
    refine forall₂_congr fun c hc => (ih c hc ?_).1 π
    exact h.imp_left fun h => (noNext_all cs).1 h c hc
  | or cs ih =>
    refine ⟨fun π => ?_, fun π => by simp only [ctlE], fun π => by simp only [ctlA]⟩
    simp only [ctlOf, ctlOfs_eq, Cond.sat, satAny_iff, List.mem_map, exists_exists_and_eq_and]
    refine exists_congr fun c => and_congr_right fun hc => (ih c hc ?_).1 π
    exact h.imp_left fun h => (noNext_all cs).1 h c hc
  | EX c ih | AX c ih | EF c ih | AF c ih | EG c ih | AG c ih =>
    exact ⟨fun π => by simp only [ctlOf, Cond.sat, (ih h).1], fun π => by simp only [ctlE], fun π => by simp only [ctlA]⟩
  | EU c d ihc ihd | AU c d ihc ihd =>
    have h1 := (ihc (h.imp_left fun h => by simp only [noNext, Bool.and_eq_true] at h; exact h.1)).1
    have h2 := (ihd (h.imp_left fun h => by simp only [noNext, Bool.and_eq_true] at h; exact h.2)).1
    exact ⟨fun π => by simp only [ctlOf, Cond.sat, h1, h2], fun π => by simp only [ctlE], fun π => by simp only [ctlA]⟩
  | E c ih => exact ⟨fun π => by rw [ctlOf]; exact (ih h).2.1 π, fun π => by simp only [ctlE], fun π => by simp only [ctlA]⟩
  | A c ih => exact ⟨fun π => by rw [ctlOf]; exact (ih h).2.2 π, fun π => by simp only [ctlE], fun π => by simp only [ctlA]⟩
  | X c ih =>
    have hd : ∀ m, ¬ T.Dead m := h.resolve_left fun h => by simp [noNext] at h
    refine ⟨fun π => by rw [ctlOf], fun π => ?_, fun π => ?_⟩
    · rw [← (next_sat hd c π).1, ctlE]; simp only [Cond.sat, (ih (.inr hd)).1]
    · rw [← (next_sat hd c π).2, ctlA]; simp only [Cond.sat, (ih (.inr hd)).1]
  | F c ih | G c ih =>
    exact ⟨fun π => by rw [ctlOf], fun π => by simp only [ctlE, Cond.sat, (ih h).1],
      fun π => by simp only [ctlA, Cond.sat, (ih h).1]⟩
  | U c d ihc ihd =>
    have h1 := (ihc (h.imp_left fun h => by simp only [noNext, Bool.and_eq_true] at h; exact h.1)).1
    have h2 := (ihd (h.imp_left fun h => by simp only [noNext, Bool.and_eq_true] at h; exact h.2)).1
    exact ⟨fun π => by rw [ctlOf], fun π => by simp only [ctlE, Cond.sat, h1, h2],
      fun π => by simp only [ctlA, Cond.sat, h1, h2]⟩

end Ctl
end PQL
end Verif
