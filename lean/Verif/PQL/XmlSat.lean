import Verif.PQL.XmlCond
import Verif.PQL.CtlLemmas

/-!
# XML queries: what is read back means the same
-/

namespace Verif
namespace Xml
open PQL Binary Ctl

/-- Formulas without the CTL operators `EX` and `AX`. -/
def noEX : Cond → Bool
  | .bool _ | .dead | .cmp _ _ _ | .cc _ _ => true
  | .not c => noEX c
  | .and cs => all cs
  | .or cs => all cs
  | .EX _ | .AX _ => false
  | .EF c | .AF c | .EG c | .AG c => noEX c
  | .EU c d | .AU c d | .U c d => noEX c && noEX d
  | .E c | .A c | .X c | .F c | .G c => noEX c
where all : List Cond → Bool
  | [] => true
  | c :: cs => noEX c && all cs

theorem noEX_all (cs : List Cond) : noEX.all cs = true ↔ ∀ c ∈ cs, noEX c = true := by
  induction cs with
  | nil => simp [noEX.all]
  | cons c cs ih => simp [noEX.all, ih]

variable {T : TS} {π : Nat → Mark}

theorem reLog_many (orp : Bool) (c d : Cond) (cs : List Cond) :
    reLog orp (c :: d :: cs) = logNode orp (logOperands orp (c :: d :: cs)) := rfl

theorem reLog_sat (orp : Bool) (cs : List Cond) : (reLog orp cs).sat T π ↔ logHolds orp T π cs := by
  match cs with
  | [] => rw [reLog, logHolds_nil]
  | [c] => rw [reLog, logHolds_singleton]
  | c :: d :: cs => rw [reLog_many, logNode_sat, logOperands_sat]

theorem reLog_ctl (orp : Bool) (cs : List Cond) :
    (ctlOf (reLog orp cs)).sat T π ↔ logHolds orp T π (cs.map ctlOf) := by
  match cs with
  | [] => rw [reLog, List.map_nil, logHolds_nil, ctlOf]
  | [c] => rw [reLog, List.map_cons, List.map_nil, logHolds_singleton]
  | c :: d :: cs =>
    have : ∀ ds, ctlOf (logNode orp ds) = logNode orp (ds.map ctlOf) := by
      intro ds; cases orp <;> simp [logNode, ctlOf, ctlOfs_eq]
    rw [reLog_many, this, logOperands_ctlOf, logNode_sat, logOperands_sat]

theorem reCons_holds {m : Mark} (hm : Mark32 (π 0)) (c : Cons) (h : m = π 0) :
    (∀ x ∈ reCons c, x.sat T π) ↔ c.holds m := by
  subst h
  have h0 := hm c.place
  unfold reCons Cons.holds
  by_cases h1 : c.lower = 0 <;> by_cases h2 : c.upper = umax <;>
    simp [h1, h2, Cond.sat, Cmp.holds, Expr.val, h0]

theorem reConj_sat (hm : Mark32 (π 0)) (l : List Cons) : (reConj l).sat T π ↔ ∀ c ∈ l, c.holds (π 0) := by
  rw [reConj, reLog_sat]
  simp only [logHolds, Bool.false_eq_true, if_false, List.mem_flatMap]
  constructor
  · intro h c hc
    exact (reCons_holds hm c rfl).1 fun x hx => h x ⟨c, hc, hx⟩
  · rintro h x ⟨c, hc, hx⟩
    exact (reCons_holds (T := T) hm c rfl).2 (h c hc) x hx

theorem reCC_sat (hm : Mark32 (π 0)) (l : List Cons) (n : Bool) : (reCC l n).sat T π ↔ ccHolds (π 0) l n := by
  cases n
  · exact reConj_sat hm l
  · exact not_congr (reConj_sat hm l)

/-- All states of a path have 32-bit markings. -/
def Path32 (π : Nat → Mark) : Prop := ∀ i, Mark32 (π i)

/-- Steps lead to 32-bit markings. -/
def Step32 (T : TS) : Prop := ∀ m m', T.step m m' → Mark32 m'

theorem path32 (hT : Step32 T) (h : T.IsPath π) (h0 : Mark32 (π 0)) : Path32 π := by
  intro i
  induction i with
  | zero => exact h0
  | succ i ih =>
    rcases h i with h | ⟨-, h⟩
    · exact hT _ _ h
    · rw [h]; exact ih

theorem Path32.suffix (h : Path32 π) (i : Nat) : Path32 (suffix π i) := fun j => h (i + j)

theorem exists_path_congr {P : Nat → Mark} {F G : (Nat → Mark) → Prop} (hT : Step32 T) (h0 : Mark32 (P 0))
    (h : ∀ π, Path32 π → (F π ↔ G π)) :
    (∃ π', T.IsPath π' ∧ π' 0 = P 0 ∧ F π') ↔ (∃ π', T.IsPath π' ∧ π' 0 = P 0 ∧ G π') :=
  exists_congr fun π' => and_congr_right fun h1 => and_congr_right fun h2 => h π' (path32 hT h1 (h2 ▸ h0))

theorem forall_path_congr {P : Nat → Mark} {F G : (Nat → Mark) → Prop} (hT : Step32 T) (h0 : Mark32 (P 0))
    (h : ∀ π, Path32 π → (F π ↔ G π)) :
    (∀ π', T.IsPath π' → π' 0 = P 0 → F π') ↔ (∀ π', T.IsPath π' → π' 0 = P 0 → G π') :=
  forall_congr' fun π' => forall_congr' fun h1 => forall_congr' fun h2 => h π' (path32 hT h1 (h2 ▸ h0))

theorem until_congr {F G F' G' : (Nat → Mark) → Prop} (hF : ∀ π, Path32 π → (F π ↔ F' π))
    (hG : ∀ π, Path32 π → (G π ↔ G' π)) (hp : Path32 π) :
    (∃ i, G (suffix π i) ∧ ∀ j, j < i → F (suffix π j)) ↔ (∃ i, G' (suffix π i) ∧ ∀ j, j < i → F' (suffix π j)) :=
  exists_congr fun i => and_congr (hG _ (hp.suffix i)) (forall₂_congr fun j _ => hF _ (hp.suffix j))

theorem log_congr (orp : Bool) {cs : List Cond} {g : Cond → Cond} (h : ∀ c ∈ cs, ((g c).sat T π ↔ c.sat T π)) :
    logHolds orp T π (cs.map g) ↔ logHolds orp T π cs := by
  cases orp
  · simp only [logHolds, Bool.false_eq_true, if_false, List.forall_mem_map]
    exact forall₂_congr h
  · simp only [logHolds, if_true, List.mem_map, exists_exists_and_eq_and]
    exact exists_congr fun c => and_congr_right fun hx => h c hx

/-- Formulas without `EX` and `AX` are read back with the same meaning. -/
theorem reC_sat (hT : Step32 T) (c : Cond) (hc : noEX c = true) (π : Nat → Mark) (hp : Path32 π) :
    (reC c).sat T π ↔ c.sat T π := by
  induction c using Cond.ind generalizing π with
  | bool b | dead => rfl
  | cmp op e1 e2 => simp only [reC, Cond.sat, reE_val]
  | cc l n => exact reCC_sat (hp 0) l n
  | not c ih => exact not_congr (ih hc π hp)
  | and cs ih =>
    simp only [reC, reCs_eq, reLog_sat]
    rw [log_congr false fun c hx => ih c hx ((noEX_all cs).1 hc c hx) π hp]
    simp only [logHolds, Bool.false_eq_true, if_false, Cond.sat, satAll_iff]
  | or cs ih =>
    simp only [reC, reCs_eq, reLog_sat]
    rw [log_congr true fun c hx => ih c hx ((noEX_all cs).1 hc c hx) π hp]
    simp only [logHolds, if_true, Cond.sat, satAny_iff]
  | EX c ih | AX c ih => simp [noEX] at hc
  | EF c ih => exact exists_path_congr hT (hp 0) fun π' h => exists_congr fun i => ih hc _ (h.suffix i)
  | AF c ih => exact forall_path_congr hT (hp 0) fun π' h => exists_congr fun i => ih hc _ (h.suffix i)
  | EG c ih => exact exists_path_congr hT (hp 0) fun π' h => forall_congr' fun i => ih hc _ (h.suffix i)
  | AG c ih => exact forall_path_congr hT (hp 0) fun π' h => forall_congr' fun i => ih hc _ (h.suffix i)
  | EU c d ihc ihd =>
    simp only [noEX, Bool.and_eq_true] at hc
    exact exists_path_congr hT (hp 0) fun π' h => until_congr (ihc hc.1) (ihd hc.2) h
  | AU c d ihc ihd =>
    simp only [noEX, Bool.and_eq_true] at hc
    exact forall_path_congr hT (hp 0) fun π' h => until_congr (ihc hc.1) (ihd hc.2) h
  | U c d ihc ihd =>
    simp only [noEX, Bool.and_eq_true] at hc
    exact until_congr (ihc hc.1) (ihd hc.2) hp
  | E c ih => exact exists_path_congr hT (hp 0) (ih hc)
  | A c ih => exact forall_path_congr hT (hp 0) (ih hc)
  | X c ih => exact ih hc _ (hp.suffix 1)
  | F c ih => exact exists_congr fun i => ih hc _ (hp.suffix i)
  | G c ih => exact forall_congr' fun i => ih hc _ (hp.suffix i)

theorem reCons_plain {c : Cons} {x : Cond} (h : x ∈ reCons c) : ctlOf x = x ∧ shape x = true := by
  unfold reCons at h
  rcases List.mem_append.1 h with h | h
  · split at h
    · rw [List.mem_singleton.1 h]; exact ⟨rfl, rfl⟩
    · cases h
  · split at h
    · rw [List.mem_singleton.1 h]; exact ⟨rfl, rfl⟩
    · cases h

theorem reConj_ctl (l : List Cons) : (ctlOf (reConj l)).sat T π ↔ (reConj l).sat T π := by
  rw [reConj, reLog_ctl, reLog_sat]
  have : (l.flatMap reCons).map ctlOf = l.flatMap reCons := by
    conv_rhs => rw [← List.map_id (l.flatMap reCons)]
    refine List.map_congr_left fun x hx => ?_
    obtain ⟨c, -, hx⟩ := List.mem_flatMap.1 hx
    exact (reCons_plain hx).1
  rw [this]

/-- CTL formulas are read back as formulas that are converted to CTL formulas with the same meaning. -/
theorem reC_ctl (hT : Step32 T) (c : Cond) (hc : Ctl.pure c = true) (π : Nat → Mark) (hp : Path32 π) :
    (ctlOf (reC c)).sat T π ↔ c.sat T π := by
  induction c using Cond.ind generalizing π with
  | bool b | dead => rfl
  | cmp op e1 e2 => simp only [reC, ctlOf, Cond.sat, reE_val]
  | cc l n =>
    cases n
    · exact (reConj_ctl l).trans (reConj_sat (hp 0) l)
    · exact not_congr ((reConj_ctl l).trans (reConj_sat (hp 0) l))
  | not c ih => exact not_congr (ih hc π hp)
  | and cs ih =>
    simp only [reC, reCs_eq, reLog_ctl, List.map_map]
    rw [log_congr false (g := ctlOf ∘ reC) fun c hx => ih c hx ((pure_all cs).1 hc c hx) π hp]
    simp only [logHolds, Bool.false_eq_true, if_false, Cond.sat, satAll_iff]
  | or cs ih =>
    simp only [reC, reCs_eq, reLog_ctl, List.map_map]
    rw [log_congr true (g := ctlOf ∘ reC) fun c hx => ih c hx ((pure_all cs).1 hc c hx) π hp]
    simp only [logHolds, if_true, Cond.sat, satAny_iff]
  | EX c ih =>
    exact exists_congr fun π' => and_congr_right fun h1 => and_congr_right fun h2 =>
      ih hc π' (path32 hT h1 (hT _ _ h2))
  | AX c ih =>
    exact forall_congr' fun π' => forall_congr' fun h1 => forall_congr' fun h2 =>
      ih hc π' (path32 hT h1 (hT _ _ h2))
  | EF c ih => exact exists_path_congr hT (hp 0) fun π' h => exists_congr fun i => ih hc _ (h.suffix i)
  | AF c ih => exact forall_path_congr hT (hp 0) fun π' h => exists_congr fun i => ih hc _ (h.suffix i)
  | EG c ih => exact exists_path_congr hT (hp 0) fun π' h => forall_congr' fun i => ih hc _ (h.suffix i)
  | AG c ih => exact forall_path_congr hT (hp 0) fun π' h => forall_congr' fun i => ih hc _ (h.suffix i)
  | EU c d ihc ihd =>
    simp only [Ctl.pure, Bool.and_eq_true] at hc
    exact exists_path_congr hT (hp 0) fun π' h => until_congr (ihc hc.1) (ihd hc.2) h
  | AU c d ihc ihd =>
    simp only [Ctl.pure, Bool.and_eq_true] at hc
    exact forall_path_congr hT (hp 0) fun π' h => until_congr (ihc hc.1) (ihd hc.2) h
  | E c ih | A c ih | X c ih | F c ih | G c ih => simp [Ctl.pure] at hc
  | U c d ihc ihd => simp [Ctl.pure] at hc

theorem reLog_shape (orp : Bool) {cs : List Cond} (h : ∀ c ∈ cs, shape c = true) : shape (reLog orp cs) = true := by
  match cs with
  | [] => rfl
  | [c] => exact h c (by simp)
  | c :: d :: cs =>
    have hm := logOperands_mem (P := fun c => shape c = true) (fun cs h => (shapes_iff cs).1 h)
      (fun cs h => (shapes_iff cs).1 h) orp (c :: d :: cs) h
    cases orp
    · exact (shapes_iff _).2 hm
    · exact (shapes_iff _).2 hm

/-- CTL formulas are read back as CTL formulas in the notation of CTL*. -/
theorem reC_shape (c : Cond) (hc : Ctl.pure c = true) : shape (reC c) = true := by
  have hl : ∀ cs : List Cond, (∀ c ∈ cs, shape (reC c) = true) → ∀ x ∈ cs.map reC, shape x = true := by
    intro cs h x hx
    obtain ⟨c, hc, rfl⟩ := List.mem_map.1 hx
    exact h c hc
  have hconj : ∀ l, shape (reConj l) = true := fun l => reLog_shape false fun x hx => by
    obtain ⟨c, -, hx⟩ := List.mem_flatMap.1 hx
    exact (reCons_plain hx).2
  induction c using Cond.ind with
  | bool b | dead | cmp op e1 e2 => rfl
  | cc l n => cases n <;> exact hconj l
  | and cs ih =>
    simp only [reC, reCs_eq]
    exact reLog_shape _ (hl cs fun c hx => ih c hx ((pure_all cs).1 hc c hx))
  | or cs ih =>
    simp only [reC, reCs_eq]
    exact reLog_shape _ (hl cs fun c hx => ih c hx ((pure_all cs).1 hc c hx))
  | not c ih | EX c ih | AX c ih | EF c ih | AF c ih | EG c ih | AG c ih => exact ih hc
  | EU c d ihc ihd | AU c d ihc ihd =>
    simp only [Ctl.pure, Bool.and_eq_true] at hc
    simp only [reC, shape, pshape, ihc hc.1, ihd hc.2, Bool.and_true]
  | E c ih | A c ih | X c ih | F c ih | G c ih => simp [Ctl.pure] at hc
  | U c d ihc ihd => simp [Ctl.pure] at hc

end Xml
end Verif
