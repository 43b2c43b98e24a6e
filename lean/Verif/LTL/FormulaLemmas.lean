import Verif.LTL.Formula
import Verif.Props.Eval

/-!
# The translation to spot's formulas keeps the meaning
-/

namespace Verif
namespace LTL
open PQL
variable {cfg : TCfg} {T : TS} {π : Nat → Mark}

theorem spotAll_iff (v : Nat → Key → Bool) (i : Nat) (fs : List SpotF) :
    spotAll v i fs ↔ ∀ f ∈ fs, f.sat v i := by
  induction fs with
  | nil => simp [spotAll]
  | cons f fs ih => simp [spotAll, ih]

theorem spotAny_iff (v : Nat → Key → Bool) (i : Nat) (fs : List SpotF) :
    spotAny v i fs ↔ ∃ f ∈ fs, f.sat v i := by
  induction fs with
  | nil => simp [spotAny]
  | cons f fs ih => simp [spotAny, ih]

theorem pathAll_iff (cs : List Cond) : pathAll cs = true ↔ ∀ c ∈ cs, PathF c = true := by
  induction cs with
  | nil => simp [pathAll]
  | cons c cs ih => simp [pathAll, ih]

theorem validAll_iff (cs : List Cond) : validAll cs = true ↔ ∀ c ∈ cs, valid c = true := by
  induction cs with
  | nil => simp [validAll]
  | cons c cs ih => simp [validAll, ih]

/-- The word reads the propositions as the path does. -/
def Reads (T : TS) (π : Nat → Mark) (v : Nat → Key → Bool) (st : APInfo) : Prop :=
  ∀ e ∈ st, ∀ i, v i e.1 = true ↔ e.2.sat T (suffix π i)

/-- What is proved about a translation step from `st` that yields `r`. -/
def Good (cfg : TCfg) (T : TS) (π : Nat → Mark) (v : Nat → Key → Bool) (c : Cond) : Prop :=
  ∀ st, (∃ ext, (toSpot cfg c st).2 = st ++ ext) ∧
    (Reads T π v (toSpot cfg c st).2 → ∀ i, (toSpot cfg c st).1.sat v i ↔ c.sat T (suffix π i))

theorem Reads.of_append {v : Nat → Key → Bool} {st ext : APInfo} (h : Reads T π v (st ++ ext)) : Reads T π v st :=
  fun e he => h e (List.mem_append_left _ he)

theorem mkAp_good {v : Nat → Key → Bool} (c : Cond) (st : APInfo) :
    (∃ ext, (mkAp cfg c st).2 = st ++ ext) ∧
    (Reads T π v (mkAp cfg c st).2 → ∀ i, (mkAp cfg c st).1.sat v i ↔ c.sat T (suffix π i)) := by
  refine ⟨⟨_, rfl⟩, fun h i => ?_⟩
  exact h _ (List.mem_append_right st (List.mem_singleton.2 rfl)) i

theorem toSpotT_good {v : Nat → Key → Bool} (cs : List Cond) (h : ∀ c ∈ cs, Good cfg T π v c) : ∀ st,
    (∃ ext, (toSpotT cfg cs st).2 = st ++ ext) ∧
    (Reads T π v (toSpotT cfg cs st).2 → ∀ i,
      ((∀ f ∈ (toSpotT cfg cs st).1, f.sat v i) ↔ ∀ c ∈ cs, c.isTemporal = true → c.sat T (suffix π i)) ∧
      ((∃ f ∈ (toSpotT cfg cs st).1, f.sat v i) ↔ ∃ c ∈ cs, c.isTemporal = true ∧ c.sat T (suffix π i))) := by
  induction cs with
  | nil => intro st; exact ⟨⟨[], by simp [toSpotT]⟩, fun _ i => by simp [toSpotT]⟩
  | cons c cs ih =>
    have ih' := ih fun d hd => h d (List.mem_cons_of_mem _ hd)
    have hc := h c (List.mem_cons_self ..)
    intro st
    rw [toSpotT]
    cases ht : c.isTemporal with
    | false =>
      simp only [Bool.false_eq_true, if_false]
      obtain ⟨h1, h2⟩ := ih' st
      refine ⟨h1, fun hr i => ?_⟩
      obtain ⟨h3, h4⟩ := h2 hr i
      refine ⟨?_, ?_⟩
      · rw [h3]; simp [ht]
      · rw [h4]; simp [ht]
    | true =>
      simp only [if_true]
      obtain ⟨⟨e1, h1⟩, h2⟩ := hc st
      obtain ⟨⟨e2, h3⟩, h4⟩ := ih' (toSpot cfg c st).2
      refine ⟨⟨e1 ++ e2, by rw [h3, h1, List.append_assoc]⟩, fun hr i => ?_⟩
      obtain ⟨h5, h6⟩ := h4 hr i
      rw [h3] at hr
      have h7 := h2 hr.of_append i
      refine ⟨?_, ?_⟩
      · rw [List.forall_mem_cons, h5, h7]; simp [ht]
      · rw [List.exists_mem_cons_iff, h6, h7]; simp [ht]

theorem toSpotN_good {v : Nat → Key → Bool} (cs : List Cond) (h : ∀ c ∈ cs, Good cfg T π v c) : ∀ st,
    (∃ ext, (toSpotN cfg cs st).2 = st ++ ext) ∧
    (Reads T π v (toSpotN cfg cs st).2 → ∀ i,
      ((∀ f ∈ (toSpotN cfg cs st).1, f.sat v i) ↔ ∀ c ∈ cs, c.isTemporal = false → c.sat T (suffix π i)) ∧
      ((∃ f ∈ (toSpotN cfg cs st).1, f.sat v i) ↔ ∃ c ∈ cs, c.isTemporal = false ∧ c.sat T (suffix π i))) := by
  induction cs with
  | nil => intro st; exact ⟨⟨[], by simp [toSpotN]⟩, fun _ i => by simp [toSpotN]⟩
  | cons c cs ih =>
    have ih' := ih fun d hd => h d (List.mem_cons_of_mem _ hd)
    have hc := h c (List.mem_cons_self ..)
    intro st
    rw [toSpotN]
    cases ht : c.isTemporal with
    | true =>
      simp only [if_true]
      obtain ⟨h1, h2⟩ := ih' st
      refine ⟨h1, fun hr i => ?_⟩
      obtain ⟨h3, h4⟩ := h2 hr i
      refine ⟨?_, ?_⟩
      · rw [h3]; simp [ht]
      · rw [h4]; simp [ht]
    | false =>
      simp only [Bool.false_eq_true, if_false]
      obtain ⟨⟨e1, h1⟩, h2⟩ := hc st
      obtain ⟨⟨e2, h3⟩, h4⟩ := ih' (toSpot cfg c st).2
      refine ⟨⟨e1 ++ e2, by rw [h3, h1, List.append_assoc]⟩, fun hr i => ?_⟩
      obtain ⟨h5, h6⟩ := h4 hr i
      rw [h3] at hr
      have h7 := h2 hr.of_append i
      refine ⟨?_, ?_⟩
      · rw [List.forall_mem_cons, h5, h7]; simp [ht]
      · rw [List.exists_mem_cons_iff, h6, h7]; simp [ht]

theorem split_all {P : Cond → Prop} (cs : List Cond) :
    (∀ c ∈ cs, P c) ↔ (∀ c ∈ cs, c.isTemporal = true → P c) ∧ ∀ c ∈ cs, c.isTemporal = false → P c := by
  constructor
  · exact fun h => ⟨fun c hc _ => h c hc, fun c hc _ => h c hc⟩
  · rintro ⟨h1, h2⟩ c hc
    cases ht : c.isTemporal with
    | true => exact h1 c hc ht
    | false => exact h2 c hc ht

theorem split_any {P : Cond → Prop} (cs : List Cond) :
    (∃ c ∈ cs, P c) ↔ (∃ c ∈ cs, c.isTemporal = true ∧ P c) ∨ ∃ c ∈ cs, c.isTemporal = false ∧ P c := by
  constructor
  · rintro ⟨c, hc, h⟩
    cases ht : c.isTemporal with
    | true => exact .inl ⟨c, hc, ht, h⟩
    | false => exact .inr ⟨c, hc, ht, h⟩
  · rintro (⟨c, hc, _, h⟩ | ⟨c, hc, _, h⟩) <;> exact ⟨c, hc, h⟩

theorem nonTemp_mem {cs : List Cond} {c : Cond} :
    c ∈ cs.filter (fun c => !c.isTemporal) ↔ c ∈ cs ∧ c.isTemporal = false := by
  simp [List.mem_filter]

theorem nonTemp_empty {cs : List Cond} (h : (cs.filter fun c => !c.isTemporal).isEmpty = true) :
    ∀ c ∈ cs, c.isTemporal = true := by
  intro c hc
  cases ht : c.isTemporal with
  | true => rfl
  | false =>
    have := nonTemp_mem.2 ⟨hc, ht⟩
    rw [List.isEmpty_iff.1 h] at this
    cases this

theorem good_and {v : Nat → Key → Bool} (cs : List Cond) (h : ∀ c ∈ cs, Good cfg T π v c) :
    Good cfg T π v (.and cs) := by
  intro st
  rw [toSpot]
  obtain ⟨⟨e1, h1⟩, h2⟩ := toSpotT_good cs h st
  split
  · rename_i he
    refine ⟨⟨e1, h1⟩, fun hr i => ?_⟩
    have := (h2 hr i).1
    simp only [SpotF.sat, spotAll_iff, Cond.sat, satAll_iff]
    rw [this]
    have := nonTemp_empty he
    exact ⟨fun h c hc => h c hc (this c hc), fun h c hc _ => h c hc⟩
  · split
    · obtain ⟨⟨e2, h3⟩, h4⟩ := toSpotN_good cs h (toSpotT cfg cs st).2
      refine ⟨⟨e1 ++ e2, by rw [← List.append_assoc, ← h1]; exact h3⟩, fun hr i => ?_⟩
      have h5 := (h4 hr i).1
      simp only [h3] at hr
      have h6 := (h2 hr.of_append i).1
      simp only [SpotF.sat, spotAll_iff, Cond.sat, satAll_iff, List.forall_mem_append, List.forall_mem_singleton]
      rw [h5, h6, ← split_all]
    · obtain ⟨⟨e2, h3⟩, h4⟩ := mkAp_good (cfg := cfg) (T := T) (π := π) (v := v)
        (.and (cs.filter fun c => !c.isTemporal)) (toSpotT cfg cs st).2
      refine ⟨⟨e1 ++ e2, by rw [← List.append_assoc, ← h1]; exact h3⟩, fun hr i => ?_⟩
      have h5 := h4 hr i
      simp only [h3] at hr
      have h6 := (h2 hr.of_append i).1
      simp only [SpotF.sat, spotAll_iff, Cond.sat, satAll_iff, List.forall_mem_append, List.forall_mem_singleton]
      rw [h5, h6, split_all (P := fun c => c.sat T (suffix π i)) cs]
      simp only [Cond.sat, satAll_iff, nonTemp_mem, and_imp]

theorem good_or {v : Nat → Key → Bool} (cs : List Cond) (h : ∀ c ∈ cs, Good cfg T π v c) :
    Good cfg T π v (.or cs) := by
  intro st
  rw [toSpot]
  obtain ⟨⟨e1, h1⟩, h2⟩ := toSpotT_good cs h st
  split
  · rename_i he
    refine ⟨⟨e1, h1⟩, fun hr i => ?_⟩
    have := (h2 hr i).2
    simp only [SpotF.sat, spotAny_iff, Cond.sat, satAny_iff]
    rw [this]
    have := nonTemp_empty he
    exact ⟨fun ⟨c, hc, _, h⟩ => ⟨c, hc, h⟩, fun ⟨c, hc, h⟩ => ⟨c, hc, this c hc, h⟩⟩
  · split
    · obtain ⟨⟨e2, h3⟩, h4⟩ := toSpotN_good cs h (toSpotT cfg cs st).2
      refine ⟨⟨e1 ++ e2, by rw [← List.append_assoc, ← h1]; exact h3⟩, fun hr i => ?_⟩
      have h5 := (h4 hr i).2
      simp only [h3] at hr
      have h6 := (h2 hr.of_append i).2
      simp only [SpotF.sat, spotAny_iff, Cond.sat, satAny_iff]
      rw [split_any, ← h5, ← h6]
      constructor
      · rintro ⟨f, hf, hs⟩
        rcases List.mem_append.1 hf with hf | hf
        · exact .inl ⟨f, hf, hs⟩
        · rw [List.mem_singleton.1 hf] at hs
          simp only [SpotF.sat, spotAny_iff] at hs
          exact .inr hs
      · rintro (⟨f, hf, hs⟩ | hs)
        · exact ⟨f, List.mem_append_left _ hf, hs⟩
        · exact ⟨_, List.mem_append_right _ (List.mem_singleton.2 rfl), by simpa only [SpotF.sat, spotAny_iff] using hs⟩
    · obtain ⟨⟨e2, h3⟩, h4⟩ := mkAp_good (cfg := cfg) (T := T) (π := π) (v := v)
        (.or (cs.filter fun c => !c.isTemporal)) (toSpotT cfg cs st).2
      refine ⟨⟨e1 ++ e2, by rw [← List.append_assoc, ← h1]; exact h3⟩, fun hr i => ?_⟩
      have h5 := h4 hr i
      simp only [h3] at hr
      have h6 := (h2 hr.of_append i).2
      simp only [SpotF.sat, spotAny_iff, Cond.sat, satAny_iff]
      have h7 : (∃ c ∈ cs, c.isTemporal = false ∧ c.sat T (suffix π i)) ↔
          (mkAp cfg (.or (cs.filter fun c => !c.isTemporal)) (toSpotT cfg cs st).2).1.sat v i := by
        rw [h5]
        simp only [Cond.sat, satAny_iff, nonTemp_mem, and_assoc]
      rw [split_any, ← h6, h7]
      constructor
      · rintro ⟨f, hf, hs⟩
        rcases List.mem_append.1 hf with hf | hf
        · exact .inl ⟨f, hf, hs⟩
        · rw [List.mem_singleton.1 hf] at hs
          exact .inr hs
      · rintro (⟨f, hf, hs⟩ | hs)
        · exact ⟨f, List.mem_append_left _ hf, hs⟩
        · exact ⟨_, List.mem_append_right _ (List.mem_singleton.2 rfl), hs⟩

/-- The translation keeps the meaning. -/
theorem toSpot_good (v : Nat → Key → Bool) (c : Cond) (hc : PathF c = true) : Good cfg T π v c := by
  induction c using Cond.ind with
  | bool b => intro st; refine ⟨⟨[], by simp [toSpot]⟩, fun _ i => ?_⟩; cases b <;> simp [toSpot, SpotF.sat, Cond.sat]
  | dead => intro st; rw [toSpot]; exact mkAp_good _ st
  | cmp o a b => intro st; rw [toSpot]; exact mkAp_good _ st
  | cc l n => intro st; rw [toSpot]; exact mkAp_good _ st
  | not c ih =>
    intro st
    obtain ⟨h1, h2⟩ := ih hc st
    rw [toSpot]
    exact ⟨h1, fun hr i => not_congr (h2 hr i)⟩
  | and cs ih =>
    rw [PathF, pathAll_iff] at hc
    exact good_and cs fun c hm => ih c hm (hc c hm)
  | or cs ih =>
    rw [PathF, pathAll_iff] at hc
    exact good_or cs fun c hm => ih c hm (hc c hm)
  | X c ih =>
    intro st
    obtain ⟨h1, h2⟩ := ih hc st
    rw [toSpot]
    refine ⟨h1, fun hr i => ?_⟩
    simp only [SpotF.sat, Cond.sat, suffix_suffix]
    exact h2 hr (i + 1)
  | F c ih =>
    intro st
    obtain ⟨h1, h2⟩ := ih hc st
    rw [toSpot]
    refine ⟨h1, fun hr i => ?_⟩
    simp only [SpotF.sat, Cond.sat, suffix_suffix]
    exact exists_congr fun j => h2 hr (i + j)
  | G c ih =>
    intro st
    obtain ⟨h1, h2⟩ := ih hc st
    rw [toSpot]
    refine ⟨h1, fun hr i => ?_⟩
    simp only [SpotF.sat, Cond.sat, suffix_suffix]
    exact forall_congr' fun j => h2 hr (i + j)
  | U c d ihc ihd =>
    rw [PathF, Bool.and_eq_true] at hc
    intro st
    obtain ⟨⟨e1, h1⟩, h2⟩ := ihc hc.1 st
    obtain ⟨⟨e2, h3⟩, h4⟩ := ihd hc.2 (toSpot cfg c st).2
    rw [toSpot]
    refine ⟨⟨e1 ++ e2, by rw [← List.append_assoc, ← h1]; exact h3⟩, fun hr i => ?_⟩
    have h5 := h4 hr
    simp only [h3] at hr
    have h6 := h2 hr.of_append
    simp only [SpotF.sat, Cond.sat, suffix_suffix]
    exact exists_congr fun j => and_congr (h5 _) (forall₂_congr fun k _ => h6 _)
  | _ => simp [PathF] at hc

/-! ### The table of propositions -/

/-- Entries are predicates, named by their text or by their position. -/
def TableOK (cfg : TCfg) (st : APInfo) : Prop :=
  ∀ (i : Nat) (e : Key × Cond), st[i]? = some e → e.2.isTemporal = false ∧ (e.1 = .idx i ∨ e.1 = .txt (cfg.print e.2))

theorem mkAp_table {c : Cond} (hc : c.isTemporal = false) {st : APInfo} (h : TableOK cfg st) :
    TableOK cfg (mkAp cfg c st).2 := by
  intro i e he
  simp only [mkAp] at he
  by_cases hi : i < st.length
  · rw [List.getElem?_append_left hi] at he
    exact h i e he
  · rw [List.getElem?_append_right (by omega)] at he
    have hi' : i = st.length := by
      by_cases hx : i - st.length = 0
      · omega
      · rw [List.getElem?_eq_none (by simp; omega)] at he; cases he
    subst hi'
    simp only [Nat.sub_self, List.getElem?_cons_zero, Option.some.injEq] at he
    subst he
    refine ⟨hc, ?_⟩
    simp only
    split
    · exact .inl rfl
    · exact .inr rfl

theorem toSpot_table (c : Cond) : ∀ st, TableOK cfg st → TableOK cfg (toSpot cfg c st).2 := by
  have listT : ∀ cs : List Cond, (∀ c ∈ cs, ∀ st, TableOK cfg st → TableOK cfg (toSpot cfg c st).2) →
      ∀ st, TableOK cfg st → TableOK cfg (toSpotT cfg cs st).2 := by
    intro cs
    induction cs with
    | nil => intro _ st h; simpa [toSpotT] using h
    | cons c cs ih =>
      intro hall st h
      have ih' := ih fun d hd => hall d (List.mem_cons_of_mem _ hd)
      rw [toSpotT]
      split
      · exact ih' _ (hall c (List.mem_cons_self ..) _ h)
      · exact ih' _ h
  have listN : ∀ cs : List Cond, (∀ c ∈ cs, ∀ st, TableOK cfg st → TableOK cfg (toSpot cfg c st).2) →
      ∀ st, TableOK cfg st → TableOK cfg (toSpotN cfg cs st).2 := by
    intro cs
    induction cs with
    | nil => intro _ st h; simpa [toSpotN] using h
    | cons c cs ih =>
      intro hall st h
      have ih' := ih fun d hd => hall d (List.mem_cons_of_mem _ hd)
      rw [toSpotN]
      split
      · exact ih' _ h
      · exact ih' _ (hall c (List.mem_cons_self ..) _ h)
  have hnt : ∀ cs : List Cond, anyTemporal (cs.filter fun c => !c.isTemporal) = false := by
    intro cs
    rw [anyTemporal_eq, List.any_eq_false]
    intro c hc
    simp [(nonTemp_mem.1 hc).2]
  induction c using Cond.ind with
  | bool b => intro st h; simpa [toSpot] using h
  | dead => intro st h; rw [toSpot]; exact mkAp_table rfl h
  | cmp o a b => intro st h; rw [toSpot]; exact mkAp_table rfl h
  | cc l n => intro st h; rw [toSpot]; exact mkAp_table rfl h
  | and cs ih =>
    intro st h
    rw [toSpot]
    split
    · exact listT cs ih st h
    · split
      · exact listN cs ih _ (listT cs ih st h)
      · exact mkAp_table (by rw [Cond.isTemporal]; exact hnt cs) (listT cs ih st h)
  | or cs ih =>
    intro st h
    rw [toSpot]
    split
    · exact listT cs ih st h
    · split
      · exact listN cs ih _ (listT cs ih st h)
      · exact mkAp_table (by rw [Cond.isTemporal]; exact hnt cs) (listT cs ih st h)
  | U c d ihc ihd => intro st h; rw [toSpot]; exact ihd _ (ihc _ h)
  | EU c d ihc ihd => intro st h; rw [toSpot]; exact ihd _ (ihc _ h)
  | AU c d ihc ihd => intro st h; rw [toSpot]; exact ihd _ (ihc _ h)
  | not c ih | X c ih | EX c ih | AX c ih | F c ih | EF c ih | AF c ih | G c ih | EG c ih | AG c ih | E c ih | A c ih =>
    intro st h; rw [toSpot]; exact ih _ h

/-- Entries with the same key mean the same. -/
theorem table_same {st : APInfo} (hp : PrintOK T cfg.print st) (h : TableOK cfg st) {e e' : Key × Cond} (he : e ∈ st)
    (he' : e' ∈ st) (hk : e.1 = e'.1) (π : Nat → Mark) (hπ : T.IsPath π) : e.2.sat T π ↔ e'.2.sat T π := by
  obtain ⟨i, hi⟩ := List.getElem?_of_mem he
  obtain ⟨j, hj⟩ := List.getElem?_of_mem he'
  obtain ⟨_, h2⟩ := h i e hi
  obtain ⟨_, h4⟩ := h j e' hj
  rcases h2 with h2 | h2 <;> rcases h4 with h4 | h4
  · rw [h2, h4] at hk
    cases hk
    rw [hi] at hj
    cases hj
    exact Iff.rfl
  · rw [h2, h4] at hk; cases hk
  · rw [h2, h4] at hk; cases hk
  · rw [h2, h4] at hk
    injection hk with hk
    exact hp _ he _ he' hk π hπ

/-- The values of the variables are read as the formula wants them. -/
theorem apValue_reads {N : FlatNet} (w : N.WF) {reg : Key → Nat} {st : APInfo}
    (hreg : ∀ e ∈ st, ∀ e' ∈ st, reg e.1 = reg e'.1 → e.1 = e'.1)
    (hp : PrintOK N.ts cfg.print st) (h : TableOK cfg st) {π : Nat → Mark} (hπ : N.ts.IsPath π) :
    Reads N.ts π (fun i k => apValue N reg st (π i) (reg k)) st := by
  intro e he i
  simp only [apValue]
  cases hf : st.reverse.find? (fun e' => reg e'.1 == reg e.1) with
  | none =>
    rw [List.find?_eq_none] at hf
    exact absurd (hf e (by simpa using he)) (by simp)
  | some e' =>
    have hm : e' ∈ st := by simpa using List.mem_of_find?_eq_some hf
    have hk := List.find?_some hf
    have hk : e'.1 = e.1 := hreg _ hm _ he (by simpa using hk)
    obtain ⟨j, hj⟩ := List.getElem?_of_mem hm
    have hev := (EvalProps.C15_predicate_evaluation N w (π i) e'.2 (h j e' hj).1 (suffix π i) (suffix_path hπ i) rfl).1
    simp only
    rw [beq_iff_eq, hev]
    exact table_same hp h hm he hk _ (suffix_path hπ i)

/-! ### Validation -/

theorem pathF_valid (c : Cond) (h : PathF c = true) : valid c = true := by
  induction c using Cond.ind with
  | and cs ih | or cs ih =>
    rw [PathF, pathAll_iff] at h
    rw [valid, validAll_iff]
    exact fun c hm => ih c hm (h c hm)
  | not c ih | X c ih | F c ih | G c ih => exact ih h
  | U c d ih _ =>
    rw [PathF, Bool.and_eq_true] at h
    rw [valid]; exact ih h.1
  | bool | dead | cmp | cc => rfl
  | _ => simp [PathF] at h

theorem queryF_isLTL (c : Cond) (h : QueryF c = true) : isLTL c = true := by
  cases c <;> simp only [QueryF, isLTL, Bool.and_eq_true] at h ⊢ <;>
    first
    | exact pathF_valid _ h
    | exact ⟨pathF_valid _ h.1, pathF_valid _ h.2⟩
    | cases h

/-- What the query asks, in terms of the formula handed to the search. -/
theorem toLtl_sat (c : Cond) (h : QueryF c = true) : ∃ f neg, toLtl c = (some f, neg) ∧ PathF f = true ∧
    ∀ π, c.sat T π ↔ ((∀ π', T.IsPath π' → π' 0 = π 0 → f.sat T π') ↔ neg = false) := by
  cases c <;> simp only [QueryF] at h
  case A f => exact ⟨f, false, by simp [toLtl, pathF_valid _ h], h, fun π => by simp [Cond.sat]⟩
  case E f =>
    refine ⟨.not f, true, by simp [toLtl, valid, pathF_valid _ h], h, fun π => ?_⟩
    simp [Cond.sat]
  case AG f =>
    refine ⟨.G f, false, by simp [toLtl, valid, pathF_valid _ h], h, fun π => ?_⟩
    simp [Cond.sat]
  case AF f =>
    refine ⟨.F f, false, by simp [toLtl, valid, pathF_valid _ h], h, fun π => ?_⟩
    simp [Cond.sat]
  case EF f =>
    refine ⟨.not (.F f), true, by simp [toLtl, valid, pathF_valid _ h], h, fun π => ?_⟩
    simp [Cond.sat]
  case EG f =>
    refine ⟨.not (.G f), true, by simp [toLtl, valid, pathF_valid _ h], h, fun π => ?_⟩
    simp [Cond.sat]
  case AU f g =>
    rw [Bool.and_eq_true] at h
    refine ⟨.U f g, false, by simp [toLtl, valid, pathF_valid _ h.1], by simp [PathF, h], fun π => ?_⟩
    simp [Cond.sat]
  case EU f g =>
    rw [Bool.and_eq_true] at h
    refine ⟨.not (.U f g), true, by simp [toLtl, valid, pathF_valid _ h.1], by simp [PathF, h], fun π => ?_⟩
    simp [Cond.sat]
  all_goals cases h

end LTL
end Verif
