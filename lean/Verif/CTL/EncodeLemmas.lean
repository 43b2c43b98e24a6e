import Verif.CTL.Encode
import Verif.CTL.GraphRel

/-!
# The edges of the dependency graph of a CTL query
-/

namespace Verif
namespace CTL
open PQL

set_option linter.unusedSectionVars false

variable {D : Gens} {src : Conf} {f : Cond} {pos : List Nat}

/-! ### Targets -/

/-- All edges are ordinary and their targets satisfy `Q`. -/
def AllT (Q : Conf → Prop) (es : List (HEdge Conf)) : Prop := ∀ e ∈ es, e.neg = false ∧ ∀ t ∈ e.targets, Q t

theorem AllT.nil {Q : Conf → Prop} : AllT Q [] := by intro e he; cases he
theorem AllT.unit {Q : Conf → Prop} : AllT Q [⟨false, []⟩] := by
  intro e he; rw [List.mem_singleton] at he; subst he; exact ⟨rfl, by simp⟩
theorem AllT.append {Q : Conf → Prop} {a b : List (HEdge Conf)} (ha : AllT Q a) (hb : AllT Q b) :
    AllT Q (a ++ b) := by
  intro e he
  rcases List.mem_append.1 he with he | he
  · exact ha e he
  · exact hb e he
theorem AllT.single {Q : Conf → Prop} {ts : List Conf} (h : ∀ t ∈ ts, Q t) : AllT Q [⟨false, ts⟩] := by
  intro e he; rw [List.mem_singleton] at he; subst he; exact ⟨rfl, h⟩

theorem add_Q {Q : Conf → Prop} {e : Bld} {c : Conf} (h : ∀ t ∈ e.targets, Q t) (hc : Q c) :
    ∀ t ∈ (e.add src c).targets, Q t := by
  unfold Bld.add
  split
  · exact h
  · split
    · simp
    · intro t ht
      rcases List.mem_cons.1 ht with rfl | ht
      · exact hc
      · exact h t ht

theorem addOpt_Q {Q : Conf → Prop} {e : Bld} {o : Option Conf} (h : ∀ t ∈ e.targets, Q t)
    (hc : ∀ c, o = some c → Q c) : ∀ t ∈ (e.addOpt src o).targets, Q t := by
  cases o with
  | none => exact h
  | some c => exact add_Q h (hc c rfl)

theorem out_Q {Q : Conf → Prop} {e : Bld} (h : ∀ t ∈ e.targets, Q t) : AllT Q e.out := by
  unfold Bld.out
  split
  · exact AllT.nil
  · exact AllT.single h

theorem empty_Q {Q : Conf → Prop} : ∀ t ∈ ({} : Bld).targets, Q t := by simp

theorem addAll_Q {Q : Conf → Prop} : ∀ (cs : List Conf) (e : Bld), (∀ t ∈ e.targets, Q t) →
    (∀ c ∈ cs, Q c) → ∀ t ∈ (addAll src e cs).targets, Q t
  | [], _, h, _ => h
  | c :: cs, e, h, hc => by
    unfold addAll
    split
    · exact add_Q h (hc c (by simp))
    · exact addAll_Q cs _ (add_Q h (hc c (by simp))) fun x hx => hc x (by simp [hx])

theorem auLoop_Q {Q : Conf → Prop} : ∀ (ms : List (List Nat)) (e : Bld), (∀ t ∈ e.targets, Q t) →
    (∀ m ∈ ms, D.ev f m = .rUnknown → Q (m, pos)) → ∀ e', auLoop D src f pos ms e = some e' →
    ∀ t ∈ e'.targets, Q t
  | [], e, h, _, e', he => by cases he; exact h
  | m :: ms, e, h, hq, e', he => by
    have hq' : ∀ x ∈ ms, D.ev f x = .rUnknown → Q (x, pos) := fun x hx => hq x (by simp [hx])
    unfold auLoop at he
    cases hr : D.ev f m with
    | rTrue => rw [hr] at he; exact auLoop_Q ms e h hq' e' he
    | rFalse => rw [hr] at he; cases he
    | rUnknown =>
      rw [hr] at he
      have ha := add_Q (src := src) h (hq m (by simp) hr)
      simp only at he
      split at he
      · cases he; exact ha
      · exact auLoop_Q ms _ ha hq' e' he

theorem afLoop_Q {Q : Conf → Prop} : ∀ (ms : List (List Nat)) (e : Bld), (∀ t ∈ e.targets, Q t) →
    (∀ m ∈ ms, D.ev f m = .rUnknown → Q (m, pos)) → ∀ t ∈ (afLoop D src f pos ms e).1.targets, Q t
  | [], e, h, _ => h
  | m :: ms, e, h, hq => by
    have hq' : ∀ x ∈ ms, D.ev f x = .rUnknown → Q (x, pos) := fun x hx => hq x (by simp [hx])
    unfold afLoop
    cases hr : D.ev f m with
    | rTrue => exact afLoop_Q ms e h hq'
    | rFalse => simp
    | rUnknown =>
      have ha := add_Q (src := src) h (hq m (by simp) hr)
      simp only
      split
      · exact ha
      · exact afLoop_Q ms _ ha hq'

theorem axLoop_Q {Q : Conf → Prop} : ∀ (ms : List (List Nat)) (e : Bld) (v : Res), (∀ t ∈ e.targets, Q t) →
    (∀ m ∈ ms, D.ev f m = .rUnknown → Q (m, pos ++ [0])) → ∀ t ∈ (axLoop D src f pos ms e v).1.targets, Q t
  | [], e, _, h, _ => h
  | m :: ms, e, v, h, hq => by
    have hq' : ∀ x ∈ ms, D.ev f x = .rUnknown → Q (x, pos ++ [0]) := fun x hx => hq x (by simp [hx])
    unfold axLoop
    cases hr : D.ev f m with
    | rTrue => exact axLoop_Q ms e v h hq'
    | rFalse => exact h
    | rUnknown => exact axLoop_Q ms _ _ (add_Q (src := src) h (hq m (by simp) hr)) hq'

theorem euLoop_Q {Q : Conf → Prop} {left : Option Conf} (hl : ∀ c, left = some c → Q c) :
    ∀ (ms : List (List Nat)) (es : List (HEdge Conf)), AllT Q es →
    (∀ m ∈ ms, D.ev f m = .rUnknown → Q (m, pos)) → AllT Q (euLoop D src f pos left ms es).1
  | [], es, h, _ => h
  | m :: ms, es, h, hq => by
    have hq' : ∀ x ∈ ms, D.ev f x = .rUnknown → Q (x, pos) := fun x hx => hq x (by simp [hx])
    unfold euLoop
    cases hr : D.ev f m with
    | rTrue => exact AllT.single (addOpt_Q empty_Q hl)
    | rFalse => exact euLoop_Q hl ms es h hq'
    | rUnknown =>
      exact euLoop_Q hl ms _ (h.append (out_Q (addOpt_Q (add_Q empty_Q (hq m (by simp) hr)) hl))) hq'

theorem efLoop_Q {Q : Conf → Prop} : ∀ (ms : List (List Nat)) (es : List (HEdge Conf)), AllT Q es →
    (∀ m ∈ ms, D.ev f m = .rUnknown → Q (m, pos)) → AllT Q (efLoop D src f pos ms es).1
  | [], es, h, _ => h
  | m :: ms, es, h, hq => by
    have hq' : ∀ x ∈ ms, D.ev f x = .rUnknown → Q (x, pos) := fun x hx => hq x (by simp [hx])
    unfold efLoop
    cases hr : D.ev f m with
    | rTrue => exact AllT.unit
    | rFalse => exact efLoop_Q ms es h hq'
    | rUnknown => exact efLoop_Q ms _ (h.append (out_Q (add_Q empty_Q (hq m (by simp) hr)))) hq'

theorem exLoop_Q {Q : Conf → Prop} : ∀ (ms : List (List Nat)) (es : List (HEdge Conf)), AllT Q es →
    (∀ m ∈ ms, D.ev f m = .rUnknown → Q (m, pos ++ [0])) → AllT Q (exLoopS D src f pos ms es)
  | [], es, h, _ => h
  | m :: ms, es, h, hq => by
    have hq' : ∀ x ∈ ms, D.ev f x = .rUnknown → Q (x, pos ++ [0]) := fun x hx => hq x (by simp [hx])
    unfold exLoopS
    cases hr : D.ev f m with
    | rTrue => exact AllT.unit
    | rFalse => exact exLoop_Q ms es h hq'
    | rUnknown => exact exLoop_Q ms _ (h.append (AllT.single (add_Q empty_Q (hq m (by simp) hr)))) hq'

theorem andConds_mem {m : List Nat} : ∀ (cs : List (Nat × Cond)) (is : List Nat), andConds D m cs = some is →
    (∀ x ∈ cs, D.ev x.2 m ≠ .rFalse) ∧ ∀ i, i ∈ is ↔ ∃ c, (i, c) ∈ cs ∧ D.ev c m = .rUnknown
  | [], is, h => by cases h; simp
  | (j, c) :: cs, is, h => by
    unfold andConds at h
    cases hr : D.ev c m with
    | rFalse => rw [hr] at h; cases h
    | rTrue =>
      rw [hr] at h
      obtain ⟨h1, h2⟩ := andConds_mem cs is h
      refine ⟨fun x hx => ?_, fun i => ?_⟩
      · rcases List.mem_cons.1 hx with rfl | hx
        · rw [hr]; simp
        · exact h1 x hx
      · rw [h2]
        constructor
        · rintro ⟨d, hd, hu⟩; exact ⟨d, by simp [hd], hu⟩
        · rintro ⟨d, hd, hu⟩
          rcases List.mem_cons.1 hd with hd | hd
          · cases hd; rw [hr] at hu; cases hu
          · exact ⟨d, hd, hu⟩
    | rUnknown =>
      rw [hr] at h
      simp only [Option.map_eq_some_iff] at h
      obtain ⟨js, hj, rfl⟩ := h
      obtain ⟨h1, h2⟩ := andConds_mem cs js hj
      refine ⟨fun x hx => ?_, fun i => ?_⟩
      · rcases List.mem_cons.1 hx with rfl | hx
        · rw [hr]; simp
        · exact h1 x hx
      · rw [List.mem_cons, h2]
        constructor
        · rintro (rfl | ⟨d, hd, hu⟩)
          · exact ⟨c, by simp, hr⟩
          · exact ⟨d, by simp [hd], hu⟩
        · rintro ⟨d, hd, hu⟩
          rcases List.mem_cons.1 hd with hd | hd
          · cases hd; exact .inl rfl
          · exact .inr ⟨d, hd, hu⟩

theorem andConds_none {m : List Nat} : ∀ (cs : List (Nat × Cond)), andConds D m cs = none →
    ∃ x ∈ cs, D.ev x.2 m = .rFalse
  | [], h => by cases h
  | (j, c) :: cs, h => by
    unfold andConds at h
    cases hr : D.ev c m with
    | rFalse => exact ⟨(j, c), by simp, hr⟩
    | rTrue =>
      rw [hr] at h
      obtain ⟨x, hx, h1⟩ := andConds_none cs h
      exact ⟨x, by simp [hx], h1⟩
    | rUnknown =>
      rw [hr] at h
      simp only [Option.map_eq_none_iff] at h
      obtain ⟨x, hx, h1⟩ := andConds_none cs h
      exact ⟨x, by simp [hx], h1⟩

theorem orConds_mem {m : List Nat} : ∀ (cs : List (Nat × Cond)) (is : List Nat), orConds D m cs = some is →
    (∀ x ∈ cs, D.ev x.2 m ≠ .rTrue) ∧ ∀ i, i ∈ is ↔ ∃ c, (i, c) ∈ cs ∧ D.ev c m = .rUnknown
  | [], is, h => by cases h; simp
  | (j, c) :: cs, is, h => by
    unfold orConds at h
    cases hr : D.ev c m with
    | rTrue => rw [hr] at h; cases h
    | rFalse =>
      rw [hr] at h
      obtain ⟨h1, h2⟩ := orConds_mem cs is h
      refine ⟨fun x hx => ?_, fun i => ?_⟩
      · rcases List.mem_cons.1 hx with rfl | hx
        · rw [hr]; simp
        · exact h1 x hx
      · rw [h2]
        constructor
        · rintro ⟨d, hd, hu⟩; exact ⟨d, by simp [hd], hu⟩
        · rintro ⟨d, hd, hu⟩
          rcases List.mem_cons.1 hd with hd | hd
          · cases hd; rw [hr] at hu; cases hu
          · exact ⟨d, hd, hu⟩
    | rUnknown =>
      rw [hr] at h
      simp only [Option.map_eq_some_iff] at h
      obtain ⟨js, hj, rfl⟩ := h
      obtain ⟨h1, h2⟩ := orConds_mem cs js hj
      refine ⟨fun x hx => ?_, fun i => ?_⟩
      · rcases List.mem_cons.1 hx with rfl | hx
        · rw [hr]; simp
        · exact h1 x hx
      · rw [List.mem_cons, h2]
        constructor
        · rintro (rfl | ⟨d, hd, hu⟩)
          · exact ⟨c, by simp, hr⟩
          · exact ⟨d, by simp [hd], hu⟩
        · rintro ⟨d, hd, hu⟩
          rcases List.mem_cons.1 hd with hd | hd
          · cases hd; exact .inl rfl
          · exact .inr ⟨d, hd, hu⟩

theorem orConds_none {m : List Nat} : ∀ (cs : List (Nat × Cond)), orConds D m cs = none →
    ∃ x ∈ cs, D.ev x.2 m = .rTrue
  | [], h => by cases h
  | (j, c) :: cs, h => by
    unfold orConds at h
    cases hr : D.ev c m with
    | rTrue => exact ⟨(j, c), by simp, hr⟩
    | rFalse =>
      rw [hr] at h
      obtain ⟨x, hx, h1⟩ := orConds_none cs h
      exact ⟨x, by simp [hx], h1⟩
    | rUnknown =>
      rw [hr] at h
      simp only [Option.map_eq_none_iff] at h
      obtain ⟨x, hx, h1⟩ := orConds_none cs h
      exact ⟨x, by simp [hx], h1⟩

theorem mem_enum {cs : List Cond} {i : Nat} {c : Cond} :
    (i, c) ∈ (List.range cs.length).zip cs ↔ cs[i]? = some c := by
  rw [List.mem_iff_getElem?]
  constructor
  · rintro ⟨j, hj⟩
    rw [List.getElem?_zip_eq_some] at hj
    obtain ⟨h1, h2⟩ := hj
    rw [List.getElem?_range (by
      rw [List.getElem?_eq_some_iff] at h2; exact h2.1)] at h1
    cases h1; exact h2
  · intro h
    refine ⟨i, ?_⟩
    rw [List.getElem?_zip_eq_some]
    refine ⟨?_, h⟩
    rw [List.getElem?_eq_some_iff] at h
    rw [List.getElem?_range h.1]

theorem operand_ne (src : Conf) (i : Nat) : operand src.1 src.2 i ≠ src := by
  intro h
  have := congrArg (fun x : Conf => x.2.length) h
  simp [operand] at this

theorem pos_ne {l : List Nat} (src : Conf) (i : Nat) : (l, src.2 ++ [i]) ≠ src := by
  intro h
  have := congrArg (fun x : Conf => x.2.length) h
  simp at this

theorem add_new {c : Conf} (h : c ≠ src) : Bld.add src {} c = { handled := false, targets := [c] } := by
  simp [Bld.add, h]

theorem leftOpd_some {c : Cond} {m pos : List Nat} {x : Conf} (h : leftOpd D c m pos = some x) :
    D.ev c m = .rUnknown ∧ x = operand m pos 0 := by
  unfold leftOpd at h
  split at h
  · rename_i hu; cases h; exact ⟨hu, rfl⟩
  · cases h

theorem rightOut_Q {Q : Conf → Prop} {d : Cond} (h : D.ev d src.1 = .rUnknown → Q (operand src.1 src.2 1)) :
    AllT Q (rightOut D src d) := by
  unfold rightOut
  split
  · rename_i hu; exact out_Q (add_Q empty_Q (h hu))
  · exact AllT.nil

/-- What the target of an ordinary edge can be. -/
inductive Tgt (D : Gens) (src : Conf) (f : Cond) : Conf → Prop
  | here {i : Nat} {c : Cond} : (kids f)[i]? = some c → D.ev c src.1 = .rUnknown →
      Tgt D src f (operand src.1 src.2 i)
  | next {m : List Nat} : m ∈ D.next f src.1 → D.ev f m = .rUnknown → Tgt D src f (m, src.2)
  | nextKid {m : List Nat} {c : Cond} : m ∈ D.next f src.1 → (kids f)[0]? = some c →
      D.ev c m = .rUnknown → Tgt D src f (m, src.2 ++ [0])

theorem succOf_targets (φ : Cond) (hn : ∀ c, f ≠ .not c) : AllT (Tgt D src f) (succOf D φ src f) := by
  have hev : ∀ (b : Bool), AllT (Tgt D src f) (if b then [⟨false, []⟩] else []) := by
    intro b; cases b
    · exact AllT.nil
    · exact AllT.unit
  cases f with
  | bool b => simp only [succOf]; split; exact AllT.unit; exact AllT.nil
  | dead => simp only [succOf]; split; exact AllT.unit; exact AllT.nil
  | cmp op a b => simp only [succOf]; split; exact AllT.unit; exact AllT.nil
  | cc l n => simp only [succOf]; split; exact AllT.unit; exact AllT.nil
  | not c => exact absurd rfl (hn c)
  | and cs =>
    simp only [succOf]
    split
    · exact AllT.nil
    · rename_i is his
      refine out_Q (addAll_Q _ _ empty_Q fun c hc => ?_)
      obtain ⟨i, hi, rfl⟩ := List.mem_map.1 hc
      obtain ⟨d, hd, hu⟩ := ((andConds_mem _ _ his).2 i).1 hi
      exact .here (mem_enum.1 hd) hu
  | or cs =>
    simp only [succOf]
    split
    · exact AllT.unit
    · rename_i is his
      intro e he
      obtain ⟨i, hi, he⟩ := List.mem_flatMap.1 he
      obtain ⟨d, hd, hu⟩ := ((orConds_mem _ _ his).2 i).1 hi
      exact out_Q (add_Q empty_Q (.here (mem_enum.1 hd) hu)) e he
  | AU c d =>
    simp only [succOf, auSucc]
    split
    · exact AllT.unit
    · refine AllT.append ?_ ?_
      · split
        · exact AllT.nil
        · split
          · exact AllT.nil
          · split
            · exact AllT.nil
            · rename_i he
              refine out_Q (addOpt_Q (auLoop_Q _ _ empty_Q (fun m hm hu => .next hm hu) _ he) ?_)
              intro x hx
              obtain ⟨hu, rfl⟩ := leftOpd_some hx
              exact .here rfl hu
      · exact rightOut_Q fun hu => .here rfl hu
  | AF c =>
    have hsub : AllT (Tgt D src (.AF c)) (if D.ev c src.1 = .rUnknown then
        [⟨false, (Bld.add src {} (operand src.1 src.2 0)).targets⟩] else []) := by
      split
      · rename_i hu; exact AllT.single (add_Q empty_Q (.here rfl hu))
      · exact AllT.nil
    simp only [succOf, afSucc]
    split
    · exact AllT.unit
    · split
      · exact hsub
      · refine AllT.append (out_Q (afLoop_Q _ _ empty_Q fun m hm hu => .next hm hu)) ?_
        split
        · exact AllT.nil
        · exact hsub
  | AX c =>
    have hq := axLoop_Q (src := src) (Q := Tgt D src (.AX c)) (pos := src.2) (f := c) (D.next (.AX c) src.1) {} .rTrue
      empty_Q fun m hm hu => .nextKid hm rfl hu
    simp only [succOf, axSucc]
    split
    · rename_i he; rw [he] at hq; exact AllT.single hq
    · exact AllT.unit
    · exact AllT.nil
  | EU c d =>
    have hright : AllT (Tgt D src (.EU c d)) (rightOut D src d) := rightOut_Q fun hu => .here rfl hu
    simp only [succOf, euSucc]
    split
    · exact AllT.unit
    · split
      · exact hright
      · refine AllT.append (euLoop_Q ?_ _ _ AllT.nil fun m hm hu => .next hm hu) ?_
        · intro x hx
          obtain ⟨hu, rfl⟩ := leftOpd_some hx
          exact .here rfl hu
        · split
          · exact AllT.nil
          · exact hright
  | EF c =>
    simp only [succOf, efSucc]
    split
    · exact AllT.unit
    · refine AllT.append (efLoop_Q _ _ AllT.nil fun m hm hu => .next hm hu) ?_
      split
      · exact AllT.nil
      · split
        · rename_i hu; exact AllT.single (add_Q empty_Q (.here rfl hu))
        · exact AllT.nil
  | EX c => exact exLoop_Q _ _ AllT.nil fun m hm hu => .nextKid hm rfl hu
  | _ => exact AllT.nil

/-! ### When an edge fires -/

/-- Some edge of the list fires. -/
def FiresL (V P : Conf → Prop) (es : List (HEdge Conf)) : Prop := ∃ e ∈ es, e.Fires V P

variable {V P : Conf → Prop}

theorem firesL_nil : FiresL V P [] ↔ False := by simp [FiresL]
theorem firesL_append {a b : List (HEdge Conf)} : FiresL V P (a ++ b) ↔ FiresL V P a ∨ FiresL V P b := by
  simp only [FiresL, List.mem_append, or_and_right, exists_or]
theorem firesL_single {ts : List Conf} : FiresL V P [⟨false, ts⟩] ↔ ∀ t ∈ ts, P t := by
  simp [FiresL, HEdge.Fires]

theorem firesL_out {e : Bld} : FiresL V P e.out ↔ e.handled = false ∧ ∀ t ∈ e.targets, P t := by
  unfold Bld.out
  cases e.handled
  · simp only [Bool.false_eq_true, if_false, firesL_single, true_and]
  · simp [firesL_nil]

theorem addAll_ok : ∀ (cs : List Conf) (e : Bld), e.handled = false → (∀ c ∈ cs, c ≠ src) →
    (addAll src e cs).handled = false ∧
    ∀ t, t ∈ (addAll src e cs).targets ↔ t ∈ e.targets ∨ t ∈ cs
  | [], e, h, _ => ⟨h, by simp [addAll]⟩
  | c :: cs, e, h, hc => by
    have h1 : e.add src c = { handled := e.handled, targets := c :: e.targets } := by
      unfold Bld.add
      rw [h, if_neg (by simp), if_neg (hc c (by simp))]
    unfold addAll
    rw [h1]
    simp only [h, Bool.false_eq_true, if_false]
    obtain ⟨h2, h3⟩ := addAll_ok cs { handled := false, targets := c :: e.targets } rfl
      fun x hx => hc x (by simp [hx])
    refine ⟨h2, fun t => ?_⟩
    rw [h3]
    simp only [List.mem_cons]
    tauto

theorem fires_and (φ : Cond) (cs : List Cond) : FiresL V P (succOf D φ src (.and cs)) ↔
    (∀ c ∈ cs, D.ev c src.1 ≠ .rFalse) ∧
    ∀ i c, cs[i]? = some c → D.ev c src.1 = .rUnknown → P (operand src.1 src.2 i) := by
  simp only [succOf]
  cases h : andConds D src.1 ((List.range cs.length).zip cs) with
  | none =>
    simp only [firesL_nil, false_iff, not_and]
    intro h1
    obtain ⟨⟨i, c⟩, hx, hf⟩ := andConds_none _ h
    exact absurd hf (h1 c (List.mem_of_getElem? (mem_enum.1 hx)))
  | some is =>
    obtain ⟨h1, h2⟩ := andConds_mem _ _ h
    obtain ⟨h3, h4⟩ := addAll_ok (src := src) (is.map (operand src.1 src.2)) {} rfl (by
      intro c hc
      obtain ⟨i, _, rfl⟩ := List.mem_map.1 hc
      exact operand_ne src i)
    simp only [firesL_out, h3, true_and]
    constructor
    · intro hP
      refine ⟨fun c hc => ?_, fun i c hi hu => ?_⟩
      · obtain ⟨i, hi⟩ := List.mem_iff_getElem?.1 hc
        exact h1 (i, c) (mem_enum.2 hi)
      · exact hP _ ((h4 _).2 (.inr (List.mem_map.2 ⟨i, (h2 i).2 ⟨c, mem_enum.2 hi, hu⟩, rfl⟩)))
    · rintro ⟨_, hP⟩ t ht
      rcases (h4 t).1 ht with ht | ht
      · cases ht
      · obtain ⟨i, hi, rfl⟩ := List.mem_map.1 ht
        obtain ⟨c, hc, hu⟩ := (h2 i).1 hi
        exact hP i c (mem_enum.1 hc) hu

theorem fires_or (φ : Cond) (cs : List Cond) : FiresL V P (succOf D φ src (.or cs)) ↔
    (∃ c ∈ cs, D.ev c src.1 = .rTrue) ∨
    ∃ i c, cs[i]? = some c ∧ D.ev c src.1 = .rUnknown ∧ P (operand src.1 src.2 i) := by
  simp only [succOf]
  cases h : orConds D src.1 ((List.range cs.length).zip cs) with
  | none =>
    obtain ⟨⟨i, c⟩, hx, hf⟩ := orConds_none _ h
    simp only [firesL_single, List.not_mem_nil, false_implies, implies_true, true_iff]
    exact .inl ⟨c, List.mem_of_getElem? (mem_enum.1 hx), hf⟩
  | some is =>
    obtain ⟨h1, h2⟩ := orConds_mem _ _ h
    constructor
    · rintro ⟨e, he, hf⟩
      obtain ⟨i, hi, he⟩ := List.mem_flatMap.1 he
      obtain ⟨c, hc, hu⟩ := (h2 i).1 hi
      rw [add_new (operand_ne src i)] at he
      simp only [Bld.out, Bool.false_eq_true, if_false, List.mem_singleton] at he
      subst he
      simp only [HEdge.Fires, Bool.false_eq_true, if_false, List.mem_singleton, forall_eq] at hf
      exact .inr ⟨i, c, mem_enum.1 hc, hu, hf⟩
    · rintro (⟨c, hc, ht⟩ | ⟨i, c, hi, hu, hP⟩)
      · obtain ⟨i, hi⟩ := List.mem_iff_getElem?.1 hc
        exact absurd ht (h1 (i, c) (mem_enum.2 hi))
      · refine ⟨⟨false, [operand src.1 src.2 i]⟩, List.mem_flatMap.2 ⟨i, (h2 i).2 ⟨c, mem_enum.2 hi, hu⟩, ?_⟩, ?_⟩
        · rw [add_new (operand_ne src i)]; simp [Bld.out]
        · simpa [HEdge.Fires] using hP

theorem fires_not (φ : Cond) (c : Cond) : FiresL V P (succOf D φ src (.not c)) ↔
    ¬ V (operand src.1 src.2 0) := by
  simp only [succOf, add_new (operand_ne src 0)]
  constructor
  · rintro ⟨e, he, hf⟩
    simp only [Bool.false_eq_true, if_false, List.mem_singleton] at he
    subst he
    simpa [HEdge.Fires] using hf
  · intro h
    refine ⟨⟨true, [operand src.1 src.2 0]⟩, by simp, ?_⟩
    show ∃ t ∈ [operand src.1 src.2 0], ¬ V t
    exact ⟨_, by simp, h⟩

/-- The loop for `AU` keeps its edge. -/
theorem auLoop_ok : ∀ (ms : List (List Nat)) (e : Bld), e.handled = false →
    (∀ m ∈ ms, D.ev f m ≠ .rFalse ∧ (D.ev f m = .rUnknown → (m, pos) ≠ src)) →
    ∃ e', auLoop D src f pos ms e = some e' ∧ e'.handled = false ∧
      ∀ t, t ∈ e'.targets ↔ t ∈ e.targets ∨ ∃ m ∈ ms, D.ev f m = .rUnknown ∧ t = (m, pos)
  | [], e, h, _ => ⟨e, rfl, h, by simp⟩
  | m :: ms, e, h, hq => by
    have hq' : ∀ x ∈ ms, D.ev f x ≠ .rFalse ∧ (D.ev f x = .rUnknown → (x, pos) ≠ src) :=
      fun x hx => hq x (by simp [hx])
    unfold auLoop
    cases hr : D.ev f m with
    | rTrue =>
      obtain ⟨e', h1, h2, h3⟩ := auLoop_ok ms e h hq'
      refine ⟨e', h1, h2, fun t => ?_⟩
      rw [h3]
      simp [hr]
    | rFalse => exact absurd hr (hq m (by simp)).1
    | rUnknown =>
      have h1 : e.add src (m, pos) = { handled := false, targets := (m, pos) :: e.targets } := by
        unfold Bld.add
        rw [h, if_neg (by simp), if_neg ((hq m (by simp)).2 hr)]
      rw [h1]
      simp only [Bool.false_eq_true, if_false]
      obtain ⟨e', h2, h3, h4⟩ := auLoop_ok ms { handled := false, targets := (m, pos) :: e.targets } rfl hq'
      refine ⟨e', h2, h3, fun t => ?_⟩
      rw [h4]
      simp only [List.mem_cons, exists_eq_or_imp, hr, true_and]
      tauto

/-- The loop for `AU` drops its edge. -/
theorem auLoop_bad : ∀ (ms : List (List Nat)) (e : Bld), e.handled = false →
    (¬ ∀ m ∈ ms, D.ev f m ≠ .rFalse ∧ (D.ev f m = .rUnknown → (m, pos) ≠ src)) →
    auLoop D src f pos ms e = none ∨ ∃ e', auLoop D src f pos ms e = some e' ∧ e'.handled = true
  | [], e, _, hq => absurd (by simp) hq
  | m :: ms, e, h, hq => by
    unfold auLoop
    cases hr : D.ev f m with
    | rTrue => exact auLoop_bad ms e h (fun hc => hq fun x hx => by
        rcases List.mem_cons.1 hx with rfl | hx
        · rw [hr]; simp
        · exact hc x hx)
    | rFalse => exact .inl rfl
    | rUnknown =>
      by_cases hs : (m, pos) = src
      · right
        have : e.add src (m, pos) = { handled := true, targets := [] } := by
          unfold Bld.add; rw [h, if_neg (by simp), if_pos hs]
        rw [this]
        exact ⟨_, rfl, rfl⟩
      · have h1 : e.add src (m, pos) = { handled := false, targets := (m, pos) :: e.targets } := by
          unfold Bld.add
          rw [h, if_neg (by simp), if_neg hs]
        rw [h1]
        simp only [Bool.false_eq_true, if_false]
        exact auLoop_bad ms _ rfl (fun hc => hq fun x hx => by
          rcases List.mem_cons.1 hx with rfl | hx
          · rw [hr]; exact ⟨by simp, fun _ => hs⟩
          · exact hc x hx)

/-- What the edge over all successors says. -/
def AllNext (D : Gens) (P : Conf → Prop) (src : Conf) (f : Cond) : Prop :=
  D.next f src.1 ≠ [] ∧ ∀ m ∈ D.next f src.1, D.ev f m ≠ .rFalse ∧
    (D.ev f m = .rUnknown → (m, src.2) ≠ src ∧ P (m, src.2))

theorem addOpt_handled {e : Bld} {o : Option Conf} (h : e.handled = true) : (e.addOpt src o).handled = true := by
  cases o with
  | none => exact h
  | some c => simp [Bld.addOpt, Bld.add, h]

theorem addOpt_ok {e : Bld} {o : Option Conf} (h : e.handled = false) (ho : ∀ c, o = some c → c ≠ src) :
    (e.addOpt src o).handled = false ∧ ∀ t, t ∈ (e.addOpt src o).targets ↔ t ∈ e.targets ∨ o = some t := by
  cases o with
  | none => exact ⟨h, by simp [Bld.addOpt]⟩
  | some c =>
    have := ho c rfl
    simp only [Bld.addOpt, Bld.add, h, Bool.false_eq_true, if_false, this]
    refine ⟨trivial, fun t => ?_⟩
    simp only [List.mem_cons, Option.some.injEq]
    tauto

/-- The left operand is true or assumed. -/
def Opd (D : Gens) (P : Conf → Prop) (src : Conf) (c : Cond) (i : Nat) : Prop :=
  D.ev c src.1 = .rTrue ∨ (D.ev c src.1 = .rUnknown ∧ P (operand src.1 src.2 i))

theorem rightOut_fires {d : Cond} (hd : D.ev d src.1 ≠ .rTrue) :
    FiresL V P (rightOut D src d) ↔ Opd D P src d 1 := by
  unfold rightOut
  by_cases hu : D.ev d src.1 = .rUnknown
  · rw [if_pos hu]
    simp only [firesL_out, add_new (operand_ne src 1)]
    simp [Opd, hu]
  · rw [if_neg hu]
    simp [firesL_nil, Opd, hd, hu]

theorem leftOpd_ne {c : Cond} {x : Conf} (h : leftOpd D c src.1 src.2 = some x) : x ≠ src := by
  obtain ⟨_, rfl⟩ := leftOpd_some h
  exact operand_ne src 0

theorem leftOpd_iff {c : Cond} (hc : D.ev c src.1 ≠ .rFalse) :
    (∀ x, leftOpd D c src.1 src.2 = some x → P x) ↔ Opd D P src c 0 := by
  unfold leftOpd
  by_cases hu : D.ev c src.1 = .rUnknown
  · rw [if_pos hu]; simp [Opd, hu]
  · rw [if_neg hu]
    simp only [reduceCtorEq, false_implies, implies_true, true_iff]
    left
    cases hcr : D.ev c src.1 with
    | rTrue => rfl
    | rFalse => exact absurd hcr hc
    | rUnknown => exact absurd hcr hu

theorem fires_AU (φ c d : Cond) : FiresL V P (succOf D φ src (.AU c d)) ↔
    Opd D P src d 1 ∨ (D.ev d src.1 ≠ .rTrue ∧ Opd D P src c 0 ∧ AllNext D P src (.AU c d)) := by
  simp only [succOf, auSucc]
  by_cases hd : D.ev d src.1 = .rTrue
  · rw [if_pos hd]
    simp [firesL_single, Opd, hd]
  · rw [if_neg hd, firesL_append]
    have hright := rightOut_fires (V := V) (P := P) (src := src) hd
    rw [hright, or_comm]
    refine or_congr Iff.rfl ?_
    simp only [ne_eq, hd, not_false_eq_true, true_and]
    by_cases hc : D.ev c src.1 = .rFalse
    · rw [if_pos hc]
      simp [firesL_nil, Opd, hc]
    · rw [if_neg hc]
      cases hm : D.next (.AU c d) src.1 with
      | nil => simp [firesL_nil, AllNext, hm]
      | cons m ms =>
        simp only
        by_cases hq : ∀ x ∈ m :: ms, D.ev (.AU c d) x ≠ .rFalse ∧
            (D.ev (.AU c d) x = .rUnknown → (x, src.2) ≠ src)
        · obtain ⟨e', h1, h2, h3⟩ := auLoop_ok (D := D) (src := src) (f := .AU c d) (pos := src.2) (m :: ms) {} rfl hq
          rw [h1]
          simp only [firesL_out]
          obtain ⟨h4, h5⟩ := addOpt_ok (src := src) (e := e') (o := leftOpd D c src.1 src.2) h2
            (fun x hx => leftOpd_ne hx)
          have hleft := leftOpd_iff (P := P) hc
          rw [h4]
          simp only [true_and, h5, h3]
          constructor
          · intro hP
            refine ⟨?_, by rw [hm]; simp, fun x hx => ?_⟩
            · exact hleft.1 fun x hx => hP x (.inr hx)
            · rw [hm] at hx
              refine ⟨(hq x hx).1, fun hu => ⟨(hq x hx).2 hu, hP _ (.inl (.inr ⟨x, hx, hu, rfl⟩))⟩⟩
          · rintro ⟨ho, _, hn⟩ t ht
            rcases ht with (ht | ⟨x, hx, hu, rfl⟩) | ht
            · cases ht
            · rw [hm] at hn
              exact ((hn x hx).2 hu).2
            · exact hleft.2 ho t ht
        · have hbad : ¬ AllNext D P src (.AU c d) := by
            rintro ⟨_, hn⟩
            rw [hm] at hn
            exact hq fun x hx => ⟨(hn x hx).1, fun hu => ((hn x hx).2 hu).1⟩
          rcases auLoop_bad (D := D) (src := src) (f := .AU c d) (pos := src.2) (m :: ms) {} rfl hq with h1 | ⟨e', h1, h2⟩
          · rw [h1]; simp [firesL_nil, hbad]
          · rw [h1]
            simp [firesL_out, addOpt_handled h2, hbad]

theorem afLoop_eq : ∀ (ms : List (List Nat)) (e : Bld), (∀ m, D.ev f m ≠ .rFalse) →
    (afLoop D src f pos ms e).2 = false ∧ auLoop D src f pos ms e = some (afLoop D src f pos ms e).1
  | [], e, _ => ⟨rfl, rfl⟩
  | m :: ms, e, h => by
    unfold afLoop auLoop
    cases hr : D.ev f m with
    | rTrue => exact afLoop_eq ms e h
    | rFalse => exact absurd hr (h m)
    | rUnknown =>
      simp only
      split
      · exact ⟨rfl, rfl⟩
      · exact afLoop_eq ms _ h

theorem fires_AF (φ c : Cond) (hne : ∀ m, D.ev (.AF c) m ≠ .rFalse) : FiresL V P (succOf D φ src (.AF c)) ↔
    Opd D P src c 0 ∨ (D.ev c src.1 ≠ .rTrue ∧ AllNext D P src (.AF c)) := by
  simp only [succOf, afSucc]
  by_cases hd : D.ev c src.1 = .rTrue
  · rw [if_pos hd]
    simp [firesL_single, Opd, hd]
  · rw [if_neg hd]
    have hsub : FiresL V P (if D.ev c src.1 = .rUnknown then
        [⟨false, (Bld.add src {} (operand src.1 src.2 0)).targets⟩] else []) ↔ Opd D P src c 0 := by
      by_cases hu : D.ev c src.1 = .rUnknown
      · rw [if_pos hu, firesL_single, add_new (operand_ne src 0)]
        simp [Opd, hu]
      · rw [if_neg hu]
        simp [firesL_nil, Opd, hd, hu]
    cases hm : D.next (.AF c) src.1 with
    | nil => simp only [hsub, AllNext, hm]; simp
    | cons m ms =>
      obtain ⟨h1, h2⟩ := afLoop_eq (D := D) (src := src) (f := .AF c) (pos := src.2) (m :: ms) {} hne
      simp only
      rw [h1, if_neg (by simp), firesL_append, hsub, or_comm]
      refine or_congr Iff.rfl ?_
      simp only [ne_eq, hd, not_false_eq_true, true_and, firesL_out]
      by_cases hq : ∀ x ∈ m :: ms, D.ev (.AF c) x ≠ .rFalse ∧
            (D.ev (.AF c) x = .rUnknown → (x, src.2) ≠ src)
      · obtain ⟨e', h3, h4, h5⟩ := auLoop_ok (D := D) (src := src) (f := .AF c) (pos := src.2) (m :: ms) {} rfl hq
        rw [h2] at h3; cases h3
        rw [h4]
        simp only [true_and, h5]
        constructor
        · intro hP
          refine ⟨by rw [hm]; simp, fun x hx => ?_⟩
          rw [hm] at hx
          exact ⟨(hq x hx).1, fun hu => ⟨(hq x hx).2 hu, hP _ (.inr ⟨x, hx, hu, rfl⟩)⟩⟩
        · rintro ⟨_, hn⟩ t ht
          rcases ht with ht | ⟨x, hx, hu, rfl⟩
          · cases ht
          · rw [hm] at hn
            exact ((hn x hx).2 hu).2
      · have hbad : ¬ AllNext D P src (.AF c) := by
          rintro ⟨_, hn⟩
          rw [hm] at hn
          exact hq fun x hx => ⟨(hn x hx).1, fun hu => ((hn x hx).2 hu).1⟩
        rcases auLoop_bad (D := D) (src := src) (f := .AF c) (pos := src.2) (m :: ms) {} rfl hq with h3 | ⟨e', h3, h4⟩
        · rw [h2] at h3; cases h3
        · rw [h2] at h3; cases h3
          simp [h4, hbad]

theorem axLoop_spec : ∀ (ms : List (List Nat)) (e : Bld) (v : Res), e.handled = false → v ≠ .rFalse →
    (∀ m ∈ ms, (m, pos ++ [0]) ≠ src) →
    ((axLoop D src f pos ms e v).2 = .rFalse ↔ ∃ m ∈ ms, D.ev f m = .rFalse) ∧
    ((axLoop D src f pos ms e v).2 = .rTrue → v = .rTrue ∧ ∀ m ∈ ms, D.ev f m = .rTrue) ∧
    ((axLoop D src f pos ms e v).2 ≠ .rFalse →
      ∀ t, t ∈ (axLoop D src f pos ms e v).1.targets ↔ t ∈ e.targets ∨
        ∃ m ∈ ms, D.ev f m = .rUnknown ∧ t = (m, pos ++ [0]))
  | [], e, v, _, hv, _ => by simp [axLoop, hv]
  | m :: ms, e, v, h, hv, hq => by
    have hq' : ∀ x ∈ ms, (x, pos ++ [0]) ≠ src := fun x hx => hq x (by simp [hx])
    unfold axLoop
    cases hr : D.ev f m with
    | rTrue =>
      obtain ⟨h1, h2, h3⟩ := axLoop_spec ms e v h hv hq'
      simp only
      refine ⟨by rw [h1]; simp [hr], fun hx => ?_, fun hx t => by rw [h3 hx]; simp [hr]⟩
      obtain ⟨h4, h5⟩ := h2 hx
      exact ⟨h4, by simpa [hr] using h5⟩
    | rFalse => simp [hr]
    | rUnknown =>
      have h1 : e.add src (m, pos ++ [0]) = { handled := false, targets := (m, pos ++ [0]) :: e.targets } := by
        unfold Bld.add
        rw [h, if_neg (by simp), if_neg (hq m (by simp))]
      rw [h1]
      simp only
      obtain ⟨h2, h3, h4⟩ := axLoop_spec ms { handled := false, targets := (m, pos ++ [0]) :: e.targets }
        .rUnknown rfl (by simp) hq'
      refine ⟨by rw [h2]; simp [hr], fun hx => absurd (h3 hx).1 (by simp), fun hx t => ?_⟩
      rw [h4 hx]
      simp only [List.mem_cons, exists_eq_or_imp, hr, true_and]
      tauto

theorem fires_AX (φ c : Cond) : FiresL V P (succOf D φ src (.AX c)) ↔
    ∀ m ∈ D.next (.AX c) src.1, D.ev c m ≠ .rFalse ∧ (D.ev c m = .rUnknown → P (m, src.2 ++ [0])) := by
  obtain ⟨h1, h2, h3⟩ := axLoop_spec (D := D) (src := src) (f := c) (pos := src.2) (D.next (.AX c) src.1) {}
    .rTrue rfl (by simp) (fun m _ => pos_ne src 0)
  simp only [succOf, axSucc]
  cases hv : axLoop D src c src.2 (D.next (.AX c) src.1) {} .rTrue with
  | mk e v =>
    rw [hv] at h1 h2 h3
    simp only at h1 h2 h3
    cases v with
    | rTrue =>
      simp only [firesL_single, List.not_mem_nil, false_implies, implies_true, true_iff]
      intro m hm
      have := (h2 rfl).2 m hm
      rw [this]; simp
    | rFalse =>
      simp only [firesL_nil, false_iff]
      intro hc
      obtain ⟨m, hm, hf⟩ := h1.1 rfl
      exact (hc m hm).1 hf
    | rUnknown =>
      simp only [firesL_single, h3 (by simp)]
      constructor
      · intro hP m hm
        refine ⟨fun hf => ?_, fun hu => hP _ (.inr ⟨m, hm, hu, rfl⟩)⟩
        cases h1.2 ⟨m, hm, hf⟩
      · rintro hP t (ht | ⟨m, hm, hu, rfl⟩)
        · cases ht
        · exact (hP m hm).2 hu

theorem exLoop_spec : ∀ (ms : List (List Nat)) (es : List (HEdge Conf)), (∀ m ∈ ms, (m, pos ++ [0]) ≠ src) →
    (FiresL V P (exLoopS D src f pos ms es) ↔
      FiresL V P es ∨ ∃ m ∈ ms, D.ev f m = .rTrue ∨ (D.ev f m = .rUnknown ∧ P (m, pos ++ [0]))) ∨
    (FiresL V P (exLoopS D src f pos ms es) ∧ ∃ m ∈ ms, D.ev f m = .rTrue)
  | [], es, _ => by simp [exLoopS]
  | m :: ms, es, hq => by
    have hq' : ∀ x ∈ ms, (x, pos ++ [0]) ≠ src := fun x hx => hq x (by simp [hx])
    unfold exLoopS
    cases hr : D.ev f m with
    | rTrue => right; simp [firesL_single, hr]
    | rFalse =>
      rcases exLoop_spec ms es hq' with h1 | ⟨h1, h2⟩
      · left; simp only; rw [h1]; simp [hr]
      · right; exact ⟨h1, by simpa [hr] using h2⟩
    | rUnknown =>
      rcases exLoop_spec ms
        (es ++ [⟨false, (Bld.add src {} (m, pos ++ [0])).targets⟩]) hq' with h1 | ⟨h1, h2⟩
      · left
        simp only
        rw [h1, firesL_append, firesL_single, add_new (hq m (by simp))]
        simp [hr, or_assoc]
      · right; exact ⟨h1, by simpa [hr] using h2⟩

theorem fires_EX (φ c : Cond) : FiresL V P (succOf D φ src (.EX c)) ↔
    ∃ m ∈ D.next (.EX c) src.1, D.ev c m = .rTrue ∨ (D.ev c m = .rUnknown ∧ P (m, src.2 ++ [0])) := by
  simp only [succOf]
  rcases exLoop_spec (V := V) (P := P) (D := D) (src := src) (f := c) (pos := src.2) (D.next (.EX c) src.1) []
    (fun m _ => pos_ne src 0) with h1 | ⟨h1, m, hm, h2⟩
  · rw [h1]; simp [firesL_nil]
  · simp only [h1, true_iff]
    exact ⟨m, hm, .inl h2⟩

/-- What the edges to single successors say. -/
def SomeNext (D : Gens) (P : Conf → Prop) (src : Conf) (f : Cond) : Prop :=
  ∃ m ∈ D.next f src.1, D.ev f m = .rTrue ∨ (D.ev f m = .rUnknown ∧ (m, src.2) ≠ src ∧ P (m, src.2))

theorem efLoop_spec : ∀ (ms : List (List Nat)) (es : List (HEdge Conf)),
    ((efLoop D src f pos ms es).2 = true ∧ FiresL V P (efLoop D src f pos ms es).1 ∧ ∃ m ∈ ms, D.ev f m = .rTrue) ∨
    ((efLoop D src f pos ms es).2 = false ∧ (FiresL V P (efLoop D src f pos ms es).1 ↔ FiresL V P es ∨
      ∃ m ∈ ms, D.ev f m = .rTrue ∨ (D.ev f m = .rUnknown ∧ (m, pos) ≠ src ∧ P (m, pos))))
  | [], es => by simp [efLoop]
  | m :: ms, es => by
    unfold efLoop
    cases hr : D.ev f m with
    | rTrue => left; simp [firesL_single, hr]
    | rFalse =>
      rcases efLoop_spec ms es with ⟨h0, h1, h2⟩ | ⟨h0, h1⟩
      · left; exact ⟨h0, h1, by simpa [hr] using h2⟩
      · right; refine ⟨h0, ?_⟩; simp only; rw [h1]; simp [hr]
    | rUnknown =>
      rcases efLoop_spec ms
        (es ++ (Bld.add src {} (m, pos)).out) with ⟨h0, h1, h2⟩ | ⟨h0, h1⟩
      · left; exact ⟨h0, h1, by simpa [hr] using h2⟩
      · right
        refine ⟨h0, ?_⟩
        simp only
        rw [h1, firesL_append, firesL_out]
        by_cases hs : (m, pos) = src
        · simp [Bld.add, hs, hr]
        · rw [add_new hs]
          simp [hr, hs, or_assoc]

theorem fires_EF (φ c : Cond) : FiresL V P (succOf D φ src (.EF c)) ↔
    Opd D P src c 0 ∨ (D.ev c src.1 ≠ .rTrue ∧ SomeNext D P src (.EF c)) := by
  simp only [succOf, efSucc]
  by_cases hd : D.ev c src.1 = .rTrue
  · rw [if_pos hd]
    simp [firesL_single, Opd, hd]
  · rw [if_neg hd]
    have hsub : FiresL V P (if D.ev c src.1 = .rUnknown then
        [⟨false, (Bld.add src {} (operand src.1 src.2 0)).targets⟩] else []) ↔ Opd D P src c 0 := by
      by_cases hu : D.ev c src.1 = .rUnknown
      · rw [if_pos hu, firesL_single, add_new (operand_ne src 0)]
        simp [Opd, hu]
      · rw [if_neg hu]
        simp [firesL_nil, Opd, hd, hu]
    rw [firesL_append]
    rcases efLoop_spec (V := V) (P := P) (f := .EF c) (D := D) (src := src) (pos := src.2)
      (D.next (.EF c) src.1) [] with ⟨h0, h1, m, hm, h2⟩ | ⟨h0, h1⟩
    · simp only [h1, true_or, true_iff]
      exact .inr ⟨hd, m, hm, .inl h2⟩
    · rw [h0, h1, if_neg (by simp), hsub, or_comm]
      refine or_congr Iff.rfl ?_
      simp only [firesL_nil, false_or, ne_eq, hd, not_false_eq_true, true_and]
      rfl

theorem euLoop_spec {left : Option Conf} (hl : ∀ c, left = some c → c ≠ src) :
    ∀ (ms : List (List Nat)) (es : List (HEdge Conf)), (FiresL V P es → ∀ c, left = some c → P c) →
    ((euLoop D src f pos left ms es).2 = true → ∃ m ∈ ms, D.ev f m = .rTrue) ∧
    ((euLoop D src f pos left ms es).2 = true → left = none ∧ FiresL V P (euLoop D src f pos left ms es).1) ∧
    (FiresL V P (euLoop D src f pos left ms es).1 ↔ FiresL V P es ∧ (∀ m ∈ ms, D.ev f m ≠ .rTrue) ∨
      (∀ c, left = some c → P c) ∧
      ∃ m ∈ ms, D.ev f m = .rTrue ∨ (D.ev f m = .rUnknown ∧ (m, pos) ≠ src ∧ P (m, pos)))
  | [], es, _ => by simp [euLoop]
  | m :: ms, es, hes => by
    unfold euLoop
    cases hr : D.ev f m with
    | rTrue =>
      obtain ⟨h4, h5⟩ := addOpt_ok (src := src) (e := {}) (o := left) rfl hl
      have : FiresL V P [⟨false, (Bld.addOpt src {} left).targets⟩] ↔ ∀ c, left = some c → P c := by
        rw [firesL_single]
        constructor
        · intro h c hc; exact h c ((h5 c).2 (.inr hc))
        · intro h t ht
          rcases (h5 t).1 ht with h6 | h6
          · cases h6
          · exact h t h6
      simp only
      refine ⟨fun _ => ⟨m, by simp, hr⟩, fun h => ?_, ?_⟩
      · rw [this]
        cases left with
        | none => exact ⟨rfl, by simp⟩
        | some c => cases h
      · rw [this]
        constructor
        · exact fun h => .inr ⟨h, m, by simp, .inl hr⟩
        · rintro (⟨_, h⟩ | ⟨h, _⟩)
          · exact absurd hr (h m (by simp))
          · exact h
    | rFalse =>
      obtain ⟨h1, h2, h3⟩ := euLoop_spec hl ms es hes
      simp only
      refine ⟨fun h => by simpa [hr] using h1 h, h2, ?_⟩
      rw [h3]; simp [hr]
    | rUnknown =>
      have hout : FiresL V P ((Bld.add src {} (m, pos)).addOpt src left).out ↔
          (m, pos) ≠ src ∧ P (m, pos) ∧ ∀ c, left = some c → P c := by
        rw [firesL_out]
        by_cases hs : (m, pos) = src
        · have h6 : (Bld.add src {} (m, pos)).handled = true := by simp [Bld.add, hs]
          rw [addOpt_handled h6]
          simp [hs]
        · rw [add_new hs]
          obtain ⟨h4, h5⟩ := addOpt_ok (src := src) (e := { handled := false, targets := [(m, pos)] }) (o := left)
            rfl hl
          rw [h4]
          simp only [true_and, h5, List.mem_singleton, ne_eq, hs, not_false_eq_true]
          constructor
          · exact fun h => ⟨h _ (.inl rfl), fun c hc => h c (.inr hc)⟩
          · rintro ⟨h1, h2⟩ t (rfl | ht)
            · exact h1
            · exact h2 t ht
      obtain ⟨h1, h2, h3⟩ := euLoop_spec hl ms
        (es ++ ((Bld.add src {} (m, pos)).addOpt src left).out) (by
          rw [firesL_append, hout]
          rintro (h | h)
          · exact hes h
          · exact h.2.2)
      simp only
      refine ⟨fun h => by simpa [hr] using h1 h, h2, ?_⟩
      rw [h3, firesL_append, hout]
      constructor
      · rintro (⟨h4 | h4, h5⟩ | ⟨h4, x, hx, h5⟩)
        · refine .inl ⟨h4, fun x hx => ?_⟩
          rcases List.mem_cons.1 hx with rfl | hx
          · rw [hr]; simp
          · exact h5 x hx
        · exact .inr ⟨h4.2.2, m, by simp, .inr ⟨hr, h4.1, h4.2.1⟩⟩
        · exact .inr ⟨h4, x, by simp [hx], h5⟩
      · rintro (⟨h4, h5⟩ | ⟨h4, x, hx, h5⟩)
        · exact .inl ⟨.inl h4, fun x hx => h5 x (by simp [hx])⟩
        · rcases List.mem_cons.1 hx with rfl | hx
          · rcases h5 with h5 | h5
            · rw [hr] at h5; cases h5
            · by_cases h6 : ∀ y ∈ ms, D.ev f y ≠ .rTrue
              · exact .inl ⟨.inr ⟨h5.2.1, h5.2.2, h4⟩, h6⟩
              · push Not at h6
                obtain ⟨y, hy, h6⟩ := h6
                exact .inr ⟨h4, y, hy, .inl h6⟩
          · exact .inr ⟨h4, x, hx, h5⟩

theorem fires_EU (φ c d : Cond) : FiresL V P (succOf D φ src (.EU c d)) ↔
    Opd D P src d 1 ∨ (D.ev d src.1 ≠ .rTrue ∧ Opd D P src c 0 ∧ SomeNext D P src (.EU c d)) := by
  simp only [succOf, euSucc]
  by_cases hd : D.ev d src.1 = .rTrue
  · rw [if_pos hd]
    simp [firesL_single, Opd, hd]
  · rw [if_neg hd]
    have hright := rightOut_fires (V := V) (P := P) (src := src) hd
    by_cases hc : D.ev c src.1 = .rFalse
    · rw [if_pos hc, hright]
      simp [Opd, hc]
    · rw [if_neg hc, firesL_append]
      obtain ⟨h1, h2, h3⟩ := euLoop_spec (V := V) (P := P) (f := .EU c d) (D := D) (src := src) (pos := src.2)
        (left := leftOpd D c src.1 src.2) (fun x hx => leftOpd_ne hx) (D.next (.EU c d) src.1) []
        (fun h => absurd h (by simp [firesL_nil]))
      have hleft := leftOpd_iff (P := P) hc
      rw [hleft] at h3
      simp only [firesL_nil, false_and, false_or] at h3
      simp only [ne_eq, hd, not_false_eq_true, true_and]
      cases hb : (euLoop D src (.EU c d) src.2 (leftOpd D c src.1 src.2) (D.next (.EU c d) src.1) []).2 with
      | true =>
        obtain ⟨_, h5⟩ := h2 hb
        have h6 := h3.1 h5
        simp only [h5, true_or, true_iff]
        exact .inr h6
      | false =>
        rw [if_neg (by simp), hright, h3, or_comm]
        rfl

end CTL
end Verif
