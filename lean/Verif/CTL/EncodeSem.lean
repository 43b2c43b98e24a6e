import Verif.CTL.Sem
import Verif.PQL.EvalLemmas

/-!
# The dependency graph computes the meaning of the query
-/

namespace Verif
namespace CTL
open PQL

/-- What the graph needs from the generators, on a set `OK` of markings. -/
structure GensOK (T : TS) (D : Gens) (dl : List Nat → Bool) (OK : List Nat → Prop) : Prop where
  inj : ∀ l l', OK l → OK l' → toMark l = toMark l' → l = l'
  succOK : ∀ l, OK l → ∀ l' ∈ D.all l, OK l' ∧ T.step (toMark l) (toMark l')
  complete : ∀ l, OK l → ∀ m', T.step (toMark l) m' → ∃ l' ∈ D.all l, toMark l' = m'
  ev : ∀ c l, D.ev c l = evaluate (dl l) (toMark l) c
  dead : ∀ l, OK l → (dl l = true ↔ T.Dead (toMark l))
  redSub : D.po = true → ∀ c, c.isTemporal = false → ∀ l, OK l → ∀ l' ∈ D.red (.EF c) l, l' ∈ D.all l
  redProg : D.po = true → ∀ c, c.isTemporal = false → ∀ l, OK l → ∀ n,
    Until T (fun _ => True) (fun x => Sat T x c) (n + 1) (toMark l) →
    (∀ k, k ≤ n → ¬ Until T (fun _ => True) (fun x => Sat T x c) k (toMark l)) →
    ∃ l' ∈ D.red (.EF c) l, Until T (fun _ => True) (fun x => Sat T x c) n (toMark l')

variable {T : TS} {D : Gens} {dl : List Nat → Bool} {OK : List Nat → Prop} {φ : Cond}

section
variable (h : GensOK T D dl OK)
include h

theorem GensOK.evT {c : Cond} {l : List Nat} (hl : OK l) (he : D.ev c l = .rTrue) : Sat T (toMark l) c := by
  intro π hπ h0
  rw [h.ev] at he
  exact (evaluate_sound (h.dead l hl) c π hπ h0).1 he

theorem GensOK.evF {c : Cond} {l : List Nat} (hl : OK l) (he : D.ev c l = .rFalse) : ¬ Sat T (toMark l) c := by
  intro hs
  obtain ⟨π, hπ, h0⟩ := TS.exists_path T (toMark l)
  rw [h.ev] at he
  exact (evaluate_sound (h.dead l hl) c π hπ h0).2 he (hs π hπ h0)

theorem GensOK.next_all {f : Cond} {l : List Nat} (hl : OK l) : ∀ l' ∈ D.next f l, l' ∈ D.all l := by
  intro l' hm
  unfold Gens.next at hm
  split at hm
  · rename_i d
    split at hm
    · rename_i hpo
      simp only [Bool.and_eq_true, Bool.not_eq_true'] at hpo
      exact h.redSub hpo.1 d hpo.2 l hl l' hm
    · exact hm
  · exact hm

theorem GensOK.next_ok {f : Cond} {l : List Nat} (hl : OK l) {l' : List Nat} (hm : l' ∈ D.next f l) :
    OK l' ∧ T.step (toMark l) (toMark l') := h.succOK l hl l' (h.next_all hl l' hm)

theorem GensOK.af_ne (c : Cond) (l : List Nat) : D.ev (.AF c) l ≠ .rFalse := by
  rw [h.ev]
  simp only [evaluate]
  cases evaluate (dl l) (toMark l) c <;> simp [Res.onlyTrue]

theorem GensOK.ev_not {c : Cond} {l : List Nat} (he : D.ev (.not c) l = .rUnknown) : D.ev c l = .rUnknown := by
  rw [h.ev] at he ⊢
  simp only [evaluate] at he
  cases hr : evaluate (dl l) (toMark l) c with
  | rUnknown => rfl
  | rTrue => rw [hr] at he; cases he
  | rFalse => rw [hr] at he; cases he

theorem GensOK.ef_prog {c : Cond} {l : List Nat} (hl : OK l) {n : Nat}
    (h1 : Until T (fun _ => True) (fun x => Sat T x c) (n + 1) (toMark l))
    (h2 : ∀ k, k ≤ n → ¬ Until T (fun _ => True) (fun x => Sat T x c) k (toMark l)) :
    ∃ l' ∈ D.next (.EF c) l, Until T (fun _ => True) (fun x => Sat T x c) n (toMark l') := by
  simp only [Gens.next]
  split
  · rename_i hpo
    simp only [Bool.and_eq_true, Bool.not_eq_true'] at hpo
    exact h.redProg hpo.1 c hpo.2 l hl n h1 h2
  · obtain ⟨_, m', hs, hu⟩ := h1
    obtain ⟨l', hm, rfl⟩ := h.complete l hl m' hs
    exact ⟨l', hm, hu⟩
end

/-- The configurations the engine meets: the query itself is not a negation, and subformulas are looked
at only when evaluation does not settle them. -/
def RConf (D : Gens) (OK : List Nat → Prop) (φ : Cond) (v : Conf) : Prop :=
  OK v.1 ∧ ∃ f, subAt φ v.2 = some f ∧ (D.ev f v.1 = .rUnknown ∨ (v.2 = [] ∧ ∀ c, f ≠ .not c))

/-- The meaning of a configuration. -/
def VConf (T : TS) (φ : Cond) (v : Conf) : Prop := ∃ f, subAt φ v.2 = some f ∧ Sat T (toMark v.1) f

theorem vconf_iff {l pos : List Nat} {f : Cond} (hf : subAt φ pos = some f) :
    VConf T φ (l, pos) ↔ Sat T (toMark l) f := by
  constructor
  · rintro ⟨g, hg, hs⟩
    simp only at hg hs
    rw [hf] at hg; cases hg; exact hs
  · exact fun hs => ⟨f, hf, hs⟩

theorem sub_kid {pos : List Nat} {f c : Cond} {i : Nat} (hf : subAt φ pos = some f) (hc : (kids f)[i]? = some c) :
    subAt φ (pos ++ [i]) = some c := by
  rw [subAt_append, hf]; exact hc

theorem rconf_closed (h : GensOK T D dl OK) {v : Conf} (hv : RConf D OK φ v) :
    ∀ e ∈ (dg D φ).succ v, ∀ t ∈ e.targets, RConf D OK φ t := by
  intro e he t ht
  obtain ⟨hl, f, hf, hu⟩ := hv
  simp only [dg, hf] at he
  by_cases hN : ∃ c, f = .not c
  · obtain ⟨c, rfl⟩ := hN
    simp only [succOf, add_new (operand_ne v 0), Bool.false_eq_true, if_false, List.mem_singleton] at he
    subst he
    simp only [List.mem_singleton] at ht
    subst ht
    have hu' : D.ev (.not c) v.1 = .rUnknown := by
      rcases hu with hu | ⟨_, hu⟩
      · exact hu
      · exact absurd rfl (hu c)
    exact ⟨hl, c, sub_kid hf rfl, .inl (h.ev_not hu')⟩
  · cases (succOf_targets (D := D) (src := v) φ (fun c hc => hN ⟨c, hc⟩) e he).2 t ht with
    | here hk hu => exact ⟨hl, _, sub_kid hf hk, .inl hu⟩
    | next hm hu => exact ⟨(h.next_ok hl hm).1, f, hf, .inl hu⟩
    | nextKid hm hk hu => exact ⟨(h.next_ok hl hm).1, _, sub_kid hf hk, .inl hu⟩

/-- An operand is true or assumed as soon as it holds, if configurations that hold are assumed. -/
theorem opd_of_sat (h : GensOK T D dl OK) {P : Conf → Prop} {src : Conf} {f c : Cond} {i : Nat} (hl : OK src.1)
    (hf : subAt φ src.2 = some f) (hc : (kids f)[i]? = some c)
    (hP : ∀ l pos, subAt φ pos = some c → RConf D OK φ (l, pos) → Sat T (toMark l) c → P (l, pos))
    (hs : Sat T (toMark src.1) c) : Opd D P src c i := by
  cases hr : D.ev c src.1 with
  | rTrue => exact .inl hr
  | rFalse => exact absurd hs (h.evF hl hr)
  | rUnknown =>
    have hk := sub_kid hf hc
    exact .inr ⟨hr, hP _ _ hk ⟨hl, c, hk, .inl hr⟩ hs⟩

theorem sat_of_opd (h : GensOK T D dl OK) {src : Conf} {f c : Cond} {i : Nat} (hl : OK src.1)
    (hf : subAt φ src.2 = some f) (hc : (kids f)[i]? = some c) (hs : Opd D (VConf T φ) src c i) :
    Sat T (toMark src.1) c := by
  rcases hs with hs | ⟨_, hs⟩
  · exact h.evT hl hs
  · exact (vconf_iff (sub_kid hf hc)).1 hs

theorem self_not_allUntil {p q : Mark → Prop} {m : Mark} (h : AllUntil T p q m) (hq : ¬ q m) : ¬ T.step m m := by
  intro hs
  obtain ⟨i, h1, _⟩ := h (fun _ => m) (fun _ => .inl hs) rfl
  exact hq h1

/-- The edge over all successors, for a formula with the meaning of an until on all paths. -/
theorem allNext_of (h : GensOK T D dl OK) {P : Conf → Prop} {src : Conf} {f : Cond} (hl : OK src.1)
    (hn : D.next f src.1 = D.all src.1)
    (hd : ¬ T.Dead (toMark src.1)) (hself : ¬ T.step (toMark src.1) (toMark src.1))
    (hs : ∀ l', OK l' → T.step (toMark src.1) (toMark l') → Sat T (toMark l') f ∧
      (D.ev f l' = .rUnknown → P (l', src.2))) : AllNext D P src f := by
  refine ⟨?_, fun m hm => ?_⟩
  · intro he
    apply hd
    intro m' hs'
    obtain ⟨l', hm, _⟩ := h.complete _ hl m' hs'
    rw [← hn, he] at hm
    cases hm
  · obtain ⟨h1, h2⟩ := h.next_ok hl hm
    obtain ⟨h3, h4⟩ := hs m h1 h2
    refine ⟨fun hF => h.evF h1 hF h3, fun hu => ⟨?_, h4 hu⟩⟩
    intro he
    apply hself
    rw [show m = src.1 from congrArg Prod.fst he] at h2
    exact h2

theorem of_allNext (h : GensOK T D dl OK) {src : Conf} {f : Cond} (hl : OK src.1)
    (hf : subAt φ src.2 = some f) (hn : D.next f src.1 = D.all src.1) (ha : AllNext D (VConf T φ) src f) :
    ¬ T.Dead (toMark src.1) ∧ ∀ m', T.step (toMark src.1) m' → Sat T m' f := by
  obtain ⟨h1, h2⟩ := ha
  constructor
  · intro hd
    cases hx : D.next f src.1 with
    | nil => exact h1 hx
    | cons a as => exact hd _ (h.next_ok hl (f := f) (l' := a) (by rw [hx]; simp)).2
  · intro m' hs
    obtain ⟨l', hm, rfl⟩ := h.complete _ hl m' hs
    rw [← hn] at hm
    obtain ⟨h3, h4⟩ := h2 l' hm
    cases hr : D.ev f l' with
    | rTrue => exact h.evT (h.next_ok hl hm).1 hr
    | rFalse => exact absurd hr h3
    | rUnknown => exact (vconf_iff hf).1 (h4 hr).2

/-- The minimal number of steps. -/
theorem until_min {p q : Mark → Prop} {m : Mark} (h : ∃ n, Until T p q n m) :
    ∃ n, Until T p q n m ∧ ∀ k, k < n → ¬ Until T p q k m := by
  classical
  exact ⟨Nat.find h, Nat.find_spec h, fun k hk => Nat.find_min h hk⟩

/-- The meaning solves the equations of the graph. -/
theorem dg_fix (h : GensOK T D dl OK) (hφ : CtlF φ) {v : Conf} (hv : RConf D OK φ v) :
    VConf T φ v ↔ FiresL (VConf T φ) (VConf T φ) ((dg D φ).succ v) := by
  obtain ⟨hl, f, hf, hu⟩ := hv
  have hF := hφ.sub hf
  have hst : ∀ c ∈ kids f, c.isState = true := fun c hc => (hF.kidm hc).state
  obtain ⟨l, pos⟩ := v
  simp only at hl hf hu
  rw [vconf_iff hf]
  simp only [dg, hf]
  have heval : (∀ g, D.ev g l ≠ .rUnknown ∨ g ≠ f) → (Sat T (toMark l) f ↔
      FiresL (VConf T φ) (VConf T φ) (if D.ev φ l = .rTrue then [⟨false, []⟩] else [])) := by
    intro hdef
    have hdef' : D.ev f l ≠ .rUnknown := by
      rcases hdef f with hd | hd
      · exact hd
      · exact absurd rfl hd
    rcases hu with hu | ⟨hp, _⟩
    · exact absurd hu hdef'
    · subst hp
      cases hf
      cases hr : D.ev φ l with
      | rTrue => simp only [if_true, firesL_single]; simp [h.evT hl hr]
      | rFalse => simp only [reduceCtorEq, if_false, firesL_nil]; simp [h.evF hl hr]
      | rUnknown => exact absurd hr hdef'
  have hdefi : ∀ g, g.isTemporal = false → D.ev g l ≠ .rUnknown := by
    intro g hg; rw [h.ev]; exact evaluate_definite _ _ g hg
  cases f with
  | bool b => exact heval fun g => (em (g = _)).elim (fun e => .inl (hdefi g (by rw [e]; rfl))) .inr
  | dead => exact heval fun g => (em (g = _)).elim (fun e => .inl (hdefi g (by rw [e]; rfl))) .inr
  | cmp op a b => exact heval fun g => (em (g = _)).elim (fun e => .inl (hdefi g (by rw [e]; rfl))) .inr
  | cc cs n => exact heval fun g => (em (g = _)).elim (fun e => .inl (hdefi g (by rw [e]; rfl))) .inr
  | not c =>
    rw [fires_not, Sat_not (hst c (by simp [kids]))]
    exact not_congr (vconf_iff (sub_kid hf rfl)).symm
  | and cs =>
    rw [fires_and, Sat_and]
    constructor
    · intro hs
      refine ⟨fun c hc hx => h.evF hl hx (hs c hc), fun i c hi _ => ?_⟩
      exact (vconf_iff (sub_kid hf hi)).2 (hs c (List.mem_of_getElem? hi))
    · rintro ⟨h1, h2⟩ c hc
      obtain ⟨i, hi⟩ := List.mem_iff_getElem?.1 hc
      cases hr : D.ev c l with
      | rTrue => exact h.evT hl hr
      | rFalse => exact absurd hr (h1 c hc)
      | rUnknown => exact (vconf_iff (sub_kid hf hi)).1 (h2 i c hi hr)
  | or cs =>
    rw [fires_or, Sat_or (cs := cs) hst]
    constructor
    · rintro ⟨c, hc, hs⟩
      obtain ⟨i, hi⟩ := List.mem_iff_getElem?.1 hc
      cases hr : D.ev c l with
      | rTrue => exact .inl ⟨c, hc, hr⟩
      | rFalse => exact absurd hs (h.evF hl hr)
      | rUnknown => exact .inr ⟨i, c, hi, hr, (vconf_iff (sub_kid hf hi)).2 hs⟩
    · rintro (⟨c, hc, hr⟩ | ⟨i, c, hi, _, hs⟩)
      · exact ⟨c, hc, h.evT hl hr⟩
      · exact ⟨c, List.mem_of_getElem? hi, (vconf_iff (sub_kid hf hi)).1 hs⟩
  | EX c =>
    rw [fires_EX, Sat_EX (hst c (by simp [kids]))]
    constructor
    · rintro ⟨m', hs, hc⟩
      obtain ⟨l', hm, rfl⟩ := h.complete l hl m' hs
      refine ⟨l', hm, ?_⟩
      cases hr : D.ev c l' with
      | rTrue => exact .inl rfl
      | rFalse => exact absurd hc (h.evF (h.succOK l hl l' hm).1 hr)
      | rUnknown => exact .inr ⟨rfl, (vconf_iff (sub_kid hf rfl)).2 hc⟩
    · rintro ⟨l', hm, hs⟩
      obtain ⟨h1, h2⟩ := h.next_ok hl hm
      refine ⟨toMark l', h2, ?_⟩
      rcases hs with hs | ⟨_, hs⟩
      · exact h.evT h1 hs
      · exact (vconf_iff (sub_kid hf rfl)).1 hs
  | AX c =>
    rw [fires_AX, Sat_AX (hst c (by simp [kids]))]
    constructor
    · intro hs l' hm
      obtain ⟨h1, h2⟩ := h.next_ok hl hm
      exact ⟨fun hx => h.evF h1 hx (hs _ h2), fun _ => (vconf_iff (sub_kid hf rfl)).2 (hs _ h2)⟩
    · intro hs m' hm'
      obtain ⟨l', hm, rfl⟩ := h.complete l hl m' hm'
      obtain ⟨h1, h2⟩ := hs l' hm
      cases hr : D.ev c l' with
      | rTrue => exact h.evT (h.succOK l hl l' hm).1 hr
      | rFalse => exact absurd hr h1
      | rUnknown => exact (vconf_iff (sub_kid hf rfl)).1 (h2 hr)
  | AU c d =>
    have hc := hst c (by simp [kids])
    have hd := hst d (by simp [kids])
    rw [fires_AU, Sat_AU hc hd, allUntil_unfold]
    constructor
    · rintro (hs | ⟨h1, h2, h3⟩)
      · exact .inl (opd_of_sat h (c := d) (i := 1) hl hf rfl (fun l pos hk _ hs => (vconf_iff hk).2 hs) hs)
      · by_cases hsd : Sat T (toMark l) d
        · exact .inl (opd_of_sat h (c := d) (i := 1) hl hf rfl (fun l pos hk _ hs => (vconf_iff hk).2 hs) hsd)
        · refine .inr ⟨fun hx => hsd (h.evT hl hx), opd_of_sat h (c := c) (i := 0) hl hf rfl
            (fun l pos hk _ hs => (vconf_iff hk).2 hs) h1, ?_⟩
          refine allNext_of h hl rfl h2 ?_ fun l' _ hs => ?_
          · exact self_not_allUntil ((allUntil_unfold _).2 (.inr ⟨h1, h2, h3⟩)) hsd
          · have := (Sat_AU hc hd _).2 (h3 _ hs)
            exact ⟨this, fun _ => (vconf_iff hf).2 this⟩
    · rintro (hs | ⟨_, h1, h2⟩)
      · exact .inl (sat_of_opd h (i := 1) hl hf rfl hs)
      · obtain ⟨h3, h4⟩ := of_allNext h hl hf rfl h2
        exact .inr ⟨sat_of_opd h (i := 0) hl hf rfl h1, h3, fun m' hs => (Sat_AU hc hd _).1 (h4 m' hs)⟩
  | AF c =>
    have hc := hst c (by simp [kids])
    rw [fires_AF φ c (h.af_ne c), Sat_AF hc, allUntil_unfold]
    constructor
    · rintro (hs | ⟨h1, h2, h3⟩)
      · exact .inl (opd_of_sat h (c := c) (i := 0) hl hf rfl (fun l pos hk _ hs => (vconf_iff hk).2 hs) hs)
      · by_cases hsd : Sat T (toMark l) c
        · exact .inl (opd_of_sat h (c := c) (i := 0) hl hf rfl (fun l pos hk _ hs => (vconf_iff hk).2 hs) hsd)
        · refine .inr ⟨fun hx => hsd (h.evT hl hx), ?_⟩
          refine allNext_of h hl rfl h2 ?_ fun l' _ hs => ?_
          · exact self_not_allUntil ((allUntil_unfold _).2 (.inr ⟨h1, h2, h3⟩)) hsd
          · have := (Sat_AF hc _).2 (h3 _ hs)
            exact ⟨this, fun _ => (vconf_iff hf).2 this⟩
    · rintro (hs | ⟨_, h2⟩)
      · exact .inl (sat_of_opd h (i := 0) hl hf rfl hs)
      · obtain ⟨h3, h4⟩ := of_allNext h hl hf rfl h2
        exact .inr ⟨trivial, h3, fun m' hs => (Sat_AF hc _).1 (h4 m' hs)⟩
  | EF c =>
    have hc := hst c (by simp [kids])
    rw [fires_EF, Sat_EF hc]
    constructor
    · intro hs
      obtain ⟨n, h1, h2⟩ := until_min hs
      by_cases hsd : Sat T (toMark l) c
      · exact .inl (opd_of_sat h (c := c) (i := 0) hl hf rfl (fun l pos hk _ hs => (vconf_iff hk).2 hs) hsd)
      · cases n with
        | zero => exact absurd h1 hsd
        | succ n =>
          refine .inr ⟨fun hx => hsd (h.evT hl hx), ?_⟩
          obtain ⟨l', hm, hn⟩ := h.ef_prog hl h1 fun k hk => h2 k (by omega)
          obtain ⟨h3, _⟩ := h.next_ok hl hm
          have hs' := (Sat_EF hc _).2 ⟨n, hn⟩
          refine ⟨l', hm, ?_⟩
          cases hr : D.ev (.EF c) l' with
          | rTrue => exact .inl rfl
          | rFalse => exact absurd hs' (h.evF h3 hr)
          | rUnknown =>
            refine .inr ⟨rfl, fun he => ?_, (vconf_iff hf).2 hs'⟩
            rw [show l' = l from congrArg Prod.fst he] at hn
            exact h2 n (by omega) hn
    · rintro (hs | ⟨_, l', hm, hs⟩)
      · exact ⟨0, sat_of_opd h (i := 0) hl hf rfl hs⟩
      · obtain ⟨h1, h2⟩ := h.next_ok hl hm
        have hs' : Sat T (toMark l') (.EF c) := by
          rcases hs with hs | ⟨_, _, hs⟩
          · exact h.evT h1 hs
          · exact (vconf_iff hf).1 hs
        obtain ⟨n, hn⟩ := (Sat_EF hc _).1 hs'
        exact ⟨n + 1, trivial, _, h2, hn⟩
  | EU c d =>
    have hc := hst c (by simp [kids])
    have hd := hst d (by simp [kids])
    rw [fires_EU, Sat_EU hc hd]
    constructor
    · intro hs
      obtain ⟨n, h1, h2⟩ := until_min hs
      by_cases hsd : Sat T (toMark l) d
      · exact .inl (opd_of_sat h (c := d) (i := 1) hl hf rfl (fun l pos hk _ hs => (vconf_iff hk).2 hs) hsd)
      · cases n with
        | zero => exact absurd h1 hsd
        | succ n =>
          obtain ⟨hp, m', hstep, hn⟩ := h1
          refine .inr ⟨fun hx => hsd (h.evT hl hx), opd_of_sat h (c := c) (i := 0) hl hf rfl
            (fun l pos hk _ hs => (vconf_iff hk).2 hs) hp, ?_⟩
          obtain ⟨l', hm, rfl⟩ := h.complete l hl m' hstep
          have h3 := (h.succOK l hl l' hm).1
          have hs' := (Sat_EU hc hd _).2 ⟨n, hn⟩
          refine ⟨l', hm, ?_⟩
          cases hr : D.ev (.EU c d) l' with
          | rTrue => exact .inl rfl
          | rFalse => exact absurd hs' (h.evF h3 hr)
          | rUnknown =>
            refine .inr ⟨rfl, fun he => ?_, (vconf_iff hf).2 hs'⟩
            rw [show l' = l from congrArg Prod.fst he] at hn
            exact h2 n (by omega) hn
    · rintro (hs | ⟨_, ho, l', hm, hs⟩)
      · exact ⟨0, sat_of_opd h (i := 1) hl hf rfl hs⟩
      · obtain ⟨h1, h2⟩ := h.next_ok hl hm
        have hs' : Sat T (toMark l') (.EU c d) := by
          rcases hs with hs | ⟨_, _, hs⟩
          · exact h.evT h1 hs
          · exact (vconf_iff hf).1 hs
        obtain ⟨n, hn⟩ := (Sat_EU hc hd _).1 hs'
        exact ⟨n + 1, sat_of_opd h (i := 0) hl hf rfl ho, _, h2, hn⟩
  | EG c => exact absurd (hF [] _ rfl) (by simp [okHead])
  | AG c => exact absurd (hF [] _ rfl) (by simp [okHead])
  | E c => exact absurd (hF [] _ rfl) (by simp [okHead])
  | A c => exact absurd (hF [] _ rfl) (by simp [okHead])
  | X c => exact absurd (hF [] _ rfl) (by simp [okHead])
  | F c => exact absurd (hF [] _ rfl) (by simp [okHead])
  | G c => exact absurd (hF [] _ rfl) (by simp [okHead])
  | U c d => exact absurd (hF [] _ rfl) (by simp [okHead])

/-- The meaning is the least solution. -/
theorem dg_least (h : GensOK T D dl OK) (hφ : CtlF φ) {P : Conf → Prop}
    (hP : ∀ v, RConf D OK φ v → FiresL (VConf T φ) P ((dg D φ).succ v) → P v) (f : Cond) :
    ∀ l pos, subAt φ pos = some f → RConf D OK φ (l, pos) → Sat T (toMark l) f → P (l, pos) := by
  induction f using Cond.kids_ind with
  | h f ih =>
    intro l pos hf hv hs
    have hF := hφ.sub hf
    have hst : ∀ c ∈ kids f, c.isState = true := fun c hc => (hF.kidm hc).state
    have hl := hv.1
    simp only at hl
    have hfire : ∀ l, RConf D OK φ (l, pos) → FiresL (VConf T φ) P (succOf D φ (l, pos) f) → P (l, pos) := by
      intro l hv hx
      refine hP _ hv ?_
      simp only [dg, hf]; exact hx
    -- operands
    have hopd : ∀ (l : List Nat) (i : Nat) (c : Cond), OK l → (kids f)[i]? = some c → Sat T (toMark l) c →
        Opd D P (l, pos) c i := fun l i c hl hk hs =>
      opd_of_sat h (src := (l, pos)) hl hf hk (ih c (List.mem_of_getElem? hk)) hs
    have hkid : ∀ (l : List Nat) (i : Nat) (c : Cond), OK l → (kids f)[i]? = some c → Sat T (toMark l) c →
        D.ev c l = .rUnknown → P (l, pos ++ [i]) := by
      intro l i c hl hk hs hu
      have hk' := sub_kid hf hk
      exact ih c (List.mem_of_getElem? hk) l _ hk' ⟨hl, c, hk', .inl hu⟩ hs
    cases f with
    | bool b =>
      refine hP _ hv ?_
      have := (dg_fix h hφ hv).1 ((vconf_iff hf).2 hs)
      simp only [dg, hf, succOf] at this ⊢
      split at this
      · rename_i hx; rw [if_pos hx]; simp [firesL_single]
      · simp [firesL_nil] at this
    | dead =>
      refine hP _ hv ?_
      have := (dg_fix h hφ hv).1 ((vconf_iff hf).2 hs)
      simp only [dg, hf, succOf] at this ⊢
      split at this
      · rename_i hx; rw [if_pos hx]; simp [firesL_single]
      · simp [firesL_nil] at this
    | cmp op a b =>
      refine hP _ hv ?_
      have := (dg_fix h hφ hv).1 ((vconf_iff hf).2 hs)
      simp only [dg, hf, succOf] at this ⊢
      split at this
      · rename_i hx; rw [if_pos hx]; simp [firesL_single]
      · simp [firesL_nil] at this
    | cc cs n =>
      refine hP _ hv ?_
      have := (dg_fix h hφ hv).1 ((vconf_iff hf).2 hs)
      simp only [dg, hf, succOf] at this ⊢
      split at this
      · rename_i hx; rw [if_pos hx]; simp [firesL_single]
      · simp [firesL_nil] at this
    | not c =>
      refine hfire l hv ?_
      rw [fires_not]
      rw [Sat_not (hst c (by simp [kids]))] at hs
      exact fun hx => hs ((vconf_iff (sub_kid hf rfl)).1 hx)
    | and cs =>
      refine hfire l hv ?_
      rw [fires_and]
      rw [Sat_and] at hs
      exact ⟨fun c hc hx => h.evF hl hx (hs c hc),
        fun i c hi hu => hkid l i c hl hi (hs c (List.mem_of_getElem? hi)) hu⟩
    | or cs =>
      refine hfire l hv ?_
      rw [fires_or]
      rw [Sat_or (cs := cs) hst] at hs
      obtain ⟨c, hc, hs⟩ := hs
      obtain ⟨i, hi⟩ := List.mem_iff_getElem?.1 hc
      cases hr : D.ev c l with
      | rTrue => exact .inl ⟨c, hc, hr⟩
      | rFalse => exact absurd hs (h.evF hl hr)
      | rUnknown => exact .inr ⟨i, c, hi, hr, hkid l i c hl hi hs hr⟩
    | EX c =>
      refine hfire l hv ?_
      rw [fires_EX]
      rw [Sat_EX (hst c (by simp [kids]))] at hs
      obtain ⟨m', hs, hc⟩ := hs
      obtain ⟨l', hm, rfl⟩ := h.complete l hl m' hs
      have h1 := (h.succOK l hl l' hm).1
      refine ⟨l', hm, ?_⟩
      cases hr : D.ev c l' with
      | rTrue => exact .inl rfl
      | rFalse => exact absurd hc (h.evF h1 hr)
      | rUnknown => exact .inr ⟨rfl, hkid l' 0 c h1 rfl hc hr⟩
    | AX c =>
      refine hfire l hv ?_
      rw [fires_AX]
      rw [Sat_AX (hst c (by simp [kids]))] at hs
      intro l' hm
      obtain ⟨h1, h2⟩ := h.next_ok hl hm
      exact ⟨fun hx => h.evF h1 hx (hs _ h2), fun hu => hkid l' 0 c h1 rfl (hs _ h2) hu⟩
    | AU c d =>
      have hc := hst c (by simp [kids])
      have hd := hst d (by simp [kids])
      have key := allUntil_least (T := T) (p := fun x => Sat T x c) (q := fun x => Sat T x d)
        (R := fun m => ∃ l, OK l ∧ toMark l = m)
        (Q := fun m => ∀ l, OK l → toMark l = m → RConf D OK φ (l, pos) → P (l, pos)) (by
          rintro m m' ⟨l, hl, rfl⟩ hs
          obtain ⟨l', hm, rfl⟩ := h.complete l hl m' hs
          exact ⟨l', (h.succOK l hl l' hm).1, rfl⟩) (by
          rintro m - hA hor l hl rfl hv
          by_cases hsd : Sat T (toMark l) d
          · refine hfire l hv ?_
            rw [fires_AU]
            exact .inl (hopd l 1 d hl rfl hsd)
          · rcases hor with hor | ⟨h1, h2, h3⟩
            · exact absurd hor hsd
            · refine hfire l hv ?_
              rw [fires_AU]
              refine .inr ⟨fun hx => hsd (h.evT hl hx), hopd l 0 c hl rfl h1, ?_⟩
              refine allNext_of h hl rfl h2 (self_not_allUntil hA hsd) fun l' hl' hs => ⟨?_, fun hu => ?_⟩
              · rcases (allUntil_unfold _).1 hA with h4 | ⟨_, _, h4⟩
                · exact absurd h4 hsd
                · exact (Sat_AU hc hd _).2 (h4 _ hs)
              · exact h3 _ hs l' hl' rfl ⟨hl', _, hf, .inl hu⟩)
      exact key (toMark l) ⟨l, hl, rfl⟩ ((Sat_AU hc hd _).1 hs) l hl rfl hv
    | AF c =>
      have hc := hst c (by simp [kids])
      have key := allUntil_least (T := T) (p := fun _ => True) (q := fun x => Sat T x c)
        (R := fun m => ∃ l, OK l ∧ toMark l = m)
        (Q := fun m => ∀ l, OK l → toMark l = m → RConf D OK φ (l, pos) → P (l, pos)) (by
          rintro m m' ⟨l, hl, rfl⟩ hs
          obtain ⟨l', hm, rfl⟩ := h.complete l hl m' hs
          exact ⟨l', (h.succOK l hl l' hm).1, rfl⟩) (by
          rintro m - hA hor l hl rfl hv
          by_cases hsd : Sat T (toMark l) c
          · refine hfire l hv ?_
            rw [fires_AF φ c (h.af_ne c)]
            exact .inl (hopd l 0 c hl rfl hsd)
          · rcases hor with hor | ⟨h1, h2, h3⟩
            · exact absurd hor hsd
            · refine hfire l hv ?_
              rw [fires_AF φ c (h.af_ne c)]
              refine .inr ⟨fun hx => hsd (h.evT hl hx), ?_⟩
              refine allNext_of h hl rfl h2 (self_not_allUntil hA hsd) fun l' hl' hs => ⟨?_, fun hu => ?_⟩
              · rcases (allUntil_unfold _).1 hA with h4 | ⟨_, _, h4⟩
                · exact absurd h4 hsd
                · exact (Sat_AF hc _).2 (h4 _ hs)
              · exact h3 _ hs l' hl' rfl ⟨hl', _, hf, .inl hu⟩)
      exact key (toMark l) ⟨l, hl, rfl⟩ ((Sat_AF hc _).1 hs) l hl rfl hv
    | EF c =>
      have hc := hst c (by simp [kids])
      have key : ∀ n, ∀ l, OK l → RConf D OK φ (l, pos) →
          Until T (fun _ => True) (fun x => Sat T x c) n (toMark l) → P (l, pos) := by
        intro n
        induction n using Nat.strong_induction_on with
        | _ n ihn =>
          intro l hl hv hu
          by_cases hless : ∃ k, k < n ∧ Until T (fun _ => True) (fun x => Sat T x c) k (toMark l)
          · obtain ⟨k, hk, hx⟩ := hless
            exact ihn k hk l hl hv hx
          · refine hfire l hv ?_
            rw [fires_EF]
            cases n with
            | zero => exact .inl (hopd l 0 c hl rfl hu)
            | succ n =>
              have hsd : ¬ Sat T (toMark l) c := fun hx => hless ⟨0, by omega, hx⟩
              refine .inr ⟨fun hx => hsd (h.evT hl hx), ?_⟩
              obtain ⟨l', hm, hn⟩ := h.ef_prog hl hu fun k hk hx => hless ⟨k, by omega, hx⟩
              obtain ⟨h3, _⟩ := h.next_ok hl hm
              have hs' := (Sat_EF hc _).2 ⟨n, hn⟩
              refine ⟨l', hm, ?_⟩
              cases hr : D.ev (.EF c) l' with
              | rTrue => exact .inl rfl
              | rFalse => exact absurd hs' (h.evF h3 hr)
              | rUnknown =>
                refine .inr ⟨rfl, fun he => ?_, ihn n (by omega) l' h3 ⟨h3, _, hf, .inl hr⟩ hn⟩
                rw [show l' = l from congrArg Prod.fst he] at hn
                exact hless ⟨n, by omega, hn⟩
      obtain ⟨n, hn⟩ := (Sat_EF hc _).1 hs
      exact key n l hl hv hn
    | EU c d =>
      have hc := hst c (by simp [kids])
      have hd := hst d (by simp [kids])
      have key : ∀ n, ∀ l, OK l → RConf D OK φ (l, pos) →
          Until T (fun x => Sat T x c) (fun x => Sat T x d) n (toMark l) → P (l, pos) := by
        intro n
        induction n using Nat.strong_induction_on with
        | _ n ihn =>
          intro l hl hv hu
          by_cases hless : ∃ k, k < n ∧ Until T (fun x => Sat T x c) (fun x => Sat T x d) k (toMark l)
          · obtain ⟨k, hk, hx⟩ := hless
            exact ihn k hk l hl hv hx
          · refine hfire l hv ?_
            rw [fires_EU]
            cases n with
            | zero => exact .inl (hopd l 1 d hl rfl hu)
            | succ n =>
              have hsd : ¬ Sat T (toMark l) d := fun hx => hless ⟨0, by omega, hx⟩
              obtain ⟨hp, m', hstep, hn⟩ := hu
              refine .inr ⟨fun hx => hsd (h.evT hl hx), hopd l 0 c hl rfl hp, ?_⟩
              obtain ⟨l', hm, rfl⟩ := h.complete l hl m' hstep
              have h3 := (h.succOK l hl l' hm).1
              have hs' := (Sat_EU hc hd _).2 ⟨n, hn⟩
              refine ⟨l', hm, ?_⟩
              cases hr : D.ev (.EU c d) l' with
              | rTrue => exact .inl rfl
              | rFalse => exact absurd hs' (h.evF h3 hr)
              | rUnknown =>
                refine .inr ⟨rfl, fun he => ?_, ihn n (by omega) l' h3 ⟨h3, _, hf, .inl hr⟩ hn⟩
                rw [show l' = l from congrArg Prod.fst he] at hn
                exact hless ⟨n, by omega, hn⟩
      obtain ⟨n, hn⟩ := (Sat_EU hc hd _).1 hs
      exact key n l hl hv hn
    | EG c => exact absurd (hF [] _ rfl) (by simp [okHead])
    | AG c => exact absurd (hF [] _ rfl) (by simp [okHead])
    | E c => exact absurd (hF [] _ rfl) (by simp [okHead])
    | A c => exact absurd (hF [] _ rfl) (by simp [okHead])
    | X c => exact absurd (hF [] _ rfl) (by simp [okHead])
    | F c => exact absurd (hF [] _ rfl) (by simp [okHead])
    | G c => exact absurd (hF [] _ rfl) (by simp [okHead])
    | U c d => exact absurd (hF [] _ rfl) (by simp [okHead])

/-- The meaning is the solution of the graph, on the configurations met. -/
theorem dg_solutionOn (h : GensOK T D dl OK) (hφ : CtlF φ) :
    (dg D φ).SolutionOn (RConf D OK φ) (VConf T φ) where
  closed v hv := rconf_closed h hv
  fix v hv := dg_fix h hφ hv
  least P hP v hv hV := by
    obtain ⟨f, hf, hs⟩ := hV
    exact dg_least h hφ (fun v hv hx => hP v hv hx) f v.1 v.2 hf hv hs

end CTL
end Verif
