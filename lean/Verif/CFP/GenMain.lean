import Verif.CFP.WalkLemmas
import Verif.CPN.Sim

/-!
# The bindings the generator gives
-/

namespace Verif
namespace CFP

open CPN

variable {T : Types} {vty : Nat → Nat}

/-- The boxes of a variable in a map. -/
def boxesOf (m : VMap) (v : Nat) : IVec := (m.lookup v).getD []

/-- The values of the variables are in the boxes of the map. -/
def Within (m : VMap) (vs : List Nat) (ρ : Nat → Val) : Prop := ∀ v ∈ vs, IVec.Has (boxesOf m v) (ρ v)

/-- The map has tame boxes for the variables. -/
def Walkable (T : Types) (vty : Nat → Nat) (vs : List Nat) (m : VMap) : Prop :=
  ∀ v ∈ vs, T.dims (vty v) ≠ [] ∧ (m.lookup v).isSome = true ∧ IVec.In (T.dims (vty v)) (boxesOf m v) ∧ tame T (vty v) (boxesOf m v) = true

def rows (T : Types) (vty : Nat → Nat) (m : VMap) (vs : List Nat) : List (Nat × List Nat) := vs.map fun v => (v, walkOf T (vty v) (boxesOf m v))

def rowsB (T : Types) (vty : Nat → Nat) (maps : List VMap) (vs : List Nat) (k : Nat) : List Binding := allB (rows T vty (maps.getD k []) vs)

theorem rows_keys (m : VMap) (vs : List Nat) : (rows T vty m vs).map (·.1) = vs := by
  unfold rows
  rw [List.map_map]
  exact List.map_id' vs

theorem rows_walk {m : VMap} {vs : List Nat} (h : Walkable T vty vs m) :
    ∀ w ∈ rows T vty m vs, ∃ vec, m.lookup w.1 = some vec ∧ Walk T (vty w.1) vec w.2 := by
  intro w hw
  obtain ⟨v, hv, rfl⟩ := List.mem_map.1 hw
  obtain ⟨h0, h1, h2, h3⟩ := h v hv
  unfold boxesOf at h2 h3 ⊢
  cases hl : m.lookup v with
  | none => rw [hl] at h1; cases h1
  | some vec =>
    rw [hl] at h2 h3
    exact ⟨vec, rfl, walk_tame h0 h2 h3⟩

theorem keys_lookup : (b : Binding) → (vs : List Nat) → vs.Nodup → b.map (·.1) = vs → b = vs.map fun v => (v, (b.lookup v).getD 0)
  | [], [], _, _ => rfl
  | [], _ :: _, _, h => by cases h
  | _ :: _, [], _, h => by cases h
  | (u, i) :: b, v :: vs, hn, h => by
    rw [List.map_cons, List.cons.injEq] at h
    obtain ⟨h1, h2⟩ := h
    simp only at h1
    subst h1
    rw [List.nodup_cons] at hn
    rw [List.map_cons, List.lookup_cons, BEq.rfl]
    simp only [Option.getD_some]
    congr 1
    refine (keys_lookup b vs hn.2 h2).trans ?_
    apply List.map_congr_left
    intro v hv
    have : (v == u) = false := by
      simp only [beq_eq_false_iff_ne]
      rintro rfl
      exact hn.1 hv
    rw [List.lookup_cons, this]

theorem map_lookup (f : Nat → Nat) : (vs : List Nat) → {v : Nat} → v ∈ vs → (vs.map fun v => (v, f v)).lookup v = some (f v)
  | u :: vs, v, h => by
    rw [List.map_cons, List.lookup_cons]
    cases e : v == u with
    | true => rw [beq_iff_eq] at e; rw [e]
    | false =>
      rcases List.mem_cons.1 h with rfl | h
      · rw [BEq.rfl] at e; cases e
      · exact map_lookup f vs h

theorem rowsB_agree {maps : List VMap} {vs : List Nat} (hn : vs.Nodup) {k : Nat} (h : Walkable T vty vs (maps.getD k [])) {b : Binding} (hb : b ∈ rowsB T vty maps vs k) :
    b.map (·.1) = vs ∧ Agree T vty b (rho T vty b) vs := by
  obtain ⟨h1, h2⟩ := mem_allB _ (by rw [rows_keys]; exact hn) hb
  rw [rows_keys] at h1
  refine ⟨h1, fun v hv => ?_⟩
  obtain ⟨i, hi, hl⟩ := h2 (v, _) (List.mem_map.2 ⟨v, hv, rfl⟩)
  exact ⟨i, walkOf_lt (h v hv).2.2.1 i hi, hl, by unfold rho; rw [hl]; rfl⟩

theorem rowsB_has {maps : List VMap} {vs : List Nat} {k : Nat} {ρ : Nat → Val} (hv : ∀ v ∈ vs, ρ v ∈ T.values (vty v)) (h : Within (maps.getD k []) vs ρ) :
    ∃ b ∈ rowsB T vty maps vs k, Agree T vty b ρ vs := by
  refine ⟨vs.map fun v => (v, colorOf T (vty v) (ρ v)), ?_, fun v hm => ?_⟩
  · have := allB_has (fun v => colorOf T (vty v) (ρ v)) (rows T vty (maps.getD k []) vs) (fun w hw => by
      obtain ⟨v, hv', rfl⟩ := List.mem_map.1 hw
      exact walkOf_has (h v hv'))
    unfold rows at this
    rw [List.map_map] at this
    exact this
  · obtain ⟨h1, h2⟩ := colorOf_lt (values_fits (hv v hm))
    exact ⟨_, h1, map_lookup _ vs hm, h2.symm⟩

/-- The condition on the maps that `fix_runs` needs. -/
theorem rowsB_turns {maps : List VMap} {vs : List Nat} (hn : vs.Nodup) {k : Nat} (h : Walkable T vty vs (maps.getD k [])) :
    ∃ b bs, rowsB T vty maps vs k = b :: bs ∧ b.map (·.1) = vs ∧ firstG T vty (maps.getD k []) vs = some b ∧
      startG T vty (maps.getD k []) vs = some (some b) ∧ Turns (bumpG T vty (maps.getD k [])) b b bs := by
  obtain ⟨b, bs, h1, h2, h3, h4⟩ := walk_all (rows T vty (maps.getD k []) vs) (rows_walk h)
  rw [rows_keys] at h2 h3
  have hb : b ∈ rowsB T vty maps vs k := by
    unfold rowsB
    rw [h1]
    exact List.mem_cons_self
  exact ⟨b, bs, h1, (rowsB_agree hn h hb).1, h2, h3, h4⟩

/-- All bindings of the maps, one map after the other. -/
theorem fix_spec (w : T.WF) {t : CTrans} (hg : ∀ g ∈ t.guard, GuardTy T vty g) {maps : List VMap} (hne : maps ≠ []) (hm : ∀ m ∈ maps, Walkable T vty t.vars m) (fuel : Nat) :
    (fuel < (fromMap (rowsB T vty maps t.vars) maps.length 0).length ∧ fixBindings T vty maps fuel t = none) ∨
    fixBindings T vty maps fuel t =
      some (((List.range maps.length).map fun k => (rowsB T vty maps t.vars k).filter fun b => guardEval T vty b t.guard == some true).flatten) := by
  have hk : ∀ k < maps.length, Walkable T vty t.vars (maps.getD k []) := by
    intro k hk
    apply hm
    rw [List.getD_eq_getElem?_getD, List.getElem?_eq_getElem hk]
    exact List.getElem_mem hk
  have := fix_runs (T := T) (vty := vty) (t := t) (A := rowsB T vty maps t.vars) hne (fun k h => rowsB_turns (vars_nodup t) (hk k h)) (fun k h b hb => by
    obtain ⟨r, h1, _⟩ := guardEval_ok w t.guard hg ((rowsB_agree (vars_nodup t) (hk k h) hb).2.mono (guardVars_sub t))
    exact ⟨r, h1⟩) fuel
  rcases this with h | h
  · exact Or.inl h
  · right
    rw [h]
    congr 1
    unfold fromMap
    rw [List.map_flatten, List.filter_flatten, List.map_map, List.map_map, Nat.sub_zero, List.range_eq_range']
    congr 1
    apply List.map_congr_left
    intro k _
    simp only [Function.comp_apply, List.map_map]
    congr 1
    exact List.map_id' _

/-! ### Plain types -/

/-- Boxes of one dimension without common values. -/
def Apart (vec : IVec) : Prop := vec.Pairwise fun i j => i.meets j = false

theorem one_dim {ty : Nat} (hp : T.parts ty = none) {i : Interval} (h : Interval.In (T.dims ty) i) : ∃ lo hi, i = [⟨lo, hi⟩] ∧ lo ≤ hi ∧ hi < T.basic ty := by
  unfold Types.dims at h
  rw [hp] at h
  match i, h with
  | [⟨lo, hi⟩], h => exact ⟨lo, hi, rfl, h.1⟩
  | [], h => exact h.elim
  | _ :: _ :: _, h => exact h.2.elim

theorem colorOf_one {ty : Nat} (hp : T.parts ty = none) (a : Nat) : colorOf T ty [a] = a := by
  unfold colorOf Types.dims
  rw [hp]
  simp [enc]

theorem apart_all {vec : IVec} (h : Apart vec) : ∀ i ∈ vec, ∀ j ∈ vec, i = j ∨ (i.meets j = false ∧ j.meets i = false) := by
  induction vec with
  | nil => exact fun i hi => nomatch hi
  | cons a vec ih =>
    unfold Apart at h
    rw [List.pairwise_cons] at h
    have sym : ∀ i j : Interval, i.meets j = j.meets i := by
      intro i
      induction i with
      | nil => intro j; cases j <;> rfl
      | cons r i ih =>
        intro j
        cases j with
        | nil => rfl
        | cons s j =>
          rw [Interval.meets, Interval.meets, ih j]
          unfold Rng.meets
          rw [Bool.and_comm (decide (r.lo ≤ s.hi))]
    intro i hi j hj
    rcases List.mem_cons.1 hi with rfl | hi'
    · rcases List.mem_cons.1 hj with rfl | hj
      · exact Or.inl rfl
      · exact Or.inr ⟨h.1 j hj, by rw [sym]; exact h.1 j hj⟩
    · rcases List.mem_cons.1 hj with rfl | hj
      · exact Or.inr ⟨by rw [sym]; exact h.1 i hi', h.1 i hi'⟩
      · exact ih h.2 i hi' j hj

theorem meets_one {a b c d : Nat} (h : Interval.meets [⟨a, b⟩] [⟨c, d⟩] = false) : ¬ (a ≤ d ∧ c ≤ b) := by
  unfold Interval.meets Interval.meets Rng.meets at h
  simpa using h

theorem apart_tame {ty : Nat} (hp : T.parts ty = none) {vec : IVec} (hin : IVec.In (T.dims ty) vec) (hne : vec ≠ []) (h : Apart vec) : tame T ty vec = true := by
  unfold tame
  rw [Bool.and_eq_true, Bool.and_eq_true]
  refine ⟨⟨?_, decide_eq_true ?_⟩, List.all_eq_true.2 fun i hi => List.all_eq_true.2 fun j hj => ?_⟩
  · cases vec with
    | nil => exact absurd rfl hne
    | cons => rfl
  · unfold List.Nodup
    rw [List.pairwise_map]
    refine List.Pairwise.imp_of_mem ?_ h
    intro i j hi hj hm e
    obtain ⟨a, b, rfl, h1, h2⟩ := one_dim hp (hin i hi)
    obtain ⟨c, d, rfl, h3, h4⟩ := one_dim hp (hin j hj)
    have := meets_one hm
    simp only [List.map_cons, List.map_nil, colorOf_one hp] at e
    omega
  · obtain ⟨a, b, rfl, h1, h2⟩ := one_dim hp (hin i hi)
    obtain ⟨c, d, rfl, h3, h4⟩ := one_dim hp (hin j hj)
    unfold Interval.lowerIds
    simp only [List.map_cons, List.map_nil, colorOf_one hp, Bool.not_eq_true', Bool.and_eq_false_iff, decide_eq_false_iff_not]
    rcases apart_all h _ hi _ hj with e | ⟨e, _⟩
    · cases e; omega
    · have := meets_one e
      omega

theorem walkOf_plain {ty : Nat} (hp : T.parts ty = none) {vec : IVec} (hin : IVec.In (T.dims ty) vec) (a : Nat) : a ∈ walkOf T ty vec ↔ IVec.Has vec [a] := by
  constructor
  · intro ha
    obtain ⟨l, h1, h2⟩ := List.mem_flatten.1 ha
    obtain ⟨i, hi, rfl⟩ := List.mem_map.1 h1
    refine ⟨i, hi, ?_⟩
    obtain ⟨c, d, rfl, h3, h4⟩ := one_dim hp (hin i hi)
    unfold Interval.lowerIds at h2
    simp only [List.map_cons, List.map_nil, colorOf_one hp] at h2
    have := List.mem_range'_1.1 h2
    exact ⟨⟨by simp only; omega, by simp only; omega⟩, trivial⟩
  · intro h
    have := walkOf_has (T := T) (ty := ty) h
    rwa [colorOf_one hp] at this

theorem walkOf_nodup {ty : Nat} (hp : T.parts ty = none) {vec : IVec} (hin : IVec.In (T.dims ty) vec) (h : Apart vec) : (walkOf T ty vec).Nodup := by
  unfold walkOf
  rw [List.nodup_flatten]
  refine ⟨fun l hl => ?_, ?_⟩
  · obtain ⟨i, _, rfl⟩ := List.mem_map.1 hl
    exact List.nodup_range'
  · rw [List.pairwise_map]
    refine List.Pairwise.imp_of_mem ?_ h
    intro i j hi hj hm x hx hy
    obtain ⟨a, b, rfl, h1, h2⟩ := one_dim hp (hin i hi)
    obtain ⟨c, d, rfl, h3, h4⟩ := one_dim hp (hin j hj)
    have := meets_one hm
    unfold Interval.lowerIds at hx hy
    simp only [List.map_cons, List.map_nil, colorOf_one hp] at hx hy
    have := List.mem_range'_1.1 hx
    have := List.mem_range'_1.1 hy
    omega

/-- A binding of plain variables is in the rows of a map exactly if the values are in its boxes. -/
theorem rowsB_plain {maps : List VMap} {vs : List Nat} (hn : vs.Nodup) {k : Nat} (hp : ∀ v ∈ vs, T.parts (vty v) = none)
    (hin : ∀ v ∈ vs, IVec.In (T.dims (vty v)) (boxesOf (maps.getD k []) v)) {b : Binding} (hb : b ∈ rowsB T vty maps vs k) {ρ : Nat → Val} (ha : Agree T vty b ρ vs) :
    Within (maps.getD k []) vs ρ := by
  obtain ⟨_, h2⟩ := mem_allB _ (by rw [rows_keys]; exact hn) hb
  intro v hv
  obtain ⟨i, hi, hl⟩ := h2 (v, _) (List.mem_map.2 ⟨v, hv, rfl⟩)
  obtain ⟨j, hj, hl', hr⟩ := ha v hv
  simp only at hl hi
  rw [hl] at hl'
  cases hl'
  rw [hr, value_plain T (hp v hv) hj]
  exact (walkOf_plain (hp v hv) (hin v hv) i).1 hi

/-- Two bindings with the same keys that agree with an assignment are the same. -/
theorem agree_same {vs : List Nat} (hn : vs.Nodup) {b c : Binding} (hb : b.map (·.1) = vs) (hc : c.map (·.1) = vs) {ρ : Nat → Val} (h1 : Agree T vty b ρ vs)
    (h2 : Agree T vty c ρ vs) : b = c := by
  rw [keys_lookup b vs hn hb, keys_lookup c vs hn hc]
  apply List.map_congr_left
  intro v hv
  obtain ⟨i, hi, e1, r1⟩ := h1 v hv
  obtain ⟨j, hj, e2, r2⟩ := h2 v hv
  rw [e1, e2, value_inj T hi hj (r1.symm.trans r2)]

end CFP
end Verif
