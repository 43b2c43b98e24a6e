import Verif.CFP.GenMain

/-!
# C67: the bindings generated from the maps of the colour fixed point

`FixpointBindingGenerator` goes through the boxes of the variables, one map after the other, and gives the bindings that satisfy the
guard.
-/

namespace Verif
namespace CFP

open CPN

variable {T : Types} {vty : Nat → Nat}

/-- The maps have boxes in the types for all variables. -/
def Filled (T : Types) (vty : Nat → Nat) (vs : List Nat) (m : VMap) : Prop :=
  ∀ v ∈ vs, T.dims (vty v) ≠ [] ∧ (m.lookup v).isSome = true ∧ IVec.In (T.dims (vty v)) (boxesOf m v) ∧ boxesOf m v ≠ []

/-- The full claim: the generator ends, it gives only bindings that satisfy the guard, and it gives those that are in one of the maps. -/
def C67_full : Prop := ∀ (T : Types) (vty : Nat → Nat) (maps : List VMap) (t : CTrans), T.WF → (∀ g ∈ t.guard, GuardTy T vty g) →
  maps ≠ [] → (∀ m ∈ maps, Filled T vty t.vars m) →
  ∃ fuel bs, fixBindings T vty maps fuel t = some bs ∧
    (∀ b ∈ bs, ∀ ρ, Agree T vty b ρ t.vars → guardHolds T vty ρ t.guard) ∧
    ∀ ρ, (∀ v ∈ t.vars, ρ v ∈ T.values (vty v)) → guardHolds T vty ρ t.guard → (∃ m ∈ maps, Within m t.vars ρ) → ∃ b ∈ bs, Agree T vty b ρ t.vars

theorem maps_get {maps : List VMap} {m : VMap} (h : m ∈ maps) : ∃ k < maps.length, maps.getD k [] = m := by
  obtain ⟨k, hk, e⟩ := List.mem_iff_getElem.1 h
  exact ⟨k, hk, by rw [List.getD_eq_getElem?_getD, List.getElem?_eq_getElem hk, e]; rfl⟩

theorem get_maps {maps : List VMap} {k : Nat} (hk : k < maps.length) : maps.getD k [] ∈ maps := by
  rw [List.getD_eq_getElem?_getD, List.getElem?_eq_getElem hk]
  exact List.getElem_mem hk

/-- **C67 (partial).**  If the boxes of the variables are tame (no upper corner of a box is passed on the way from the lower to the upper
corner of a box), the generator ends, gives only bindings that satisfy the guard, and gives all those in one of the maps. -/
theorem C67_generator_complete_partial (w : T.WF) {t : CTrans} (hg : ∀ g ∈ t.guard, GuardTy T vty g) {maps : List VMap} (hne : maps ≠ [])
    (hm : ∀ m ∈ maps, Walkable T vty t.vars m) :
    (∃ fuel0, ∀ fuel, fuel0 ≤ fuel → ∃ bs, fixBindings T vty maps fuel t = some bs) ∧
    ∀ fuel bs, fixBindings T vty maps fuel t = some bs →
      (∀ b ∈ bs, ∃ ρ, Agree T vty b ρ t.vars) ∧
      (∀ b ∈ bs, ∀ ρ, Agree T vty b ρ t.vars → guardHolds T vty ρ t.guard) ∧
      ∀ ρ, (∀ v ∈ t.vars, ρ v ∈ T.values (vty v)) → guardHolds T vty ρ t.guard → (∃ m ∈ maps, Within m t.vars ρ) → ∃ b ∈ bs, Agree T vty b ρ t.vars := by
  refine ⟨⟨(fromMap (rowsB T vty maps t.vars) maps.length 0).length, fun fuel hf => ?_⟩, fun fuel bs hbs => ?_⟩
  · rcases fix_spec w hg hne hm fuel with ⟨h, _⟩ | h
    · exact absurd hf (Nat.not_le.2 h)
    · exact ⟨_, h⟩
  · rcases fix_spec w hg hne hm fuel with ⟨_, h⟩ | h
    · rw [h] at hbs; cases hbs
    · rw [h] at hbs
      cases hbs
      have hmem : ∀ b, b ∈ (List.map (fun k => List.filter (fun b => guardEval T vty b t.guard == some true) (rowsB T vty maps t.vars k)) (List.range maps.length)).flatten ↔
          ∃ k < maps.length, b ∈ rowsB T vty maps t.vars k ∧ guardEval T vty b t.guard = some true := by
        intro b
        constructor
        · intro hb
          obtain ⟨l, h1, h2⟩ := List.mem_flatten.1 hb
          obtain ⟨k, hk, rfl⟩ := List.mem_map.1 h1
          obtain ⟨h3, h4⟩ := List.mem_filter.1 h2
          exact ⟨k, List.mem_range.1 hk, h3, by simpa using h4⟩
        · rintro ⟨k, hk, h1, h2⟩
          exact List.mem_flatten.2 ⟨_, List.mem_map.2 ⟨k, List.mem_range.2 hk, rfl⟩, List.mem_filter.2 ⟨h1, by rw [h2]; rfl⟩⟩
      refine ⟨fun b hb => ?_, fun b hb ρ ha => ?_, fun ρ hv hgd hw => ?_⟩
      · obtain ⟨k, hk, h1, _⟩ := (hmem b).1 hb
        exact ⟨_, (rowsB_agree (vars_nodup t) (hm _ (get_maps hk)) h1).2⟩
      · obtain ⟨k, hk, h1, h2⟩ := (hmem b).1 hb
        obtain ⟨r, h3, h4⟩ := guardEval_ok w t.guard hg (ha.mono (guardVars_sub t))
        rw [h2] at h3
        exact h4.1 (Option.some.inj h3).symm
      · obtain ⟨m, hmm, hw⟩ := hw
        obtain ⟨k, hk, rfl⟩ := maps_get hmm
        obtain ⟨b, hb, ha⟩ := rowsB_has (T := T) (vty := vty) hv hw
        obtain ⟨r, h3, h4⟩ := guardEval_ok w t.guard hg (ha.mono (guardVars_sub t))
        exact ⟨b, (hmem b).2 ⟨k, hk, hb, by rw [h3, h4.2 hgd]⟩, ha⟩

/-- **C67 (partial, plain types).**  If the variables are of plain types and the boxes of each variable in each map have no common
colours, then each map contributes exactly the bindings in it that satisfy the guard, each of them once. -/
theorem C67_generator_exact_partial (w : T.WF) {t : CTrans} (hg : ∀ g ∈ t.guard, GuardTy T vty g) {maps : List VMap} (hne : maps ≠ [])
    (hm : ∀ m ∈ maps, Filled T vty t.vars m) (hp : ∀ v ∈ t.vars, T.parts (vty v) = none) (hd : ∀ m ∈ maps, ∀ v ∈ t.vars, Apart (boxesOf m v)) :
    (∃ fuel0, ∀ fuel, fuel0 ≤ fuel → ∃ bs, fixBindings T vty maps fuel t = some bs) ∧
    ∀ fuel bs, fixBindings T vty maps fuel t = some bs →
      ∃ Ls : List (List Binding), bs = Ls.flatten ∧ Ls.length = maps.length ∧ ∀ (k : Nat) (m : VMap) (L : List Binding), maps[k]? = some m → Ls[k]? = some L →
        (∀ b ∈ L, ∃ ρ, Agree T vty b ρ t.vars) ∧
        (∀ ρ, (∀ v ∈ t.vars, ρ v ∈ T.values (vty v)) →
          ((∃ b ∈ L, Agree T vty b ρ t.vars) ↔ guardHolds T vty ρ t.guard ∧ Within m t.vars ρ)) ∧
        ∀ ρ (i j : Nat) (b c : Binding), L[i]? = some b → L[j]? = some c → Agree T vty b ρ t.vars → Agree T vty c ρ t.vars → i = j := by
  have hwalk : ∀ m ∈ maps, Walkable T vty t.vars m := fun m hmm v hv => by
    obtain ⟨h1, h2, h3, h4⟩ := hm m hmm v hv
    exact ⟨h1, h2, h3, apart_tame (hp v hv) h3 h4 (hd m hmm v hv)⟩
  refine ⟨(C67_generator_complete_partial w hg hne hwalk).1, fun fuel bs hbs => ?_⟩
  rcases fix_spec w hg hne hwalk fuel with ⟨_, h⟩ | h
  · rw [h] at hbs; cases hbs
  · rw [h] at hbs
    cases hbs
    refine ⟨_, rfl, by rw [List.length_map, List.length_range], fun k m L hkm hkL => ?_⟩
    have hk : k < maps.length := (List.getElem?_eq_some_iff.1 hkm).1
    have hme : maps.getD k [] = m := by rw [List.getD_eq_getElem?_getD, hkm]; rfl
    rw [List.getElem?_map, List.getElem?_range hk] at hkL
    simp only [Option.map_some, Option.some.injEq] at hkL
    have hin : ∀ v ∈ t.vars, IVec.In (T.dims (vty v)) (boxesOf (maps.getD k []) v) := fun v hv => (hm _ (get_maps hk) v hv).2.2.1
    have hnd : L.Nodup := by
      rw [← hkL]
      refine (allB_nodup _ fun q hq => ?_).filter _
      obtain ⟨v, hv, rfl⟩ := List.mem_map.1 hq
      exact walkOf_nodup (hp v hv) (hin v hv) (hd _ (get_maps hk) v hv)
    have hmem : ∀ b, b ∈ L ↔ b ∈ rowsB T vty maps t.vars k ∧ guardEval T vty b t.guard = some true := by
      intro b
      rw [← hkL, List.mem_filter]
      simp
    have hag : ∀ b ∈ L, b.map (·.1) = t.vars ∧ Agree T vty b (rho T vty b) t.vars := fun b hb =>
      rowsB_agree (vars_nodup t) (hwalk _ (get_maps hk)) ((hmem b).1 hb).1
    refine ⟨fun b hb => ⟨_, (hag b hb).2⟩, fun ρ hv => ⟨?_, ?_⟩, fun ρ i j b c hb hc hab hac => ?_⟩
    · rintro ⟨b, hb, ha⟩
      obtain ⟨h1, h2⟩ := (hmem b).1 hb
      obtain ⟨r, h3, h4⟩ := guardEval_ok w t.guard hg (ha.mono (guardVars_sub t))
      rw [h2] at h3
      exact ⟨h4.1 (Option.some.inj h3).symm, hme ▸ rowsB_plain (vars_nodup t) hp hin h1 ha⟩
    · rintro ⟨hgd, hw⟩
      obtain ⟨b, hb, ha⟩ := rowsB_has (T := T) (vty := vty) (maps := maps) (k := k) hv (hme ▸ hw)
      obtain ⟨r, h3, h4⟩ := guardEval_ok w t.guard hg (ha.mono (guardVars_sub t))
      exact ⟨b, (hmem b).2 ⟨hb, by rw [h3, h4.2 hgd]⟩, ha⟩
    · have e : b = c := agree_same (vars_nodup t) (hag b (List.mem_of_getElem? hb)).1 (hag c (List.mem_of_getElem? hc)).1 hab hac
      subst e
      exact (List.getElem?_inj (List.getElem?_eq_some_iff.1 hb).1 hnd).1 (hb.trans hc.symm)

/-- **C67 (no variables).**  A transition without variables gets its empty binding, at least once, exactly if its guard holds. -/
theorem C67_generator_no_variables (w : T.WF) {t : CTrans} (hg : ∀ g ∈ t.guard, GuardTy T vty g) (hv : t.vars = []) (maps : List VMap) :
    ∃ fuel0, ∀ fuel, fuel0 ≤ fuel → ∃ bs, fixBindings T vty maps fuel t = some bs ∧ (∀ b ∈ bs, b = []) ∧
      ∀ ρ, bs ≠ [] ↔ guardHolds T vty ρ t.guard := by
  have hgv : ∀ ρ : Nat → Val, Agree T vty [] ρ (guardVars t.guard) := fun ρ v h => by
    have := guardVars_sub t v h
    rw [hv] at this
    cases this
  obtain ⟨r, hr, hr0⟩ := guardEval_ok w t.guard hg (hgv fun _ => [])
  have hrr : ∀ ρ, r = true ↔ guardHolds T vty ρ t.guard := by
    intro ρ
    obtain ⟨r', h1, h2⟩ := guardEval_ok w t.guard hg (hgv ρ)
    rw [hr] at h1
    cases h1
    exact h2
  cases hm : maps with
  | nil =>
    refine ⟨1, fun fuel hf => ?_⟩
    obtain ⟨n, rfl⟩ : ∃ n, fuel = n + 1 := ⟨fuel - 1, by omega⟩
    unfold fixBindings
    rw [hv]
    simp only [List.isEmpty_nil, Bool.not_true, Bool.false_and, Bool.false_eq_true, if_false, startG, hr]
    have hnx : nextG T vty [] t.guard (n + 1) (0, []) = some none := rfl
    cases r with
    | true =>
      refine ⟨[[]], ?_, fun b hb => List.mem_singleton.1 hb, fun ρ => ⟨fun _ => (hrr ρ).1 rfl, fun _ => by simp⟩⟩
      simp only
      rw [iterG, hnx]
    | false =>
      refine ⟨[], ?_, fun b hb => (nomatch hb), fun ρ => ⟨fun h => absurd rfl h, fun h => Bool.noConfusion ((hrr ρ).2 h)⟩⟩
      simp only
      rw [hnx]
  | cons m ms =>
    rw [← hm]
    have hne : maps ≠ [] := by rw [hm]; simp
    obtain ⟨⟨f0, h1⟩, h2⟩ := C67_generator_complete_partial (vty := vty) w hg hne (fun m _ v hv' => by rw [hv] at hv'; cases hv')
    refine ⟨f0, fun fuel hf => ?_⟩
    obtain ⟨bs, hbs⟩ := h1 fuel hf
    obtain ⟨h3, h4, h5⟩ := h2 fuel bs hbs
    refine ⟨bs, hbs, ?_, fun ρ => ⟨fun hb => ?_, fun h => ?_⟩⟩
    · rcases fix_spec (vty := vty) w hg hne (fun m _ v hv' => by rw [hv] at hv'; cases hv') fuel with ⟨_, h⟩ | h
      · rw [h] at hbs; cases hbs
      · rw [h] at hbs
        cases hbs
        intro b hb
        obtain ⟨l, g1, g2⟩ := List.mem_flatten.1 hb
        obtain ⟨k, hk, rfl⟩ := List.mem_map.1 g1
        have := (List.mem_filter.1 g2).1
        unfold rowsB rows at this
        rw [hv, List.map_nil, allB, List.mem_singleton] at this
        exact this
    · obtain ⟨b, hb'⟩ := List.exists_mem_of_ne_nil _ hb
      exact h4 b hb' ρ fun v hv' => by rw [hv] at hv'; cases hv'
    · obtain ⟨b, hb, _⟩ := h5 ρ (fun v hv' => by rw [hv] at hv'; cases hv') h ⟨m, by rw [hm]; exact List.mem_cons_self, fun v hv' => by rw [hv] at hv'; cases hv'⟩
      exact List.ne_nil_of_mem hb

/-! ### Examples -/

/-- type 0 has one colour, type 1 eight, type 2 four, type 3 pairs of type 2 -/
def gT : Types := ⟨fun ty => if ty = 0 then 1 else if ty = 1 then 8 else 4, [(3, [2, 2])]⟩

theorem gWF : gT.WF := ⟨by decide, by decide, by decide⟩

/-- x and y of type 1, x < y -/
def gLess : CTrans := ⟨"t", some (.lt (.var 0) (.var 1)), [⟨0, .num 1 [.var 0]⟩], [⟨0, .num 1 [.var 1]⟩]⟩
/-- two maps: x in {1, 2, 6}, y in {2, 3}; x in {0}, y in {0, 5} -/
def gMaps : List VMap := [[(0, [[⟨1, 2⟩], [⟨6, 6⟩]]), (1, [[⟨2, 3⟩]])], [(0, [[⟨0, 0⟩]]), (1, [[⟨0, 0⟩], [⟨5, 5⟩]])]]

/-- The generator at work. -/
example : fixBindings gT (fun _ => 1) gMaps 20 gLess = some [[(0, 1), (1, 2)], [(0, 1), (1, 3)], [(0, 2), (1, 3)], [(0, 0), (1, 5)]] := by decide +kernel

/-- The hypotheses of the theorems are met. -/
example : (∀ g ∈ gLess.guard, GuardTy gT (fun _ => 1) g) ∧ gMaps ≠ [] ∧ (∀ m ∈ gMaps, Filled gT (fun _ => 1) gLess.vars m) ∧
    (∀ v ∈ gLess.vars, gT.parts 1 = none) ∧ ∀ m ∈ gMaps, ∀ v ∈ gLess.vars, Apart (boxesOf m v) := by
  have hv : gLess.vars = [0, 1] := by decide
  refine ⟨?_, by decide, ?_, fun _ _ => by decide, ?_⟩
  · intro g h
    cases h
    exact ⟨1, by decide, rfl, rfl⟩
  · rw [hv]
    refine List.forall_mem_cons.2 ⟨?_, List.forall_mem_cons.2 ⟨?_, fun m h => nomatch h⟩⟩ <;>
      refine List.forall_mem_cons.2 ⟨?_, List.forall_mem_cons.2 ⟨?_, fun m h => nomatch h⟩⟩ <;>
      refine ⟨by decide, by decide, ?_, by decide⟩
    · exact List.forall_mem_cons.2 ⟨⟨⟨by decide, by decide⟩, trivial⟩, List.forall_mem_cons.2 ⟨⟨⟨by decide, by decide⟩, trivial⟩, fun m h => nomatch h⟩⟩
    · exact List.forall_mem_cons.2 ⟨⟨⟨by decide, by decide⟩, trivial⟩, fun m h => nomatch h⟩
    · exact List.forall_mem_cons.2 ⟨⟨⟨by decide, by decide⟩, trivial⟩, fun m h => nomatch h⟩
    · exact List.forall_mem_cons.2 ⟨⟨⟨by decide, by decide⟩, trivial⟩, List.forall_mem_cons.2 ⟨⟨⟨by decide, by decide⟩, trivial⟩, fun m h => nomatch h⟩⟩
  · rw [hv]
    unfold Apart
    decide

/-! ### Findings -/

/-- x a pair -/
def gPair : CTrans := ⟨"t", none, [⟨0, .num 1 [.var 0]⟩], [⟨0, .num 1 [.var 0]⟩]⟩
/-- x in {0, 1} × {0, 1} or x = (3, 0) -/
def gBoxes : List VMap := [[(0, [[⟨0, 1⟩, ⟨0, 1⟩], [⟨3, 3⟩, ⟨0, 0⟩]])]]

/-- One box of a product type is fine: colours beside it are tried, too, which does no harm. -/
example : tame gT 3 [[⟨0, 1⟩, ⟨0, 1⟩]] = true ∧
    fixBindings gT (fun _ => 3) [[(0, [[⟨0, 1⟩, ⟨0, 1⟩]])]] 40 gPair = some [[(0, 0)], [(0, 1)], [(0, 2)], [(0, 3)], [(0, 4)], [(0, 5)]] := by decide +kernel

theorem gBoxes_filled : ∀ m ∈ gBoxes, Filled gT (fun _ => 3) gPair.vars m := by
  have hv : gPair.vars = [0] := by decide
  rw [hv]
  refine List.forall_mem_cons.2 ⟨List.forall_mem_cons.2 ⟨⟨by decide, by decide, ?_, by decide⟩, fun m h => nomatch h⟩, fun m h => nomatch h⟩
  refine List.forall_mem_cons.2 ⟨?_, List.forall_mem_cons.2 ⟨?_, fun m h => nomatch h⟩⟩
  · exact ⟨⟨by decide, by decide⟩, ⟨by decide, by decide⟩, trivial⟩
  · exact ⟨⟨by decide, by decide⟩, ⟨by decide, by decide⟩, trivial⟩

/-- **F94.**  Within the boxes of a product type colours are counted through as if they were of a plain type; where that meets the upper
corner of another box the rest of the first box is left out: (0, 1) and (1, 1) are in a box but no binding. -/
theorem C67_finding_product_boxes : fixBindings gT (fun _ => 3) gBoxes 40 gPair = some [[(0, 0)], [(0, 1)], [(0, 2)], [(0, 3)]] ∧
    IVec.Has (boxesOf (gBoxes.getD 0 []) 0) (gT.value ⟨3, 4⟩) ∧ IVec.Has (boxesOf (gBoxes.getD 0 []) 0) (gT.value ⟨3, 5⟩) := by decide +kernel

/-- x in {0, 1} or {1, 2}: boxes with a common colour -/
def gLoop : List VMap := [[(0, [[⟨0, 1⟩], [⟨1, 2⟩]])]]

theorem gLoop_next (g : Option Guard) (n : Nat) (h : guardEval gT (fun _ => 2) [(0, 1)] g = some true) :
    nextG gT (fun _ => 2) gLoop g (n + 1) (0, [(0, 1)]) = some (some (0, [(0, 1)])) := by
  rw [nextG, show stepG gT (fun _ => 2) gLoop (0, [(0, 1)]) = some (some (0, [(0, 1)])) from by decide +kernel]
  simp only
  rw [h]

/-- **F95.**  With boxes that have a common colour at the end of one of them, the generator never ends: from 1, the end of the first box,
it goes to the start of the next one, which is 1 again. -/
theorem C67_finding_common_colour : ∀ fuel, fixBindings gT (fun _ => 2) gLoop fuel gPair = none := by
  have hit : ∀ n, iterG gT (fun _ => 2) gLoop none n (0, [(0, 1)]) = none := by
    intro n
    induction n with
    | zero => rfl
    | succ n ih =>
      rw [iterG, gLoop_next none n rfl]
      simp only
      rw [ih]
      rfl
  intro fuel
  show iterG gT (fun _ => 2) gLoop none fuel (0, [(0, 0)]) = none
  cases fuel with
  | zero => rfl
  | succ n =>
    rw [iterG, nextG, show stepG gT (fun _ => 2) gLoop (0, [(0, 0)]) = some (some (0, [(0, 1)])) from by decide +kernel]
    simp only [guardEval]
    rw [hit n]
    rfl

theorem C67_full_fails : ¬ C67_full := by
  intro h
  obtain ⟨fuel, bs, h1, _⟩ := h gT (fun _ => 2) gLoop gPair gWF (fun g hg => nomatch hg) (by decide) (by
    have hv : gPair.vars = [0] := by decide
    rw [hv]
    refine List.forall_mem_cons.2 ⟨List.forall_mem_cons.2 ⟨⟨by decide, by decide, ?_, by decide⟩, fun m h => nomatch h⟩, fun m h => nomatch h⟩
    exact List.forall_mem_cons.2 ⟨⟨⟨by decide, by decide⟩, trivial⟩, List.forall_mem_cons.2 ⟨⟨⟨by decide, by decide⟩, trivial⟩, fun m h => nomatch h⟩⟩)
  rw [C67_finding_common_colour] at h1
  cases h1

end CFP
end Verif
