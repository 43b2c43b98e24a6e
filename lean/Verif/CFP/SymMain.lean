import Verif.CFP.SymLemmas

/-!
# The bindings the generator gives when there are symmetric variables
-/

namespace Verif
namespace CFP

open CPN

variable {T : Types} {vty : Nat → Nat}

/-- The lower corner of the first box of a variable. -/
def front (T : Types) (vty : Nat → Nat) (m : VMap) (v : Nat) : Nat := colorOf T (vty v) ((boxesOf m v).headD []).lowerIds

theorem walk_box {vs : List Nat} {m : VMap} (h : Walkable T vty vs m) {v : Nat} (hv : v ∈ vs) : ∃ i is, m.lookup v = some (i :: is) ∧ boxesOf m v = i :: is := by
  obtain ⟨_, h1, _, h3⟩ := h v hv
  unfold boxesOf at h3 ⊢
  cases hl : m.lookup v with
  | none => rw [hl] at h1; cases h1
  | some vec =>
    rw [hl] at h3
    cases vec with
    | nil => unfold tame at h3; cases h3
    | cons i is => exact ⟨i, is, rfl, rfl⟩

theorem first_eq {m : VMap} : (vs : List Nat) → Walkable T vty vs m → firstG T vty m vs = some (vs.map fun v => (v, front T vty m v)) ∧
    startG T vty m vs = some (some (vs.map fun v => (v, front T vty m v)))
  | [], _ => ⟨rfl, rfl⟩
  | v :: vs, h => by
    obtain ⟨h1, h2⟩ := first_eq vs fun u hu => h u (List.mem_cons_of_mem _ hu)
    obtain ⟨i, is, h3, h4⟩ := walk_box h List.mem_cons_self
    have h5 : front T vty m v = colorOf T (vty v) i.lowerIds := by
      unfold front
      rw [h4, List.headD_cons]
    rw [firstG, startG, h3]
    simp only
    rw [h1, h2, List.map_cons, h5]
    exact ⟨rfl, rfl⟩

/-- The variables that are not symmetric. -/
abbrev others (vs S : List Nat) : List Nat := vs.filter fun v => !S.contains v

theorem mem_others {vs S : List Nat} {v : Nat} : v ∈ others vs S ↔ v ∈ vs ∧ v ∉ S := by simp [others]

theorem front_mix {vs S : List Nat} {m : VMap} : vs.map (fun v => (v, front T vty m v)) = mix S vs ((others vs S).map fun v => (v, front T vty m v)) (front T vty m) := by
  rw [mix_map]
  apply List.map_congr_left
  intro v _
  split <;> rfl

theorem mix_lookup {S : List Nat} {g : Nat → Nat} {v : Nat} : (vs : List Nat) → (c : Binding) → c.map (·.1) = others vs S → v ∈ vs →
    (mix S vs c g).lookup v = if v ∈ S then some (g v) else c.lookup v
  | u :: vs, c, h, hv => by
    unfold others at h
    rw [List.filter_cons] at h
    rw [mix]
    by_cases hu : u ∈ S
    · have hc : (!S.contains u) = false := by simp [hu]
      rw [hc, if_neg Bool.false_ne_true] at h
      rw [if_pos hu, List.lookup_cons]
      cases e : v == u with
      | true => rw [beq_iff_eq] at e; subst e; rw [if_pos hu]
      | false =>
        rcases List.mem_cons.1 hv with rfl | hv
        · rw [BEq.rfl] at e; cases e
        · exact mix_lookup vs c h hv
    · have hc : (!S.contains u) = true := by simp [hu]
      rw [hc, if_pos rfl] at h
      cases c with
      | nil => cases h
      | cons q c =>
        obtain ⟨w, i⟩ := q
        rw [List.map_cons, List.cons.injEq] at h
        obtain ⟨h1, h2⟩ := h
        simp only at h1
        subst h1
        rw [if_neg hu, List.headD_cons, List.tail_cons, List.lookup_cons, List.lookup_cons]
        cases e : v == w with
        | true => rw [beq_iff_eq] at e; subst e; rw [if_neg hu]
        | false =>
          rcases List.mem_cons.1 hv with rfl | hv
          · rw [BEq.rfl] at e; cases e
          · exact mix_lookup vs c h2 hv

/-- If the value 0 is possible for a symmetric variable, it comes first. -/
def Lowest (T : Types) (vty : Nat → Nat) (S : List Nat) (m : VMap) : Prop :=
  ∀ v ∈ S, front T vty m v = 0 ∨ ∀ i ∈ boxesOf m v, colorOf T (vty v) i.lowerIds ≠ 0

/-- What comes out: bindings with colours of the right types, and for every assignment in one of the maps a binding for an assignment
that differs only in the order of the values of the symmetric variables. -/
def SymGives (T : Types) (vty : Nat → Nat) (S vs : List Nat) (maps : List VMap) (bs : List Binding) : Prop :=
  (∀ b ∈ bs, ∃ ρ, Agree T vty b ρ vs) ∧
  ∀ ρ, (∀ v ∈ vs, ρ v ∈ T.values (vty v)) → (∃ m ∈ maps, Within m vs ρ) →
    ∃ b ∈ bs, ∃ ρ', Agree T vty b ρ' vs ∧ (∀ v, v ∉ S → ρ' v = ρ v) ∧ (S.map ρ').Perm (S.map ρ)

theorem combo_lt {vs S : List Nat} (h : OneType T vty vs S) {e : List Nat} (he : e ∈ symCombos T vty S) {v : Nat} (hv : v ∈ S) : pick S e v < T.size (vty v) := by
  obtain ⟨h1, _, h3⟩ := (mem_combos _ _).1 he
  have hm : pick S e v ∈ e := by
    have h2 := pick_map S e h.nodup h1
    have h4 : pick S e v ∈ S.map (pick S e) := List.mem_map.2 ⟨v, hv, rfl⟩
    rw [h2] at h4
    exact h4
  have := h3 _ hm
  have := h.pos
  rw [h.ty v hv]
  omega

theorem mix_agree {vs S : List Nat} {c : Binding} {g : Nat → Nat} {ρ : Nat → Val} (hc : c.map (·.1) = others vs S) (hca : Agree T vty c ρ (others vs S))
    (hg : ∀ v ∈ S, g v < T.size (vty v)) : Agree T vty (mix S vs c g) (fun v => if v ∈ S then T.value ⟨vty v, g v⟩ else ρ v) vs := by
  intro v hv
  rw [mix_lookup vs c hc hv]
  by_cases hs : v ∈ S
  · exact ⟨g v, hg v hs, if_pos hs, if_pos hs⟩
  · obtain ⟨i, h1, h2, h3⟩ := hca v (mem_others.2 ⟨hv, hs⟩)
    exact ⟨i, h1, by rw [if_neg hs]; exact h2, by simp only [if_neg hs]; exact h3⟩

/-- The sequence that belongs to an assignment. -/
theorem combo_of {vs S : List Nat} (h : OneType T vty vs S) {ρ : Nat → Val} (hρ : ∀ v ∈ vs, ρ v ∈ T.values (vty v)) :
    ∃ e ∈ symCombos T vty S, (S.map fun v => T.value ⟨vty v, pick S e v⟩).Perm (S.map ρ) ∧ e.Perm (S.map fun v => colorOf T (vty v) (ρ v)) := by
  have hlt : ∀ v ∈ S, colorOf T (vty v) (ρ v) < T.size (vty v) ∧ T.value ⟨vty v, colorOf T (vty v) (ρ v)⟩ = ρ v := fun v hv =>
    colorOf_lt (values_fits (hρ v (h.sub v hv)))
  obtain ⟨e, he, hp⟩ := combos_perm (n := T.size (vty (S.headD 0)) - 1) (S.map fun v => colorOf T (vty v) (ρ v)) (fun x hx => by
    obtain ⟨v, hv, rfl⟩ := List.mem_map.1 hx
    have := (hlt v hv).1
    rw [h.ty v hv] at this ⊢
    omega)
  rw [List.length_map] at he
  have hl := ((mem_combos _ _).1 he).1
  refine ⟨e, he, ?_, hp⟩
  have h1 : (S.map fun v => T.value ⟨vty v, pick S e v⟩) = e.map fun i => T.value ⟨vty (S.headD 0), i⟩ := by
    have h2 := pick_map S e h.nodup hl
    have : (S.map fun v => T.value ⟨vty v, pick S e v⟩) = (S.map (pick S e)).map fun i => T.value ⟨vty (S.headD 0), i⟩ := by
      rw [List.map_map]
      apply List.map_congr_left
      intro v hv
      simp only [Function.comp_apply, h.ty v hv]
    rw [this, h2]
  have h2 : S.map ρ = (S.map fun v => colorOf T (vty v) (ρ v)).map fun i => T.value ⟨vty (S.headD 0), i⟩ := by
    rw [List.map_map]
    apply List.map_congr_left
    intro v hv
    simp only [Function.comp_apply]
    rw [← h.ty v hv]
    exact (hlt v hv).2.symm
  rw [h1, h2]
  exact hp.map _

theorem sym_index {S e : List Nat} (he : e ∈ symCombos T vty S) : ∃ j < (symCombos T vty S).length, (symCombos T vty S).getD j [] = e := by
  obtain ⟨j, hj, h⟩ := List.mem_iff_getElem.1 he
  exact ⟨j, hj, by rw [List.getD_eq_getElem?_getD, List.getElem?_eq_getElem hj, h]; rfl⟩

theorem mem_symList {S vs : List Nat} {fst : Nat → Binding} {W : Nat → List Binding} : (d k : Nat) → (∀ j, k ≤ j → j < k + d → W j ≠ []) → (y : SSt) →
    (y ∈ symList T vty S vs fst W d k ↔ ∃ j, k ≤ j ∧ j < k + d ∧ (y = ⟨j, fst j, (pos T vty S 0).1, (pos T vty S 0).2⟩ ∨
      (∃ i, 1 ≤ i ∧ i < (symCombos T vty S).length ∧ y = stt T vty S vs j ((W j).headD []) i) ∨
      ∃ c ∈ (W j).tail, ∃ i < (symCombos T vty S).length, y = stt T vty S vs j c i))
  | 0, k, _, y => by
    rw [symList]
    constructor
    · intro h; cases h
    · rintro ⟨j, h1, h2, _⟩
      omega
  | d + 1, k, hW, y => by
    have hL := sym_len (T := T) (vty := vty) S
    rw [symList, List.mem_cons, List.mem_append, List.mem_append, mem_symList d (k + 1) (fun j h1 h2 => hW j (by omega) (by omega)) y]
    constructor
    · rintro (h | h | h | ⟨j, h1, h2, h3⟩)
      · exact ⟨k, Nat.le_refl _, by omega, Or.inl h⟩
      · obtain ⟨i, hi, rfl⟩ := List.mem_map.1 h
        have := List.mem_range'_1.1 hi
        exact ⟨k, Nat.le_refl _, by omega, Or.inr (Or.inl ⟨i, this.1, by omega, rfl⟩)⟩
      · obtain ⟨l, h1, h2⟩ := List.mem_flatten.1 h
        obtain ⟨c, hc, rfl⟩ := List.mem_map.1 h1
        obtain ⟨i, hi, rfl⟩ := List.mem_map.1 h2
        exact ⟨k, Nat.le_refl _, by omega, Or.inr (Or.inr ⟨c, hc, i, List.mem_range.1 hi, rfl⟩)⟩
      · exact ⟨j, by omega, by omega, h3⟩
    · rintro ⟨j, h1, h2, h3⟩
      by_cases hj : j = k
      · subst hj
        rcases h3 with h3 | ⟨i, h4, h5, rfl⟩ | ⟨c, hc, i, hi, rfl⟩
        · exact Or.inl h3
        · exact Or.inr (Or.inl (List.mem_map.2 ⟨i, List.mem_range'_1.2 ⟨h4, by omega⟩, rfl⟩))
        · exact Or.inr (Or.inr (Or.inl (List.mem_flatten.2 ⟨_, List.mem_map.2 ⟨c, hc, rfl⟩, List.mem_map.2 ⟨i, List.mem_range.2 hi, rfl⟩⟩)))
      · exact Or.inr (Or.inr (Or.inr ⟨j, by omega, by omega, h3⟩))

theorem start_sym {vs S : List Nat} (h : OneType T vty vs S) {maps : List VMap} (hm0 : Walkable T vty vs (maps.getD 0 [])) {t : CTrans} (hg : t.guard = none)
    (hvs : t.vars = vs) {l : List SSt} (hl : Runs (stepS T vty [S] maps) (stt T vty S vs 0 ((others vs S).map fun v => (v, front T vty (maps.getD 0 []) v)) 0) l) (fuel : Nat) :
    (fuel ≤ l.length ∧ symBindings T vty [S] maps fuel t = none) ∨
    (l.length < fuel ∧ symBindings T vty [S] maps fuel t =
      some ((stt T vty S vs 0 ((others vs S).map fun v => (v, front T vty (maps.getD 0 []) v)) 0).b :: l.map (·.b))) := by
  have hS : ∃ v, v ∈ vs := by
    cases hS : S with
    | nil => exact absurd hS h.ne
    | cons v S' => exact ⟨v, h.sub v (by rw [hS]; exact List.mem_cons_self)⟩
  obtain ⟨v, hv⟩ := hS
  have hempty : (!t.vars.isEmpty && (maps.getD 0 []).isEmpty) = false := by
    obtain ⟨i, is, h1, _⟩ := walk_box hm0 hv
    cases e : maps.getD 0 [] with
    | nil => rw [e] at h1; cases h1
    | cons => rw [List.isEmpty_cons, Bool.and_false]
  have hx := iter_free fuel l _ hl
  have hok : (fun y : SSt => guardEval T vty y.b t.guard) = fun _ => some true := by
    funext y
    rw [hg]
    rfl
  unfold symBindings
  rw [hempty, if_neg Bool.false_ne_true, hvs, (first_eq vs hm0).2]
  simp only
  rw [front_mix (S := S), assign_at h _ _ (sym_len S)]
  simp only [Option.getD_some]
  rw [hok]
  have hst : (⟨0, mix S vs ((others vs S).map fun v => (v, front T vty (maps.getD 0 []) v)) (pick S ((symCombos T vty S).getD 0 [])), (pos T vty S 0).1, (pos T vty S 0).2⟩ : SSt) =
    stt T vty S vs 0 ((others vs S).map fun v => (v, front T vty (maps.getD 0 []) v)) 0 := rfl
  rw [hst]
  rcases hx with ⟨h1, h2⟩ | ⟨h1, h2⟩
  · exact Or.inl ⟨h1, by rw [h2, hg]; rfl⟩
  · exact Or.inr ⟨h1, by rw [h2, hg]; rfl⟩

/-- One set of symmetric variables. -/
theorem sym_spec {vs S : List Nat} (hn : vs.Nodup) (h : OneType T vty vs S) {maps : List VMap} (hne : maps ≠ []) (hm : ∀ m ∈ maps, Walkable T vty vs m)
    (hlow : (∃ v ∈ vs, v ∉ S) → ∀ m ∈ maps.tail, Lowest T vty S m) {t : CTrans} (hg : t.guard = none) (hvs : t.vars = vs) :
    (∃ fuel0, ∀ fuel, fuel0 ≤ fuel → ∃ bs, symBindings T vty [S] maps fuel t = some bs) ∧
    ∀ fuel bs, symBindings T vty [S] maps fuel t = some bs → SymGives T vty S vs maps bs := by
  have hlen : 0 < maps.length := List.length_pos_iff.2 hne
  have hk : ∀ k < maps.length, Walkable T vty vs (maps.getD k []) := by
    intro k hk
    apply hm
    rw [List.getD_eq_getElem?_getD, List.getElem?_eq_getElem hk]
    exact List.getElem_mem hk
  have hks : ∀ k < maps.length, Walkable T vty (others vs S) (maps.getD k []) := fun k hl v hv => hk k hl v (mem_others.1 hv).1
  have hns : (others vs S).Nodup := hn.filter _
  have hfr : ∀ k < maps.length, ∀ v ∈ vs, front T vty (maps.getD k []) v < T.size (vty v) := by
    intro k hl v hv
    obtain ⟨i, is, _, h2⟩ := walk_box (hk k hl) hv
    have := walkOf_lt (hk k hl v hv).2.2.1 (front T vty (maps.getD k []) v)
    apply this
    unfold front
    rw [h2, List.headD_cons, walkOf, List.map_cons, List.flatten_cons]
    exact List.mem_append_left _ (List.mem_range'_1.2 ⟨Nat.le_refl _, by omega⟩)
  -- it is enough to know the list of states
  have key : ∀ l, Runs (stepS T vty [S] maps) (stt T vty S vs 0 ((others vs S).map fun v => (v, front T vty (maps.getD 0 []) v)) 0) l →
      SymGives T vty S vs maps ((stt T vty S vs 0 ((others vs S).map fun v => (v, front T vty (maps.getD 0 []) v)) 0).b :: l.map (·.b)) →
      (∃ fuel0, ∀ fuel, fuel0 ≤ fuel → ∃ bs, symBindings T vty [S] maps fuel t = some bs) ∧
      ∀ fuel bs, symBindings T vty [S] maps fuel t = some bs → SymGives T vty S vs maps bs := by
    intro l hl hb
    refine ⟨⟨l.length + 1, fun fuel hf => ?_⟩, fun fuel bs e => ?_⟩
    · rcases start_sym h (hk 0 hlen) hg hvs hl fuel with ⟨h1, _⟩ | ⟨_, h2⟩
      · omega
      · exact ⟨_, h2⟩
    · rcases start_sym h (hk 0 hlen) hg hvs hl fuel with ⟨_, h2⟩ | ⟨_, h2⟩
      · rw [h2] at e; cases e
      · rw [h2] at e; cases e; exact hb
  have hagree : ∀ (c : Binding) (g : Nat → Nat), c.map (·.1) = others vs S → (∃ ρ, Agree T vty c ρ (others vs S)) → (∀ v ∈ S, g v < T.size (vty v)) →
      ∃ ρ, Agree T vty (mix S vs c g) ρ vs := fun c g h1 ⟨ρ, h2⟩ h3 => ⟨_, mix_agree h1 h2 h3⟩
  have hfirstAgree : ∀ k < maps.length, ∃ ρ, Agree T vty ((others vs S).map fun v => (v, front T vty (maps.getD k []) v)) ρ (others vs S) := by
    intro k hl
    exact ⟨fun v => T.value ⟨vty v, front T vty (maps.getD k []) v⟩, fun v hv =>
      ⟨_, hfr k hl v (mem_others.1 hv).1, map_lookup _ _ hv, rfl⟩⟩
  by_cases ho : ∃ v ∈ vs, v ∉ S
  · -- there are other variables
    let W : Nat → List Binding := rowsB T vty maps (others vs S)
    let fst : Nat → Binding := fun k => vs.map fun v => (v, front T vty (maps.getD k []) v)
    have hW : ∀ k < maps.length, ∃ cl, W k = ((others vs S).map fun v => (v, front T vty (maps.getD k []) v)) :: cl ∧
        (∀ d ∈ W k, d.map (·.1) = others vs S ∧ ∃ ρ, Agree T vty d ρ (others vs S)) ∧
        Turns (bumpG T vty (maps.getD k [])) ((others vs S).map fun v => (v, front T vty (maps.getD k []) v)) ((others vs S).map fun v => (v, front T vty (maps.getD k []) v)) cl := by
      intro k hl
      obtain ⟨b, bs, h1, _, h3, _, h5⟩ := rowsB_turns (T := T) (vty := vty) hns (hks k hl)
      rw [(first_eq _ (hks k hl)).1] at h3
      cases h3
      refine ⟨bs, h1, fun d hd => ?_, h5⟩
      obtain ⟨h6, h7⟩ := rowsB_agree (T := T) (vty := vty) hns (hks k hl) hd
      exact ⟨h6, _, h7⟩
    obtain ⟨cl0, hW0, hWk0, hWt0⟩ := hW 0 hlen
    have hruns := runs_sym h ho (maps := maps) (fst := fst) (W := W) (fun k hl => by
      obtain ⟨cl, h1, h2, h3⟩ := hW k hl
      exact ⟨_, cl, h1, fun d hd => (h2 d (by rw [h1]; exact hd)).1, h3, (first_eq _ (hk k hl)).1, _, front_mix⟩) (maps.length - 1) 0 (by omega)
      (pick S ((symCombos T vty S).getD 0 []))
    rw [hW0, List.headD_cons] at hruns
    refine key _ hruns ?_
    have hlen1 : maps.length - 1 + 1 = maps.length := by omega
    rw [hlen1]
    have hne' : ∀ j, 0 ≤ j → j < 0 + maps.length → W j ≠ [] := fun j _ hj => by
      obtain ⟨cl, h1, _⟩ := hW j (by omega)
      rw [h1]; simp
    -- the states that are there
    have hthere : ∀ y ∈ symList T vty S vs fst W maps.length 0, y = ⟨0, fst 0, (pos T vty S 0).1, (pos T vty S 0).2⟩ ∨ y ∈ (symList T vty S vs fst W maps.length 0).tail := by
      intro y hy
      obtain ⟨d, hd⟩ : ∃ d, maps.length = d + 1 := ⟨maps.length - 1, by omega⟩
      rw [hd, symList] at hy ⊢
      exact List.mem_cons.1 hy
    have htail : ∀ y ∈ (symList T vty S vs fst W maps.length 0).tail, y ∈ symList T vty S vs fst W maps.length 0 := fun y hy => List.mem_of_mem_tail hy
    have hsub : ∀ k < maps.length, ∀ c ∈ W k, ∀ i < (symCombos T vty S).length, (c ≠ (others vs S).map (fun v => (v, front T vty (maps.getD k []) v)) ∨ i ≠ 0 ∨ k = 0) →
        (stt T vty S vs k c i).b ∈ (stt T vty S vs 0 ((others vs S).map fun v => (v, front T vty (maps.getD 0 []) v)) 0).b :: ((symList T vty S vs fst W maps.length 0).tail.map (·.b)) := by
      intro k hl c hc i hi hcond
      obtain ⟨cl, h1, h2, h3⟩ := hW k hl
      by_cases hstart : c = (others vs S).map (fun v => (v, front T vty (maps.getD k []) v)) ∧ i = 0 ∧ k = 0
      · obtain ⟨rfl, rfl, rfl⟩ := hstart
        exact List.mem_cons_self
      · have hmem : stt T vty S vs k c i ∈ symList T vty S vs fst W maps.length 0 := by
          refine (mem_symList maps.length 0 hne' _).2 ⟨k, Nat.zero_le _, by omega, Or.inr ?_⟩
          rw [h1] at hc ⊢
          rcases List.mem_cons.1 hc with e | hc
          · left
            refine ⟨i, ?_, hi, by rw [List.headD_cons, e]⟩
            rcases hcond with h4 | h4 | h4
            · exact absurd e h4
            · omega
            · have : i ≠ 0 := fun h0 => hstart ⟨e, h0, h4⟩
              omega
          · exact Or.inr ⟨c, hc, i, hi, rfl⟩
        rcases hthere _ hmem with h5 | h5
        · -- the first state has the first binding of the other variables
          refine List.mem_cons_of_mem _ (List.mem_map.2 ⟨stt T vty S vs k c i, ?_, rfl⟩)
          obtain ⟨d, hd⟩ : ∃ d, maps.length = d + 1 := ⟨maps.length - 1, by omega⟩
          have hk0 : k = 0 := congrArg SSt.k h5
          subst hk0
          rw [hd, symList, List.tail_cons]
          rw [h1] at hc ⊢
          rcases List.mem_cons.1 hc with e | hc
          · have hi0 : i ≠ 0 := fun h0 => hstart ⟨e, h0, rfl⟩
            refine List.mem_append_left _ (List.mem_map.2 ⟨i, List.mem_range'_1.2 ⟨by omega, by omega⟩, by rw [List.headD_cons, e]⟩)
          · refine List.mem_append_right _ (List.mem_append_left _ (List.mem_flatten.2 ⟨_, List.mem_map.2 ⟨c, hc, rfl⟩, List.mem_map.2 ⟨i, List.mem_range.2 hi, rfl⟩⟩))
        · exact List.mem_cons_of_mem _ (List.mem_map.2 ⟨_, h5, rfl⟩)
    constructor
    · intro b hb
      rcases List.mem_cons.1 hb with rfl | hb
      · exact hagree _ _ (by rw [List.map_map]; exact List.map_id' _) (hfirstAgree 0 hlen) fun v hv => combo_lt h (sym_get (sym_len S)) hv
      · obtain ⟨y, hy, rfl⟩ := List.mem_map.1 hb
        obtain ⟨j, _, hj, hy⟩ := (mem_symList maps.length 0 hne' y).1 (htail y hy)
        have hj : j < maps.length := by omega
        obtain ⟨cl, h1, h2, h3⟩ := hW j hj
        rcases hy with rfl | ⟨i, _, hi, rfl⟩ | ⟨c, hc, i, hi, rfl⟩
        · have := hagree _ (front T vty (maps.getD j [])) (by rw [List.map_map]; exact List.map_id' _) (hfirstAgree j hj) fun v hv => hfr j hj v (h.sub v hv)
          rw [← front_mix] at this
          exact this
        · rw [h1, List.headD_cons]
          exact hagree _ _ (by rw [List.map_map]; exact List.map_id' _) (hfirstAgree j hj) fun v hv => combo_lt h (sym_get hi) hv
        · obtain ⟨h4, h5⟩ := h2 c (List.mem_of_mem_tail hc)
          exact hagree _ _ h4 h5 fun v hv => combo_lt h (sym_get hi) hv
    · rintro ρ hρ ⟨m, hmm, hw⟩
      obtain ⟨k, hl, rfl⟩ : ∃ k < maps.length, maps.getD k [] = m := by
        obtain ⟨k, hk, e⟩ := List.mem_iff_getElem.1 hmm
        exact ⟨k, hk, by rw [List.getD_eq_getElem?_getD, List.getElem?_eq_getElem hk, e]; rfl⟩
      obtain ⟨c, hc, hca⟩ := rowsB_has (T := T) (vty := vty) (maps := maps) (vs := others vs S) (k := k) (ρ := ρ) (fun v hv => hρ v (mem_others.1 hv).1)
        (fun v hv => hw v (mem_others.1 hv).1)
      have hck := ((hW k hl).choose_spec.2.1 c hc).1
      obtain ⟨e, he, hp, hpe⟩ := combo_of h hρ
      obtain ⟨j, hj, hje⟩ := sym_index he
      have hmixA := mix_agree (S := S) (vs := vs) (g := pick S e) hck hca (fun v hv => combo_lt h he hv)
      have hres : ∀ b ∈ (stt T vty S vs 0 ((others vs S).map fun v => (v, front T vty (maps.getD 0 []) v)) 0).b :: ((symList T vty S vs fst W maps.length 0).tail.map (·.b)),
          b = mix S vs c (pick S e) → ∃ b ∈ (stt T vty S vs 0 ((others vs S).map fun v => (v, front T vty (maps.getD 0 []) v)) 0).b :: ((symList T vty S vs fst W maps.length 0).tail.map (·.b)),
            ∃ ρ', Agree T vty b ρ' vs ∧ (∀ v, v ∉ S → ρ' v = ρ v) ∧ (S.map ρ').Perm (S.map ρ) := by
        rintro b hb rfl
        refine ⟨_, hb, _, hmixA, fun v hv => if_neg hv, ?_⟩
        have : S.map (fun v => if v ∈ S then T.value ⟨vty v, pick S e v⟩ else ρ v) = S.map fun v => T.value ⟨vty v, pick S e v⟩ :=
          List.map_congr_left fun v hv => if_pos hv
        rw [this]
        exact hp
      by_cases hcond : c ≠ (others vs S).map (fun v => (v, front T vty (maps.getD k []) v)) ∨ j ≠ 0 ∨ k = 0
      · refine hres _ (hsub k hl c hc j hj hcond) ?_
        unfold stt
        rw [hje]
      · -- the first binding of a later map: the variables are at the fronts of their boxes
        simp only [not_or, not_not] at hcond
        obtain ⟨rfl, rfl, hk0⟩ := hcond
        have hmt : maps.getD k [] ∈ maps.tail := by
          cases maps with
          | nil => cases hmm
          | cons m0 ms =>
            cases k with
            | zero => exact absurd rfl hk0
            | succ k =>
              have hk' : k < ms.length := Nat.lt_of_succ_lt_succ hl
              rw [List.tail_cons, List.getD_cons_succ, List.getD_eq_getElem?_getD, List.getElem?_eq_getElem hk']
              exact List.getElem_mem hk'
        have he0 : e = List.replicate S.length 0 := by
          obtain ⟨r, hr⟩ := combos_head S.length (T.size (vty (S.headD 0)) - 1)
          rw [← hje]
          unfold symCombos
          rw [hr]
          rfl
        have hfront : ∀ v ∈ S, pick S e v = front T vty (maps.getD k []) v := by
          intro v hv
          have hz : pick S e v = 0 := by
            unfold pick
            rw [he0, List.getD_eq_getElem?_getD, List.getElem?_replicate]
            split <;> rfl
          have hz' : colorOf T (vty v) (ρ v) = 0 := by
            have : colorOf T (vty v) (ρ v) ∈ e := hpe.mem_iff.2 (List.mem_map.2 ⟨v, hv, rfl⟩)
            rw [he0] at this
            exact List.eq_of_mem_replicate this
          rw [hz]
          rcases hlow ho _ hmt v hv with h1 | h1
          · exact h1.symm
          · obtain ⟨i, hi, hx⟩ := hw v (h.sub v hv)
            have := (enc_mono (T.dims (vty v)) i _ hx).1
            have h2 := h1 i hi
            unfold colorOf at hz' h2
            unfold Interval.lowerIds at h2
            omega
        refine hres (fst k) ?_ ?_
        · refine List.mem_cons_of_mem _ (List.mem_map.2 ⟨⟨k, fst k, (pos T vty S 0).1, (pos T vty S 0).2⟩, ?_, rfl⟩)
          rcases hthere _ ((mem_symList maps.length 0 hne' _).2 ⟨k, Nat.zero_le _, by omega, Or.inl rfl⟩) with h5 | h5
          · exact absurd (congrArg SSt.k h5) hk0
          · exact h5
        · rw [mix_congr hfront]
          exact front_mix
  · -- all variables are symmetric
    have ho' : ∀ v ∈ vs, v ∈ S := fun v hv => Classical.byContradiction fun hc => ho ⟨v, hv, hc⟩
    have hoth : others vs S = [] := by
      unfold others
      rw [List.filter_eq_nil_iff]
      intro v hv
      simp [ho' v hv]
    let fst : Nat → Binding := fun k => vs.map fun v => (v, front T vty (maps.getD k []) v)
    have hrest := runs_one (T := T) (vty := vty) ho' (maps := maps) (fst := fst) (fun k hl => ⟨(first_eq _ (hk k hl)).1, front T vty (maps.getD k []), by
      have := front_mix (T := T) (vty := vty) (vs := vs) (S := S) (m := maps.getD k [])
      rw [hoth] at this
      exact this⟩) (maps.length - 1) 0 (by omega)
    have hruns := runs_combos h (maps := maps) (k := 0) (c := []) hrest ((symCombos T vty S).length - 1) 0 (by have := sym_len (T := T) (vty := vty) S; omega)
      (pick S ((symCombos T vty S).getD 0 []))
    have hc0 : (others vs S).map (fun v => (v, front T vty (maps.getD 0 []) v)) = [] := by rw [hoth]; rfl
    refine key _ (by rw [hc0]; exact hruns) ?_
    rw [hc0]
    have hnil : ∀ ρ, Agree T vty [] ρ (others vs S) := fun ρ v hv => by rw [hoth] at hv; cases hv
    constructor
    · intro b hb
      rcases List.mem_cons.1 hb with rfl | hb
      · exact hagree [] _ (by rw [hoth]; rfl) ⟨fun _ => [], hnil _⟩ fun v hv => combo_lt h (sym_get (sym_len S)) hv
      · obtain ⟨y, hy, rfl⟩ := List.mem_map.1 hb
        rcases List.mem_append.1 hy with hy | hy
        · obtain ⟨i, hi, rfl⟩ := List.mem_map.1 hy
          have := List.mem_range'_1.1 hi
          exact hagree [] _ (by rw [hoth]; rfl) ⟨fun _ => [], hnil _⟩ fun v hv => combo_lt h (sym_get (by omega)) hv
        · obtain ⟨j, hj, rfl⟩ := List.mem_map.1 hy
          have hj := List.mem_range'_1.1 hj
          have := hagree [] (front T vty (maps.getD j [])) (by rw [hoth]; rfl) ⟨fun _ => [], hnil _⟩ fun v hv => hfr j (by omega) v (h.sub v hv)
          have h2 := front_mix (T := T) (vty := vty) (vs := vs) (S := S) (m := maps.getD j [])
          rw [hoth] at h2
          rw [List.map_nil] at h2
          show ∃ ρ, Agree T vty (fst j) ρ vs
          rw [show fst j = _ from h2]
          exact this
    · rintro ρ hρ _
      obtain ⟨e, he, hp, _⟩ := combo_of h hρ
      obtain ⟨j, hj, hje⟩ := sym_index he
      have hmixA := mix_agree (S := S) (vs := vs) (c := []) (g := pick S e) (ρ := ρ) (by rw [hoth]; rfl) (hnil ρ) (fun v hv => combo_lt h he hv)
      refine ⟨mix S vs [] (pick S e), ?_, _, hmixA, fun v hv => if_neg hv, ?_⟩
      · by_cases h0 : j = 0
        · subst h0
          unfold stt
          rw [hje]
          exact List.mem_cons_self
        · refine List.mem_cons_of_mem _ (List.mem_map.2 ⟨stt T vty S vs 0 [] j, List.mem_append_left _ (List.mem_map.2 ⟨j, List.mem_range'_1.2 ⟨by omega, by omega⟩, rfl⟩), ?_⟩)
          unfold stt
          rw [hje]
      · have : S.map (fun v => if v ∈ S then T.value ⟨vty v, pick S e v⟩ else ρ v) = S.map fun v => T.value ⟨vty v, pick S e v⟩ :=
          List.map_congr_left fun v hv => if_pos hv
        rw [this]
        exact hp

end CFP
end Verif
