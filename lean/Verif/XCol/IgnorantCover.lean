import Verif.XCol.IgnorantNet

/-!
# Every firing of the coloured net has a copy
-/

namespace Verif
namespace XCol
open CPN Colored OffsetsProps
open Builder (Op specPre specPost specInh specInit specNet Sane run)

/-! ### The weights of the arcs of a transition -/

theorem fits_append : {a b : List Range} → {c d : List Nat} → Fits a c → Fits b d →
    Fits (a ++ b) (c ++ d) ∧ weigh (a ++ b) (c ++ d) = weigh a c ++ weigh b d
  | [], _, [], _, _, h => ⟨h, rfl⟩
  | r :: a, _, k :: c, _, h, h' => by
    obtain ⟨h1, h2⟩ := fits_append h.2.2 h'
    refine ⟨⟨h.1, h.2.1, h1⟩, ?_⟩
    rw [List.cons_append, List.cons_append, weigh, weigh, h2, List.cons_append]
  | [], _, _ :: _, _, h, _ => h.elim
  | _ :: _, _, [], _, h, _ => h.elim

theorem mem_weigh : {rs : List Range} → {cs : List Nat} → {r : Range} → Fits rs cs → r ∈ weigh rs cs →
    ∃ r' ∈ rs, r.isInput = r'.isInput ∧ r.place = r'.place
  | [], _, _, _, h => nomatch h
  | _ :: _, [], _, h, _ => h.elim
  | r' :: rs, c :: cs, r, hf, h => by
    rw [weigh] at h
    rcases List.mem_cons.1 h with rfl | h
    · exact ⟨r', List.mem_cons_self, rfl, rfl⟩
    · obtain ⟨x, h1, h2⟩ := mem_weigh hf.2.2 h
      exact ⟨x, List.mem_cons_of_mem _ h1, h2⟩

theorem weigh_le (q : String) : {rs : List Range} → {cs : List Nat} → Fits rs cs →
    takes (weigh rs cs) q ≤ (rs.map fun r => if r.isInput = true then r.upper else 0).sum ∧
    gives (weigh rs cs) q ≤ (rs.map fun r => if r.isInput = false then r.upper else 0).sum
  | [], [], _ => ⟨Nat.le_refl _, Nat.le_refl _⟩
  | [], _ :: _, h => h.elim
  | _ :: _, [], h => h.elim
  | r :: rs, c :: cs, h => by
    obtain ⟨h1, h2⟩ := weigh_le q h.2.2
    have h3 := h.2.1
    unfold takes at h1 ⊢
    unfold gives at h2 ⊢
    rw [weigh, List.map_cons, List.sum_cons, List.map_cons, List.sum_cons, List.map_cons, List.sum_cons, List.map_cons, List.sum_cons]
    generalize (List.map (Range.takes q) (weigh rs cs)).sum = A at h1 ⊢
    generalize (List.map (Range.gives q) (weigh rs cs)).sum = B at h2 ⊢
    unfold Range.takes Range.gives
    simp only
    cases r.isInput
    · constructor
      · simp only [Bool.false_eq_true, false_and, if_false]; omega
      · by_cases hq : r.place = q
        · simp only [hq, and_self, if_true]; omega
        · simp only [hq, and_false, if_false, if_true]; omega
    · constructor
      · by_cases hq : r.place = q
        · simp only [hq, and_self, if_true]; omega
        · simp only [hq, and_false, if_false, if_true]; omega
      · simp only [Bool.true_eq_false, false_and, if_false]; omega

theorem fits_lower : (rs : List Range) → (∀ r ∈ rs, r.lower ≤ r.upper) → (∀ r ∈ rs, r.current = r.lower) →
    Fits rs (rs.map (·.lower)) ∧ weigh rs (rs.map (·.lower)) = rs
  | [], _, _ => ⟨by trivial, rfl⟩
  | r :: rs, h, h0 => by
    obtain ⟨h1, h2⟩ := fits_lower rs (fun r' hr => h r' (List.mem_cons_of_mem _ hr)) (fun r' hr => h0 r' (List.mem_cons_of_mem _ hr))
    refine ⟨⟨Nat.le_refl _, h r List.mem_cons_self, h1⟩, ?_⟩
    rw [List.map_cons, weigh, h2]
    have := h0 r List.mem_cons_self
    cases r
    cases this
    rfl

/-- The compiled arcs allow the number of tokens of any binding. -/
theorem fits_arcs {N : CNet} (w : TFit N.types) (b : Bool) {ρ : Nat → Val} : {as : List CArc} → {cs : List (Nat × Arc)} → ArcsOK N as →
    (∀ v ∈ arcsVars as, ρ v ∈ N.types.values (N.vty v)) → compArcList N.types N.vty as = some cs →
    Fits (cs.map (mkRange N b)) (as.map (arcCount N ρ))
  | [], cs, _, _, h => by
    rw [compArcList] at h
    obtain rfl := Option.some.inj h
    trivial
  | a :: as, cs, hok, hρ, h => by
    rw [compArcList] at h
    cases h1 : compile N.types N.vty a.expr with
    | none => simp [h1] at h
    | some x =>
      cases h2 : compArcList N.types N.vty as with
      | none => simp [h1, h2] at h
      | some xs =>
        simp only [h1, h2] at h
        obtain rfl := Option.some.inj h
        obtain ⟨h3, h4⟩ := arcCount_bounds w (hok a (by simp)) h1 (ρ := ρ) fun v hv => hρ v (mem_arcsVars (by simp) hv)
        exact ⟨h3, h4, fits_arcs w b (fun a' h => hok a' (by simp [h])) (fun v hv => hρ v (by
          unfold arcsVars at hv ⊢
          rw [List.map_cons, List.flatten_cons, List.mem_append]
          exact .inr hv)) h2⟩

/-- The weights chosen for a binding, by places. -/
theorem weigh_arcs {N : CNet} (w : N.WF) {ρ : Nat → Val} {p : Nat} (hp : p < N.places.length) : {as : List CArc} → {cs : List (Nat × Arc)} →
    (∀ a ∈ as, a.place < N.places.length) → compArcList N.types N.vty as = some cs →
    takes (weigh (cs.map (mkRange N true)) (as.map (arcCount N ρ))) (N.place p).name = (as.map fun a => if a.place = p then arcCount N ρ a else 0).sum ∧
    gives (weigh (cs.map (mkRange N true)) (as.map (arcCount N ρ))) (N.place p).name = 0 ∧
    gives (weigh (cs.map (mkRange N false)) (as.map (arcCount N ρ))) (N.place p).name = (as.map fun a => if a.place = p then arcCount N ρ a else 0).sum ∧
    takes (weigh (cs.map (mkRange N false)) (as.map (arcCount N ρ))) (N.place p).name = 0
  | [], cs, _, h => by
    rw [compArcList] at h
    obtain rfl := Option.some.inj h
    exact ⟨rfl, rfl, rfl, rfl⟩
  | a :: as, cs, hok, h => by
    rw [compArcList] at h
    cases h1 : compile N.types N.vty a.expr with
    | none => simp [h1] at h
    | some x =>
      cases h2 : compArcList N.types N.vty as with
      | none => simp [h1, h2] at h
      | some xs =>
        simp only [h1, h2] at h
        obtain rfl := Option.some.inj h
        obtain ⟨i1, i2, i3, i4⟩ := weigh_arcs w (ρ := ρ) hp (fun a' h => hok a' (by simp [h])) h2
        have ha := hok a (by simp)
        have hn : (N.place a.place).name = (N.place p).name ↔ a.place = p := ⟨w.place_inj ha hp, fun e => by rw [e]⟩
        simp only [List.map_cons, weigh]
        unfold takes at i1 i4 ⊢
        unfold gives at i2 i3 ⊢
        simp only [List.map_cons, List.sum_cons, i1, i2, i3, i4]
        unfold Range.takes Range.gives mkRange
        simp only [hn, Bool.true_eq_false, Bool.false_eq_true, true_and, false_and, if_false, Nat.add_zero, and_self]

/-- what holds of the stored arcs of a transition -/
structure StoreOK (N : CNet) (t : CTrans) (s : Store) : Prop where
  name : s.name = t.name
  ins : compArcList N.types N.vty t.inputs = some s.ins
  outs : compArcList N.types N.vty t.outputs = some s.outs

theorem stores_ok {N : CNet} : {ts : List CTrans} → {ss : List Store} → stores N ts = some ss →
    ss.map (·.name) = ts.map (·.name) ∧ (∀ t ∈ ts, ∃ s ∈ ss, StoreOK N t s) ∧ ∀ s ∈ ss, ∃ t ∈ ts, StoreOK N t s
  | [], ss, h => by
    rw [stores] at h
    obtain rfl := Option.some.inj h
    exact ⟨rfl, (fun t h => nomatch h), (fun s h => nomatch h)⟩
  | t :: ts, ss, h => by
    rw [stores] at h
    cases h1 : compArcList N.types N.vty t.inputs with
    | none => simp [h1] at h
    | some ins =>
      cases h2 : compArcList N.types N.vty t.outputs with
      | none => simp [h1, h2] at h
      | some outs =>
        cases h3 : stores N ts with
        | none => simp [h1, h2, h3] at h
        | some r =>
          simp only [h1, h2, h3] at h
          obtain rfl := Option.some.inj h
          obtain ⟨i1, i2, i3⟩ := stores_ok h3
          refine ⟨by simp [i1], fun t' ht => ?_, fun s hs => ?_⟩
          · rcases List.mem_cons.1 ht with rfl | ht
            · exact ⟨_, List.mem_cons_self, rfl, h1, h2⟩
            · obtain ⟨s, hs, h⟩ := i2 t' ht
              exact ⟨s, List.mem_cons_of_mem _ hs, h⟩
          · rcases List.mem_cons.1 hs with rfl | hs
            · exact ⟨t, List.mem_cons_self, rfl, h1, h2⟩
            · obtain ⟨t', ht, h⟩ := i3 s hs
              exact ⟨t', List.mem_cons_of_mem _ ht, h⟩

theorem StoreOK.range {N : CNet} (x : XOK N) {t : CTrans} (ht : t ∈ N.transitions) {s : Store} (h : StoreOK N t s) :
    (∀ r ∈ mkRanges N s.ins s.outs, r.lower ≤ r.upper) ∧ (∀ r ∈ mkRanges N s.ins s.outs, r.current = r.lower) ∧
    (∀ r ∈ mkRanges N s.ins s.outs, (r.isInput = true → ∃ a ∈ t.inputs, r.place = (N.place a.place).name) ∧
      ∃ a ∈ t.inputs ++ t.outputs, r.place = (N.place a.place).name) := by
  have hi := arcList_ok x.types (fun a ha => x.arcs t ht a (List.mem_append_left _ ha)) h.ins
  have ho := arcList_ok x.types (fun a ha => x.arcs t ht a (List.mem_append_right _ ha)) h.outs
  have hlu : ∀ c : Arc, c.OK → c.minCount ≤ c.upper := fun c hc => by
    have := card_bounds Bind.none c hc
    omega
  refine ⟨fun r hr => ?_, fun r hr => ?_, fun r hr => ?_⟩
  · rcases List.mem_append.1 hr with hr | hr
    · obtain ⟨a, ha, rfl⟩ := List.mem_map.1 hr
      exact hlu _ (hi.1 a ha)
    · obtain ⟨a, ha, rfl⟩ := List.mem_map.1 hr
      exact hlu _ (ho.1 a ha)
  · rcases List.mem_append.1 hr with hr | hr
    · obtain ⟨a, ha, rfl⟩ := List.mem_map.1 hr; rfl
    · obtain ⟨a, ha, rfl⟩ := List.mem_map.1 hr; rfl
  · rcases List.mem_append.1 hr with hr | hr
    · obtain ⟨a, ha, rfl⟩ := List.mem_map.1 hr
      obtain ⟨e, he, h1, _⟩ := hi.2.2.2.1 a ha
      have h2 : (mkRange N true a).place = (N.place e.place).name := by rw [h1]; rfl
      exact ⟨fun _ => ⟨e, he, h2⟩, e, List.mem_append_left _ he, h2⟩
    · obtain ⟨a, ha, rfl⟩ := List.mem_map.1 hr
      obtain ⟨e, he, h1, _⟩ := ho.2.2.2.1 a ha
      have h2 : (mkRange N false a).place = (N.place e.place).name := by rw [h1]; rfl
      exact ⟨fun hc => (by cases hc), e, List.mem_append_right _ he, h2⟩

/-- The number of tokens of the arcs of each transition fits in 32 bits. -/
def SmallArcs (N : CNet) : Prop := ∀ t ∈ N.transitions,
  (∀ cs, compArcList N.types N.vty t.inputs = some cs → (cs.map fun a => a.2.upper).sum < W32) ∧
  ∀ cs, compArcList N.types N.vty t.outputs = some cs → (cs.map fun a => a.2.upper).sum < W32

theorem ranges_sum (N : CNet) (ins outs : List (Nat × Arc)) :
    ((mkRanges N ins outs).map fun r => if r.isInput = true then r.upper else 0).sum = (ins.map fun a => a.2.upper).sum ∧
    ((mkRanges N ins outs).map fun r => if r.isInput = false then r.upper else 0).sum = (outs.map fun a => a.2.upper).sum := by
  unfold mkRanges mkRange
  rw [List.map_append, List.sum_append, List.map_map, List.map_map, List.map_append, List.sum_append, List.map_map, List.map_map]
  constructor
  · have h0 : (outs.map ((fun r : Range => if r.isInput = true then r.upper else 0) ∘ fun a => mkRange N false a)).sum = 0 :=
      sum_zero _ fun _ _ => rfl
    exact (congrArg₂ (· + ·) rfl h0).trans (Nat.add_zero _)
  · have h0 : (ins.map ((fun r : Range => if r.isInput = false then r.upper else 0) ∘ fun a => mkRange N true a)).sum = 0 :=
      sum_zero _ fun _ _ => rfl
    exact (congrArg₂ (· + ·) h0 rfl).trans (Nat.zero_add _)

/-- What the copies have to be. -/
structure Covers (N : CNet) (E : List (String × List Range)) : Prop where
  nodup : (E.map (·.1)).Nodup
  entry : ∀ e ∈ E, ∃ t < N.transitions.length, ∃ s, StoreOK N (N.trans t) s ∧ ∃ k cs, Fits (mkRanges N s.ins s.outs) cs ∧
    e = (copyName (N.trans t).name k, weigh (mkRanges N s.ins s.outs) cs) ∧ ∀ t' < N.transitions.length, e.1 = (N.trans t').name → t' = t
  cover : ∀ t < N.transitions.length, ∀ ρ, N.Legal t ρ → ∀ s, StoreOK N (N.trans t) s →
    ∃ k, (copyName (N.trans t).name k, weigh (mkRanges N s.ins s.outs) ((N.trans t).inputs.map (arcCount N ρ) ++ (N.trans t).outputs.map (arcCount N ρ))) ∈ E ∧
      ∀ t' < N.transitions.length, copyName (N.trans t).name k = (N.trans t').name → t' = t
  base : ∀ t < N.transitions.length, ∀ s, StoreOK N (N.trans t) s → ((N.trans t).name, mkRanges N s.ins s.outs) ∈ E

theorem fits_trans {N : CNet} (x : XOK N) {t : Nat} (ht : t < N.transitions.length) {ρ : Nat → Val} (hl : N.Legal t ρ) {s : Store} (h : StoreOK N (N.trans t) s) :
    Fits (mkRanges N s.ins s.outs) ((N.trans t).inputs.map (arcCount N ρ) ++ (N.trans t).outputs.map (arcCount N ρ)) ∧
    weigh (mkRanges N s.ins s.outs) ((N.trans t).inputs.map (arcCount N ρ) ++ (N.trans t).outputs.map (arcCount N ρ)) =
      weigh (s.ins.map (mkRange N true)) ((N.trans t).inputs.map (arcCount N ρ)) ++
      weigh (s.outs.map (mkRange N false)) ((N.trans t).outputs.map (arcCount N ρ)) :=
  fits_append
    (fits_arcs x.types true (fun a ha => x.arcs _ (trans_mem ht) a (List.mem_append_left _ ha)) (fun v hv => hl.1 v (mem_ctvars.2 (.inr (.inl hv)))) h.ins)
    (fits_arcs x.types false (fun a ha => x.arcs _ (trans_mem ht) a (List.mem_append_right _ ha)) (fun v hv => hl.1 v (mem_ctvars.2 (.inr (.inr hv)))) h.outs)

/-! ### The two ways of building -/

def allE (N : CNet) (ss : List Store) : List (String × List Range) := (ss.map fun s => named s.name 0 (allR (mkRanges N s.ins s.outs))).flatten

theorem allCopies_eq {N : CNet} : (ss : List Store) → (∀ s ∈ ss, (∀ r ∈ mkRanges N s.ins s.outs, r.lower ≤ r.upper) ∧ ∀ r ∈ mkRanges N s.ins s.outs, r.current = r.lower) →
    allCopies N ss = some (ss.map fun s => (s.name, named s.name 0 (allR (mkRanges N s.ins s.outs))))
  | [], _ => rfl
  | s :: ss, h => by
    obtain ⟨h1, h2⟩ := h s List.mem_cons_self
    rw [allCopies, copies_all h1 h2, allCopies_eq ss fun s' hs => h s' (List.mem_cons_of_mem _ hs)]
    rfl

theorem mem_allE {N : CNet} {ss : List Store} {e : String × List Range} : e ∈ allE N ss ↔
    ∃ s ∈ ss, ∃ j, (allR (mkRanges N s.ins s.outs))[j]? = some e.2 ∧ e.1 = copyName s.name j := by
  unfold allE
  rw [List.mem_flatten]
  constructor
  · rintro ⟨l, h1, h2⟩
    obtain ⟨s, hs, rfl⟩ := List.mem_map.1 h1
    obtain ⟨j, h3, h4⟩ := (mem_named _ 0).1 h2
    exact ⟨s, hs, j, h3, by rw [h4, Nat.zero_add]⟩
  · rintro ⟨s, hs, j, h3, h4⟩
    exact ⟨_, List.mem_map.2 ⟨s, hs, rfl⟩, (mem_named _ 0).2 ⟨j, h3, by rw [h4, Nat.zero_add]⟩⟩

theorem named_nodup {t : String} (ht : ∀ j k, copyName t j = copyName t k → j = k) : (ys : List (List Range)) → (k : Nat) → ((named t k ys).map (·.1)).Nodup
  | [], _ => List.nodup_nil
  | y :: ys, k => by
    rw [named, List.map_cons, List.nodup_cons]
    refine ⟨fun hc => ?_, named_nodup ht ys (k + 1)⟩
    obtain ⟨e, he, h⟩ := List.mem_map.1 hc
    obtain ⟨j, _, h2⟩ := (mem_named _ _).1 he
    have := ht _ _ (h2.symm.trans h)
    omega

theorem allE_nodup {N : CNet} (hf : FreshNames N) : (ss : List Store) → (ss.map (·.name)).Nodup → (∀ s ∈ ss, ∃ t ∈ N.transitions, s.name = t.name) →
    ((allE N ss).map (·.1)).Nodup
  | [], _, _ => List.nodup_nil
  | s :: ss, hn, ht => by
    rw [List.map_cons, List.nodup_cons] at hn
    obtain ⟨t, h1, h2⟩ := ht s List.mem_cons_self
    have he : allE N (s :: ss) = named s.name 0 (allR (mkRanges N s.ins s.outs)) ++ allE N ss := by
      unfold allE; rw [List.map_cons, List.flatten_cons]
    rw [he, List.map_append, List.nodup_append]
    refine ⟨named_nodup (fun j k h => ?_) _ _, allE_nodup hf ss hn.2 fun s' hs => ht s' (List.mem_cons_of_mem _ hs), ?_⟩
    · rw [h2] at h
      exact (copyName_inj hf h1 h1 h).2
    · intro a ha b hb hab
      subst hab
      obtain ⟨e, he1, rfl⟩ := List.mem_map.1 ha
      obtain ⟨e', he2, hee⟩ := List.mem_map.1 hb
      obtain ⟨j, _, h3⟩ := (mem_named _ _).1 he1
      obtain ⟨s', hs', k, _, h4⟩ := mem_allE.1 he2
      obtain ⟨t', h5, h6⟩ := ht s' (List.mem_cons_of_mem _ hs')
      have : copyName t.name (0 + j) = copyName t'.name k := by rw [← h2, ← h3, ← hee, h4, h6]
      exact hn.1 (List.mem_map.2 ⟨s', hs', by rw [h6, h2]; exact (copyName_inj hf h1 h5 this).1.symm⟩)

theorem index_of {N : CNet} {t : CTrans} (h : t ∈ N.transitions) : ∃ i < N.transitions.length, N.trans i = t := by
  obtain ⟨i, hi, rfl⟩ := List.mem_iff_getElem.1 h
  refine ⟨i, hi, ?_⟩
  unfold CNet.trans
  rw [List.getD_eq_getElem?_getD, List.getElem?_eq_getElem hi]
  rfl

theorem StoreOK.unique {N : CNet} {t : CTrans} {s s' : Store} (hs : StoreOK N t s) (h4 : StoreOK N t s') : s' = s := by
  cases s; cases s'
  have e1 := h4.name; have e2 := h4.ins; have e3 := h4.outs
  have f1 := hs.name; have f2 := hs.ins; have f3 := hs.outs
  simp only at e1 e2 e3 f1 f2 f3
  rw [f2] at e2; rw [f3] at e3
  rw [e1, f1, Option.some.inj e2, Option.some.inj e3]

theorem covers_all {N : CNet} (w : N.WF) (x : XOK N) (hf : FreshNames N) {ss : List Store} (hs : stores N N.transitions = some ss) : Covers N (allE N ss) := by
  obtain ⟨h1, h2, h3⟩ := stores_ok hs
  refine ⟨allE_nodup hf ss (by rw [h1]; exact w.tnames) fun s hs => ?_, fun e he => ?_, fun t ht ρ hl s hs => ?_, fun t ht s hs => ?_⟩
  · obtain ⟨t, ht, h⟩ := h3 s hs
    exact ⟨t, ht, h.name⟩
  · obtain ⟨s, hs, j, h4, h5⟩ := mem_allE.1 he
    obtain ⟨t, ht, h6⟩ := h3 s hs
    obtain ⟨cs, h7, h8⟩ := mem_allR _ (h6.range x ht).1 (List.mem_of_getElem? h4)
    obtain ⟨i, hi, rfl⟩ := index_of ht
    refine ⟨i, hi, s, h6, j, cs, h7, Prod.ext (by rw [h5, h6.name]) h8, fun t' ht' he' => ?_⟩
    have h9 : copyName (N.trans t').name 0 = copyName (N.trans i).name j := by
      rw [← h6.name, ← h5, he']
      rfl
    exact w.trans_inj ht' hi (copyName_inj hf (trans_mem ht') (trans_mem hi) h9).1
  · obtain ⟨s', hs', h4⟩ := h2 _ (trans_mem ht)
    obtain rfl := hs.unique h4
    obtain ⟨j, hj, h5⟩ := List.mem_iff_getElem.1 (allR_has _ _ (fits_trans x ht hl hs).1)
    refine ⟨j, mem_allE.2 ⟨s', hs', j, ?_, by rw [hs.name]⟩, fun t' ht' he => ?_⟩
    · rw [List.getElem?_eq_getElem hj, h5]
    · have h9 : copyName (N.trans t').name 0 = copyName (N.trans t).name j := by rw [he]; rfl
      exact w.trans_inj ht' ht (copyName_inj hf (trans_mem ht') (trans_mem ht) h9).1
  · obtain ⟨s', hs', h4⟩ := h2 _ (trans_mem ht)
    obtain rfl := hs.unique h4
    obtain ⟨h5, h6, _⟩ := hs.range x (trans_mem ht)
    refine mem_allE.2 ⟨s', hs', 0, ?_, by rw [hs.name]; rfl⟩
    obtain ⟨ys, h7, _⟩ := turns_all _ h5
    rw [h7, List.getElem?_cons_zero]
    congr 1
    conv_rhs => rw [← List.map_id (mkRanges N s'.ins s'.outs)]
    apply List.map_congr_left
    intro r hr
    have := h6 r hr
    cases r
    cases this
    rfl

def plainE (N : CNet) (ss : List Store) : List (String × List Range) := ss.map fun s => (s.name, mkRanges N s.ins s.outs)

theorem plain_eq {N : CNet} {s : Store} (h : ∀ a ∈ s.ins ++ s.outs, 0 < a.2.minCount) :
    plainOps N s.name s.ins s.outs = copyOps (s.name, mkRanges N s.ins s.outs) := by
  unfold plainOps copyOps mkRanges
  rw [List.map_append, List.flatten_append, List.map_map, List.map_map]
  have h1 : ∀ l : List (Nat × Arc), (∀ a ∈ l, 0 < a.2.minCount) →
      (l.map (Range.ops s.name ∘ mkRange N true)).flatten = l.map fun a => Op.input (N.place a.1).name s.name false a.2.minCount := by
    intro l hl
    induction l with
    | nil => rfl
    | cons a l ih =>
      rw [List.map_cons, List.flatten_cons, ih fun a' h => hl a' (List.mem_cons_of_mem _ h), List.map_cons]
      have := hl a List.mem_cons_self
      simp only [Function.comp, Range.ops, mkRange, gt_iff_lt, if_pos this, if_true, List.singleton_append]
  have h2 : ∀ l : List (Nat × Arc), (∀ a ∈ l, 0 < a.2.minCount) →
      (l.map (Range.ops s.name ∘ mkRange N false)).flatten = l.map fun a => Op.output s.name (N.place a.1).name a.2.minCount := by
    intro l hl
    induction l with
    | nil => rfl
    | cons a l ih =>
      rw [List.map_cons, List.flatten_cons, ih fun a' h => hl a' (List.mem_cons_of_mem _ h), List.map_cons]
      have := hl a List.mem_cons_self
      simp [Function.comp, Range.ops, mkRange, this]
  rw [h1 _ fun a ha => h a (List.mem_append_left _ ha), h2 _ fun a ha => h a (List.mem_append_right _ ha)]

theorem covers_plain {N : CNet} (w : N.WF) (x : XOK N) {ss : List Store} (hs : stores N N.transitions = some ss) (hn : foundNegative ss = false) :
    Covers N (plainE N ss) := by
  obtain ⟨h1, h2, h3⟩ := stores_ok hs
  refine ⟨?_, fun e he => ?_, fun t ht ρ hl s hs => ?_, fun t ht s hs => ?_⟩
  · unfold plainE
    rw [List.map_map]
    have : ss.map ((·.1) ∘ fun s => (s.name, mkRanges N s.ins s.outs)) = ss.map (·.name) := rfl
    rw [this, h1]
    exact w.tnames
  · obtain ⟨s, hs, rfl⟩ := List.mem_map.1 he
    obtain ⟨t, ht, h6⟩ := h3 s hs
    obtain ⟨i, hi, rfl⟩ := index_of ht
    obtain ⟨h7, h8, _⟩ := h6.range x ht
    obtain ⟨h9, h10⟩ := fits_lower _ h7 h8
    refine ⟨i, hi, s, h6, 0, _, h9, Prod.ext h6.name h10.symm, fun t' ht' he' => ?_⟩
    exact w.trans_inj ht' hi (by rw [← he', ← h6.name])
  · obtain ⟨s', hs', h4⟩ := h2 _ (trans_mem ht)
    obtain rfl := hs.unique h4
    refine ⟨0, List.mem_map.2 ⟨s', hs', Prod.ext hs.name ?_⟩, fun t' ht' he => w.trans_inj ht' ht he.symm⟩
    simp only
    -- the weights are the exact numbers
    have key : ∀ (rs : List Range) (cs : List Nat), Fits rs cs → (∀ r ∈ rs, r.lower = r.upper ∧ r.current = r.lower) → weigh rs cs = rs := by
      intro rs
      induction rs with
      | nil => intro cs h _; cases cs <;> rfl
      | cons r rs ih =>
        intro cs h hr
        cases cs with
        | nil => exact h.elim
        | cons c cs =>
          rw [weigh, ih cs h.2.2 fun r' hr' => hr r' (List.mem_cons_of_mem _ hr')]
          obtain ⟨e1, e2⟩ := hr r List.mem_cons_self
          have := h.1; have := h.2.1
          have hc : c = r.current := by omega
          subst hc
          rfl
    refine (key _ _ (fits_trans x ht hl hs).1 fun r hr => ⟨?_, (hs.range x (trans_mem ht)).2.1 r hr⟩).symm
    have hneg : ∀ a ∈ s'.ins ++ s'.outs, a.2.neg = false := fun a ha => by
      unfold foundNegative at hn
      rw [List.any_eq_false] at hn
      have := hn s' hs'
      rw [Bool.not_eq_true, List.any_eq_false] at this
      simpa using this a ha
    rcases List.mem_append.1 hr with hr | hr
    · obtain ⟨a, ha, rfl⟩ := List.mem_map.1 hr
      exact exact_of_neg _ (hneg a (List.mem_append_left _ ha))
    · obtain ⟨a, ha, rfl⟩ := List.mem_map.1 hr
      exact exact_of_neg _ (hneg a (List.mem_append_right _ ha))
  · obtain ⟨s', hs', h4⟩ := h2 _ (trans_mem ht)
    obtain rfl := hs.unique h4
    exact List.mem_map.2 ⟨s', hs', Prod.ext hs.name rfl⟩

theorem takes_mono (q : String) : {rs : List Range} → {cs : List Nat} → Fits rs cs → (∀ r ∈ rs, r.current = r.lower) → takes rs q ≤ takes (weigh rs cs) q
  | [], [], _, _ => Nat.le_refl _
  | [], _ :: _, h, _ => h.elim
  | _ :: _, [], h, _ => h.elim
  | r :: rs, c :: cs, h, h0 => by
    have ih := takes_mono q h.2.2 fun r' hr => h0 r' (List.mem_cons_of_mem _ hr)
    have h1 := h0 r List.mem_cons_self
    have h2 := h.1
    unfold takes at ih ⊢
    rw [weigh, List.map_cons, List.sum_cons, List.map_cons, List.sum_cons]
    refine Nat.add_le_add ?_ ih
    unfold Range.takes
    simp only
    split <;> omega

/-! ### Firing -/

/-- the tokens by the names of the places -/
def ByName (N : CNet) (M : CMark) (u : String → Nat) : Prop := ∀ p < N.places.length, u (N.place p).name = N.total M p

theorem total_le {N : CNet} {M : CMark} {f : Val → Nat} {p : Nat} (h : ∀ x, f x ≤ M p x) : ((N.types.values (N.place p).ty).map f).sum ≤ N.total M p :=
  sum_le _ fun x _ => h x

theorem total_fire {N : CNet} {M : CMark} {t : Nat} {ρ : Nat → Val} (h : ∀ p x, arcsTokens N ρ (N.trans t).inputs p x ≤ M p x) (p : Nat) :
    N.total (N.fire M t ρ) p = N.total M p - ((N.types.values (N.place p).ty).map (arcsTokens N ρ (N.trans t).inputs p)).sum +
      ((N.types.values (N.place p).ty).map (arcsTokens N ρ (N.trans t).outputs p)).sum := by
  unfold CNet.total
  have key : ∀ l : List Val, (l.map (N.fire M t ρ p)).sum + (l.map (arcsTokens N ρ (N.trans t).inputs p)).sum =
      (l.map (M p)).sum + (l.map (arcsTokens N ρ (N.trans t).outputs p)).sum := by
    intro l
    induction l with
    | nil => rfl
    | cons a l ih =>
      simp only [List.map_cons, List.sum_cons]
      have := h p a
      have h2 : N.fire M t ρ p a = M p a - arcsTokens N ρ (N.trans t).inputs p a + arcsTokens N ρ (N.trans t).outputs p a := rfl
      omega
  have h1 := key (N.types.values (N.place p).ty)
  have h2 : ((N.types.values (N.place p).ty).map (arcsTokens N ρ (N.trans t).inputs p)).sum ≤ ((N.types.values (N.place p).ty).map (M p)).sum :=
    sum_le _ fun x _ => h p x
  omega

theorem takes_append (a b : List Range) (q : String) : takes (a ++ b) q = takes a q + takes b q := by
  unfold takes; rw [List.map_append, List.sum_append]

theorem gives_append (a b : List Range) (q : String) : gives (a ++ b) q = gives a q + gives b q := by
  unfold gives; rw [List.map_append, List.sum_append]

theorem takes_pos {rs : List Range} {q : String} (h : takes rs q ≠ 0) : ∃ r ∈ rs, r.isInput = true ∧ r.place = q := by
  apply Classical.byContradiction
  intro hc
  apply h
  unfold takes
  refine sum_zero _ fun r hr => ?_
  unfold Range.takes
  rw [if_neg]
  rintro ⟨h1, h2⟩
  exact hc ⟨r, hr, h1, h2⟩

theorem current_le {rs : List Range} {r : Range} (hr : r ∈ rs) :
    (r.isInput = true → r.current ≤ takes rs r.place) ∧ (r.isInput = false → r.current ≤ gives rs r.place) := by
  induction rs with
  | nil => cases hr
  | cons a rs ih =>
    unfold takes gives
    rw [List.map_cons, List.sum_cons, List.map_cons, List.sum_cons]
    rcases List.mem_cons.1 hr with rfl | hr
    · refine ⟨fun h => ?_, fun h => ?_⟩
      · have : r.takes r.place = r.current := by unfold Range.takes; rw [if_pos ⟨h, rfl⟩]
        omega
      · have : r.gives r.place = r.current := by unfold Range.gives; rw [if_pos ⟨h, rfl⟩]
        omega
    · obtain ⟨h1, h2⟩ := ih hr
      refine ⟨fun h => ?_, fun h => ?_⟩
      · have := h1 h; unfold takes at this; omega
      · have := h2 h; unfold gives at this; omega

theorem sane_laid {N : CNet} (w : N.WF) (hsm : SmallArcs N) {E : List (String × List Range)} {ops : List Op}
    (cv : Covers N E) (ld : Laid N E ops) : Sane ops := by
  have hb : ∀ e ∈ E, ∀ q, takes e.2 q < W32 ∧ gives e.2 q < W32 := by
    intro e he q
    obtain ⟨t, ht, s, hs, k, cs, hf, rfl, _⟩ := cv.entry e he
    obtain ⟨h1, h2⟩ := weigh_le q hf
    obtain ⟨h3, h4⟩ := ranges_sum N s.ins s.outs
    obtain ⟨h5, h6⟩ := hsm _ (trans_mem ht)
    have := h5 _ hs.ins
    have := h6 _ hs.outs
    simp only
    omega
  refine ⟨fun p t i k hm => ?_, fun t p k hm => ?_, fun t p => ?_, fun t p => ?_⟩
  · cases i with
    | true =>
      obtain ⟨h, hh, _, _, rfl⟩ := ld.inh p t k hm
      exact (w.inhib h hh).2.2
    | false =>
      obtain ⟨h0, e, he, _, r, hr, h1, h2, rfl⟩ := ld.input p t k hm
      exact ⟨h0, Nat.lt_of_le_of_lt ((current_le hr).1 h1) (hb e he _).1⟩
  · obtain ⟨h0, e, he, _, r, hr, h1, h2, rfl⟩ := ld.output p t k hm
    exact ⟨h0, Nat.lt_of_le_of_lt ((current_le hr).2 h1) (hb e he _).2⟩
  · rw [ld.pre]
    by_cases h : t ∈ E.map (·.1)
    · obtain ⟨e, he, rfl⟩ := List.mem_map.1 h
      rw [(takesOf_mem cv.nodup he p).1]
      exact (hb e he p).1
    · rw [(takesOf_none h p).1]; decide
  · rw [ld.post]
    by_cases h : t ∈ E.map (·.1)
    · obtain ⟨e, he, rfl⟩ := List.mem_map.1 h
      rw [(takesOf_mem cv.nodup he p).2]
      exact (hb e he p).2
    · rw [(takesOf_none h p).2]; decide

theorem noMix_laid {N : CNet} (w : N.WF) (x : XOK N) (hmix : N.NoMix) {E : List (String × List Range)} {ops : List Op}
    (cv : Covers N E) (ld : Laid N E ops) : NoMix ops := by
  intro p t j k h1 h2
  obtain ⟨h, hh, rfl, rfl, _⟩ := ld.inh p t j h1
  obtain ⟨_, e, he, het, r, hr, hin, hrp, _⟩ := ld.input _ _ k h2
  obtain ⟨t', ht', s, hs, i, cs, hf, rfl, huniq⟩ := cv.entry e he
  have hi := w.inhib h hh
  have := huniq h.trans hi.2.1 het
  subst this
  obtain ⟨r', hr', e1, e2⟩ := mem_weigh hf hr
  obtain ⟨a, ha, hap⟩ := ((hs.range x (trans_mem ht')).2.2 r' hr').1 (by rw [← e1]; exact hin)
  have hal := (w.arcs _ (trans_mem ht') a (List.mem_append_left _ ha)).1
  exact hmix h hh a ha (w.place_inj hal hi.1 (by rw [← hap, ← e2, hrp]))

/-- A firing of the coloured net is one of the net of the calls. -/
theorem fires {N : CNet} (w : N.WF) (x : XOK N) {E : List (String × List Range)} {ops : List Op} (cv : Covers N E) (ld : Laid N E ops)
    {ss : List Store} (hss : stores N N.transitions = some ss)
    {M : CMark} {u : String → Nat} (hu : ByName N M u) {t : Nat} (ht : t < N.transitions.length) {ρ : Nat → Val} (hl : N.Legal t ρ) (hen : N.Enabled M t ρ) :
    (∃ e ∈ E, (specNet ops).Enabled u e.1 ∧ ByName N (N.fire M t ρ) ((specNet ops).fire u e.1)) ∧
    (∃ e ∈ E, e.1 = (N.trans t).name ∧ (specNet ops).Enabled u e.1) := by
  obtain ⟨s, _, hs⟩ := (stores_ok hss).2.1 _ (trans_mem ht)
  obtain ⟨k, hk, hun⟩ := cv.cover t ht ρ hl s hs
  obtain ⟨hfit, hw⟩ := fits_trans x ht hl hs
  have hpl : ∀ a ∈ (N.trans t).inputs ++ (N.trans t).outputs, a.place < N.places.length := fun a ha => (w.arcs _ (trans_mem ht) a ha).1
  have hin : ∀ p < N.places.length, takes (weigh (mkRanges N s.ins s.outs) ((N.trans t).inputs.map (arcCount N ρ) ++ (N.trans t).outputs.map (arcCount N ρ))) (N.place p).name =
      ((N.types.values (N.place p).ty).map (arcsTokens N ρ (N.trans t).inputs p)).sum := fun p hp => by
    rw [hw, takes_append, (weigh_arcs w hp (fun a ha => hpl a (List.mem_append_left _ ha)) hs.ins).1,
      (weigh_arcs w hp (fun a ha => hpl a (List.mem_append_right _ ha)) hs.outs).2.2.2, Nat.add_zero, arcs_total]
  have hout : ∀ p < N.places.length, gives (weigh (mkRanges N s.ins s.outs) ((N.trans t).inputs.map (arcCount N ρ) ++ (N.trans t).outputs.map (arcCount N ρ))) (N.place p).name =
      ((N.types.values (N.place p).ty).map (arcsTokens N ρ (N.trans t).outputs p)).sum := fun p hp => by
    rw [hw, gives_append, (weigh_arcs w hp (fun a ha => hpl a (List.mem_append_left _ ha)) hs.ins).2.1,
      (weigh_arcs w hp (fun a ha => hpl a (List.mem_append_right _ ha)) hs.outs).2.2.1, Nat.zero_add, arcs_total]
  -- inputs of anything below this copy
  have hle : ∀ q, takes (weigh (mkRanges N s.ins s.outs) ((N.trans t).inputs.map (arcCount N ρ) ++ (N.trans t).outputs.map (arcCount N ρ))) q ≤ u q := fun q => by
    rcases Nat.eq_zero_or_pos (takes (weigh (mkRanges N s.ins s.outs) ((N.trans t).inputs.map (arcCount N ρ) ++ (N.trans t).outputs.map (arcCount N ρ))) q) with h0 | h0
    · rw [h0]; exact Nat.zero_le _
    · obtain ⟨r, hr, _, rfl⟩ := takes_pos (Nat.pos_iff_ne_zero.1 h0)
      obtain ⟨r', hr', _, e2⟩ := mem_weigh hfit hr
      obtain ⟨a, ha, hap⟩ := ((hs.range x (trans_mem ht)).2.2 r' hr').2
      rw [e2, hap, hin _ (hpl a ha), hu _ (hpl a ha)]
      exact total_le fun y => hen.1 _ y
  have hinh : ∀ e ∈ E, (∀ t' < N.transitions.length, e.1 = (N.trans t').name → t' = t) → ∀ p v, (specNet ops).inh e.1 p = some v → u p < v := by
    intro e he hun p
    refine (specInh_iff ops e.1 p (u p)).2 fun k hk => ?_
    obtain ⟨h, hh, rfl, hn, rfl⟩ := ld.inh _ _ _ hk
    have hi := w.inhib h hh
    rw [hu _ hi.1]
    exact hen.2 h hh (hun _ hi.2.1 hn)
  constructor
  · refine ⟨_, hk, ⟨fun q => ?_, ?_⟩, fun p hp => ?_⟩
    · show specPre ops _ q ≤ _
      rw [ld.pre, (takesOf_mem cv.nodup hk q).1]
      exact hle q
    · exact hinh _ hk hun
    · show _ - specPre ops _ _ + specPost ops _ _ = _
      rw [ld.pre, ld.post, (takesOf_mem cv.nodup hk _).1, (takesOf_mem cv.nodup hk _).2]
      simp only
      rw [hin p hp, hout p hp, hu p hp, total_fire hen.1]
  · have hb := cv.base t ht s hs
    refine ⟨_, hb, rfl, fun q => ?_, hinh _ hb fun t' ht' he => w.trans_inj ht' ht he.symm⟩
    show specPre ops _ q ≤ _
    rw [ld.pre, (takesOf_mem cv.nodup hb q).1]
    exact Nat.le_trans (takes_mono q hfit (hs.range x (trans_mem ht)).2.1) (hle q)

end XCol
end Verif
