import Verif.LTL.Engine
import Verif.Props.LTL
import Verif.Props.CtlEngine
import Verif.Net.Examples

/-!
# C43, C44, C45, C46: the product, the translation of queries, and the answers of the LTL engine
-/

namespace Verif
namespace LTL
open PQL CTL Relation

/-- **C43** The product generator: in a marking whose successors fit into 32 bits, if the automaton has no parallel edges,
the calls of `next` end, every state returned is a successor in the product, and every successor whose marking is
stored is returned. -/
theorem C43_product_successors (N : FlatNet) (w : N.WF) (A : Buchi) (hA : A.Simple) (ap : Mark → Nat → Bool)
    (bnd : List Nat → Bool) (l : List Nat) (q : Nat) (hlen : l.length = N.nplaces)
    (hlt : ∀ p, p < N.nplaces → toMark l p < W32)
    (hstep : ∀ t m', N.toNet.Step (toMark l) t m' → ∀ p, p < N.nplaces → m' p < W32 - 1) :
    ∃ L, psucc N A ap bnd (l, q) = some L ∧ (∀ x ∈ L, PEdge N A ap (l, q) x) ∧
      ∀ x, PEdge N A ap (l, q) x → bnd x.1 = true → x ∈ L :=
  psucc_spec w hA bnd ⟨hlen, hlt, hstep⟩ q

/-- **C43** The initial states of the product: the automaton reads the initial marking. -/
theorem C43_product_initial (A : Buchi) (ap : Mark → Nat → Bool) (l0 : List Nat) (x : List Nat × Nat) :
    x ∈ pinits A ap l0 ↔ x.1 = l0 ∧ ∃ g, (x.2, g) ∈ A.edges A.init ∧ g.valid (ap (toMark l0)) = true := mem_pinits

/-- **C43** The runs of the product are the paths of the net that the automaton accepts. -/
theorem C43_product_runs (N : FlatNet) (w : N.WF) (A : Buchi) (ap : Mark → Nat → Bool) (l0 : List Nat)
    (hl : l0.length = N.nplaces) :
    (∃ i, i ∈ pinits A ap l0 ∧ AccRun (PEdge N A ap) (fun v => A.acc v.2) i) ↔
      ∃ π, N.ts.IsPath π ∧ π 0 = toMark l0 ∧ A.Accepts ap π := accRun_iff w hl

/-- **C44** Product ids: with at most `2^20` automaton states and `2^44` markings, both parts can be read back from an id. -/
theorem C44_product_id (mid q : Nat) (hq : q < 2 ^ 20) (hm : mid < 2 ^ 44) :
    idBuchi (productId mid q) = q ∧ idMarking (productId mid q) = mid := by
  have h1 : (mid <<< 20) % 2 ^ 64 = mid <<< 20 := by
    rw [Nat.shiftLeft_eq]
    exact Nat.mod_eq_of_lt (by omega)
  have h2 : q &&& (2 ^ 20 - 1) = q := by rw [Nat.and_two_pow_sub_one_eq_mod]; exact Nat.mod_eq_of_lt hq
  have h3 : q ||| (mid <<< 20) = mid * 2 ^ 20 + q := by
    rw [Nat.or_comm, ← Nat.shiftLeft_add_eq_or_of_lt hq, Nat.shiftLeft_eq]
  unfold idBuchi idMarking productId
  rw [h1, h2, h3, Nat.and_two_pow_sub_one_eq_mod, Nat.shiftRight_eq_div_pow]
  omega

/-- **C44** Hence different product states have different ids. -/
theorem C44_product_id_inj (m q m' q' : Nat) (hq : q < 2 ^ 20) (hq' : q' < 2 ^ 20) (hm : m < 2 ^ 44) (hm' : m' < 2 ^ 44)
    (h : productId m q = productId m' q') : m = m' ∧ q = q' := by
  have h1 := C44_product_id m q hq hm
  have h2 := C44_product_id m' q' hq' hm'
  rw [h] at h1
  exact ⟨h1.2.symm.trans h2.2, h1.1.symm.trans h2.1⟩

/-- C44 (finding): nested depth-first search does not check the size of the automaton; with more than `2^20` states two
product states share an id.  (The search based on Tarjan's algorithm refuses such automata.) -/
theorem C44_finding_collision (mid : Nat) : productId mid 0 = productId mid (2 ^ 20) := by
  unfold productId
  rw [Nat.and_two_pow_sub_one_eq_mod, Nat.and_two_pow_sub_one_eq_mod]
  simp

/-- **C45** The translation keeps the meaning: read along any path, spot's formula holds exactly when the query formula does,
provided the word reads the propositions in the table as the path does. -/
theorem C45_translation (cfg : TCfg) (N : FlatNet) (w : N.WF) (reg : Key → Nat) (f : Cond)
    (hf : PathF f = true) (hp : PrintOK N.ts cfg.print (toSpot cfg f []).2)
    (hreg : ∀ e ∈ (toSpot cfg f []).2, ∀ e' ∈ (toSpot cfg f []).2, reg e.1 = reg e'.1 → e.1 = e'.1)
    (π : Nat → Mark) (hπ : N.ts.IsPath π) :
    (toSpot cfg f []).1.sat (fun i k => apValue N reg (toSpot cfg f []).2 (π i) (reg k)) 0 ↔ f.sat N.ts π := by
  have htab : TableOK cfg (toSpot cfg f []).2 := toSpot_table f [] (fun i e h => by simp at h)
  have := (toSpot_good (cfg := cfg) (T := N.ts) (π := π) _ f hf []).2 (apValue_reads w hreg hp htab hπ) 0
  rwa [suffix_zero] at this

/-- **C45** `to_ltl`: every query that is a path quantifier followed by an LTL formula is accepted, and it holds exactly when
"all paths satisfy the formula returned" equals the negation of the flag returned. -/
theorem C45_to_ltl (T : TS) (c : Cond) (h : QueryF c = true) : isLTL c = true ∧
    ∃ f neg, toLtl c = (some f, neg) ∧ PathF f = true ∧
      ∀ π, c.sat T π ↔ ((∀ π', T.IsPath π' → π' 0 = π 0 → f.sat T π') ↔ neg = false) :=
  ⟨queryF_isLTL c h, toLtl_sat c h⟩

section
variable (e : ECfg) (ho : OrdOK e.ord) (N : FlatNet) (w : N.WF) (A : Buchi) (hA : A.Simple) (ap : Mark → Nat → Bool)
  (l0 : List Nat) (hl : l0.length = N.nplaces) (hs : Small N (toMark l0))
include ho w hA hl hs

/-- **C46** When the search reports a violation, there is a path of the net that the automaton accepts; this holds for every
token bound. -/
theorem C46_search_violated (fuel : Nat) (h : search e N A ap l0 fuel = some false) :
    ∃ π, N.ts.IsPath π ∧ π 0 = toMark l0 ∧ A.Accepts ap π := by
  unfold search at h
  cases ha : e.algo with
  | ndfs =>
    rw [ha] at h
    exact lasso_accepts w hA hl hs (C29_ndfs_sound _ _ (pgraph_edges ho) _ _ _ h)
  | tarjan =>
    rw [ha] at h
    exact lasso_accepts w hA hl hs (C30_tarjan_sound _ _ (pgraph_edges ho) _ _ h)

variable (hb : ∀ l, StoredOK N (toMark l0) l → e.bnd l = true) (hfin : {m | N.toNet.Reach (toMark l0) m}.Finite)
  (k : Nat) (hk : A.States k)
include hb hfin hk

omit ho hb in
/-- The reachable part of the product is finite. -/
theorem product_list : ∃ R : List (List Nat × Nat), ∀ i v, i ∈ pinits A ap l0 →
    (pgraph N A ap e.bnd e.ord e.hash).bnd i = true →
    ReflTransGen ((pgraph N A ap e.bnd e.ord e.hash).B (pE N A ap e.bnd)) i v → v ∈ R := by
  obtain ⟨R, hR⟩ := product_finite (m0 := toMark l0) k hfin
  refine ⟨R, fun i v hi _ hr => ?_⟩
  obtain ⟨h1, g, h2, _⟩ := mem_pinits.1 hi
  have hi' : StoredOK N (toMark l0) i.1 := by rw [h1]; exact ⟨hl, Net.Reach.refl _ _⟩
  obtain ⟨hst, hr'⟩ := reach_stored w hA hs hi' hr
  exact hR v hst (reach_state_lt hk ((hk _).1 _ h2) hr')

omit ho in
/-- The short cut for self loops labelled `true` is justified. -/
theorem product_inv : (pgraph N A ap e.bnd e.ord e.hash).InvOK (pE N A ap e.bnd) (· ∈ pinits A ap l0) := by
  obtain ⟨R, hR⟩ := product_list e N w A hA ap l0 hl hs hfin k hk
  intro i a hi hbi hr ha hinv
  have hi' : StoredOK N (toMark l0) i.1 := by
    rw [(mem_pinits.1 hi).1]; exact ⟨hl, Net.Reach.refl _ _⟩
  obtain ⟨hst, _⟩ := reach_stored w hA hs hi' hr
  have hrun := run_complete (ord := e.ord) (hash := e.hash) w hA hs hb hst (inv_run (ap := ap) w hst hinv ha)
  exact hrun.toCycle fun v hv => hR i v hi hbi (hr.trans hv)

/-- **C46** Without a token bound (or if no reachable marking exceeds it) the search reports a violation exactly when there is
a path of the net that the automaton accepts. -/
theorem C46_search_exact (fuel : Nat) (b : Bool) (h : search e N A ap l0 fuel = some b) :
    b = false ↔ ∃ π, N.ts.IsPath π ∧ π 0 = toMark l0 ∧ A.Accepts ap π := by
  obtain ⟨R, hR⟩ := product_list e N w A hA ap l0 hl hs hfin k hk
  have hinv := product_inv e N w A hA ap l0 hl hs hb hfin k hk
  have key : b = false ↔ ∃ i, i ∈ pinits A ap l0 ∧ (pgraph N A ap e.bnd e.ord e.hash).bnd i = true ∧
      AccRun ((pgraph N A ap e.bnd e.ord e.hash).B (pE N A ap e.bnd)) (pgraph N A ap e.bnd e.ord e.hash).acc i := by
    unfold search at h
    cases ha : e.algo with
    | ndfs =>
      rw [ha] at h
      exact C29_ndfs_runs _ _ (pgraph_edges ho) _ _ R hinv hR fuel b h
    | tarjan =>
      rw [ha] at h
      exact C30_tarjan_runs _ _ (pgraph_edges ho) _ R hinv hR fuel b h
  rw [key, ← accRun_iff w hl]
  refine exists_congr fun i => and_congr_right fun hi => ?_
  have hi' : StoredOK N (toMark l0) i.1 := by
    rw [(mem_pinits.1 hi).1]; exact ⟨hl, Net.Reach.refl _ _⟩
  constructor
  · exact fun ⟨_, h⟩ => run_sound w hA hs hi' h
  · exact fun h => ⟨hb _ hi', run_complete w hA hs hb hi' h⟩

omit hb in
/-- **C46** The search ends on nets with finitely many reachable markings. -/
theorem C46_search_terminates : ∃ fuel, ∀ n, fuel ≤ n → (search e N A ap l0 n).isSome = true := by
  obtain ⟨R, hR⟩ := product_list e N w A hA ap l0 hl hs hfin k hk
  unfold search
  cases ha : e.algo with
  | ndfs => exact C29_ndfs_terminates _ _ (pgraph_edges ho) e.weak _ R _ (succ_length ho hA hk) hR
  | tarjan => exact C30_tarjan_terminates _ _ (pgraph_edges ho) _ R _ (succ_length ho hA hk) hR

end

section
variable (e : ECfg) (ho : OrdOK e.ord) (N : FlatNet) (w : N.WF) (A : Buchi) (hA : A.Simple) (reg : Key → Nat)
  (l0 : List Nat) (hl : l0.length = N.nplaces) (hs : Small N (toMark l0))
  (query : Cond) (hq : QueryF query = true) (hp : PrintFor e.tcfg N.ts query) (hspot : SpotFor e.tcfg A reg query)
include ho w hA hl hs hp hq hspot

/-- **C46** A violating or witnessing path found is real, whatever the token bound: "not satisfied" for a query about all paths
and "satisfied" for a query about some path are always right. -/
theorem C46_ltl_found (fuel : Nat) (b : Bool) (h : ltlSolve e N A reg query l0 fuel = some b)
    (hneg : b = (toLtl query).2) (π : Nat → Mark) (h0 : π 0 = toMark l0) : b = true ↔ query.sat N.ts π := by
  obtain ⟨f, neg, hf, hpf, hsat⟩ := toLtl_sat (T := N.ts) query hq
  have hsp := hspot f neg hf
  unfold ltlSolve at h
  rw [queryF_isLTL query hq, hf] at h
  simp only [if_true] at h
  obtain ⟨b', h1, h2⟩ := Option.map_eq_some_iff.1 h
  rw [hf] at hneg
  simp only at hneg
  have hb' : b' = false := by
    rw [hneg] at h2
    revert h2; cases b' <;> cases neg <;> simp
  subst hb'
  obtain ⟨π', hp', h0', hacc⟩ := C46_search_violated e ho N w A hA _ l0 hl hs fuel h1
  have hnot : ¬ f.sat N.ts π' := by
    rw [← C45_translation e.tcfg N w reg f hpf (hp f neg hf) hsp.inj π' hp']
    exact (hsp.lang _).1 hacc
  rw [hsat π, hneg]
  have : ¬ ∀ π', N.ts.IsPath π' → π' 0 = π 0 → f.sat N.ts π' := fun hall => hnot (hall π' hp' (h0'.trans h0.symm))
  cases neg <;> simp [this]

variable (hb : ∀ l, StoredOK N (toMark l0) l → e.bnd l = true) (hfin : {m | N.toNet.Reach (toMark l0) m}.Finite)
  (k : Nat) (hk : A.States k)
include hb hfin hk

/-- **C46** Every answer of the LTL engine is right: if no reachable marking exceeds the token bound, the net has finitely many
reachable markings, and spot delivers an automaton for the negation of the formula, then the engine says "satisfied"
exactly when the query holds in the initial marking.  Both search algorithms, all heuristics and all options for the
propositions are covered (partial-order reduction is not). -/
theorem C46_ltl_correct (fuel : Nat) (b : Bool) (h : ltlSolve e N A reg query l0 fuel = some b)
    (π : Nat → Mark) (h0 : π 0 = toMark l0) : b = true ↔ query.sat N.ts π := by
  obtain ⟨f, neg, hf, hpf, hsat⟩ := toLtl_sat (T := N.ts) query hq
  have hsp := hspot f neg hf
  unfold ltlSolve at h
  rw [queryF_isLTL query hq, hf] at h
  simp only [if_true] at h
  obtain ⟨b', h1, h2⟩ := Option.map_eq_some_iff.1 h
  have hex := C46_search_exact e ho N w A hA _ l0 hl hs hb hfin k hk fuel b' h1
  have key : b' = true ↔ ∀ π', N.ts.IsPath π' → π' 0 = π 0 → f.sat N.ts π' := by
    rw [← Bool.not_eq_false, hex]
    constructor
    · intro hno π' hp' h0'
      refine Classical.byContradiction fun hn => hno ⟨π', hp', h0'.trans h0, ?_⟩
      refine (hsp.lang _).2 ?_
      show ¬ _
      rw [C45_translation e.tcfg N w reg f hpf (hp f neg hf) hsp.inj π' hp']
      exact hn
    · rintro hall ⟨π', hp', h0', hacc⟩
      have : ¬ (toSpot e.tcfg f []).1.sat _ 0 := (hsp.lang _).1 hacc
      rw [C45_translation e.tcfg N w reg f hpf (hp f neg hf) hsp.inj π' hp'] at this
      exact this (hall π' hp' (h0'.trans h0.symm))
  rw [hsat π, ← key, ← h2]
  cases b' <;> cases neg <;> simp

omit hp hspot hb in
/-- **C46** The engine ends on nets with finitely many reachable markings. -/
theorem C46_ltl_terminates : ∃ fuel, ∀ n, fuel ≤ n → (ltlSolve e N A reg query l0 n).isSome = true := by
  obtain ⟨f, neg, hf, _, _⟩ := toLtl_sat (T := N.ts) query hq
  obtain ⟨fuel, hfu⟩ := C46_search_terminates e ho N w A hA (apValue N reg (toSpot e.tcfg f []).2) l0 hl hs hfin k hk
  refine ⟨fuel, fun n hn => ?_⟩
  unfold ltlSolve
  rw [queryF_isLTL query hq, hf]
  simp only [if_true, Option.isSome_map]
  exact hfu n hn

end

/-! ### Non-vacuity -/

open Examples

/-- One state, for `G ¬ x`. -/
def autG : Buchi where
  init := 0
  edges q := if q = 0 then [(0, .node 0 (.leaf true) (.leaf false))] else []
  acc q := q == 0

/-- Two states, for `F ¬ x`; the second has a self loop labelled `true`. -/
def autF : Buchi where
  init := 0
  edges q := if q = 0 then [(0, .leaf true), (1, .node 0 (.leaf true) (.leaf false))]
    else if q = 1 then [(1, .leaf true)] else []
  acc q := q == 1

theorem autG_simple : autG.Simple := fun q => by
  by_cases h : q = 0 <;> simp [autG, h]

theorem autG_states : autG.States 1 := fun q => by
  by_cases h : q = 0
  · subst h; simp [autG]
  · simp [autG, h]

theorem autF_simple : autF.Simple := fun q => by
  by_cases h : q = 0
  · subst h; simp [autF]
  · by_cases h1 : q = 1 <;> simp [autF, h, h1]

theorem autF_states : autF.States 2 := fun q => by
  by_cases h : q = 0
  · subst h; simp [autF]
  · by_cases h1 : q = 1
    · subst h1; simp [autF]
    · simp [autF, h, h1]

theorem autG_lang (v : Nat → Nat → Bool) : autG.AcceptsWord v ↔ ∀ i, v i 0 = false := by
  constructor
  · rintro ⟨r, h0, hr, _⟩ i
    obtain ⟨g, h1, h2⟩ := hr i
    by_cases h : r i = 0
    · simp only [autG, h, if_true, List.mem_singleton, Prod.mk.injEq] at h1
      rw [h1.2] at h2
      cases hv : v i 0 with
      | false => rfl
      | true => simp [Bdd.valid, hv] at h2
    · simp [autG, h] at h1
  · intro h
    refine ⟨fun _ => 0, rfl, fun i => ⟨.node 0 (.leaf true) (.leaf false), by simp [autG], ?_⟩, fun n => ⟨n, Nat.le_refl _, rfl⟩⟩
    simp [Bdd.valid, h i]

theorem autF_lang (v : Nat → Nat → Bool) : autF.AcceptsWord v ↔ ∃ i, v i 0 = false := by
  constructor
  · rintro ⟨r, h0, hr, ha⟩
    refine Classical.byContradiction fun hno => ?_
    have hall : ∀ n, r n = 0 := by
      intro n
      induction n with
      | zero => exact h0
      | succ n ih =>
        obtain ⟨g, h1, h2⟩ := hr n
        simp only [autF, ih, if_true, List.mem_cons, Prod.mk.injEq, List.not_mem_nil, or_false] at h1
        rcases h1 with h1 | h1
        · exact h1.1
        · rw [h1.2] at h2
          cases hv : v n 0 with
          | false => exact (hno ⟨n, hv⟩).elim
          | true => simp [Bdd.valid, hv] at h2
    obtain ⟨k, _, hk⟩ := ha 0
    rw [hall k] at hk
    simp [autF] at hk
  · rintro ⟨i, hi⟩
    refine ⟨fun n => if n ≤ i then 0 else 1, by simp [autF], fun n => ?_, fun n => ⟨n + i + 1, by omega, ?_⟩⟩
    · by_cases h1 : n + 1 ≤ i
      · exact ⟨.leaf true, by simp [autF, h1, show n ≤ i by omega], rfl⟩
      · by_cases h2 : n = i
        · subst h2
          exact ⟨.node 0 (.leaf true) (.leaf false), by simp [autF], by simp [Bdd.valid, hi]⟩
        · exact ⟨.leaf true, by simp [autF, h1, show ¬ n ≤ i by omega], rfl⟩
    · simp [autF, show ¬ n + i + 1 ≤ i by omega]

/-- A configuration. -/
def exCfg (a : Algo) : ECfg where
  tcfg := ⟨.none, true, fun _ => false, fun _ => "p"⟩
  algo := a
  weak := true
  bnd _ := true
  ord _ l := l
  hash _ := 0

/-- "On all paths, eventually p1 = 1" and "always p0 = 1". -/
def exAF : Cond := .AF (.cmp .eq (.id 1) (.lit 1))
def exAG : Cond := .AG (.cmp .eq (.id 0) (.lit 1))

theorem exAF_spot (a : Algo) : SpotFor (exCfg a).tcfg autG (fun _ => 0) exAF := by
  intro f neg h
  simp only [toLtl, exAF, valid, if_true, Prod.mk.injEq, Option.some.injEq] at h
  obtain ⟨rfl, rfl⟩ := h
  refine ⟨?_, fun v => ?_⟩
  · intro e he e' he' _
    simp [toSpot, mkAp, exCfg] at he he'
    rw [he, he']
  · rw [autG_lang]
    simp [toSpot, mkAp, exCfg, SpotF.sat]

theorem exAF_print (a : Algo) : PrintFor (exCfg a).tcfg net2.ts exAF := by
  intro f neg h
  simp only [toLtl, exAF, valid, if_true, Prod.mk.injEq, Option.some.injEq] at h
  obtain ⟨rfl, rfl⟩ := h
  intro e he e' he' _ π _
  simp [toSpot, mkAp, exCfg] at he he'
  rw [he, he']

theorem exAG_spot (a : Algo) : SpotFor (exCfg a).tcfg autF (fun _ => 0) exAG := by
  intro f neg h
  simp only [toLtl, exAG, valid, if_true, Prod.mk.injEq, Option.some.injEq] at h
  obtain ⟨rfl, rfl⟩ := h
  refine ⟨?_, fun v => ?_⟩
  · intro e he e' he' _
    simp [toSpot, mkAp, exCfg] at he he'
    rw [he, he']
  · rw [autF_lang]
    simp [toSpot, mkAp, exCfg, SpotF.sat]

theorem exAG_print (a : Algo) : PrintFor (exCfg a).tcfg net2.ts exAG := by
  intro f neg h
  simp only [toLtl, exAG, valid, if_true, Prod.mk.injEq, Option.some.injEq] at h
  obtain ⟨rfl, rfl⟩ := h
  intro e he e' he' _ π _
  simp [toSpot, mkAp, exCfg] at he he'
  rw [he, he']

theorem mark2_list : toMark [1, 0] = mark2 := by
  funext p; match p with | 0 => rfl | 1 => rfl | p + 2 => rfl

/-- Both answers of both searches occur. -/
example : ltlSolve (exCfg .tarjan) net2 autG (fun _ => 0) exAF [1, 0] 40 = some true ∧
    ltlSolve (exCfg .ndfs) net2 autG (fun _ => 0) exAF [1, 0] 40 = some true ∧
    ltlSolve (exCfg .tarjan) net2 autF (fun _ => 0) exAG [1, 0] 40 = some false ∧
    ltlSolve (exCfg .ndfs) net2 autF (fun _ => 0) exAG [1, 0] 40 = some false := by decide +kernel

theorem net2_finite : {m | net2.toNet.Reach (toMark [1, 0]) m}.Finite := by
  rw [mark2_list]
  refine Set.Finite.subset (Set.toFinite {mark2, mark2'}) fun m hm => ?_
  rcases CtlEngineProps.net2_reach hm with rfl | rfl <;> simp

/-- The hypotheses are satisfiable: the answers are theorems about the net. -/
example (π : Nat → Mark) (h0 : π 0 = mark2) : exAF.sat net2.ts π :=
  (C46_ltl_correct (exCfg .tarjan) (fun _ _ => .refl _) net2 net2_wf autG autG_simple (fun _ => 0) [1, 0] rfl
    (by rw [mark2_list]; exact CtlEngineProps.net2_small) exAF rfl (exAF_print _) (exAF_spot _) (fun _ _ => rfl)
    net2_finite 1 autG_states 40 true (by decide +kernel) π (by rw [mark2_list]; exact h0)).1 rfl

example (π : Nat → Mark) (h0 : π 0 = mark2) : ¬ exAG.sat net2.ts π := fun h => by
  have := (C46_ltl_found (exCfg .ndfs) (fun _ _ => .refl _) net2 net2_wf autF autF_simple (fun _ => 0) [1, 0] rfl
    (by rw [mark2_list]; exact CtlEngineProps.net2_small) exAG rfl (exAG_print _) (exAG_spot _)
    40 false (by decide +kernel) rfl π (by rw [mark2_list]; exact h0)).2 h
  cases this

/-! ### Findings -/

/-- `t0` turns the token of place 0 into two tokens on place 1. -/
def netB : FlatNet where
  nplaces := 2
  ntransitions := 1
  ninvariants := 2
  transitions := [⟨0, 1⟩, ⟨2, 2⟩]
  invariants := [⟨0, 1, false, -1⟩, ⟨1, 2, false, 1⟩]
  placeToPtrs := [0, 1, 1]
  controllable := [true]

/-- Finding: with a token bound the engine answers "satisfied" even when the bound was reached, so that the answer is wrong.
Here the bound is 1 token, the query is "on all paths always p0 = 1", and the only firing, which is not explored,
violates it. -/
theorem C46_finding_token_bound :
    ltlSolve { exCfg .tarjan with bnd := fun l => decide (l.sum ≤ 1) } netB autF (fun _ => 0) exAG [1, 0] 40 = some true ∧
    ltlSolve { exCfg .ndfs with bnd := fun l => decide (l.sum ≤ 1) } netB autF (fun _ => 0) exAG [1, 0] 40 = some true ∧
    SpotFor (exCfg .tarjan).tcfg autF (fun _ => 0) exAG ∧
    ∀ π, π 0 = toMark [1, 0] → ¬ exAG.sat netB.ts π := by
  refine ⟨by decide +kernel, by decide +kernel, exAG_spot _, fun π h0 h => ?_⟩
  have hst : netB.ts.step (toMark [1, 0]) (toMark [0, 2]) := by
    refine ⟨⟨0, by decide⟩, ⟨fun p => ?_, fun p k => ?_⟩, ?_⟩
    · match p with | 0 => decide | 1 => decide | p + 2 => exact Nat.zero_le _
    · have hpre : netB.preset 0 = [⟨0, 1, false, -1⟩] := by decide
      simp [FlatNet.toNet, hpre]
    · funext p; match p with | 0 => rfl | 1 => rfl | p + 2 => rfl
  obtain ⟨π', hp, h1⟩ := netB.ts.exists_path (toMark [0, 2])
  have := h (prepend (toMark [1, 0]) π') (prepend_path hp (by rw [h1]; exact hst)) (by rw [h0]; rfl) 1
  rw [show (1 : Nat) = 0 + 1 from rfl, prepend_suffix, suffix_zero] at this
  simp only [Cond.sat, Cmp.holds, Expr.val, h1] at this
  exact absurd this (by decide)

/-- A choice: `t0` moves the token from place 0 to place 1, `t1` to place 2. -/
def netC : FlatNet where
  nplaces := 3
  ntransitions := 2
  ninvariants := 4
  transitions := [⟨0, 1⟩, ⟨2, 3⟩, ⟨4, 4⟩]
  invariants := [⟨0, 1, false, -1⟩, ⟨1, 1, false, 1⟩, ⟨0, 1, false, -1⟩, ⟨2, 1, false, 1⟩]
  placeToPtrs := [0, 2, 2, 2]
  controllable := [true, true]

/-- "On all paths: true until it is possible that p2 = 1". -/
def exU : Cond := .A (.U (.bool true) (.EF (.cmp .eq (.id 2) (.lit 1))))

/-- Finding: the validator does not look at the second operand of an until.  A query that is not in LTL passes, the quantifier is
dropped in the translation, and the answer is wrong: `exU` holds in `netC`, the engine says "not satisfied". -/
theorem C45_finding_until :
    isLTL exU = true ∧ ltlSolve (exCfg .tarjan) netC autG (fun _ => 0) exU [1, 0, 0] 40 = some false ∧
    ltlSolve (exCfg .ndfs) netC autG (fun _ => 0) exU [1, 0, 0] 40 = some false ∧
    SpotFor (exCfg .tarjan).tcfg autG (fun _ => 0) exU ∧
    ∀ π, π 0 = toMark [1, 0, 0] → exU.sat netC.ts π := by
  refine ⟨rfl, by decide +kernel, by decide +kernel, ?_, fun π h0 => ?_⟩
  · intro f neg h
    simp only [toLtl, exU, valid, if_true, Prod.mk.injEq, Option.some.injEq] at h
    obtain ⟨rfl, rfl⟩ := h
    refine ⟨?_, fun v => ?_⟩
    · intro e he e' he' _
      simp [toSpot, mkAp, exCfg] at he he'
      rw [he, he']
    · rw [autG_lang]
      simp only [toSpot, mkAp, exCfg, SpotF.sat, not_exists, if_true, Nat.zero_add]
      constructor
      · rintro h j ⟨⟨k, hk⟩, _⟩
        rw [h] at hk; cases hk
      · intro h i
        cases hv : v i 0 with
        | false => rfl
        | true => exact (h 0 ⟨⟨i, by simpa using hv⟩, fun k hk => by omega⟩).elim
  · have hst : netC.ts.step (toMark [1, 0, 0]) (toMark [0, 0, 1]) := by
      refine ⟨⟨1, by decide⟩, ⟨fun p => ?_, fun p k => ?_⟩, ?_⟩
      · match p with | 0 => decide | 1 => decide | 2 => decide | p + 3 => exact Nat.zero_le _
      · have hpre : netC.preset 1 = [⟨0, 1, false, -1⟩] := by decide
        simp [FlatNet.toNet, hpre]
      · funext p; match p with | 0 => rfl | 1 => rfl | 2 => rfl | p + 3 => rfl
    intro π' _ h1
    refine ⟨0, ?_, fun j hj => by omega⟩
    obtain ⟨ρ, hρ, h2⟩ := netC.ts.exists_path (toMark [0, 0, 1])
    refine ⟨prepend (toMark [1, 0, 0]) ρ, prepend_path hρ (by rw [h2]; exact hst), ?_, 1, ?_⟩
    · rw [suffix_zero, h1, h0]; rfl
    · rw [show (1 : Nat) = 0 + 1 from rfl, prepend_suffix, suffix_zero]
      simp only [Cond.sat, Cmp.holds, Expr.val, h2]
      decide

/-- An automaton with two edges from state 0 to itself. -/
def autP : Buchi where
  init := 0
  edges q := if q = 0 then [(0, .leaf true), (0, .leaf true)] else []
  acc q := q == 0

/-- Finding: if the automaton has two edges between the same states and the guard of the second holds, `next` returns the same
successor again and again, and the search does not end (after the first, the position in the list of edges is
recovered from the destination only). -/
theorem C43_finding_parallel_edges (fuel : Nat) :
    psucc net2 autP (fun _ _ => true) (fun _ => true) ([1, 0], 0) = none ∧
    enumP net2 autP (fun _ _ => true) (fun _ => true) [1, 0] 0 fuel {} [] = none := by
  have loop : ∀ n gs last work, Info.fresh ⟨gs, 0, last⟩ = false →
      enumP net2 autP (fun _ _ => true) (fun _ => true) [1, 0] 0 n ⟨gs, 0, last⟩ work = none := by
    intro n
    induction n with
    | zero => intros; rfl
    | succ n ih =>
      intro gs last work hf
      rw [enumP_succ _ _ _ _ _ _ _ _ hf]
      have : tryHere net2 autP (fun _ _ => true) [1, 0] 0 (last.getD work) (spool 0 (autP.edges 0)) gs =
        .ret ((last.getD work, 0), gs) := by
        simp [tryHere, spool, autP, pickB, Bdd.valid]
      rw [this]
      simp only [if_true]
      rw [ih _ _ _ (by simpa [Info.fresh] using hf)]
      rfl
  have key : ∀ n, enumP net2 autP (fun _ _ => true) (fun _ => true) [1, 0] 0 n {} [] = none := by
    intro n
    cases n with
    | zero => rfl
    | succ n =>
      have h1 : pnext net2 autP (fun _ _ => true) [1, 0] 0 {} [] = .ret (([0, 1], 0), (0, some 1)) := by
        decide +kernel
      rw [enumP]
      simp only [Option.getD_none, h1]
      rw [loop n _ _ _ (by decide)]
      rfl
  exact ⟨key _, key fuel⟩

/-- A net without places and transitions. -/
def netZ : FlatNet where
  nplaces := 0
  ntransitions := 0
  ninvariants := 0
  transitions := [⟨0, 0⟩]
  invariants := []
  placeToPtrs := [0]
  controllable := []

/-- Finding: for a net without places the counters of a generator that has finished are those of a fresh one, so that `next`
starts again for ever. -/
theorem C43_finding_no_places (fuel : Nat) :
    enumP netZ autG (fun _ _ => false) (fun _ => true) [] 0 fuel {} [] = none := by
  have : ∀ n b last work, enumP netZ autG (fun _ _ => false) (fun _ => true) [] 0 n ⟨(0, none), b, last⟩ work = none := by
    intro n
    induction n with
    | zero => intros; rfl
    | succ n ih =>
      intro b last work
      rw [enumP]
      have h1 : pnext netZ autG (fun _ _ => false) [] 0 ⟨(0, none), b, last⟩ (last.getD work) =
          .ret (([], 0), (0, none)) := by
        simp only [pnext, Info.fresh, Bool.and_self, if_true, Option.isNone, beq_self_eq_true]
        decide
      rw [h1]
      simp only
      rw [ih]
      rfl
  exact this fuel 0 none []

end LTL
end Verif
