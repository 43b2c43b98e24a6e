import Verif.CRed.RelLemmas
import Verif.CRed.VDots
import Verif.Props.ColorParallel

/-!
# C75: coloured reductions that remove what the query cannot see
-/

namespace Verif
namespace CRed
open CPN XCol

/-- the rule treats the input places and the inhibiting places of the transition as places of the query -/
def Asked (R : Red) (q : Uses) (t : Nat) : Prop := ∀ s, R.relevant q = some s → (∀ a ∈ (R.net.trans t).inputs, Full R s a.place) ∧
  ∀ h ∈ R.net.inhibitors, h.trans = t → Full R s h.place

/-- **C75** (relevance).  In nets without subtractions at inhibiting places, queries EF φ that do not speak of deadlocks
keep their answers if the rule treats the places of the transitions in φ as places of φ. -/
theorem C75_relevance_partial {R R' : Red} (w : R.net.WF) (hs : Sorted R.net) (hst : Plain R) {q : Uses} (h : R.applyRelevance q = some R') :
    ∀ φ, Known q φ → qdead φ = false → (∀ t ∈ qtrans φ, t < R.net.transitions.length → Asked R q t) → Keeps R R' φ := by
  intro φ hk hd ha
  unfold Red.applyRelevance at h
  cases hr : R.relevant q with
  | none => rw [hr] at h; cases h
  | some s =>
    rw [hr] at h
    simp only [Option.map_some, Option.some.injEq] at h
    subst h
    have hf := relevant_ok hr
    have hD : ∀ p ∈ (List.range R.net.places.length).reverse.filter (fun p => decide (p ∉ s.pf ∧ p ∉ R.skP)), p ∉ s.pf := by
      intro p hp
      rw [List.mem_filter] at hp
      exact (of_decide_eq_true hp.2).1
    refine cut_keeps w (enough_of w hs hst hf hD) (fun t ht hsk => ?_) hd (fun p hp => ?_) fun t ht hlt => ?_
    · rw [List.mem_filter, List.mem_reverse, List.mem_range, decide_eq_true_iff]
      exact ⟨fun h => h.2.1, fun h => ⟨ht, h, hsk⟩⟩
    · by_cases hl : p < R.net.places.length
      · exact own_of (hf.places p hl (hk.1 p hp)) hD
      · refine ⟨fun hd => hl ?_, fun t ht => ?_, fun t ht => ?_⟩
        · rw [List.mem_filter, List.mem_reverse, List.mem_range] at hd
          exact hd.1
        · obtain ⟨h1, a, h2, h3⟩ := mem_pre.1 ht
          exact absurd (h3 ▸ (w.arcs _ (trans_mem h1) a (List.mem_append_right _ h2)).1) hl
        · obtain ⟨h1, a, h2, h3⟩ := mem_post.1 ht
          exact absurd (h3 ▸ (w.arcs _ (trans_mem h1) a (List.mem_append_left _ h2)).1) hl
    · obtain ⟨h1, h2⟩ := ha t ht hlt s hr
      exact ⟨hf.trans t hlt (hk.2 t ht), fun a ha => own_of (h1 a ha) hD, fun h hm he => own_of (h2 h hm he) hD⟩

/-- **C75** (relevance).  Queries about numbers of tokens keep their answers. -/
theorem C75_cardinality_partial {R R' : Red} (w : R.net.WF) (hs : Sorted R.net) (hst : Plain R) {q : Uses} (h : R.applyRelevance q = some R') :
    ∀ φ, Known q φ → qdead φ = false → qtrans φ = [] → Keeps R R' φ :=
  fun φ hk hd ht => C75_relevance_partial w hs hst h φ hk hd (by rw [ht]; exact fun t ht => nomatch ht)

theorem relTrans_one (R : Red) {q : Uses} {t : Nat} (hq : ∀ u, q.trans u = true ↔ u = t) (ts : List Nat) : ∀ s : Rel, t ∈ ts → t ∉ s.tf →
    ∀ a ∈ (R.net.trans t).inputs, Full R (R.relTrans q ts s) a.place := by
  induction ts with
  | nil => intro s ht; cases ht
  | cons u ts ih =>
    intro s ht hn a ha
    rw [Red.relTrans]
    by_cases hu : u = t
    · subst hu
      rw [if_pos ⟨hn, (hq u).2 rfl⟩]
      exact ((grows_relArcs R _ (s.push u)).2 a ha).mono (grows_relTrans R q ts _).1
    · rw [if_neg fun h => hu ((hq u).1 h.2)]
      exact ih s ((List.mem_cons.1 ht).resolve_left (Ne.symm hu)) hn a ha

theorem relPlaces_none (R : Red) {q : Uses} (hq : ∀ p, q.place p = false) (ps : List Nat) (s : Rel) : R.relPlaces q ps s = s := by
  induction ps generalizing s with
  | nil => rfl
  | cons p ps ih => rw [Red.relPlaces, hq, if_neg Bool.false_ne_true, ih]

/-- **C75** (relevance).  Queries about one transition without inhibitor arcs, and no place, keep their answers. -/
theorem C75_fireable_partial {R R' : Red} (w : R.net.WF) (hs : Sorted R.net) (hst : Plain R) {q : Uses} {t : Nat} (hp : ∀ p, q.place p = false)
    (hq : ∀ u, q.trans u = true ↔ u = t) (hi : ∀ h ∈ R.net.inhibitors, h.trans ≠ t) (h : R.applyRelevance q = some R') :
    ∀ φ, Known q φ → qdead φ = false → Keeps R R' φ := by
  refine fun φ hk hd => C75_relevance_partial w hs hst h φ hk hd fun u hu hlt => ?_
  have e := (hq u).1 (hk.2 u hu)
  subst e
  refine fun s hr => ⟨fun a ha => ?_, fun h hm he => absurd he (hi h hm)⟩
  unfold Red.relevant Red.relSeed at hr
  rw [relPlaces_none R hp] at hr
  have hf := relTrans_one R hq (List.range R.net.transitions.length) {} (List.mem_range.2 hlt) (fun h => nomatch h) a ha
  obtain ⟨e1, e2, _⟩ := relLoop_ok R _ _ _ (fun v hv => by
    rcases (grows_relTrans R q (List.range R.net.transitions.length) {}).1.fresh v hv with h | h
    · cases h
    · exact Or.inl h) hr
  exact ⟨e2 _ hf.1, fun v hv => e1 v (hf.2.1 v hv), fun v hv => e1 v (hf.2.2 v hv)⟩

/-- **C75** (relevance).  The loop of the rule comes to an end, and the rule to a result, unless the comparison of two expressions throws. -/
theorem C75_total_partial {R : Red} (hs : Sorted R.net) (hn : ∀ p, ∀ u ∈ R.pre p, R.sameLoop p u ≠ none) (q : Uses) : ∃ R', R.applyRelevance q = some R' := by
  unfold Red.applyRelevance
  cases h : R.relevant q with
  | none => exact absurd h (relevant_some hs hn q)
  | some s => exact ⟨_, rfl⟩

theorem plain_free {R : Red} (h : R.net.inhibitors = []) : Plain R := by
  intro k hk
  rw [h] at hk
  cases hk

/-- from place 0 to place 1; a loop at place 0; the rest is not relevant -/
def relNet : Red := ⟨vnet [1, 0, 3, 0] [([(0, 1)], [(1, 1)]), ([(0, 2), (2, 1)], [(0, 2)]), ([(2, 1)], [(3, 1)])], [], []⟩

example : relNet.net.WF ∧ Sorted relNet.net ∧ Plain relNet ∧ ((relNet.applyRelevance askQ).map fun R => (R.skP, R.skT)) = some ([2, 3], [1, 2]) :=
  ⟨vnet_wf (by decide) (by decide) (by decide) (by decide) (by decide), vnet_sorted (by decide), plain_free rfl, by decide +kernel⟩

/-- transition 0 is inhibited by two tokens on place 0; transition 1 takes three of them and returns two, transition 2 takes two and
returns three, both for a token each: they are not relevant -/
def calmNet : Red := ⟨vnet [3, 0, 1] [([], [(1, 1)]), ([(0, 3), (2, 1)], [(0, 2)]), ([(0, 2), (2, 1)], [(0, 3)])] [⟨0, 0, 2⟩], [], []⟩

theorem calmNet_plain : Plain calmNet := by
  intro h _ t ht a ha _
  obtain ⟨i, τ, _, rfl⟩ := mem_vtrans ht
  obtain ⟨b, _, rfl⟩ := mem_varc ha
  rfl

example : calmNet.net.WF ∧ Sorted calmNet.net ∧ Plain calmNet ∧ ((calmNet.applyRelevance askQ).map fun R => (R.skP, R.skT)) = some ([2], [1, 2]) :=
  ⟨vnet_wf (by decide) (by decide) (by decide) (by decide) (by decide), vnet_sorted (by decide), calmNet_plain, by decide +kernel⟩

/-- The statement of C75 for well-formed nets. -/
def RelevanceRight : Prop := ∀ (R R' : Red), R.net.WF → Sorted R.net → ∀ q : Uses, R.applyRelevance q = some R' → ∀ φ, Known q φ → qdead φ = false →
  Keeps R R' φ

/-! ### A transition that is flagged before its turn -/

/-- transition 0 takes from place 0, transition 1 from both, transition 2 from place 1 -/
def bothNet : Red := ⟨vnet [1, 1] [([(0, 1)], []), ([(0, 1), (1, 1)], []), ([(1, 1)], [])], [], []⟩

def bothNet' : Red := ⟨vnet [1, 1] [([(0, 1)], []), ([(0, 1), (1, 1)], []), ([], [])], [], [2]⟩

/-- both transitions are used -/
def askT : Uses := ⟨fun _ => false, fun t => decide (t < 2)⟩

theorem bothNet_result : bothNet.applyRelevance askT = some bothNet' := by rfl

theorem bothNet_never {m : Nat → Nat} (h : DReach [1, 1] [([(0, 1)], []), ([(0, 1), (1, 1)], []), ([], [])] [] [2] m) :
    m 0 ≤ 1 ∧ (m 0 = 0 ∨ 1 ≤ m 1) := by
  refine dinv (fun m => m 0 ≤ 1 ∧ (m 0 = 0 ∨ 1 ≤ m 1)) (by decide) ?_ h
  rintro m t m' hI ⟨τ, ht, hsk, hen, _, rfl⟩
  have h0 := hen 0
  rcases t with _ | _ | _ | t
  · simp only [List.getElem?_cons_zero, Option.some.injEq] at ht
    subst ht
    simp [wt] at h0 ⊢
    omega
  · simp only [List.getElem?_cons_succ, List.getElem?_cons_zero, Option.some.injEq] at ht
    subst ht
    simp [wt] at h0 ⊢
    omega
  · exact absurd rfl (List.ne_of_not_mem_cons hsk)
  · simp at ht

/-- **C75** (finding).  The input places of a transition in the query are treated as places of the query only if the transition is not
flagged when its turn comes.  Here transition 1 is flagged because it takes from the same place as transition 0, and transition 2 is
removed, although it decides whether transition 1 can fire. -/
theorem C75_finding_flagged : ¬RelevanceRight := by
  intro h
  have w : bothNet.net.WF := vnet_wf (by decide) (by decide) (by decide) (by decide) (by decide)
  have hs : Sorted bothNet.net := vnet_sorted (by decide)
  have hk := h bothNet bothNet' w hs askT bothNet_result (.and (.fire 0) (.not (.fire 1))) ⟨by decide, by decide⟩ rfl
  unfold Keeps at hk
  rw [ef_v (R := bothNet) (ms := [1, 1]) (ts := [([(0, 1)], []), ([(0, 1), (1, 1)], []), ([(1, 1)], [])]) (hs := []) rfl,
    ef_v (R := bothNet') (ms := [1, 1]) (ts := [([(0, 1)], []), ([(0, 1), (1, 1)], []), ([], [])]) (hs := []) rfl] at hk
  obtain ⟨m, hm, ⟨m', τ, ht, _, he, _, _⟩, hq⟩ := hk.1 ⟨_, DReach.init.step (t := 2) ⟨_, rfl, by decide, fun p => by
    rcases p with _ | _ | p <;> simp [wt], by simp, rfl⟩, ⟨_, _, rfl, by decide, fun p => by
    rcases p with _ | p <;> simp [wt], by simp, rfl⟩, by
    rintro ⟨m', τ, ht, _, he, _⟩
    simp only [List.getElem?_cons_succ, List.getElem?_cons_zero, Option.some.injEq] at ht
    subst ht
    have := he 1
    simp [wt] at this⟩
  simp only [List.getElem?_cons_zero, Option.some.injEq] at ht
  subst ht
  have h0 := he 0
  simp [wt] at h0
  have hI := bothNet_never hm
  exact hq ⟨_, _, rfl, by decide, fun p => by
    rcases p with _ | _ | p
    · simp [wt]; omega
    · simp [wt]; omega
    · simp [wt], by simp, rfl⟩

/-! ### What inhibits a transition of the query -/

/-- transition 0 is inhibited by place 0, to which transition 1 adds -/
def fillNet : Red := ⟨vnet [0] [([], []), ([], [(0, 1)])] [⟨0, 0, 1⟩], [], []⟩

def fillNet' : Red := ⟨vnet [0] [([], []), ([], [])] [⟨0, 0, 1⟩], [], [1]⟩

/-- transition 0 is used -/
def ask0 : Uses := ⟨fun _ => false, fun t => t == 0⟩

theorem fillNet_result : fillNet.applyRelevance ask0 = some fillNet' := by rfl

theorem fillNet_never {m : Nat → Nat} (h : DReach [0] [([], []), ([], [])] [⟨0, 0, 1⟩] [1] m) : m 0 = 0 := by
  refine dinv (fun m => m 0 = 0) (by decide) ?_ h
  rintro m t m' hI ⟨τ, ht, hsk, hen, _, rfl⟩
  rcases t with _ | _ | t
  · simp only [List.getElem?_cons_zero, Option.some.injEq] at ht
    subst ht
    simpa [wt] using hI
  · exact absurd rfl (List.ne_of_not_mem_cons hsk)
  · simp at ht

/-- **C75** (finding).  What adds to a place that inhibits a transition of the query is removed, although the query may say that the
transition cannot fire. -/
theorem C75_finding_inhibited : ¬RelevanceRight := by
  intro h
  have w : fillNet.net.WF := vnet_wf (by decide) (by decide) (by decide) (by decide) (by decide)
  have hs : Sorted fillNet.net := vnet_sorted (by decide)
  have hk := h fillNet fillNet' w hs ask0 fillNet_result (.not (.fire 0)) ⟨by decide, by decide⟩ rfl
  unfold Keeps at hk
  rw [ef_v (R := fillNet) (ms := [0]) (ts := [([], []), ([], [(0, 1)])]) (hs := [⟨0, 0, 1⟩]) rfl,
    ef_v (R := fillNet') (ms := [0]) (ts := [([], []), ([], [])]) (hs := [⟨0, 0, 1⟩]) rfl] at hk
  obtain ⟨m, hm, hq⟩ := hk.1 ⟨_, DReach.init.step (t := 1) ⟨_, rfl, by decide, fun p => by simp [wt], by simp, rfl⟩, by
    rintro ⟨m', τ, ht, _, _, hi, _⟩
    have := hi ⟨0, 0, 1⟩ (by simp) rfl
    simp [wt] at this⟩
  have hI := fillNet_never hm
  exact hq ⟨_, _, rfl, by decide, fun p => by simp [wt], by simpa using hI, rfl⟩

/-! ### Subtractions -/

/-- transition 0 is inhibited by two tokens on place 0; transition 1 takes `2'x - 1'y` from there and returns `1'x` -/
def subNet : Red where
  net := { types := twoTypes
           vty := fun _ => 1
           places := [⟨"p", 1, [(0, 2)]⟩, ⟨"q", 0, []⟩]
           transitions := [⟨"t", none, [], [⟨1, .num 1 [.dot]⟩]⟩,
             ⟨"u", none, [⟨0, .sub (.num 2 [.var 0]) (.num 1 [.var 1])⟩], [⟨0, .num 1 [.var 0]⟩]⟩]
           inhibitors := [⟨0, 0, 2⟩] }

def subNet' : Red where
  net := { types := twoTypes
           vty := fun _ => 1
           places := [⟨"p", 1, [(0, 2)]⟩, ⟨"q", 0, []⟩]
           transitions := [⟨"t", none, [], [⟨1, .num 1 [.dot]⟩]⟩, ⟨"u", none, [], []⟩]
           inhibitors := [⟨0, 0, 2⟩] }
  skT := [1]

theorem subNet_result : subNet.applyRelevance askQ = some subNet' := by rfl

theorem subNet_wf : subNet.net.WF := by
  refine ⟨⟨by decide, by decide, by decide⟩, by decide, by decide, ?_, ?_, ?_, by decide, by decide⟩
  · intro t ht v hv
    show 0 < twoTypes.size 1
    decide
  · intro t ht g hg
    simp only [subNet, List.mem_cons, List.not_mem_nil, or_false] at ht
    rcases ht with rfl | rfl <;> cases hg
  · intro t ht a ha
    have hd : ∀ v, HasTy twoTypes (fun _ => 1) (.var v) 1 := fun v => by rw [HasTy]
    have hdot : HasTy twoTypes (fun _ => 1) .dot 0 := by rw [HasTy]; decide
    have key : ∀ ty k e, HasTy twoTypes (fun _ => 1) e ty → ArcTy twoTypes (fun _ => 1) ty (.num k [e]) := by
      intro ty k e he
      rw [ArcTy]
      refine ⟨by simp, fun e' he' => ?_⟩
      simp only [List.mem_singleton] at he'
      subst he'
      exact he
    simp only [subNet, List.mem_cons, List.not_mem_nil, or_false] at ht
    rcases ht with rfl | rfl
    · simp only [List.nil_append, List.mem_cons, List.not_mem_nil, or_false] at ha
      subst ha
      refine ⟨by decide, key 0 _ _ hdot, ?_, ?_⟩
      · rw [ArcE.Small]; decide
      · rw [ArcE.bound]; decide
    · simp only [List.singleton_append, List.mem_cons, List.not_mem_nil, or_false] at ha
      rcases ha with rfl | rfl
      · refine ⟨by decide, ?_, ?_, ?_⟩
        · show ArcTy twoTypes (fun _ => 1) 1 (.sub (.num 2 [.var 0]) (.num 1 [.var 1]))
          rw [ArcTy]; exact ⟨key 1 _ _ (hd 0), key 1 _ _ (hd 1)⟩
        · rw [ArcE.Small, ArcE.Small, ArcE.Small]; decide
        · rw [ArcE.bound, ArcE.bound]; decide
      · refine ⟨by decide, key 1 _ _ (hd 0), ?_, ?_⟩
        · rw [ArcE.Small]; decide
        · rw [ArcE.bound]; decide

theorem subNet_sorted : Sorted subNet.net := by
  intro t ht
  simp only [subNet, List.mem_cons, List.not_mem_nil, or_false] at ht
  rcases ht with rfl | rfl <;> exact ⟨by decide, by decide⟩

theorem two_values : twoTypes.values 1 = [[0], [1]] ∧ twoTypes.values 0 = [[0]] := by decide

theorem subNet_never {M : CMark} (h : subNet'.Reach M) : M 0 [0] = 2 ∧ M 1 [0] = 0 := by
  induction h with
  | init =>
    have c0 : twoTypes.value ⟨1, 0⟩ = [0] := by decide
    constructor
    · show (if twoTypes.value ⟨1, 0⟩ = [0] then 2 else 0) + 0 = 2
      rw [c0, if_pos rfl, Nat.add_zero]
    · rfl
  | @step M L t ρ _ hs ih =>
    obtain ⟨h1, h2, _, ⟨_, h3⟩, _⟩ := hs
    have h2 : t < 2 := h2
    have h1 : t ≠ 1 := fun e => h1 (by rw [e]; exact List.mem_singleton.2 rfl)
    have : t = 0 := by omega
    subst this
    have h4 : ((twoTypes.values 1).map (M 0)).sum < 2 := h3 ⟨0, 0, 2⟩ (List.mem_singleton.2 rfl) rfl
    rw [two_values.1] at h4
    simp at h4
    omega

/-- **C75** (finding).  The weight of `2'x - 1'y` is 1, but it takes two tokens if x and y are different.  The transition that takes
the inhibiting tokens away passes for one that returns as many. -/
theorem C75_finding_subtraction : ¬RelevanceRight := by
  intro h
  have hk := h subNet subNet' subNet_wf subNet_sorted askQ subNet_result (.le (.lit 1) (.place 1)) ⟨by decide, by decide⟩ rfl
  have h0 : subNet.EF (.le (.lit 1) (.place 1)) := by
    let ρ : Nat → Val := fun v => if v = 0 then [0] else [1]
    let M1 := subNet.net.fire subNet.net.init 1 ρ
    have c0 : twoTypes.value ⟨1, 0⟩ = [0] := by decide
    have i0 : ∀ x, subNet.net.init 0 x = if x = [0] then 2 else 0 := by
      intro x
      show (if twoTypes.value ⟨1, 0⟩ = x then 2 else 0) + 0 = _
      rw [c0]
      by_cases hx : x = [0]
      · rw [if_pos hx.symm, if_pos hx, Nat.add_zero]
      · rw [if_neg (Ne.symm hx), if_neg hx, Nat.add_zero]
    have ui : ∀ p x, arcsTokens subNet.net ρ (subNet.net.trans 1).inputs p x = if p = 0 ∧ x = [0] then 2 else 0 := by
      intro p x
      show arcsTokens _ ρ [⟨0, .sub (.num 2 [.var 0]) (.num 1 [.var 1])⟩] p x = _
      simp only [arcsTokens, List.map_cons, List.map_nil, List.sum_cons, List.sum_nil, tokens, den]
      by_cases h1 : p = 0
      · by_cases h2 : x = [0]
        · simp [h1, h2, ρ]
        · have : ¬([0] : Val) = x := fun e => h2 e.symm
          simp [h1, h2, ρ, this]
      · simp [h1, Ne.symm h1]
    have uo : ∀ p x, arcsTokens subNet.net ρ (subNet.net.trans 1).outputs p x = if p = 0 ∧ x = [0] then 1 else 0 := by
      intro p x
      show arcsTokens _ ρ [⟨0, .num 1 [.var 0]⟩] p x = _
      simp only [arcsTokens, List.map_cons, List.map_nil, List.sum_cons, List.sum_nil, tokens, den]
      by_cases h1 : p = 0 <;> by_cases h2 : x = [0] <;> simp [h1, h2, ρ, eq_comm]
    have tO : arcsTokens subNet.net ρ (subNet.net.trans 0).outputs 1 [0] = 1 := by
      show arcsTokens _ ρ [⟨1, .num 1 [.dot]⟩] 1 [0] = _
      simp [arcsTokens, tokens, den]
    have m1 : ∀ x, M1 0 x = if x = [0] then 1 else 0 := by
      intro x
      show subNet.net.init 0 x - _ + _ = _
      rw [ui, uo, i0]
      by_cases hx : x = [0] <;> simp [hx]
    have s1 : subNet.Step subNet.net.init 1 ρ M1 := by
      refine ⟨by decide, by decide, ⟨fun v hv => ?_, trivial⟩, ⟨fun p x => ?_, fun h hm he => ?_⟩, rfl⟩
      · show ρ v ∈ twoTypes.values 1
        rw [two_values.1]
        show (if v = 0 then [0] else [1]) ∈ _
        split <;> simp
      · rw [ui]
        split
        · rename_i hc
          rw [hc.1, i0, if_pos hc.2]
        · exact Nat.zero_le _
      · rw [List.mem_singleton.1 hm] at he
        cases he
    have s2 : subNet.Step M1 0 ρ (subNet.net.fire M1 0 ρ) := by
      refine ⟨by decide, by decide, ⟨fun v hv => ?_, trivial⟩, ⟨fun p x => Nat.zero_le _, fun h hm he => ?_⟩, rfl⟩
      · show ρ v ∈ twoTypes.values 1
        rw [two_values.1]
        show (if v = 0 then [0] else [1]) ∈ _
        split <;> simp
      · rw [List.mem_singleton.1 hm]
        show ((twoTypes.values 1).map (M1 0)).sum < 2
        rw [two_values.1]
        simp [m1]
    refine ⟨_, (Red.Reach.init.step s1).step s2, ?_⟩
    show (1 : Int) ≤ (((twoTypes.values 0).map (subNet.net.fire M1 0 ρ 1)).sum : Nat)
    rw [two_values.2]
    simp only [List.map_cons, List.map_nil, List.sum_cons, List.sum_nil, CNet.fire, tO]
    omega
  obtain ⟨M, hr, hq⟩ := hk.1 h0
  have hq : (1 : Int) ≤ (((twoTypes.values 0).map (M 1)).sum : Nat) := hq
  rw [two_values.2] at hq
  have := (subNet_never hr).2
  simp [this] at hq

end CRed
end Verif
