import Verif.TAR.Sem

/-! # The interpolant automaton only prunes what cannot happen -/

namespace Verif
namespace TAR
open PRVec Solver TraceSet

/-- Some place has a token. -/
def Nz (n : Nat) (m : Nat → Nat) : Prop := ∃ p < n, m p ≠ 0

/-- What an edge claims: under the query, no marking of the source is a goal; under a transition, the marking
reached satisfies the predicate of the target.  The empty marking is left out, its predicate being confused with
the false one. -/
def EdgeOK (N : FlatNet) (G : (Nat → Nat) → Prop) (P : PRVec) (sym : Nat) (Q : PRVec) : Prop :=
  match sym with
  | 0 => ∀ m, SatI P m → Nz N.nplaces m → ¬ G m
  | t + 1 => ∀ m m', SatI P m → Fire N m t m' → Nz N.nplaces m' → SatI Q m'

structure AInv (N : FlatNet) (m0 : Nat → Nat) (G : (Nat → Nat) → Prop) (s : TraceSet) : Prop where
  len : 2 ≤ s.states.length
  p0 : s.pred 0 = falseRange N.nplaces
  p1 : s.pred 1 = []
  good : ∀ i < s.states.length, Good N.nplaces (s.pred i)
  comp : ∀ i < s.states.length, (s.pred i).isCompact = true
  inj : ∀ i < s.states.length, ∀ j < s.states.length, s.pred i = s.pred j → i = j
  sim : ∀ i < s.states.length, ∀ e ∈ (s.state i).simulates, e < s.states.length ∧ e ≠ i ∧ Incl (s.pred e) (s.pred i)
  edge : ∀ i < s.states.length, i ≠ 0 → ∀ e ∈ (s.state i).edges, ∀ j ∈ e.to,
    j < s.states.length ∧ EdgeOK N G (s.pred i) e.sym (s.pred j)
  init : ∀ i ∈ s.initial, i < s.states.length ∧ SatI (s.pred i) m0

theorem edgeOK_congr {N : FlatNet} {G : (Nat → Nat) → Prop} {P P' Q Q' : PRVec} {sym : Nat}
    (hP : ∀ m, SatI P' m → SatI P m) (hQ : ∀ m, Nz N.nplaces m → SatI Q m → SatI Q' m) (h : EdgeOK N G P sym Q) :
    EdgeOK N G P' sym Q' := by
  cases sym with
  | zero => exact fun m hm => h m (hP m hm)
  | succ t => exact fun m m' hm hf hz => hQ m' hz (h m m' (hP m hm) hf hz)

/-! ## Basic facts -/

theorem incl_sat {n : Nat} {v o : PRVec} (gv : Good n v) (go : Good n o) (h : Incl v o) {m : Nat → Nat}
    (hm : SatI o m) : SatI v m := by
  intro p
  by_cases hp : rng v p = {}
  · rw [hp]; exact has_default _
  · obtain ⟨e', he', hpl, hc⟩ := h _ (mem_of_rng gv.sorted hp)
    simp only [Range.compare, Bool.and_eq_true, decide_eq_true_eq] at hc hpl
    have h1 := hm p
    rw [← hpl, rng_of_mem go.sorted he'] at h1
    have h2 := rng_le gv p
    rw [hpl] at h1
    unfold Range.Has at h1 ⊢
    omega

theorem falseRange_good (n : Nat) : Good n (falseRange n) := by
  refine ⟨?_, ?_, ?_⟩
  · unfold falseRange Sorted
    rw [List.pairwise_map]
    exact List.pairwise_lt_range.imp (fun h => h)
  · intro e he
    obtain ⟨p, hp, rfl⟩ := List.mem_map.1 he
    exact List.mem_range.1 hp
  · intro e he
    obtain ⟨p, hp, rfl⟩ := List.mem_map.1 he
    exact Nat.zero_le _

theorem falseRange_isFalse (n : Nat) : (falseRange n).isFalse n = true := by
  simp [PRVec.isFalse, falseRange]

theorem sat_falseRange {n : Nat} {m : Nat → Nat} (h : SatI (falseRange n) m) : ¬ Nz n m := by
  rintro ⟨p, hp, hne⟩
  exact hne (satI_isFalse (falseRange_good n) (falseRange_isFalse n) h p hp)

theorem satI_of_isFalse {n : Nat} {v : PRVec} (g : Good n v) (h : v.isFalse n = true) {m : Nat → Nat}
    (hm : ∀ p < n, m p = 0) : SatI v m := by
  simp only [PRVec.isFalse, Bool.and_eq_true, beq_iff_eq, List.all_eq_true] at h
  intro p
  by_cases hp : rng v p = {}
  · rw [hp]; exact has_default _
  · have he := mem_of_rng g.sorted hp
    have h1 := h.2 _ he
    have h2 := hm p (g.lt _ he)
    simp only at h1
    unfold Range.Has
    rw [h1.1, h2]; exact ⟨Nat.le_refl _, Or.inr (Nat.zero_le _)⟩

theorem isFalse_iff {n : Nat} {v : PRVec} (g : Good n v) (h : v.isFalse n = true) (m : Nat → Nat) :
    SatI (falseRange n) m ↔ SatI v m :=
  ⟨fun hm => satI_of_isFalse g h (satI_isFalse (falseRange_good n) (falseRange_isFalse n) hm),
   fun hm => satI_of_isFalse (falseRange_good n) (falseRange_isFalse n) (satI_isFalse g h hm)⟩

theorem compare_fst {v o : PRVec} (hv : Sorted v) (ho : Sorted o) : (v.compare o).1 = true ↔ Incl v o := by
  unfold PRVec.compare; rw [(compareLoop_iff v o (true, true) hv ho).1]; simp

theorem compare_snd {v o : PRVec} (hv : Sorted v) (ho : Sorted o) : (v.compare o).2 = true ↔ Incl o v := by
  unfold PRVec.compare; rw [(compareLoop_iff v o (true, true) hv ho).2]; simp

theorem mem_insSorted {l : List Nat} {i x : Nat} (h : x ∈ insSorted l i) : x ∈ l ∨ x = i := by
  induction l with
  | nil => simpa [insSorted] using h
  | cons y ys ih =>
    simp only [insSorted] at h
    split at h
    · rcases List.mem_cons.1 h with rfl | h
      · simp
      · rcases ih h with h | h <;> simp [h]
    · split at h
      · exact Or.inl h
      · rcases List.mem_cons.1 h with rfl | h
        · exact Or.inr rfl
        · exact Or.inl h

theorem mem_addTo {l : List Nat} {i x : Nat} (h : x ∈ AEdge.addTo l i) : x ∈ l ∨ x = i := by
  unfold AEdge.addTo at h
  split at h
  · exact Or.inl h
  · split at h
    · rename_i h0; simp at h; exact Or.inr (by omega)
    · exact mem_insSorted h

theorem mem_addEdgeL {es : List AEdge} {e i : Nat} {x : AEdge} (h : x ∈ addEdgeL es e i) {j : Nat} (hj : j ∈ x.to) :
    (∃ y ∈ es, y.sym = x.sym ∧ j ∈ y.to) ∨ (x.sym = e ∧ j = i) := by
  induction es with
  | nil =>
    simp only [addEdgeL, List.mem_singleton] at h
    subst h
    rcases mem_addTo (l := []) hj with h | h
    · cases h
    · exact Or.inr ⟨rfl, h⟩
  | cons y ys ih =>
    simp only [addEdgeL] at h
    split at h
    · rcases List.mem_cons.1 h with rfl | h
      · exact Or.inl ⟨x, by simp, rfl, hj⟩
      · rcases ih h with ⟨z, hz, h1, h2⟩ | h
        · exact Or.inl ⟨z, by simp [hz], h1, h2⟩
        · exact Or.inr h
    · split at h
      · rename_i he
        rcases List.mem_cons.1 h with rfl | h
        · rcases mem_addTo hj with h | h
          · exact Or.inl ⟨y, by simp, rfl, h⟩
          · exact Or.inr ⟨he, h⟩
        · exact Or.inl ⟨x, by simp [h], rfl, hj⟩
      · rcases List.mem_cons.1 h with rfl | h
        · rcases mem_addTo (l := []) hj with h | h
          · cases h
          · exact Or.inr ⟨rfl, h⟩
        · exact Or.inl ⟨x, h, rfl, hj⟩

theorem mem_targets {es : List AEdge} {e j : Nat} (h : j ∈ targets es e) : ∃ x ∈ es, x.sym = e ∧ j ∈ x.to := by
  induction es with
  | nil => cases h
  | cons y ys ih =>
    simp only [targets] at h
    split at h
    · obtain ⟨x, hx, h1, h2⟩ := ih h; exact ⟨x, by simp [hx], h1, h2⟩
    · split at h
      · rename_i he; exact ⟨y, by simp, he, h⟩
      · cases h

/-! ## Access to the states -/

theorem state_modify (s : TraceSet) (k : Nat) (f : AState → AState) (i : Nat) (hi : i < s.states.length) :
    TraceSet.state { s with states := s.states.modify k f } i = if k = i then f (s.state i) else s.state i := by
  unfold TraceSet.state
  simp only [List.getD_eq_getElem?_getD, List.getElem?_modify]
  rw [List.getElem?_eq_getElem hi]
  split <;> simp_all

theorem push_length (s : TraceSet) (v : PRVec) : (s.push v).states.length = s.states.length + 1 := by
  simp [push, simBack]

theorem push_state_old (s : TraceSet) (v : PRVec) {i : Nat} (hi : i < s.states.length) :
    (s.push v).state i = if (PRVec.compare (s.pred i) v).2 then
      { s.state i with simulates := insSorted (s.state i).simulates s.states.length } else s.state i := by
  unfold TraceSet.pred TraceSet.state push simBack
  simp only [List.getD_eq_getElem?_getD]
  rw [List.getElem?_append_left (by simpa using hi), List.getElem?_map, List.getElem?_eq_getElem hi]
  simp only [Option.map_some, Option.getD_some]

theorem push_state_new (s : TraceSet) (v : PRVec) :
    (s.push v).state s.states.length = ⟨v, [], simOf ⟨v, [], []⟩ s.states 0⟩ := by
  unfold TraceSet.state push simBack
  simp only [List.getD_eq_getElem?_getD]
  rw [List.getElem?_append_right (by simp)]
  simp

theorem push_pred_old (s : TraceSet) (v : PRVec) {i : Nat} (hi : i < s.states.length) :
    (s.push v).pred i = s.pred i := by
  unfold TraceSet.pred; rw [push_state_old s v hi]; split <;> rfl

theorem mem_simOf {x : AState} {os : List AState} {k e : Nat} (h : e ∈ simOf x os k) :
    ∃ i, ∃ hi : i < os.length, e = k + i ∧ (PRVec.compare os[i].interpolant x.interpolant).1 = true := by
  induction os generalizing k with
  | nil => cases h
  | cons o os ih =>
    simp only [simOf] at h
    split at h
    · rename_i hc
      rcases List.mem_cons.1 h with rfl | h
      · exact ⟨0, by simp, rfl, hc⟩
      · obtain ⟨i, hi, h1, h2⟩ := ih h
        exact ⟨i + 1, by simpa using hi, by omega, by simpa using h2⟩
    · obtain ⟨i, hi, h1, h2⟩ := ih h
      exact ⟨i + 1, by simpa using hi, by omega, by simpa using h2⟩

/-! ## Edges added with a new predicate -/

theorem otherTokens_eq {l : List Invariant} (hs : l.Pairwise fun a b => a.place < b.place) (p : Nat) :
    otherTokens l p = (arcSum l p : Int) := by
  unfold otherTokens
  rw [← find_arcSum hs p]
  cases l.find? (fun i => i.place == p) <;> rfl

theorem selfPre_spec (v : PRVec) (posts : List Invariant) : ∀ (l : List Invariant) (s : Self),
    ((selfPre v posts l s).dead = true → s.dead = true ∨
      ∃ a ∈ l, ∃ r, v.find? a.place = some r ∧ a.tokens > r.upper) ∧
    ((selfPre v posts l s).ok = true → s.ok = true ∧
      ∀ a ∈ l, ∀ r, v.find? a.place = some r → changeOK r (otherTokens posts a.place - a.tokens) = true) := by
  intro l
  induction l with
  | nil => intro s; exact ⟨fun h => Or.inl h, fun h => ⟨h, by simp⟩⟩
  | cons a l ih =>
    intro s
    simp only [selfPre]
    cases hf : v.find? a.place with
    | none =>
      simp only
      split
      · obtain ⟨h1, h2⟩ := ih s
        refine ⟨fun h => ?_, fun h => ?_⟩
        · rcases h1 h with h | ⟨b, hb, h⟩
          · exact Or.inl h
          · exact Or.inr ⟨b, by simp [hb], h⟩
        · obtain ⟨h3, h4⟩ := h2 h
          refine ⟨h3, fun b hb r hr => ?_⟩
          rcases List.mem_cons.1 hb with rfl | hb
          · rw [hf] at hr; cases hr
          · exact h4 b hb r hr
      · rename_i hok
        exact ⟨fun h => Or.inl h, fun h => (hok h).elim⟩
    | some r =>
      obtain ⟨s', hs'⟩ : ∃ s', Self.mk (s.ok && changeOK r (otherTokens posts a.place - a.tokens)) true
        (s.dead || decide (a.tokens > r.upper)) = s' := ⟨_, rfl⟩
      have heq : selfPre v posts (a :: l) s = if s'.ok = true then selfPre v posts l s' else s' := by
        rw [← hs']; simp only [selfPre, hf]
      simp only [selfPre, hf] at heq
      simp only [heq]
      have hdead : s'.dead = true → s.dead = true ∨ a.tokens > r.upper := by
        rw [← hs']; simp
      have hok : s'.ok = true → s.ok = true ∧ changeOK r (otherTokens posts a.place - a.tokens) = true := by
        rw [← hs']; simp
      split
      · obtain ⟨h1, h2⟩ := ih s'
        refine ⟨fun h => ?_, fun h => ?_⟩
        · rcases h1 h with h | ⟨b, hb, h⟩
          · rcases hdead h with h | h
            · exact Or.inl h
            · exact Or.inr ⟨a, by simp, r, hf, h⟩
          · exact Or.inr ⟨b, by simp [hb], h⟩
        · obtain ⟨h3, h4⟩ := h2 h
          refine ⟨(hok h3).1, fun b hb r' hr => ?_⟩
          rcases List.mem_cons.1 hb with rfl | hb
          · rw [hf] at hr; cases hr; exact (hok h3).2
          · exact h4 b hb r' hr
      · rename_i hno
        refine ⟨fun h => ?_, fun h => (hno h).elim⟩
        rcases hdead h with h | h
        · exact Or.inl h
        · exact Or.inr ⟨a, by simp, r, hf, h⟩

theorem selfPost_spec (v : PRVec) (pres : List Invariant) : ∀ (l : List Invariant) (s : Self),
    (selfPost v pres l s).dead = s.dead ∧
    ((selfPost v pres l s).ok = true → s.ok = true ∧
      ∀ a ∈ l, ∀ r, v.find? a.place = some r → changeOK r (a.tokens - otherTokens pres a.place) = true) := by
  intro l
  induction l with
  | nil => intro s; exact ⟨rfl, fun h => ⟨h, by simp⟩⟩
  | cons a l ih =>
    intro s
    simp only [selfPost]
    cases hf : v.find? a.place with
    | none =>
      simp only
      split
      · obtain ⟨h1, h2⟩ := ih s
        refine ⟨h1, fun h => ?_⟩
        obtain ⟨h3, h4⟩ := h2 h
        refine ⟨h3, fun b hb r hr => ?_⟩
        rcases List.mem_cons.1 hb with rfl | hb
        · rw [hf] at hr; cases hr
        · exact h4 b hb r hr
      · rename_i hok
        exact ⟨rfl, fun h => (hok h).elim⟩
    | some r =>
      obtain ⟨s', hs'⟩ : ∃ s', Self.mk (s.ok && changeOK r (a.tokens - otherTokens pres a.place)) true s.dead = s' :=
        ⟨_, rfl⟩
      have heq : selfPost v pres (a :: l) s = if s'.ok = true then selfPost v pres l s' else s' := by
        rw [← hs']; simp only [selfPost, hf]
      simp only [selfPost, hf] at heq
      simp only [heq]
      have hd : s'.dead = s.dead := by rw [← hs']
      have hok : s'.ok = true → s.ok = true ∧ changeOK r (a.tokens - otherTokens pres a.place) = true := by
        rw [← hs']; simp
      split
      · obtain ⟨h1, h2⟩ := ih s'
        refine ⟨h1.trans hd, fun h => ?_⟩
        obtain ⟨h3, h4⟩ := h2 h
        refine ⟨(hok h3).1, fun b hb r' hr => ?_⟩
        rcases List.mem_cons.1 hb with rfl | hb
        · rw [hf] at hr; cases hr; exact (hok h3).2
        · exact h4 b hb r' hr
      · rename_i hno
        exact ⟨hd, fun h => (hno h).elim⟩

theorem find_of_rng {v : PRVec} {p : Nat} (h : rng v p ≠ {}) : v.find? p = some (rng v p) := by
  unfold rng at h ⊢
  cases hf : v.find? p with
  | none => rw [hf] at h; exact (h rfl).elim
  | some r => rfl

theorem rng_of_find {v : PRVec} {p : Nat} {r : Range} (h : v.find? p = some r) : rng v p = r := by
  unfold rng; rw [h]; rfl

/-- A transition that needs more tokens than a range allows cannot be fired. -/
theorem self_dead {N : FlatNet} (ok : NetOK N) {v : PRVec} {t : Nat} (ht : t < N.ntransitions)
    (h : (selfLoop N v t).dead = true) {m m' : Nat → Nat} (hm : SatI v m) : ¬ Fire N m t m' := by
  rintro ⟨_, hen, _⟩
  unfold selfLoop at h
  rw [(selfPost_spec v (N.preset t) (N.postset t) _).1] at h
  rcases (selfPre_spec v (N.postset t) (N.preset t) {}).1 h with h | ⟨a, ha, r, hr, hlt⟩
  · cases h
  · have h1 := hen a.place
    unfold pre at h1
    rw [arcSum_mem (ok.preSorted t ht) ha] at h1
    have h2 := hm a.place
    rw [rng_of_find hr] at h2
    have h3 := (ok.preLt t ht a ha).2.2
    unfold Range.Has at h2
    omega

/-- A transition that moves no restricted place the wrong way keeps the predicate. -/
theorem self_keep {N : FlatNet} (ok : NetOK N) {v : PRVec} {t : Nat} (ht : t < N.ntransitions)
    (h : (selfLoop N v t).ok = true) {m m' : Nat → Nat} (hm : SatI v m) (hf : Fire N m t m') : SatI v m' := by
  obtain ⟨_, hen, rfl⟩ := hf
  unfold selfLoop at h
  obtain ⟨h1, h2⟩ := (selfPost_spec v (N.preset t) (N.postset t) _).2 h
  obtain ⟨_, h3⟩ := (selfPre_spec v (N.postset t) (N.preset t) {}).2 h1
  intro p
  by_cases hp : rng v p = {}
  · rw [hp]; exact has_default _
  · have hfd := find_of_rng hp
    have hch : changeOK (rng v p) ((post N t p : Int) - pre N t p) = true ∨ (pre N t p = 0 ∧ post N t p = 0) := by
      by_cases h0 : pre N t p = 0
      · by_cases h0' : post N t p = 0
        · exact Or.inr ⟨h0, h0'⟩
        · obtain ⟨a, ha, rfl⟩ := arcSum_le_mem h0'
          have := h2 a ha _ hfd
          rw [otherTokens_eq (ok.preSorted t ht)] at this
          left
          unfold post
          rw [arcSum_mem (ok.postSorted t ht) ha]; exact this
      · obtain ⟨a, ha, rfl⟩ := arcSum_le_mem h0
        have := h3 a ha _ hfd
        rw [otherTokens_eq (ok.postSorted t ht)] at this
        left
        unfold pre
        rw [arcSum_mem (ok.preSorted t ht) ha]; exact this
    have hmp := hm p
    have he := hen p
    unfold Range.Has at hmp ⊢
    rcases hch with hch | ⟨h0, h0'⟩
    · simp only [changeOK, Range.noLower, Range.noUpper, Bool.and_eq_true, Bool.not_eq_true', Bool.and_eq_false_iff,
        decide_eq_false_iff_not, Bool.not_eq_false', beq_iff_eq] at hch
      simp only
      refine ⟨?_, ?_⟩ <;> omega
    · simp only [h0, h0']; simpa using hmp

theorem mem_selfEdges (N : FlatNet) (v : PRVec) (k : Nat) : ∀ (n t : Nat) (es : List AEdge) (x : AEdge) (j : Nat),
    x ∈ selfEdges N v k n t es → j ∈ x.to →
    (∃ y ∈ es, y.sym = x.sym ∧ j ∈ y.to) ∨
    ∃ u, t ≤ u ∧ u < t + n ∧ x.sym = u + 1 ∧
      (((selfLoop N v u).dead = true ∧ j = 0) ∨ ((selfLoop N v u).ok = true ∧ j = k)) := by
  intro n
  induction n with
  | zero => intro t es x j hx hj; exact Or.inl ⟨x, hx, rfl, hj⟩
  | succ n ih =>
    intro t es x j hx hj
    simp only [selfEdges] at hx
    rcases ih _ _ _ _ hx hj with ⟨y, hy, h1, h2⟩ | ⟨u, h1, h2, h3⟩
    · have step2 : (∃ z ∈ (if (selfLoop N v t).dead then addEdgeL es (t + 1) 0 else es), z.sym = x.sym ∧ j ∈ z.to) ∨
          (x.sym = t + 1 ∧ (selfLoop N v t).ok = true ∧ j = k) := by
        by_cases hc : ((selfLoop N v t).changes && (selfLoop N v t).ok) = true
        · rw [if_pos hc] at hy
          rcases mem_addEdgeL hy h2 with ⟨z, hz, h3, h4⟩ | ⟨h3, h4⟩
          · exact Or.inl ⟨z, hz, h3.trans h1, h4⟩
          · exact Or.inr ⟨h1 ▸ h3, by simp at hc; exact hc.2, h4⟩
        · rw [if_neg hc] at hy
          exact Or.inl ⟨y, hy, h1, h2⟩
      rcases step2 with ⟨z, hz, h3, h4⟩ | ⟨h3, h4, h5⟩
      · by_cases hd : (selfLoop N v t).dead = true
        · rw [if_pos hd] at hz
          rcases mem_addEdgeL hz h4 with ⟨w, hw, h5, h6⟩ | ⟨h5, h6⟩
          · exact Or.inl ⟨w, hw, h5.trans h3, h6⟩
          · exact Or.inr ⟨t, by omega, by omega, h3 ▸ h5, Or.inl ⟨hd, h6⟩⟩
        · rw [if_neg hd] at hz
          exact Or.inl ⟨z, hz, h3, h4⟩
      · exact Or.inr ⟨t, by omega, by omega, h3, Or.inr ⟨h4, h5⟩⟩
    · exact Or.inr ⟨u, by omega, by omega, h3⟩

theorem initOK_sat {n : Nat} {v : PRVec} (g : Good n v) {m0 : Nat → Nat} (h : initOK m0 v = true) : SatI v m0 := by
  intro p
  by_cases hp : rng v p = {}
  · rw [hp]; exact has_default _
  · have he := mem_of_rng g.sorted hp
    simp only [initOK, List.all_eq_true] at h
    have := h _ he
    simp only [Bool.not_eq_true', Bool.or_eq_false_iff, decide_eq_false_iff_not] at this
    unfold Range.Has
    omega

end TAR
end Verif
