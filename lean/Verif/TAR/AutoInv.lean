import Verif.TAR.AutoLemmas

/-! # Adding predicates and traces keeps the automaton sound -/

namespace Verif
namespace TAR
open PRVec Solver TraceSet

variable {N : FlatNet} {m0 : Nat → Nat} {G : (Nat → Nat) → Prop}

/-- The automaton has grown. -/
def Ext (s s' : TraceSet) : Prop :=
  s.states.length ≤ s'.states.length ∧ ∀ i < s.states.length, s'.pred i = s.pred i

theorem Ext.refl (s : TraceSet) : Ext s s := ⟨Nat.le_refl _, fun _ _ => rfl⟩
theorem Ext.trans {a b c : TraceSet} (h : Ext a b) (h' : Ext b c) : Ext a c :=
  ⟨Nat.le_trans h.1 h'.1, fun i hi => (h'.2 i (Nat.lt_of_lt_of_le hi h.1)).trans (h.2 i hi)⟩

theorem addEdge_state (s : TraceSet) (i e j k : Nat) (hk : k < s.states.length) :
    (s.addEdge i e j).state k = if i = k then (s.state k).addEdge e j else s.state k := by
  unfold addEdge
  rw [state_modify s i _ k hk]

theorem addEdge_pred (s : TraceSet) (i e j k : Nat) (hk : k < s.states.length) :
    (s.addEdge i e j).pred k = s.pred k := by
  unfold TraceSet.pred; rw [addEdge_state s i e j k hk]; split <;> rfl

theorem addEdge_length (s : TraceSet) (i e j : Nat) : (s.addEdge i e j).states.length = s.states.length := by
  simp [addEdge]

theorem addEdge_ext (s : TraceSet) (i e j : Nat) : Ext s (s.addEdge i e j) :=
  ⟨Nat.le_of_eq (addEdge_length s i e j).symm, fun k hk => addEdge_pred s i e j k hk⟩

theorem addEdge_inv {s : TraceSet} (h : AInv N m0 G s) {i e j : Nat} (hj : j < s.states.length)
    (he : i ≠ 0 → EdgeOK N G (s.pred i) e (s.pred j)) : AInv N m0 G (s.addEdge i e j) := by
  have hl := addEdge_length s i e j
  have hp := addEdge_pred s i e j
  refine ⟨hl ▸ h.len, ?_, ?_, ?_, ?_, ?_, ?_, ?_, ?_⟩
  · rw [hp 0 (by have := h.len; omega)]; exact h.p0
  · rw [hp 1 (by have := h.len; omega)]; exact h.p1
  · intro k hk; rw [hl] at hk; rw [hp k hk]; exact h.good k hk
  · intro k hk; rw [hl] at hk; rw [hp k hk]; exact h.comp k hk
  · intro k hk l hkl; rw [hl] at hk hkl; rw [hp k hk, hp l hkl]; exact h.inj k hk l hkl
  · intro k hk x hx
    rw [hl] at hk
    rw [addEdge_state s i e j k hk] at hx
    have hx' : x ∈ (s.state k).simulates := by
      split at hx <;> exact hx
    obtain ⟨h1, h2, h3⟩ := h.sim k hk x hx'
    rw [hl, hp k hk, hp x h1]; exact ⟨h1, h2, h3⟩
  · intro k hk hk0 x hx l hlx
    rw [hl] at hk ⊢
    rw [addEdge_state s i e j k hk] at hx
    rw [hp k hk]
    split at hx
    · rename_i hik
      subst hik
      rcases mem_addEdgeL hx hlx with ⟨y, hy, h1, h2⟩ | ⟨h1, h2⟩
      · have := h.edge i hk hk0 y hy l h2
        rw [hp l this.1, ← h1]; exact this
      · subst h2
        rw [hp l hj, h1]; exact ⟨hj, he hk0⟩
    · have := h.edge k hk hk0 x hx l hlx
      rw [hp l this.1]; exact this
  · intro k hk
    have := h.init k hk
    rw [hl, hp k this.1]; exact this

theorem edgeOK_dead {P : PRVec} {t : Nat} {Q : PRVec} (h : ∀ m m', SatI P m → ¬ Fire N m t m') :
    EdgeOK N G P (t + 1) Q := fun m m' hm hf _ => (h m m' hm hf).elim

theorem lookup_some {s : TraceSet} {v : PRVec} {i : Nat} (h : s.lookup v = some i) :
    i < s.states.length ∧ s.pred i = v := by
  unfold lookup at h
  obtain ⟨hi, h1, _⟩ := List.findIdx?_eq_some_iff_getElem.1 h
  refine ⟨hi, ?_⟩
  unfold TraceSet.pred TraceSet.state
  rw [List.getD_eq_getElem?_getD, List.getElem?_eq_getElem hi]
  simpa using h1

theorem lookup_none {s : TraceSet} {v : PRVec} (h : s.lookup v = none) : ∀ i < s.states.length, s.pred i ≠ v := by
  unfold lookup at h
  rw [List.findIdx?_eq_none_iff] at h
  intro i hi he
  have := h _ (List.getElem_mem hi)
  unfold TraceSet.pred TraceSet.state at he
  rw [List.getD_eq_getElem?_getD, List.getElem?_eq_getElem hi] at he
  simp at this he
  exact this he

theorem push_inv {s : TraceSet} (h : AInv N m0 G s) {v : PRVec} (g : Good N.nplaces v) (hc : v.isCompact = true)
    (hn : ∀ i < s.states.length, s.pred i ≠ v) : AInv N m0 G (s.push v) := by
  have hl := push_length s v
  have hp : ∀ k < s.states.length, (s.push v).pred k = s.pred k := fun k hk => push_pred_old s v hk
  have hnew : (s.push v).pred s.states.length = v := by unfold TraceSet.pred; rw [push_state_new]
  have cases' : ∀ k < (s.push v).states.length, k < s.states.length ∨ k = s.states.length := by
    intro k hk; rw [hl] at hk; omega
  have hgood : ∀ k < (s.push v).states.length, Good N.nplaces ((s.push v).pred k) := by
    intro k hk
    rcases cases' k hk with hk | rfl
    · rw [hp k hk]; exact h.good k hk
    · rw [hnew]; exact g
  refine ⟨by have := h.len; omega, ?_, ?_, hgood, ?_, ?_, ?_, ?_, ?_⟩
  · rw [hp 0 (by have := h.len; omega)]; exact h.p0
  · rw [hp 1 (by have := h.len; omega)]; exact h.p1
  · intro k hk
    rcases cases' k hk with hk | rfl
    · rw [hp k hk]; exact h.comp k hk
    · rw [hnew]; exact hc
  · intro k hk l hkl he
    rcases cases' k hk with hk | rfl <;> rcases cases' l hkl with hkl | rfl
    · rw [hp k hk, hp l hkl] at he; exact h.inj k hk l hkl he
    · rw [hp k hk, hnew] at he; exact (hn k hk he).elim
    · rw [hp l hkl, hnew] at he; exact (hn l hkl he.symm).elim
    · rfl
  · intro k hk x hx
    rcases cases' k hk with hk' | rfl
    · rw [push_state_old s v hk'] at hx
      have hx' : x ∈ (s.state k).simulates ∨ (x = s.states.length ∧ (PRVec.compare (s.pred k) v).2 = true) := by
        split at hx
        · rename_i hcmp
          rcases mem_insSorted hx with h | h
          · exact Or.inl h
          · exact Or.inr ⟨h, hcmp⟩
        · exact Or.inl hx
      rcases hx' with hx' | ⟨rfl, hcmp⟩
      · obtain ⟨h1, h2, h3⟩ := h.sim k hk' x hx'
        rw [hp k hk', hp x h1]; exact ⟨by omega, h2, h3⟩
      · rw [hp k hk', hnew]
        exact ⟨by omega, by omega, (compare_snd (h.good k hk').sorted g.sorted).1 hcmp⟩
    · rw [push_state_new] at hx
      obtain ⟨i, hi, h1, h2⟩ := mem_simOf hx
      have hx1 : x = i := by omega
      subst hx1
      have he : s.states[x].interpolant = s.pred x := by
        unfold TraceSet.pred TraceSet.state
        rw [List.getD_eq_getElem?_getD, List.getElem?_eq_getElem hi]; rfl
      rw [he] at h2
      rw [hp x hi, hnew]
      exact ⟨by omega, by omega, (compare_fst (h.good x hi).sorted g.sorted).1 h2⟩
  · intro k hk hk0 x hx l hlx
    rcases cases' k hk with hk' | rfl
    · rw [push_state_old s v hk'] at hx
      have hx' : x ∈ (s.state k).edges := by split at hx <;> exact hx
      have := h.edge k hk' hk0 x hx' l hlx
      rw [hp k hk', hp l this.1]; exact ⟨by omega, this.2⟩
    · rw [push_state_new] at hx; cases hx
  · intro k hk
    have := h.init k hk
    rw [hp k this.1]; exact ⟨by omega, this.2⟩

theorem mem_ins {l : List Nat} {i x : Nat} : x ∈ ins l i ↔ x ∈ l ∨ x = i := by
  unfold ins
  split
  · rename_i h
    constructor
    · exact Or.inl
    · rintro (h' | rfl)
      · exact h'
      · exact h
  · simp

/-- The state of a predicate. -/
theorem stateFor_spec (ok : NetOK N) {s : TraceSet} (h : AInv N m0 G s) {v : PRVec} (g : Good N.nplaces v) :
    AInv N m0 G (stateFor N m0 s v).1 ∧ Ext s (stateFor N m0 s v).1 ∧
      (stateFor N m0 s v).2 < (stateFor N m0 s v).1.states.length ∧
      ∀ m, SatI ((stateFor N m0 s v).1.pred (stateFor N m0 s v).2) m ↔ SatI v m := by
  have gc := good_compact g
  have hlen := h.len
  unfold stateFor
  simp only
  split
  · rename_i ht
    refine ⟨h, Ext.refl s, (show 1 < s.states.length by omega), fun m => ?_⟩
    simp only [h.p1]
    exact ⟨fun _ => satI_of_compact_nil g.sorted ht m, fun _ => satI_nil m⟩
  · split
    · rename_i hf
      refine ⟨h, Ext.refl s, (show 0 < s.states.length by omega), fun m => ?_⟩
      simp only [h.p0]
      rw [isFalse_iff gc hf, satI_compact g.sorted]
    · split
      · rename_i i hi
        obtain ⟨h1, h2⟩ := lookup_some hi
        refine ⟨h, Ext.refl s, h1, fun m => ?_⟩
        simp only [h2]
        exact satI_compact g.sorted
      · rename_i hn
        have hn' := lookup_none hn
        have hpi := push_inv h gc (isCompact_compact v) hn'
        generalize hS : s.push v.compact = S at hpi
        have hSl : S.states.length = s.states.length + 1 := by rw [← hS]; exact push_length _ _
        have hSp : ∀ k < s.states.length, S.pred k = s.pred k := fun k hk => by rw [← hS]; exact push_pred_old _ _ hk
        have hSn : S.pred s.states.length = v.compact := by
          rw [← hS]; unfold TraceSet.pred; rw [push_state_new]
        have hSe : (S.state s.states.length).edges = [] := by rw [← hS, push_state_new]
        generalize hk : s.states.length = k at *
        generalize hS' : ({ S with initial := (if initOK m0 v.compact = true then ins S.initial k else S.initial),
                                   states := S.states.modify k fun x => { x with edges := selfEdges N v.compact k N.ntransitions 0 x.edges } } : TraceSet) = S'
        have hl' : S'.states.length = S.states.length := by rw [← hS']; simp
        have hst : ∀ i < S.states.length, S'.state i = if k = i then
            { S.state i with edges := selfEdges N v.compact k N.ntransitions 0 (S.state i).edges } else S.state i := by
          intro i hi
          rw [← hS']
          exact state_modify S k _ i hi
        have hp' : ∀ i < S.states.length, S'.pred i = S.pred i := by
          intro i hi; unfold TraceSet.pred; rw [hst i hi]; split <;> rfl
        have hini : ∀ i ∈ S'.initial, i ∈ S.initial ∨ (i = k ∧ initOK m0 v.compact = true) := by
          intro i hi
          rw [← hS'] at hi
          simp only at hi
          split at hi
          · rename_i hok
            rcases mem_ins.1 hi with h | h
            · exact Or.inl h
            · exact Or.inr ⟨h, hok⟩
          · exact Or.inl hi
        refine ⟨?_, ⟨(show s.states.length ≤ S'.states.length by omega), fun i hi => ?_⟩, (show k < S'.states.length by omega), fun m => ?_⟩
        · refine ⟨(show 2 ≤ S'.states.length by omega), ?_, ?_, ?_, ?_, ?_, ?_, ?_, ?_⟩
          · rw [hp' 0 (by omega)]; exact hpi.p0
          · rw [hp' 1 (by omega)]; exact hpi.p1
          · intro i hi; rw [hl'] at hi; rw [hp' i hi]; exact hpi.good i hi
          · intro i hi; rw [hl'] at hi; rw [hp' i hi]; exact hpi.comp i hi
          · intro i hi j hj; rw [hl'] at hi hj; rw [hp' i hi, hp' j hj]; exact hpi.inj i hi j hj
          · intro i hi x hx
            rw [hl'] at hi
            rw [hst i hi] at hx
            have hx' : x ∈ (S.state i).simulates := by split at hx <;> exact hx
            obtain ⟨h1, h2, h3⟩ := hpi.sim i hi x hx'
            rw [hl', hp' i hi, hp' x h1]; exact ⟨h1, h2, h3⟩
          · intro i hi hi0 x hx j hj
            rw [hl'] at hi ⊢
            rw [hst i hi] at hx
            rw [hp' i hi]
            split at hx
            · rename_i hki
              subst hki
              simp only [hSe] at hx
              rcases mem_selfEdges N _ _ _ _ _ _ _ hx hj with ⟨y, hy, _⟩ | ⟨u, _, hu, hsym, hcase⟩
              · cases hy
              · rw [hsym]
                rcases hcase with ⟨hd, rfl⟩ | ⟨hok, rfl⟩
                · refine ⟨by omega, edgeOK_dead (fun m m' hm => self_dead ok (by omega) hd ?_)⟩
                  rw [← hSn]; exact hm
                · refine ⟨by omega, fun m m' hm hf _ => ?_⟩
                  rw [hp' _ (by omega), hSn]
                  rw [hSn] at hm
                  exact self_keep ok (by omega) hok hm hf
            · have := hpi.edge i hi hi0 x hx j hj
              rw [hp' j this.1]; exact this
          · intro i hi
            rw [hl']
            rcases hini i hi with hi | ⟨rfl, hok⟩
            · have := hpi.init i hi
              rw [hp' i this.1]; exact this
            · rw [hp' _ (by omega), hSn]
              exact ⟨by omega, initOK_sat gc hok⟩
        · rw [hp' i (by omega)]; exact hSp i (by omega)
        · rw [hp' k (by omega), hSn]; exact satI_compact g.sorted

/-- The predicates of a trace and the symbols between them. -/
def Chain (N : FlatNet) (G : (Nat → Nat) → Prop) : List (PRVec × Nat) → Prop
  | [] => True
  | [x] => Good N.nplaces x.1 ∧ EdgeOK N G x.1 x.2 (falseRange N.nplaces)
  | x :: y :: rest => Good N.nplaces x.1 ∧ EdgeOK N G x.1 x.2 y.1 ∧ Chain N G (y :: rest)

theorem addFrom_inv (ok : NetOK N) : ∀ (l : List (PRVec × Nat)) (s : TraceSet) (last : Nat), AInv N m0 G s →
    last < s.states.length → (∀ x ∈ l.head?, ∀ m, SatI (s.pred last) m ↔ SatI x.1 m) → Chain N G l →
    AInv N m0 G (addFrom N m0 s last l) := by
  intro l
  induction l with
  | nil => intro s last h _ _ _; exact h
  | cons x rest ih =>
    intro s last h hl hx hc
    have hx' := hx x (by simp)
    cases rest with
    | nil =>
      simp only [addFrom]
      refine addEdge_inv h (by have := h.len; omega) (fun _ => ?_)
      rw [h.p0]
      exact edgeOK_congr (fun m hm => (hx' m).1 hm) (fun _ _ hm => hm) hc.2
    | cons y rest =>
      simp only [addFrom]
      obtain ⟨gx, hxy, hc'⟩ := hc
      have gy : Good N.nplaces y.1 := by
        cases rest with
        | nil => exact hc'.1
        | cons _ _ => exact hc'.1
      obtain ⟨h1, h2, h3, h4⟩ := stateFor_spec ok h gy
      generalize stateFor N m0 s y.1 = r at *
      have hlast : last < r.1.states.length := Nat.lt_of_lt_of_le hl h2.1
      refine ih _ _ (addEdge_inv h1 h3 (fun _ => ?_)) (by rw [addEdge_length]; exact h3) ?_ hc'
      · rw [h2.2 last hl]
        exact edgeOK_congr (fun m hm => (hx' m).1 hm) (fun m _ hm => (h4 m).2 hm) hxy
      · intro z hz m
        simp only [List.head?_cons, Option.mem_def, Option.some.injEq] at hz
        subst hz
        rw [addEdge_pred _ _ _ _ _ h3]; exact h4 m

theorem addTrace_inv (ok : NetOK N) {s : TraceSet} (h : AInv N m0 G s) {l : List (PRVec × Nat)} (hc : Chain N G l) :
    AInv N m0 G (addTrace N m0 s l) := by
  cases l with
  | nil => exact h
  | cons x rest =>
    simp only [addTrace]
    have gx : Good N.nplaces x.1 := by
      cases rest with
      | nil => exact hc.1
      | cons _ _ => exact hc.1
    obtain ⟨h1, h2, h3, h4⟩ := stateFor_spec ok h gx
    refine addFrom_inv ok _ _ _ h1 h3 ?_ hc
    intro z hz m
    simp only [List.head?_cons, Option.mem_def, Option.some.injEq] at hz
    subst hz
    exact h4 m

theorem incl_nil (v : PRVec) : Incl [] v := fun _ h => by cases h

theorem falseRange_compact (n : Nat) : (falseRange n).isCompact = true := by
  unfold isCompact falseRange
  rw [List.all_eq_true]
  intro e he
  obtain ⟨p, _, rfl⟩ := List.mem_map.1 he
  rfl

theorem init_inv (ok : NetOK N) : AInv N m0 G (TraceSet.init N.nplaces) := by
  have hp0 : (TraceSet.init N.nplaces).pred 0 = falseRange N.nplaces := rfl
  have hp1 : (TraceSet.init N.nplaces).pred 1 = [] := rfl
  have hl : (TraceSet.init N.nplaces).states.length = 2 := rfl
  have cases' : ∀ i < (TraceSet.init N.nplaces).states.length, i = 0 ∨ i = 1 := by intro i hi; rw [hl] at hi; omega
  have hne : falseRange N.nplaces ≠ [] := by
    have := ok.pos
    intro h
    have h2 := congrArg List.length h
    simp [falseRange] at h2
    omega
  refine ⟨by omega, hp0, hp1, ?_, ?_, ?_, ?_, ?_, ?_⟩
  · intro i hi
    rcases cases' i hi with rfl | rfl
    · rw [hp0]; exact falseRange_good _
    · rw [hp1]; exact good_nil _
  · intro i hi
    rcases cases' i hi with rfl | rfl
    · rw [hp0]; exact falseRange_compact _
    · rw [hp1]; rfl
  · intro i hi j hj he
    rcases cases' i hi with rfl | rfl <;> rcases cases' j hj with rfl | rfl
    · rfl
    · rw [hp0, hp1] at he; exact (hne he).elim
    · rw [hp0, hp1] at he; exact (hne he.symm).elim
    · rfl
  · intro i hi x hx
    rcases cases' i hi with rfl | rfl
    · have : x ∈ (if (PRVec.compare [] (falseRange N.nplaces)).1 then [1] else []) := hx
      split at this
      · rename_i hcmp
        simp only [List.mem_singleton] at this
        subst this
        rw [hp0, hp1]
        exact ⟨by omega, by omega, incl_nil _⟩
      · cases this
    · have : x ∈ (if (PRVec.compare [] (falseRange N.nplaces)).2 then insSorted [] 0 else []) := hx
      split at this
      · rename_i hcmp
        simp only [insSorted, List.mem_singleton] at this
        subst this
        rw [hp0, hp1]
        exact ⟨by omega, by omega, (compare_snd (good_nil N.nplaces).sorted (falseRange_good _).sorted).1 hcmp⟩
      · cases this
  · intro i hi _ x hx
    rcases cases' i hi with rfl | rfl
    · cases hx
    · cases hx
  · intro i hi
    have : i = 1 := by simpa [TraceSet.init] using hi
    subst this
    rw [hp1]; exact ⟨by omega, satI_nil _⟩

end TAR
end Verif
