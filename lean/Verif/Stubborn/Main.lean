import Verif.Stubborn.Record

/-!
# The stubborn set of a marking keeps a shortest way to every goal
-/

namespace Verif
namespace Stubborn
open PQL

variable {N : FlatNet}

theorem exists_block (w : N.WF) {t : Nat} (ht : t < N.ntransitions) : ∃ p, p < N.nplaces ∧ N.ptr p ≤ t ∧ t < N.ptr (p + 1) := by
  have key : ∀ n, n ≤ N.nplaces → N.ptr n ≤ t ∨ ∃ p, p < n ∧ N.ptr p ≤ t ∧ t < N.ptr (p + 1) := by
    intro n
    induction n with
    | zero => intro _; left; rw [w.ptr_zero]; exact Nat.zero_le _
    | succ n ih =>
      intro hn
      rcases ih (by omega) with h | ⟨p, hp, h⟩
      · by_cases h' : N.ptr (n + 1) ≤ t
        · exact .inl h'
        · exact .inr ⟨n, by omega, h, by omega⟩
      · exact .inr ⟨p, by omega, h⟩
  rcases key N.nplaces (Nat.le_refl _) with h | h
  · rw [w.ptr_last] at h; omega
  · exact h

theorem mem_ordering (w : N.WF) {m : Nat → Nat} {t : Nat} :
    t ∈ ordering N m ↔ t < N.ntransitions ∧ N.checkPreset m t = true := by
  unfold ordering
  rw [List.mem_flatMap]
  constructor
  · rintro ⟨p, hp, ht⟩
    rw [List.mem_range] at hp
    split at ht
    · rw [List.mem_filter, List.mem_map] at ht
      obtain ⟨⟨k, hk, rfl⟩, hc⟩ := ht
      rw [List.mem_range] at hk
      have := FlatNet.ptr_le_ntrans w (N.nplaces - (p + 1)) (p + 1) (by omega)
      exact ⟨by omega, hc⟩
    · simp at ht
  · rintro ⟨ht, hc⟩
    obtain ⟨p, hp, h1, h2⟩ := exists_block w ht
    refine ⟨p, List.mem_range.2 hp, ?_⟩
    have hcond : p = 0 ∨ m p > 0 := by
      by_cases h0 : p = 0
      · exact .inl h0
      · right
        refine Classical.byContradiction fun h => ?_
        rw [FlatNet.block_disabled w (by omega) h hp h1 h2] at hc
        cases hc
    rw [if_pos hcond, List.mem_filter, List.mem_map]
    exact ⟨⟨t - N.ptr p, List.mem_range.2 (by omega), by omega⟩, hc⟩

theorem cx_en (w : N.WF) (m : Nat → Nat) : EnOK N m (cx N m).en := by
  intro t ht
  have := mem_ordering w (m := m) (t := t)
  simp only [cx]
  cases hc : N.checkPreset m t with
  | true => rw [List.contains_iff_mem, this]; exact ⟨ht, hc⟩
  | false =>
    cases hx : (ordering N m).contains t with
    | false => rfl
    | true =>
      rw [List.contains_iff_mem, this, hc] at hx
      simp at hx

/-- Specification: what a query asks for: the reachability search passes the predicate itself, the CTL engine
a formula `EF c`. -/
def goalOf : Cond → Cond
  | .EF c => c
  | c => c

theorem goal_cases (q : Cond) (h : tameCond (goalOf q) = true) : goalOf q = q ∨ q = .EF (goalOf q) := by
  cases q <;> simp [goalOf]

/-- Evaluating a query and visiting it. -/
theorem visitQuery_ok {C : Cx} {M' : Nat → Nat} {dl' : Bool} (h : Cx.Here C M' dl') (i : Nat) (q : Cond) (M : Mem)
    (s : Stub) (ht : tameCond (goalOf q) = true) (hf : Fit32 C.m (goalOf q))
    (hv : evaluateSet false C.m (goalOf q) = .rFalse)
    (hK : Keeps C.m M' (C.visit (evalMem false C.m [i] q M).2 false [i] q s)) :
    evaluateSet dl' M' (goalOf q) = .rFalse := by
  have hnt := tame_nontemporal _ ht
  rcases goal_cases q ht with hg | hg
  · rw [hg] at hnt ht hf hv ⊢
    obtain ⟨_, _, _, hr⟩ := evalMem_spec (dl := false) (m := C.m) [i] q M hnt
    exact Cx.visit_ok h false [i] q s ht hf hr hv hK
  · generalize goalOf q = c at *
    subst hg
    obtain ⟨_, _, _, hr⟩ := evalMem_spec (dl := false) (m := C.m) [i, 0] c M hnt
    simp only [Cx.visit, evalMem, List.cons_append, List.nil_append] at hK
    refine Cx.visit_ok h false [i, 0] c s ht hf ?_ hv hK
    refine rec_congr _ c (fun q hq => setSat_same fun he => ?_) hr
    have := hq.length_le
    rw [he] at this
    simp at this

theorem visitQueries_ext {C : Cx} (hen : EnOK C.N C.m C.en) {dl : Bool} : ∀ (qs : List Cond) (i : Nat) (M : Mem)
    (s : Stub), Cx.ExtC C s (visitQueries C dl i qs M s)
  | [], _, _, s => .refl s
  | q :: qs, i, M, s => by
    simp only [visitQueries]
    exact (Cx.visit_ext hen _ _ q s).trans (visitQueries_ext hen qs _ _ _)

theorem visitQueries_ok {C : Cx} {M' : Nat → Nat} {dl' : Bool} (h : Cx.Here C M' dl') : ∀ (qs : List Cond) (i : Nat)
    (M : Mem) (s : Stub) (q : Cond), q ∈ qs → tameCond (goalOf q) = true → Fit32 C.m (goalOf q) →
    evaluateSet false C.m (goalOf q) = .rFalse → Keeps C.m M' (visitQueries C false i qs M s) →
    evaluateSet dl' M' (goalOf q) = .rFalse
  | [], _, _, _, _, hq, _, _, _, _ => by simp at hq
  | a :: qs, i, M, s, q, hq, ht, hf, hv, hK => by
    simp only [visitQueries] at hK
    rcases List.mem_cons.1 hq with rfl | hq
    · exact visitQuery_ok h i _ M s ht hf hv (hK.mono (visitQueries_ext h.en qs _ _ _).le)
    · exact visitQueries_ok h qs _ _ _ q hq ht hf hv hK

theorem inv_empty (m : Nat → Nat) (en : Nat → Bool) : Inv N m en (fun _ => False) {} where
  pre p hp := by cases hp
  post p hp := by cases hp
  inh p hp := by cases hp
  lt t ht := by cases ht
  unst t ht := by cases ht
  proc t ht := by cases ht
  mu := by
    unfold mu
    simp

/-- **Progress**: from a marking that does not satisfy the goal, a way to a marking that does can be replaced by
one of the same length whose first transition is in the stubborn set. -/
theorem stubborn_progress (w : N.WF) (hd : N.DirOK) (hdl : ∀ m, N.deadlocked m = true ↔ N.toNet.Dead m)
    {m M' : Nat → Nat} (hm : ∀ p, m p < W32) (hM' : ∀ p, M' p < W32)
    {qs : List Cond} (M : Mem) {q : Cond} (hq : q ∈ qs) (ht : tameCond (goalOf q) = true) (hf : Fit32 m (goalOf q))
    (hv : evaluateSet (N.deadlocked m) m (goalOf q) = .rFalse) {us : List (Fin N.ntransitions)}
    (hr : N.toNet.Run m us M') (hg : evaluateSet (N.deadlocked M') M' (goalOf q) ≠ .rFalse) :
    ∃ (t : Fin N.ntransitions) (us' : List (Fin N.ntransitions)), stubborn N qs M m t = true ∧ N.toNet.Enabled m t ∧
      N.toNet.Run (N.toNet.fire m t) us' M' ∧ us.length = us'.length + 1 := by
  cases hr with
  | nil => exact (hg hv).elim
  | @cons _ t m1 us _ hs hr' =>
    have hen := cx_en w m
    have hto : t.val ∈ ordering N m := (mem_ordering w).2 ⟨t.2, (FlatNet.checkPreset_iff w m t).2 hs.1⟩
    rcases ho : ordering N m with _ | ⟨u, _ | ⟨u', l⟩⟩
    · rw [ho] at hto; cases hto
    · have hst : stubborn N qs M m = setB (fun _ => false) u := by unfold stubborn; rw [ho]
      rw [ho, List.mem_singleton] at hto
      exact ⟨t, us, by rw [hst, hto]; exact setB_self .., hs.1, by rw [← hs.2]; exact hr', rfl⟩
    · have hst : stubborn N qs M m =
          (closure N m (cx N m).en (visitQueries (cx N m) (N.deadlocked m) 0 qs M {})).stub := by
        unfold stubborn; rw [ho]
      rw [hst]
      have hdf : N.deadlocked m = false := by
        cases h : N.deadlocked m with
        | false => rfl
        | true => exact ((hdl m).1 h t hs.1).elim
      rw [hdf] at hv ⊢
      have h1 := visitQueries_ext (C := cx N m) hen (dl := false) qs 0 M {}
      have hi := h1.inv (inv_empty m (cx N m).en)
      obtain ⟨hle, hi2, hu⟩ := closure_done hen _ hi
      have hcl := closed_of_inv w hd hen hi2 hu
      refine hcl.front (.cons hs hr') (Classical.byContradiction fun hno => hg ?_)
      have hK : Keeps m M' (closure N m (cx N m).en (visitQueries (cx N m) false 0 qs M {})) :=
        keeps_of_run hd hi2 (S := fun u => (closure N m (cx N m).en (visitQueries (cx N m) false 0 qs M {})).stub u = true)
          (fun _ h => h) (.cons hs hr') fun u hu hS => hno ⟨u, hu, hS⟩
      refine visitQueries_ok (C := cx N m) ⟨hen, ⟨t, t.2, ?_⟩, hm, hM', fun u hu hc => ?_⟩ qs 0 M {} q hq ht hf hv
        (hK.mono hle)
      · exact List.contains_iff_mem.2 hto
      · cases h : N.deadlocked M' with
        | false => rfl
        | true => exact ((hdl M').1 h ⟨u, hu⟩ ((FlatNet.checkPreset_iff w M' ⟨u, hu⟩).1 hc)).elim

/-! ### The reduced generator -/

theorem fireAll_mem {m : Nat → Nat} {x : Nat × (Nat → Nat)} : ∀ {l : List Nat}, x ∈ (fireAll N m l).1 →
    x.1 ∈ l ∧ N.fire m x.1 = some x.2
  | [], h => by simp [fireAll] at h
  | t :: ts, h => by
    unfold fireAll at h
    cases hf : N.fire m t with
    | none => rw [hf] at h; simp at h
    | some m' =>
      rw [hf] at h
      simp only [List.mem_cons] at h
      rcases h with rfl | h
      · exact ⟨List.mem_cons_self .., hf⟩
      · have := fireAll_mem h
        exact ⟨List.mem_cons_of_mem _ this.1, this.2⟩

theorem fireAll_complete {m : Nat → Nat} {t : Nat} : ∀ {l : List Nat}, (fireAll N m l).2 = false → t ∈ l →
    ∃ m', N.fire m t = some m' ∧ (t, m') ∈ (fireAll N m l).1
  | [], _, h => by simp at h
  | u :: ts, h, ht => by
    unfold fireAll at h ⊢
    cases hf : N.fire m u with
    | none => rw [hf] at h; simp at h
    | some m' =>
      rw [hf] at h
      simp only at h ⊢
      rcases List.mem_cons.1 ht with rfl | ht
      · exact ⟨m', hf, List.mem_cons_self ..⟩
      · obtain ⟨m2, h1, h2⟩ := fireAll_complete h ht
        exact ⟨m2, h1, List.mem_cons_of_mem _ h2⟩

theorem fireAll_ok {m : Nat → Nat} : ∀ {l : List Nat}, (∀ t ∈ l, N.fire m t ≠ none) → (fireAll N m l).2 = false
  | [], _ => rfl
  | t :: ts, h => by
    unfold fireAll
    cases hf : N.fire m t with
    | none => exact (h t (List.mem_cons_self ..) hf).elim
    | some m' => exact fireAll_ok fun u hu => h u (List.mem_cons_of_mem _ hu)

theorem redGen_step (w : N.WF) (qs : List Cond) (M : Mem) {m : Nat → Nat} (hm : ∀ p, p < N.nplaces → m p < W32)
    {x : Nat × (Nat → Nat)} (hx : x ∈ (redGen N qs M m).1) :
    ∃ t : Fin N.ntransitions, t.val = x.1 ∧ stubborn N qs M m t = true ∧ N.toNet.Step m t x.2 ∧
      ∀ p, p < N.nplaces → x.2 p < W32 := by
  obtain ⟨h1, h2⟩ := fireAll_mem hx
  rw [List.mem_filter] at h1
  obtain ⟨h3, h4⟩ := (mem_ordering w).1 h1.1
  have he := (FlatNet.checkPreset_iff w m ⟨x.1, h3⟩).1 h4
  have hs := FlatNet.fire_spec w m hm ⟨x.1, h3⟩ he
  simp only at hs
  rw [h2] at hs
  simp only [Bool.and_eq_true] at h1
  exact ⟨⟨x.1, h3⟩, rfl, h1.2.1, ⟨he, hs.1⟩, hs.2⟩

theorem redGen_complete (w : N.WF) (qs : List Cond) (M : Mem) {m : Nat → Nat} (hm : ∀ p, p < N.nplaces → m p < W32)
    (hno : (redGen N qs M m).2 = false) {t : Fin N.ntransitions} (hst : stubborn N qs M m t = true)
    (he : N.toNet.Enabled m t) : (t.val, N.toNet.fire m t) ∈ (redGen N qs M m).1 := by
  have ho : t.val ∈ ordering N m := (mem_ordering w).2 ⟨t.2, (FlatNet.checkPreset_iff w m t).2 he⟩
  obtain ⟨m', h1, h2⟩ := fireAll_complete hno (t := t.val) (by
    rw [List.mem_filter]
    refine ⟨ho, ?_⟩
    rw [Bool.and_eq_true]
    exact ⟨hst, List.contains_iff_mem.2 ho⟩)
  have hs := FlatNet.fire_spec w m hm t he
  rw [h1] at hs
  simp only at hs
  rw [← hs.1]
  exact h2

end Stubborn
end Verif
