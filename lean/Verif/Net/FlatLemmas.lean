import Verif.Net.Flat

/-! # Helper lemmas for the flat net (successor generator, deadlock test, firing) -/

namespace Verif
namespace FlatNet

theorem scan_some {ok : Nat → Bool} : ∀ {n t u}, scan ok t n = some u →
    t ≤ u ∧ u < t + n ∧ ok u = true ∧ ∀ v, t ≤ v → v < u → ok v = false
  | 0, t, u, h => by simp [scan] at h
  | n + 1, t, u, h => by
    unfold scan at h
    split at h
    · rename_i hok
      simp at h; subst h
      exact ⟨Nat.le_refl _, by omega, hok, fun v h1 h2 => by omega⟩
    · rename_i hok
      obtain ⟨h1, h2, h3, h4⟩ := scan_some h
      refine ⟨by omega, by omega, h3, fun v hv hu => ?_⟩
      by_cases e : v = t
      · subst e; simpa using hok
      · exact h4 v (by omega) hu

theorem scan_none {ok : Nat → Bool} : ∀ {n t}, scan ok t n = none →
    ∀ v, t ≤ v → v < t + n → ok v = false
  | 0, t, _, v, h1, h2 => by omega
  | n + 1, t, h, v, h1, h2 => by
    unfold scan at h
    split at h
    · simp at h
    · rename_i hok
      by_cases e : v = t
      · subst e; simpa using hok
      · exact scan_none h v (by omega) (by omega)

theorem checkInvs_iff (m : Nat → Nat) : ∀ l : List Invariant,
    checkInvs m l = true ↔ ∀ i ∈ l, (i.inhibitor = false → i.tokens ≤ m i.place) ∧
      (i.inhibitor = true → m i.place < i.tokens)
  | [] => by simp [checkInvs]
  | i :: l => by
    unfold checkInvs
    have ih := checkInvs_iff m l
    cases hi : i.inhibitor <;> by_cases hlt : m i.place < i.tokens <;>
      simp [hi, hlt, ih] <;> omega

theorem deadCheck_eq (m : Nat → Nat) : ∀ l, deadCheck m l = checkInvs m l
  | [] => rfl
  | i :: l => by
    unfold deadCheck checkInvs
    have ih := deadCheck_eq m l
    cases hi : i.inhibitor <;> by_cases hlt : m i.place < i.tokens <;>
      simp [hlt, ih, Nat.not_le] <;> omega

theorem fireable_eq (N : FlatNet) (m : Nat → Nat) (t : Nat) :
    N.fireable m t = N.checkPreset m t := by
  unfold fireable checkPreset
  rw [Bool.eq_iff_iff, checkInvs_iff, List.all_eq_true]
  refine forall₂_congr fun i _ => ?_
  cases hi : i.inhibitor <;> simp

theorem find_place {l : List Invariant} (hn : (l.map Invariant.place).Nodup)
    {i : Invariant} (hi : i ∈ l) (q : Invariant → Bool) (hq : q i = true) :
    l.find? (fun j => j.place == i.place && q j) = some i := by
  induction l with
  | nil => simp at hi
  | cons j l ih =>
    simp only [List.map_cons, List.nodup_cons] at hn
    rw [List.find?_cons]
    rcases List.mem_cons.1 hi with rfl | h
    · simp [hq]
    · have : j.place ≠ i.place := fun e => hn.1 (e ▸ List.mem_map_of_mem h)
      have hb : (j.place == i.place) = false := by simpa using this
      simp [hb, ih hn.2 h]

variable {N : FlatNet}

theorem checkPreset_iff (w : N.WF) (m : Nat → Nat) (t : Fin N.ntransitions) :
    N.checkPreset m t = true ↔ N.toNet.Enabled m t := by
  unfold checkPreset
  rw [checkInvs_iff]
  have hn := w.pre_nodup t t.2
  constructor
  · intro h
    constructor
    · intro p
      simp only [toNet]
      split
      · rename_i i hi
        have hm := List.mem_of_find?_eq_some hi
        have hp := List.find?_some hi
        simp at hp
        rw [← hp.1]
        exact (h i hm).1 hp.2
      · omega
    · intro p k hk
      simp only [toNet] at hk
      split at hk
      · rename_i i hi
        have hm := List.mem_of_find?_eq_some hi
        have hp := List.find?_some hi
        simp at hp hk
        rw [← hp.1, ← hk]
        exact (h i hm).2 hp.2
      · simp at hk
  · rintro ⟨h1, h2⟩ i hi
    constructor
    · intro hf
      have := h1 i.place
      have hfd := find_place hn hi (fun j => !j.inhibitor) (by simp [hf])
      simp only [toNet, hfd] at this
      exact this
    · intro hf
      have hfd := find_place hn hi (fun j => j.inhibitor) (by simp [hf])
      exact h2 i.place i.tokens (by simp only [toNet, hfd])

/-! ### Enumeration -/

theorem ptr_le_ntrans (w : N.WF) : ∀ k p, p + k = N.nplaces → N.ptr p ≤ N.ntransitions
  | 0, p, h => by
    have : p = N.nplaces := by omega
    subst this; exact Nat.le_of_eq w.ptr_last
  | k + 1, p, h => Nat.le_trans (w.ptr_mono p (by omega)) (ptr_le_ntrans w k (p + 1) (by omega))

theorem block_disabled (w : N.WF) {m : Nat → Nat} {p t : Nat} (hp : 0 < p) (hm : ¬ 0 < m p)
    (hlt : p < N.nplaces) (h1 : N.ptr p ≤ t) (h2 : t < N.ptr (p + 1)) :
    N.checkPreset m t = false := by
  obtain ⟨i, hi, hip, hinh⟩ := w.block p t hp hlt h1 h2
  cases hc : N.checkPreset m t with
  | false => rfl
  | true =>
    unfold checkPreset at hc
    rw [checkInvs_iff] at hc
    have := (hc i hi).1 hinh
    have hpos : 0 < i.tokens := w.tokens_pos i (by
      unfold preset slice at hi
      exact List.mem_of_mem_drop (List.mem_of_mem_take hi))
    rw [hip] at this
    omega

/-- The position in transition numbering at which a generator state resumes. -/
def pos (N : FlatNet) (s : GenState) : Nat := s.2.getD (N.ptr s.1)

/-- Generator states that occur: counters inside the current block. -/
def GenOK (N : FlatNet) (s : GenState) : Prop :=
  s.1 < N.nplaces ∧ ∀ t, s.2 = some t → N.ptr s.1 ≤ t ∧ t ≤ N.ptr (s.1 + 1)

theorem nextAux_spec (w : N.WF) (m : Nat → Nat) (pred : Nat → Bool) :
    ∀ n pc tc, n = N.nplaces - pc → pc ≤ N.nplaces →
      (∀ t, tc = some t → pc < N.nplaces ∧ N.ptr pc ≤ t ∧ t ≤ N.ptr (pc + 1)) →
      match nextAux N m pred n pc tc with
      | some (t, s') => tc.getD (N.ptr pc) ≤ t ∧ t < N.ntransitions ∧
          (N.checkPreset m t && pred t) = true ∧
          (∀ v, tc.getD (N.ptr pc) ≤ v → v < t → (N.checkPreset m v && pred v) = false) ∧
          GenOK N s' ∧ pos N s' = t + 1
      | none => ∀ v, tc.getD (N.ptr pc) ≤ v → v < N.ntransitions →
          (N.checkPreset m v && pred v) = false
  | 0, pc, tc, hn, hpc, htc => by
    simp only [nextAux]
    intro v h1 h2
    have : pc = N.nplaces := by omega
    cases tc with
    | none => subst this; simp [w.ptr_last] at h1; omega
    | some t => have := (htc t rfl).1; omega
  | n + 1, pc, tc, hn, hpc, htc => by
    have hlt : pc < N.nplaces := by omega
    have hmono := w.ptr_mono pc hlt
    have ht0 : N.ptr pc ≤ tc.getD (N.ptr pc) ∧ tc.getD (N.ptr pc) ≤ N.ptr (pc + 1) := by
      cases tc with
      | none => simpa using hmono
      | some t => simpa using (htc t rfl).2
    have hnt : N.ptr (pc + 1) ≤ N.ntransitions :=
      ptr_le_ntrans w (N.nplaces - (pc + 1)) (pc + 1) (by omega)
    have ih := nextAux_spec w m pred n (pc + 1) none (by omega) (by omega) (by simp)
    -- the current block contains no acceptable transition from `tc` on
    have skip : (∀ v, tc.getD (N.ptr pc) ≤ v → v < N.ptr (pc + 1) →
        (N.checkPreset m v && pred v) = false) →
        match nextAux N m pred n (pc + 1) none with
        | some (t, s') => tc.getD (N.ptr pc) ≤ t ∧ t < N.ntransitions ∧
            (N.checkPreset m t && pred t) = true ∧
            (∀ v, tc.getD (N.ptr pc) ≤ v → v < t → (N.checkPreset m v && pred v) = false) ∧
            GenOK N s' ∧ pos N s' = t + 1
        | none => ∀ v, tc.getD (N.ptr pc) ≤ v → v < N.ntransitions →
            (N.checkPreset m v && pred v) = false := by
      intro hskip
      cases hr : nextAux N m pred n (pc + 1) none with
      | none =>
        simp only [hr, Option.getD_none] at ih ⊢
        intro v h1 h2
        by_cases hv : v < N.ptr (pc + 1)
        · exact hskip v h1 hv
        · exact ih v (by omega) h2
      | some r =>
        obtain ⟨t, s'⟩ := r
        simp only [hr, Option.getD_none] at ih ⊢
        obtain ⟨a, b, c, d, e, f⟩ := ih
        refine ⟨by omega, b, c, fun v h1 h2 => ?_, e, f⟩
        by_cases hv : v < N.ptr (pc + 1)
        · exact hskip v h1 hv
        · exact d v (by omega) h2
    rw [nextAux]
    by_cases hc : pc = 0 ∨ 0 < m pc
    · simp only [hc, if_true]
      cases hs : scan (fun t => N.checkPreset m t && pred t) (tc.getD (N.ptr pc))
          (N.ptr (pc + 1) - tc.getD (N.ptr pc)) with
      | some t =>
        obtain ⟨a, b, c, d⟩ := scan_some hs
        simp only
        refine ⟨a, by omega, c, d, ⟨hlt, fun u hu => ?_⟩, rfl⟩
        simp at hu; subst hu; simp only; omega
      | none =>
        simp only
        exact skip fun v h1 h2 => scan_none hs v h1 (by omega)
    · simp only [hc, if_false]
      refine skip fun v h1 h2 => ?_
      rw [block_disabled w (by omega) (by omega) hlt (by omega) h2]; rfl

theorem next_spec (w : N.WF) (m : Nat → Nat) (pred : Nat → Bool) (s : GenState) (hs : GenOK N s) :
    match N.next m pred s with
    | some (t, s') => pos N s ≤ t ∧ t < N.ntransitions ∧
        (N.checkPreset m t && pred t) = true ∧
        (∀ v, pos N s ≤ v → v < t → (N.checkPreset m v && pred v) = false) ∧
        GenOK N s' ∧ pos N s' = t + 1
    | none => ∀ v, pos N s ≤ v → v < N.ntransitions → (N.checkPreset m v && pred v) = false := by
  have := nextAux_spec w m pred (N.nplaces - s.1) s.1 s.2 rfl (Nat.le_of_lt hs.1)
    (fun t ht => ⟨hs.1, hs.2 t ht⟩)
  exact this

theorem genInit_ok (w : N.WF) : GenOK N genInit := ⟨w.places_pos, by simp [genInit]⟩

theorem pos_genInit (w : N.WF) : pos N genInit = 0 := by simp [pos, genInit, w.ptr_zero]

/-- Main enumeration lemma, phrased with the list of transitions from `pos` on. -/
theorem enumFrom_ok (w : N.WF) (m : Nat → Nat) (pred : Nat → Bool) :
    ∀ fuel s l b, GenOK N s → enumFrom N m pred fuel s = .ok (l, b) →
      (∀ x ∈ l, pos N s ≤ x.1 ∧ x.1 < N.ntransitions ∧ N.checkPreset m x.1 = true ∧
        pred x.1 = true ∧ N.fire m x.1 = some x.2) ∧
      l.Pairwise (fun x y => x.1 < y.1) ∧
      (b = true → ∀ v, pos N s ≤ v → v < N.ntransitions → N.checkPreset m v = true →
        pred v = true → ∃ x ∈ l, x.1 = v)
  | 0, s, l, b, _, h => by
    simp [enumFrom] at h
    obtain ⟨rfl, rfl⟩ := h
    simp
  | fuel + 1, s, l, b, hs, h => by
    have hn := next_spec w m pred s hs
    unfold enumFrom at h
    cases hr : N.next m pred s with
    | none =>
      simp only [hr] at hn h
      simp at h
      obtain ⟨rfl, rfl⟩ := h
      refine ⟨by simp, by simp, fun _ v h1 h2 h3 h4 => ?_⟩
      have := hn v h1 h2
      simp [h3, h4] at this
    | some r =>
      obtain ⟨t, s'⟩ := r
      simp only [hr] at hn h
      obtain ⟨h1, h2, h3, h4, h5, h6⟩ := hn
      simp at h3
      cases hf : N.fire m t with
      | none => simp [hf] at h
      | some m' =>
        simp only [hf] at h
        cases he : enumFrom N m pred fuel s' with
        | error e => simp [he] at h
        | ok r =>
          obtain ⟨l', b'⟩ := r
          simp only [he] at h
          simp at h
          obtain ⟨rfl, rfl⟩ := h
          obtain ⟨ih1, ih2, ih3⟩ := enumFrom_ok w m pred fuel s' l' b' h5 he
          rw [h6] at ih1 ih3
          refine ⟨?_, ?_, ?_⟩
          · intro x hx
            rcases List.mem_cons.1 hx with rfl | hx
            · exact ⟨h1, h2, h3.1, h3.2, hf⟩
            · obtain ⟨a, b, c, d, e⟩ := ih1 x hx
              exact ⟨by omega, b, c, d, e⟩
          · refine List.pairwise_cons.2 ⟨fun x hx => ?_, ih2⟩
            have := (ih1 x hx).1
            simp only; omega
          · intro hb v hv1 hv2 hv3 hv4
            by_cases hvt : v < t
            · have := h4 v hv1 hvt
              simp [hv3, hv4] at this
            · by_cases e : v = t
              · exact ⟨(t, m'), by simp, e.symm⟩
              · obtain ⟨x, hx, hxv⟩ := ih3 hb v (by omega) hv2 hv3 hv4
                exact ⟨x, by simp [hx], hxv⟩

/-- With enough fuel the generator either reports the end or throws. -/
theorem enumFrom_fuel (w : N.WF) (m : Nat → Nat) (pred : Nat → Bool) :
    ∀ fuel s, GenOK N s → N.ntransitions < fuel + pos N s →
      (∃ l, enumFrom N m pred fuel s = .ok (l, true)) ∨
      (enumFrom N m pred fuel s = .error () ∧
        ∃ t, t < N.ntransitions ∧ N.checkPreset m t = true ∧ pred t = true ∧ N.fire m t = none)
  | 0, s, hs, h => by
    exfalso
    have h1 : pos N s ≤ N.ntransitions := by
      unfold pos
      have hp := ptr_le_ntrans w (N.nplaces - (s.1 + 1)) (s.1 + 1) (by have := hs.1; omega)
      cases h2 : s.2 with
      | none => have := w.ptr_mono s.1 hs.1; simp; omega
      | some t => have := (hs.2 t h2).2; simp; omega
    omega
  | fuel + 1, s, hs, h => by
    have hn := next_spec w m pred s hs
    rw [enumFrom]
    cases hr : N.next m pred s with
    | none => exact .inl ⟨[], by simp⟩
    | some r =>
      obtain ⟨t, s'⟩ := r
      simp only [hr] at hn ⊢
      obtain ⟨h1, h2, h3, h4, h5, h6⟩ := hn
      simp at h3
      cases hf : N.fire m t with
      | none => exact .inr ⟨by simp, t, h2, h3.1, h3.2, hf⟩
      | some m' =>
        simp only
        rcases enumFrom_fuel w m pred fuel s' h5 (by omega) with ⟨l, hl⟩ | ⟨hl, hx⟩
        · exact .inl ⟨(t, m') :: l, by simp [hl]⟩
        · exact .inr ⟨by simp [hl], hx⟩

/-! ### Deadlock -/

theorem deadAux_iff (w : N.WF) (m : Nat → Nat) : ∀ n i, n + i = N.nplaces →
    (deadAux N m n i = true ↔ ∀ v, N.ptr i ≤ v → v < N.ntransitions → N.checkPreset m v = false)
  | 0, i, h => by
    have : i = N.nplaces := by omega
    subst this
    simp only [deadAux, true_iff]
    intro v h1 h2
    rw [w.ptr_last] at h1; omega
  | n + 1, i, h => by
    have ih := deadAux_iff w m n (i + 1) (by omega)
    have hlt : i < N.nplaces := by omega
    have hmono := w.ptr_mono i hlt
    have hnt : N.ptr (i + 1) ≤ N.ntransitions :=
      ptr_le_ntrans w (N.nplaces - (i + 1)) (i + 1) (by omega)
    have skip : (∀ v, N.ptr i ≤ v → v < N.ptr (i + 1) → N.checkPreset m v = false) →
        (deadAux N m n (i + 1) = true ↔
          ∀ v, N.ptr i ≤ v → v < N.ntransitions → N.checkPreset m v = false) := by
      intro hs
      rw [ih]
      constructor
      · intro hh v h1 h2
        by_cases hv : v < N.ptr (i + 1)
        · exact hs v h1 hv
        · exact hh v (by omega) h2
      · intro hh v h1 h2
        exact hh v (by omega) h2
    rw [deadAux]
    by_cases hc : i = 0 ∨ 0 < m i
    · simp only [hc, if_true]
      cases hs : scan (fun t => deadCheck m (N.preset t)) (N.ptr i) (N.ptr (i + 1) - N.ptr i) with
      | some t =>
        obtain ⟨a, b, c, d⟩ := scan_some hs
        simp only [Bool.false_eq_true, false_iff]
        intro hh
        have := hh t a (by omega)
        rw [deadCheck_eq] at c
        unfold checkPreset at this
        rw [c] at this; simp at this
      | none =>
        simp only
        refine skip fun v h1 h2 => ?_
        have := scan_none hs v h1 (by omega)
        rw [deadCheck_eq] at this
        exact this
    · simp only [hc, if_false]
      exact skip fun v h1 h2 => block_disabled w (by omega) (by omega) hlt h1 h2

/-! ### Firing -/

theorem sub32_eq {a b : Nat} (h : b ≤ a) (ha : a < W32) : sub32 a b = a - b := by
  unfold sub32
  rw [Nat.mod_eq_of_lt (by omega : b < W32)]
  rw [show a + W32 - b = (a - b) + W32 by omega, Nat.add_mod_right, Nat.mod_eq_of_lt (by omega)]

theorem consume_eq : ∀ (l : List Invariant) (m : Nat → Nat), (l.map Invariant.place).Nodup →
    (∀ i ∈ l, m i.place < W32) →
    (∀ i ∈ l, i.inhibitor = false → i.tokens ≤ m i.place) → ∀ p,
    consume m l p = m p - (match l.find? (fun i => i.place == p && !i.inhibitor) with
      | some i => i.tokens
      | none => 0)
  | [], m, _, _, _, p => by simp [consume]
  | i :: l, m, hn, hb, hle, p => by
    simp only [List.map_cons, List.nodup_cons] at hn
    have hne : ∀ j ∈ l, j.place ≠ i.place := fun j hj e => hn.1 (e ▸ List.mem_map_of_mem hj)
    unfold consume
    cases hi : i.inhibitor with
    | true =>
      simp only [Bool.not_true, Bool.false_eq_true, if_false]
      rw [consume_eq l m hn.2 (fun j hj => hb j (by simp [hj]))
        (fun j hj => hle j (by simp [hj])) p, List.find?_cons]
      simp [hi]
    | false =>
      simp only [Bool.not_false, if_true]
      have hs : sub32 (m i.place) i.tokens = m i.place - i.tokens :=
        sub32_eq (hle i (by simp) hi) (hb i (by simp))
      have hu : ∀ j ∈ l, upd m i.place (sub32 (m i.place) i.tokens) j.place = m j.place :=
        fun j hj => by simp [upd, hne j hj]
      rw [consume_eq l _ hn.2 (fun j hj => by rw [hu j hj]; exact hb j (by simp [hj]))
        (fun j hj => by rw [hu j hj]; exact hle j (by simp [hj])) p, List.find?_cons]
      by_cases hp : i.place = p
      · subst hp
        have : l.find? (fun j => j.place == i.place && !j.inhibitor) = none := by
          rw [List.find?_eq_none]; intro j hj; simp [hne j hj]
        simp [hi, this, upd, hs]
      · have hb : (i.place == p) = false := by simpa using hp
        simp [hb, upd, Ne.symm hp]

theorem produce_eq : ∀ (l : List Invariant) (m : Nat → Nat), (l.map Invariant.place).Nodup →
    match produce m l with
    | some m' => (∀ p, m' p = m p + (match l.find? (fun i => i.place == p) with
        | some i => i.tokens
        | none => 0)) ∧ ∀ i ∈ l, m' i.place < W32 - 1
    | none => ∃ i ∈ l, W32 - 1 ≤ m i.place + i.tokens
  | [], m, _ => by simp [produce]
  | i :: l, m, hn => by
    simp only [List.map_cons, List.nodup_cons] at hn
    have hne : ∀ j ∈ l, j.place ≠ i.place := fun j hj e => hn.1 (e ▸ List.mem_map_of_mem hj)
    unfold produce
    by_cases hge : m i.place + i.tokens ≥ W32 - 1
    · simp only [hge, if_true]
      exact ⟨i, by simp, hge⟩
    · simp only [hge, if_false]
      have ih := produce_eq l (upd m i.place (m i.place + i.tokens)) hn.2
      have hu : ∀ j ∈ l, upd m i.place (m i.place + i.tokens) j.place = m j.place :=
        fun j hj => by simp [upd, hne j hj]
      cases hr : produce (upd m i.place (m i.place + i.tokens)) l with
      | none =>
        simp only [hr] at ih ⊢
        obtain ⟨j, hj, hh⟩ := ih
        rw [hu j hj] at hh
        exact ⟨j, by simp [hj], hh⟩
      | some m' =>
        simp only [hr] at ih ⊢
        obtain ⟨ih1, ih2⟩ := ih
        have hnone : l.find? (fun j => j.place == i.place) = none := by
          rw [List.find?_eq_none]; intro j hj; simp [hne j hj]
        have hi : m' i.place = m i.place + i.tokens := by
          rw [ih1 i.place]; simp [hnone, upd]
        refine ⟨fun p => ?_, fun j hj => ?_⟩
        · rw [List.find?_cons]
          by_cases hp : i.place = p
          · subst hp; simp [hi]
          · have hb : (i.place == p) = false := by simpa using hp
            rw [ih1 p]
            simp [hb, upd, Ne.symm hp]
        · rcases List.mem_cons.1 hj with rfl | hj
          · omega
          · exact ih2 j hj

theorem consume_toNet (w : N.WF) (m : Nat → Nat) (hm : ∀ p, p < N.nplaces → m p < W32)
    (t : Fin N.ntransitions) (he : N.toNet.Enabled m t) (p : Nat) :
    consume m (N.preset t) p = m p - N.toNet.pre t p := by
  have hmem : ∀ i ∈ N.preset t, i ∈ N.invariants := fun i hi => by
    unfold preset slice at hi
    exact List.mem_of_mem_drop (List.mem_of_mem_take hi)
  have hc := (checkPreset_iff w m t).2 he
  unfold checkPreset at hc
  rw [checkInvs_iff] at hc
  exact consume_eq (N.preset t) m (w.pre_nodup t t.2)
    (fun i hi => hm _ (w.place_lt i (hmem i hi))) (fun i hi hf => (hc i hi).1 hf) p

theorem post_lt (w : N.WF) (t : Fin N.ntransitions) (p : Nat) (h : N.nplaces ≤ p) :
    N.toNet.post t p = 0 := by
  simp only [toNet]
  split
  · rename_i i hi
    have hm := List.mem_of_find?_eq_some hi
    have hp := List.find?_some hi
    have : i ∈ N.invariants := by
      unfold postset slice at hm
      exact List.mem_of_mem_drop (List.mem_of_mem_take hm)
    have := w.place_lt i this
    simp at hp; omega
  · rfl

/-- Firing an enabled transition: exact result, or the exception when a place would reach the
32-bit limit. -/
theorem fire_spec (w : N.WF) (m : Nat → Nat) (hm : ∀ p, p < N.nplaces → m p < W32)
    (t : Fin N.ntransitions) (he : N.toNet.Enabled m t) :
    match N.fire m t with
    | some m' => m' = N.toNet.fire m t ∧ ∀ p, p < N.nplaces → m' p < W32
    | none => ∃ p, p < N.nplaces ∧ W32 - 1 ≤ N.toNet.fire m t p := by
  have hc := consume_toNet w m hm t he
  have hp := produce_eq (N.postset t) (consume m (N.preset t)) (w.post_nodup t t.2)
  unfold fire
  cases hr : produce (consume m (N.preset t)) (N.postset t) with
  | none =>
    simp only [hr] at hp ⊢
    obtain ⟨i, hi, hh⟩ := hp
    have hmem : i ∈ N.invariants := by
      unfold postset slice at hi
      exact List.mem_of_mem_drop (List.mem_of_mem_take hi)
    refine ⟨i.place, w.place_lt i hmem, ?_⟩
    have hfd := find_place (w.post_nodup t t.2) hi (fun _ => true) rfl
    simp at hfd
    rw [hc] at hh
    simp only [Net.fire]
    have : N.toNet.post t i.place = i.tokens := by simp only [toNet, hfd]
    omega
  | some m' =>
    simp only [hr] at hp ⊢
    obtain ⟨h1, h2⟩ := hp
    have heq : m' = N.toNet.fire m t := by
      funext p
      rw [h1 p, hc p]
      rfl
    refine ⟨heq, fun p hpl => ?_⟩
    by_cases hin : ∃ i ∈ N.postset t, i.place = p
    · obtain ⟨i, hi, rfl⟩ := hin
      have := h2 i hi
      omega
    · have hnone : (N.postset t).find? (fun i => i.place == p) = none := by
        rw [List.find?_eq_none]; intro j hj hjp
        exact hin ⟨j, hj, by simpa using hjp⟩
      have := h1 p
      simp only [hnone, hc p] at this
      have := hm p hpl
      omega

end FlatNet
end Verif
