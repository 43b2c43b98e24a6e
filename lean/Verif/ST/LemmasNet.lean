import Verif.ST.Lemmas

/-!
# Siphon-trap analysis: dead markings, and termination
-/

namespace Verif
namespace ST

open FlatNet

/-! ### Dead markings -/

theorem checkNet_spec {N : FlatNet} (h : checkNet N = true) {t : Nat} (ht : t < N.ntransitions) :
    N.preset t ≠ [] ∧ (∀ i ∈ N.preset t, i.inhibitor = false ∧ i.tokens = 1) ∧ ∀ i ∈ N.postset t, i.tokens = 1 := by
  have := List.all_eq_true.1 h t (List.mem_range.2 ht)
  simp only [Bool.and_eq_true, Bool.not_eq_true', List.isEmpty_eq_false_iff, List.all_eq_true, beq_iff_eq] at this
  exact ⟨this.1.1, this.1.2, this.2⟩

theorem place_of_preset {N : FlatNet} (w : N.WF) {t : Nat} {i : Invariant} (h : i ∈ N.preset t) : i.place < N.nplaces := by
  unfold preset slice at h
  exact w.place_lt i (List.mem_of_mem_drop (List.mem_of_mem_take h))

/-- A trap with a token keeps one. -/
theorem trap_step {N : FlatNet} (w : N.WF) (hc : checkNet N = true) {T : List Nat} (hT : Trap N (· ∈ T))
    {m m' : Nat → Nat} {t : Fin N.ntransitions} (hs : N.toNet.Step m t m') (hm : ∃ p ∈ T, m p ≠ 0) :
    ∃ p ∈ T, m' p ≠ 0 := by
  obtain ⟨_, rfl⟩ := hs
  obtain ⟨_, _, h3⟩ := checkNet_spec hc t.2
  by_cases h : ∃ p, p ∈ T ∧ t.1 ∈ postP N p
  · obtain ⟨q, hq, hqt⟩ := hT t t.2 h
    obtain ⟨_, i, hi, hiq⟩ := (mem_preP N q t).1 hqt
    refine ⟨q, hq, ?_⟩
    have hf := find_place (w.post_nodup t t.2) hi (fun _ => true) rfl
    simp only [Bool.and_true, hiq] at hf
    have : N.toNet.post t q = 1 := by simp only [toNet, hf]; exact h3 i hi
    simp only [Net.fire, this]; omega
  · obtain ⟨p, hp, hmp⟩ := hm
    refine ⟨p, hp, ?_⟩
    have : N.toNet.pre t p = 0 := by
      simp only [toNet]
      cases hf : (N.preset t).find? (fun i => i.place == p && !i.inhibitor) with
      | none => rfl
      | some i =>
        have hi := List.mem_of_find?_eq_some hf
        have hip := List.find?_some hf
        simp only [Bool.and_eq_true, beq_iff_eq] at hip
        exact absurd ⟨p, hp, (mem_postP N p t).2 ⟨t.2, i, hi, hip.1⟩⟩ h
    simp only [Net.fire, this]; omega

theorem trap_run {N : FlatNet} (w : N.WF) (hc : checkNet N = true) {T : List Nat} (hT : Trap N (· ∈ T))
    {m m' : Nat → Nat} {ts : List (Fin N.ntransitions)} (hr : N.toNet.Run m ts m') (hm : ∃ p ∈ T, m p ≠ 0) :
    ∃ p ∈ T, m' p ≠ 0 := by
  induction hr with
  | nil => exact hm
  | cons hs _ ih => exact ih (trap_step w hc hT hs hm)

theorem empty_of_dead {N : FlatNet} (w : N.WF) (hc : checkNet N = true) {m : Nat → Nat} (hd : N.toNet.Dead m) {t : Nat}
    (ht : t < N.ntransitions) : ∃ i ∈ N.preset t, m i.place = 0 := by
  obtain ⟨_, h2, _⟩ := checkNet_spec hc ht
  refine Classical.byContradiction fun hne => hd ⟨t, ht⟩ ((checkPreset_iff w m ⟨t, ht⟩).1 ?_)
  unfold checkPreset
  rw [checkInvs_iff]
  intro i hi
  obtain ⟨h3, h4⟩ := h2 i hi
  refine ⟨fun _ => ?_, fun h => by rw [h3] at h; cases h⟩
  rw [h4]
  exact Nat.pos_of_ne_zero fun h0 => hne ⟨i, hi, h0⟩

/-- The empty places of a dead marking are a siphon. -/
theorem siphon_of_dead {N : FlatNet} (w : N.WF) (hc : checkNet N = true) {m : Nat → Nat} (hd : N.toNet.Dead m) :
    Siphon N (fun p => m p = 0) := by
  intro t ht _
  obtain ⟨i, hi, h0⟩ := empty_of_dead w hc hd ht
  exact ⟨i.place, h0, (mem_postP N _ t).2 ⟨ht, i, hi, rfl⟩⟩

theorem not_dead_of_good {C : Cfg} (w : C.N.WF) (hc : checkNet C.N = true) (ht : 0 < C.N.ntransitions)
    (hg : ∀ q < C.N.nplaces, Good C [q]) {m : Nat → Nat} (hr : C.N.toNet.Reach C.m0 m) : ¬ C.N.toNet.Dead m := by
  intro hd
  obtain ⟨i, hi, h0⟩ := empty_of_dead w hc hd ht
  obtain ⟨T, hT, hsub, hmk⟩ := hg i.place (place_of_preset w hi) _ (siphon_of_dead w hc hd)
    (fun p hp => by rw [List.mem_singleton.1 hp]; exact h0)
  obtain ⟨ts, hr⟩ := hr
  obtain ⟨p, hp, hne⟩ := trap_run w hc hT hr hmk
  exact hne (hsub p hp)

theorem solve_spec {C : Cfg} {fuel : Nat} (h : solve C fuel = some true) :
    checkNet C.N = true ∧ ∀ q < C.N.nplaces, Good C [q] := by
  unfold solve at h
  by_cases h1 : C.N.nplaces = 0
  · rw [if_pos h1] at h; cases h
  rw [if_neg h1] at h
  by_cases h2 : checkNet C.N = true
  · refine ⟨h2, ?_⟩
    rw [h2] at h
    have := solveLoop_spec C fuel C.N.nplaces 0 {} (fun q hq => absurd hq (Nat.not_lt_zero _))
      (fun c hc => by cases hc) h
    intro q hq
    exact this q (by omega)
  · rw [Bool.not_eq_true] at h2
    rw [h2] at h; cases h

/-! ### Termination -/

/-- The presets are ascending (`makePetriNet` sorts them, see `sorted_of_builder`). -/
def SortedPre (N : FlatNet) : Prop := ∀ t < N.ntransitions, ((N.preset t).map Invariant.place).Pairwise (· < ·)

theorem lt_of_mem_takeWhile {l : List Nat} {n x : Nat} (h : x ∈ l.takeWhile (fun q => decide (q < n))) : x < n :=
  of_decide_eq_true (List.all_eq_true.1 (List.all_takeWhile (p := fun q => decide (q < n))) x h)

theorem dropPre_drops (m0 : Nat → Nat) : ∀ (is : List Invariant) (trap : List Nat) (mc : Nat), trap.Pairwise (· < ·) →
    (is.map Invariant.place).Pairwise (· < ·) → (∃ i ∈ is, i.place ∈ trap) → ∀ r, dropPre m0 is trap mc = some r →
    r.1.length < trap.length := by
  intro is
  induction is with
  | nil => intro trap mc _ _ ⟨i, hi, _⟩; cases hi
  | cons i is ih =>
    intro trap mc htr his hex r hr
    have hlen : ∀ (x : List Nat) (k : Nat) (r : List Nat × Nat), dropPre m0 is x k = some r → r.1.length ≤ x.length := by
      intro x k r h
      -- shrinking
      clear ih his hex hr
      induction is generalizing x k r with
      | nil => have := Option.some.inj h; subst this; exact Nat.le_refl _
      | cons j js ihj =>
        rw [dropPre] at h
        have hsp := congrArg List.length (List.takeWhile_append_dropWhile (p := fun p => decide (p < j.place)) (l := x))
        rw [List.length_append] at hsp
        generalize x.takeWhile (fun p => decide (p < j.place)) = before at h hsp
        generalize x.dropWhile (fun p => decide (p < j.place)) = rest at h hsp
        cases rest with
        | nil => have := Option.some.inj h; subst this; exact Nat.le_refl _
        | cons q rest =>
          have fin : ∀ (y : List Nat) (k : Nat), y.length ≤ rest.length + 1 →
              (dropPre m0 js y k).map (fun r => (before ++ r.1, r.2)) = some r → r.1.length ≤ x.length := by
            intro y k hy hm
            obtain ⟨r', hr', rfl⟩ := Option.map_eq_some_iff.1 hm
            have := ihj y k r' hr'
            simp only [List.length_append, List.length_cons] at hsp ⊢
            omega
          simp only at h
          split at h
          · split at h
            · split at h
              · cases h
              · exact fin _ _ (Nat.le_succ _) h
            · exact fin _ _ (Nat.le_succ _) h
          · exact fin _ _ (Nat.le_refl _) h
    rw [dropPre] at hr
    have hsplit := List.takeWhile_append_dropWhile (p := fun p => decide (p < i.place)) (l := trap)
    have hbef : ∀ x ∈ trap.takeWhile (fun p => decide (p < i.place)), x < i.place := fun x hx =>
      lt_of_mem_takeWhile hx
    have hhead : ∀ q rest, trap.dropWhile (fun p => decide (p < i.place)) = q :: rest → ¬ q < i.place := by
      intro q rest hq
      have := List.head_dropWhile_not (p := fun p => decide (p < i.place)) (l := trap) (by rw [hq]; simp)
      simpa [hq] using this
    generalize trap.takeWhile (fun p => decide (p < i.place)) = before at hr hsplit hbef
    generalize trap.dropWhile (fun p => decide (p < i.place)) = rest at hr hsplit hhead
    rw [List.map_cons, List.pairwise_cons] at his
    obtain ⟨j, hj, hjt⟩ := hex
    have hjge : i.place ≤ j.place := by
      rcases List.mem_cons.1 hj with rfl | hj
      · exact Nat.le_refl _
      · exact Nat.le_of_lt (his.1 _ (List.mem_map_of_mem hj))
    have hjr : j.place ∈ rest := by
      rw [← hsplit] at hjt
      rcases List.mem_append.1 hjt with h | h
      · exact absurd (hbef _ h) (by omega)
      · exact h
    cases rest with
    | nil => cases hjr
    | cons q rest =>
      have hq := hhead q rest rfl
      have hl := congrArg List.length hsplit
      rw [List.length_append, List.length_cons] at hl
      have fin1 : ∀ k, (dropPre m0 is rest k).map (fun r => (before ++ r.1, r.2)) = some r → r.1.length < trap.length := by
        intro k hm
        obtain ⟨r', hr', rfl⟩ := Option.map_eq_some_iff.1 hm
        have := hlen rest k r' hr'
        simp only [List.length_append]
        omega
      simp only at hr
      by_cases h1 : q = i.place
      · rw [if_pos h1] at hr
        split at hr
        · split at hr
          · cases hr
          · exact fin1 _ hr
        · exact fin1 _ hr
      · rw [if_neg h1] at hr
        obtain ⟨r', hr', rfl⟩ := Option.map_eq_some_iff.1 hr
        have hpw : (q :: rest).Pairwise (· < ·) := by
          rw [← hsplit] at htr
          exact (List.pairwise_append.1 htr).2.1
        have hji : j ∈ is := by
          rcases List.mem_cons.1 hj with rfl | hj
          · exfalso
            rcases List.mem_cons.1 hjr with h | h
            · exact h1 h.symm
            · have := (List.pairwise_cons.1 hpw).1 _ h
              omega
          · exact hj
        have := ih (q :: rest) mc hpw his.2 ⟨j, hji, hjr⟩ r' hr'
        simp only [List.length_append, List.length_cons] at this ⊢
        omega

theorem dropAll_drops {N : FlatNet} (hN : SortedPre N) (m0 : Nat → Nat) {ts : List Nat} {trap : List Nat} {mc : Nat}
    (hmc : mc = marked m0 trap) (htr : trap.Pairwise (· < ·)) (hne : ts ≠ []) (hts : ∀ t ∈ ts, ∃ p ∈ trap, t ∈ postP N p)
    {r : List Nat × Nat} (hr : dropAll N m0 ts trap mc = some r) : r.1.length < trap.length := by
  cases ts with
  | nil => exact absurd rfl hne
  | cons t ts =>
    rw [dropAll] at hr
    obtain ⟨p, hp, ht⟩ := hts t List.mem_cons_self
    obtain ⟨hlt, i, hi, hip⟩ := (mem_postP N p t).1 ht
    cases hd : dropPre m0 (N.preset t) trap mc with
    | none => rw [hd] at hr; cases hr
    | some q =>
      rw [hd] at hr
      have h1 := dropPre_drops m0 _ trap mc htr (hN t hlt) ⟨i, hi, hip ▸ hp⟩ q hd
      have h2 := dropPre_spec m0 _ trap mc 0 hmc q hd
      have h3 := dropAll_spec N m0 ts q.1 q.2 h2.1 r hr
      exact Nat.lt_of_le_of_lt h3.2.length_le h1

theorem computeTrap_some (C : Cfg) (hN : SortedPre C.N) : ∀ (n : Nat) (trap pre post : List Nat) (mc : Nat) (s : S),
    (∀ t, t ∈ post ↔ ∃ p ∈ trap, t ∈ postP C.N p) → mc = marked C.m0 trap → trap.Pairwise (· < ·) →
    trap.length < n → ∃ r, computeTrap C n trap pre post mc s = some r := by
  intro n
  induction n with
  | zero => intro trap pre post mc s _ _ _ h; exact absurd h (Nat.not_lt_zero _)
  | succ n ih =>
    intro trap pre post mc s hpost hmc htr hlt
    rw [computeTrap]
    by_cases h0 : trap = []
    · rw [if_pos h0]; exact ⟨_, rfl⟩
    rw [if_neg h0]
    by_cases hd : diff post pre = []
    · rw [if_pos hd]
      by_cases hm : 0 < mc
      · rw [if_pos hm]
        have hlen : 0 < trap.length := List.length_pos_iff.2 h0
        have hk : C.rand s.calls % trap.length < trap.length := Nat.mod_lt _ hlen
        simp only
        generalize C.rand s.calls % trap.length = k at hk
        by_cases hc : C.m0 (trap.getD k 0) = 0 ∨ 1 < mc
        · rw [if_pos hc]
          obtain ⟨r, hr⟩ := ih (trap.eraseIdx k) (preOf C.N (trap.eraseIdx k)) (postOf C.N (trap.eraseIdx k))
            (mc - if 0 < C.m0 (trap.getD k 0) then 1 else 0) ⟨insertChain s.chain trap, s.calls + 1⟩ (mem_postOf C.N _) (by
              have := marked_eraseIdx C.m0 trap k hk
              omega) (htr.sublist (List.eraseIdx_sublist _ _)) (by
              rw [List.length_eraseIdx_of_lt hk]; omega)
          rw [hr]; exact ⟨_, rfl⟩
        · rw [if_neg hc]; exact ⟨_, rfl⟩
      · rw [if_neg hm]; exact ⟨_, rfl⟩
    · rw [if_neg hd]
      cases hr : dropAll C.N C.m0 (diff post pre) trap mc with
      | none => exact ⟨_, rfl⟩
      | some q =>
        simp only
        obtain ⟨h1, h2⟩ := dropAll_spec C.N C.m0 _ trap mc hmc q hr
        have h3 := dropAll_drops hN C.m0 hmc htr hd
          (fun t ht => (hpost t).1 ((mem_diff post pre t).1 ht).1) hr
        by_cases hc : q.1 = [] ∨ q.2 = 0
        · rw [if_pos hc]; exact ⟨_, rfl⟩
        · rw [if_neg hc]
          exact ih _ _ _ _ _ (mem_postOf C.N _) h1 (htr.sublist h2) (by omega)

theorem advance_le (siphon : List Nat) (k p : Nat) (hk : k ≤ siphon.length) : advance siphon k p ≤ siphon.length := by
  have h := congrArg List.length (List.takeWhile_append_dropWhile (p := fun q => decide (q < p)) (l := siphon.drop k))
  rw [List.length_append, List.length_drop] at h
  unfold advance
  omega

theorem take_advance (siphon : List Nat) (k p : Nat) :
    siphon.take (advance siphon k p) = siphon.take k ++ (siphon.drop k).takeWhile (fun q => decide (q < p)) := by
  unfold advance
  rw [List.take_add]
  congr 1
  have h := List.takeWhile_append_dropWhile (p := fun q => decide (q < p)) (l := siphon.drop k)
  conv => lhs; arg 2; rw [← h]
  rw [List.take_left]

theorem drop_advance (siphon : List Nat) (k p : Nat) :
    siphon.drop (advance siphon k p) = (siphon.drop k).dropWhile (fun q => decide (q < p)) := by
  unfold advance
  rw [← List.drop_drop]
  have h := List.takeWhile_append_dropWhile (p := fun q => decide (q < p)) (l := siphon.drop k)
  conv => lhs; arg 2; rw [← h]
  rw [List.drop_left]

theorem stLoop_some (C : Cfg) (go : List Nat → List Nat → List Nat → S → Option (Bool × S)) (has : Nat → Bool)
    (siphon pre post : List Nat) (hpost : ∀ t, t ∈ post ↔ ∃ p ∈ siphon, t ∈ postP C.N p)
    (hs : siphon.Pairwise (· < ·)) (hlt : ∀ p ∈ siphon, p < C.N.nplaces)
    (hpre : ∀ t ∈ pre, t < C.N.ntransitions)
    (hgo : ∀ l a b s, (∀ t ∈ a, t < C.N.ntransitions) → (∀ t, t ∈ b ↔ ∃ p ∈ l, t ∈ postP C.N p) → l.Pairwise (· < ·) → (∀ p ∈ l, p < C.N.nplaces) →
      l.length = siphon.length + 1 → ∃ r, go l a b s = some r) :
    ∀ (is : List Invariant) (k : Nat) (s : S), (is.map Invariant.place).Pairwise (· < ·) →
      (∀ i ∈ is, i.place < C.N.nplaces) → (∀ i ∈ is, ∀ q ∈ siphon.take k, q < i.place) →
      ∃ r, stLoop C.N go has siphon pre post is k s = some r := by
  intro is
  induction is with
  | nil => intro k s _ _ _; exact ⟨_, rfl⟩
  | cons i is ih =>
    intro k s hp hl hk
    rw [stLoop]
    rw [List.map_cons, List.pairwise_cons] at hp
    have htake := take_advance siphon k i.place
    have hdrop := drop_advance siphon k i.place
    generalize hk' : advance siphon k i.place = k' at htake hdrop
    have hbef : ∀ q ∈ siphon.take k', q < i.place := by
      intro q hq
      rw [htake] at hq
      rcases List.mem_append.1 hq with h | h
      · exact hk i List.mem_cons_self q h
      · exact lt_of_mem_takeWhile h
    have next : ∀ s, ∃ r, stLoop C.N go has siphon pre post is k' s = some r := fun s =>
      ih k' s hp.2 (fun j hj => hl j (List.mem_cons_of_mem _ hj)) fun j hj q hq =>
        Nat.lt_trans (hbef q hq) (hp.1 _ (List.mem_map_of_mem hj))
    by_cases h1 : siphon[k']? = some i.place
    · rw [if_pos h1]; exact next s
    rw [if_neg h1]
    by_cases h2 : has i.place = true
    · rw [if_pos h2]; exact next s
    rw [if_neg h2]
    have haft : ∀ q ∈ siphon.drop k', i.place < q := by
      intro q hq
      have hpw : (siphon.drop k').Pairwise (· < ·) := hs.sublist (List.drop_sublist _ _)
      cases hd : siphon.drop k' with
      | nil => rw [hd] at hq; cases hq
      | cons x xs =>
        have hx : siphon[k']? = some x := by
          have := congrArg (·[0]?) hd
          simpa using this
        have hge : ¬ x < i.place := by
          rw [hdrop] at hd
          have := List.head_dropWhile_not (p := fun q => decide (q < i.place)) (l := siphon.drop k) (by rw [hd]; simp)
          simpa [hd] using this
        have hne : x ≠ i.place := fun h => h1 (h ▸ hx)
        rw [hd] at hq hpw
        rcases List.mem_cons.1 hq with rfl | hq
        · omega
        · have := (List.pairwise_cons.1 hpw).1 q hq
          omega
    have hmem : ∀ x, x ∈ siphon.take k' ++ i.place :: siphon.drop k' ↔ x = i.place ∨ x ∈ siphon := by
      intro x
      have hx : x ∈ siphon ↔ x ∈ siphon.take k' ∨ x ∈ siphon.drop k' := by
        rw [← List.mem_append, List.take_append_drop]
      rw [List.mem_append, List.mem_cons, hx]
      constructor
      · rintro (h | h | h)
        · exact Or.inr (Or.inl h)
        · exact Or.inl h
        · exact Or.inr (Or.inr h)
      · rintro (h | h | h)
        · exact Or.inr (Or.inl h)
        · exact Or.inl h
        · exact Or.inr (Or.inr h)
    obtain ⟨q, hq⟩ := hgo (siphon.take k' ++ i.place :: siphon.drop k') (insAll (preP C.N i.place) pre)
      (insAll (postP C.N i.place) post) s (by
        intro t ht
        rcases (mem_insAll _ _ _).1 ht with h | h
        · exact ((mem_preP _ _ _).1 h).1
        · exact hpre t h) (by
        intro t
        rw [mem_insAll, hpost]
        constructor
        · rintro (h | ⟨p, hp, h⟩)
          · exact ⟨_, (hmem _).2 (Or.inl rfl), h⟩
          · exact ⟨p, (hmem _).2 (Or.inr hp), h⟩
        · rintro ⟨p, hp, h⟩
          rcases (hmem p).1 hp with rfl | hp
          · exact Or.inl h
          · exact Or.inr ⟨p, hp, h⟩) (by
        rw [List.pairwise_append]
        refine ⟨hs.sublist (List.take_sublist _ _), ?_, ?_⟩
        · rw [List.pairwise_cons]
          exact ⟨haft, hs.sublist (List.drop_sublist _ _)⟩
        · intro a ha b hb
          rcases List.mem_cons.1 hb with rfl | hb
          · exact hbef a ha
          · exact Nat.lt_trans (hbef a ha) (haft b hb)) (by
        intro p hp
        rcases (hmem p).1 hp with rfl | hp
        · exact hl i List.mem_cons_self
        · exact hlt p hp) (by
        have := congrArg List.length (List.take_append_drop k' siphon)
        simp only [List.length_append, List.length_cons] at this ⊢
        omega)
    rw [hq]
    obtain ⟨b, s'⟩ := q
    cases b with
    | false => exact ⟨_, rfl⟩
    | true => exact next s'

theorem length_le_of_sorted : ∀ (n : Nat) (l : List Nat), l.Pairwise (· < ·) → (∀ p ∈ l, p < n) → l.length ≤ n := by
  intro n l hp hl
  have : l.Nodup := hp.imp fun h => Nat.ne_of_lt h
  have h2 : l ⊆ List.range n := fun p hp => List.mem_range.2 (hl p hp)
  simpa using this.length_le_of_subset h2

theorem siphonTrap_some (C : Cfg) (w : C.N.WF) (hN : SortedPre C.N) (has : Nat → Bool) :
    ∀ (n : Nat) (siphon pre post : List Nat) (s : S), (∀ t, t ∈ pre → t < C.N.ntransitions) →
    (∀ t, t ∈ post ↔ ∃ p ∈ siphon, t ∈ postP C.N p) → siphon.Pairwise (· < ·) → (∀ p ∈ siphon, p < C.N.nplaces) →
    C.N.nplaces < n + siphon.length → ∃ r, siphonTrap C has n siphon pre post s = some r := by
  intro n
  induction n with
  | zero =>
    intro siphon pre post s _ _ hs hl hn
    have := length_le_of_sorted _ _ hs hl
    omega
  | succ n ih =>
    intro siphon pre post s hpre hpost hs hl hn
    rw [siphonTrap]
    simp only
    by_cases h1 : C.timeout s.calls = true
    · rw [if_pos h1]; exact ⟨_, rfl⟩
    rw [if_neg h1]
    by_cases h2 : subsumed s.chain siphon = true
    · rw [if_pos h2]; exact ⟨_, rfl⟩
    rw [if_neg h2]
    cases hd : diff pre post with
    | nil =>
      simp only
      by_cases h3 : marked C.m0 siphon = 0
      · rw [if_pos h3]; exact ⟨_, rfl⟩
      rw [if_neg h3]
      obtain ⟨q, hq⟩ := computeTrap_some C hN (siphon.length + 1) siphon pre post _ ⟨s.chain, s.calls + 1⟩ hpost rfl hs
        (Nat.lt_succ_self _)
      rw [hq]
      obtain ⟨k, s2⟩ := q
      cases k with
      | zero => exact ⟨_, rfl⟩
      | succ k => exact ⟨_, rfl⟩
    | cons t rest =>
      simp only
      have hin : t ∈ diff pre post := by rw [hd]; exact List.mem_cons_self
      have ht := hpre t ((mem_diff pre post t).1 hin).1
      obtain ⟨q, hq⟩ := stLoop_some C (siphonTrap C has n) has siphon pre post hpost hs hl hpre
        (fun l a b s ha hb hs hl hlen => ih l a b s ha hb hs hl (by omega)) (C.N.preset t) 0 ⟨s.chain, s.calls + 1⟩
        (hN t ht) (fun i hi => place_of_preset w hi) (fun i _ q hq => by cases hq)
      rw [hq]
      obtain ⟨b, s2⟩ := q
      cases b with
      | false => exact ⟨_, rfl⟩
      | true => exact ⟨_, rfl⟩

theorem solveLoop_some (C : Cfg) (w : C.N.WF) (hN : SortedPre C.N) {fuel : Nat} (hf : C.N.nplaces ≤ fuel) :
    ∀ (n p : Nat) (s : S), p + n = C.N.nplaces → ∃ r, solveLoop C fuel n p s = some r := by
  intro n
  induction n with
  | zero => intro p s _; exact ⟨_, rfl⟩
  | succ n ih =>
    intro p s hp
    rw [solveLoop]
    obtain ⟨q, hq⟩ := siphonTrap_some C w hN (fun q => decide (q < p)) fuel [p] (preOf C.N [p]) (postOf C.N [p]) s
      (fun t ht => by
        obtain ⟨q, _, h⟩ := (mem_preOf C.N [p] t).1 ht
        exact ((mem_preP _ _ _).1 h).1)
      (mem_postOf C.N _) (List.pairwise_singleton _ _) (fun q hq => by rw [List.mem_singleton.1 hq]; omega)
      (by simp only [List.length_singleton]; omega)
    rw [hq]
    obtain ⟨b, s'⟩ := q
    cases b with
    | false => exact ⟨_, rfl⟩
    | true => exact ih (p + 1) s' (by omega)

/-! ### A negative answer -/

theorem eq_zero_of_marked {m0 : Nat → Nat} {l : List Nat} (h : marked m0 l = 0) {x : Nat} (hx : x ∈ l) : m0 x = 0 := by
  refine Classical.byContradiction fun hne => ?_
  have : x ∈ l.filter (fun p => decide (m0 p ≠ 0)) := List.mem_filter.2 ⟨hx, decide_eq_true hne⟩
  have h2 := List.length_pos_of_mem this
  unfold marked at h
  omega

/-- A place that is in no preset stays; if the search gives up, no such place is marked. -/
theorem dropPre_keep (m0 : Nat → Nat) : ∀ (is : List Invariant) (trap : List Nat) (mc c : Nat), mc = marked m0 trap + c →
    (∀ r, dropPre m0 is trap mc = some r → ∀ x ∈ trap, (∀ i ∈ is, i.place ≠ x) → x ∈ r.1) ∧
    (dropPre m0 is trap mc = none → c = 0 ∧ ∀ x ∈ trap, (∀ i ∈ is, i.place ≠ x) → m0 x = 0) := by
  intro is
  induction is with
  | nil =>
    intro trap mc c hmc
    refine ⟨fun r hr x hx _ => ?_, fun h => by cases h⟩
    have := Option.some.inj hr; subst this; exact hx
  | cons i is ih =>
    intro trap mc c hmc
    rw [dropPre]
    have hsplit := List.takeWhile_append_dropWhile (p := fun p => decide (p < i.place)) (l := trap)
    generalize trap.takeWhile (fun p => decide (p < i.place)) = before at hsplit ⊢
    generalize trap.dropWhile (fun p => decide (p < i.place)) = rest at hsplit ⊢
    cases rest with
    | nil =>
      refine ⟨fun r hr x hx _ => ?_, fun h => by cases h⟩
      have := Option.some.inj hr; subst this; exact hx
    | cons q rest =>
      rw [← hsplit, marked_append, marked_cons] at hmc
      have hin : ∀ x ∈ trap, (∀ j ∈ i :: is, j.place ≠ x) → ∀ y : List Nat, (∀ z ∈ q :: rest, z ≠ i.place → z ∈ y) →
          (x ∈ before ∨ x ∈ y) ∧ ∀ j ∈ is, j.place ≠ x := by
        intro x hx hn y hy
        refine ⟨?_, fun j hj => hn j (List.mem_cons_of_mem _ hj)⟩
        rw [← hsplit] at hx
        rcases List.mem_append.1 hx with h | h
        · exact Or.inl h
        · exact Or.inr (hy x h fun he => hn i List.mem_cons_self he.symm)
      have fin : ∀ (y : List Nat) (k : Nat), k = marked m0 y + (marked m0 before + c) →
          (∀ z ∈ q :: rest, z ≠ i.place → z ∈ y) →
          (∀ r, (dropPre m0 is y k).map (fun r => (before ++ r.1, r.2)) = some r →
            ∀ x ∈ trap, (∀ j ∈ i :: is, j.place ≠ x) → x ∈ r.1) ∧
          ((dropPre m0 is y k).map (fun r => (before ++ r.1, r.2)) = none →
            c = 0 ∧ ∀ x ∈ trap, (∀ j ∈ i :: is, j.place ≠ x) → m0 x = 0) := by
        intro y k hk hy
        obtain ⟨h1, h2⟩ := ih y k _ hk
        constructor
        · intro r hr x hx hn
          obtain ⟨r', hr', rfl⟩ := Option.map_eq_some_iff.1 hr
          obtain ⟨h3, h4⟩ := hin x hx hn y hy
          rcases h3 with h3 | h3
          · exact List.mem_append_left _ h3
          · exact List.mem_append_right _ (h1 r' hr' x h3 h4)
        · intro hr
          obtain ⟨h5, h6⟩ := h2 (Option.map_eq_none_iff.1 hr)
          refine ⟨by omega, fun x hx hn => ?_⟩
          obtain ⟨h3, h4⟩ := hin x hx hn y hy
          rcases h3 with h3 | h3
          · exact eq_zero_of_marked (by omega) h3
          · exact h6 x h3 h4
      simp only
      by_cases h1 : q = i.place
      · have hy : ∀ z ∈ q :: rest, z ≠ i.place → z ∈ rest := by
          intro z hz hne
          rcases List.mem_cons.1 hz with rfl | hz
          · exact absurd h1 hne
          · exact hz
        rw [if_pos h1]
        rw [h1] at hmc
        by_cases h2 : m0 i.place = 0
        · rw [if_neg (by simpa using h2)]
          exact fin rest mc (by rw [hmc, if_neg (by simpa using h2)]; omega) hy
        · rw [if_pos h2]
          rw [if_pos h2] at hmc
          by_cases h3 : mc - 1 = 0
          · rw [if_pos h3]
            refine ⟨fun r hr => (by cases hr), fun _ => ⟨by omega, fun x hx hn => ?_⟩⟩
            obtain ⟨h4, _⟩ := hin x hx hn rest hy
            rcases h4 with h4 | h4
            · exact eq_zero_of_marked (by omega) h4
            · exact eq_zero_of_marked (by omega) h4
          · rw [if_neg h3]
            exact fin rest (mc - 1) (by omega) hy
      · rw [if_neg h1]
        exact fin (q :: rest) mc (by rw [hmc, marked_cons]; omega) fun z hz _ => hz

theorem dropAll_keep (N : FlatNet) (m0 : Nat → Nat) : ∀ (ts : List Nat) (trap : List Nat) (mc : Nat), mc = marked m0 trap →
    ∀ x ∈ trap, (∀ t ∈ ts, ∀ i ∈ N.preset t, i.place ≠ x) →
    (∀ r, dropAll N m0 ts trap mc = some r → x ∈ r.1) ∧ (dropAll N m0 ts trap mc = none → m0 x = 0) := by
  intro ts
  induction ts with
  | nil =>
    intro trap mc _ x hx _
    refine ⟨fun r hr => ?_, fun h => by cases h⟩
    have := Option.some.inj hr; subst this; exact hx
  | cons t ts ih =>
    intro trap mc hmc x hx hn
    obtain ⟨h1, h2⟩ := dropPre_keep m0 (N.preset t) trap mc 0 hmc
    rw [dropAll]
    cases hd : dropPre m0 (N.preset t) trap mc with
    | none =>
      refine ⟨fun r hr => (by cases hr), fun _ => (h2 hd).2 x hx (hn t List.mem_cons_self)⟩
    | some q =>
      have h3 := dropPre_spec m0 _ trap mc 0 hmc q hd
      exact ih q.1 q.2 h3.1 x (h1 q hd x hx (hn t List.mem_cons_self)) fun u hu => hn u (List.mem_cons_of_mem _ hu)

/-- The answer 0: no trap inside is marked. -/
theorem computeTrap_zero (C : Cfg) : ∀ (n : Nat) (trap pre post : List Nat) (mc : Nat) (s : S) (s' : S),
    (∀ t, t ∈ pre ↔ ∃ p ∈ trap, t ∈ preP C.N p) → (∀ t, t ∈ post ↔ ∃ p ∈ trap, t ∈ postP C.N p) →
    mc = marked C.m0 trap → computeTrap C n trap pre post mc s = some (0, s') →
    ∀ T : Nat → Prop, Trap C.N T → (∀ p, T p → p ∈ trap) → ∀ p, T p → C.m0 p = 0 := by
  intro n
  induction n with
  | zero => intro trap pre post mc s s' _ _ _ h; cases h
  | succ n ih =>
    intro trap pre post mc s s' hpre hpost hmc h T hT hsub p hp
    rw [computeTrap] at h
    by_cases h0 : trap = []
    · have := hsub p hp
      rw [h0] at this; cases this
    rw [if_neg h0] at h
    by_cases hd : diff post pre = []
    · rw [if_pos hd] at h
      by_cases hm : 0 < mc
      · rw [if_pos hm] at h
        simp only at h
        exfalso
        split at h
        · split at h
          · cases h
          · have := congrArg Prod.fst (Option.some.inj h)
            simp only at this; omega
        · have := congrArg Prod.fst (Option.some.inj h)
          simp only at this; omega
      · exact eq_zero_of_marked (by omega) (hsub p hp)
    · rw [if_neg hd] at h
      have hkeep : ∀ x, T x → ∀ t ∈ diff post pre, ∀ i ∈ C.N.preset t, i.place ≠ x := by
        intro x hx t ht i hi he
        obtain ⟨h1, h2⟩ := (mem_diff post pre t).1 ht
        obtain ⟨y, _, hy⟩ := (hpost t).1 h1
        have hlt := ((mem_postP C.N y t).1 hy).1
        obtain ⟨q, hq, hqt⟩ := hT t hlt ⟨x, hx, (mem_postP C.N x t).2 ⟨hlt, i, hi, he⟩⟩
        exact h2 ((hpre t).2 ⟨q, hsub q hq, hqt⟩)
      have hk := fun x hx => dropAll_keep C.N C.m0 (diff post pre) trap mc hmc x (hsub x hx) (hkeep x hx)
      cases hr : dropAll C.N C.m0 (diff post pre) trap mc with
      | none => exact (hk p hp).2 hr
      | some q =>
        rw [hr] at h
        obtain ⟨h1, _⟩ := dropAll_spec C.N C.m0 _ trap mc hmc q hr
        simp only at h
        by_cases hc : q.1 = [] ∨ q.2 = 0
        · rcases hc with hc | hc
          · have := (hk p hp).1 q hr
            rw [hc] at this; cases this
          · exact eq_zero_of_marked (by omega) ((hk p hp).1 q hr)
        · rw [if_neg hc] at h
          exact ih _ _ _ _ _ s' (mem_preOf C.N _) (mem_postOf C.N _) h1 h T hT (fun x hx => (hk x hx).1 q hr) p hp

/-- a siphon (with a place) in which no trap is marked -/
def Bad (C : Cfg) : Prop := ∃ D : List Nat, D ≠ [] ∧ (∀ p ∈ D, p < C.N.nplaces) ∧ Siphon C.N (· ∈ D) ∧
  ∀ T : Nat → Prop, Trap C.N T → (∀ p, T p → p ∈ D) → ∀ p, T p → C.m0 p = 0

theorem stLoop_false (C : Cfg) (go : List Nat → List Nat → List Nat → S → Option (Bool × S)) (has : Nat → Bool)
    (siphon pre post : List Nat) (hlt : ∀ p ∈ siphon, p < C.N.nplaces)
    (hpre : ∀ t, t ∈ pre ↔ ∃ p ∈ siphon, t ∈ preP C.N p)
    (hpost : ∀ t, t ∈ post ↔ ∃ p ∈ siphon, t ∈ postP C.N p)
    (hgo : ∀ l a b s s', l ≠ [] → (∀ p ∈ l, p < C.N.nplaces) → (∀ t, t ∈ a ↔ ∃ p ∈ l, t ∈ preP C.N p) →
      (∀ t, t ∈ b ↔ ∃ p ∈ l, t ∈ postP C.N p) → go l a b s = some (false, s') → Bad C) :
    ∀ (is : List Invariant) (k : Nat) (s s' : S), (∀ i ∈ is, i.place < C.N.nplaces) →
      stLoop C.N go has siphon pre post is k s = some (false, s') → Bad C := by
  intro is
  induction is with
  | nil => intro k s s' _ h; cases h
  | cons i is ih =>
    intro k s s' hl h
    have hl' : ∀ j ∈ is, j.place < C.N.nplaces := fun j hj => hl j (List.mem_cons_of_mem _ hj)
    rw [stLoop] at h
    generalize advance siphon k i.place = k' at h
    by_cases h1 : siphon[k']? = some i.place
    · rw [if_pos h1] at h; exact ih k' s s' hl' h
    rw [if_neg h1] at h
    by_cases h2 : has i.place = true
    · rw [if_pos h2] at h; exact ih k' s s' hl' h
    rw [if_neg h2] at h
    have hmem : ∀ x, x ∈ siphon.take k' ++ i.place :: siphon.drop k' ↔ x = i.place ∨ x ∈ siphon := by
      intro x
      have hx : x ∈ siphon ↔ x ∈ siphon.take k' ∨ x ∈ siphon.drop k' := by
        rw [← List.mem_append, List.take_append_drop]
      rw [List.mem_append, List.mem_cons, hx]
      constructor
      · rintro (h | h | h)
        · exact Or.inr (Or.inl h)
        · exact Or.inl h
        · exact Or.inr (Or.inr h)
      · rintro (h | h | h)
        · exact Or.inr (Or.inl h)
        · exact Or.inl h
        · exact Or.inr (Or.inr h)
    have hset : ∀ (f : Nat → List Nat) (a : List Nat), (∀ t, t ∈ a ↔ ∃ p ∈ siphon, t ∈ f p) →
        ∀ t, t ∈ insAll (f i.place) a ↔ ∃ p ∈ siphon.take k' ++ i.place :: siphon.drop k', t ∈ f p := by
      intro f a ha t
      rw [mem_insAll, ha]
      constructor
      · rintro (h | ⟨p, hp, h⟩)
        · exact ⟨_, (hmem _).2 (Or.inl rfl), h⟩
        · exact ⟨p, (hmem _).2 (Or.inr hp), h⟩
      · rintro ⟨p, hp, h⟩
        rcases (hmem p).1 hp with rfl | hp
        · exact Or.inl h
        · exact Or.inr ⟨p, hp, h⟩
    cases hg : go (siphon.take k' ++ i.place :: siphon.drop k') (insAll (preP C.N i.place) pre)
        (insAll (postP C.N i.place) post) s with
    | none => rw [hg] at h; cases h
    | some q =>
      obtain ⟨b, s2⟩ := q
      rw [hg] at h
      cases b with
      | false =>
        refine hgo _ _ _ s s2 (by simp) (fun p hp => ?_) (hset (preP C.N) pre hpre) (hset (postP C.N) post hpost) hg
        rcases (hmem p).1 hp with rfl | hp
        · exact hl i List.mem_cons_self
        · exact hlt p hp
      | true => exact ih k' s2 s' hl' h

theorem siphonTrap_false (C : Cfg) (w : C.N.WF) (htime : ∀ k, C.timeout k = false) (has : Nat → Bool) :
    ∀ (n : Nat) (siphon pre post : List Nat) (s s' : S), siphon ≠ [] → (∀ p ∈ siphon, p < C.N.nplaces) →
    (∀ t, t ∈ pre ↔ ∃ p ∈ siphon, t ∈ preP C.N p) → (∀ t, t ∈ post ↔ ∃ p ∈ siphon, t ∈ postP C.N p) →
    siphonTrap C has n siphon pre post s = some (false, s') → Bad C := by
  intro n
  induction n with
  | zero => intro siphon pre post s s' _ _ _ _ h; cases h
  | succ n ih =>
    intro siphon pre post s s' hne hlt hpre hpost h
    rw [siphonTrap] at h
    simp only at h
    rw [if_neg (by rw [htime]; simp)] at h
    by_cases h2 : subsumed s.chain siphon = true
    · rw [if_pos h2] at h; cases h
    rw [if_neg h2] at h
    cases hd : diff pre post with
    | nil =>
      rw [hd] at h
      simp only at h
      have hsi : Siphon C.N (· ∈ siphon) := by
        intro t _ ht
        have h1 : t ∈ pre := (hpre t).2 ht
        exact (hpost t).1 (Classical.byContradiction fun hc => by
          have := (mem_diff pre post t).2 ⟨h1, hc⟩
          rw [hd] at this; cases this)
      by_cases h3 : marked C.m0 siphon = 0
      · exact ⟨siphon, hne, hlt, hsi, fun T _ hsub p hp => eq_zero_of_marked h3 (hsub p hp)⟩
      rw [if_neg h3] at h
      cases hc : computeTrap C (siphon.length + 1) siphon pre post (marked C.m0 siphon) ⟨s.chain, s.calls + 1⟩ with
      | none => rw [hc] at h; cases h
      | some q =>
        obtain ⟨k, s2⟩ := q
        cases k with
        | zero => exact ⟨siphon, hne, hlt, hsi, computeTrap_zero C _ siphon pre post _ _ s2 hpre hpost rfl hc⟩
        | succ k => rw [hc] at h; cases h
    | cons t rest =>
      rw [hd] at h
      simp only at h
      cases hc : stLoop C.N (siphonTrap C has n) has siphon pre post (C.N.preset t) 0 ⟨s.chain, s.calls + 1⟩ with
      | none => rw [hc] at h; cases h
      | some q =>
        obtain ⟨b, s2⟩ := q
        rw [hc] at h
        cases b with
        | true => cases h
        | false =>
          exact stLoop_false C (siphonTrap C has n) has siphon pre post hlt hpre hpost
            (fun l a b s s' hne hl ha hb hg => ih l a b s s' hne hl ha hb hg) _ 0 _ s2
            (fun i hi => place_of_preset w hi) hc

theorem solveLoop_false (C : Cfg) (w : C.N.WF) (htime : ∀ k, C.timeout k = false) (fuel : Nat) :
    ∀ (n p : Nat) (s : S), p + n = C.N.nplaces → solveLoop C fuel n p s = some false → Bad C := by
  intro n
  induction n with
  | zero => intro p s _ h; cases h
  | succ n ih =>
    intro p s hp h
    rw [solveLoop] at h
    cases hc : siphonTrap C (fun q => decide (q < p)) fuel [p] (preOf C.N [p]) (postOf C.N [p]) s with
    | none => rw [hc] at h; cases h
    | some q =>
      obtain ⟨b, s'⟩ := q
      rw [hc] at h
      cases b with
      | false =>
        exact siphonTrap_false C w htime _ fuel [p] _ _ s s' (by simp)
          (fun q hq => by rw [List.mem_singleton.1 hq]; omega) (mem_preOf C.N _) (mem_postOf C.N _) hc
      | true => exact ih (p + 1) s' (by omega) h

end ST
end Verif
