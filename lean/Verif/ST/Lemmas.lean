import Verif.ST.Model
import Verif.Net.FlatLemmas

/-!
# Siphon-trap analysis: lemmas
-/

namespace Verif
namespace ST

theorem mem_ins (x y : Nat) (l : List Nat) : y ∈ ins x l ↔ y = x ∨ y ∈ l := by
  induction l with
  | nil => simp [ins]
  | cons z l ih =>
    rw [ins]
    by_cases h1 : x < z
    · rw [if_pos h1]; exact List.mem_cons
    · rw [if_neg h1]
      by_cases h2 : x = z
      · rw [if_pos h2, h2]; simp
      · rw [if_neg h2, List.mem_cons, ih, List.mem_cons]
        constructor
        · rintro (h | h | h)
          · exact Or.inr (Or.inl h)
          · exact Or.inl h
          · exact Or.inr (Or.inr h)
        · rintro (h | h | h)
          · exact Or.inr (Or.inl h)
          · exact Or.inl h
          · exact Or.inr (Or.inr h)

theorem mem_insAll (xs : List Nat) (y : Nat) : ∀ s, y ∈ insAll xs s ↔ y ∈ xs ∨ y ∈ s := by
  induction xs with
  | nil => intro s; simp [insAll]
  | cons x xs ih =>
    intro s
    have h : insAll (x :: xs) s = insAll xs (ins x s) := rfl
    rw [h, ih, mem_ins, List.mem_cons]
    constructor
    · rintro (h | h | h)
      · exact Or.inl (Or.inr h)
      · exact Or.inl (Or.inl h)
      · exact Or.inr h
    · rintro ((h | h) | h)
      · exact Or.inr (Or.inl h)
      · exact Or.inl h
      · exact Or.inr (Or.inr h)

theorem mem_fold (f : Nat → List Nat) (y : Nat) (ps : List Nat) :
    ∀ s, y ∈ ps.foldl (fun s p => insAll (f p) s) s ↔ y ∈ s ∨ ∃ p ∈ ps, y ∈ f p := by
  induction ps with
  | nil => intro s; simp
  | cons p ps ih =>
    intro s
    rw [List.foldl_cons, ih, mem_insAll]
    constructor
    · rintro ((h | h) | ⟨q, hq, h⟩)
      · exact Or.inr ⟨p, List.mem_cons_self, h⟩
      · exact Or.inl h
      · exact Or.inr ⟨q, List.mem_cons_of_mem _ hq, h⟩
    · rintro (h | ⟨q, hq, h⟩)
      · exact Or.inl (Or.inr h)
      · rcases List.mem_cons.1 hq with rfl | hq
        · exact Or.inl (Or.inl h)
        · exact Or.inr ⟨q, hq, h⟩

theorem mem_preOf (N : FlatNet) (ps : List Nat) (t : Nat) : t ∈ preOf N ps ↔ ∃ p ∈ ps, t ∈ preP N p := by
  rw [preOf, mem_fold]; simp

theorem mem_postOf (N : FlatNet) (ps : List Nat) (t : Nat) : t ∈ postOf N ps ↔ ∃ p ∈ ps, t ∈ postP N p := by
  rw [postOf, mem_fold]; simp

theorem mem_diff (a b : List Nat) (x : Nat) : x ∈ diff a b ↔ x ∈ a ∧ x ∉ b := by simp [diff]

theorem mem_preP (N : FlatNet) (p t : Nat) : t ∈ preP N p ↔ t < N.ntransitions ∧ ∃ i ∈ N.postset t, i.place = p := by
  simp [preP]

theorem mem_postP (N : FlatNet) (p t : Nat) : t ∈ postP N p ↔ t < N.ntransitions ∧ ∃ i ∈ N.preset t, i.place = p := by
  simp [postP]

theorem subset_of_includes : ∀ (a b : List Nat), includes a b = true → ∀ x ∈ b, x ∈ a
  | _, [], _, _, h => by cases h
  | [], _ :: _, h, _, _ => by cases h
  | x :: xs, y :: ys, h, z, hz => by
    rw [includes] at h
    by_cases h1 : y < x
    · rw [if_pos h1] at h; cases h
    · rw [if_neg h1] at h
      by_cases h2 : x < y
      · rw [if_pos h2] at h
        exact List.mem_cons_of_mem _ (subset_of_includes xs (y :: ys) h z hz)
      · rw [if_neg h2] at h
        rcases List.mem_cons.1 hz with rfl | hz
        · have : z = x := by omega
          rw [this]; exact List.mem_cons_self
        · exact List.mem_cons_of_mem _ (subset_of_includes xs ys h z hz)

/-! ### Siphons and traps -/

/-- every transition that puts tokens into the set takes tokens from it -/
def Siphon (N : FlatNet) (D : Nat → Prop) : Prop :=
  ∀ t < N.ntransitions, (∃ p, D p ∧ t ∈ preP N p) → ∃ p, D p ∧ t ∈ postP N p

/-- every transition that takes tokens from the set puts tokens into it -/
def Trap (N : FlatNet) (D : Nat → Prop) : Prop :=
  ∀ t < N.ntransitions, (∃ p, D p ∧ t ∈ postP N p) → ∃ p, D p ∧ t ∈ preP N p

/-- every siphon that includes the places contains a trap with a token -/
def Good (C : Cfg) (l : List Nat) : Prop :=
  ∀ D : Nat → Prop, Siphon C.N D → (∀ p ∈ l, D p) →
    ∃ T : List Nat, Trap C.N (· ∈ T) ∧ (∀ p ∈ T, D p) ∧ ∃ p ∈ T, C.m0 p ≠ 0

theorem Good.mono {C : Cfg} {a b : List Nat} (h : Good C a) (hab : ∀ x ∈ a, x ∈ b) : Good C b :=
  fun D hD hb => h D hD fun p hp => hb p (hab p hp)

theorem good_trap {C : Cfg} {T : List Nat} (h : Trap C.N (· ∈ T)) (hm : ∃ p ∈ T, C.m0 p ≠ 0) : Good C T :=
  fun _ _ hT => ⟨T, h, hT, hm⟩

def Chain (C : Cfg) (l : List (List Nat)) : Prop := ∀ c ∈ l, Good C c

theorem chain_insert {C : Cfg} {l : List (List Nat)} {a : List Nat} (h : Chain C l) (ha : Good C a) :
    Chain C (insertChain l a) := by
  unfold insertChain
  by_cases hs : subsumed l a = true
  · rw [if_pos hs]; exact h
  · rw [if_neg hs]
    intro c hc
    rcases List.mem_append.1 hc with hc | hc
    · exact h c (List.mem_filter.1 hc).1
    · rw [List.mem_singleton.1 hc]; exact ha

theorem good_of_subsumed {C : Cfg} {l : List (List Nat)} {a : List Nat} (h : Chain C l) (hs : subsumed l a = true) :
    Good C a := by
  obtain ⟨c, hc, hi⟩ := List.any_eq_true.1 hs
  exact (h c hc).mono (subset_of_includes _ _ hi)

/-! ### Removing places from the trap -/

theorem marked_append (m0 : Nat → Nat) (x y : List Nat) : marked m0 (x ++ y) = marked m0 x + marked m0 y := by
  simp [marked]

theorem marked_cons (m0 : Nat → Nat) (q : Nat) (y : List Nat) :
    marked m0 (q :: y) = (if m0 q ≠ 0 then 1 else 0) + marked m0 y := by
  by_cases h : m0 q = 0 <;> simp [marked, h, Nat.add_comm]

/-- What is left are places of the trap, and the count stays the number of marked places (`c` of them were passed). -/
theorem dropPre_spec (m0 : Nat → Nat) : ∀ (is : List Invariant) (trap : List Nat) (mc c : Nat), mc = marked m0 trap + c →
    ∀ r, dropPre m0 is trap mc = some r → r.2 = marked m0 r.1 + c ∧ r.1.Sublist trap := by
  intro is
  induction is with
  | nil =>
    intro trap mc c hmc r hr
    have := Option.some.inj hr; subst this
    exact ⟨hmc, List.Sublist.refl _⟩
  | cons i is ih =>
    intro trap mc c hmc r hr
    rw [dropPre] at hr
    have hsplit := List.takeWhile_append_dropWhile (p := fun p => decide (p < i.place)) (l := trap)
    generalize trap.takeWhile (fun p => decide (p < i.place)) = before at hr hsplit
    generalize trap.dropWhile (fun p => decide (p < i.place)) = rest at hr hsplit
    cases rest with
    | nil =>
      have := Option.some.inj hr; subst this
      exact ⟨hmc, List.Sublist.refl _⟩
    | cons q rest =>
      have fin : ∀ (x : List Nat) (k : Nat), k = marked m0 x + (marked m0 before + c) → x.Sublist (q :: rest) →
          (dropPre m0 is x k).map (fun r => (before ++ r.1, r.2)) = some r →
          r.2 = marked m0 r.1 + c ∧ r.1.Sublist trap := by
        intro x k hk hx hm
        obtain ⟨r', hr', rfl⟩ := Option.map_eq_some_iff.1 hm
        obtain ⟨h1, h2⟩ := ih x k _ hk r' hr'
        refine ⟨?_, ?_⟩
        · rw [h1, marked_append]; omega
        · rw [← hsplit]
          exact (List.Sublist.refl _).append (h2.trans hx)
      rw [← hsplit, marked_append, marked_cons] at hmc
      simp only at hr
      by_cases h1 : q = i.place
      · subst h1
        rw [if_pos rfl] at hr
        by_cases h2 : m0 i.place = 0
        · rw [if_neg (by simpa using h2)] at hr
          exact fin rest mc (by rw [hmc, if_neg (by simpa using h2)]; omega) (List.sublist_cons_self _ _) hr
        · rw [if_pos h2] at hr
          rw [if_pos h2] at hmc
          by_cases h3 : mc - 1 = 0
          · rw [if_pos h3] at hr; cases hr
          · rw [if_neg h3] at hr
            exact fin rest (mc - 1) (by omega) (List.sublist_cons_self _ _) hr
      · rw [if_neg h1] at hr
        exact fin (q :: rest) mc (by rw [hmc, marked_cons]; omega) (List.Sublist.refl _) hr

theorem dropAll_spec (N : FlatNet) (m0 : Nat → Nat) : ∀ (ts : List Nat) (trap : List Nat) (mc : Nat),
    mc = marked m0 trap → ∀ r, dropAll N m0 ts trap mc = some r → r.2 = marked m0 r.1 ∧ r.1.Sublist trap := by
  intro ts
  induction ts with
  | nil =>
    intro trap mc hmc r hr
    have := Option.some.inj hr; subst this
    exact ⟨hmc, List.Sublist.refl _⟩
  | cons t ts ih =>
    intro trap mc hmc r hr
    rw [dropAll] at hr
    cases hp : dropPre m0 (N.preset t) trap mc with
    | none => rw [hp] at hr; cases hr
    | some q =>
      rw [hp] at hr
      obtain ⟨h1, h2⟩ := dropPre_spec m0 _ trap mc 0 hmc q hp
      obtain ⟨h3, h4⟩ := ih q.1 q.2 h1 r hr
      exact ⟨h3, h4.trans h2⟩

/-! ### computeTrap -/

theorem trap_of_diff {N : FlatNet} {l pre post : List Nat} (hpre : ∀ t, t ∈ pre ↔ ∃ p ∈ l, t ∈ preP N p)
    (hpost : ∀ t, t ∈ post ↔ ∃ p ∈ l, t ∈ postP N p) (h : diff post pre = []) : Trap N (· ∈ l) := by
  intro t _ ht
  have h1 : t ∈ post := (hpost t).2 ht
  have h2 : t ∈ pre := Classical.byContradiction fun hc => by
    have := (mem_diff post pre t).2 ⟨h1, hc⟩
    rw [h] at this; cases this
  exact (hpre t).1 h2

theorem marked_pos {m0 : Nat → Nat} {l : List Nat} (h : 0 < marked m0 l) : ∃ p ∈ l, m0 p ≠ 0 := by
  obtain ⟨p, hp⟩ := List.exists_mem_of_length_pos h
  have := List.mem_filter.1 hp
  exact ⟨p, this.1, of_decide_eq_true this.2⟩

theorem marked_eraseIdx (m0 : Nat → Nat) : ∀ (l : List Nat) (k : Nat), k < l.length →
    marked m0 l = (if 0 < m0 (l.getD k 0) then 1 else 0) + marked m0 (l.eraseIdx k)
  | [], _, h => absurd h (Nat.not_lt_zero _)
  | x :: l, 0, _ => by
    rw [marked_cons]
    simp [Nat.pos_iff_ne_zero]
  | x :: l, k + 1, h => by
    have ih := marked_eraseIdx m0 l k (Nat.lt_of_succ_lt_succ h)
    rw [marked_cons, ih, List.eraseIdx_cons_succ, marked_cons, List.getD_cons_succ]
    omega

/-- Everything inserted into the chain is good; a positive answer comes with a marked trap inside. -/
theorem computeTrap_spec (C : Cfg) : ∀ (n : Nat) (trap pre post : List Nat) (mc : Nat) (s : S) (r : Nat × S),
    (∀ t, t ∈ pre ↔ ∃ p ∈ trap, t ∈ preP C.N p) → (∀ t, t ∈ post ↔ ∃ p ∈ trap, t ∈ postP C.N p) →
    mc = marked C.m0 trap → Chain C s.chain → computeTrap C n trap pre post mc s = some r →
    Chain C r.2.chain ∧ (0 < r.1 → ∃ T : List Nat, Trap C.N (· ∈ T) ∧ (∀ p ∈ T, p ∈ trap) ∧ ∃ p ∈ T, C.m0 p ≠ 0) := by
  intro n
  induction n with
  | zero => intro trap pre post mc s r _ _ _ _ h; cases h
  | succ n ih =>
    intro trap pre post mc s r hpre hpost hmc hs h
    rw [computeTrap] at h
    by_cases h0 : trap = []
    · rw [if_pos h0] at h
      have := Option.some.inj h; subst this
      exact ⟨hs, fun h => absurd h (Nat.lt_irrefl 0)⟩
    rw [if_neg h0] at h
    by_cases hd : diff post pre = []
    · rw [if_pos hd] at h
      by_cases hm : 0 < mc
      · rw [if_pos hm] at h
        have ht := trap_of_diff hpre hpost hd
        have hmk : ∃ p ∈ trap, C.m0 p ≠ 0 := marked_pos (hmc ▸ hm)
        have hch : Chain C (insertChain s.chain trap) := chain_insert hs (good_trap ht hmk)
        have hlen : 0 < trap.length := List.length_pos_iff.2 h0
        have hk : C.rand s.calls % trap.length < trap.length := Nat.mod_lt _ hlen
        simp only at h
        generalize C.rand s.calls % trap.length = k at h hk
        by_cases hc : C.m0 (trap.getD k 0) = 0 ∨ 1 < mc
        · rw [if_pos hc] at h
          cases hr : computeTrap C n (trap.eraseIdx k) (preOf C.N (trap.eraseIdx k)) (postOf C.N (trap.eraseIdx k))
              (mc - if 0 < C.m0 (trap.getD k 0) then 1 else 0) ⟨insertChain s.chain trap, s.calls + 1⟩ with
          | none => rw [hr] at h; cases h
          | some q =>
            rw [hr] at h
            have := Option.some.inj h; subst this
            have hi := ih _ _ _ _ _ q (mem_preOf C.N _) (mem_postOf C.N _) (by
              have := marked_eraseIdx C.m0 trap k hk
              omega) hch hr
            exact ⟨hi.1, fun _ => ⟨trap, ht, fun _ h => h, hmk⟩⟩
        · rw [if_neg hc] at h
          have := Option.some.inj h; subst this
          exact ⟨hch, fun _ => ⟨trap, ht, fun _ h => h, hmk⟩⟩
      · rw [if_neg hm] at h
        have := Option.some.inj h; subst this
        exact ⟨hs, fun h => absurd h hm⟩
    · rw [if_neg hd] at h
      cases hr : dropAll C.N C.m0 (diff post pre) trap mc with
      | none =>
        rw [hr] at h
        have := Option.some.inj h; subst this
        exact ⟨hs, fun h => absurd h (Nat.lt_irrefl 0)⟩
      | some q =>
        rw [hr] at h
        obtain ⟨h1, h2⟩ := dropAll_spec C.N C.m0 _ trap mc hmc q hr
        simp only at h
        by_cases hc : q.1 = [] ∨ q.2 = 0
        · rw [if_pos hc] at h
          have := Option.some.inj h; subst this
          exact ⟨hs, fun h => absurd h (Nat.lt_irrefl 0)⟩
        · rw [if_neg hc] at h
          obtain ⟨h3, h4⟩ := ih _ _ _ _ _ r (mem_preOf C.N _) (mem_postOf C.N _) h1 hs h
          refine ⟨h3, fun hp => ?_⟩
          obtain ⟨T, hT, hsub, hmk⟩ := h4 hp
          exact ⟨T, hT, fun p hp => h2.subset (hsub p hp), hmk⟩

/-! ### siphonTrap -/

theorem stLoop_spec (C : Cfg) (go : List Nat → List Nat → List Nat → S → Option (Bool × S)) (has : Nat → Bool)
    (siphon pre post : List Nat) (hpre : ∀ t, t ∈ pre ↔ ∃ p ∈ siphon, t ∈ preP C.N p)
    (hpost : ∀ t, t ∈ post ↔ ∃ p ∈ siphon, t ∈ postP C.N p) (hhas : ∀ p, has p = true → Good C [p])
    (hgo : ∀ l a b s r, (∀ t, t ∈ a ↔ ∃ p ∈ l, t ∈ preP C.N p) → (∀ t, t ∈ b ↔ ∃ p ∈ l, t ∈ postP C.N p) →
      Chain C s.chain → go l a b s = some r → Chain C r.2.chain ∧ (r.1 = true → Good C l)) :
    ∀ (is : List Invariant) (k : Nat) (s : S) (r : Bool × S), Chain C s.chain →
      stLoop C.N go has siphon pre post is k s = some r → Chain C r.2.chain ∧
      (r.1 = true → ∀ i ∈ is, i.place ∈ siphon ∨ Good C (i.place :: siphon)) := by
  intro is
  induction is with
  | nil =>
    intro k s r hs h
    have := Option.some.inj h; subst this
    exact ⟨hs, fun _ i hi => (by cases hi)⟩
  | cons i is ih =>
    intro k s r hs h
    rw [stLoop] at h
    generalize advance siphon k i.place = k' at h
    by_cases h1 : siphon[k']? = some i.place
    · rw [if_pos h1] at h
      obtain ⟨h2, h3⟩ := ih k' s r hs h
      refine ⟨h2, fun ht j hj => ?_⟩
      rcases List.mem_cons.1 hj with rfl | hj
      · exact Or.inl (List.mem_of_getElem? h1)
      · exact h3 ht j hj
    · rw [if_neg h1] at h
      by_cases h2 : has i.place = true
      · rw [if_pos h2] at h
        obtain ⟨h4, h3⟩ := ih k' s r hs h
        refine ⟨h4, fun ht j hj => ?_⟩
        rcases List.mem_cons.1 hj with rfl | hj
        · refine Or.inr ((hhas _ h2).mono fun x hx => ?_)
          rw [List.mem_singleton.1 hx]; exact List.mem_cons_self
        · exact h3 ht j hj
      · rw [if_neg h2] at h
        have hmem : ∀ x, x ∈ siphon.take k' ++ i.place :: siphon.drop k' ↔ x = i.place ∨ x ∈ siphon := by
          intro x
          have hx : x ∈ siphon ↔ x ∈ siphon.take k' ∨ x ∈ siphon.drop k' := by
            rw [← List.mem_append, List.take_append_drop]
          rw [List.mem_append, List.mem_cons, hx]
          constructor
          · rintro (h | h | h)
            · exact Or.inr (Or.inl h)
            · exact Or.inl h
            · exact Or.inr (Or.inr h)
          · rintro (h | h | h)
            · exact Or.inr (Or.inl h)
            · exact Or.inl h
            · exact Or.inr (Or.inr h)
        have hset : ∀ (f : Nat → List Nat) (a : List Nat), (∀ t, t ∈ a ↔ ∃ p ∈ siphon, t ∈ f p) →
            ∀ t, t ∈ insAll (f i.place) a ↔ ∃ p ∈ siphon.take k' ++ i.place :: siphon.drop k', t ∈ f p := by
          intro f a ha t
          rw [mem_insAll, ha]
          constructor
          · rintro (h | ⟨p, hp, h⟩)
            · exact ⟨_, (hmem _).2 (Or.inl rfl), h⟩
            · exact ⟨p, (hmem _).2 (Or.inr hp), h⟩
          · rintro ⟨p, hp, h⟩
            rcases (hmem p).1 hp with rfl | hp
            · exact Or.inl h
            · exact Or.inr ⟨p, hp, h⟩
        cases hg : go (siphon.take k' ++ i.place :: siphon.drop k') (insAll (preP C.N i.place) pre)
            (insAll (postP C.N i.place) post) s with
        | none => rw [hg] at h; cases h
        | some q =>
          obtain ⟨h4, h5⟩ := hgo _ _ _ s q (hset (preP C.N) pre hpre) (hset (postP C.N) post hpost) hs hg
          obtain ⟨b, s'⟩ := q
          rw [hg] at h
          cases b with
          | false =>
            have := Option.some.inj h; subst this
            exact ⟨h4, fun h => (by cases h)⟩
          | true =>
            obtain ⟨h6, h7⟩ := ih k' s' r h4 h
            refine ⟨h6, fun ht j hj => ?_⟩
            rcases List.mem_cons.1 hj with rfl | hj
            · refine Or.inr ((h5 rfl).mono fun x hx => ?_)
              rw [List.mem_cons]; exact (hmem x).1 hx
            · exact h7 ht j hj

theorem siphonTrap_spec (C : Cfg) (has : Nat → Bool) (hhas : ∀ p, has p = true → Good C [p]) :
    ∀ (n : Nat) (siphon pre post : List Nat) (s : S) (r : Bool × S),
    (∀ t, t ∈ pre ↔ ∃ p ∈ siphon, t ∈ preP C.N p) → (∀ t, t ∈ post ↔ ∃ p ∈ siphon, t ∈ postP C.N p) →
    Chain C s.chain → siphonTrap C has n siphon pre post s = some r →
    Chain C r.2.chain ∧ (r.1 = true → Good C siphon) := by
  intro n
  induction n with
  | zero => intro siphon pre post s r _ _ _ h; cases h
  | succ n ih =>
    intro siphon pre post s r hpre hpost hs h
    rw [siphonTrap] at h
    simp only at h
    by_cases h1 : C.timeout s.calls = true
    · rw [if_pos h1] at h
      have := Option.some.inj h; subst this
      exact ⟨hs, fun h => (by cases h)⟩
    rw [if_neg h1] at h
    by_cases h2 : subsumed s.chain siphon = true
    · rw [if_pos h2] at h
      have := Option.some.inj h; subst this
      exact ⟨hs, fun _ => good_of_subsumed hs h2⟩
    rw [if_neg h2] at h
    cases hd : diff pre post with
    | nil =>
      rw [hd] at h
      simp only at h
      by_cases h3 : marked C.m0 siphon = 0
      · rw [if_pos h3] at h
        have := Option.some.inj h; subst this
        exact ⟨hs, fun h => (by cases h)⟩
      rw [if_neg h3] at h
      cases hc : computeTrap C (siphon.length + 1) siphon pre post (marked C.m0 siphon) ⟨s.chain, s.calls + 1⟩ with
      | none => rw [hc] at h; cases h
      | some q =>
        obtain ⟨h4, h5⟩ := computeTrap_spec C _ siphon pre post _ ⟨s.chain, s.calls + 1⟩ q hpre hpost rfl hs hc
        obtain ⟨k, s2⟩ := q
        rw [hc] at h
        cases k with
        | zero =>
          have := Option.some.inj h; subst this
          exact ⟨h4, fun h => (by cases h)⟩
        | succ k =>
          have := Option.some.inj h; subst this
          refine ⟨h4, fun _ => ?_⟩
          obtain ⟨T, hT, hsub, hmk⟩ := h5 (Nat.succ_pos k)
          exact (good_trap hT hmk).mono hsub
    | cons t rest =>
      rw [hd] at h
      simp only at h
      cases hc : stLoop C.N (siphonTrap C has n) has siphon pre post (C.N.preset t) 0 ⟨s.chain, s.calls + 1⟩ with
      | none => rw [hc] at h; cases h
      | some q =>
        obtain ⟨h4, h5⟩ := stLoop_spec C (siphonTrap C has n) has siphon pre post hpre hpost hhas
          (fun l a b s r ha hb hs h => ih l a b s r ha hb hs h) _ 0 ⟨s.chain, s.calls + 1⟩ q hs hc
        obtain ⟨b, s2⟩ := q
        rw [hc] at h
        cases b with
        | false =>
          have := Option.some.inj h; subst this
          exact ⟨h4, fun h => (by cases h)⟩
        | true =>
          have := Option.some.inj h; subst this
          have hin : t ∈ diff pre post := by rw [hd]; exact List.mem_cons_self
          obtain ⟨ht1, ht2⟩ := (mem_diff pre post t).1 hin
          have hg : Good C siphon := by
            intro D hD hsub
            obtain ⟨p, hp, hpt⟩ := (hpre t).1 ht1
            have htl := ((mem_preP C.N p t).1 hpt).1
            obtain ⟨q, hq, hqt⟩ := hD t htl ⟨p, hsub p hp, hpt⟩
            obtain ⟨i, hi, hiq⟩ := ((mem_postP C.N q t).1 hqt).2
            rcases h5 rfl i hi with hin | hgood
            · exact absurd ((hpost t).2 ⟨q, hiq ▸ hin, hqt⟩) ht2
            · refine hgood D hD fun x hx => ?_
              rcases List.mem_cons.1 hx with rfl | hx
              · rw [hiq]; exact hq
              · exact hsub x hx
          exact ⟨chain_insert h4 hg, fun _ => hg⟩

theorem solveLoop_spec (C : Cfg) (fuel : Nat) : ∀ (n p : Nat) (s : S), (∀ q < p, Good C [q]) → Chain C s.chain →
    solveLoop C fuel n p s = some true → ∀ q < p + n, Good C [q] := by
  intro n
  induction n with
  | zero => intro p s hp _ _ q hq; exact hp q hq
  | succ n ih =>
    intro p s hp hs h
    rw [solveLoop] at h
    cases hc : siphonTrap C (fun q => decide (q < p)) fuel [p] (preOf C.N [p]) (postOf C.N [p]) s with
    | none => rw [hc] at h; cases h
    | some q =>
      obtain ⟨h1, h2⟩ := siphonTrap_spec C _ (fun q hq => hp q (of_decide_eq_true hq)) fuel [p] _ _ s q
        (mem_preOf C.N _) (mem_postOf C.N _) hs hc
      obtain ⟨b, s'⟩ := q
      rw [hc] at h
      cases b with
      | false => cases h
      | true =>
        have := ih (p + 1) s' (fun q hq => by
          rcases Nat.lt_or_ge q p with h | h
          · exact hp q h
          · have : q = p := by omega
            rw [this]; exact h2 rfl) h1 h
        intro q hq
        exact this q (by omega)

end ST
end Verif
