import Verif.Queue.Model
import Mathlib.Data.Multiset.AddSub
import Mathlib.Algebra.Order.Group.Multiset

/-! # Lemmas about the queues -/

namespace Verif
namespace Queue

/-- What a queue has to satisfy to be used by a search: `pend` is the multiset of identifiers
pushed and not yet popped.  `base`: three-argument pushes are allowed at any time (otherwise only on
an empty queue). -/
structure Lawful {Q : Type} (I : QImpl Q) (base : Prop) where
  Inv : Q → Prop
  pend : Q → Multiset Nat
  init_inv : Inv I.init
  init_pend : pend I.init = 0
  push : ∀ q id d t q', Inv q → id < W32 → (t = none → base ∨ pend q = 0) →
    I.push q id d t = some q' → Inv q' ∧ pend q' = id ::ₘ pend q
  pop_none : ∀ q r q', Inv q → I.pop q r = some (none, q') → Inv q' ∧ pend q = 0 ∧ pend q' = 0
  pop_some : ∀ q r x q', Inv q → I.pop q r = some (some x, q') → Inv q' ∧ pend q = x ::ₘ pend q'
  empty : ∀ q, Inv q → (I.isEmpty q = true ↔ pend q = 0)

theorem u32_of_lt {n : Nat} (h : n < W32) : u32 n = n := Nat.mod_eq_of_lt h

def bfs_lawful : Lawful bfs True where
  Inv _ := True
  pend q := (q.queue ++ q.cache : List Nat)
  init_inv := trivial
  init_pend := rfl
  push q id d t q' _ hid _ h := by
    simp only [bfs, Option.some.injEq] at h
    subst h
    refine ⟨trivial, ?_⟩
    simp only [Bfs.push, u32_of_lt hid, ← List.append_assoc]
    rw [← Multiset.coe_add, add_comm]; rfl
  pop_none q r q' _ h := by
    simp only [bfs, Option.some.injEq, Bfs.pop] at h
    refine ⟨trivial, ?_⟩
    have hp := r.perm q.cache
    split at h
    · simp at h
    · rename_i he
      rw [List.append_eq_nil_iff] at he
      rw [he.2] at hp
      have := hp.symm.eq_nil
      obtain ⟨_, rfl⟩ := Prod.mk.inj h
      simp [he.1, this]
  pop_some q r x q' _ h := by
    simp only [bfs, Option.some.injEq, Bfs.pop] at h
    refine ⟨trivial, ?_⟩
    have hp := r.perm q.cache
    split at h
    · rename_i y rest he
      simp only [Prod.mk.injEq, Option.some.injEq] at h
      obtain ⟨rfl, rfl⟩ := h
      have : (q.queue ++ q.cache).Perm (y :: rest) := by
        rw [← he]; exact List.Perm.append_left _ hp.symm
      rw [Multiset.coe_eq_coe.2 this]; simp
    · simp at h
  empty q _ := by
    simp [bfs, Bfs.empty, Multiset.coe_eq_zero, List.append_eq_nil_iff]

def dfs_lawful : Lawful dfs True where
  Inv _ := True
  pend q := (q : Multiset Nat)
  init_inv := trivial
  init_pend := rfl
  push q id d t q' _ hid _ h := by
    simp only [dfs, Option.some.injEq] at h
    subst h
    rw [u32_of_lt hid]
    exact ⟨trivial, rfl⟩
  pop_none q r q' _ h := by
    cases q with
    | nil => simp only [dfs, Option.some.injEq, Prod.mk.injEq, true_and] at h; subst h; exact ⟨trivial, rfl, rfl⟩
    | cons a l => simp [dfs] at h
  pop_some q r x q' _ h := by
    cases q with
    | nil => simp [dfs] at h
    | cons a l =>
      simp only [dfs, Option.some.injEq, Prod.mk.injEq] at h
      obtain ⟨rfl, rfl⟩ := h; exact ⟨trivial, rfl⟩
  empty q _ := by
    simp only [dfs]
    rw [List.isEmpty_iff, Multiset.coe_eq_zero]

theorem foldl_cons_eq (l s : List Nat) : l.foldl (fun s x => x :: s) s = l.reverse ++ s := by
  induction l generalizing s with
  | nil => rfl
  | cons a l ih => simp [ih]

def rdfs_lawful : Lawful rdfs True where
  Inv _ := True
  pend q := (q.stack ++ q.cache : List Nat)
  init_inv := trivial
  init_pend := rfl
  push q id d t q' _ hid _ h := by
    simp only [rdfs, Option.some.injEq] at h
    subst h
    refine ⟨trivial, ?_⟩
    simp only [Rdfs.push, u32_of_lt hid, ← List.append_assoc]
    rw [← Multiset.coe_add, add_comm]; rfl
  pop_none q r q' _ h := by
    simp only [rdfs, Option.some.injEq, Rdfs.pop] at h
    refine ⟨trivial, ?_⟩
    split at h
    · rename_i hc
      rw [List.isEmpty_iff] at hc
      split at h
      · rename_i hs
        obtain ⟨_, rfl⟩ := Prod.mk.inj h
        simp [hs, hc]
      · simp at h
    · rename_i hc
      simp only [Prod.mk.injEq, List.getLast?_eq_none_iff] at h
      have := r.perm q.cache
      rw [h.1] at this
      exact absurd (by simp [this.symm.eq_nil]) hc
  pop_some q r x q' _ h := by
    simp only [rdfs, Option.some.injEq, Rdfs.pop] at h
    refine ⟨trivial, ?_⟩
    split at h
    · rename_i hc
      rw [List.isEmpty_iff] at hc
      split at h
      · simp at h
      · rename_i y rest hs
        simp only [Prod.mk.injEq, Option.some.injEq] at h
        obtain ⟨rfl, rfl⟩ := h
        rw [hc, hs]; simp
    · simp only [Prod.mk.injEq] at h
      obtain ⟨h1, rfl⟩ := h
      have hp := r.perm q.cache
      have hl : (r.shuffle q.cache).dropLast ++ [x] = r.shuffle q.cache :=
        List.dropLast_append_getLast? x h1
      rw [foldl_cons_eq]
      generalize r.shuffle q.cache = c at *
      have : (q.stack ++ q.cache).Perm (x :: ((c.dropLast.reverse ++ q.stack) ++ [])) := by
        refine (List.Perm.append_left _ hp.symm).trans ?_
        rw [← hl, List.append_nil]
        simp only [List.dropLast_concat]
        refine List.perm_append_comm.trans ?_
        rw [List.append_assoc]
        refine List.Perm.trans ?_ (List.perm_middle (a := x) (l₁ := c.dropLast.reverse) (l₂ := q.stack))
        exact List.Perm.append_right _ (List.reverse_perm _).symm
      rw [Multiset.coe_eq_coe.2 this]; rfl
  empty q _ := by
    simp only [rdfs, Rdfs.empty, Bool.and_eq_true, List.isEmpty_iff, Multiset.coe_eq_zero,
      List.append_eq_nil_iff]
    exact And.comm

/-! ### Priority queues -/

theorem pqTop_none {l : List Weighted} : pqTop l = none ↔ l = [] := by
  cases l with
  | nil => simp [pqTop]
  | cons a l =>
    simp only [pqTop, reduceCtorEq, iff_false]
    split
    · simp
    · split <;> simp

theorem pqTop_mem {l : List Weighted} {a : Weighted} (h : pqTop l = some a) : a ∈ l := by
  induction l generalizing a with
  | nil => simp [pqTop] at h
  | cons b l ih =>
    simp only [pqTop] at h
    split at h
    · simp only [Option.some.injEq] at h; subst h; exact List.mem_cons_self ..
    · rename_i c hc
      split at h
      · simp only [Option.some.injEq] at h; subst h; exact List.mem_cons_of_mem _ (ih hc)
      · simp only [Option.some.injEq] at h; subst h; exact List.mem_cons_self ..

theorem Weighted.lt_le {a b : Weighted} :
    (Weighted.lt a b = true → b.1 ≤ a.1) ∧ (¬ Weighted.lt a b = true → a.1 ≤ b.1) := by
  unfold Weighted.lt
  split
  · constructor <;> intro _ <;> omega
  · constructor <;> intro h <;> simp at h <;> omega

/-- The top of the heap has a smallest weight. -/
theorem pqTop_min {l : List Weighted} {a : Weighted} (h : pqTop l = some a) :
    ∀ b ∈ l, a.1 ≤ b.1 := by
  induction l generalizing a with
  | nil => simp [pqTop] at h
  | cons b l ih =>
    simp only [pqTop] at h
    intro x hx
    split at h
    · rename_i hn
      rw [pqTop_none] at hn
      simp only [Option.some.injEq] at h
      subst h hn
      simp only [List.mem_singleton] at hx
      rw [hx]
    · rename_i c hc
      split at h
      · rename_i hlt
        simp only [Option.some.injEq] at h; subst h
        have h1 := Weighted.lt_le.1 hlt
        rcases List.mem_cons.1 hx with rfl | hx
        · exact h1
        · exact ih hc x hx
      · rename_i hlt
        simp only [Option.some.injEq] at h; subst h
        have h1 := Weighted.lt_le.2 hlt
        rcases List.mem_cons.1 hx with rfl | hx
        · exact Nat.le_refl _
        · exact Nat.le_trans h1 (ih hc x hx)

theorem pqPop_perm {l : List Weighted} {a : Weighted} (h : pqTop l = some a) :
    l.Perm (a :: pqPop l) := by
  unfold pqPop
  rw [h]
  exact List.perm_cons_erase (pqTop_mem h)

/-- The items of a heap. -/
def items (l : List Weighted) : Multiset Nat := (l.map Prod.snd : List Nat)

theorem items_cons (a : Weighted) (l : List Weighted) : items (a :: l) = a.2 ::ₘ items l := rfl

theorem items_pop {l : List Weighted} {a : Weighted} (h : pqTop l = some a) :
    items l = a.2 ::ₘ items (pqPop l) := by
  rw [← items_cons]
  exact Multiset.coe_eq_coe.2 ((pqPop_perm h).map _)

theorem items_eq_zero {l : List Weighted} : items l = 0 ↔ l = [] := by
  simp [items]

def heur_lawful : Lawful heur True where
  Inv _ := True
  pend q := items q
  init_inv := trivial
  init_pend := rfl
  push q id d t q' _ hid _ h := by
    simp only [heur, Option.some.injEq] at h
    subst h
    rw [u32_of_lt hid]
    exact ⟨trivial, rfl⟩
  pop_none q r q' _ h := by
    simp only [heur] at h
    split at h
    · rename_i hn
      simp only [Option.some.injEq, Prod.mk.injEq, true_and] at h
      subst h
      rw [pqTop_none] at hn
      exact ⟨trivial, by rw [hn]; rfl, by rw [hn]; rfl⟩
    · simp at h
  pop_some q r x q' _ h := by
    simp only [heur] at h
    split at h
    · simp at h
    · rename_i a ha
      simp only [Option.some.injEq, Prod.mk.injEq] at h
      obtain ⟨rfl, rfl⟩ := h
      exact ⟨trivial, items_pop ha⟩
  empty q _ := by
    simp only [heur]
    rw [List.isEmpty_iff, items_eq_zero]

/-! ### Potency queue -/

/-- All items of a vector of heaps. -/
def allItems : List (List Weighted) → Multiset Nat
  | [] => 0
  | l :: ls => items l + allItems ls

theorem allItems_set {qs : List (List Weighted)} {c : Nat} {l l' : List Weighted}
    (h : qs[c]? = some l) : allItems (qs.set c l') + items l = allItems qs + items l' := by
  induction qs generalizing c with
  | nil => simp at h
  | cons a qs ih =>
    cases c with
    | zero =>
      simp only [List.getElem?_cons_zero, Option.some.injEq] at h
      subst h
      simp only [List.set_cons_zero, allItems]
      ac_rfl
    | succ c =>
      simp only [List.getElem?_cons_succ] at h
      simp only [List.set_cons_succ, allItems]
      rw [add_assoc, ih h, add_assoc]

theorem allItems_push {qs : List (List Weighted)} {c : Nat} {l : List Weighted} {e : Weighted}
    (h : qs[c]? = some l) : allItems (qs.set c (e :: l)) = e.2 ::ₘ allItems qs := by
  have := allItems_set (l' := e :: l) h
  rw [items_cons, ← Multiset.singleton_add, ← add_assoc] at this
  have h2 := add_right_cancel this
  rw [h2, add_comm, Multiset.singleton_add]

theorem allItems_pop {qs : List (List Weighted)} {c : Nat} {l : List Weighted} {e : Weighted}
    (h : qs[c]? = some l) (he : pqTop l = some e) :
    allItems qs = e.2 ::ₘ allItems (qs.set c (pqPop l)) := by
  have := allItems_set (l' := pqPop l) h
  rw [items_pop he, ← Multiset.singleton_add, ← add_assoc] at this
  have h2 := add_right_cancel this
  rw [← h2, add_comm, Multiset.singleton_add]

theorem allItems_replicate (n : Nat) : allItems (List.replicate n []) = 0 := by
  induction n with
  | zero => rfl
  | succ n ih => simp only [List.replicate_succ, allItems, ih]; rfl

theorem take_spec {q q' : Pot} {c : Nat} {o : Option Nat} (h : q.take c = some (o, q')) :
    ∃ x, o = some x ∧ allItems q.queues = x ::ₘ allItems q'.queues ∧ q'.size = q.size - 1 ∧
      q'.potencies = q.potencies ∧ q'.best = q.best ∧ q'.queues.length = q.queues.length := by
  unfold Pot.take at h
  split at h
  · simp at h
  · rename_i l hl
    split at h
    · simp at h
    · rename_i e he
      simp only [Option.some.injEq, Prod.mk.injEq] at h
      obtain ⟨rfl, rfl⟩ := h
      exact ⟨_, rfl, allItems_pop hl he, rfl, rfl, rfl, by simp⟩

structure PotInv (nT : Nat) (q : Pot) : Prop where
  size : q.size = (allItems q.queues).card
  fresh : q.potencies = [] → nT = 0 ∨ allItems q.queues = 0
  best : q.best = 0

theorem push3_spec {nT : Nat} {q q' : Pot} {id d : Nat} (hi : PotInv nT q)
    (hb : 0 < nT ∨ allItems q.queues = 0) (h : q.push3 nT id d = some q') :
    PotInv nT q' ∧ allItems q'.queues = id ::ₘ allItems q.queues := by
  unfold Pot.push3 at h
  by_cases he : q.potencies.isEmpty
  · simp only [he, if_true] at h
    rw [List.isEmpty_iff] at he
    have h0 : allItems q.queues = 0 := by
      rcases hb with hb | hb
      · rcases hi.fresh he with h | h
        · omega
        · exact h
      · exact hb
    split at h
    · simp at h
    · rename_i l hl
      simp only [Option.some.injEq] at h
      subst h
      simp only
      have := allItems_push (e := (u32 d, id)) hl
      have hz : allItems (q.initN nT 100).queues = 0 := allItems_replicate _
      refine ⟨⟨?_, ?_, ?_⟩, ?_⟩
      · have hs := hi.size
        rw [h0] at hs
        rw [this, hz]; simp only [Pot.initN, hs]; rfl
      · intro hp
        left
        simp only [Pot.initN, he, List.nil_append, List.replicate_eq_nil_iff] at hp
        exact hp
      · rfl
      · rw [this, h0, hz]
  · simp only [he] at h
    simp only [Bool.false_eq_true, if_false] at h
    split at h
    · simp at h
    · rename_i l hl
      simp only [Option.some.injEq] at h
      subst h
      have := allItems_push (e := (u32 d, id)) hl
      refine ⟨⟨?_, ?_, hi.best⟩, this⟩
      · simp only [this, Multiset.card_cons, hi.size]
      · intro hp
        simp [show q.potencies = [] from hp] at he

theorem push4_spec {nT : Nat} {q q' : Pot} {id d t : Nat} (hi : PotInv nT q)
    (h : q.push4 id d t = some q') :
    PotInv nT q' ∧ allItems q'.queues = id ::ₘ allItems q.queues := by
  unfold Pot.push4 at h
  split at h
  · rename_i p l hp hl
    simp only [Option.some.injEq] at h
    subst h
    have := allItems_push (e := (u32 d, id)) hl
    refine ⟨⟨?_, ?_, hi.best⟩, this⟩
    · simp only [this, Multiset.card_cons, hi.size]
    · intro hq
      simp only [List.set_eq_nil_iff] at hq
      simp [hq] at hp
  · simp at h

theorem Pot.pop_spec {nT : Nat} {q q' : Pot} {r : Rand} {o : Option Nat} (hi : PotInv nT q)
    (h : q.pop r = some (o, q')) :
    PotInv nT q' ∧ ((o = none ∧ allItems q.queues = 0 ∧ q' = q) ∨
      ∃ x, o = some x ∧ allItems q.queues = x ::ₘ allItems q'.queues) := by
  unfold Pot.pop at h
  split at h
  · rename_i h0
    simp only [Option.some.injEq, Prod.mk.injEq] at h
    obtain ⟨rfl, rfl⟩ := h
    refine ⟨hi, .inl ⟨rfl, ?_, rfl⟩⟩
    have := hi.size
    rw [h0] at this
    exact Multiset.card_eq_zero.1 this.symm
  · have key : ∀ c, q.take c = some (o, q') → PotInv nT q' ∧ ((o = none ∧ allItems q.queues = 0 ∧ q' = q) ∨
      ∃ x, o = some x ∧ allItems q.queues = x ::ₘ allItems q'.queues) := by
      intro c hc
      obtain ⟨x, h1, h2, h3, h4, h5, h6⟩ := take_spec hc
      refine ⟨⟨?_, ?_, ?_⟩, .inr ⟨x, h1, h2⟩⟩
      · have := hi.size
        rw [h2, Multiset.card_cons] at this
        omega
      · intro hp
        rw [h4] at hp
        rcases hi.fresh hp with h | h
        · exact .inl h
        · rw [h] at h2; exact absurd h2.symm (Multiset.cons_ne_zero)
      · rw [h5]; exact hi.best
    split at h
    · exact key _ h
    · split at h
      · simp at h
      · exact key _ h

def pot_lawful (nT c0 : Nat) (ps : List Nat) : Lawful (pot nT c0 ps) (0 < nT) where
  Inv q := PotInv nT q
  pend q := allItems q.queues
  init_inv := by
    show PotInv nT (if ps.isEmpty then { parentDist := c0 } else Pot.initV c0 ps)
    split
    · exact ⟨rfl, fun _ => .inr rfl, rfl⟩
    · rename_i h
      refine ⟨?_, fun _ => .inr (allItems_replicate _), rfl⟩
      simp only [Pot.initV, allItems_replicate]; rfl
  init_pend := by
    show allItems (if ps.isEmpty then { parentDist := c0 } else Pot.initV c0 ps : Pot).queues = 0
    split
    · rfl
    · exact allItems_replicate _
  push q id d t q' hi _ hb h := by
    cases t with
    | none => exact push3_spec hi (hb rfl) h
    | some t => exact push4_spec hi h
  pop_none q r q' hi h := by
    obtain ⟨h1, ⟨_, h2, h3⟩ | ⟨x, hx, _⟩⟩ := Pot.pop_spec hi h
    · exact ⟨h1, h2, by rw [h3]; exact h2⟩
    · simp at hx
  pop_some q r x q' hi h := by
    obtain ⟨h1, ⟨h2, _⟩ | ⟨y, hy, h2⟩⟩ := Pot.pop_spec hi h
    · simp at h2
    · simp only [Option.some.injEq] at hy; subst hy; exact ⟨h1, h2⟩
  empty q hi := by
    show (q.size == 0) = true ↔ _
    rw [beq_iff_eq, hi.size, Multiset.card_eq_zero]

/-! ### No undefined behaviour in the potency queue -/

theorem pickLoop_spec (coin : Nat → Bool) (l : List (Nat × List Weighted)) (t n : Nat)
    (cur : Option Nat) (hp : ∀ x ∈ l, 0 < x.1 ∧ x.1 < W32)
    (h : cur ≠ none ∨ (n = 0 ∧ ∃ x ∈ l, x.2 ≠ [])) :
    ∃ c, pickLoop coin l t n cur = some c ∧
      (cur = some c ∨ ∃ i x, l[i]? = some x ∧ x.2 ≠ [] ∧ c = t + i) := by
  induction l generalizing t n cur with
  | nil =>
    cases cur with
    | none => simp at h
    | some c => exact ⟨c, rfl, .inl rfl⟩
  | cons a l ih =>
    obtain ⟨pt, q⟩ := a
    simp only [pickLoop]
    have hp' : ∀ x ∈ l, 0 < x.1 ∧ x.1 < W32 := fun x hx => hp x (List.mem_cons_of_mem _ hx)
    have lift : ∀ c cur', (cur' = some c ∨ ∃ i x, l[i]? = some x ∧ x.2 ≠ [] ∧ c = t + 1 + i) →
        (cur' = some c ∨ ∃ i x, ((pt, q) :: l)[i]? = some x ∧ x.2 ≠ [] ∧ c = t + i) := by
      rintro c cur' (h | ⟨i, x, h1, h2, h3⟩)
      · exact .inl h
      · exact .inr ⟨i + 1, x, by simpa using h1, h2, by omega⟩
    split
    · rename_i he
      rw [List.isEmpty_iff] at he
      obtain ⟨c, h1, h2⟩ := ih (t + 1) n cur hp' (by
        rcases h with h | ⟨h0, x, hx, hx2⟩
        · exact .inl h
        · refine .inr ⟨h0, x, ?_, hx2⟩
          rcases List.mem_cons.1 hx with rfl | hx
          · exact absurd he hx2
          · exact hx)
      exact ⟨c, h1, lift c cur h2⟩
    · rename_i he
      rw [List.isEmpty_iff] at he
      have hpt := hp _ (List.mem_cons_self ..)
      simp only at hpt
      have hq : ∃ i x, ((pt, q) :: l)[i]? = some x ∧ x.2 ≠ [] ∧ t = t + i :=
        ⟨0, (pt, q), rfl, he, rfl⟩
      have key : ∀ cur', cur' ≠ none → (cur' = some t ∨ cur' = cur) →
          ∃ c, pickLoop coin l (t + 1) ((n + pt) % W32) cur' = some c ∧
          (cur = some c ∨ ∃ i x, ((pt, q) :: l)[i]? = some x ∧ x.2 ≠ [] ∧ c = t + i) := by
        intro cur' hne hor
        obtain ⟨c, h1, h2⟩ := ih (t + 1) ((n + pt) % W32) cur' hp' (.inl hne)
        refine ⟨c, h1, ?_⟩
        rcases lift c cur' h2 with h | h
        · rcases hor with h' | h'
          · rw [h'] at h
            simp only [Option.some.injEq] at h
            subst h
            exact .inr hq
          · rw [h'] at h; exact .inl h
        · exact .inr h
      rcases h with hc | ⟨h0, _⟩
      · generalize (if pt = 0 ∧ (n + pt) % W32 = 0 then false
          else if pt = (n + pt) % W32 then true else coin t) = hit
        cases hit
        · exact key cur hc (.inr rfl)
        · exact key (some t) (by simp) (.inl rfl)
      · subst h0
        have : (0 + pt) % W32 = pt := by rw [Nat.zero_add]; exact Nat.mod_eq_of_lt hpt.2
        rw [this] at key ⊢
        have hh : (if (if pt = 0 ∧ pt = 0 then false else if pt = pt then true else coin t) = true
            then some t else cur) = some t := by
          have : pt ≠ 0 := by omega
          simp [this]
        rw [hh]
        exact key (some t) (by simp) (.inl rfl)

/-- The state in which the potency queue is free of undefined behaviour: `B` bounds the potencies,
`D` the distances. -/
structure PotLive (nT D B : Nat) (q : Pot) : Prop where
  npos : 0 < nT
  inv : PotInv nT q
  lenP : q.potencies.length = nT
  lenQ : q.queues.length = nT
  pot : ∀ p ∈ q.potencies, 0 < p ∧ p ≤ B
  cpd : q.parentDist ≤ D
  dist : ∀ l ∈ q.queues, ∀ e ∈ l, e.1 ≤ D

theorem allItems_ne {qs : List (List Weighted)} (h : allItems qs ≠ 0) : ∃ l ∈ qs, l ≠ [] := by
  induction qs with
  | nil => exact absurd rfl h
  | cons a qs ih =>
    by_cases ha : a = []
    · subst ha
      have : allItems qs ≠ 0 := by
        intro h'; apply h; simp only [allItems, h']; rfl
      obtain ⟨l, hl, hn⟩ := ih this
      exact ⟨l, List.mem_cons_of_mem _ hl, hn⟩
    · exact ⟨a, List.mem_cons_self .., ha⟩

theorem PotLive.mono {nT D B B' : Nat} {q : Pot} (h : PotLive nT D B q) (hb : B ≤ B') :
    PotLive nT D B' q :=
  ⟨h.npos, h.inv, h.lenP, h.lenQ, fun p hp => ⟨(h.pot p hp).1, Nat.le_trans (h.pot p hp).2 hb⟩,
    h.cpd, h.dist⟩

theorem PotLive.push3 {nT D B : Nat} {q : Pot} (h : PotLive nT D B q) (id d : Nat) (hd : u32 d ≤ D) :
    ∃ q', q.push3 nT id d = some q' ∧ PotLive nT D B q' := by
  have hne : q.potencies.isEmpty = false := by
    rw [List.isEmpty_eq_false_iff]
    intro he
    have := h.lenP
    rw [he] at this
    simp only [List.length_nil] at this
    have := h.npos
    omega
  have hlt : q.best < q.queues.length := by rw [h.inv.best, h.lenQ]; exact h.npos
  have hq : q.queues[q.best]? = some q.queues[q.best] := List.getElem?_eq_getElem hlt
  have he : q.push3 nT id d = some { q with queues := q.queues.set q.best ((u32 d, id) :: q.queues[q.best]), size := q.size + 1 } := by
    unfold Pot.push3
    simp only [hne, Bool.false_eq_true, if_false, hq]
  refine ⟨_, he, h.npos, (push3_spec h.inv (.inl h.npos) he).1, h.lenP, ?_, h.pot, h.cpd, ?_⟩
  · simp [h.lenQ]
  · intro l hl e hel
    rcases List.mem_or_eq_of_mem_set hl with hl | rfl
    · exact h.dist l hl e hel
    · rcases List.mem_cons.1 hel with rfl | hel
      · exact hd
      · exact h.dist _ (List.getElem_mem hlt) e hel

theorem newPotency_bound {c d p D B : Nat} (hc : c ≤ D) (hp : 0 < p ∧ p ≤ B) (hB : B + D < W32) :
    0 < newPotency c d p ∧ newPotency c d p ≤ B + D := by
  unfold newPotency
  split
  · rw [Nat.mod_eq_of_lt (by omega)]; omega
  · split
    · split <;> omega
    · omega

theorem PotLive.push4 {nT D B : Nat} {q : Pot} (h : PotLive nT D B q) (id d t : Nat)
    (hd : u32 d ≤ D) (ht : t < nT) (hB : B + D < W32) :
    ∃ q', q.push4 id d t = some q' ∧ PotLive nT D (B + D) q' := by
  have h1 : t < q.potencies.length := by rw [h.lenP]; exact ht
  have h2 : t < q.queues.length := by rw [h.lenQ]; exact ht
  have he : q.push4 id d t = some { q with
      potencies := q.potencies.set t (newPotency q.parentDist (u32 d) q.potencies[t]),
      queues := q.queues.set t ((u32 d, id) :: q.queues[t]), size := q.size + 1 } := by
    unfold Pot.push4
    simp only [List.getElem?_eq_getElem h1, List.getElem?_eq_getElem h2]
  refine ⟨_, he, h.npos, (push4_spec h.inv he).1, ?_, ?_, ?_, h.cpd, ?_⟩
  · simp [h.lenP]
  · simp [h.lenQ]
  · intro p hp
    rcases List.mem_or_eq_of_mem_set hp with hp | rfl
    · have := h.pot p hp; omega
    · exact newPotency_bound h.cpd (h.pot _ (List.getElem_mem h1)) hB
  · intro l hl e hel
    rcases List.mem_or_eq_of_mem_set hl with hl | rfl
    · exact h.dist l hl e hel
    · rcases List.mem_cons.1 hel with rfl | hel
      · exact hd
      · exact h.dist _ (List.getElem_mem h2) e hel

theorem PotLive.pop {nT D B : Nat} {q : Pot} (h : PotLive nT D B q) (r : Rand) (hB : B < W32) :
    ∃ o q', q.pop r = some (o, q') ∧ PotLive nT D B q' := by
  have hne : q.potencies.isEmpty = false := by
    rw [List.isEmpty_eq_false_iff]
    intro he
    have := h.lenP
    rw [he] at this
    simp only [List.length_nil] at this
    have := h.npos
    omega
  by_cases h0 : q.size = 0
  · exact ⟨none, q, by unfold Pot.pop; rw [if_pos h0], h⟩
  · have hz : allItems q.queues ≠ 0 := by
      intro hz
      have := h.inv.size
      rw [hz] at this
      exact h0 this
    obtain ⟨l, hl, hln⟩ := allItems_ne hz
    obtain ⟨i, hi, hil⟩ := List.getElem_of_mem hl
    have hzl : (q.potencies.zip q.queues).length = nT := by
      rw [List.length_zip, h.lenP, h.lenQ, Nat.min_self]
    obtain ⟨c, hc, hc2⟩ := pickLoop_spec r.coin (q.potencies.zip q.queues) 0 0 none
      (fun x hx => by
        have := h.pot x.1 (List.of_mem_zip hx).1
        omega)
      (.inr ⟨rfl, (q.potencies.zip q.queues)[i]'(by rw [hzl]; rw [h.lenQ] at hi; exact hi),
        List.getElem_mem _, by rw [List.getElem_zip]; rw [hil]; exact hln⟩)
    rcases hc2 with hc2 | ⟨j, x, hj, hx, hcj⟩
    · simp at hc2
    · rw [Nat.zero_add] at hcj
      subst hcj
      obtain ⟨hj1, hj2⟩ := List.getElem?_eq_some_iff.1 hj
      rw [List.getElem_zip] at hj2
      have hcq : c < q.queues.length := by rw [h.lenQ, ← hzl]; exact hj1
      have hx2 : q.queues[c] = x.2 := by rw [← hj2]
      cases htop : pqTop x.2 with
      | none => exact absurd (pqTop_none.1 htop) hx
      | some e =>
        have he : q.pop r = some (some e.2, { q with queues := q.queues.set c (pqPop x.2), size := q.size - 1, parentDist := e.1 }) := by
          unfold Pot.pop
          rw [if_neg h0]
          simp only [hne, Bool.false_eq_true, if_false, hc, Pot.take, List.getElem?_eq_getElem hcq, hx2, htop]
        refine ⟨_, _, he, h.npos, (Pot.pop_spec h.inv he).1, h.lenP, by simp [h.lenQ], h.pot, ?_, ?_⟩
        · exact h.dist _ (List.getElem_mem hcq) e (by rw [hx2]; exact pqTop_mem htop)
        · intro l hl e' hel
          rcases List.mem_or_eq_of_mem_set hl with hl | rfl
          · exact h.dist l hl e' hel
          · refine h.dist _ (List.getElem_mem hcq) e' ?_
            rw [hx2]
            exact (pqPop_perm htop).symm.subset (List.mem_cons_of_mem _ hel)

end Queue
end Verif
