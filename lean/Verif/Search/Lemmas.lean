import Verif.Search.Model
import Verif.Queue.Lemmas
import Verif.StateSet.Lemmas

/-! # Invariants of the explicit search -/

namespace Verif
namespace StateSet
open Encoder

/-- The bound test as computed: the token sum is taken modulo `2^32`. -/
def InB (k n : Nat) (m : Nat → Nat) : Prop := ¬ (k ≠ 0 ∧ (ml n m).sum % W32 > k)

/-- Case analysis of `add`. -/
theorem add_cases {S : SSet} {M} (r : Rep S M) (hpl : S.places < W32) {m : Nat → Nat}
    (hm : ∀ p, p < S.places → m p < W32) :
    (add S m).1.places = S.places ∧ (add S m).1.kbound = S.kbound ∧
    (((add S m).2 = .thrown ∧ Rep (add S m).1 M) ∨
     (¬ InB S.kbound S.places m ∧ (add S m).2 = .ok false none ∧ Rep (add S m).1 M) ∨
     (InB S.kbound S.places m ∧ ml S.places m ∈ M ∧ (∃ i, (add S m).2 = .ok false (some i)) ∧
        Rep (add S m).1 M) ∨
     (InB S.kbound S.places m ∧ ml S.places m ∉ M ∧ (add S m).2 = .ok true (some M.length) ∧
        Rep (add S m).1 (M ++ [ml S.places m]))) := by
  obtain ⟨_, hst, _⟩ := stats_spec S.places m
  obtain ⟨b, n, hc, _⟩ := compress_good S.places hpl m hm
  have hidx := idx_rep r hpl hm
  rw [enc_ml hc] at hidx
  have hB : InB S.kbound S.places m ↔ ¬ (S.kbound ≠ 0 ∧ (markingStats S.places m).sum > S.kbound) := by
    unfold InB; rw [hst, total_ml]
  unfold add
  simp only
  by_cases hk : S.kbound ≠ 0 ∧ (markingStats S.places m).sum > S.kbound
  · rw [if_pos hk]
    exact ⟨rfl, rfl, .inr (.inl ⟨fun h => hB.1 h hk, rfl, ⟨r.trie, r.val, r.nodup, r.maxb⟩⟩)⟩
  · rw [if_neg hk, hc]
    have hk' := hB.2 hk
    simp only
    by_cases hl : n * 8 ≥ 65535
    · rw [if_pos hl]
      exact ⟨rfl, rfl, .inl ⟨rfl, ⟨r.trie, r.val, r.nodup, r.maxb⟩⟩⟩
    · rw [if_neg hl]
      simp only [hidx]
      cases hi : M.idxOf? (ml S.places m) with
      | some i =>
        have hmem : ml S.places m ∈ M := by
          by_contra hc
          rw [List.idxOf?_eq_none_iff.2 hc] at hi; simp at hi
        exact ⟨rfl, rfl, .inr (.inr (.inl ⟨hk', hmem, ⟨i, rfl⟩, ⟨r.trie, r.val, r.nodup, r.maxb⟩⟩))⟩
      | none =>
        have hnm := List.idxOf?_eq_none_iff.1 hi
        refine ⟨rfl, rfl, .inr (.inr (.inr ⟨hk', hnm, by simp [r.trie], ?_, ?_, ?_, ?_⟩))⟩
        · simp [r.trie, enc_ml hc]
        · intro l hlm
          simp only [List.mem_append, List.mem_singleton] at hlm
          rcases hlm with hlm | rfl
          · exact r.val l hlm
          · exact ⟨ml_length _ _, fun p hp => by rw [arr_ml _ _ _ hp]; exact hm p hp⟩
        · rw [List.nodup_append]
          refine ⟨r.nodup, by simp, ?_⟩
          intro a ha c hc'
          simp at hc'; subst hc'
          rintro rfl
          exact absurd ha hnm
        · intro p hp
          simp only at hp ⊢
          rw [maxIn_snoc, if_pos hp, r.maxb p hp]
          congr 1
          exact (arr_ml _ _ _ hp).symm

theorem add_mono (S : SSet) (m : Nat → Nat) : S.trie.length ≤ (add S m).1.trie.length := by
  unfold add
  simp only
  split
  · exact Nat.le_refl _
  · split
    · exact Nat.le_refl _
    · split
      · exact Nat.le_refl _
      · split
        · exact Nat.le_refl _
        · simp

theorem decodeId_trie (S : SSet) (id : Nat) (dst : Nat → Nat) : (decodeId S id dst).1.trie = S.trie := by
  unfold decodeId
  split <;> rfl

theorem Rep.len {S : SSet} {M} (r : Rep S M) : S.trie.length = M.length := by rw [r.trie]; simp

end StateSet

namespace Search
open Queue StateSet Encoder

variable {Q : Type}

/-- The generator writes 32-bit markings and touches only the places of the net. -/
def GenOK (E : Env Q) : Prop :=
  ∀ m, (∀ p, p < E.places → m p < W32) → ∀ x ∈ (E.gen m).1, x.1 < W32 ∧
    (∀ p, p < E.places → x.2 p < W32) ∧ ∀ p, E.places ≤ p → x.2 p = m p

/-- The markings the generator can reach, with the transitions fired, all within the token bound. -/
inductive GPath (E : Env Q) : List Nat → (Nat → Nat) → Prop
  | nil : InB E.kbound E.places E.m0 → GPath E [] E.m0
  | snoc {ts m t m'} : GPath E ts m → (t, m') ∈ (E.gen m).1 → InB E.kbound E.places m' →
      GPath E (ts ++ [t]) m'

/-- The marking number `i`, as an array with the (irrelevant) tail of the initial marking. -/
def mkM (E : Env Q) (M : List (List Nat)) (i : Nat) : Nat → Nat :=
  over E.places (arr (M.getD i [])) E.m0

theorem mk_prefix (E : Env Q) {M M' : List (List Nat)} (h : M <+: M') {i : Nat} (hi : i < M.length) :
    mkM E M' i = mkM E M i := by
  obtain ⟨K, rfl⟩ := h
  unfold mkM
  congr 2
  simp only [List.getD_eq_getElem?_getD]
  rw [List.getElem?_append_left hi]

theorem mk_last (E : Env Q) (M : List (List Nat)) (m : Nat → Nat)
    (ht : ∀ p, E.places ≤ p → m p = E.m0 p) : mkM E (M ++ [ml E.places m]) M.length = m := by
  unfold mkM
  funext p
  simp only [List.getD_eq_getElem?_getD, List.getElem?_append_right (Nat.le_refl _), Nat.sub_self]
  unfold over
  split
  · rename_i hp; exact arr_ml _ _ _ hp
  · rename_i hp; exact (ht p (by omega)).symm

/-- The invariant of the search.  `C q i` says that query `q` has been evaluated on marking `i`. -/
structure Inv (E : Env Q) {base : Prop} (L : Lawful E.I base) (s : St Q) (M : List (List Nat))
    (C : Nat → Nat → Prop) : Prop where
  rep : Rep s.set M
  places : s.set.places = E.places
  kbound : s.set.kbound = E.kbound
  qinv : L.Inv s.queue
  pend : ∀ x ∈ L.pend s.queue, x < M.length
  first : M.head? = some (ml E.places E.m0)
  tail : ∀ p, E.places ≤ p → s.state p = E.m0 p
  hist : ∀ i, 0 < i → i < M.length → (s.hist i).1 < i ∧
    ((s.hist i).2, mkM E M i) ∈ (E.gen (mkM E M (s.hist i).1)).1
  inb : ∀ i, i < M.length → InB E.kbound E.places (mkM E M i)
  sat : ∀ c ∈ s.calls, c.answer = .satisfied ∧ c.query < E.nq ∧ E.useQueries = true ∧
    c.marking < M.length ∧ E.goal c.query (mkM E M c.marking) = true ∧
    (c.query, mkM E M c.marking) ∈ s.evals ∧ ∀ j, 0 < j → j ≤ c.marking → c.hist j = s.hist j
  open' : ∀ q, q < E.nq → E.useQueries = true → s.results q = .unknown →
    ∀ i, i < M.length → C q i → E.goal q (mkM E M i) = false ∧ (q, mkM E M i) ∈ s.evals
  unans : ∀ q, s.results q = .unknown ↔ E.results0 q = .unknown ∧ ∀ c ∈ s.calls, c.query ≠ q
  once : (s.calls.map Call.query).Nodup
  fresh : ∀ c ∈ s.calls, E.results0 c.query = .unknown
  heur : s.heur < E.nq
  evals : ∀ x ∈ s.evals, ∃ i, i < M.length ∧ x.2 = mkM E M i

/-- Handlers never answer `Unknown` to a definite result. -/
def HandlerOK (E : Env Q) : Prop :=
  ∀ i, (E.handler i .satisfied).1 ≠ .unknown ∧ (E.handler i .notSatisfied).1 ≠ .unknown

/-- Every marking but those pending and `ex` has all its successors in `M`. -/
def Closed (E : Env Q) {base : Prop} (L : Lawful E.I base) (s : St Q) (M : List (List Nat))
    (ex : Option Nat) : Prop :=
  ∀ i, i < M.length → i ∉ L.pend s.queue → ex ≠ some i → (E.gen (mkM E M i)).2 = false ∧
    ∀ y ∈ (E.gen (mkM E M i)).1, InB E.kbound E.places y.2 → ml E.places y.2 ∈ M

variable {E : Env Q} {base : Prop} {L : Lawful E.I base}

theorem Inv.weaken {s : St Q} {M C C'} (h : Inv E L s M C) (hC : ∀ q i, C' q i → C q i) :
    Inv E L s M C' :=
  { h with open' := fun q hq hu hr i hi hc => h.open' q hq hu hr i hi (hC q i hc) }

theorem Inv.mk0 {s : St Q} {M C} (h : Inv E L s M C) : mkM E M 0 = E.m0 := by
  unfold mkM
  have := h.first
  cases M with
  | nil => simp at this
  | cons a M =>
    simp only [List.head?_cons, Option.some.injEq] at this
    subst this
    funext p
    simp only [List.getD_cons_zero, over]
    split
    · rename_i hp; exact arr_ml _ _ _ hp
    · rfl

theorem Inv.val {s : St Q} {M C} (h : Inv E L s M C) {i : Nat} (hi : i < M.length) :
    ∀ p, p < E.places → mkM E M i p < W32 := by
  intro p hp
  have := (h.rep.val M[i] (List.getElem_mem hi)).2 p (by rw [h.places]; exact hp)
  unfold mkM over
  rw [if_pos hp]
  simpa [List.getD_eq_getElem?_getD, List.getElem?_eq_getElem hi] using this

theorem Inv.ml_mk {s : St Q} {M C} (h : Inv E L s M C) {i : Nat} (hi : i < M.length) :
    ml E.places (mkM E M i) = M[i] := by
  have hv := h.rep.val M[i] (List.getElem_mem hi)
  rw [← ml_arr M[i], hv.1, h.places, ml_eq_iff]
  intro p hp
  unfold mkM over
  rw [if_pos hp]
  simp [List.getD_eq_getElem?_getD, List.getElem?_eq_getElem hi]

/-- Every stored marking is reachable, and walking the history back gives a path to it. -/
theorem Inv.path {s : St Q} {M C} (h : Inv E L s M C) (hist : Nat → Nat × Nat) :
    ∀ i, i < M.length → (∀ j, 0 < j → j ≤ i → hist j = s.hist j) →
      ∃ ts, GPath E ts (mkM E M i) ∧ ∀ fuel acc, i ≤ fuel → traceWalk hist fuel i acc = some (ts ++ acc) := by
  intro i
  induction i using Nat.strongRecOn with
  | ind i ih =>
    intro hi hj
    cases i with
    | zero =>
      refine ⟨[], ?_, ?_⟩
      · rw [h.mk0]
        have := h.inb 0 hi
        rw [h.mk0] at this
        exact .nil this
      · intro fuel acc _
        cases fuel <;> rfl
    | succ i =>
      obtain ⟨h1, h2⟩ := h.hist (i + 1) (by omega) hi
      obtain ⟨ts, h3, h4⟩ := ih (s.hist (i + 1)).1 h1 (by omega) (fun j hj0 hj1 => hj j hj0 (by omega))
      refine ⟨ts ++ [(s.hist (i + 1)).2], .snoc h3 h2 (h.inb _ hi), ?_⟩
      intro fuel acc hf
      cases fuel with
      | zero => omega
      | succ fuel =>
        simp only [traceWalk]
        rw [hj (i + 1) (by omega) (Nat.le_refl _), h4 fuel _ (by omega)]
        simp

theorem Inv.reach {s : St Q} {M C} (h : Inv E L s M C) {l : List Nat} (hl : l ∈ M) :
    ∃ ts m, GPath E ts m ∧ ml E.places m = l := by
  obtain ⟨i, hi, rfl⟩ := List.getElem_of_mem hl
  obtain ⟨ts, h1, _⟩ := h.path s.hist i hi (fun _ _ _ => rfl)
  exact ⟨ts, _, h1, h.ml_mk hi⟩

/-- At most `n` different markings can be reached. -/
def Fin' (E : Env Q) (n : Nat) : Prop :=
  ∀ M : List (List Nat), M.Nodup → (∀ l ∈ M, ∃ ts m, GPath E ts m ∧ ml E.places m = l) → M.length ≤ n

/-! ### Query checking -/

theorem bumpHeur_lt {s : St Q} (i : Nat) (h : s.heur < E.nq) : (bumpHeur E i s).heur < E.nq := by
  unfold bumpHeur
  split
  · split
    · simp only
      have : ∀ (l : List Nat) (a : Nat), a < E.nq → l.foldl (fun h n => (h + (n + 1)) % E.nq) a < E.nq := by
        intro l
        induction l with
        | nil => intro a ha; exact ha
        | cons b l ih => intro a ha; exact ih _ (Nat.mod_lt _ (by omega))
      exact this _ _ h
    · exact h
  · exact h

theorem bumpHeur_eq (i : Nat) (s : St Q) : ∃ h, bumpHeur E i s = { s with heur := h } := by
  unfold bumpHeur
  split
  · split
    · exact ⟨_, rfl⟩
    · exact ⟨s.heur, rfl⟩
  · exact ⟨s.heur, rfl⟩

theorem Inv.bump {s : St Q} {M C} (h : Inv E L s M C) (i : Nat) : Inv E L (bumpHeur E i s) M C := by
  have hlt := bumpHeur_lt (E := E) i h.heur
  obtain ⟨h', he⟩ := bumpHeur_eq (E := E) i s
  rw [he] at hlt ⊢
  exact { h with heur := hlt }

theorem Inv.note {s : St Q} {M C} (h : Inv E L s M C) (i : Nat) {n : Nat} (hn : n < M.length) :
    Inv E L (note i (mkM E M n) s) M C := by
  refine { h with sat := ?_, open' := ?_, evals := ?_ }
  · intro c hc
    obtain ⟨h1, h2, h3, h4, h5, h6, h7⟩ := h.sat c hc
    exact ⟨h1, h2, h3, h4, h5, List.mem_cons_of_mem _ h6, h7⟩
  · intro q hq hu hr j hj hC
    exact ⟨(h.open' q hq hu hr j hj hC).1, List.mem_cons_of_mem _ (h.open' q hq hu hr j hj hC).2⟩
  · intro x hx
    rcases List.mem_cons.1 hx with rfl | hx
    · exact ⟨n, hn, rfl⟩
    · exact h.evals x hx

theorem Inv.callback {s : St Q} {M C} (h : Inv E L s M C) (H : HandlerOK E) (i : Nat) (hi : i < E.nq)
    (hu : E.useQueries = true) (hr : s.results i = .unknown) (hs : s.satisfying < M.length)
    (hg : E.goal i (mkM E M s.satisfying) = true) (hev : (i, mkM E M s.satisfying) ∈ s.evals) :
    Inv E L (callback E i .satisfied s) M (fun q j => C q j ∨ q = i) := by
  have hun := (h.unans i).1 hr
  refine { h with sat := ?_, open' := ?_, unans := ?_, once := ?_, fresh := ?_ }
  · intro c hc
    simp only [Search.callback, List.mem_append, List.mem_singleton] at hc
    rcases hc with hc | rfl
    · exact h.sat c hc
    · exact ⟨rfl, hi, hu, hs, hg, hev, fun _ _ _ => rfl⟩
  · intro q hq hu' hrq j hj hC
    simp only [Search.callback] at hrq
    split at hrq
    · exact absurd hrq (H i).1
    · rename_i hne
      exact h.open' q hq hu' hrq j hj (hC.resolve_right hne)
  · intro q
    simp only [Search.callback, List.mem_append, List.mem_singleton]
    split
    · rename_i hq
      subst hq
      refine ⟨fun h => absurd h (H q).1, fun ⟨_, h2⟩ => absurd rfl (h2 _ (.inr rfl))⟩
    · rename_i hq
      rw [h.unans q]
      constructor
      · rintro ⟨h1, h2⟩
        refine ⟨h1, fun c hc => ?_⟩
        rcases hc with hc | rfl
        · exact h2 c hc
        · exact fun e => hq e.symm
      · rintro ⟨h1, h2⟩
        exact ⟨h1, fun c hc => h2 c (.inl hc)⟩
  · simp only [Search.callback, List.map_append, List.map_cons, List.map_nil]
    rw [List.nodup_append]
    refine ⟨h.once, by simp, ?_⟩
    intro a ha b hb
    simp only [List.mem_singleton] at hb
    subst hb
    simp only [List.mem_map] at ha
    obtain ⟨c, hc, rfl⟩ := ha
    exact hun.2 c hc
  · intro c hc
    simp only [Search.callback, List.mem_append, List.mem_singleton] at hc
    rcases hc with hc | rfl
    · exact h.fresh c hc
    · exact hun.1

/-- `s'` differs from `s` only in results, heuristic and calls. -/
def Frame (s s' : St Q) : Prop :=
  s'.set = s.set ∧ s'.queue = s.queue ∧ s'.state = s.state ∧ s'.parent = s.parent ∧
    s'.expanded = s.expanded ∧ s'.satisfying = s.satisfying ∧ s'.hist = s.hist

theorem Frame.trans {a b c : St Q} (h : Frame a b) (h' : Frame b c) : Frame a c := by
  obtain ⟨h1, h2, h3, h4, h5, h6, h7⟩ := h
  obtain ⟨g1, g2, g3, g4, g5, g6, g7⟩ := h'
  exact ⟨g1.trans h1, g2.trans h2, g3.trans h3, g4.trans h4, g5.trans h5, g6.trans h6, g7.trans h7⟩

theorem Frame.bump (i : Nat) (s : St Q) : Frame s (bumpHeur E i s) := by
  obtain ⟨h', he⟩ := bumpHeur_eq (E := E) i s
  rw [he]
  exact ⟨rfl, rfl, rfl, rfl, rfl, rfl, rfl⟩

theorem checkLoop_frame (m : Nat → Nat) (is : List Nat) (s : St Q) (a : Bool) :
    Frame s (checkLoop E m is s a).1 := by
  induction is generalizing s a with
  | nil => exact ⟨rfl, rfl, rfl, rfl, rfl, rfl, rfl⟩
  | cons i is ih =>
    simp only [checkLoop]
    have hcb : Frame s (callback E i .satisfied (note i m s)) := ⟨rfl, rfl, rfl, rfl, rfl, rfl, rfl⟩
    have hnb : Frame s (note i m s) := ⟨rfl, rfl, rfl, rfl, rfl, rfl, rfl⟩
    split
    · split
      · split
        · exact hcb
        · exact (hcb.trans (Frame.bump i _)).trans (ih _ _)
      · exact (hnb.trans (Frame.bump i _)).trans (ih _ _)
    · exact (Frame.bump i s).trans (ih _ _)

theorem checkLoop_inv (H : HandlerOK E) {M : List (List Nat)} {n : Nat} (hn : n < M.length)
    (hu : E.useQueries = true) (is : List Nat) (his : ∀ i ∈ is, i < E.nq) (s : St Q) (a : Bool)
    (h : Inv E L s M (fun q i => i < n ∨ (i = n ∧ q ∉ is))) (hs : s.satisfying = n) :
    Inv E L (checkLoop E (mkM E M n) is s a).1 M (fun _ i => i < n) ∧
    ((checkLoop E (mkM E M n) is s a).2 = false ∨ (∀ i, (E.handler i .satisfied).2 = false) →
      Inv E L (checkLoop E (mkM E M n) is s a).1 M (fun _ i => i ≤ n)) := by
  induction is generalizing s a with
  | nil =>
    refine ⟨h.weaken fun q i hi => .inl hi, fun _ => h.weaken fun q i hi => ?_⟩
    rcases Nat.lt_or_eq_of_le hi with hi | hi
    · exact .inl hi
    · exact .inr ⟨hi, by simp⟩
  | cons i is ih =>
    have his' : ∀ j ∈ is, j < E.nq := fun j hj => his j (List.mem_cons_of_mem _ hj)
    have hi := his i (List.mem_cons_self ..)
    simp only [checkLoop]
    split
    · rename_i hr
      split
      · rename_i hg
        have hc := (h.note i hn).callback H i hi hu hr (by exact hs ▸ hn)
          (by rw [show (Search.note i (mkM E M n) s).satisfying = n from hs]; exact hg)
          (by rw [show (Search.note i (mkM E M n) s).satisfying = n from hs]; exact List.mem_cons_self ..)
        split
        · rename_i hst
          refine ⟨hc.weaken fun q j hj => .inl (.inl hj), fun hor => ?_⟩
          rcases hor with h' | h'
          · simp at h'
          · rw [h' i] at hst; simp at hst
        · refine ih his' _ _ ((hc.bump i).weaken fun q j hj => ?_) ?_
          · rcases hj with hj | ⟨hj, hq⟩
            · exact .inl (.inl hj)
            · by_cases hqi : q = i
              · exact .inr hqi
              · exact .inl (.inr ⟨hj, by simp [hqi, hq]⟩)
          · rw [(Frame.bump (E := E) i _).2.2.2.2.2.1]; exact hs
      · rename_i hg
        refine ih his' _ _ (Inv.bump ?_ i) ?_
        · refine { h.note i hn with open' := ?_ }
          intro q hq hu' hrq j hj hC
          by_cases hqi : q = i
          · subst hqi
            rcases hC with hC | ⟨rfl, _⟩
            · exact (h.note q hn).open' q hq hu' hrq j hj (.inl hC)
            · exact ⟨by simpa using hg, List.mem_cons_self ..⟩
          · refine (h.note i hn).open' q hq hu' hrq j hj ?_
            rcases hC with hC | ⟨hC, hnq⟩
            · exact .inl hC
            · exact .inr ⟨hC, by simp [hqi, hnq]⟩
        · rw [(Frame.bump (E := E) i _).2.2.2.2.2.1]; exact hs
    · rename_i hr
      refine ih his' _ _ (Inv.bump ?_ i) ?_
      · refine { h with open' := ?_ }
        intro q hq hu' hrq j hj hC
        by_cases hqi : q = i
        · subst hqi; exact absurd hrq hr
        · refine h.open' q hq hu' hrq j hj ?_
          rcases hC with hC | ⟨hC, hnq⟩
          · exact .inl hC
          · exact .inr ⟨hC, by simp [hqi, hnq]⟩
      · rw [(Frame.bump (E := E) i _).2.2.2.2.2.1]; exact hs

theorem checkQueries_frame (m : Nat → Nat) (s : St Q) : Frame s (checkQueries E m s).1 := by
  unfold checkQueries
  split
  · exact checkLoop_frame ..
  · exact ⟨rfl, rfl, rfl, rfl, rfl, rfl, rfl⟩

theorem checkQueries_inv (H : HandlerOK E) {M : List (List Nat)} {n : Nat} (hn : M.length = n + 1)
    (s : St Q) (h : Inv E L s M (fun _ i => i < n)) (hs : s.satisfying = n) :
    Inv E L (checkQueries E (mkM E M n) s).1 M (fun _ i => i < n) ∧
    ((checkQueries E (mkM E M n) s).2 = false → Inv E L (checkQueries E (mkM E M n) s).1 M (fun _ _ => True)) := by
  unfold checkQueries
  by_cases hu : E.useQueries = true
  · rw [if_pos hu]
    obtain ⟨h1, h2⟩ := checkLoop_inv (L := L) (M := M) H (n := n) (by omega) hu (List.range E.nq)
      (fun i hi => List.mem_range.1 hi) s true (by
        refine { h with open' := ?_ }
        intro q hq hu' hr i hi hC
        rcases hC with hC | ⟨_, hC⟩
        · exact h.open' q hq hu' hr i hi hC
        · exact absurd (List.mem_range.2 hq) hC) hs
    refine ⟨h1, fun hf => ?_⟩
    have h3 := h2 (.inl hf)
    refine { h3 with open' := ?_ }
    intro q hq hu' hr i hi _
    exact h3.open' q hq hu' hr i hi (by omega)
  · rw [if_neg hu]
    refine ⟨h, fun _ => { h with open' := ?_ }⟩
    intro q hq hu'
    exact absurd hu' hu

/-- If no handler asks to stop, `checkQueries` says "all done" only when every query is answered. -/
theorem checkLoop_done (H : HandlerOK E) (hstop : ∀ i, (E.handler i .satisfied).2 = false)
    (m : Nat → Nat) (is : List Nat) (s : St Q) (a : Bool) :
    ((checkLoop E m is s a).2 = true → a = true ∧ ∀ i ∈ is, (checkLoop E m is s a).1.results i ≠ .unknown) ∧
    (∀ i, s.results i ≠ .unknown → (checkLoop E m is s a).1.results i ≠ .unknown) := by
  induction is generalizing s a with
  | nil => simp [checkLoop]
  | cons i is ih =>
    have hb : ∀ s : St Q, (bumpHeur E i s).results = s.results := by
      intro s
      obtain ⟨h', he⟩ := bumpHeur_eq (E := E) i s
      rw [he]
    simp only [checkLoop, hstop]
    split
    · split
      · simp only [Bool.false_eq_true, if_false]
        have hcr : ∀ j, (s.results j ≠ .unknown ∨ j = i) → (bumpHeur E i (callback E i .satisfied (note i m s))).results j ≠ .unknown := by
          intro j hj
          rw [hb]
          simp only [callback, note]
          split
          · exact (H i).1
          · rename_i hne; exact hj.resolve_right hne
        obtain ⟨h1, h2⟩ := ih (bumpHeur E i (callback E i .satisfied (note i m s))) a
        refine ⟨fun ht => ⟨(h1 ht).1, ?_⟩, fun j hj => h2 j (hcr j (.inl hj))⟩
        intro j hj
        rcases List.mem_cons.1 hj with rfl | hj
        · exact h2 j (hcr j (.inr rfl))
        · exact (h1 ht).2 j hj
      · obtain ⟨h1, h2⟩ := ih (bumpHeur E i (note i m s)) false
        refine ⟨fun ht => by simpa using (h1 ht).1, fun j hj => h2 j (by rw [hb]; exact hj)⟩
    · rename_i hr
      obtain ⟨h1, h2⟩ := ih (bumpHeur E i s) a
      refine ⟨fun ht => ⟨(h1 ht).1, ?_⟩, fun j hj => h2 j (by rw [hb]; exact hj)⟩
      intro j hj
      rcases List.mem_cons.1 hj with rfl | hj
      · exact h2 j (by rw [hb]; exact hr)
      · exact (h1 ht).2 j hj

/-! ### The successor loop -/

/-- `push` and `pop` never run into undefined behaviour. -/
def Total (I : QImpl Q) : Prop :=
  (∀ q id d t, ∃ q', I.push q id d t = some q') ∧ ∀ q r, ∃ x, I.pop q r = some x

theorem newState_inv (H : HandlerOK E) {s : St Q} {S : SSet} {M : List (List Nat)} {x t : Nat} {m : Nat → Nat}
    (h : Inv E L s M (fun _ _ => True)) (hx : x < M.length) (hp : s.parent = x)
    (hmem : (t, m) ∈ (E.gen (mkM E M x)).1) (hinb : InB E.kbound E.places m)
    (htail : ∀ p, E.places ≤ p → m p = E.m0 p) (ht : t < W32)
    (hW : M.length < W32) (hrep : Rep S (M ++ [ml E.places m]))
    (hS1 : S.places = E.places) (hS2 : S.kbound = E.kbound) :
    match newState E M.length t m { s with set := S } with
    | none => ¬ Total E.I
    | some (s', b) => Inv E L s' (M ++ [ml E.places m]) (fun _ i => i < M.length) ∧
        (b = false → Inv E L s' (M ++ [ml E.places m]) (fun _ _ => True)) ∧
        s'.parent = x ∧ s'.expanded = s.expanded ∧ L.pend s'.queue = M.length ::ₘ L.pend s.queue ∧
        s'.set = S := by
  unfold newState
  rw [if_pos h.heur]
  simp only
  cases hq : E.I.push s.queue M.length (E.dist s.heur m) (some t) with
  | none =>
    intro hT
    obtain ⟨q', hq'⟩ := hT.1 s.queue M.length (E.dist s.heur m) (some t)
    rw [hq'] at hq; simp at hq
  | some q =>
    simp only
    obtain ⟨hq1, hq2⟩ := L.push _ _ _ _ _ h.qinv hW (by simp) hq
    have hlen : (M ++ [ml E.places m]).length = M.length + 1 := by simp
    have hmk : mkM E (M ++ [ml E.places m]) M.length = m := mk_last E M m htail
    have hpre : ∀ i, i < M.length → mkM E (M ++ [ml E.places m]) i = mkM E M i :=
      fun i hi => mk_prefix E (List.prefix_append _ _) hi
    have hInv : Inv E L
        { s with set := S, queue := q,
                 hist := fun j => if j = M.length then (u32 s.parent, u32 t) else s.hist j,
                 satisfying := M.length, explored := s.explored + 1 }
        (M ++ [ml E.places m]) (fun _ i => i < M.length) := by
      refine { h with
        rep := hrep, places := hS1, kbound := hS2, qinv := hq1, pend := ?_, first := ?_, hist := ?_,
        inb := ?_, sat := ?_, open' := ?_, evals := ?_ }
      · intro y hy
        rw [hq2] at hy
        rw [hlen]
        rcases Multiset.mem_cons.1 hy with rfl | hy
        · omega
        · have := h.pend y hy; omega
      · have := h.first
        cases M with
        | nil => simp at this
        | cons a M => simpa using this
      · intro i hi0 hi
        rw [hlen] at hi
        simp only
        by_cases hiM : i = M.length
        · subst hiM
          rw [if_pos rfl]
          simp only
          rw [u32_of_lt (by rw [hp]; omega), u32_of_lt ht, hp, hmk, hpre x hx]
          exact ⟨hx, hmem⟩
        · rw [if_neg hiM]
          have hiM' : i < M.length := by omega
          obtain ⟨h1, h2⟩ := h.hist i hi0 hiM'
          rw [hpre i hiM', hpre _ (by omega)]
          exact ⟨h1, h2⟩
      · intro i hi
        rw [hlen] at hi
        by_cases hiM : i = M.length
        · subst hiM; rw [hmk]; exact hinb
        · rw [hpre i (by omega)]; exact h.inb i (by omega)
      · intro c hc
        obtain ⟨h1, h2, h3, h4, h5, hev, h6⟩ := h.sat c hc
        refine ⟨h1, h2, h3, by rw [hlen]; omega, by rw [hpre _ h4]; exact h5, by rw [hpre _ h4]; exact hev, ?_⟩
        intro j hj0 hj
        rw [h6 j hj0 hj]
        simp only
        rw [if_neg (by omega)]
      · intro q' hq' hu hr i hi hC
        rw [hpre i hC]
        exact h.open' q' hq' hu hr i hC trivial
      · intro x hx
        obtain ⟨i, hi, he⟩ := h.evals x hx
        exact ⟨i, by rw [hlen]; omega, by rw [hpre i hi]; exact he⟩
    have hck := checkQueries_inv H hlen _ hInv rfl
    have hfr := checkQueries_frame (E := E) (mkM E (M ++ [ml E.places m]) M.length)
      { s with set := S, queue := q,
               hist := fun j => if j = M.length then (u32 s.parent, u32 t) else s.hist j,
               satisfying := M.length, explored := s.explored + 1 }
    rw [hmk] at hck hfr
    generalize checkQueries E m _ = r at hck hfr
    obtain ⟨s', b⟩ := r
    obtain ⟨f1, f2, f3, f4, f5, f6, f7⟩ := hfr
    exact ⟨hck.1, hck.2, f4.trans hp, f5, by rw [f2]; exact hq2, f1⟩

theorem newState_set {s s' : St Q} {id t : Nat} {m : Nat → Nat} {b : Bool}
    (h : newState E id t m s = some (s', b)) : s'.set = s.set := by
  unfold newState at h
  split at h
  · split at h
    · simp at h
    · rename_i q hq
      simp only [Option.some.injEq] at h
      have := checkQueries_frame (E := E) m
        { s with queue := q, hist := fun j => if j = id then (u32 s.parent, u32 t) else s.hist j,
                 satisfying := id, explored := s.explored + 1 }
      rw [h] at this
      exact this.1
  · simp at h

/-- The final state of a loop. -/
def Loop.st : Loop Q → Option (St Q)
  | .cont s => some s
  | .ret s => some s
  | .thrown s => some s
  | .ub => none

theorem succLoop_mono (rest : List (Nat × (Nat → Nat))) (s s' : St Q)
    (h : (succLoop E rest s).st = some s') : s.set.trie.length ≤ s'.set.trie.length := by
  induction rest generalizing s with
  | nil =>
    simp only [succLoop, Loop.st, Option.some.injEq] at h
    subst h; exact Nat.le_refl _
  | cons y rest ih =>
    obtain ⟨t, m⟩ := y
    simp only [succLoop] at h
    have hmono := add_mono s.set m
    split at h
    · simp [Loop.st] at h
    · rename_i S hadd
      rw [hadd] at hmono
      simp only [Loop.st, Option.some.injEq] at h
      subst h; exact hmono
    · rename_i S _ hadd
      rw [hadd] at hmono
      exact Nat.le_trans hmono (ih _ h)
    · simp [Loop.st] at h
    · rename_i S id hadd
      rw [hadd] at hmono
      split at h
      · simp [Loop.st] at h
      · rename_i s1 hn
        simp only [Loop.st, Option.some.injEq] at h
        subst h
        rw [newState_set hn]
        exact hmono
      · rename_i s1 hn
        have := ih _ h
        rw [newState_set hn] at this
        exact Nat.le_trans hmono this

/-- Either at most `2^32` markings are reachable, or the search stored at most `2^32`. -/
def Small (E : Env Q) (s : St Q) : Prop := Fin' E W32 ∨ s.set.trie.length ≤ W32

theorem small_next {s : St Q} {M : List (List Nat)} {x t : Nat} {m : Nat → Nat}
    (h : Inv E L s M (fun _ _ => True)) (hx : x < M.length)
    (hmem : (t, m) ∈ (E.gen (mkM E M x)).1) (hinb : InB E.kbound E.places m)
    (hnew : ml E.places m ∉ M) (hF : Fin' E W32) : M.length < W32 := by
  have : (M ++ [ml E.places m]).length ≤ W32 := by
    apply hF
    · rw [List.nodup_append]
      refine ⟨h.rep.nodup, by simp, ?_⟩
      intro a ha b hb
      simp only [List.mem_singleton] at hb
      subst hb
      rintro rfl
      exact hnew ha
    · intro l hl
      rcases List.mem_append.1 hl with hl | hl
      · exact h.reach hl
      · simp only [List.mem_singleton] at hl
        subst hl
        obtain ⟨ts, h1, _⟩ := h.path s.hist x hx (fun _ _ _ => rfl)
        exact ⟨_, m, .snoc h1 hmem hinb, rfl⟩
  simp at this
  omega

theorem Inv.tail_mk (M : List (List Nat)) (i p : Nat) (hp : E.places ≤ p) : mkM E M i p = E.m0 p := by
  unfold mkM over
  rw [if_neg (by omega)]

theorem Inv.setSet {s : St Q} {M C} (h : Inv E L s M C) {S : SSet} (hr : Rep S M)
    (h1 : S.places = s.set.places) (h2 : S.kbound = s.set.kbound) : Inv E L { s with set := S } M C :=
  { h with rep := hr, places := h1.trans h.places, kbound := h2.trans h.kbound }

theorem succLoop_inv (hG : GenOK E) (H : HandlerOK E) (hpl : E.places < W32) {x k : Nat}
    (rest : List (Nat × (Nat → Nat))) (s : St Q) (M : List (List Nat))
    (h : Inv E L s M (fun _ _ => True)) (hx : x < M.length) (hp : s.parent = x)
    (hrest : ∀ y ∈ rest, y ∈ (E.gen (mkM E M x)).1) (hcl : Closed E L s M (some x))
    (hk : (L.pend s.queue).card + k = M.length) :
    match succLoop E rest s with
    | .ub => Fin' E W32 → ¬ Total E.I
    | .cont s' => Small E s' → ∃ M', M <+: M' ∧ Inv E L s' M' (fun _ _ => True) ∧
        Closed E L s' M' (some x) ∧ (L.pend s'.queue).card + k = M'.length ∧
        s'.expanded = s.expanded ∧
        ∀ y ∈ rest, InB E.kbound E.places y.2 → ml E.places y.2 ∈ M'
    | .ret s' => Small E s' → ∃ M', M <+: M' ∧ Inv E L s' M' (fun _ _ => False)
    | .thrown s' => Small E s' → ∃ M', M <+: M' ∧ Inv E L s' M' (fun _ _ => False) := by
  induction rest generalizing s M with
  | nil => exact fun _ => ⟨M, List.prefix_refl _, h, hcl, hk, rfl, by simp⟩
  | cons y rest ih =>
    obtain ⟨t, m⟩ := y
    have hmem := hrest _ (List.mem_cons_self ..)
    have hrest' : ∀ y ∈ rest, y ∈ (E.gen (mkM E M x)).1 := fun y hy => hrest y (List.mem_cons_of_mem _ hy)
    obtain ⟨ht, hmv, hmt⟩ := hG _ (h.val hx) _ hmem
    simp only at ht hmv hmt
    have hmt' : ∀ p, E.places ≤ p → m p = E.m0 p := fun p hp => by
      rw [hmt p hp, Inv.tail_mk M x p hp]
    obtain ⟨e1, e2, hadd⟩ := add_cases h.rep (by rw [h.places]; exact hpl) (m := m) (by rw [h.places]; exact hmv)
    have hmono := add_mono s.set m
    simp only [succLoop]
    generalize StateSet.add s.set m = r at *
    obtain ⟨S, res⟩ := r
    simp only at e1 e2 hadd hmono ⊢
    rw [h.places, h.kbound] at hadd
    rcases hadd with ⟨rfl, hr⟩ | ⟨hnb, rfl, hr⟩ | ⟨hb, hin, ⟨i, rfl⟩, hr⟩ | ⟨hb, hnin, rfl, hr⟩
    · simp only
      exact fun _ => ⟨M, List.prefix_refl _, (h.setSet hr e1 e2).weaken (by simp)⟩
    · simp only
      have := ih { s with set := S } M (h.setSet hr e1 e2) hx hp hrest' hcl hk
      revert this
      cases succLoop E rest { s with set := S } with
      | ub => exact id
      | cont s' =>
        intro this hs
        obtain ⟨M', h1, h2, h3, h4, h5, h6⟩ := this hs
        refine ⟨M', h1, h2, h3, h4, h5, fun y hy hyb => ?_⟩
        rcases List.mem_cons.1 hy with rfl | hy
        · exact absurd hyb hnb
        · exact h6 y hy hyb
      | ret s' => exact id
      | thrown s' => exact id
    · simp only
      have := ih { s with set := S } M (h.setSet hr e1 e2) hx hp hrest' hcl hk
      revert this
      cases succLoop E rest { s with set := S } with
      | ub => exact id
      | cont s' =>
        intro this hs
        obtain ⟨M', h1, h2, h3, h4, h5, h6⟩ := this hs
        refine ⟨M', h1, h2, h3, h4, h5, fun y hy hyb => ?_⟩
        rcases List.mem_cons.1 hy with rfl | hy
        · exact h1.subset hin
        · exact h6 y hy hyb
      | ret s' => exact id
      | thrown s' => exact id
    · simp only
      have hlenS : S.trie.length = M.length + 1 := by rw [hr.len]; simp
      by_cases hW : M.length < W32
      · have hnew := newState_inv H h hx hp hmem hb hmt' ht hW hr (e1.trans h.places) (e2.trans h.kbound)
        revert hnew
        cases hns : newState E M.length t m { s with set := S } with
        | none => exact fun hT _ => hT
        | some r =>
          obtain ⟨s1, b⟩ := r
          rintro ⟨i1, i2, i3, i4, i5, i6⟩
          have hpre : M <+: M ++ [ml E.places m] := List.prefix_append _ _
          cases b with
          | true => exact fun _ => ⟨_, hpre, i1.weaken (by simp)⟩
          | false =>
            simp only
            have hcl1 : Closed E L s1 (M ++ [ml E.places m]) (some x) := by
              intro i hi hip hix
              rw [i5, Multiset.mem_cons, not_or] at hip
              have hi' : i < M.length := by
                have := hip.1
                simp at hi; omega
              obtain ⟨c1, c2⟩ := hcl i hi' hip.2 hix
              rw [mk_prefix E hpre hi']
              exact ⟨c1, fun y hy hyb => hpre.subset (c2 y hy hyb)⟩
            have := ih s1 (M ++ [ml E.places m]) (i2 rfl) (by simp; omega) i3
              (by rw [mk_prefix E hpre hx]; exact hrest') hcl1
              (by rw [i5]; simp; omega)
            revert this
            cases succLoop E rest s1 with
            | ub => exact id
            | cont s' =>
              intro this hs
              obtain ⟨M', h1, h2, h3, h4, h5, h6⟩ := this hs
              refine ⟨M', hpre.trans h1, h2, h3, h4, h5.trans i4, fun y hy hyb => ?_⟩
              rcases List.mem_cons.1 hy with rfl | hy
              · exact h1.subset (by simp)
              · exact h6 y hy hyb
            | ret s' =>
              intro this hs
              obtain ⟨M', h1, h2⟩ := this hs
              exact ⟨M', hpre.trans h1, h2⟩
            | thrown s' =>
              intro this hs
              obtain ⟨M', h1, h2⟩ := this hs
              exact ⟨M', hpre.trans h1, h2⟩
      · have hnF : ¬ Fin' E W32 := fun hF => hW (small_next h hx hmem hb hnin hF)
        have hbig : ∀ s' : St Q, S.trie.length ≤ s'.set.trie.length → ¬ Small E s' := by
          rintro s' hle (hF | hle')
          · exact hnF hF
          · omega
        cases hns : newState E M.length t m { s with set := S } with
        | none => exact fun hF => absurd hF hnF
        | some r =>
          obtain ⟨s1, b⟩ := r
          have hs1 := newState_set hns
          simp only at hs1
          cases b with
          | true => exact fun hs => absurd hs (hbig s1 (by rw [hs1]))
          | false =>
            simp only
            have hm := succLoop_mono (E := E) rest s1
            rw [hs1] at hm
            revert hm
            cases succLoop E rest s1 with
            | ub => exact fun _ hF => absurd hF hnF
            | cont s' => exact fun hm hs => absurd hs (hbig s' (hm s' rfl))
            | ret s' => exact fun hm hs => absurd hs (hbig s' (hm s' rfl))
            | thrown s' => exact fun hm hs => absurd hs (hbig s' (hm s' rfl))

end Search
end Verif
