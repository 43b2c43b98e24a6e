import Verif.Queue.Lemmas

/-!
# C08: the search queues lose and duplicate nothing

A history is a list of pushes and pops, each pop with arbitrary random choices.  `Explains` is
the specification: a bag of identifiers from which a pop takes an arbitrary member, and says `EMPTY`
exactly when the bag is empty.
-/

namespace Verif
open Queue

/-- One call on a queue; `t` is the fired transition for the four-argument `push`. -/
inductive QOp
  | push (id dist : Nat) (t : Option Nat)
  | pop (r : Rand)

/-- Replay a history; `none` is undefined behaviour.  The second component lists what the pops
returned (`none` is `EMPTY`). -/
def runQ {Q : Type} (I : QImpl Q) (q : Q) : List QOp → Option (Q × List (Option Nat))
  | [] => some (q, [])
  | .push id d t :: ops => match I.push q id d t with
    | none => none
    | some q' => runQ I q' ops
  | .pop r :: ops => match I.pop q r with
    | none => none
    | some (o, q') => match runQ I q' ops with
      | none => none
      | some (q'', outs) => some (q'', o :: outs)

/-- Specification: starting from the bag `M`, the history `ops` may return `outs` and leave `M'`. -/
inductive Explains : Multiset Nat → List QOp → List (Option Nat) → Multiset Nat → Prop
  | nil (M) : Explains M [] [] M
  | push {M id d t ops outs M'} : Explains (id ::ₘ M) ops outs M' →
      Explains M (.push id d t :: ops) outs M'
  | popEmpty {r ops outs M'} : Explains 0 ops outs M' →
      Explains 0 (.pop r :: ops) (none :: outs) M'
  | popSome {M x r ops outs M'} : Explains M ops outs M' →
      Explains (x ::ₘ M) (.pop r :: ops) (some x :: outs) M'

/-- Identifiers are 32 bit. -/
def QOp.Ok : QOp → Prop
  | .push id _ _ => id < W32
  | .pop _ => True

theorem lawful_explains {Q : Type} {I : QImpl Q} {base : Prop} (L : Lawful I base) (hbase : base)
    (ops : List QOp) (hops : ∀ o ∈ ops, o.Ok) (q q' : Q) (outs : List (Option Nat))
    (hi : L.Inv q) (h : runQ I q ops = some (q', outs)) :
    Explains (L.pend q) ops outs (L.pend q') ∧ (I.isEmpty q' = true ↔ L.pend q' = 0) := by
  induction ops generalizing q outs with
  | nil =>
    simp only [runQ, Option.some.injEq, Prod.mk.injEq] at h
    obtain ⟨rfl, rfl⟩ := h
    exact ⟨.nil _, L.empty _ hi⟩
  | cons o ops ih =>
    have hops' : ∀ o ∈ ops, o.Ok := fun o ho => hops o (List.mem_cons_of_mem _ ho)
    cases o with
    | push id d t =>
      simp only [runQ] at h
      split at h
      · simp at h
      · rename_i q1 hq1
        obtain ⟨h1, h2⟩ := L.push q id d t q1 hi (hops _ (List.mem_cons_self ..))
          (fun _ => .inl hbase) hq1
        obtain ⟨h3, h4⟩ := ih hops' q1 outs h1 h
        rw [h2] at h3
        exact ⟨.push h3, h4⟩
    | pop r =>
      simp only [runQ] at h
      split at h
      · simp at h
      · rename_i o q1 hq1
        split at h
        · simp at h
        · rename_i q2 outs2 hq2
          simp only [Option.some.injEq, Prod.mk.injEq] at h
          obtain ⟨rfl, rfl⟩ := h
          cases o with
          | none =>
            obtain ⟨h1, h2, h3⟩ := L.pop_none q r q1 hi hq1
            obtain ⟨h4, h5⟩ := ih hops' q1 outs2 h1 hq2
            rw [h3] at h4; rw [h2]
            exact ⟨.popEmpty h4, h5⟩
          | some x =>
            obtain ⟨h1, h2⟩ := L.pop_some q r x q1 hi hq1
            obtain ⟨h4, h5⟩ := ih hops' q1 outs2 h1 hq2
            rw [h2]
            exact ⟨.popSome h4, h5⟩

/-- What C08 says of one implementation: every history of calls runs without undefined behaviour
and is explained by a bag that starts empty; afterwards `empty()` tells whether the bag is. -/
def IsBag {Q : Type} (I : QImpl Q) : Prop :=
  ∀ ops : List QOp, (∀ o ∈ ops, o.Ok) → ∃ q' outs M, runQ I I.init ops = some (q', outs) ∧
    Explains 0 ops outs M ∧ (I.isEmpty q' = true ↔ M = 0)

theorem isBag_of {Q : Type} {I : QImpl Q} (L : Lawful I True)
    (hpush : ∀ q id d t, ∃ q', I.push q id d t = some q') (hpop : ∀ q r, ∃ x, I.pop q r = some x) :
    IsBag I := by
  intro ops hops
  have tot : ∀ (ops : List QOp) q, ∃ x, runQ I q ops = some x := by
    intro ops
    induction ops with
    | nil => intro q; exact ⟨_, rfl⟩
    | cons o ops ih =>
      intro q
      cases o with
      | push id d t =>
        obtain ⟨q1, h1⟩ := hpush q id d t
        obtain ⟨x, hx⟩ := ih q1
        exact ⟨x, by simp only [runQ, h1, hx]⟩
      | pop r =>
        obtain ⟨⟨o, q1⟩, h1⟩ := hpop q r
        obtain ⟨⟨q2, outs⟩, hx⟩ := ih q1
        exact ⟨(q2, o :: outs), by simp only [runQ, h1, hx]⟩
  obtain ⟨⟨q', outs⟩, h⟩ := tot ops I.init
  obtain ⟨h1, h2⟩ := lawful_explains L trivial ops hops I.init q' outs L.init_inv h
  rw [L.init_pend] at h1
  exact ⟨q', outs, L.pend q', h, h1, h2⟩

/-- **C08**, breadth first. -/
theorem C08_bfs_is_bag : IsBag bfs :=
  isBag_of bfs_lawful (fun _ _ _ _ => ⟨_, rfl⟩) (fun _ _ => ⟨_, rfl⟩)

/-- **C08**, depth first. -/
theorem C08_dfs_is_bag : IsBag dfs :=
  isBag_of dfs_lawful (fun _ _ _ _ => ⟨_, rfl⟩) (fun q _ => by cases q <;> exact ⟨_, rfl⟩)

/-- **C08**, random depth first. -/
theorem C08_rdfs_is_bag : IsBag rdfs :=
  isBag_of rdfs_lawful (fun _ _ _ _ => ⟨_, rfl⟩) (fun _ _ => ⟨_, rfl⟩)

/-- **C08**, heuristic (best first). -/
theorem C08_heur_is_bag : IsBag heur :=
  isBag_of heur_lawful (fun _ _ _ _ => ⟨_, rfl⟩) (fun q _ => by
    simp only [heur]; split <;> exact ⟨_, rfl⟩)

/-- **C08**, random potency first, on a net with at least one transition: every history that does
not run into undefined behaviour is explained by a bag. -/
theorem C08_potency_is_bag (nT c0 : Nat) (hT : 0 < nT) (ps : List Nat) (ops : List QOp)
    (hops : ∀ o ∈ ops, o.Ok) (q' : Pot) (outs : List (Option Nat))
    (h : runQ (pot nT c0 ps) (pot nT c0 ps).init ops = some (q', outs)) :
    ∃ M, Explains 0 ops outs M ∧ ((pot nT c0 ps).isEmpty q' = true ↔ M = 0) := by
  obtain ⟨h1, h2⟩ := lawful_explains (pot_lawful nT c0 ps) hT ops hops _ q' outs
    (pot_lawful nT c0 ps).init_inv h
  rw [(pot_lawful nT c0 ps).init_pend] at h1
  exact ⟨_, h1, h2⟩

/-- The use the search makes of the potency queue: distances up to `D`, fired transitions are
transitions of the net. -/
def QOp.PotOk (nT D : Nat) : QOp → Prop
  | .push _ d t => u32 d ≤ D ∧ ∀ t', t = some t' → t' < nT
  | .pop _ => True

theorem potLive_run (nT c0 D : Nat) (ps : List Nat) (ops : List QOp)
    (hops : ∀ o ∈ ops, o.PotOk nT D) (q : Pot) (B : Nat) (hl : PotLive nT D B q)
    (hB : B + ops.length * D < W32) : ∃ x, runQ (pot nT c0 ps) q ops = some x := by
  induction ops generalizing q B with
  | nil => exact ⟨_, rfl⟩
  | cons o ops ih =>
    have hops' : ∀ o ∈ ops, o.PotOk nT D := fun o ho => hops o (List.mem_cons_of_mem _ ho)
    rw [List.length_cons, Nat.succ_mul] at hB
    cases o with
    | push id d t =>
      obtain ⟨hd, ht⟩ := hops _ (List.mem_cons_self ..)
      cases t with
      | none =>
        obtain ⟨q1, h1, h2⟩ := hl.push3 id d hd
        obtain ⟨x, hx⟩ := ih hops' q1 B h2 (by omega)
        exact ⟨x, by simp only [runQ, pot, h1]; exact hx⟩
      | some t =>
        obtain ⟨q1, h1, h2⟩ := hl.push4 id d t hd (ht t rfl) (by omega)
        obtain ⟨x, hx⟩ := ih hops' q1 (B + D) h2 (by omega)
        exact ⟨x, by simp only [runQ, pot, h1]; exact hx⟩
    | pop r =>
      obtain ⟨o, q1, h1, h2⟩ := hl.pop r (by omega)
      obtain ⟨⟨q2, outs⟩, hx⟩ := ih hops' q1 B h2 (by omega)
      refine ⟨(q2, o :: outs), ?_⟩
      have hx' : runQ (pot nT c0 ps) q1 ops = some (q2, outs) := hx
      simp only [runQ, hx', show (pot nT c0 ps).pop q r = some (o, q1) from h1]

/-- **C08**, random potency first: the way the search uses it (first the three-argument push of the
initial marking, then pops and four-argument pushes) there is no undefined behaviour as long as the
potencies cannot exceed 32 bits: initial potency + number of calls × largest distance < 2^32. -/
theorem C08_potency_no_undefined_behaviour (nT c0 D B id d : Nat) (hT : 0 < nT) (ps : List Nat)
    (hps : ps = [] ∨ ps.length = nT) (ops : List QOp)
    (hops : ∀ o ∈ ops, o.PotOk nT D) (hc : c0 ≤ D) (hd : u32 d ≤ D)
    (hB : 100 ≤ B ∧ ∀ p ∈ ps, p * 60 + 1 ≤ B) (hW : B + ops.length * D < W32) :
    ∃ x, runQ (pot nT c0 ps) (pot nT c0 ps).init (.push id d none :: ops) = some x := by
  have h1 : ∃ q1, (pot nT c0 ps).push (pot nT c0 ps).init id d none = some q1 ∧ PotLive nT D B q1 := by
    have hinv := (pot_lawful nT c0 ps).init_inv
    rcases hps with rfl | hps
    · simp only [pot, List.isEmpty_nil, if_true] at *
      have he : Pot.push3 nT { parentDist := c0 } id d = some
          { parentDist := c0, best := 0, size := 1, potencies := List.replicate nT 100,
            queues := (List.replicate nT []).set 0 [(u32 d, id)] } := by
        have hne : nT ≠ 0 := by omega
        simp only [Pot.push3, List.isEmpty_nil, if_true, Pot.initN, if_pos hne,
          List.getElem?_replicate, if_pos hT, List.nil_append]
      refine ⟨_, he, hT, (push3_spec hinv (.inl hT) he).1, by simp, by simp, ?_, hc, ?_⟩
      · intro p hp
        rw [List.eq_of_mem_replicate hp]; omega
      · intro l hl e he
        rcases List.mem_or_eq_of_mem_set hl with hl | rfl
        · rw [List.eq_of_mem_replicate hl] at he; simp at he
        · simp only [List.mem_singleton] at he; rw [he]; exact hd
    · have hne : ps.isEmpty = false := by
        rw [List.isEmpty_eq_false_iff]; intro h; rw [h] at hps; simp at hps; omega
      simp only [pot, hne, Bool.false_eq_true, if_false] at *
      have hl : PotLive nT D B (Pot.initV c0 ps) := by
        refine ⟨hT, hinv, by simp [Pot.initV, hps], ?_, ?_, hc, ?_⟩
        · simp only [Pot.initV, List.length_replicate, hps]; split <;> omega
        · intro p hp
          simp only [Pot.initV, List.mem_map] at hp
          obtain ⟨x, hx, rfl⟩ := hp
          have := hB.2 x hx
          rw [Nat.mod_eq_of_lt (by omega)]; omega
        · intro l hl e he
          simp only [Pot.initV] at hl
          rw [List.eq_of_mem_replicate hl] at he; simp at he
      exact hl.push3 id d hd
  obtain ⟨q1, h2, h3⟩ := h1
  obtain ⟨x, hx⟩ := potLive_run nT c0 D ps ops hops q1 B h3 hW
  exact ⟨x, by simp only [runQ, h2, hx]⟩

/-- The heuristic queue hands out an identifier with a smallest distance among those pending. -/
theorem C08_heur_best_first (q q' : List Weighted) (r : Rand) (x : Nat)
    (h : heur.pop q r = some (some x, q')) :
    ∃ d, (d, x) ∈ q ∧ ∀ e ∈ q, d ≤ e.1 := by
  simp only [heur] at h
  split at h
  · simp at h
  · rename_i a ha
    simp only [Option.some.injEq, Prod.mk.injEq] at h
    obtain ⟨rfl, _⟩ := h
    exact ⟨a.1, pqTop_mem ha, pqTop_min ha⟩

/-- **Finding.**  All queues but the potency queue store 32-bit identifiers: identifier `2^32` comes back as 0. -/
theorem C08_finding_ids_truncated (r : Rand) :
    runQ dfs dfs.init [.push W32 0 none, .pop r] = some ([], [some 0]) := rfl

/-- **Finding.**  A potency that wraps around to 0 makes the potency queue index its vector of heaps
with `SIZE_MAX`: parent distance 4 and potency `2^32 - 3`, child at distance 1. -/
theorem C08_finding_potency_wrap (r : Rand) :
    runQ (pot 1 4 []) { parentDist := 4, potencies := [W32 - 3], queues := [[]] }
      [.push 7 1 (some 0), .pop r] = none := rfl

/-- **Finding.**  On a net without transitions every three-argument push throws away what was
pushed before, and the second pop takes the top of an empty heap. -/
theorem C08_finding_potency_no_transitions (r : Rand) :
    runQ (pot 0 0 []) (pot 0 0 []).init [.push 1 5 none, .push 2 5 none, .pop r, .pop r] = none := rfl

/-! ### Non-vacuity -/

def noRand : Rand := ⟨id, fun _ => List.Perm.refl _, fun _ => true⟩
def revRand : Rand := ⟨List.reverse, fun l => List.reverse_perm l, fun _ => false⟩

def qHist : List QOp := [.push 0 3 none, .pop noRand, .push 1 2 (some 1), .push 2 5 (some 0),
  .push 3 1 (some 1), .pop revRand, .pop noRand, .pop noRand, .pop noRand]

example : ∀ o ∈ qHist, o.Ok ∧ o.PotOk 2 5 := by
  intro o ho
  simp only [qHist, List.mem_cons, List.not_mem_nil, or_false] at ho
  rcases ho with rfl | rfl | rfl | rfl | rfl | rfl | rfl | rfl | rfl <;>
    simp [QOp.Ok, QOp.PotOk, W32, u32]

example : ((runQ bfs bfs.init qHist).map Prod.snd) = some [some 0, some 3, some 2, some 1, none] ∧
    ((runQ dfs dfs.init qHist).map Prod.snd) = some [some 0, some 3, some 2, some 1, none] ∧
    ((runQ rdfs rdfs.init qHist).map Prod.snd) = some [some 0, some 1, some 2, some 3, none] ∧
    ((runQ heur heur.init qHist).map Prod.snd) = some [some 0, some 3, some 1, some 2, none] ∧
    ((runQ (pot 2 0 []) (pot 2 0 []).init qHist).map Prod.snd) =
      some [some 0, some 2, some 3, some 1, none] := by decide +kernel

end Verif
