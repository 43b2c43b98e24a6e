import Verif.StateSet.Lemmas

/-!
# C07: the visited set behaves as a set of markings

`StateSet.add/lookup/decodeId` model the C++ (compressed markings in a trie);
`StateSetSpec` is a list of distinct markings.  Histories of operations are replayed on both.
-/

namespace Verif
open StateSet Encoder

/-- One call on the state set.  Markings are arrays (`Nat → Nat`); `decode id dst` decodes into an
array that held `dst`. -/
inductive SetOp
  | add (m : Nat → Nat)
  | lookup (m : Nat → Nat)
  | decode (id : Nat) (dst : Nat → Nat)

/-- What a call returns. -/
inductive SetOut
  | res (r : Res)
  | arr (a : Option (Nat → Nat))

/-- Replay a history on the model. -/
def runSet (S : SSet) : List SetOp → SSet × List SetOut
  | [] => (S, [])
  | .add m :: ops =>
    let r := StateSet.add S m
    let rest := runSet r.1 ops
    (rest.1, .res r.2 :: rest.2)
  | .lookup m :: ops =>
    let r := StateSet.lookup S m
    let rest := runSet r.1 ops
    (rest.1, .res r.2 :: rest.2)
  | .decode id dst :: ops =>
    let r := decodeId S id dst
    let rest := runSet r.1 ops
    (rest.1, .arr r.2 :: rest.2)

/-- Replay a history on the specification, for markings of `n` places and token bound `k`. -/
def specSet (n k : Nat) (M : StateSetSpec.MSet) : List SetOp → StateSetSpec.MSet × List SetOut
  | [] => (M, [])
  | .add m :: ops =>
    let r := StateSetSpec.add k M ((List.range n).map m)
    let rest := specSet n k r.1 ops
    (rest.1, .res (.ok r.2.1 r.2.2) :: rest.2)
  | .lookup m :: ops =>
    let r := StateSetSpec.lookup M ((List.range n).map m)
    let rest := specSet n k M ops
    (rest.1, .res (.ok r.1 r.2) :: rest.2)
  | .decode id dst :: ops =>
    let rest := specSet n k M ops
    (rest.1, .arr ((M[id]?).map fun l => fun p => if p < n then l.getD p 0 else dst p) :: rest.2)

/-- The markings passed to a call are 32-bit, and the token sum of added ones fits in 32 bits when a
bound is set. -/
def SetOp.Ok (n k : Nat) : SetOp → Prop
  | .add m => (∀ p, p < n → m p < W32) ∧ (k = 0 ∨ ((List.range n).map m).sum < W32)
  | .lookup m => ∀ p, p < n → m p < W32
  | .decode _ _ => True

/-- **C07**.  Any history on which no call throws ("marking could not be encoded into less than
2^16 bytes") returns exactly what a numbered set of markings returns: 'new' iff not added
before and within the bound, the same identifier for the same marking for ever after, and decoding
an identifier gives back its marking; the per-place maxima are those of the stored markings. -/
theorem C07_state_set_is_a_set (n k : Nat) (hn : n < W32) (ops : List SetOp)
    (hops : ∀ o ∈ ops, o.Ok n k)
    (hthrow : SetOut.res .thrown ∉ (runSet { places := n, kbound := k } ops).2) :
    (runSet { places := n, kbound := k } ops).2 = (specSet n k [] ops).2 ∧
    ∀ p, p < n → (runSet { places := n, kbound := k } ops).1.maxPlaceBound p =
      StateSetSpec.maxIn (specSet n k [] ops).1 p := by
  suffices H : ∀ (ops : List SetOp) (S : SSet) (M : StateSetSpec.MSet), S.places = n → S.kbound = k →
      Rep S M → (∀ o ∈ ops, o.Ok n k) → SetOut.res .thrown ∉ (runSet S ops).2 →
      (runSet S ops).2 = (specSet n k M ops).2 ∧ Rep (runSet S ops).1 (specSet n k M ops).1 ∧
        (runSet S ops).1.places = n by
    obtain ⟨h1, h2, h3⟩ := H ops { places := n, kbound := k } [] rfl rfl
      ⟨rfl, fun l hl => by simp at hl, List.nodup_nil, fun _ _ => rfl⟩ hops hthrow
    exact ⟨h1, fun p hp => h2.maxb p (by rw [h3]; exact hp)⟩
  intro ops
  induction ops with
  | nil => intro S M h1 h2 r _ _; exact ⟨rfl, r, h1⟩
  | cons o ops ih =>
    intro S M hp hk r hok hth
    cases o with
    | add m =>
      obtain ⟨ho1, ho2⟩ := hok _ (List.mem_cons_self ..)
      obtain ⟨e1, e2, h⟩ := add_rep r (by rw [hp]; exact hn) (m := m) (by rw [hp]; exact ho1)
        (by rw [hp, hk]; exact ho2)
      simp only [runSet, List.mem_cons, not_or] at hth
      rcases h with ⟨h, _⟩ | ⟨hr, hres⟩
      · exact absurd (by rw [h]) hth.1
      · rw [hp, hk] at hr hres
        obtain ⟨i1, i2, i3⟩ := ih _ _ (by rw [e1, hp]) (by rw [e2, hk]) hr
          (fun o ho => hok o (List.mem_cons_of_mem _ ho)) hth.2
        simp only [runSet, specSet]
        refine ⟨?_, i2, i3⟩
        rw [hres]
        exact congrArg _ i1
    | lookup m =>
      have ho := hok _ (List.mem_cons_self ..)
      obtain ⟨e1, e2, hr, hres⟩ := lookup_rep r (by rw [hp]; exact hn) (m := m) (by rw [hp]; exact ho)
      simp only [runSet, List.mem_cons, not_or] at hth
      rw [hp] at hres
      obtain ⟨i1, i2, i3⟩ := ih _ _ (by rw [e1, hp]) (by rw [e2, hk]) hr
          (fun o ho => hok o (List.mem_cons_of_mem _ ho)) hth.2
      simp only [runSet, specSet]
      refine ⟨?_, i2, i3⟩
      rw [hres]
      exact congrArg _ i1
    | decode id dst =>
      obtain ⟨e1, e2, hr, hres⟩ := decode_rep r (by rw [hp]; exact hn) id dst
      simp only [runSet, List.mem_cons, not_or] at hth
      rw [hp] at hres
      obtain ⟨i1, i2, i3⟩ := ih _ _ (by rw [e1, hp]) (by rw [e2, hk]) hr
          (fun o ho => hok o (List.mem_cons_of_mem _ ho)) hth.2
      simp only [runSet, specSet]
      refine ⟨?_, i2, i3⟩
      rw [hres]
      exact congrArg _ i1

/-- The specification really is a set of markings: 'new' is reported exactly for a marking
not stored so far and within the bound. -/
theorem C07_spec_new_iff (k : Nat) (M : StateSetSpec.MSet) (m : List Nat) :
    (StateSetSpec.add k M m).2.1 = true ↔ (m ∉ M ∧ ¬ (k ≠ 0 ∧ m.sum > k)) := by
  unfold StateSetSpec.add
  split
  · rename_i h; simp [h]
  · rename_i h
    cases hi : M.idxOf? m with
    | none => simpa [List.idxOf?_eq_none_iff.1 hi] using h
    | some i =>
      have : m ∈ M := by
        by_contra hc
        rw [List.idxOf?_eq_none_iff.2 hc] at hi; simp at hi
      simp [this]

/-- The token totals of the markings passed to `add`, in 32 bits. -/
def addedTotals (n : Nat) : List SetOp → List Nat
  | [] => []
  | .add m :: ops => (((List.range n).map m).sum % W32) :: addedTotals n ops
  | _ :: ops => addedTotals n ops

/-- **C07** (statistics): `discovered` counts the calls of `add` and `maxTokens` is the largest token
total (modulo 2^32) of any marking passed to it. -/
theorem C07_statistics (n k : Nat) (ops : List SetOp) :
    (runSet { places := n, kbound := k } ops).1.discovered = (addedTotals n ops).length ∧
    (runSet { places := n, kbound := k } ops).1.maxTokens = (addedTotals n ops).foldl max 0 := by
  suffices H : ∀ (ops : List SetOp) (S : SSet), S.places = n →
      (runSet S ops).1.discovered = S.discovered + (addedTotals n ops).length ∧
      (runSet S ops).1.maxTokens = (addedTotals n ops).foldl max S.maxTokens by
    have := H ops { places := n, kbound := k } rfl
    simpa using this
  have hadd : ∀ (S : SSet) (m : Nat → Nat), (StateSet.add S m).1.places = S.places ∧
      (StateSet.add S m).1.discovered = S.discovered + 1 ∧
      (StateSet.add S m).1.maxTokens = max S.maxTokens (((List.range S.places).map m).sum % W32) := by
    intro S m
    have hs : (markingStats S.places m).sum = ((List.range S.places).map m).sum % W32 :=
      (stats_spec S.places m).2.1
    rw [← hs]
    unfold StateSet.add
    simp only
    split
    · exact ⟨rfl, rfl, rfl⟩
    · split
      · exact ⟨rfl, rfl, rfl⟩
      · split
        · exact ⟨rfl, rfl, rfl⟩
        · split <;> exact ⟨rfl, rfl, rfl⟩
  intro ops
  induction ops with
  | nil => intro S _; exact ⟨rfl, rfl⟩
  | cons o ops ih =>
    intro S hS
    cases o with
    | add m =>
      obtain ⟨h1, h2, h3⟩ := hadd S m
      obtain ⟨i1, i2⟩ := ih (StateSet.add S m).1 (h1.trans hS)
      simp only [runSet, addedTotals, List.length_cons, List.foldl_cons]
      rw [i1, i2, h2, h3, hS]
      exact ⟨by omega, rfl⟩
    | lookup m =>
      have : (StateSet.lookup S m).1.places = S.places ∧ (StateSet.lookup S m).1.discovered = S.discovered ∧
          (StateSet.lookup S m).1.maxTokens = S.maxTokens := by
        unfold StateSet.lookup
        split
        · exact ⟨rfl, rfl, rfl⟩
        · simp only
          split <;> exact ⟨rfl, rfl, rfl⟩
      obtain ⟨i1, i2⟩ := ih (StateSet.lookup S m).1 (this.1.trans hS)
      simp only [runSet, addedTotals]
      rw [i1, i2, this.2.1, this.2.2]
      exact ⟨rfl, rfl⟩
    | decode id dst =>
      have : (decodeId S id dst).1.places = S.places ∧ (decodeId S id dst).1.discovered = S.discovered ∧
          (decodeId S id dst).1.maxTokens = S.maxTokens := by
        unfold decodeId
        split
        · exact ⟨rfl, rfl, rfl⟩
        · simp
      obtain ⟨i1, i2⟩ := ih (decodeId S id dst).1 (this.1.trans hS)
      simp only [runSet, addedTotals]
      rw [i1, i2, this.2.1, this.2.2]
      exact ⟨rfl, rfl⟩

/-- **C07** (limits).  An addition throws only if the compressed marking is at least 8192 bytes
long. -/
theorem C07_throws_only_when_long (S : SSet) (m : Nat → Nat) (h : (StateSet.add S m).2 = .thrown) :
    ∃ b len, compress S.places m = some (b, len) ∧ 65535 ≤ len * 8 := by
  unfold StateSet.add at h
  simp only at h
  split at h
  · simp at h
  · split at h
    · simp at h
    · rename_i b len hc
      split at h
      · rename_i hl; exact ⟨b, len, hc, hl⟩
      · split at h <;> simp at h

/-- **Finding.**  The token sum is computed in 32 bits, so a marking with `2^32` tokens passes a
token bound of 5: it is stored as new although it is over the bound. -/
theorem C07_finding_bound_wraps :
    (StateSet.add { places := 2, kbound := 5 } (fun _ => 2147483648)).2 = .ok true (some 0) ∧
    ((List.range 2).map (fun _ => 2147483648)).sum > 5 := by
  decide +kernel

/-! ### Non-vacuity -/

/-- A history exercising every call. -/
def setHist : List SetOp :=
  [.add (fun p => [1, 0].getD p 0), .add (fun p => [3, 9].getD p 0), .add (fun p => [1, 0].getD p 0),
   .lookup (fun p => [3, 2].getD p 0), .add (fun p => [3, 2].getD p 0), .decode 1 (fun _ => 7)]

example : ∀ o ∈ setHist, o.Ok 2 8 := by
  intro o ho
  simp only [setHist, List.mem_cons, List.not_mem_nil, or_false] at ho
  rcases ho with rfl | rfl | rfl | rfl | rfl | rfl <;>
    simp only [SetOp.Ok, List.range_succ, W32] <;> (try refine ⟨?_, ?_⟩) <;>
    first | (intro p hp; rcases p with _ | _ | p <;> simp) | simp

example : (runSet { places := 2, kbound := 8 } setHist).2.map (fun o => match o with
      | .res r => some r | .arr _ => none) =
    [some (.ok true (some 0)), some (.ok false none), some (.ok false (some 0)),
     some (.ok false none), some (.ok true (some 1)), none] := by decide +kernel

end Verif
