import Verif.CRed.ParLemmas
import Verif.CRed.VDots
import Verif.Props.ColorReduce

/-!
# C74: coloured reductions that remove parallel transitions
-/

namespace Verif
namespace CRed
open CPN XCol

/-- the flags fit the proposition: loops are kept for queries about deadlocks -/
def Flags.Fit (f : Flags) (φ : XQ) : Prop := qdead φ = true → f.loops = true ∨ f.stutter = true

/-- **C74** (parallel transitions).  In nets with weights below 2^16 whose expressions can be told apart by their texts, whichever
pairs of transitions the rule gets to look at, queries EF φ keep their answers; those about deadlocks if transitions without arcs
have no guards and all arcs carry tokens. -/
theorem C74_parallelTransitions_partial {nm : Names} {R R' : Red} (hn : Tidy nm R.net) {q : Uses} {f : Flags} {pairs : List (Nat × Nat)}
    (h : Red.applyParTrans nm q f pairs R = some R') : ∀ φ, Known q φ → f.Fit φ → (qdead φ = true → EmptyFree R ∧ Pos R.net) →
    Keeps R R' φ := by
  intro φ hk hf hd
  have b := applyParTrans_ok hn h
  refine b.alike.keeps (fun t ht hs => ?_) fun hq => b.dead ⟨hf hq, hd hq⟩
  rcases b.asked t hs with h1 | h1
  · exact h1
  · rw [hk.2 t ht] at h1; cases h1

/-- **C74** (parallel transitions).  For queries that count steps, the rule leaves the graph of the markings as it was, and so the
transitions that the queries mention. -/
theorem C74_graph_partial {nm : Names} {R R' : Red} (hn : Tidy nm R.net) {q : Uses} {f : Flags} {pairs : List (Nat × Nat)}
    (hf : f.stutter = true ∨ f.ctl = true ∧ f.loops = true) (he : EmptyFree R)
    (h : Red.applyParTrans nm q f pairs R = some R') : (∀ M L, R'.Moves M L ↔ R.Moves M L) ∧
      ∀ t, q.trans t = true → ∀ M, R'.CanFire M t ↔ R.CanFire M t := by
  have b := applyParTrans_ok hn h
  refine ⟨b.moves ⟨hf, he⟩, fun t ht M => ?_⟩
  by_cases hs : t ∈ R'.skT
  · rcases b.asked t hs with h1 | h1
    · constructor
      · rintro ⟨ρ, L, hl⟩; exact absurd hs hl.1
      · rintro ⟨ρ, L, hl⟩; exact absurd h1 hl.1
    · rw [ht] at h1; cases h1
  · exact b.alike.fire M t hs

/-- a net on which the rule removes the transition that moves two tokens at once -/
def twiceNet : Red := ⟨vnet [4, 0] [([(0, 1)], [(1, 1)]), ([(0, 2)], [(1, 2)])], [], []⟩

example : Tidy plainNames twiceNet.net ∧ EmptyFree twiceNet ∧
    ((Red.applyParTrans plainNames askQ { reach := true } [(1, 0), (0, 1)] twiceNet).map fun R => (R.skP, R.skT)) = some ([], [1]) ∧
    ((Red.applyParTrans plainNames askQ { reach := false, ctl := true, loops := true } [(1, 0), (0, 1)] twiceNet).map fun R => (R.skP, R.skT)) =
      some ([], []) :=
  ⟨vnet_tidy _ (vnet_wf (by decide) (by decide) (by decide) (by decide) (by decide)) (vnet_sorted (by decide)) (by decide),
    fun t ht _ h _ => by
      have : t < 2 := ht
      have : t = 0 ∨ t = 1 := by omega
      rcases this with rfl | rfl <;> rfl, by decide +kernel, by decide +kernel⟩

/-- The statement of C74 for well-formed nets, for a given way to read names. -/
def ParRight (nm : Names) : Prop := ∀ (R R' : Red), R.net.WF → Sorted R.net → ∀ (q : Uses) (f : Flags) (pairs : List (Nat × Nat)),
  Red.applyParTrans nm q f pairs R = some R' → ∀ φ, Known q φ → f.Fit φ → Keeps R R' φ

def noUses : Uses := ⟨fun _ => false, fun _ => false⟩

/-- two transitions without arcs, the first one with a guard that never holds -/
def guardNet : Red where
  net := { types := twoTypes
           vty := fun _ => 1
           places := []
           transitions := [⟨"t", some (.lt (.var 0) (.var 0)), [], []⟩, ⟨"u", none, [], []⟩]
           inhibitors := [] }

theorem guardNet_result : (Red.applyParTrans plainNames noUses { reach := true, loops := true } [] guardNet) = some (guardNet.skipTrans 1) := by
  rfl

/-- **C74** (finding).  Of the transitions without arcs the first one is kept for queries about deadlocks, whatever its guard.
Here it can never fire; the net that cannot deadlock becomes one that is dead. -/
theorem C74_finding_guard : ¬ParRight plainNames := by
  intro h
  have w : guardNet.net.WF := by
    refine ⟨⟨by decide, by decide, by decide⟩, by decide, by decide, ?_, ?_, ?_, (fun h hm => nomatch hm), (fun h hm => nomatch hm)⟩
    · intro t ht v hv
      show 0 < twoTypes.size 1
      decide
    · intro t ht g hg
      simp only [guardNet, List.mem_cons, List.not_mem_nil, or_false] at ht
      rcases ht with rfl | rfl
      · simp only [Option.mem_def, Option.some.injEq] at hg
        subst hg
        exact ⟨1, by decide, by rw [HasTy]; rfl, by rw [HasTy]; rfl⟩
      · cases hg
    · intro t ht a ha
      simp only [guardNet, List.mem_cons, List.not_mem_nil, or_false] at ht
      rcases ht with rfl | rfl <;> simp at ha
  have hs : Sorted guardNet.net := by
    intro t ht
    simp only [guardNet, List.mem_cons, List.not_mem_nil, or_false] at ht
    rcases ht with rfl | rfl <;> exact ⟨by decide, by decide⟩
  have hk := h guardNet _ w hs noUses _ [] guardNet_result .dead ⟨by decide, by decide⟩ (fun _ => Or.inl rfl)
  obtain ⟨M, _, hd⟩ := hk.2 ⟨_, .init, by
    rintro t ⟨ρ, L, hst⟩
    obtain ⟨hne, _, hlt, hleg, _⟩ := (step_skipTrans guardNet 1).1 hst
    have : t < 2 := hlt
    have : t = 0 := by omega
    subst this
    obtain ⟨i, j, h1, h2, h3⟩ := (show Guard.holds _ _ ρ (.lt (.var 0) (.var 0)) from hleg.2)
    rw [h1] at h2
    injection h2 with h2
    omega⟩
  refine hd 1 ⟨fun _ => [0], M, by decide, by decide, ⟨fun v hv => ?_, trivial⟩, ⟨fun p x => Nat.zero_le _, (fun h hm => nomatch hm)⟩, ?_⟩
  · show [0] ∈ twoTypes.values 1
    decide
  · funext p x
    show M p x = M p x - 0 + 0
    omega

/-- transition 0 takes 65537 tokens and gives one, transition 1 moves 65536 tokens -/
def wrapNet : Red := ⟨vnet [65536, 0] [([(0, 65537)], [(1, 1)]), ([(0, 65536)], [(1, 65536)])], [], []⟩

def wrapNet' : Red := ⟨vnet [65536, 0] [([(0, 65537)], [(1, 1)]), ([], [])], [], [1]⟩

theorem wrapNet_result : (Red.applyParTrans plainNames askQ { reach := true } [(0, 1)] wrapNet) = some wrapNet' := by rfl

theorem wrapNet_never {m : Nat → Nat} (h : DReach [65536, 0] [([(0, 65537)], [(1, 1)]), ([], [])] [] [1] m) : m 0 ≤ 65536 ∧ m 1 = 0 := by
  refine dinv (fun m => m 0 ≤ 65536 ∧ m 1 = 0) (by decide) ?_ h
  rintro m t m' hI ⟨τ, ht, hsk, hen, _, rfl⟩
  have h0 := hen 0
  rcases t with _ | _ | t
  · simp only [List.getElem?_cons_zero, Option.some.injEq] at ht
    subst ht
    simp [wt] at h0
    omega
  · exact absurd rfl (List.ne_of_not_mem_cons hsk)
  · simp at ht

/-- **C74** (finding).  Multiples are compared in 32 bits: 65536 times 65537 passes for 65536.  The transition that could fire is
removed for the sake of one that cannot. -/
theorem C74_finding_wrap : ¬ParRight plainNames := by
  intro h
  have w : wrapNet.net.WF := vnet_wf (by decide) (by decide) (by decide) (by decide) (by decide)
  have hs : Sorted wrapNet.net := vnet_sorted (by decide)
  have hk := h wrapNet wrapNet' w hs askQ _ _ wrapNet_result (.le (.lit 1) (.place 1)) ⟨by decide, by decide⟩ (fun h => nomatch h)
  unfold Keeps at hk
  rw [ef_v (R := wrapNet) (ms := [65536, 0]) (ts := [([(0, 65537)], [(1, 1)]), ([(0, 65536)], [(1, 65536)])]) (hs := []) rfl,
    ef_v (R := wrapNet') (ms := [65536, 0]) (ts := [([(0, 65537)], [(1, 1)]), ([], [])]) (hs := []) rfl] at hk
  obtain ⟨m, hm, hq⟩ := hk.1 ⟨_, DReach.init.step (t := 1) ⟨_, rfl, by decide, fun p => by
    rcases p with _ | p
    · simp [wt]
    · simp [wt], by simp, rfl⟩, by simp [DHolds, DHolds.dval, wt]⟩
  have := (wrapNet_never hm).2
  simp [DHolds, DHolds.dval] at hq
  omega

/-- transition 0 takes two tokens, transition 1 takes none, by an arc that carries none -/
def zeroNet : Red := ⟨vnet [0] [([(0, 2)], []), ([(0, 0)], [])], [], []⟩

def zeroNet' : Red := ⟨vnet [0] [([(0, 2)], []), ([], [])], [], [1]⟩

theorem zeroNet_result : (Red.applyParTrans plainNames noUses { reach := true, loops := true } [(0, 1)] zeroNet) = some zeroNet' := by rfl

/-- **C74** (finding).  A transition whose arcs carry no tokens does nothing, which is 0 times what any other does; it is removed,
and with it the reason why the net has no deadlock. -/
theorem C74_finding_zero : ¬ParRight plainNames := by
  intro h
  have w : zeroNet.net.WF := vnet_wf (by decide) (by decide) (by decide) (by decide) (by decide)
  have hs : Sorted zeroNet.net := vnet_sorted (by decide)
  have hk := h zeroNet zeroNet' w hs noUses _ _ zeroNet_result .dead ⟨by decide, by decide⟩ (fun h => Or.inl rfl)
  unfold Keeps at hk
  rw [ef_v (R := zeroNet) (ms := [0]) (ts := [([(0, 2)], []), ([(0, 0)], [])]) (hs := []) rfl,
    ef_v (R := zeroNet') (ms := [0]) (ts := [([(0, 2)], []), ([], [])]) (hs := []) rfl] at hk
  obtain ⟨m, hm, hq⟩ := hk.2 ⟨_, DReach.init, by
    rintro t m' ⟨τ, ht, hsk, hen, _, _⟩
    rcases t with _ | _ | t
    · simp only [List.getElem?_cons_zero, Option.some.injEq] at ht
      subst ht
      have := hen 0
      simp [wt] at this
    · exact absurd rfl (List.ne_of_not_mem_cons hsk)
    · simp at ht⟩
  exact hq 1 _ ⟨_, rfl, by decide, fun p => by simp [wt], by simp, rfl⟩

end CRed
end Verif
