import Verif.CRed.ParPlaceLemmas
import Verif.Props.ColorParallel

/-!
# C76: the coloured reduction that removes parallel places

`Same R R'` says that the nets are bisimilar with the same transitions fired, and that matching markings agree on all places
that are left; so branching and linear queries about these places keep their answers.  `Keeps` says it of queries EF φ.
-/

namespace Verif
namespace CRed
open CPN XCol

/-- **C76** (parallel places).  If the rule comes to its end, whatever pairs it looks at, and the tokens at the start are in the ratios that
it has found, the net behaves as before, and queries whose places the rule knows keep their answers.  Without the condition on the tokens
this is false (`C76_finding_cut`, `C76_finding_wrap`). -/
theorem C76_parallelPlaces_partial {nm : Names} {R R' : Red} (hn : Fine nm R.net) {q : Uses} {pairs : List (Nat × Nat)}
    (hf : Red.Fair nm q pairs R) (h : Red.parPlaces nm q pairs R = some R') :
    Same R R' ∧ ∀ φ, Known q φ → Speaks R φ → Keeps R R' φ := by
  obtain ⟨h1, h4⟩ := parPlaces_same pairs R R' hn hf h
  refine ⟨h1, fun φ hk hsp => h1.keeps φ fun p hp hsk => ?_⟩
  rcases h4 p hsk with h | h
  · exact hsp p hp h
  · rw [hk.1 p hp] at h
    cases h

/-- **C76** (a class of nets).  The rule is right for nets whose transitions take as many tokens from one place as from another. -/
theorem C76_even_partial {nm : Names} {R R' : Red} (hn : Fine nm R.net) (he : Even R.net) {q : Uses} {pairs : List (Nat × Nat)}
    (h : Red.parPlaces nm q pairs R = some R') : Same R R' ∧ ∀ φ, Known q φ → Speaks R φ → Keeps R R' φ :=
  C76_parallelPlaces_partial hn (even_fair pairs R hn.wf he) h

/-- **C76** (what the ratio is good for).  When a pair is taken for parallel, the ratio is a whole number, and the tokens can be multiplied
by it in 32 bits, the tokens at the start are in the ratio. -/
theorem C76_whole {nm : Names} {R : Red} (w : R.net.WF) {q : Uses} {p1 p2 : Nat} {r : Nat × Nat}
    (hy : (R.net.place p1).ty = (R.net.place p2).ty) (h : R.parPlace nm q p1 p2 = some (some r)) (hd : r.2 ∣ r.1)
    (hb : ∀ x, r.1 / r.2 * R.net.init p1 x < W32) : R.InRatio r p1 p2 :=
  inRatio_of w hy (parPlace_parallel h) hd hb

/-! ### Examples -/

theorem fine_vnet (nm : Names) {ms ts hs} (w : (vnet ms ts hs).WF) (s : Sorted (vnet ms ts hs)) : Fine nm (vnet ms ts hs) :=
  ⟨w, s, vnet_readable nm, dot_prods⟩

/-- two places filled and emptied together, one with twice as many tokens -/
def twinNet : Red := ⟨vnet [1, 2, 0] [([(0, 1), (1, 2)], [(2, 1)]), ([(2, 1)], [(0, 1), (1, 2)])], [], []⟩

def twinNet' : Red := ⟨vnet [1, 2, 0] [([(0, 1)], [(2, 1)]), ([(2, 1)], [(0, 1)])], [1], []⟩

theorem twinNet_result : Red.parPlaces plainNames noUses [(0, 1)] twinNet = some twinNet' := by rfl

theorem twinNet_ratio : twinNet.parPlace plainNames noUses 0 1 = some (some (2, 1)) := by rfl

theorem twinNet_wf : twinNet.net.WF := vnet_wf (by decide) (by decide) (by decide) (by decide) (by decide)

example : Same twinNet twinNet' := by
  refine (C76_parallelPlaces_partial (nm := plainNames) (fine_vnet _ twinNet_wf (vnet_sorted (by decide))) ?_ twinNet_result).1
  rw [Red.Fair]
  refine ⟨fun r _ _ _ _ hp => ?_, fun h => ?_⟩
  · rw [twinNet_ratio] at hp
    injection hp with hp
    injection hp with hp
    subst hp
    refine ⟨C76_whole twinNet_wf rfl twinNet_ratio ⟨2, rfl⟩ fun x => ?_, trivial⟩
    show 2 * twinNet.net.init 0 x < W32
    have : twinNet.net.init 0 x ≤ 1 := by
      show ([((0 : Nat), 1)].map _).sum ≤ 1
      simp only [List.map_cons, List.map_nil, List.sum_cons, List.sum_nil]
      split <;> omega
    unfold W32
    omega
  · trivial

/-- two places filled and emptied together -/
def pairNet : Red := ⟨vnet [1, 1, 0] [([(0, 1), (1, 1)], [(2, 1)]), ([(2, 1)], [(0, 1), (1, 1)])], [], []⟩

def pairNet' : Red := ⟨vnet [1, 1, 0] [([(0, 1)], [(2, 1)]), ([(2, 1)], [(0, 1)])], [1], []⟩

theorem pairNet_even : Even pairNet.net := by
  intro t ht a ha b hb m o hm ho
  have key : ∀ i τ, τ ∈ [([(0, 1), (1, 1)], [(2, 1)]), ([(2, 1)], [(0, 1), (1, 1)])] → t = vTrans i τ →
      ∀ c ∈ t.inputs, c.expr = .num 1 [.var 0] := by
    intro i τ hτ e c hc
    subst e
    obtain ⟨d, hd, rfl⟩ := List.mem_map.1 hc
    have : d.2 = 1 := by
      simp only [List.mem_cons, List.not_mem_nil, or_false] at hτ
      rcases hτ with rfl | rfl <;> simp at hd <;> rcases hd with rfl | rfl <;> rfl
    rw [vArc, this]
  obtain ⟨i, τ, hτ, e⟩ := mem_vtrans ht
  rw [key i τ hτ e a ha] at hm
  rw [key i τ hτ e b hb, hm] at ho
  injection ho with ho
  injection ho with ho
  subst ho
  have hm : (⟨[0], [([0], 1)]⟩ : VMS) = m := Option.some.inj (Option.some.inj hm)
  subst hm
  intro q hq
  simp only [List.mem_cons, List.not_mem_nil, or_false] at hq
  subst hq
  rfl

example : Same pairNet pairNet' :=
  (C76_even_partial (nm := plainNames) (q := noUses) (pairs := [(0, 1)])
    (fine_vnet _ (vnet_wf (by decide) (by decide) (by decide) (by decide) (by decide)) (vnet_sorted (by decide))) pairNet_even (by rfl)).1

/-! ### Where the code goes wrong -/

/-- The rule keeps the answers to the queries EF φ. -/
def ParPlacesRight (nm : Names) : Prop := ∀ R R' : Red, Fine nm R.net → ∀ q pairs, Red.parPlaces nm q pairs R = some R' →
  ∀ φ, Known q φ → Speaks R φ → Keeps R R' φ

/-- only place 2 is asked for -/
def askTwo : Uses := ⟨fun p => p == 2, fun _ => false⟩

def halfT : List (List (Nat × Nat) × List (Nat × Nat)) := [([(0, 2), (1, 1)], [(2, 1)]), ([(3, 1)], [(0, 2), (1, 1)])]

/-- transition 0 takes two tokens from place 0 and one from place 1; there are four and one.  Transition 1 is dead. -/
def halfNet : Red := ⟨vnet [4, 1, 0, 0] halfT, [], []⟩

def halfT' : List (List (Nat × Nat) × List (Nat × Nat)) := [([(0, 2)], [(2, 1)]), ([(3, 1)], [(0, 2)])]

def halfNet' : Red := ⟨vnet [4, 1, 0, 0] halfT', [1], []⟩

theorem halfNet_result : Red.parPlaces plainNames askTwo [(0, 1)] halfNet = some halfNet' := by rfl

theorem halfNet_never {m : Nat → Nat} (h : DReach [4, 1, 0, 0] halfT [] [] m) : m 3 = 0 ∧ m 1 + m 2 ≤ 1 := by
  refine dinv (fun m => m 3 = 0 ∧ m 1 + m 2 ≤ 1) (by decide) ?_ h
  rintro m t m' hI ⟨τ, ht, hsk, hen, _, rfl⟩
  have h1 := hen 1
  have h3 := hen 3
  rcases t with _ | _ | t
  · simp only [halfT, List.getElem?_cons_zero, Option.some.injEq] at ht
    subst ht
    simp [wt] at h1 ⊢
    omega
  · simp only [halfT, List.getElem?_cons_succ, List.getElem?_cons_zero, Option.some.injEq] at ht
    subst ht
    simp [wt] at h3
    omega
  · simp [halfT] at ht

/-- **C76** (finding).  The ratio is cut to a whole number before the tokens are multiplied by it.  Place 1 limits transition 0, but
half the tokens of place 0 pass for none, and place 1 is removed. -/
theorem C76_finding_cut : ¬ParPlacesRight plainNames := by
  intro h
  have w : halfNet.net.WF := vnet_wf (by decide) (by decide) (by decide) (by decide) (by decide)
  have hs : Sorted halfNet.net := vnet_sorted (by decide)
  have hk := h halfNet halfNet' (fine_vnet _ w hs) askTwo _ halfNet_result (.le (.lit 2) (.place 2)) ⟨by decide, by decide⟩
    (fun _ _ h => nomatch h)
  unfold Keeps at hk
  rw [ef_v (R := halfNet) (ms := [4, 1, 0, 0]) (ts := halfT) (hs := []) rfl,
    ef_v (R := halfNet') (ms := [4, 1, 0, 0]) (ts := halfT') (hs := []) rfl] at hk
  have s1 : DReach [4, 1, 0, 0] halfT' [] [] _ := DReach.init.step (t := 0) ⟨_, rfl, by decide, fun p => by
    rcases p with _ | p
    · simp [wt]
    · simp [wt], by simp, rfl⟩
  obtain ⟨m, hm, hq⟩ := hk.2 ⟨_, s1.step (t := 0) ⟨_, rfl, by decide, fun p => by
    rcases p with _ | p
    · simp [wt]
    · simp [wt], by simp, rfl⟩, by simp [DHolds, DHolds.dval, wt]⟩
  have := (halfNet_never hm).2
  simp [DHolds, DHolds.dval] at hq
  omega

def bigT : List (List (Nat × Nat) × List (Nat × Nat)) := [([(0, 1), (1, 65536)], [(2, 1)]), ([(3, 1)], [(0, 1), (1, 65536)])]

/-- transition 0 takes a token from place 0 and 65536 from place 1; there are 65536 and one.  Transition 1 is dead. -/
def bigNet : Red := ⟨vnet [65536, 1, 0, 0] bigT, [], []⟩

def bigT' : List (List (Nat × Nat) × List (Nat × Nat)) := [([(0, 1)], [(2, 1)]), ([(3, 1)], [(0, 1)])]

def bigNet' : Red := ⟨vnet [65536, 1, 0, 0] bigT', [1], []⟩

theorem bigNet_result : Red.parPlaces plainNames askTwo [(0, 1)] bigNet = some bigNet' := by rfl

theorem bigNet_never {m : Nat → Nat} (h : DReach [65536, 1, 0, 0] bigT [] [] m) : m 3 = 0 ∧ m 1 ≤ 1 ∧ m 2 = 0 := by
  refine dinv (fun m => m 3 = 0 ∧ m 1 ≤ 1 ∧ m 2 = 0) (by decide) ?_ h
  rintro m t m' hI ⟨τ, ht, hsk, hen, _, rfl⟩
  have h1 := hen 1
  have h3 := hen 3
  rcases t with _ | _ | t
  · simp only [bigT, List.getElem?_cons_zero, Option.some.injEq] at ht
    subst ht
    simp [wt] at h1
    omega
  · simp only [bigT, List.getElem?_cons_succ, List.getElem?_cons_zero, Option.some.injEq] at ht
    subst ht
    simp [wt] at h3
    omega
  · simp [bigT] at ht

/-- **C76** (finding).  The tokens are multiplied by the ratio in 32 bits: 65536 times 65536 passes for 0. -/
theorem C76_finding_wrap : ¬ParPlacesRight plainNames := by
  intro h
  have w : bigNet.net.WF := vnet_wf (by decide) (by decide) (by decide) (by decide) (by decide)
  have hs : Sorted bigNet.net := vnet_sorted (by decide)
  have hk := h bigNet bigNet' (fine_vnet _ w hs) askTwo _ bigNet_result (.le (.lit 1) (.place 2)) ⟨by decide, by decide⟩
    (fun _ _ h => nomatch h)
  unfold Keeps at hk
  rw [ef_v (R := bigNet) (ms := [65536, 1, 0, 0]) (ts := bigT) (hs := []) rfl,
    ef_v (R := bigNet') (ms := [65536, 1, 0, 0]) (ts := bigT') (hs := []) rfl] at hk
  obtain ⟨m, hm, hq⟩ := hk.2 ⟨_, DReach.init.step (t := 0) ⟨_, rfl, by decide, fun p => by
    rcases p with _ | p
    · simp [wt]
    · simp [wt], by simp, rfl⟩, by simp [DHolds, DHolds.dval, wt]⟩
  have := (bigNet_never hm).2.2
  simp [DHolds, DHolds.dval] at hq
  omega

end CRed
end Verif
