import Verif.CRed.PreemptPour
import Verif.Props.ColorParallelPlaces
import Verif.Props.ColorRelevance

/-!
# C77: the coloured reduction that fires transitions before the search

The rule changes the tokens at the start: if a place has one consumer, which does nothing but move tokens on, they are moved at once.
`Keeps` says that a query EF φ has the same answer before and after.
-/

namespace Verif
namespace CRed
open CPN XCol

/-- **C77** (preemptive firing).  If the rule comes to its end, at whatever time it is stopped and whatever it fired before, and all
transitions that it fires carry tokens of a single variable, do not put tokens back, and the tokens fit, then queries
EF φ whose places and transitions the rule knows keep their answers, if no deadlock is negated.  Each condition is needed
(`C77_finding_constant`, `C77_finding_loop`, `C77_finding_wrap`, `C77_finding_notDead`). -/
theorem C77_preemptiveFiring_partial {nm : Names} {R R' : Red} (hn : Neat nm R) {q : Uses} {stale : Bool} {late : Nat → Bool}
    {fired fired' : List Nat} (hs : Red.Suited nm q stale late (List.range R.net.places.length) fired R)
    (h : Red.applyPreempt nm q stale late fired R = some (fired', R')) :
    ∀ φ, Known q φ → Speaks R φ → qneg φ = false → Keeps R R' φ :=
  (preempt_ok _ fired R _ hn hs h).2.2

/-- **C77** (what is left).  The net stays as tidy as it was, and no place that the query uses is removed. -/
theorem C77_neat_partial {nm : Names} {R R' : Red} (hn : Neat nm R) {q : Uses} {stale : Bool} {late : Nat → Bool}
    {fired fired' : List Nat} (hs : Red.Suited nm q stale late (List.range R.net.places.length) fired R)
    (h : Red.applyPreempt nm q stale late fired R = some (fired', R')) :
    Neat nm R' ∧ ∀ p ∈ R'.skP, p ∈ R.skP ∨ q.place p = false :=
  ⟨(preempt_ok _ fired R _ hn hs h).1, (preempt_ok _ fired R _ hn hs h).2.1⟩

/-! ### Examples -/

theorem neat_vnet (nm : Names) {ms ts hs} (w : (vnet ms ts hs).WF) (s : Sorted (vnet ms ts hs)) : Neat nm ⟨vnet ms ts hs, [], []⟩ :=
  ⟨w, s, vnet_readable nm, (fun _ h => nomatch h)⟩

theorem suits_vnet {ms ts hs P T} {p t : Nat} {τ : List (Nat × Nat) × List (Nat × Nat)} (h : ts[t]? = some τ)
    (hk : ∀ a ∈ τ.1 ++ τ.2, 0 < a.2) (ho : ∀ a ∈ τ.2, a.1 ≠ p ∧ ((vnet ms ts hs).place a.1).tokens + ((vnet ms ts hs).place p).tokens < W32) :
    (⟨vnet ms ts hs, P, T⟩ : Red).Suits p t := by
  constructor
  · intro a ha
    have ha : a ∈ ((vnet ms ts hs).trans t).inputs ++ ((vnet ms ts hs).trans t).outputs := ha
    rw [v_trans h] at ha
    have ha : a ∈ τ.1.map vArc ++ τ.2.map vArc := ha
    rw [← List.map_append] at ha
    obtain ⟨b, hb, rfl⟩ := List.mem_map.1 ha
    exact ⟨b.2, 0, hk b hb, rfl⟩
  · intro a ha
    have ha : a ∈ ((vnet ms ts hs).trans t).outputs := ha
    rw [v_trans h] at ha
    obtain ⟨b, hb, rfl⟩ := List.mem_map.1 ha
    exact ho b hb

def never : Nat → Bool := fun _ => false

def lineT : List (List (Nat × Nat) × List (Nat × Nat)) := [([(0, 2)], [(1, 2)]), ([(1, 1)], [(2, 1)])]

/-- tokens move from place 0 to place 1 in pairs, and from there to place 2 -/
def lineNet : Red := ⟨vnet [4, 0, 0] lineT, [], []⟩

/-- the four tokens are on place 1; place 0 and transition 0 are gone -/
def lineNet' : Red := ⟨vnet [4, 4, 0] [([], []), ([(1, 1)], [(2, 1)])], [0], [0]⟩

theorem lineNet_result : Red.applyPreempt plainNames askTwo true never [] lineNet = some ([0], lineNet') := by rfl

theorem lineNet_neat : Neat plainNames lineNet :=
  neat_vnet _ (vnet_wf (by decide) (by decide) (by decide) (by decide) (by decide)) (vnet_sorted (by decide))

theorem lineNet_suited : Red.Suited plainNames askTwo true never (List.range lineNet.net.places.length) [] lineNet := by
  show Red.Suited plainNames askTwo true never [0, 1, 2] [] lineNet
  have e0 : lineNet.preemptable plainNames askTwo [] 0 = some (some 0) := by rfl
  have f0 : lineNet.fireAll true 0 0 = some lineNet' := by rfl
  have e1 : lineNet'.preemptable plainNames askTwo [0] 1 = some none := by rfl
  have e2 : lineNet'.preemptable plainNames askTwo [0] 2 = some none := by rfl
  rw [Red.Suited]
  refine fun _ => ⟨fun h => ?_, fun t h => ?_⟩
  · rw [e0] at h; cases h
  rw [e0] at h
  have : 0 = t := Option.some.inj (Option.some.inj h)
  subst this
  refine ⟨suits_vnet (τ := ([(0, 2)], [(1, 2)])) rfl (by decide) (by decide +kernel), fun R' hf => ?_⟩
  rw [f0] at hf
  injection hf with hf
  subst hf
  rw [Red.Suited]
  refine fun _ => ⟨fun _ => ?_, fun t h => ?_⟩
  · rw [Red.Suited]
    refine fun _ => ⟨fun _ => trivial, fun t h => ?_⟩
    rw [e2] at h; cases h
  · rw [e1] at h; cases h

/-- place 2 gets as many tokens as before, and the net comes to its end if it did before -/
example : Keeps lineNet lineNet' (.le (.lit 4) (.place 2)) ∧ Keeps lineNet lineNet' (.and .dead (.le (.lit 4) (.place 2))) :=
  ⟨C77_preemptiveFiring_partial lineNet_neat lineNet_suited lineNet_result _ ⟨by decide, by decide⟩ (fun _ _ h => nomatch h) rfl,
   C77_preemptiveFiring_partial lineNet_neat lineNet_suited lineNet_result _ ⟨by decide, by decide⟩ (fun _ _ h => nomatch h) rfl⟩

example : Neat plainNames lineNet' := (C77_neat_partial lineNet_neat lineNet_suited lineNet_result).1

/-! ### Where the code goes wrong -/

/-- The rule keeps the answers to the queries EF φ where no deadlock is negated. -/
def PreemptRight (nm : Names) : Prop := ∀ (R R' : Red) (fired : List Nat), Neat nm R → ∀ q, Red.applyPreempt nm q true never [] R = some (fired, R') →
  ∀ φ, Known q φ → Speaks R φ → qneg φ = false → Keeps R R' φ

/-- the transition puts its token back, and another one on place 1 -/
def backNet : Red := ⟨vnet [1, 0] [([(0, 1)], [(0, 1), (1, 1)])], [], []⟩

def backNet' : Red := ⟨vnet [0, 1] [([(0, 1)], [(0, 1), (1, 1)])], [], []⟩

theorem backNet_result : Red.applyPreempt plainNames noUses true never [] backNet = some ([0], backNet') := by rfl

theorem backNet_always {m : Nat → Nat} (h : DReach [1, 0] [([(0, 1)], [(0, 1), (1, 1)])] [] [] m) : m 0 = 1 := by
  refine dinv (fun m => m 0 = 1) (by decide) ?_ h
  rintro m t m' hI ⟨τ, ht, hsk, hen, _, rfl⟩
  rcases t with _ | t
  · simp only [List.getElem?_cons_zero, Option.some.injEq] at ht
    subst ht
    simp [wt]
    omega
  · simp at ht

/-- **C77** (finding).  The place is emptied after its tokens have been moved, although the transition may put them back on the
same place.  Then they are lost, and a net without deadlock is dead. -/
theorem C77_finding_loop : ¬PreemptRight plainNames := by
  intro h
  have w : backNet.net.WF := vnet_wf (by decide) (by decide) (by decide) (by decide) (by decide)
  have hs : Sorted backNet.net := vnet_sorted (by decide)
  have hk := h backNet backNet' _ (neat_vnet _ w hs) noUses backNet_result .dead ⟨by decide, by decide⟩ (fun _ _ h => nomatch h) rfl
  unfold Keeps at hk
  rw [ef_v (R := backNet) (ms := [1, 0]) (ts := [([(0, 1)], [(0, 1), (1, 1)])]) (hs := []) rfl,
    ef_v (R := backNet') (ms := [0, 1]) (ts := [([(0, 1)], [(0, 1), (1, 1)])]) (hs := []) rfl] at hk
  obtain ⟨m, hm, hq⟩ := hk.2 ⟨_, DReach.init, by
    rintro t m' ⟨τ, ht, hsk, hen, _, _⟩
    rcases t with _ | t
    · simp only [List.getElem?_cons_zero, Option.some.injEq] at ht
      subst ht
      have := hen 0
      simp [wt] at this
    · simp at ht⟩
  have hI := backNet_always hm
  exact hq 0 _ ⟨_, rfl, by decide, fun p => by
    rcases p with _ | p
    · simp [wt, hI]
    · simp [wt], by simp, rfl⟩

def fullT : List (List (Nat × Nat) × List (Nat × Nat)) := [([(0, 1)], [(1, 1)]), ([(1, 1)], [(2, 1)])]

/-- places 0 and 1 hold more than 2³² tokens together -/
def fullNet : Red := ⟨vnet [2147483649, 2147483648, 0] fullT, [], []⟩

def fullT' : List (List (Nat × Nat) × List (Nat × Nat)) := [([], []), ([(1, 1)], [(2, 1)])]

def fullNet' : Red := ⟨vnet [2147483649, 1, 0] fullT', [0], [0]⟩

theorem fullNet_result : Red.applyPreempt plainNames askTwo true never [] fullNet = some ([0], fullNet') := by rfl

theorem fullNet_never {m : Nat → Nat} (h : DReach [2147483649, 1, 0] fullT' [] [0] m) : m 1 + m 2 ≤ 1 := by
  refine dinv (fun m => m 1 + m 2 ≤ 1) (by decide) ?_ h
  rintro m t m' hI ⟨τ, ht, hsk, hen, _, rfl⟩
  have h1 := hen 1
  rcases t with _ | _ | t
  · exact absurd rfl (List.ne_of_not_mem_cons hsk)
  · simp only [fullT', List.getElem?_cons_succ, List.getElem?_cons_zero, Option.some.injEq] at ht
    subst ht
    simp [wt] at h1 ⊢
    omega
  · simp [fullT'] at ht

/-- **C77** (finding).  The tokens are added up in 32 bits; here all but one are lost. -/
theorem C77_finding_wrap : ¬PreemptRight plainNames := by
  intro h
  have w : fullNet.net.WF := vnet_wf (by decide) (by decide) (by decide) (by decide) (by decide)
  have hs : Sorted fullNet.net := vnet_sorted (by decide)
  have hk := h fullNet fullNet' _ (neat_vnet _ w hs) askTwo fullNet_result (.le (.lit 2) (.place 2)) ⟨by decide, by decide⟩
    (fun _ _ h => nomatch h) rfl
  unfold Keeps at hk
  rw [ef_v (R := fullNet) (ms := [2147483649, 2147483648, 0]) (ts := fullT) (hs := []) rfl,
    ef_v (R := fullNet') (ms := [2147483649, 1, 0]) (ts := fullT') (hs := []) rfl] at hk
  have s1 : DReach [2147483649, 2147483648, 0] fullT [] [] _ := DReach.init.step (t := 1) ⟨_, rfl, by decide, fun p => by
    rcases p with _ | _ | p
    · simp [wt]
    · simp [wt]
    · simp [wt], by simp, rfl⟩
  obtain ⟨m, hm, hq⟩ := hk.1 ⟨_, s1.step (t := 1) ⟨_, rfl, by decide, fun p => by
    rcases p with _ | _ | p
    · simp [wt]
    · simp [wt]
    · simp [wt], by simp, rfl⟩, by simp [DHolds, DHolds.dval, wt]⟩
  have := fullNet_never hm
  simp [DHolds, DHolds.dval] at hq
  omega

/-- one token and one transition -/
def onceNet : Red := ⟨vnet [1, 0] [([(0, 1)], [(1, 1)])], [], []⟩

def onceNet' : Red := ⟨vnet [1, 1] [([], [])], [0], [0]⟩

theorem onceNet_result : Red.applyPreempt plainNames noUses true never [] onceNet = some ([0], onceNet') := by rfl

theorem onceNet_neat : Neat plainNames onceNet :=
  neat_vnet _ (vnet_wf (by decide) (by decide) (by decide) (by decide) (by decide)) (vnet_sorted (by decide))

theorem onceNet_suited : Red.Suited plainNames noUses true never (List.range onceNet.net.places.length) [] onceNet := by
  show Red.Suited plainNames noUses true never [0, 1] [] onceNet
  have e0 : onceNet.preemptable plainNames noUses [] 0 = some (some 0) := by rfl
  have f0 : onceNet.fireAll true 0 0 = some onceNet' := by rfl
  have e1 : onceNet'.preemptable plainNames noUses [0] 1 = some none := by rfl
  rw [Red.Suited]
  refine fun _ => ⟨fun h => ?_, fun t h => ?_⟩
  · rw [e0] at h; cases h
  rw [e0] at h
  have : 0 = t := Option.some.inj (Option.some.inj h)
  subst this
  refine ⟨suits_vnet (τ := ([(0, 1)], [(1, 1)])) rfl (by decide) (by decide +kernel), fun R' hf => ?_⟩
  rw [f0] at hf
  injection hf with hf
  subst hf
  rw [Red.Suited]
  refine fun _ => ⟨fun _ => trivial, fun t h => ?_⟩
  rw [e1] at h; cases h

/-- **C77** (finding).  The rule is used for the query EF ¬deadlock as well (src/PetriEngine/PQL/PredicateCheckers.cpp:38-48 finds a
deadlock to be nested only under conjunctions and disjunctions).  This net can fire a transition at the start; afterwards it is dead from the start. -/
theorem C77_finding_notDead : Neat plainNames onceNet ∧ Red.Suited plainNames noUses true never (List.range onceNet.net.places.length) [] onceNet ∧
    Red.applyPreempt plainNames noUses true never [] onceNet = some ([0], onceNet') ∧ Known noUses (.not .dead) ∧
    ¬Keeps onceNet onceNet' (.not .dead) := by
  refine ⟨onceNet_neat, onceNet_suited, onceNet_result, ⟨by decide, by decide⟩, fun hk => ?_⟩
  unfold Keeps at hk
  rw [ef_v (R := onceNet) (ms := [1, 0]) (ts := [([(0, 1)], [(1, 1)])]) (hs := []) rfl,
    ef_v (R := onceNet') (ms := [1, 1]) (ts := [([], [])]) (hs := []) rfl] at hk
  obtain ⟨m, hm, hq⟩ := hk.1 ⟨_, DReach.init, fun hd => hd 0 _ ⟨_, rfl, by decide, fun p => by
    rcases p with _ | p
    · simp [wt]
    · simp [wt], by simp, rfl⟩⟩
  refine hq ?_
  rintro t m' ⟨τ, ht, hsk, _⟩
  rcases t with _ | t
  · exact absurd rfl (List.ne_of_not_mem_cons hsk)
  · simp at ht

/-- **C77** (finding).  After the place has been removed, the rule looks for the transition in the list of its consumers, which has just been
cleared: undefined behaviour whenever a place is emptied that nothing fills.  The rule as it is has no defined result for the plainest net. -/
theorem C77_finding_stale : Neat plainNames onceNet ∧ Red.applyPreempt plainNames noUses false never [] onceNet = none :=
  ⟨onceNet_neat, by rfl⟩

/-- a transition that takes a number of 0 tokens -/
def idleNet : Red := ⟨vnet [1, 0] [([(0, 0)], [(1, 1)])], [], []⟩

/-- **C77** (finding).  The number of tokens is divided by the weight of the arc, which may be 0: undefined behaviour. -/
theorem C77_finding_zero : Neat plainNames idleNet ∧ Red.applyPreempt plainNames noUses true never [] idleNet = none :=
  ⟨neat_vnet _ (vnet_wf (by decide) (by decide) (by decide) (by decide) (by decide)) (vnet_sorted (by decide)), by rfl⟩

/-! ### Constants -/

/-- transition 0 takes colour 0 from place 0, which holds colour 1 -/
def constNet : Red where
  net := { types := twoTypes
           vty := fun _ => 1
           places := [⟨"p", 1, [(1, 1)]⟩, ⟨"q", 1, []⟩, ⟨"r", 1, []⟩]
           transitions := [⟨"t", none, [⟨0, .num 1 [.const ⟨1, 0⟩]⟩], [⟨1, .num 1 [.const ⟨1, 0⟩]⟩]⟩,
             ⟨"u", none, [⟨1, .num 1 [.var 0]⟩], [⟨2, .num 1 [.var 0]⟩]⟩]
           inhibitors := [] }

def constNet' : Red where
  net := { types := twoTypes
           vty := fun _ => 1
           places := [⟨"p", 1, [(1, 1)]⟩, ⟨"q", 1, [(1, 1)]⟩, ⟨"r", 1, []⟩]
           transitions := [⟨"t", none, [], []⟩, ⟨"u", none, [⟨1, .num 1 [.var 0]⟩], [⟨2, .num 1 [.var 0]⟩]⟩]
           inhibitors := [] }
  skP := [0]
  skT := [0]

theorem constNet_result : Red.applyPreempt plainNames askTwo true never [] constNet = some ([0], constNet') := by rfl

theorem constNet_neat : Neat plainNames constNet := by
  refine ⟨⟨⟨by decide, by decide, by decide⟩, by decide, by decide, ?_, ?_, ?_, by decide, by decide⟩, ?_, ?_, (fun _ h => nomatch h)⟩
  · intro t ht v hv
    show 0 < twoTypes.size 1
    decide
  · intro t ht g hg
    simp only [constNet, List.mem_cons, List.not_mem_nil, or_false] at ht
    rcases ht with rfl | rfl <;> cases hg
  · intro t ht a ha
    have hd : HasTy twoTypes (fun _ => 1) (.var 0) 1 := by rw [HasTy]
    have hc : HasTy twoTypes (fun _ => 1) (.const ⟨1, 0⟩) 1 := by rw [HasTy]; decide
    have key : ∀ e, HasTy twoTypes (fun _ => 1) e 1 → ArcTy twoTypes (fun _ => 1) 1 (.num 1 [e]) := by
      intro e he
      rw [ArcTy]
      refine ⟨by simp, fun e' he' => ?_⟩
      simp only [List.mem_singleton] at he'
      subst he'
      exact he
    simp only [constNet, List.mem_cons, List.not_mem_nil, or_false] at ht
    rcases ht with rfl | rfl <;> simp only [List.singleton_append, List.mem_cons, List.not_mem_nil, or_false] at ha <;> rcases ha with rfl | rfl
    · exact ⟨by decide, key _ hc, by rw [ArcE.Small]; decide, by rw [ArcE.bound]; decide⟩
    · exact ⟨by decide, key _ hc, by rw [ArcE.Small]; decide, by rw [ArcE.bound]; decide⟩
    · exact ⟨by decide, key _ hd, by rw [ArcE.Small]; decide, by rw [ArcE.bound]; decide⟩
    · exact ⟨by decide, key _ hd, by rw [ArcE.Small]; decide, by rw [ArcE.bound]; decide⟩
  · intro t ht
    simp only [constNet, List.mem_cons, List.not_mem_nil, or_false] at ht
    rcases ht with rfl | rfl <;> exact ⟨by decide, by decide⟩
  · intro t ht a ha b hb _ ρ x
    simp only [constNet, List.mem_cons, List.not_mem_nil, or_false] at ht
    rcases ht with rfl | rfl <;> simp only [List.singleton_append, List.mem_cons, List.not_mem_nil, or_false] at ha hb <;>
      rcases ha with rfl | rfl <;> rcases hb with rfl | rfl <;> rfl

theorem constNet_never {M : CMark} (h : constNet.Reach M) : M 0 [0] = 0 ∧ (∀ x, M 1 x = 0) ∧ ∀ x, M 2 x = 0 := by
  induction h with
  | init =>
    have c1 : twoTypes.value ⟨1, 1⟩ = [1] := by decide
    refine ⟨?_, fun _ => rfl, fun _ => rfl⟩
    show (if twoTypes.value ⟨1, 1⟩ = [0] then 1 else 0) + 0 = 0
    rw [c1]
    rfl
  | @step M L t ρ _ hs ih =>
    obtain ⟨_, h2, _, ⟨h3, _⟩, _⟩ := hs
    have h2 : t < 2 := h2
    have c0 : twoTypes.value ⟨1, 0⟩ = [0] := by decide
    have : t = 0 ∨ t = 1 := by omega
    rcases this with rfl | rfl
    · have := h3 0 [0]
      have e : arcsTokens constNet.net ρ (constNet.net.trans 0).inputs 0 [0] = 1 := by
        show arcsTokens _ ρ [⟨0, .num 1 [.const ⟨1, 0⟩]⟩] 0 [0] = _
        simp only [arcsTokens, List.map_cons, List.map_nil, List.sum_cons, List.sum_nil, tokens, den]
        show (if (0 : Nat) = 0 then 1 * ([twoTypes.value ⟨1, 0⟩].count [0]) else 0) + 0 = 1
        rw [c0]
        rfl
      rw [e, ih.1] at this
      omega
    · have := h3 1 (ρ 0)
      have e : arcsTokens constNet.net ρ (constNet.net.trans 1).inputs 1 (ρ 0) = 1 := by
        show arcsTokens _ ρ [⟨1, .num 1 [.var 0]⟩] 1 (ρ 0) = _
        simp [arcsTokens, tokens, den]
      rw [e, ih.2.1] at this
      omega

/-- **C77** (finding).  Only the number of tokens on the arc is looked at, not their colours.  The transition takes a colour that the place does not
hold, and can never fire; but the rule moves the tokens of the other colour. -/
theorem C77_finding_constant : ¬PreemptRight plainNames := by
  intro h
  have hk := h constNet constNet' _ constNet_neat askTwo constNet_result (.le (.lit 1) (.place 2)) ⟨by decide, by decide⟩
    (fun _ _ h => nomatch h) rfl
  have h0 : constNet'.EF (.le (.lit 1) (.place 2)) := by
    let ρ : Nat → Val := fun _ => [1]
    have c1 : twoTypes.value ⟨1, 1⟩ = [1] := by decide
    have ui : ∀ p x, arcsTokens constNet'.net ρ (constNet'.net.trans 1).inputs p x = if p = 1 ∧ x = [1] then 1 else 0 := by
      intro p x
      show arcsTokens _ ρ [⟨1, .num 1 [.var 0]⟩] p x = _
      simp only [arcsTokens, List.map_cons, List.map_nil, List.sum_cons, List.sum_nil, tokens, den]
      by_cases h1 : p = 1 <;> by_cases h2 : x = [1] <;> simp [h1, h2, ρ, eq_comm]
    have uo : arcsTokens constNet'.net ρ (constNet'.net.trans 1).outputs 2 [1] = 1 := by
      show arcsTokens _ ρ [⟨2, .num 1 [.var 0]⟩] 2 [1] = _
      simp [arcsTokens, tokens, den, ρ]
    have s1 : constNet'.Step constNet'.net.init 1 ρ (constNet'.net.fire constNet'.net.init 1 ρ) := by
      refine ⟨by decide, by decide, ⟨fun v hv => ?_, trivial⟩, ⟨fun p x => ?_, (fun h hm => nomatch hm)⟩, rfl⟩
      · show [1] ∈ twoTypes.values 1
        rw [two_values.1]
        simp
      · rw [ui]
        split
        · rename_i hc
          rw [hc.1, hc.2]
          show 1 ≤ (if twoTypes.value ⟨1, 1⟩ = [1] then 1 else 0) + 0
          rw [c1, if_pos rfl]
          exact Nat.le_refl _
        · exact Nat.zero_le _
    refine ⟨_, Red.Reach.init.step s1, ?_⟩
    show (1 : Int) ≤ (((twoTypes.values 1).map (constNet'.net.fire constNet'.net.init 1 ρ 2)).sum : Nat)
    rw [two_values.1]
    simp only [List.map_cons, List.map_nil, List.sum_cons, List.sum_nil, CNet.fire, uo]
    omega
  obtain ⟨M, hr, hq⟩ := hk.2 h0
  have hq : (1 : Int) ≤ (((twoTypes.values 1).map (M 2)).sum : Nat) := hq
  rw [two_values.1] at hq
  have := (constNet_never hr).2.2
  simp [this] at hq

end CRed
end Verif
