import Verif.CRed.PlaceLemmas
import Verif.CRed.Dots

/-!
# C72, C73: coloured reductions that remove places and dead transitions

`Same R R'` says that the nets are bisimilar with the same transitions fired, and that matching markings agree on all places
that are left; so branching and linear queries about these places keep their answers.  `Keeps` says it of queries EF φ.
-/

namespace Verif
namespace CRed
open CPN XCol

/-- The proposition mentions no place that is left out. -/
def Speaks (R : Red) (φ : XQ) : Prop := ∀ p ∈ qplaces φ, p ∉ R.skP

/-! ### C72 -/

/-- **C72** (redundant places).  If the rule comes to its end, at whatever time it is stopped, the net behaves as before, and
queries whose places the rule knows keep their answers.  The rule may throw instead (`C72_finding_throws`). -/
theorem C72_redundantPlaces_partial {R R' : Red} (w : R.net.WF) (hs : Sorted R.net) {q : Uses} {late : Nat → Bool}
    (h : R.applyRedundantPlaces q late = some R') :
    Same R R' ∧ ∀ φ, Known q φ → Speaks R φ → Keeps R R' φ := by
  obtain ⟨h1, _, _, h4⟩ := redundantPlaces_same q late _ R R' w hs h
  refine ⟨h1, fun φ hk hsp => h1.keeps φ fun p hp hsk => ?_⟩
  rcases h4 p hsk with h | h
  · exact hsp p hp h
  · rw [hk.1 p hp] at h
    cases h

def twoTypes : Types := ⟨fun ty => if ty = 0 then 1 else 2, []⟩

/-- place 0 holds both colours of a type; the transition takes one and gives it back, and takes a token from place 1 -/
def loopNet : Red where
  net := { types := twoTypes
           vty := fun _ => 1
           places := [⟨"p", 1, [(0, 1), (1, 1)]⟩, ⟨"q", 0, [(0, 1)]⟩]
           transitions := [⟨"t", none, [⟨0, .num 1 [.var 0]⟩, ⟨1, .num 1 [.dot]⟩], [⟨0, .num 1 [.var 0]⟩]⟩]
           inhibitors := [] }

def askQ : Uses := ⟨fun p => p == 1, fun _ => false⟩

/-- the rule removes place 0 of this net, and nothing else -/
example : ((loopNet.applyRedundantPlaces askQ fun _ => false).map fun R => (R.skP, R.skT)) = some ([0], []) := by decide +kernel

def prodTypes : Types := ⟨fun ty => if ty = 0 then 1 else 2, [(1, [2, 2])]⟩

/-- a place of a product type that holds all colours; the transition takes `1'x` and gives back `1'(y, z)` -/
def tupleNet : Red where
  net := { types := prodTypes
           vty := fun v => if v = 0 then 1 else 2
           places := [⟨"p", 1, [(0, 1), (1, 1), (2, 1), (3, 1)]⟩, ⟨"q", 0, []⟩]
           transitions := [⟨"t", none, [⟨0, .num 1 [.var 0]⟩], [⟨0, .num 1 [.tuple [.var 1, .var 2]]⟩]⟩]
           inhibitors := [] }

/-- **C72** (finding).  The rule throws on a net where one arc of a place uses a variable of a product type and another one a
tuple of variables. -/
theorem C72_finding_throws : ¬∀ R : Red, R.net.WF → Sorted R.net → ∀ q late, (R.applyRedundantPlaces q late).isSome := by
  intro h
  have w : tupleNet.net.WF := by
    refine ⟨⟨by decide, by decide, by decide⟩, by decide, by decide, ?_, ?_, ?_, by decide, (fun h hm => nomatch hm)⟩
    · intro t ht v hv
      simp only [tupleNet, List.mem_singleton] at ht
      subst ht
      have : v ∈ [0, 1, 2] := by
        have e : (CTrans.vars ⟨"t", none, [⟨0, .num 1 [.var 0]⟩], [⟨0, .num 1 [.tuple [.var 1, .var 2]]⟩]⟩) = [0, 1, 2] := by
          decide +kernel
        rw [e] at hv
        exact hv
      simp only [List.mem_cons, List.not_mem_nil, or_false] at this
      rcases this with rfl | rfl | rfl <;> decide
    · intro t ht g hg
      simp only [tupleNet, List.mem_singleton] at ht
      subst ht
      cases hg
    · intro t ht a ha
      simp only [tupleNet, List.mem_singleton] at ht
      subst ht
      simp only [List.singleton_append, List.mem_cons, List.not_mem_nil, or_false] at ha
      rcases ha with rfl | rfl
      · refine ⟨by decide, ?_, ?_, ?_⟩
        · rw [ArcTy]
          refine ⟨by simp, fun e he => ?_⟩
          simp only [List.mem_singleton] at he
          subst he
          rw [HasTy]
          decide
        · rw [ArcE.Small]; decide
        · rw [ArcE.bound]; decide
      · refine ⟨by decide, ?_, ?_, ?_⟩
        · rw [ArcTy]
          refine ⟨by simp, fun e he => ?_⟩
          simp only [List.mem_singleton] at he
          subst he
          rw [HasTy]
          refine ⟨[2, 2], by decide, ?_⟩
          rw [HasTys]
          refine ⟨2, [2], rfl, by decide, by rw [HasTy]; decide, ?_⟩
          rw [HasTys]
          refine ⟨2, [], rfl, by decide, by rw [HasTy]; decide, ?_⟩
          rw [HasTys]
        · rw [ArcE.Small]; decide
        · rw [ArcE.bound]; decide
  have hs : Sorted tupleNet.net := by
    intro t ht
    simp only [tupleNet, List.mem_singleton] at ht
    subst ht
    exact ⟨by decide, by decide⟩
  have := h tupleNet w hs ⟨fun _ => false, fun _ => false⟩ fun _ => false
  revert this
  decide +kernel

/-! ### C73 -/

/-- The statement of C73, for a given way to read names. -/
def DeadRight (nm : Names) : Prop := ∀ (R R' : Red), R.net.WF → Sorted R.net → ∀ (q : Uses) (late : Nat → Bool),
  R.applyDeadTransitions nm q late = some R' → ∀ φ, Known q φ → Speaks R φ → Keeps R R' φ

/-- **C73** (dead transitions).  If expressions that are printed alike mean the same, and the rule, whenever it has found as
many dead transitions as the place has producers, has found as many as the place has consumers, then the net behaves as
before. -/
theorem C73_deadTransitions_partial {nm : Names} {R R' : Red} (w : R.net.WF) (hs : Sorted R.net) (hr : Readable nm R.net) {q : Uses}
    {late : Nat → Bool} (hc : ∀ s ∈ Red.deadTrace nm q late (List.range R.net.places.length) R,
      s.2.2.length = (s.1.pre s.2.1).length → s.2.2.length = (s.1.post s.2.1).length)
    (h : R.applyDeadTransitions nm q late = some R') :
    Same R R' ∧ ∀ φ, Known q φ → Speaks R φ → Keeps R R' φ := by
  obtain ⟨h1, _, h4⟩ := deadTransitions_same nm q late _ R R' ⟨w, hs, hr⟩ hc h
  refine ⟨h1, fun φ hk hsp => h1.keeps φ fun p hp hsk => ?_⟩
  rcases h4 p hsk with h | h
  · exact hsp p hp h
  · rw [hk.1 p hp] at h
    cases h

/-- **C73** (dead transitions).  The transitions that the rule removes never fire, whatever becomes of the place. -/
theorem C73_removed_dead {nm : Names} {R : Red} (w : R.net.WF) (hs : Sorted R.net) (hr : Readable nm R.net) {p : Nat} {D : List Nat}
    (h : R.deadAt nm p = some D) : ∀ t ∈ D, ∀ M, R.Reach M → ¬R.CanFire M t := by
  intro t ht
  exact (deadAt_dead w hs hr (List.ne_nil_of_mem ht) h).2 t ht

def plainNames : Names := ⟨fun v => "v" ++ toString v, fun c => "c" ++ toString c.id⟩

/-- one token on place 0; transition 0 moves it to place 1, transition 1 takes two tokens from place 0 and gives one back -/
def halfDead : Red := ⟨dnet [1, 0] [([(0, 1)], [(1, 1)]), ([(0, 2)], [(0, 1)])], [], []⟩

def halfDead' : Red := ⟨dnet [1, 0] [([], [(1, 1)]), ([], [])], [0], [1]⟩

theorem halfDead_result : halfDead.applyDeadTransitions plainNames askQ (fun _ => false) = some halfDead' := by rfl

theorem halfDead_never {m : Nat → Nat} (h : DReach [1, 0] [([(0, 1)], [(1, 1)]), ([(0, 2)], [(0, 1)])] [] [] m) : m 0 + m 1 ≤ 1 := by
  refine dinv (fun m => m 0 + m 1 ≤ 1) (by decide) ?_ h
  rintro m t m' hI ⟨τ, ht, _, hen, _, rfl⟩
  have h0 := hen 0
  rcases t with _ | _ | t
  · simp only [List.getElem?_cons_zero, Option.some.injEq] at ht
    subst ht
    simp [wt] at h0 ⊢
    omega
  · simp only [List.getElem?_cons_succ, List.getElem?_cons_zero, Option.some.injEq] at ht
    subst ht
    simp [wt] at h0 ⊢
    omega
  · simp at ht

/-- **C73** (finding).  The rule compares the number of dead transitions with the number of producers of the place instead of
that of its consumers.  Here one of two consumers is dead and is the only producer; the place is removed, and the other
consumer, which could fire once, fires for ever. -/
theorem C73_finding_producers : ¬DeadRight plainNames := by
  intro h
  have w : halfDead.net.WF := dnet_wf (by decide) (by decide) (by decide) (by decide) (by decide)
  have hs : Sorted halfDead.net := dnet_sorted (by decide)
  have hk := h halfDead halfDead' w hs askQ _ halfDead_result (.le (.lit 2) (.place 1)) ⟨by decide, by decide⟩ (fun p _ h => nomatch h)
  unfold Keeps at hk
  rw [ef_dot (R := halfDead) (ms := [1, 0]) (ts := [([(0, 1)], [(1, 1)]), ([(0, 2)], [(0, 1)])]) (hs := []) rfl,
    ef_dot (R := halfDead') (ms := [1, 0]) (ts := [([], [(1, 1)]), ([], [])]) (hs := []) rfl] at hk
  obtain ⟨m, hm, hq⟩ := hk.2 ⟨_, (DReach.init.step (t := 0) ⟨_, rfl, by decide, fun p => by simp [wt], by simp, rfl⟩).step (t := 0)
    ⟨_, rfl, by decide, fun p => by simp [wt], by simp, rfl⟩, by simp [DHolds, DHolds.dval, wt]⟩
  have := halfDead_never hm
  simp [DHolds, DHolds.dval] at hq
  omega

/-- the class of the theorem is inhabited by nets on which the rule removes something -/
def deadNet : Red := ⟨dnet [1, 0] [([(0, 2)], [(0, 1), (1, 1)]), ([(0, 3)], [(0, 3)])], [], []⟩

example : deadNet.net.WF ∧ Sorted deadNet.net ∧ Readable plainNames deadNet.net ∧
    (∀ s ∈ Red.deadTrace plainNames askQ (fun _ => false) (List.range deadNet.net.places.length) deadNet,
      s.2.2.length = (s.1.pre s.2.1).length → s.2.2.length = (s.1.post s.2.1).length) ∧
    ((deadNet.applyDeadTransitions plainNames askQ fun _ => false).map fun R => (R.skP, R.skT)) = some ([0], [1, 0]) :=
  ⟨dnet_wf (by decide) (by decide) (by decide) (by decide) (by decide), dnet_sorted (by decide), dnet_readable _, by decide +kernel,
    by decide +kernel⟩

/-- variable and colour have the same name -/
def sameNames : Names := ⟨fun _ => "a", fun c => if c.id = 0 then "a" else "b"⟩

/-- place 0 holds colour 1 (`b`); transition 0 exchanges a token of any colour `x` for one of colour 0 (`a`), transition 1 moves a
token of colour 0 to place 1; the variable is called `a` as well -/
def nameNet : Red where
  net := { types := twoTypes
           vty := fun _ => 1
           places := [⟨"p", 1, [(1, 1)]⟩, ⟨"q", 0, []⟩]
           transitions := [⟨"t", none, [⟨0, .num 1 [.var 0]⟩], [⟨0, .num 1 [.const ⟨1, 0⟩]⟩]⟩,
             ⟨"u", none, [⟨0, .num 1 [.const ⟨1, 0⟩]⟩], [⟨1, .num 1 [.dot]⟩]⟩]
           inhibitors := [] }

def nameNet' : Red where
  net := { types := twoTypes
           vty := fun _ => 1
           places := [⟨"p", 1, [(1, 1)]⟩, ⟨"q", 0, []⟩]
           transitions := [⟨"t", none, [⟨0, .num 1 [.var 0]⟩], [⟨0, .num 1 [.const ⟨1, 0⟩]⟩]⟩, ⟨"u", none, [], []⟩]
           inhibitors := [] }
  skT := [1]

theorem nameNet_result : nameNet.applyDeadTransitions sameNames ⟨fun _ => true, fun _ => false⟩ (fun _ => false) = some nameNet' := by rfl

theorem nameNet_wf : nameNet.net.WF := by
  refine ⟨⟨by decide, by decide, by decide⟩, by decide, by decide, ?_, ?_, ?_, by decide, (fun h hm => nomatch hm)⟩
  · intro t ht v hv
    show 0 < twoTypes.size 1
    decide
  · intro t ht g hg
    simp only [nameNet, List.mem_cons, List.not_mem_nil, or_false] at ht
    rcases ht with rfl | rfl <;> cases hg
  · intro t ht a ha
    have hd : ∀ e : CExpr, e = .var 0 ∨ e = .const ⟨1, 0⟩ → HasTy twoTypes (fun _ => 1) e 1 := by
      rintro e (rfl | rfl) <;> rw [HasTy] <;> decide
    have hdot : HasTy twoTypes (fun _ => 1) .dot 0 := by rw [HasTy]; decide
    have key : ∀ p e, p < 2 → HasTy nameNet.net.types nameNet.net.vty e (nameNet.net.place p).ty →
        p < nameNet.net.places.length ∧ ArcTy nameNet.net.types nameNet.net.vty (nameNet.net.place p).ty (.num 1 [e]) ∧
        (ArcE.num 1 [e]).Small ∧ (ArcE.num 1 [e]).bound < 2 ^ 31 := by
      intro p e hp he
      refine ⟨hp, ?_, ?_, ?_⟩
      · rw [ArcTy]
        refine ⟨by simp, fun e' he' => ?_⟩
        simp only [List.mem_singleton] at he'
        subst he'
        exact he
      · rw [ArcE.Small]; simp only [List.length_cons, List.length_nil]; decide
      · rw [ArcE.bound]; simp only [List.length_cons, List.length_nil]; decide
    simp only [nameNet, List.mem_cons, List.not_mem_nil, or_false] at ht
    rcases ht with rfl | rfl
    · simp only [List.singleton_append, List.mem_cons, List.not_mem_nil, or_false] at ha
      rcases ha with rfl | rfl
      · exact key 0 _ (by decide) (hd _ (Or.inl rfl))
      · exact key 0 _ (by decide) (hd _ (Or.inr rfl))
    · simp only [List.singleton_append, List.mem_cons, List.not_mem_nil, or_false] at ha
      rcases ha with rfl | rfl
      · exact key 0 _ (by decide) (hd _ (Or.inr rfl))
      · exact key 1 _ (by decide) hdot

theorem nameNet_sorted : Sorted nameNet.net := by
  intro t ht
  simp only [nameNet, List.mem_cons, List.not_mem_nil, or_false] at ht
  rcases ht with rfl | rfl <;> exact ⟨by decide, by decide⟩

/-- **C73** (finding).  Expressions are compared by their texts.  Here a variable and a colour have the same name: the transition
that turns `b` into `a` passes for one that gives back what it took, and the transition that needs `a` for dead. -/
theorem C73_finding_names : ¬DeadRight sameNames := by
  intro h
  have hk := h nameNet nameNet' nameNet_wf nameNet_sorted ⟨fun _ => true, fun _ => false⟩ _ nameNet_result (.le (.lit 1) (.place 1))
    ⟨by decide, by decide⟩ (fun p _ h => nomatch h)
  unfold Keeps at hk
  have h0 : nameNet.EF (.le (.lit 1) (.place 1)) := by
    let ρ : Nat → Val := fun _ => [1]
    let M1 := nameNet.net.fire nameNet.net.init 0 ρ
    let M2 := nameNet.net.fire M1 1 ρ
    have ti : ∀ p x, arcsTokens nameNet.net ρ (nameNet.net.trans 0).inputs p x = if p = 0 ∧ x = [1] then 1 else 0 := by
      intro p x
      show arcsTokens _ ρ [⟨0, .num 1 [.var 0]⟩] p x = _
      simp only [arcsTokens, List.map_cons, List.map_nil, List.sum_cons, List.sum_nil, tokens, den]
      by_cases h1 : p = 0 <;> by_cases h2 : x = [1] <;> simp [h1, h2, ρ, eq_comm]
    have c0 : nameNet.net.types.value ⟨1, 0⟩ = [0] := by decide
    have tO : ∀ p x, arcsTokens nameNet.net ρ (nameNet.net.trans 0).outputs p x = if p = 0 ∧ x = [0] then 1 else 0 := by
      intro p x
      show arcsTokens _ ρ [⟨0, .num 1 [.const ⟨1, 0⟩]⟩] p x = _
      simp only [arcsTokens, List.map_cons, List.map_nil, List.sum_cons, List.sum_nil, tokens, den, c0]
      by_cases h1 : p = 0 <;> by_cases h2 : x = [0] <;> simp [h1, h2, eq_comm]
    have ui : ∀ p x, arcsTokens nameNet.net ρ (nameNet.net.trans 1).inputs p x = if p = 0 ∧ x = [0] then 1 else 0 := by
      intro p x
      show arcsTokens _ ρ [⟨0, .num 1 [.const ⟨1, 0⟩]⟩] p x = _
      simp only [arcsTokens, List.map_cons, List.map_nil, List.sum_cons, List.sum_nil, tokens, den, c0]
      by_cases h1 : p = 0 <;> by_cases h2 : x = [0] <;> simp [h1, h2, eq_comm]
    have uo : ∀ p x, arcsTokens nameNet.net ρ (nameNet.net.trans 1).outputs p x = if p = 1 ∧ x = [0] then 1 else 0 := by
      intro p x
      show arcsTokens _ ρ [⟨1, .num 1 [.dot]⟩] p x = _
      simp only [arcsTokens, List.map_cons, List.map_nil, List.sum_cons, List.sum_nil, tokens, den]
      by_cases h1 : p = 1 <;> by_cases h2 : x = [0] <;> simp [h1, h2, eq_comm]
    have s1 : nameNet.Step nameNet.net.init 0 ρ M1 := by
      refine ⟨by decide, by decide, ⟨fun v _ => by show [1] ∈ twoTypes.values 1; decide, trivial⟩, ⟨fun p x => ?_, (fun h hm => nomatch hm)⟩, rfl⟩
      rw [ti]
      split
      · rename_i hc
        rw [hc.1, hc.2]
        decide
      · exact Nat.zero_le _
    have s2 : nameNet.Step M1 1 ρ M2 := by
      refine ⟨by decide, by decide, ⟨fun v _ => by show [1] ∈ twoTypes.values 1; decide, trivial⟩, ⟨fun p x => ?_, (fun h hm => nomatch hm)⟩, rfl⟩
      rw [ui]
      split
      · rename_i hc
        show 1 ≤ _ - _ + arcsTokens nameNet.net ρ (nameNet.net.trans 0).outputs p x
        rw [tO, if_pos hc]
        omega
      · exact Nat.zero_le _
    refine ⟨M2, (Red.Reach.init.step s1).step s2, ?_⟩
    show (1 : Int) ≤ ((nameNet.net.total M2 1 : Nat) : Int)
    have : nameNet.net.total M2 1 = M2 1 [0] := by
      unfold CNet.total
      have : nameNet.net.types.values (nameNet.net.place 1).ty = [[0]] := by decide
      rw [this]
      simp
    rw [this]
    have : 1 ≤ M2 1 [0] := by
      show 1 ≤ _ - _ + arcsTokens nameNet.net ρ (nameNet.net.trans 1).outputs 1 [0]
      rw [uo, if_pos ⟨rfl, rfl⟩]
      omega
    omega
  obtain ⟨M, hM, hq⟩ := hk.1 h0
  have hinv : ∀ M, nameNet'.Reach M → M 1 [0] = 0 := by
    intro M hM
    induction hM with
    | init => decide
    | @step M M' t ρ hr hst ih =>
      obtain ⟨hsk, ht, _, _, rfl⟩ := hst
      have : t = 0 := by
        have h1 : t < 2 := ht
        have h2 : t ≠ 1 := fun e => hsk (by rw [e]; decide)
        omega
      subst this
      unfold CNet.fire
      have hz : ∀ a ∈ (nameNet'.net.trans 0).outputs, a.place ≠ 1 := by
        intro a ha
        have : a = ⟨0, .num 1 [.const ⟨1, 0⟩]⟩ := by simpa [nameNet', CNet.trans] using ha
        rw [this]
        decide
      rw [ih, arcsTokens_zero hz]
      omega
  have h1 : (1 : Int) ≤ ((nameNet'.net.total M 1 : Nat) : Int) := hq
  have : nameNet'.net.total M 1 = M 1 [0] := by
    unfold CNet.total
    have : nameNet'.net.types.values (nameNet'.net.place 1).ty = [[0]] := by decide
    rw [this]
    simp
  rw [this, hinv M hM] at h1
  omega

end CRed
end Verif
