import Verif.Props.ExplicitColored

/-!
# Nets and queries on which the explicit coloured engine goes wrong

Witnesses for the conditions of C51, C52 and C53: each of them is needed.
-/

namespace Verif
namespace ExplicitColoredProps
open XCol Colored CPN OffsetsProps

/-- all that the generator yields in the initial state -/
def initSucc (X : XNet) : Option (List (Nat × XMark)) := drain X X.init 0 9 (Gen.new X false) fun _ => none

/-! ## Constant tuples -/

namespace Constant

/-- `t` puts the token (a0, b4) on a place of the type A × B, of two and five colours. -/
def net : CNet where
  types := ⟨fun ty => if ty = 0 then 1 else if ty = 1 then 2 else 5, [(3, [1, 2])]⟩
  vty := fun _ => 1
  places := [⟨"P", 3, []⟩]
  transitions := [⟨"t", none, [], [⟨0, .num 1 [.tuple [.const ⟨1, 0⟩, .const ⟨2, 4⟩]]⟩]⟩]
  inhibitors := []

end Constant

/-- Finding: the components of a constant tuple are all reduced with the number of colours of the first type, so that another token
is put on the place.  The full claim of C51 is false. -/
theorem C51_finding_constant : ∃ (N : CNet) (X : XNet) (l : List (Nat × XMark)), build N = some X ∧ initSucc X = some l ∧
    ∃ e ∈ l, ∀ ρ, ¬N.Step N.init e.1 ρ (abs N e.2) := by
  have hb : (build Constant.net).isSome = true := by decide +kernel
  obtain ⟨X, hX⟩ := Option.isSome_iff_exists.1 hb
  have h1 : ((build Constant.net).bind fun X => (initSucc X).map (List.map fun e => (e.1, (e.2 0).val 4))) = some [(0, 0)] := by decide +kernel
  rw [hX] at h1
  dsimp only [Option.bind] at h1
  obtain ⟨l, h2, h3⟩ := Option.map_eq_some_iff.1 h1
  refine ⟨_, X, l, hX, h2, ?_⟩
  · obtain ⟨e, rfl, h4⟩ := List.map_eq_singleton_iff.1 h3
    have h3 : e.1 = 0 ∧ (e.2 0).val 4 = 0 := by simpa using h4
    refine ⟨e, by simp, fun ρ hs => ?_⟩
    rw [h3.1] at hs
    have := congrFun (congrFun hs.2.2.2 0) [0, 4]
    have hr : rank (Constant.net.types.dims (Constant.net.place 0).ty) [0, 4] = 4 := by decide
    have hv : [0, 4] ∈ Constant.net.types.values (Constant.net.place 0).ty := by decide
    have ht : tokens Constant.net.types Constant.net.vty ρ (.num 1 [.tuple [.const ⟨1, 0⟩, .const ⟨2, 4⟩]]) [0, 4] = 1 := by
      have a1 : Constant.net.types.value ⟨1, 0⟩ = [0] := by decide
      have a2 : Constant.net.types.value ⟨2, 4⟩ = [4] := by decide
      simp [tokens, den, denL, a1, a2]
    have hf : Constant.net.fire Constant.net.init 0 ρ 0 [0, 4] = 1 := by
      have hi : Constant.net.init 0 [0, 4] = 0 := by decide
      unfold CNet.fire
      rw [hi]
      show 0 - arcsTokens Constant.net ρ [] 0 [0, 4] + arcsTokens Constant.net ρ [⟨0, .num 1 [.tuple [.const ⟨1, 0⟩, .const ⟨2, 4⟩]]⟩] 0 [0, 4] = 1
      simp only [arcsTokens, List.map_nil, List.sum_nil, List.map_cons, List.sum_cons, if_true]
      rw [ht]; rfl
    rw [hf] at this
    unfold XCol.abs at this
    rw [if_pos hv, hr, h3.2] at this
    cases this

/-! ## Subtractions -/

namespace Subtraction

/-- `t` takes two tokens of colour 0, and not the one of colour 1. -/
def net : CNet where
  types := ⟨fun ty => if ty = 0 then 1 else 3, []⟩
  vty := fun _ => 1
  places := [⟨"P", 1, [(0, 2)]⟩]
  transitions := [⟨"t", none, [⟨0, .sub (.num 2 [.const ⟨1, 0⟩]) (.num 1 [.const ⟨1, 1⟩])⟩], []⟩]
  inhibitors := []

theorem step : net.Step net.init 0 (fun _ => [0]) (net.fire net.init 0 fun _ => [0]) := by
  refine ⟨by decide, ⟨by decide, trivial⟩, ⟨fun p x => ?_, by decide⟩, rfl⟩
  have a0 : net.types.value ⟨1, 0⟩ = [0] := by decide
  match p with
  | 0 =>
    show arcsTokens net (fun _ => [0]) [⟨0, .sub (.num 2 [.const ⟨1, 0⟩]) (.num 1 [.const ⟨1, 1⟩])⟩] 0 x ≤
      ([(0, 2)].map fun q : Nat × Nat => if net.types.value ⟨1, q.1⟩ = x then q.2 else 0).sum
    simp only [arcsTokens, List.map_cons, List.map_nil, List.sum_cons, List.sum_nil, if_true, tokens, den, a0, List.count_singleton, beq_iff_eq]
    by_cases hx : [0] = x
    · simp [hx]
    · rw [if_neg hx]; simp
  | p + 1 =>
    show arcsTokens net (fun _ => [0]) [⟨0, .sub (.num 2 [.const ⟨1, 0⟩]) (.num 1 [.const ⟨1, 1⟩])⟩] (p + 1) x ≤ _
    simp [arcsTokens]

end Subtraction

/-- Finding: the marking that is compared before the bindings are tried may have negative entries, for which the comparison fails: an
enabled transition is not fired. -/
theorem C51_finding_subtraction : ∃ (N : CNet) (X : XNet), build N = some X ∧ initSucc X = some [] ∧ ∃ t ρ M', N.Step N.init t ρ M' := by
  have hb : ((build Subtraction.net).map fun X => ((initSucc X).map List.length)) = some (some 0) := by decide +kernel
  obtain ⟨X, hX, h1⟩ := Option.map_eq_some_iff.1 hb
  obtain ⟨l, h2, h3⟩ := Option.map_eq_some_iff.1 h1
  refine ⟨_, X, hX, ?_, _, _, _, Subtraction.step⟩
  rw [h2, List.length_eq_zero_iff.1 h3]

/-! ## Two arcs -/

namespace TwoArcs

/-- `t` takes two tokens of colour 0 from `P`, by two arcs; there is one. -/
def net : CNet where
  types := ⟨fun ty => if ty = 0 then 1 else 3, []⟩
  vty := fun _ => 1
  places := [⟨"P", 1, [(0, 1)]⟩]
  transitions := [⟨"t", none, [⟨0, .num 1 [.const ⟨1, 0⟩]⟩, ⟨0, .num 1 [.const ⟨1, 0⟩]⟩], []⟩]
  inhibitors := []

theorem no_step (ρ : Nat → Val) (M' : CMark) : ¬net.Step net.init 0 ρ M' := by
  rintro ⟨_, _, ⟨h, _⟩, _⟩
  have := h 0 [0]
  have a0 : net.types.value ⟨1, 0⟩ = [0] := by decide
  have hi : net.init 0 [0] = 1 := by decide
  rw [hi] at this
  have ht : arcsTokens net ρ [⟨0, .num 1 [.const ⟨1, 0⟩]⟩, ⟨0, .num 1 [.const ⟨1, 0⟩]⟩] 0 [0] = 2 := by
    simp [arcsTokens, tokens, den, a0]
  have h' : arcsTokens net ρ (net.trans 0).inputs 0 [0] = 2 := ht
  omega

end TwoArcs

/-- Finding: several input arcs from one place are compared with the marking one by one: a transition that is not enabled is fired. -/
theorem C51_finding_two_arcs : ∃ (N : CNet) (X : XNet) (l : List (Nat × XMark)), build N = some X ∧ initSucc X = some l ∧
    ∃ e ∈ l, ∀ ρ M', ¬N.Step N.init e.1 ρ M' := by
  have hb : ((build TwoArcs.net).map fun X => ((initSucc X).map (List.map fun e => e.1))) = some (some [0]) := by decide +kernel
  obtain ⟨X, hX, h1⟩ := Option.map_eq_some_iff.1 hb
  obtain ⟨l, h2, h3⟩ := Option.map_eq_some_iff.1 h1
  refine ⟨_, X, l, hX, h2, ?_⟩
  · obtain ⟨e, rfl, h4⟩ := List.map_eq_singleton_iff.1 h3
    exact ⟨e, by simp, by rw [h4]; exact TwoArcs.no_step⟩

/-! ## Variables of product types -/

namespace ProductVariable

/-- `t` takes any token; the type A × A has 36 colours, and `P` has the token (0, 1), whose number is 6. -/
def net : CNet where
  types := ⟨fun ty => if ty = 0 then 1 else 6, [(2, [1, 1])]⟩
  vty := fun _ => 2
  places := [⟨"P", 2, [(6, 1)]⟩]
  transitions := [⟨"t", none, [⟨0, .num 1 [.var 0]⟩], []⟩]
  inhibitors := []

theorem step : net.Step net.init 0 (fun _ => [0, 1]) (net.fire net.init 0 fun _ => [0, 1]) := by
  have a0 : net.types.value ⟨2, 6⟩ = [0, 1] := by decide
  refine ⟨by decide, ⟨fun v _ => ?_, trivial⟩, ⟨fun p x => ?_, by decide⟩, rfl⟩
  · have : [0, 1] ∈ net.types.values 2 := by decide
    exact this
  match p with
  | 0 =>
    show arcsTokens net (fun _ => [0, 1]) [⟨0, .num 1 [.var 0]⟩] 0 x ≤ ([(6, 1)].map fun q : Nat × Nat => if net.types.value ⟨2, q.1⟩ = x then q.2 else 0).sum
    simp only [arcsTokens, List.map_cons, List.map_nil, List.sum_cons, List.sum_nil, if_true, tokens, den, a0, List.count_singleton, beq_iff_eq]
    by_cases hx : [0, 1] = x
    · simp [hx]
    · rw [if_neg hx]
  | p + 1 =>
    show arcsTokens net (fun _ => [0, 1]) [⟨0, .num 1 [.var 0]⟩] (p + 1) x ≤ _
    simp [arcsTokens]

end ProductVariable

/-- Finding: with more than 30 bindings the values of a variable are taken from the first component of the tokens, also when the
variable stands for the whole token: an enabled transition is not fired. -/
theorem C51_finding_product_variable : ∃ (N : CNet) (X : XNet), build N = some X ∧ initSucc X = some [] ∧ ∃ t ρ M', N.Step N.init t ρ M' := by
  have hb : ((build ProductVariable.net).map fun X => ((initSucc X).map List.length)) = some (some 0) := by decide +kernel
  obtain ⟨X, hX, h1⟩ := Option.map_eq_some_iff.1 hb
  obtain ⟨l, h2, h3⟩ := Option.map_eq_some_iff.1 h1
  refine ⟨_, X, hX, ?_, _, _, _, ProductVariable.step⟩
  rw [h2, List.length_eq_zero_iff.1 h3]

/-- Finding: the keys of the cache hold 16 bits of the transition and 48 of the state. -/
theorem C51_finding_keys : getKey 0 65536 = getKey 0 0 ∧ getKey (2 ^ 48) 0 = getKey 0 0 := by decide

/-! ## Verdicts -/

namespace ManyPlaces

def net (n : Nat) : CNet where
  types := ⟨fun _ => 1, []⟩
  vty := fun _ => 0
  places := List.replicate n ⟨"P", 0, []⟩
  transitions := []
  inhibitors := []

def X (n : Nat) : XNet where
  np := (net n).places.length
  dims := fun p => xdims (net n).types ((net n).place p).ty
  vsize := fun v => (net n).types.size ((net n).vty v)
  trans := []
  init := fun p => if p < (net n).places.length then placeInit (net n).types ((net n).place p) else MS.empty

theorem built (n : Nat) : build (net n) = some (X n) := rfl

theorem place (n p : Nat) : ((net n).place p).ty = 0 ∧ ((net n).place p).marking = [] := by
  unfold CNet.place net
  dsimp only
  rw [List.getD_eq_getElem?_getD, List.getElem?_replicate]
  split <;> exact ⟨rfl, rfl⟩

theorem init (n p : Nat) : (X n).init p = MS.empty := by
  unfold X
  dsimp only
  split
  · unfold placeInit; rw [(place n p).2]; rfl
  · rfl

theorem map_range_const {α : Type} (a : α) (n : Nat) : ((List.range n).map fun _ => a) = List.replicate n a := by
  rw [List.map_const', List.length_range]

theorem not_fits {n : Nat} (h : 65535 < n) : (X n).fits (X n).init = false := by
  have h1 : (X n).row (X n).init = List.replicate n MS.empty := by
    unfold XNet.row
    rw [← map_range_const]
    have : (X n).np = n := by simp [X, net]
    rw [this]
    exact List.map_congr_left fun p _ => init n p
  have h2 : (X n).sizes = List.replicate n 1 := by
    unfold XNet.sizes
    rw [← map_range_const]
    have : (X n).np = n := by simp [X, net]
    rw [this]
    refine List.map_congr_left fun p _ => ?_
    unfold X
    dsimp only
    rw [(place n p).1]
    rfl
  unfold XNet.fits complete
  rw [h1, h2]
  have := ColEncoderProps.allBytes_replicate n [] []
  rw [List.append_nil, List.append_nil] at this
  rw [this]
  simp [allBytes, maxLen]
  omega

theorem holds (n : Nat) : XCol.Holds (net n) false (.eq (.place 0) (.lit 0)) := by
  unfold XCol.Holds
  rw [if_neg (by simp)]
  intro M hM
  have : M = (net n).init := by
    induction hM with
    | init => rfl
    | step _ hs _ => exact absurd hs.1 (by simp [net])
  subst this
  show ((net n).total (net n).init 0 : Int) = 0
  have : (net n).total (net n).init 0 = 0 := by
    unfold CNet.total
    have hz : (net n).init 0 = fun _ => 0 := by
      funext x
      unfold CNet.init
      rw [(place n 0).2]
      rfl
    rw [hz]
    simp
  rw [this]; rfl

theorem run (n : Nat) : search (X n) (.eq (.place 0) (.lit 0)) false false (fun _ => (0, 0)) 0 = some ⟨false, (X n).fits (X n).init, 0, []⟩ := by
  unfold search
  have he : (XQ.eval (X n) (X n).init 0 (.eq (.place 0) (.lit 0)) fun _ => none).2 = true := by
    show decide (((X n).init 0).card = (0 : Int) % 2 ^ 32) = true
    rw [init]
    decide
  dsimp only
  rw [he]
  rw [if_neg (by simp)]
  rw [if_pos (show (X n).trans.length = 0 from rfl)]

end ManyPlaces

/-- Finding: when an encoding was cut the search knows that it does not know, but the answer is that the query is not satisfied.  The
full claim of C52 is false: here the query is AG, and it holds. -/
theorem C52_finding_unknown : ∃ (N : CNet) (X : XNet) (q : XQ) (r : SRes), build N = some X ∧ q.fine ∧
    search X q false false (fun _ => (0, 0)) 0 = some r ∧ resultOf false r = .unknown ∧ answer false r = false ∧ XCol.Holds N false q := by
  refine ⟨ManyPlaces.net 65536, ManyPlaces.X 65536, .eq (.place 0) (.lit 0), ⟨false, (ManyPlaces.X 65536).fits (ManyPlaces.X 65536).init, 0, []⟩,
    ManyPlaces.built _, ⟨trivial, ⟨by omega, by omega⟩⟩, ?_, ?_, ?_, ManyPlaces.holds _⟩
  · exact ManyPlaces.run 65536
  · unfold resultOf
    rw [ManyPlaces.not_fits (by omega)]
    rfl
  · unfold answer resultOf
    rw [ManyPlaces.not_fits (by omega)]
    rfl

/-- Finding: negative literals are converted to great ones: AG (−1 ≤ P) is answered with no. -/
theorem C52_finding_negative : ∃ (N : CNet) (X : XNet) (q : XQ) (r : SRes), build N = some X ∧
    search X q false false (fun _ => (0, 0)) 0 = some r ∧ answer false r = false ∧ XCol.Holds N false q := by
  refine ⟨ManyPlaces.net 1, ManyPlaces.X 1, .le (.lit (-1)) (.place 0), ⟨true, (ManyPlaces.X 1).fits (ManyPlaces.X 1).init, 0, []⟩,
    ManyPlaces.built _, ?_, rfl, ?_⟩
  · unfold search
    have he : (XQ.eval (ManyPlaces.X 1) (ManyPlaces.X 1).init 0 (.le (.lit (-1)) (.place 0)) fun _ => none).2 = false := by decide
    dsimp only
    rw [if_pos he]
  · unfold XCol.Holds
    rw [if_neg (by simp)]
    intro M _
    show (-1 : Int) ≤ ((ManyPlaces.net 1).total M 0 : Int)
    omega

end ExplicitColoredProps
end Verif
