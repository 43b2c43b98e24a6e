import Verif.CTL.EncodeRed
import Verif.Props.FixedPoint
import Verif.Props.LocalFixedPoint
import Verif.Net.Examples
import Mathlib.Data.Finite.Prod

/-!
# C26 and C41: the dependency graph of a CTL query, and CTL verification

`netGens` is the graph the engine builds for a net; `Sat N.ts m f` is the meaning of CTL.  `CtlF` says
that the query has the operators the graph knows (those left by the rewriting of C18), `Small` that no
reachable marking makes the 32-bit overflow check fire.  With partial-order reduction (`po = true`) the
first theorems assume that the reduced generator keeps shortest ways to a goal (`RedOK`); those named
`_stubborn` are about the generator of the code (C24), which does so for queries that satisfy `EfOK`.
-/

namespace Verif
namespace CtlEngineProps
open PQL CTL

variable (N : FlatNet) (w : N.WF) (m0 : Mark) (hs : Small N m0)
  (po : Bool) (red : Cond → List Nat → List (List Nat)) (hred : po = true → RedOK N m0 red)
  (l0 : List Nat) (hl0 : l0.length = N.nplaces) (he0 : toMark l0 = m0)
  (φ : Cond) (hφ : CtlF φ)

section
include w hs hred hφ

/-- **C26**.  In the solution of the graph of the query, every configuration the engine can meet is true
exactly if its marking satisfies its subformula.  The configurations met are those reachable in the graph
from one at the top of the query, where the query is not a negation that evaluation settles. -/
theorem C26_graph_encodes_ctl (V : Conf → Prop) (hV : (dg (netGens N po red) φ).Solution V)
    (l : List Nat) (hl : l.length = N.nplaces) (hr : N.toNet.Reach m0 (toMark l))
    (hroot : (∀ c, φ ≠ .not c) ∨ (netGens N po red).ev φ l = .rUnknown)
    (v : Conf) (hv : (dg (netGens N po red) φ).Reach (l, []) v) :
    ∃ f, subAt φ v.2 = some f ∧ (V v ↔ Sat N.ts (toMark v.1) f) := by
  have hg := netGens_ok w hs po red hred
  have hsol := dg_solutionOn hg hφ
  obtain ⟨B, hB⟩ := nots_bounded φ
  obtain ⟨V', hV', hR⟩ := hsol.extend (dg_layered _ φ) (B := B) fun v => hB v.2
  have hvR : RConf (netGens N po red) (StoredOK N m0) φ v := by
    induction hv with
    | refl => exact ⟨⟨hl, hr⟩, φ, rfl, hroot.elim (fun h => .inr ⟨rfl, h⟩) .inl⟩
    | step _ he ht ih => exact hsol.closed _ ih _ he _ ht
  obtain ⟨f, hf, _⟩ := hvR.2
  refine ⟨f, hf, ?_⟩
  rw [Graph.Solution.unique (dg_layered _ φ) (B := B) (fun v => hB v.2) hV hV' v, hR v hvR]
  exact vconf_iff hf

/-- **C26**, existence: the graph of a query has a solution, and only one. -/
theorem C26_solution_exists : ∃ V, (dg (netGens N po red) φ).Solution V ∧
    ∀ V', (dg (netGens N po red) φ).Solution V' → ∀ v, V v ↔ V' v := by
  obtain ⟨B, hB⟩ := nots_bounded φ
  obtain ⟨V, hV⟩ := Graph.exists_solution (dg_layered (netGens N po red) φ) (B := B) fun v => hB v.2
  exact ⟨V, hV, fun V' hV' v => Graph.Solution.unique (dg_layered _ φ) (B := B) (fun v => hB v.2) hV hV' v⟩

include hl0 he0

/-- **C41**.  Whenever the engine ends, in whatever order it takes edges and with either algorithm, its
answer is whether the initial marking satisfies the query. -/
theorem C41_ctl_correct (a : Algo) (addr : EId Conf → Nat) (pick : Nat → List (EId Conf) → Nat) (fuel : Nat)
    (b : Bool) (h : ctlMain (netGens N po red) φ l0 a addr pick fuel = some b) :
    b = true ↔ Sat N.ts m0 φ := by
  have hg := netGens_ok w hs po red hred
  have hok : StoredOK N m0 l0 := ⟨hl0, by rw [he0]; exact .refl _ _⟩
  unfold ctlMain at h
  cases hev : (netGens N po red).ev φ l0 with
  | rTrue =>
    rw [hev] at h; cases h
    have := hg.evT hok hev
    rw [he0] at this; simp [this]
  | rFalse =>
    rw [hev] at h; cases h
    have := hg.evF hok hev
    rw [he0] at this; simp [this]
  | rUnknown =>
    rw [hev] at h
    obtain ⟨V, hV, _⟩ := C26_solution_exists N w m0 hs po red hred φ hφ
    obtain ⟨f, hf, hiff⟩ := C26_graph_encodes_ctl N w m0 hs po red hred φ hφ V hV l0 hok.1 hok.2 (.inr hev)
      (l0, []) .refl
    cases hf
    rw [he0] at hiff
    refine Iff.trans ?_ hiff
    cases a with
    | certainZero => exact certainZero_correct_partial _ _ (dg_layered _ φ) V hV (l0, []) rfl addr pick fuel b h
    | localFPA => exact localFPA_correct_partial _ _ (dg_layered _ φ) V hV (l0, []) rfl addr pick fuel b h

/-- C41 for the single engine call on a query that is not a negation (as `recursiveSolve` makes it). -/
theorem C41_single_correct (hn : ∀ c, φ ≠ .not c) (a : Algo) (addr : EId Conf → Nat)
    (pick : Nat → List (EId Conf) → Nat) (fuel : Nat)
    (b : Bool) (h : singleSolve (netGens N po red) φ l0 a addr pick fuel = some b) :
    b = true ↔ Sat N.ts m0 φ := by
  obtain ⟨V, hV, _⟩ := C26_solution_exists N w m0 hs po red hred φ hφ
  obtain ⟨f, hf, hiff⟩ := C26_graph_encodes_ctl N w m0 hs po red hred φ hφ V hV l0 hl0
    (by rw [he0]; exact .refl _ _) (.inl hn) (l0, []) .refl
  cases hf
  rw [he0] at hiff
  refine Iff.trans ?_ hiff
  cases a with
  | certainZero => exact certainZero_correct_partial _ _ (dg_layered _ φ) V hV (l0, []) rfl addr pick fuel b h
  | localFPA => exact localFPA_correct_partial _ _ (dg_layered _ φ) V hV (l0, []) rfl addr pick fuel b h

/-- **C41**, termination: with finitely many reachable markings the engine ends, with the right answer, in
whatever order it takes edges. -/
theorem C41_ctl_total (hfin : {m | N.toNet.Reach m0 m}.Finite) (a : Algo) (addr : EId Conf → Nat)
    (pick : Nat → List (EId Conf) → Nat) :
    ∃ n b, (b = true ↔ Sat N.ts m0 φ) ∧
      ∀ fuel, n ≤ fuel → ctlMain (netGens N po red) φ l0 a addr pick fuel = some b := by
  have hg := netGens_ok w hs po red hred
  have hok : StoredOK N m0 l0 := ⟨hl0, by rw [he0]; exact .refl _ _⟩
  have hc := C41_ctl_correct N w m0 hs po red hred l0 hl0 he0 φ hφ a addr pick
  have main : ∃ n b, ∀ fuel, n ≤ fuel → ctlMain (netGens N po red) φ l0 a addr pick fuel = some b := by
    cases hev : (netGens N po red).ev φ l0 with
    | rTrue => exact ⟨0, true, fun fuel _ => by simp [ctlMain, hev]⟩
    | rFalse => exact ⟨0, false, fun fuel _ => by simp [ctlMain, hev]⟩
    | rUnknown =>
      obtain ⟨V, hV, _⟩ := C26_solution_exists N w m0 hs po red hred φ hφ
      -- the configurations reachable in the graph
      have hL : {l | StoredOK N m0 l}.Finite :=
        Set.Finite.of_finite_image (f := toMark) (hfin.subset (by
          rintro _ ⟨l, hl, rfl⟩; exact hl.2)) (fun l hl l' hl' he => hg.inj l l' hl hl' he)
      have hfc : {v : Conf | StoredOK N m0 v.1 ∧ (subAt φ v.2).isSome}.Finite :=
        (Set.Finite.prod hL (positions_finite φ)).subset fun v hv => ⟨hv.1, hv.2⟩
      let R := hfc.toFinset.toList
      have hmem : ∀ v, v ∈ R ↔ StoredOK N m0 v.1 ∧ (subAt φ v.2).isSome := by
        intro v; simp [R]
      have hroot : (l0, []) ∈ R := (hmem _).2 ⟨hok, rfl⟩
      have hR : ∀ c ∈ R, ∀ x ∈ (dg (netGens N po red) φ).succ c, ∀ t ∈ x.targets, t ∈ R := by
        intro c hcR x hx t ht
        obtain ⟨h1, h2⟩ := (hmem c).1 hcR
        obtain ⟨f, hf⟩ := Option.isSome_iff_exists.1 h2
        simp only [dg, hf] at hx
        by_cases hN : ∃ d, f = .not d
        · obtain ⟨d, rfl⟩ := hN
          simp only [succOf, add_new (operand_ne c 0), Bool.false_eq_true, if_false, List.mem_singleton] at hx
          subst hx
          simp only [List.mem_singleton] at ht
          subst ht
          exact (hmem _).2 ⟨h1, Option.isSome_iff_exists.2 ⟨d, sub_kid hf rfl⟩⟩
        · cases (succOf_targets (D := netGens N po red) (src := c) φ (fun d hd => hN ⟨d, hd⟩) x hx).2 t ht with
          | here hk hu => exact (hmem _).2 ⟨h1, Option.isSome_iff_exists.2 ⟨_, sub_kid hf hk⟩⟩
          | next hm hu => exact (hmem _).2 ⟨(hg.next_ok h1 hm).1, Option.isSome_iff_exists.2 ⟨_, hf⟩⟩
          | nextKid hm hk hu =>
            exact (hmem _).2 ⟨(hg.next_ok h1 hm).1, Option.isSome_iff_exists.2 ⟨_, sub_kid hf hk⟩⟩
      cases a with
      | certainZero =>
        obtain ⟨n, b, _, h⟩ := certainZero_total_partial _ _ (dg_layered (netGens N po red) φ) V hV (l0, []) rfl
          R hroot hR addr pick
        exact ⟨n, b, fun fuel hfu => by simp only [ctlMain, hev, singleSolve]; exact h fuel hfu⟩
      | localFPA =>
        obtain ⟨n, b, _, h⟩ := localFPA_total_partial _ _ (dg_layered (netGens N po red) φ) V hV (l0, []) rfl
          R hroot hR addr pick
        exact ⟨n, b, fun fuel hfu => by simp only [ctlMain, hev, singleSolve]; exact h fuel hfu⟩
  obtain ⟨n, b, h⟩ := main
  exact ⟨n, b, hc n b (h n (Nat.le_refl _)), h⟩
end

section
open Stubborn
include w hs hφ

theorem main_congr (M : Cond → List Nat → Mem) (red : Cond → List Nat → List (List Nat))
    (h : ∀ pos c, subAt φ pos = some (.EF c) → ∀ l, stubRed N M (.EF c) l = red (.EF c) l) :
    dg (netGens N true (stubRed N M)) φ = dg (netGens N true red) φ :=
  (dg_congr (netGens N true (stubRed N M)) red φ h).symm

variable (hd : N.DirOK) (he : EfOK N m0 φ) (M : Cond → List Nat → Mem)
include hd he

/-- **C26** with partial-order reduction: the graph built with the stubborn sets of C24 encodes the query, whatever
the query objects contain before each call. -/
theorem C26_graph_encodes_ctl_stubborn (V : Conf → Prop) (hV : (dg (netGens N true (stubRed N M)) φ).Solution V)
    (l : List Nat) (hl : l.length = N.nplaces) (hr : N.toNet.Reach m0 (toMark l))
    (hroot : (∀ c, φ ≠ .not c) ∨ (netGens N true (stubRed N M)).ev φ l = .rUnknown)
    (v : Conf) (hv : (dg (netGens N true (stubRed N M)) φ).Reach (l, []) v) :
    ∃ f, subAt φ v.2 = some f ∧ (V v ↔ Sat N.ts (toMark v.1) f) := by
  obtain ⟨red, h1, h2⟩ := stubRed_ok w hd hs φ he M
  rw [main_congr N w m0 hs φ hφ M red h2] at hV hv
  exact C26_graph_encodes_ctl N w m0 hs true red (fun _ => h1) φ hφ V hV l hl hr hroot v hv

include hl0 he0

/-- **C41** with partial-order reduction. -/
theorem C41_ctl_correct_stubborn (a : Algo) (addr : EId Conf → Nat) (pick : Nat → List (EId Conf) → Nat) (fuel : Nat)
    (b : Bool) (h : ctlMain (netGens N true (stubRed N M)) φ l0 a addr pick fuel = some b) :
    b = true ↔ Sat N.ts m0 φ := by
  obtain ⟨red, h1, h2⟩ := stubRed_ok w hd hs φ he M
  refine C41_ctl_correct N w m0 hs true red (fun _ => h1) l0 hl0 he0 φ hφ a addr pick fuel b ?_
  simp only [ctlMain, singleSolve, main_congr N w m0 hs φ hφ M red h2] at h ⊢
  exact h

/-- **C41** with partial-order reduction: termination. -/
theorem C41_ctl_total_stubborn (hfin : {m | N.toNet.Reach m0 m}.Finite) (a : Algo) (addr : EId Conf → Nat)
    (pick : Nat → List (EId Conf) → Nat) :
    ∃ n b, (b = true ↔ Sat N.ts m0 φ) ∧
      ∀ fuel, n ≤ fuel → ctlMain (netGens N true (stubRed N M)) φ l0 a addr pick fuel = some b := by
  obtain ⟨red, h1, h2⟩ := stubRed_ok w hd hs φ he M
  obtain ⟨n, b, h3, h4⟩ := C41_ctl_total N w m0 hs true red (fun _ => h1) l0 hl0 he0 φ hφ hfin a addr pick
  refine ⟨n, b, h3, fun fuel hf => ?_⟩
  have := h4 fuel hf
  simp only [ctlMain, singleSolve, main_congr N w m0 hs φ hφ M red h2] at this ⊢
  exact this
end

/-! ### Instances -/

open Examples

theorem net2_step {m m' : Mark} (h : m = mark2 ∨ m = mark2') (t : Nat) (ht : t < net2.ntransitions)
    (hs : net2.toNet.Step m ⟨t, ht⟩ m') : m' = mark2 ∨ m' = mark2' := by
  obtain ⟨he, rfl⟩ := hs
  have ht' : t = 0 ∨ t = 1 := by simp only [net2] at ht; omega
  rcases ht' with rfl | rfl
  · rcases h with rfl | rfl
    · right
      funext p
      match p with
      | 0 => rfl
      | 1 => rfl
      | p + 2 => rfl
    · exact absurd (show 1 ≤ 0 from he.1 0) (by decide)
  · rcases h with rfl | rfl
    · exact absurd (show 1 ≤ 0 from he.1 1) (by decide)
    · left
      funext p
      match p with
      | 0 => rfl
      | 1 => rfl
      | p + 2 => rfl

theorem net2_run {m m' : Mark} {ts : List (Fin net2.ntransitions)} (hr : net2.toNet.Run m ts m') :
    (m = mark2 ∨ m = mark2') → (m' = mark2 ∨ m' = mark2') := by
  induction hr with
  | nil => exact id
  | @cons _ t _ _ _ hs _ ih => exact fun h => ih (net2_step h t.1 t.2 hs)

theorem net2_reach {m : Mark} (h : net2.toNet.Reach mark2 m) : m = mark2 ∨ m = mark2' := by
  obtain ⟨ts, hr⟩ := h
  exact net2_run hr (.inl rfl)

theorem net2_small : Small net2 mark2 := by
  intro m hm p hp
  rcases net2_reach hm with rfl | rfl
  · unfold mark2; split <;> decide
  · unfold mark2'; split <;> decide

/-- `E F A X (p1 = 1)` holds, `A F A X (p1 = 1)` as well, `E[p0 = 1 U not EF (p1 = 1)]` does not. -/
private def exQ : Cond := .EF (.AX (.cmp .eq (.id 1) (.lit 1)))
private def exQ2 : Cond := .AF (.AX (.cmp .eq (.id 1) (.lit 1)))
private def exQ3 : Cond := .EU (.cmp .eq (.id 0) (.lit 1)) (.not (.EF (.cmp .eq (.id 1) (.lit 1))))

/-- The hypotheses are satisfiable: the engine's answers for these queries are theorems about the net. -/
example : Sat net2.ts mark2 exQ :=
  (C41_ctl_correct net2 net2_wf mark2 net2_small false (fun _ _ => []) (by simp) [1, 0] rfl
    (by funext p; match p with | 0 => rfl | 1 => rfl | p + 2 => rfl) exQ
    (by
      intro pos f hf
      match pos, hf with
      | [], hf => cases hf; rfl
      | [0], hf => cases hf; rfl
      | [0, 0], hf => cases hf; rfl)
    .certainZero (fun _ => 0) (fun _ _ => 0) 50 true (by decide +kernel)).1 rfl

example : ctlMain (netGens net2 false (fun _ _ => [])) exQ2 [1, 0] .certainZero (fun _ => 0) (fun _ _ => 0) 50 =
    some true := by decide +kernel
example : ctlMain (netGens net2 false (fun _ _ => [])) exQ3 [1, 0] .certainZero (fun _ => 0) (fun _ _ => 0) 50 =
    some false := by decide +kernel
example : ctlMain (netGens net2 false (fun _ _ => [])) exQ3 [1, 0] .localFPA (fun _ => 0) (fun _ _ => 0) 50 =
    some false := by decide +kernel

theorem net2_dir : net2.DirOK := by
  have h : ∀ t : Fin net2.ntransitions, ∀ i ∈ net2.preset t ++ net2.postset t,
    i.direction = Int.sign ((net2.toNet.post t i.place : Int) - (net2.toNet.pre t i.place : Int)) := by decide
  exact fun t i hi => h t i (List.mem_append.2 hi)

/-- The hypotheses of the theorems with partial-order reduction are satisfiable as well. -/
example (M : Cond → List Nat → Stubborn.Mem) (hM : M = fun _ _ => ⟨fun _ => .rUnknown, fun _ => 0⟩) :
    ¬ Sat net2.ts mark2 exQ3 := by
  intro h
  have := (C41_ctl_correct_stubborn net2 net2_wf mark2 net2_small [1, 0] rfl
    (by funext p; match p with | 0 => rfl | 1 => rfl | p + 2 => rfl) exQ3
    (by
      intro pos f hf
      match pos, hf with
      | [], hf => cases hf; rfl
      | [0], hf => cases hf; rfl
      | [1], hf => cases hf; rfl
      | [1, 0], hf => cases hf; rfl
      | [1, 0, 0], hf => cases hf; rfl) net2_dir
    (by
      intro pos c hf _
      match pos, hf with
      | [1, 0], hf =>
        cases hf
        refine ⟨rfl, fun m hm => ?_⟩
        rcases net2_reach hm with rfl | rfl
        · exact ⟨⟨by decide, by decide⟩, by decide, by decide⟩
        · exact ⟨⟨by decide, by decide⟩, by decide, by decide⟩
      | [0], hf => cases hf
      | 0 :: _ :: _, hf => cases hf
      | [1, 0, 0], hf => cases hf
      | 1 :: 0 :: 0 :: _ :: _, hf => cases hf
      | 1 :: 0 :: (_ + 1) :: _, hf => cases hf) M
    .certainZero (fun _ => 0) (fun _ _ => 0) 50 false (by subst hM; decide +kernel)).2 h
  cases this

/-- Finding: in a configuration whose subformula has no temporal operator, `successors` evaluates the whole
query instead of the subformula.  Called on a negation of such a formula the graph gives the wrong answer;
`CTLMain` never makes that call, because evaluation in the initial marking settles such a query. -/
theorem C41_finding_eval_whole_query :
    singleSolve (netGens net2 false (fun _ _ => [])) (.not (.cmp .eq (.id 0) (.lit 1))) [1, 0] .certainZero
      (fun _ => 0) (fun _ _ => 0) 50 = some true ∧
    ctlMain (netGens net2 false (fun _ _ => [])) (.not (.cmp .eq (.id 0) (.lit 1))) [1, 0] .certainZero
      (fun _ => 0) (fun _ _ => 0) 50 = some false := by decide +kernel

end CtlEngineProps
end Verif
