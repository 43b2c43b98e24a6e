import Verif.Net.FlatLemmas
import Mathlib.Algebra.BigOperators.Fin
import Mathlib.Algebra.BigOperators.Ring.Finset
import Mathlib.Algebra.Order.BigOperators.Group.Finset
import Mathlib.Tactic.Ring

/-!
# The marking equation

The linear programs of verifypn over-approximate reachability by the marking equation
(src/PetriEngine/PQL/Contexts.cpp:89-157): every reachable marking is the initial one plus the effect of
each transition times the number of its firings.
-/

namespace Verif
namespace FlatNet
variable (N : FlatNet)

/-- The effect of one firing of `t` on place `p`, as the linear programs compute it
(`outArc - inArc`, e.g. src/PetriEngine/Simplification/LinearProgram.cpp:320-321). -/
def effect (t p : Nat) : Int := (N.outArc t p : Int) - N.inArc p t

/-- The number of firings of each transition in a sequence. -/
def parikh (ts : List (Fin N.ntransitions)) : Fin N.ntransitions → Nat := fun t => ts.count t

/-- The firing counts `x` do not make any place negative: a solution of the base program. -/
def Feasible (m0 : Nat → Nat) (x : Fin N.ntransitions → Nat) : Prop :=
  ∀ p, p < N.nplaces → 0 ≤ (m0 p : Int) + ∑ t : Fin N.ntransitions, N.effect t p * x t

variable {N}

theorem inArc_pre (w : N.WF) (t : Fin N.ntransitions) (p : Nat) : N.inArc p t = N.toNet.pre t p := by
  unfold inArc toNet
  simp only
  have hn := w.pre_nodup t t.2
  generalize N.preset t = l at hn
  induction l with
  | nil => rfl
  | cons i l ih =>
    simp only [List.map_cons, List.nodup_cons] at hn
    by_cases hp : i.place = p
    · have hno : l.find? (fun i => i.place == p && !i.inhibitor) = none := by
        rw [List.find?_eq_none]
        intro j hj hc
        simp only [Bool.and_eq_true, beq_iff_eq] at hc
        exact hn.1 (List.mem_map.2 ⟨j, hj, by rw [hc.1, hp]⟩)
      by_cases hi : i.inhibitor = true <;> simp [hp, hi, hno]
    · simp only [List.find?_cons, beq_eq_false_iff_ne.2 hp, Bool.false_and]
      exact ih hn.2

theorem outArc_post (t : Fin N.ntransitions) (p : Nat) : N.outArc t p = N.toNet.post t p := rfl

/-- The marking equation. -/
theorem marking_equation (w : N.WF) {m m' : Nat → Nat} {ts : List (Fin N.ntransitions)}
    (h : N.toNet.Run m ts m') (p : Nat) :
    (m' p : Int) = m p + ∑ t : Fin N.ntransitions, N.effect t p * (parikh N ts t : Int) := by
  induction h with
  | nil m => simp [parikh]
  | @cons m t m' ts m'' hs _ ih =>
    obtain ⟨he, rfl⟩ := hs
    have hle := he.1 p
    rw [ih]
    have h1 : ((N.toNet.fire m t p : Nat) : Int) = m p + N.effect t p := by
      simp only [Net.fire, effect, inArc_pre w t p, outArc_post]
      omega
    rw [h1]
    have h2 : ∑ u : Fin N.ntransitions, N.effect u p * (parikh N (t :: ts) u : Int) =
        N.effect t p + ∑ u : Fin N.ntransitions, N.effect u p * (parikh N ts u : Int) := by
      have : ∀ u : Fin N.ntransitions, N.effect u p * (parikh N (t :: ts) u : Int) =
          N.effect u p * (parikh N ts u : Int) + if t = u then N.effect u p else 0 := by
        intro u
        unfold parikh
        rw [List.count_cons]
        by_cases hu : t = u
        · subst hu; simp; ring
        · simp [hu]
      rw [Finset.sum_congr rfl fun u _ => this u, Finset.sum_add_distrib, Finset.sum_ite_eq]
      simp
      ring
    rw [h2]
    ring

theorem parikh_feasible (w : N.WF) {m m' : Nat → Nat} {ts : List (Fin N.ntransitions)}
    (h : N.toNet.Run m ts m') : N.Feasible m (parikh N ts) := by
  intro p _
  rw [← marking_equation w h p]
  omega

/-- The marking equation for the sum over a list of places. -/
theorem marking_equation_sum (w : N.WF) {m m' : Nat → Nat} {ts : List (Fin N.ntransitions)}
    (h : N.toNet.Run m ts m') (ps : List Nat) :
    (((ps.map m').sum : Nat) : Int) = ((ps.map m).sum : Nat) +
      ∑ t : Fin N.ntransitions, (ps.map fun p => N.effect t p).sum * (parikh N ts t : Int) := by
  induction ps with
  | nil => simp
  | cons p ps ih =>
    simp only [List.map_cons, List.sum_cons, Nat.cast_add]
    rw [ih, marking_equation w h p]
    simp only [add_mul, Finset.sum_add_distrib]
    ring

end FlatNet
end Verif
