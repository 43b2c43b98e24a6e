import Verif.TAR.Inf
import Verif.Net.Directions
import Verif.Stubborn.Record

/-! # Firings and goals as the proofs about trace abstraction refinement use them -/

namespace Verif
namespace TAR
open PQL PRVec Solver

/-- Arcs from places and to places, as sums over the arc lists. -/
def pre (N : FlatNet) (t p : Nat) : Nat := arcSum (N.preset t) p
def post (N : FlatNet) (t p : Nat) : Nat := arcSum (N.postset t) p

/-- `t` is fired in `m`, leading to `m'`. -/
def Fire (N : FlatNet) (m : Nat → Nat) (t : Nat) (m' : Nat → Nat) : Prop :=
  t < N.ntransitions ∧ (∀ p, pre N t p ≤ m p) ∧ m' = fun p => m p - pre N t p + post N t p

/-- What the engine needs to know about the net. -/
structure NetOK (N : FlatNet) : Prop where
  pos : 0 < N.nplaces
  noInh : ∀ t < N.ntransitions, ∀ a ∈ N.preset t, a.inhibitor = false
  preSorted : ∀ t < N.ntransitions, (N.preset t).Pairwise fun a b => a.place < b.place
  postSorted : ∀ t < N.ntransitions, (N.postset t).Pairwise fun a b => a.place < b.place
  preLt : ∀ t < N.ntransitions, ∀ a ∈ N.preset t, a.place < N.nplaces ∧ 0 < a.tokens ∧ a.tokens ≤ rmax
  postLt : ∀ t < N.ntransitions, ∀ a ∈ N.postset t, a.place < N.nplaces ∧ 0 < a.tokens ∧ a.tokens ≤ rmax
  dir : ∀ t < N.ntransitions, ∀ a ∈ N.preset t, ∀ b ∈ N.postset t, a.place = b.place →
    (a.direction < 0 ↔ b.tokens < a.tokens)

/-! ## Sums over arc lists -/

theorem arcSum_nil (p : Nat) : arcSum [] p = 0 := rfl

theorem arcSum_cons (a : Invariant) (l : List Invariant) (p : Nat) :
    arcSum (a :: l) p = (if a.place = p then a.tokens else 0) + arcSum l p := by
  unfold arcSum
  by_cases h : a.place = p
  · simp [h]
  · simp [h]

theorem arcSum_zero {l : List Invariant} {p : Nat} (h : ∀ a ∈ l, a.place ≠ p) : arcSum l p = 0 := by
  induction l with
  | nil => rfl
  | cons a l ih =>
    rw [arcSum_cons, if_neg (h a (by simp)), ih (fun b hb => h b (by simp [hb]))]

theorem arcSum_mem {l : List Invariant} (hs : l.Pairwise fun a b => a.place < b.place) {a : Invariant} (h : a ∈ l) :
    arcSum l a.place = a.tokens := by
  induction l with
  | nil => cases h
  | cons b l ih =>
    obtain ⟨h1, h2⟩ := List.pairwise_cons.1 hs
    rw [arcSum_cons]
    rcases List.mem_cons.1 h with rfl | h
    · rw [if_pos rfl, arcSum_zero (fun c hc => by have := h1 c hc; omega)]; omega
    · rw [if_neg (by have := h1 a h; omega), ih h2 h]; omega

theorem arcSum_le_mem {l : List Invariant} {p : Nat} (h : arcSum l p ≠ 0) : ∃ a ∈ l, a.place = p := by
  apply Classical.byContradiction
  intro hn
  exact h (arcSum_zero (fun a ha hp => hn ⟨a, ha, hp⟩))

theorem mem_of_find_place {l : List Invariant} {p : Nat} {i : Invariant} (h : l.find? (fun i => i.place == p) = some i) :
    i ∈ l ∧ i.place = p := ⟨List.mem_of_find?_eq_some h, by simpa using List.find?_some h⟩

theorem find_arcSum {l : List Invariant} (hs : l.Pairwise fun a b => a.place < b.place) (p : Nat) :
    (match l.find? (fun i => i.place == p) with | some i => i.tokens | none => 0) = arcSum l p := by
  cases h : l.find? (fun i => i.place == p) with
  | none =>
    rw [List.find?_eq_none] at h
    exact (arcSum_zero (fun a ha hp => h a ha (by simp [hp]))).symm
  | some i =>
    obtain ⟨h1, h2⟩ := mem_of_find_place h
    rw [← h2, arcSum_mem hs h1]

/-- The engine's view of the net from the layout invariant, the absence of inhibitor arcs, the order of the arcs and
the directions stored with them. -/
theorem netOK_of {N : FlatNet} (w : N.WF) (d : N.DirOK)
    (noInh : ∀ t < N.ntransitions, ∀ a ∈ N.preset t, a.inhibitor = false)
    (preSorted : ∀ t < N.ntransitions, (N.preset t).Pairwise fun a b => a.place < b.place)
    (postSorted : ∀ t < N.ntransitions, (N.postset t).Pairwise fun a b => a.place < b.place) : NetOK N := by
  have hmem : ∀ a b : Nat, ∀ i ∈ slice N.invariants a b, i ∈ N.invariants := by
    intro a b i hi
    exact List.mem_of_mem_drop (List.mem_of_mem_take hi)
  have hb : ∀ i ∈ N.invariants, i.place < N.nplaces ∧ 0 < i.tokens ∧ i.tokens ≤ rmax := by
    intro i hi
    have := w.tokens_lt i hi
    unfold W32 at this
    exact ⟨w.place_lt i hi, w.tokens_pos i hi, by unfold rmax; omega⟩
  refine ⟨w.places_pos, noInh, preSorted, postSorted, fun t _ a ha => hb a (hmem _ _ a ha),
    fun t _ a ha => hb a (hmem _ _ a ha), ?_⟩
  intro t ht a ha b hb hab
  have h1 := d ⟨t, ht⟩ a (Or.inl ha)
  rw [Builder.pre_of_find w ⟨t, ht⟩] at h1
  have hfa : (N.preset t).find? (fun o => o.place == a.place) = some a :=
    Builder.find_nodup (w.pre_nodup t ht) ha
  have hfb : (N.postset t).find? (fun o => o.place == a.place) = some b := by
    rw [hab]; exact Builder.find_nodup (w.post_nodup t ht) hb
  rw [hfa] at h1
  simp only [FlatNet.toNet, hfb, noInh t ht a ha, Bool.false_eq_true, if_false] at h1
  rw [h1, Int.sign_neg_iff]; omega

/-! ## The goal -/

/-- A conjunction of constraints, the largest bound meaning none. -/
def consI (m : Nat → Nat) (l : List Cons) : Bool :=
  l.all fun c => decide (c.lower ≤ m c.place) && (c.upper == rmax || decide (m c.place ≤ c.upper))

mutual
/-- The truth of a condition built from comparisons, constraints, deadlock, conjunction and disjunction. -/
def goalI (dl : Bool) (m : Nat → Nat) : Cond → Bool
  | .dead => dl
  | .cmp op a b => PQL.compare m op a b
  | .cc l n => n ^^ consI m l
  | .and cs => goalAll dl m cs
  | .or cs => goalAny dl m cs
  | _ => false
def goalAll (dl : Bool) (m : Nat → Nat) : List Cond → Bool
  | [] => true
  | c :: cs => goalI dl m c && goalAll dl m cs
def goalAny (dl : Bool) (m : Nat → Nat) : List Cond → Bool
  | [] => false
  | c :: cs => goalI dl m c || goalAny dl m cs
end

mutual
/-- The conditions the engine accepts. -/
def supp : Cond → Bool
  | .dead => true
  | .cmp _ _ _ => true
  | .cc _ _ => true
  | .and cs => suppAll cs
  | .or cs => suppAll cs
  | _ => false
def suppAll : List Cond → Bool
  | [] => true
  | c :: cs => supp c && suppAll cs
end

theorem goalAll_eq (dl : Bool) (m : Nat → Nat) (cs : List Cond) : goalAll dl m cs = cs.all (goalI dl m) := by
  induction cs with
  | nil => rfl
  | cons c cs ih => simp [goalAll, ih]

theorem goalAny_eq (dl : Bool) (m : Nat → Nat) (cs : List Cond) : goalAny dl m cs = cs.any (goalI dl m) := by
  induction cs with
  | nil => rfl
  | cons c cs ih => simp [goalAny, ih]

theorem suppAll_eq (cs : List Cond) : suppAll cs = cs.all supp := by
  induction cs with
  | nil => rfl
  | cons c cs ih => simp [suppAll, ih]

theorem evalCons_eq {m : Nat → Nat} (hm : ∀ p, m p ≤ rmax) (l : List Cons) : evalCons m l = consI m l := by
  induction l with
  | nil => rfl
  | cons c cs ih =>
    have h1 : (decide (m c.place ≤ c.upper)) = (c.upper == rmax || decide (m c.place ≤ c.upper)) := by
      by_cases h : c.upper = rmax
      · simp [h, hm c.place]
      · simp [h]
    simp only [evalCons, consI, List.all_cons]
    rw [ih, ← h1]
    unfold consI
    cases decide (m c.place ≤ c.upper) <;> cases h2 : decide (m c.place ≥ c.lower) <;>
      simp only [ge_iff_le] at h2 <;> simp

/-- On markings of 32-bit numbers the engine evaluates the goal. -/
theorem evaluateSet_goal {m : Nat → Nat} (hm : ∀ p, m p ≤ rmax) (dl : Bool) (c : Cond) (h : supp c = true) :
    evaluateSet dl m c = Res.ofBool (goalI dl m c) := by
  induction c using Cond.ind with
  | dead => rfl
  | cmp op e1 e2 => rfl
  | cc l n => simp only [evaluateSet, goalI, evalCons_eq hm]
  | and cs ih =>
    simp only [supp, suppAll_eq, List.all_eq_true] at h
    simp only [evaluateSet, goalI, goalAll_eq]
    have key : ∀ (cs : List Cond) (r : Res), (∀ c ∈ cs, evaluateSet dl m c = Res.ofBool (goalI dl m c)) →
        evalAndSet dl m r cs = if cs.all (goalI dl m) then r else .rFalse := by
      intro cs
      induction cs with
      | nil => intro r _; rfl
      | cons c cs ihc =>
        intro r hc
        simp only [evalAndSet, List.all_cons]
        rw [hc c (by simp), ihc _ (fun d hd => hc d (by simp [hd]))]
        rcases Bool.eq_false_or_eq_true (goalI dl m c) with hg | hg <;> simp [hg, Res.ofBool]
    rw [key cs .rTrue (fun c hc => ih c hc (h c hc))]
    cases cs.all (goalI dl m) <;> rfl
  | or cs ih =>
    simp only [supp, suppAll_eq, List.all_eq_true] at h
    simp only [evaluateSet, goalI, goalAny_eq]
    have key : ∀ (cs : List Cond) (r : Res), (∀ c ∈ cs, evaluateSet dl m c = Res.ofBool (goalI dl m c)) →
        evalOrSet dl m r cs = if cs.any (goalI dl m) then .rTrue else r := by
      intro cs
      induction cs with
      | nil => intro r _; rfl
      | cons c cs ihc =>
        intro r hc
        simp only [evalOrSet, List.any_cons]
        rw [hc c (by simp), ihc _ (fun d hd => hc d (by simp [hd]))]
        rcases Bool.eq_false_or_eq_true (goalI dl m c) with hg | hg <;> simp [hg, Res.ofBool]
    rw [key cs .rFalse (fun c hc => ih c hc (h c hc))]
    cases cs.any (goalI dl m) <;> rfl
  | _ => simp [supp] at h

end TAR
end Verif
