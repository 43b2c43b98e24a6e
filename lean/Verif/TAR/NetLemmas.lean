import Verif.TAR.ReachLemmas
import Verif.Net.Directions

/-! # The nets the engine is run on -/

namespace Verif

/-- The arcs of every transition are in the order of their places. -/
def FlatNet.ArcsSorted (N : FlatNet) : Prop :=
  ∀ t < N.ntransitions, ((N.preset t).Pairwise fun a b => a.place < b.place) ∧ (N.postset t).Pairwise fun a b => a.place < b.place

namespace Builder
variable {B : Builder} {c : Compiled} {order em : List Nat} {blocks : List (List Nat)}

theorem sorted_of_nodup (l : List Invariant) (f : Invariant → Invariant) (hf : ∀ i, (f i).place = i.place)
    (hn : (((sortInvs l).map f).map Invariant.place).Nodup) :
    ((sortInvs l).map f).Pairwise fun a b => a.place < b.place := by
  have hs : (sortInvs l).Pairwise fun a b => a.place ≤ b.place := by
    have := List.pairwise_mergeSort (le := fun a b : Invariant => decide (a.place ≤ b.place))
      (fun a b c h1 h2 => by simp only [decide_eq_true_eq] at *; omega)
      (fun a b => by simp only [Bool.or_eq_true, decide_eq_true_eq]; omega) l
    exact this.imp fun h => by simpa using h
  have h1 : ((sortInvs l).map f).Pairwise fun a b => a.place ≤ b.place := by
    rw [List.pairwise_map]
    exact hs.imp fun h => by rw [hf, hf]; exact h
  have h2 : ((sortInvs l).map f).Pairwise fun a b => a.place ≠ b.place := by
    have := hn
    rw [List.Nodup, List.pairwise_map] at this
    exact this
  exact (h1.and h2).imp fun h => by omega

/-- The builder sorts the arcs. -/
theorem Facts.arcsSorted (h : Facts B c order em blocks) (w : B.WF) : c.net.ArcsSorted := by
  intro t ht
  have htl : t < em.length := by rw [← h.lay.nt]; exact ht
  rw [h.lay.preset_eq htl, h.lay.postset_eq htl]
  exact ⟨sorted_of_nodup _ _ (fun _ => rfl) (h.pre_nodup w em[t]), sorted_of_nodup _ _ (fun _ => rfl) (h.post_nodup w em[t])⟩

end Builder

namespace TAR
open PRVec Solver TraceSet PQL

/-- What the engine needs of a net, besides the absence of inhibitor arcs that it checks itself. -/
structure TarNet (N : FlatNet) : Prop where
  wf : N.WF
  dir : N.DirOK
  sorted : N.ArcsSorted

variable {N : FlatNet}

theorem reachable_noInh {m0 : Nat → Nat} {q : Cond} {rand : Nat → Nat → Nat} {junk : Nat → Nat → Bool × Int} {fuel : Nat} {a : Answer}
    (h : reachable N m0 q rand junk fuel = .ok a) : ∀ t < N.ntransitions, ∀ a ∈ N.preset t, a.inhibitor = false := by
  unfold reachable at h
  split at h
  · cases h
  · rename_i hn
    intro t ht a ha
    simp only [List.any_eq_true, List.mem_range, not_exists, not_and, Bool.not_eq_true] at hn
    exact hn t ht a ha

theorem TarNet.ok (h : TarNet N) (hn : ∀ t < N.ntransitions, ∀ a ∈ N.preset t, a.inhibitor = false) : NetOK N :=
  netOK_of h.wf h.dir hn (fun t ht => (h.sorted t ht).1) (fun t ht => (h.sorted t ht).2)

/-- The answer "satisfied". -/
theorem reachable_sat (h : TarNet N) {m0 : Nat → Nat} {q : Cond} {rand : Nat → Nat → Nat} {junk : Nat → Nat → Bool × Int} {fuel : Nat}
    {tr : List Nat} (hr : reachable N m0 q rand junk fuel = .ok (.satisfied tr)) :
    ∃ (ts : List (Fin N.ntransitions)) (m : Nat → Nat), tr = ts.map (fun t => t.val + 1) ++ [0] ∧ N.toNet.Run m0 ts m ∧
      evaluate (N.deadlocked m) m q = .rTrue := by
  have ok := h.ok (reachable_noInh hr)
  unfold reachable at hr
  split at hr
  · cases hr
  · split at hr
    · rename_i _ he
      simp only [Except.ok.injEq, Answer.satisfied.injEq] at hr
      subst hr
      exact ⟨[], m0, rfl, .nil _, he⟩
    · cases ht : tryReach ⟨N, m0, q, fun p => condUse p q⟩ rand junk fuel with
      | error e => rw [ht] at hr; cases hr
      | ok o =>
        rw [ht] at hr
        cases o with
        | none => cases hr
        | some tr' =>
          simp only [bind, Except.bind, pure, Except.pure, Except.ok.injEq, Answer.satisfied.injEq] at hr
          subst hr
          obtain ⟨l, m, rfl, hl, h1, h2⟩ := tryLoop_some ok rand junk fuel 0 _ _ tr' ht
          obtain ⟨ts, h3, h4⟩ := run_of_fseq ok l m0 m hl h1
          refine ⟨ts, m, ?_, h4, ?_⟩
          · rw [← h3]; rfl
          · have := evaluateSet_le (N.deadlocked m) m q
            rw [h2] at this
            rcases this with h5 | h5
            · cases h5
            · exact h5.symm

/-- What the answer "not satisfied" needs. -/
theorem reachable_not (h : TarNet N) {m0 : Nat → Nat} {q : Cond} {rand : Nat → Nat → Nat} {junk : Nat → Nat → Bool × Int} {fuel : Nat}
    (hr : reachable N m0 q rand junk fuel = .ok .notSatisfied) (hq : QOK N.nplaces q) (hs1 : rcSafe (fun _ => false) q = true)
    (hs2 : reSafe (fun _ => false) q = true) (hm0 : ∀ p, m0 p < rmax) (h0 : ∀ p, N.nplaces ≤ p → m0 p = 0)
    (hz : evaluate (N.deadlocked fun _ => 0) (fun _ => 0) q ≠ .rTrue) {m : Nat → Nat} (hm : N.toNet.Reach m0 m)
    (hle : ∀ p, m p ≤ rmax) : evaluate (N.deadlocked m) m q ≠ .rTrue := by
  have ok := h.ok (reachable_noInh hr)
  have hS : SOK ⟨N, m0, q, fun p => condUse p q⟩ := ⟨ok, hq, hs1, hs2, fun _ => rfl, hm0, dead_en h.wf ok⟩
  intro he
  have hg := goal_of_evaluate hq.supp hle he
  unfold reachable at hr
  split at hr
  · cases hr
  · split at hr
    · simp only [Except.ok.injEq] at hr; cases hr
    · cases ht : tryReach ⟨N, m0, q, fun p => condUse p q⟩ rand junk fuel with
      | error e => rw [ht] at hr; cases hr
      | ok o =>
        rw [ht] at hr
        cases o with
        | some tr' => simp only [bind, Except.bind, pure, Except.pure, Except.ok.injEq] at hr; cases hr
        | none =>
          exact tryReach_none hS ht h0 (goal_false_of_evaluate hq.supp (fun _ => Nat.zero_le _) hz) hm hg

end TAR
end Verif
