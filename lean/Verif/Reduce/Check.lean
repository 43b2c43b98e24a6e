import Verif.Reduce.Bridge

/-!
# Deciding reachability in concrete finite nets

Used for the nets on which a reduction is wrong, and for examples.  Markings are lists.
-/

namespace Verif
namespace Reduce

/-- A net given by its lists. -/
def RNet.ofList (init : List Nat) (ts : List RTr) : RNet where
  np := init.length
  nt := ts.length
  tr t := ts.getD t { skip := true }
  pskip p := decide (init.length ≤ p)
  pinhib p := ts.any fun x => x.pre.any fun a => a.inhib && a.place == p
  init p := init.getD p 0
  skipped := []
  nskip := 0

def sortedB : List Arc → Bool
  | [] => true
  | a :: l => l.all (fun b => decide (a.place < b.place)) && sortedB l

theorem sortedB_sorted : ∀ {l : List Arc}, sortedB l = true → Sorted l
  | [], _ => List.Pairwise.nil
  | a :: l, h => by
    rw [sortedB, Bool.and_eq_true, List.all_eq_true] at h
    exact List.pairwise_cons.2 ⟨fun b hb => by simpa using h.1 b hb, sortedB_sorted h.2⟩

/-- `RTr.WF` as a test. -/
def RTr.ok (np : Nat) (x : RTr) : Bool :=
  sortedB x.pre && sortedB x.post && !x.skip &&
  x.pre.all (fun a => decide (0 < a.weight) && decide (a.place < np) && (!a.inhib || x.inhib)) &&
  x.post.all (fun a => decide (0 < a.weight) && decide (a.place < np) && !a.inhib)

theorem ofList_WF {init : List Nat} {ts : List RTr} (h : ts.all (RTr.ok init.length) = true) : (RNet.ofList init ts).WF := by
  refine ⟨fun t => ?_, fun t ht => ?_, (by intro t ht; cases ht), List.nodup_nil⟩
  · by_cases ht : t < ts.length
    · have hx : (RNet.ofList init ts).tr t = ts[t] := by
        show ts.getD t _ = _
        rw [List.getD_eq_getElem?_getD, List.getElem?_eq_getElem ht]; rfl
      have hm : ts[t] ∈ ts := List.getElem_mem ht
      have := List.all_eq_true.1 h _ hm
      rw [hx]
      unfold RTr.ok at this
      simp only [Bool.and_eq_true, List.all_eq_true, decide_eq_true_eq, Bool.not_eq_true', Bool.or_eq_true] at this
      obtain ⟨⟨⟨⟨h1, h2⟩, h3⟩, h4⟩, h5⟩ := this
      have hok : ∀ p, p < init.length → (RNet.ofList init ts).okP p := fun p hp =>
        ⟨hp, by show decide (init.length ≤ p) = false; simpa using hp⟩
      refine ⟨sortedB_sorted h1, sortedB_sorted h2, fun a ha => (h4 a ha).1.1, fun a ha => (h5 a ha).1.1,
        fun a ha => (h5 a ha).2, fun a ha => hok _ (h4 a ha).1.2, fun a ha => hok _ (h5 a ha).1.2,
        (fun hs => by rw [h3] at hs; cases hs), fun a ha hi => ?_, fun a ha hi => ?_⟩
      · rcases (h4 a ha).2 with hc | hc
        · rw [hi] at hc; cases hc
        · exact hc
      · exact List.any_eq_true.2 ⟨_, hm, List.any_eq_true.2 ⟨a, ha, by simp [hi]⟩⟩
    · have hx : (RNet.ofList init ts).tr t = { skip := true } := by
        show ts.getD t _ = _
        rw [List.getD_eq_getElem?_getD, List.getElem?_eq_none (by omega)]; rfl
      rw [hx]
      exact ⟨List.Pairwise.nil, List.Pairwise.nil, by simp, by simp, by simp, by simp, by simp, fun _ => ⟨rfl, rfl⟩, by simp, by simp⟩
  · show (ts.getD t _).skip = true
    rw [List.getD_eq_getElem?_getD, List.getElem?_eq_none ht]; rfl

/-- The net consisting of the transitions there are. -/
def RNet.finNet (N : RNet) : Net Nat (Fin N.nt) where
  pre t p := (N.tr t).I p
  inh t p := (arcAt (N.tr t).pre p).bind fun a => if a.inhib then some a.weight else none
  post t p := (N.tr t).O p

/-- A list as a marking. -/
def vec (l : List Nat) : Nat → Nat := fun p => l.getD p 0

/-- All arcs of the transitions lead to places below `np`. -/
def RNet.inside (N : RNet) : Bool :=
  (List.range N.nt).all fun t => (N.tr t).pre.all (fun a => decide (a.place < N.np)) && (N.tr t).post.all fun a => decide (a.place < N.np)

def RNet.enL (N : RNet) (l : List Nat) (t : Nat) : Bool :=
  (List.range N.np).all fun p => decide ((N.tr t).I p ≤ vec l p) &&
    match (arcAt (N.tr t).pre p).bind fun a => if a.inhib then some a.weight else none with
    | none => true
    | some w => decide (vec l p < w)

def RNet.fireL (N : RNet) (l : List Nat) (t : Nat) : List Nat :=
  (List.range N.np).map fun p => vec l p - (N.tr t).I p + (N.tr t).O p

def RNet.closed (N : RNet) (S : List (List Nat)) : Bool :=
  S.all fun l => (List.range N.nt).all fun t => !N.enL l t || S.contains (N.fireL l t)

def RNet.path (N : RNet) : List Nat → List Nat → Option (List Nat)
  | l, [] => some l
  | l, t :: ts => if t < N.nt ∧ N.enL l t = true then N.path (N.fireL l t) ts else none

theorem inside_out {N : RNet} (h : N.inside = true) {t : Nat} (ht : t < N.nt) {p : Nat} (hp : N.np ≤ p) :
    arcAt (N.tr t).pre p = none ∧ (N.tr t).I p = 0 ∧ (N.tr t).O p = 0 := by
  have := List.all_eq_true.1 h t (List.mem_range.2 ht)
  rw [Bool.and_eq_true, List.all_eq_true, List.all_eq_true] at this
  have h1 : arcAt (N.tr t).pre p = none := arcAt_none.2 fun a ha he => by
    have := this.1 a ha; rw [decide_eq_true_eq] at this; omega
  have h2 : arcAt (N.tr t).post p = none := arcAt_none.2 fun a ha he => by
    have := this.2 a ha; rw [decide_eq_true_eq] at this; omega
  exact ⟨h1, RTr.I_none h1, wAt_none h2⟩

theorem enL_iff {N : RNet} (h : N.inside = true) (l : List Nat) (t : Fin N.nt) :
    N.enL l t = true ↔ N.finNet.Enabled (vec l) t := by
  unfold RNet.enL
  rw [List.all_eq_true]
  constructor
  · intro hen
    refine ⟨fun p => ?_, fun p w hw => ?_⟩
    · by_cases hp : p < N.np
      · have := hen p (List.mem_range.2 hp)
        rw [Bool.and_eq_true, decide_eq_true_eq] at this
        exact this.1
      · show (N.tr t).I p ≤ _
        rw [(inside_out h t.2 (by omega)).2.1]; exact Nat.zero_le _
    · by_cases hp : p < N.np
      · have := hen p (List.mem_range.2 hp)
        have hw : ((arcAt (N.tr t).pre p).bind fun a => if a.inhib then some a.weight else none) = some w := hw
        rw [hw, Bool.and_eq_true, decide_eq_true_eq, decide_eq_true_eq] at this
        exact this.2
      · have hw : ((arcAt (N.tr t).pre p).bind fun a => if a.inhib then some a.weight else none) = some w := hw
        rw [(inside_out h t.2 (by omega)).1] at hw
        cases hw
  · rintro ⟨h1, h2⟩ p hp
    rw [Bool.and_eq_true, decide_eq_true_eq]
    refine ⟨h1 p, ?_⟩
    split
    · rfl
    · rename_i w hw; rw [decide_eq_true_eq]; exact h2 p w hw

theorem fireL_eq {N : RNet} (h : N.inside = true) {l : List Nat} (hl : l.length = N.np) (t : Fin N.nt) :
    vec (N.fireL l t) = N.finNet.fire (vec l) t := by
  funext p
  show (List.map _ (List.range N.np)).getD p 0 = vec l p - (N.tr t).I p + (N.tr t).O p
  rw [List.getD_eq_getElem?_getD]
  by_cases hp : p < N.np
  · rw [List.getElem?_map, List.getElem?_range hp]; rfl
  · obtain ⟨_, h2, h3⟩ := inside_out h t.2 (p := p) (by omega)
    rw [List.getElem?_eq_none (by simp; omega), h2, h3]
    show 0 = l.getD p 0 - 0 + 0
    rw [List.getD_eq_getElem?_getD, List.getElem?_eq_none (by omega)]; rfl

/-- A closed set of markings contains all that is reachable. -/
theorem closed_reach {N : RNet} {S : List (List Nat)} (h : N.inside = true) (hc : N.closed S = true)
    (hS : ∀ l ∈ S, l.length = N.np) {l : List Nat} (hl : l ∈ S) {m : Nat → Nat} (hr : N.finNet.Reach (vec l) m) :
    ∃ l' ∈ S, m = vec l' := by
  have : ∀ ts m0 m, N.finNet.Run m0 ts m → ∀ l ∈ S, m0 = vec l → ∃ l' ∈ S, m = vec l' := by
    intro ts m0 m hr
    induction hr with
    | nil m => intro l hl he; exact ⟨l, hl, he⟩
    | @cons m0 t m1 ts m2 hs _ ih =>
      intro l hl he
      obtain ⟨h1, rfl⟩ := hs
      subst he
      have h2 := List.all_eq_true.1 (List.all_eq_true.1 hc l hl) t.1 (List.mem_range.2 t.2)
      rw [(enL_iff h l t).2 h1] at h2
      exact ih (N.fireL l t) (by simpa using h2) (fireL_eq h (hS l hl) t).symm
  obtain ⟨ts, hr⟩ := hr
  exact this _ _ _ hr l hl rfl

theorem path_reach {N : RNet} (h : N.inside = true) : ∀ (ts l l' : List Nat), l.length = N.np → N.path l ts = some l' →
    N.finNet.Reach (vec l) (vec l') := by
  intro ts
  induction ts with
  | nil => intro l l' _ hp; obtain rfl := Option.some.inj hp; exact Net.Reach.refl _ _
  | cons t ts ih =>
    intro l l' hl hp
    rw [RNet.path] at hp
    split at hp
    · rename_i hc
      have h1 := ih _ _ (by simp [RNet.fireL]) hp
      refine Net.Reach.trans _ ⟨[⟨t, hc.1⟩], .cons ⟨(enL_iff h l ⟨t, hc.1⟩).1 hc.2, (fireL_eq h hl ⟨t, hc.1⟩)⟩ (.nil _)⟩ h1
    · cases hp

/-- All reachable markings, breadth first (only to find the sets for `closed`). -/
def RNet.explore (N : RNet) : Nat → List (List Nat) → List (List Nat)
  | 0, S => S
  | f + 1, S =>
    let new := S.flatMap fun l => ((List.range N.nt).filter fun t => N.enL l t).map fun t => N.fireL l t
    let S' := new.foldl (fun acc l => if acc.contains l then acc else acc ++ [l]) S
    if S'.length = S.length then S else N.explore f S'

/-- The initial marking of the places there are. -/
def RNet.start (N : RNet) : Nat → Nat := vec ((List.range N.np).map N.init)

/-- Every value of the query place `q` that is reached in `N` is reached in `N'`. -/
def Covers (q : Nat) (N N' : RNet) : Prop :=
  ∀ m, N.finNet.Reach N.start m → ∃ m', N'.finNet.Reach N'.start m' ∧ m' q = m q

/-- The test for nets that do not cover: a path in `N` to a value that does not occur in a closed set of `N'`. -/
def loses (q : Nat) (N N' : RNet) (ts : List Nat) (S : List (List Nat)) : Bool :=
  N.inside && N'.inside && N'.closed S && S.all (fun l => l.length == N'.np) &&
  S.contains ((List.range N'.np).map N'.init) &&
  (match N.path ((List.range N.np).map N.init) ts with
   | none => false
   | some l => S.all fun l' => vec l' q != vec l q)

theorem loses_not {q : Nat} {N N' : RNet} {ts : List Nat} {S : List (List Nat)} (h : loses q N N' ts S = true) :
    ¬Covers q N N' := by
  unfold loses at h
  simp only [Bool.and_eq_true, List.all_eq_true, List.contains_iff_mem, beq_iff_eq] at h
  obtain ⟨⟨⟨⟨⟨h1, h2⟩, h3⟩, h4⟩, h5⟩, h6⟩ := h
  intro hc
  split at h6
  · cases h6
  · rename_i l hl
    have hr := path_reach h1 ts _ l (by simp) hl
    obtain ⟨m', hr', he⟩ := hc _ hr
    obtain ⟨l', hl', rfl⟩ := closed_reach h2 h3 h4 h5 hr'
    have := List.all_eq_true.1 h6 l' hl'
    simp [he] at this

end Reduce
end Verif
