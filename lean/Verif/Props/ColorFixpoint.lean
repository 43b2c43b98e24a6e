import Verif.CFP.FixMain

/-!
# C66: the colour fixed point

The boxes that `ForwardFixedPoint::compute` leaves for the places contain all tokens of all reachable markings, and the maps it leaves
for the transitions contain all bindings that are ever enabled.
-/

namespace Verif
namespace CFP

open CPN

/-- Coloured nets with well-typed guards and arcs, at most one input arc between a place and a transition. -/
structure Typed (N : CNet) : Prop where
  types : N.types.WF
  parts : ∀ ty cs, N.types.parts ty = some cs → cs ≠ []
  vpos : ∀ v, ∀ n ∈ N.types.dims (N.vty v), 0 < n
  ppos : ∀ p < N.places.length, ∀ n ∈ N.types.dims (N.place p).ty, 0 < n
  marking : ∀ p < N.places.length, ∀ q ∈ (N.place p).marking, q.1 < N.types.size (N.place p).ty
  guard : ∀ t ∈ N.transitions, ∀ g, t.guard = some g → GuardTy N.types N.vty g
  input : ∀ t ∈ N.transitions, ∀ a ∈ t.inputs, a.place < N.places.length ∧ ArcTy N.types N.vty (N.place a.place).ty a.expr
  places : ∀ t ∈ N.transitions, (t.inputs.map (·.place)).Nodup
  output : ∀ t ∈ N.transitions, ∀ a ∈ t.outputs, a.place < N.places.length ∧ ArcTy N.types N.vty (N.place a.place).ty a.expr

/-- All tokens are in the boxes. -/
def TokensIn (N : CNet) (s : FSt) (M : CMark) : Prop := ∀ p < N.places.length, ∀ x, 0 < M p x → IVec.Has (s.cons p) x

/-- The binding is in the maps of the transition. -/
def BindingIn (s : FSt) (t : Nat) (ρ : Nat → Val) : Prop := ∃ m ∈ s.maps t, m.Covers ρ

/-- No count overflows and no growth is missed along the run. -/
def tidy (N : CNet) (ks : Nat → Nat) (n : Nat) : Bool := smallFree N && tidyLoop N ks n 0 (startF N)

/-- The full claim: whatever the limits on the number of intervals, the boxes contain the tokens of all reachable markings and the maps
contain all enabled bindings. -/
def C66_full : Prop := ∀ (N : CNet) (ks : Nat → Nat) (n : Nat) (s : FSt), Typed N → compute N ks n = some s →
  ∀ M, N.Reach M → TokensIn N s M ∧ ∀ t < N.transitions.length, ∀ ρ, N.Legal t ρ → N.Enabled M t ρ → BindingIn s t ρ

/-- **C66 (partial).**  For nets in the class of C63–C65, if no growth is missed, the boxes contain the tokens of all reachable
markings, no transition that is ever enabled is without maps, and the maps contain all enabled bindings of transitions with a variable
on an output arc or without input arcs. -/
theorem C66_fixpoint_covers_partial {N : CNet} (R : Ready N) {ks : Nat → Nat} {n : Nat} {s : FSt} (e : compute N ks n = some s) (ht : tidy N ks n = true)
    {M : CMark} (h : N.Reach M) :
    TokensIn N s M ∧ ∀ t < N.transitions.length, ∀ ρ, N.Legal t ρ → N.Enabled M t ρ →
      s.maps t ≠ [] ∧ ((∃ a ∈ (N.trans t).outputs, a.expr.vars ≠ []) ∨ (N.trans t).inputs = [] → BindingIn s t ρ) := by
  unfold tidy at ht
  rw [Bool.and_eq_true] at ht
  obtain ⟨hg, hq⟩ := loop_good R n 0 (start_good R ht.1) ht.2 e
  refine ⟨good_reach R hg hq h, fun t htl ρ hl he => ?_⟩
  obtain ⟨h1, h2⟩ := good_maps R hg hq h htl hl he
  refine ⟨h1, fun hv => h2 ?_⟩
  rcases hv with ⟨a, ha, hv⟩ | hv
  · left
    cases hd : s.done t with
    | false => rfl
    | true => exact absurd (compute_doneOk e t hd a ha) hv
  · exact Or.inr hv

/-! ### Examples -/

instance : DecidableEq VMap := inferInstanceAs (DecidableEq (List (Nat × IVec)))

/-- type 0 has one colour, the others eight -/
def fT : Types := ⟨fun ty => if ty = 0 then 1 else 8, []⟩
def fC (i : Nat) : CExpr := .const ⟨1, i⟩
def one (e : CExpr) : ArcE := .num 1 [e]

theorem fDims (ty : Nat) : ∀ n ∈ fT.dims ty, 0 < n := by
  intro n hn
  have e : fT.dims ty = [fT.basic ty] := rfl
  rw [e, List.mem_singleton] at hn
  rw [hn]
  show 0 < if ty = 0 then 1 else 8
  split <;> omega

theorem fWF : fT.WF := ⟨by decide, by decide, by decide⟩

/-- p: c0; t: p(x) to q(x + 1); u: q(x) to p(x) if x < c3 -/
def nGood : CNet := ⟨fT, fun _ => 1, [⟨"p", 1, [(0, 1)]⟩, ⟨"q", 1, []⟩],
  [⟨"t", none, [⟨0, one (.var 0)⟩], [⟨1, one (.succ (.var 0))⟩]⟩, ⟨"u", some (.lt (.var 0) (fC 3)), [⟨1, one (.var 0)⟩], [⟨0, one (.var 0)⟩]⟩], []⟩

theorem nGood_ready : Ready nGood where
  types := fWF
  parts ty cs h := nomatch h
  vpos v := fDims _
  ppos p _ := fDims _
  marking p hp := by
    have : p = 0 ∨ p = 1 := by have : p < 2 := hp; omega
    rcases this with rfl | rfl
    · intro q hq; rw [List.mem_singleton.1 hq]; decide
    · intro q hq; cases hq
  guard := by
    refine List.forall_mem_cons.2 ⟨(fun g h => nomatch h), List.forall_mem_cons.2 ⟨?_, fun t h => nomatch h⟩⟩
    intro g h
    cases h
    exact ⟨⟨1, rfl, rfl, rfl, by decide⟩, by decide⟩
  input := by
    refine List.forall_mem_cons.2 ⟨?_, List.forall_mem_cons.2 ⟨?_, fun t h => nomatch h⟩⟩ <;>
      refine List.forall_mem_cons.2 ⟨?_, fun t h => nomatch h⟩ <;>
      refine ⟨by decide, ⟨by simp, List.forall_mem_cons.2 ⟨rfl, fun t h => nomatch h⟩⟩, ⟨_, rfl, trivial⟩, by decide, Or.inl Nat.one_pos⟩
  places := by decide
  output := by
    refine List.forall_mem_cons.2 ⟨?_, List.forall_mem_cons.2 ⟨?_, fun t h => nomatch h⟩⟩ <;>
      refine List.forall_mem_cons.2 ⟨?_, fun t h => nomatch h⟩ <;>
      refine ⟨by decide, ⟨by simp, List.forall_mem_cons.2 ⟨?_, fun t h => nomatch h⟩⟩, List.forall_mem_cons.2 ⟨?_, fun t h => nomatch h⟩⟩
    · exact ⟨rfl, rfl⟩
    · trivial
    · rfl
    · trivial

/-- The hypotheses hold for the net, and the boxes are not all colours. -/
example : ∃ s, Ready nGood ∧ compute nGood (fun _ => 250) 30 = some s ∧ tidy nGood (fun _ => 250) 30 = true ∧
    s.cons 0 = [[⟨0, 0⟩], [⟨1, 1⟩], [⟨2, 2⟩]] ∧ s.cons 1 = [[⟨1, 1⟩], [⟨2, 2⟩], [⟨3, 3⟩]] ∧
    s.maps 1 = [[(0, [[⟨1, 1⟩]])], [(0, [[⟨2, 2⟩]])]] := by
  have h : (compute nGood (fun _ => 250) 30).map (fun s => (s.cons 0, s.cons 1, s.maps 1)) =
    some ([[⟨0, 0⟩], [⟨1, 1⟩], [⟨2, 2⟩]], [[⟨1, 1⟩], [⟨2, 2⟩], [⟨3, 3⟩]], [[(0, [[⟨1, 1⟩]])], [(0, [[⟨2, 2⟩]])]]) := by decide +kernel
  cases e : compute nGood (fun _ => 250) 30 with
  | none => rw [e] at h; cases h
  | some s =>
    rw [e] at h
    simp only [Option.map_some, Option.some.injEq, Prod.mk.injEq] at h
    exact ⟨s, nGood_ready, rfl, by decide +kernel, h.1, h.2.1, h.2.2⟩

/-- r: dot, p: c0; t: p(x) to q(dot); u: r to p(c1) -/
def nDone : CNet := ⟨fT, fun _ => 1, [⟨"r", 0, [(0, 1)]⟩, ⟨"p", 1, [(0, 1)]⟩, ⟨"q", 0, []⟩],
  [⟨"t", none, [⟨1, one (.var 0)⟩], [⟨2, one .dot⟩]⟩, ⟨"u", none, [⟨0, one .dot⟩], [⟨1, one (fC 1)⟩]⟩], []⟩

/-- r: dot, s: dot, p: c0 and c2; t: p(x) to q(x); v: s and p(x) to o(x); u: r to p(c1) -/
def nTime : CNet := ⟨fT, fun _ => 1, [⟨"r", 0, [(0, 1)]⟩, ⟨"s", 0, [(0, 1)]⟩, ⟨"p", 1, [(0, 1), (2, 1)]⟩, ⟨"q", 1, []⟩, ⟨"o", 1, []⟩],
  [⟨"t", none, [⟨2, one (.var 0)⟩], [⟨3, one (.var 0)⟩]⟩, ⟨"v", none, [⟨1, one .dot⟩, ⟨2, one (.var 0)⟩], [⟨4, one (.var 0)⟩]⟩,
   ⟨"u", none, [⟨0, one .dot⟩], [⟨2, one (fC 1)⟩]⟩], []⟩

/-- p: c1; t: p((c0 - c0) + c1) to q(dot) -/
def nSub : CNet := ⟨fT, fun _ => 1, [⟨"p", 1, [(1, 1)]⟩, ⟨"q", 0, []⟩],
  [⟨"t", none, [⟨0, .add [.sub (one (fC 0)) (one (fC 0)), one (fC 1)]⟩], [⟨1, one .dot⟩]⟩], []⟩

theorem nDone_ready : Ready nDone where
  types := fWF
  parts ty cs h := nomatch h
  vpos v := fDims _
  ppos p _ := fDims _
  marking p hp := by
    have : p = 0 ∨ p = 1 ∨ p = 2 := by have : p < 3 := hp; omega
    rcases this with rfl | rfl | rfl
    · intro q hq; rw [List.mem_singleton.1 hq]; decide
    · intro q hq; rw [List.mem_singleton.1 hq]; decide
    · intro q hq; cases hq
  guard := List.forall_mem_cons.2 ⟨(fun g h => nomatch h), List.forall_mem_cons.2 ⟨(fun g h => nomatch h), fun t h => nomatch h⟩⟩
  input := by
    refine List.forall_mem_cons.2 ⟨?_, List.forall_mem_cons.2 ⟨?_, fun t h => nomatch h⟩⟩ <;>
      refine List.forall_mem_cons.2 ⟨?_, fun t h => nomatch h⟩ <;>
      refine ⟨by decide, ⟨by simp, List.forall_mem_cons.2 ⟨rfl, fun t h => nomatch h⟩⟩, ⟨_, rfl, trivial⟩, by decide, Or.inl Nat.one_pos⟩
  places := by decide
  output := by
    refine List.forall_mem_cons.2 ⟨?_, List.forall_mem_cons.2 ⟨?_, fun t h => nomatch h⟩⟩ <;>
      refine List.forall_mem_cons.2 ⟨?_, fun t h => nomatch h⟩ <;>
      refine ⟨by decide, ⟨by simp, List.forall_mem_cons.2 ⟨?_, fun t h => nomatch h⟩⟩, List.forall_mem_cons.2 ⟨?_, fun t h => nomatch h⟩⟩
    · rfl
    · trivial
    · exact ⟨rfl, by decide⟩
    · rfl

theorem nTime_ready : Ready nTime where
  types := fWF
  parts ty cs h := nomatch h
  vpos v := fDims _
  ppos p _ := fDims _
  marking p hp := by
    have : p = 0 ∨ p = 1 ∨ p = 2 ∨ p = 3 ∨ p = 4 := by have : p < 5 := hp; omega
    rcases this with rfl | rfl | rfl | rfl | rfl
    · intro q hq; rw [List.mem_singleton.1 hq]; decide
    · intro q hq; rw [List.mem_singleton.1 hq]; decide
    · exact (by decide : ∀ q ∈ [(0, 1), (2, 1)], q.1 < fT.size 1)
    · intro q hq; cases hq
    · intro q hq; cases hq
  guard := List.forall_mem_cons.2 ⟨(fun g h => nomatch h), List.forall_mem_cons.2 ⟨(fun g h => nomatch h), List.forall_mem_cons.2 ⟨(fun g h => nomatch h), fun t h => nomatch h⟩⟩⟩
  input := by
    have k : ∀ (a : CArc) (t : CExpr), a.place < 5 → a.expr = one t → HasTy fT (fun _ => 1) t (nTime.place a.place).ty → PlainConsts fT t → aligned fT (fun _ => 1) a.expr = true →
        a.place < 5 ∧ ArcTy fT (fun _ => 1) (nTime.place a.place).ty a.expr ∧ Flat fT a.expr ∧ aligned fT (fun _ => 1) a.expr = true ∧ (Positive a.expr ∨ isSub a.expr = true) := by
      intro a t h1 h2 h3 h4 h5
      refine ⟨h1, ?_, ?_, h5, ?_⟩ <;> rw [h2]
      · exact ⟨by simp, List.forall_mem_cons.2 ⟨h3, fun t h => nomatch h⟩⟩
      · exact ⟨t, rfl, h4⟩
      · exact Or.inl Nat.one_pos
    refine List.forall_mem_cons.2 ⟨List.forall_mem_cons.2 ⟨?_, fun t h => nomatch h⟩, List.forall_mem_cons.2 ⟨List.forall_mem_cons.2 ⟨?_, List.forall_mem_cons.2 ⟨?_, fun t h => nomatch h⟩⟩,
      List.forall_mem_cons.2 ⟨List.forall_mem_cons.2 ⟨?_, fun t h => nomatch h⟩, fun t h => nomatch h⟩⟩⟩ <;>
      exact k _ _ (by decide) rfl rfl trivial (by decide)
  places := by decide
  output := by
    have k : ∀ (a : CArc) (t : CExpr), a.place < 5 → a.expr = one t → HasTy fT (fun _ => 1) t (nTime.place a.place).ty → PlainConsts fT t →
        a.place < 5 ∧ ArcTy fT (fun _ => 1) (nTime.place a.place).ty a.expr ∧ ∀ l ∈ leaves a.expr, PlainConsts fT l := by
      intro a t h1 h2 h3 h4
      refine ⟨h1, ?_, ?_⟩ <;> rw [h2]
      · exact ⟨by simp, List.forall_mem_cons.2 ⟨h3, fun t h => nomatch h⟩⟩
      · exact List.forall_mem_cons.2 ⟨h4, fun t h => nomatch h⟩
    refine List.forall_mem_cons.2 ⟨List.forall_mem_cons.2 ⟨?_, fun t h => nomatch h⟩, List.forall_mem_cons.2 ⟨List.forall_mem_cons.2 ⟨?_, fun t h => nomatch h⟩,
      List.forall_mem_cons.2 ⟨List.forall_mem_cons.2 ⟨?_, fun t h => nomatch h⟩, fun t h => nomatch h⟩⟩⟩
    · exact k _ _ (by decide) rfl rfl trivial
    · exact k _ _ (by decide) rfl rfl trivial
    · exact k _ _ (by decide) rfl ⟨rfl, by decide⟩ rfl

theorem Ready.typed {N : CNet} (R : Ready N) : Typed N :=
  ⟨R.types, R.parts, R.vpos, R.ppos, R.marking, fun t ht g hg => (R.guard t ht g hg).1, fun t ht a ha => ⟨(R.input t ht a ha).1, (R.input t ht a ha).2.1⟩, R.places,
    fun t ht a ha => ⟨(R.output t ht a ha).1, (R.output t ht a ha).2.1⟩⟩

theorem nSub_typed : Typed nSub where
  types := fWF
  parts ty cs h := nomatch h
  vpos v := fDims _
  ppos p _ := fDims _
  marking p hp := by
    have : p = 0 ∨ p = 1 := by have : p < 2 := hp; omega
    rcases this with rfl | rfl
    · intro q hq; rw [List.mem_singleton.1 hq]; decide
    · intro q hq; cases hq
  guard := List.forall_mem_cons.2 ⟨(fun g h => nomatch h), fun t h => nomatch h⟩
  input := by
    have h0 : ∀ i < 8, ArcTy fT (fun _ => 1) 1 (one (fC i)) := fun i hi => ⟨by simp, List.forall_mem_cons.2 ⟨⟨rfl, hi⟩, fun t h => nomatch h⟩⟩
    exact List.forall_mem_cons.2 ⟨List.forall_mem_cons.2 ⟨⟨by decide, ⟨⟨h0 0 (by decide), h0 0 (by decide)⟩, h0 1 (by decide), trivial⟩⟩, fun t h => nomatch h⟩, fun t h => nomatch h⟩
  places := by decide
  output := List.forall_mem_cons.2 ⟨List.forall_mem_cons.2 ⟨⟨by decide, ⟨by simp, List.forall_mem_cons.2 ⟨rfl, fun t h => nomatch h⟩⟩⟩, fun t h => nomatch h⟩, fun t h => nomatch h⟩

/-- the assignment of c1 to all variables -/
def all1 : Nat → Val := fun _ => [1]

/-- taking a token from the initial marking -/
theorem init_one {N : CNet} {p : Nat} {q : Nat × Nat} (h : (N.place p).marking = [q]) (hq : q.2 = 1) (x : Val) :
    N.init p x = [N.types.value ⟨(N.place p).ty, q.1⟩].count x := by
  unfold CNet.init
  rw [h, List.map_singleton, List.sum_singleton, hq, List.count_singleton]
  by_cases e : N.types.value ⟨(N.place p).ty, q.1⟩ = x
  · rw [if_pos e, if_pos (by rw [e]; exact beq_self_eq_true x)]
  · rw [if_neg e, if_neg (by simpa using e)]

theorem taken {N : CNet} {ρ : Nat → Val} {a : CArc} {t : CExpr} (h : a.expr = one t) (p : Nat) (x : Val) :
    arcsTokens N ρ [a] p x = if a.place = p then [den N.types N.vty ρ t].count x else 0 := by
  unfold arcsTokens
  rw [List.map_singleton, List.sum_singleton, h]
  unfold one
  rw [tokens]
  simp only [Nat.one_mul, List.map_singleton]

theorem legal1 {N : CNet} {t : Nat} (hT : N.types = fT) (hv : N.vty = fun _ => 1) (hg : (N.trans t).guard = none) : N.Legal t all1 := by
  refine ⟨fun v _ => ?_, by rw [hg]; trivial⟩
  rw [hT, hv]
  exact (by decide : [1] ∈ fT.values 1)

/-- `u` takes the dot from place 0 and puts c1 to the place `p`; then `t` can take c1. -/
theorem puts {N : CNet} {t u p : Nat} (hT : N.types = fT) (hv : N.vty = fun _ => 1) (hu : u < N.transitions.length) (hi : N.inhibitors = [])
    (h0 : (N.place 0).ty = 0) (hm : (N.place 0).marking = [(0, 1)]) (gu : (N.trans u).guard = none) (iu : (N.trans u).inputs = [⟨0, one .dot⟩])
    (ou : (N.trans u).outputs = [⟨p, one (fC 1)⟩]) (it : (N.trans t).inputs = [⟨p, one (.var 0)⟩]) :
    N.Reach (N.fire N.init u all1) ∧ N.Enabled (N.fire N.init u all1) t all1 := by
  refine ⟨.step .init ⟨hu, legal1 hT hv gu, ⟨?_, ?_⟩, rfl⟩, ⟨?_, ?_⟩⟩
  · intro q x
    rw [iu, taken rfl]
    split
    · rename_i e
      have e : 0 = q := e
      subst e
      rw [init_one hm rfl, h0, hT]
      exact Nat.le_refl _
    · exact Nat.zero_le _
  · intro h hh
    rw [hi] at hh
    cases hh
  · intro q x
    unfold CNet.fire
    rw [it, ou, taken rfl, taken rfl, hT, hv]
    have e : den fT (fun _ => 1) all1 (.var 0) = den fT (fun _ => 1) all1 (fC 1) := by decide
    rw [e]
    exact Nat.le_add_left _ _
  · intro h hh
    rw [hi] at hh
    cases hh

/-- **Finding.**  A transition without variables on its output arcs is looked at once: colours that reach its input places later are
missing in its maps (ForwardFixedPoint.cpp:187, 368-371).  Here no growth is missed. -/
theorem C66_finding_considered : ∃ s M, Ready nDone ∧ compute nDone (fun _ => 250) 30 = some s ∧ tidy nDone (fun _ => 250) 30 = true ∧ nDone.Reach M ∧
    nDone.Legal 0 all1 ∧ nDone.Enabled M 0 all1 ∧ ¬ BindingIn s 0 all1 := by
  have h : (compute nDone (fun _ => 250) 30).map (fun s => s.maps 0) = some [[(0, [[⟨0, 0⟩]])]] := by decide +kernel
  cases e : compute nDone (fun _ => 250) 30 with
  | none => rw [e] at h; cases h
  | some s =>
    rw [e] at h
    simp only [Option.map_some, Option.some.injEq] at h
    obtain ⟨h1, h2⟩ := puts (N := nDone) (t := 0) (u := 1) (p := 1) rfl rfl (by decide) rfl rfl rfl rfl rfl rfl rfl
    refine ⟨s, _, nDone_ready, rfl, by decide +kernel, h1, legal1 rfl rfl rfl, h2, ?_⟩
    rintro ⟨m, hm, hc⟩
    rw [h, List.mem_singleton] at hm
    subst hm
    obtain ⟨i, hi, hx⟩ := hc _ (List.mem_singleton_self _)
    rw [List.mem_singleton] at hi
    subst hi
    exact absurd hx.1.2 (by decide)

/-- **Finding.**  Joining boxes to respect the limit adds colours to a place without putting it in the queue, so that a transition that
was looked at before the limit was lowered does not learn of a token that comes later (ForwardFixedPoint.cpp:174, 238, 358-364). -/
theorem C66_finding_restrict : ∃ s M, Ready nTime ∧ compute nTime (fun i => if i < 5 then 250 else 1) 30 = some s ∧ nTime.Reach M ∧
    nTime.Legal 0 all1 ∧ nTime.Enabled M 0 all1 ∧ (∃ a ∈ (nTime.trans 0).outputs, a.expr.vars ≠ []) ∧ ¬ BindingIn s 0 all1 := by
  have h : (compute nTime (fun i => if i < 5 then 250 else 1) 30).map (fun s => s.maps 0) = some [[(0, [[⟨0, 0⟩]])], [(0, [[⟨2, 2⟩]])]] := by decide +kernel
  cases e : compute nTime (fun i => if i < 5 then 250 else 1) 30 with
  | none => rw [e] at h; cases h
  | some s =>
    rw [e] at h
    simp only [Option.map_some, Option.some.injEq] at h
    obtain ⟨h1, h2⟩ := puts (N := nTime) (t := 0) (u := 2) (p := 2) rfl rfl (by decide) rfl rfl rfl rfl rfl rfl rfl
    refine ⟨s, _, nTime_ready, rfl, h1, legal1 rfl rfl rfl, h2, ⟨_, List.mem_singleton_self _, by decide⟩, ?_⟩
    rintro ⟨m, hm, hc⟩
    rw [h] at hm
    rcases List.mem_cons.1 hm with rfl | hm
    · obtain ⟨i, hi, hx⟩ := hc _ (List.mem_singleton_self _)
      rw [List.mem_singleton] at hi
      subst hi
      exact absurd hx.1.2 (by decide)
    · rw [List.mem_singleton] at hm
      subst hm
      obtain ⟨i, hi, hx⟩ := hc _ (List.mem_singleton_self _)
      rw [List.mem_singleton] at hi
      subst hi
      exact absurd hx.1.1 (by decide)

/-- **Finding.**  A place whose input arc has a subtraction below the top is not given all colours (Expressions.h:443,
ColoredPetriNetBuilder.cpp:177), while the subtrahend is ignored: the arc asks for colours that are not taken, and the outputs of the
transition are missing. -/
theorem C66_finding_subtraction : ∃ s M, Typed nSub ∧ compute nSub (fun _ => 250) 30 = some s ∧ nSub.Reach M ∧ ¬ TokensIn nSub s M := by
  have h : (compute nSub (fun _ => 250) 30).map (fun s => s.cons 1) = some [] := by decide +kernel
  cases e : compute nSub (fun _ => 250) 30 with
  | none => rw [e] at h; cases h
  | some s =>
    rw [e] at h
    simp only [Option.map_some, Option.some.injEq] at h
    refine ⟨s, nSub.fire nSub.init 0 all1, nSub_typed, rfl, .step .init ⟨by decide, legal1 rfl rfl rfl, ⟨?_, fun h hh => nomatch hh⟩, rfl⟩, ?_⟩
    · intro q x
      have e1 : arcsTokens nSub all1 (nSub.trans 0).inputs q x = if 0 = q then ([[0]].count x - [[0]].count x) + [[1]].count x else 0 := by
        show (if 0 = q then _ else 0) + 0 = _
        rw [Nat.add_zero]
        by_cases h : 0 = q
        · rw [if_pos h, if_pos h]
          show 1 * [den fT (fun _ => 1) all1 (fC 0)].count x - 1 * [den fT (fun _ => 1) all1 (fC 0)].count x + (1 * [den fT (fun _ => 1) all1 (fC 1)].count x + 0) = _
          have d0 : den fT (fun _ => 1) all1 (fC 0) = [0] := by decide
          have d1 : den fT (fun _ => 1) all1 (fC 1) = [1] := by decide
          rw [d0, d1, Nat.one_mul, Nat.one_mul, Nat.add_zero]
        · rw [if_neg h, if_neg h]
      rw [e1]
      split
      · rename_i e
        subst e
        rw [init_one (N := nSub) (p := 0) (q := (1, 1)) rfl rfl]
        have d1 : nSub.types.value ⟨(nSub.place 0).ty, 1⟩ = [1] := by decide
        rw [d1, Nat.sub_self, Nat.zero_add]
        exact Nat.le_refl _
      · exact Nat.zero_le _
    · intro hT
      obtain ⟨i, hi, _⟩ := hT 1 (by decide) [0] (by decide)
      rw [h] at hi
      cases hi

/-- The full claim fails. -/
theorem C66_full_fails : ¬ C66_full := by
  intro h
  obtain ⟨s, M, hr, e, _, hM, hl, he, hn⟩ := C66_finding_considered
  exact hn ((h nDone _ 30 s hr.typed e M hM).2 0 (by decide) all1 hl he)

end CFP
end Verif
