import Verif.CPN.Covering
import Verif.Props.ColorFixpoint
import Verif.Props.ColorGenerator

/-!
# C68: unfolding with the bindings of the colour fixed point

The colour fixed point (C66) gives maps of intervals, the generator (C67) bindings from them, and the unfolder (C34) a transition for
each binding.  Here is what the three do together.
-/

namespace Verif
namespace CFP

open CPN
open Builder (run)

/-- models src/PetriEngine/Colored/Unfolder.cpp:138-155: the generator that the unfolder uses for a transition. -/
def fixGen (N : CNet) (s : FSt) (fuel : Nat) (t : CTrans) : Option (List Binding) :=
  fixBindings N.types N.vty (s.maps (N.transitions.findIdx fun x => x.name == t.name)) fuel t

/-- models Unfolder.cpp:57-110 (`unfold`) after the colour fixed point. -/
def unfoldFix (N : CNet) (s : FSt) (fuel : Nat) : Option U := unfoldWith N (fixGen N s fuel)

/-- The net keeps its behaviour when it is unfolded with the result `s` of the fixed point: the unfolder returns, the builder compiles
the unfolded net, and the reachable markings of the compiled net stand for the reachable markings of the coloured net; a reachable
marking is dead in one exactly if it is dead in the other. -/
def Keeps (N : CNet) (s : FSt) : Prop :=
  (∃ fuel0, ∀ fuel, fuel0 ≤ fuel → ∃ u, unfoldFix N s fuel = some u) ∧
  ∀ fuel u, unfoldFix N s fuel = some u →
    ∃ B, run u.ops = some B ∧ (B.transitions.length < W32 - 1 → ∀ reorder, ∃ c, B.makePetriNet reorder = some c ∧ c.net.WF ∧
      Reads N u B c N.init c.init ∧
      (∀ M, N.Reach M → ∃ m, c.net.toNet.Reach c.init m ∧ Reads N u B c M m) ∧
      (∀ m, c.net.toNet.Reach c.init m → ∃ M, N.Reach M ∧ Reads N u B c M m) ∧
      ∀ M m, N.Reach M → Reads N u B c M m →
        (c.net.toNet.Dead m ↔ ∀ t < N.transitions.length, ∀ ρ, N.Legal t ρ → ¬ N.Enabled M t ρ))

/-- The full claim. -/
def C68_full : Prop := ∀ (N : CNet) (ks : Nat → Nat) (n : Nat) (s : FSt), Typed N → N.WF → N.SmallSums → N.NoMix → 0 < N.places.length →
  compute N ks n = some s → Keeps N s

/-- The fixed point keeps watching the transition, and the generator can go through its maps: a check on the result. -/
def usable (N : CNet) (s : FSt) : Bool := (List.range N.transitions.length).all fun t =>
  (N.trans t).vars.isEmpty ||
  (((N.trans t).outputs.any fun a => !a.expr.vars.isEmpty) || (N.trans t).inputs.isEmpty) &&
    (s.maps t).all fun m => (N.trans t).vars.all fun v => (m.lookup v).isSome && tame N.types (N.vty v) (boxesOf m v)

theorem fix_none {T : Types} {vty : Nat → Nat} (w : T.WF) {t : CTrans} (hg : ∀ g ∈ t.guard, GuardTy T vty g) (hv : t.vars = []) {fuel : Nat} {bs : List Binding}
    (h : fixBindings T vty [] fuel t = some bs) : (∀ b ∈ bs, b = []) ∧ ∀ ρ, bs ≠ [] ↔ guardHolds T vty ρ t.guard := by
  have hgv : ∀ ρ : Nat → Val, Agree T vty [] ρ (guardVars t.guard) := fun ρ v h => by
    have := guardVars_sub t v h
    rw [hv] at this
    cases this
  obtain ⟨r, hr, hr0⟩ := guardEval_ok w t.guard hg (hgv fun _ => [])
  have hrr : ∀ ρ, r = true ↔ guardHolds T vty ρ t.guard := by
    intro ρ
    obtain ⟨r', h1, h2⟩ := guardEval_ok w t.guard hg (hgv ρ)
    rw [hr] at h1
    cases h1
    exact h2
  unfold fixBindings at h
  rw [hv] at h
  simp only [List.isEmpty_nil, Bool.not_true, Bool.false_and, Bool.false_eq_true, if_false, startG, hr] at h
  cases fuel with
  | zero => cases r <;> cases h
  | succ n =>
    have hnx : nextG T vty [] t.guard (n + 1) (0, []) = some none := rfl
    cases r with
    | true =>
      simp only at h
      rw [iterG, hnx] at h
      cases h
      exact ⟨fun b hb => List.mem_singleton.1 hb, fun ρ => ⟨fun _ => (hrr ρ).1 rfl, fun _ => by simp⟩⟩
    | false =>
      simp only at h
      rw [hnx] at h
      cases h
      exact ⟨fun b hb => (nomatch hb), fun ρ => ⟨fun h => absurd rfl h, fun h => Bool.noConfusion ((hrr ρ).2 h)⟩⟩

/-- What the unfolder needs to know about the bindings of one transition. -/
theorem fix_one {N : CNet} (R : Ready N) {s : FSt} (hs : ∀ t < N.transitions.length, ∀ m ∈ s.maps t, m.Sane N.types N.vty) (hu : usable N s = true) {t : Nat}
    (ht : t < N.transitions.length) :
    (∃ fuel0, ∀ fuel, fuel0 ≤ fuel → ∃ bs, fixBindings N.types N.vty (s.maps t) fuel (N.trans t) = some bs) ∧
    ∀ fuel bs, fixBindings N.types N.vty (s.maps t) fuel (N.trans t) = some bs →
      (∀ b ∈ bs, ∃ ρ, Agree N.types N.vty b ρ (N.trans t).vars) ∧
      (∀ b ∈ bs, ∀ ρ, Agree N.types N.vty b ρ (N.trans t).vars → guardHolds N.types N.vty ρ (N.trans t).guard) ∧
      ∀ ρ, N.Legal t ρ → (((∃ a ∈ (N.trans t).outputs, a.expr.vars ≠ []) ∨ (N.trans t).inputs = [] → BindingIn s t ρ)) →
        ∃ b ∈ bs, Agree N.types N.vty b ρ (N.trans t).vars := by
  have hg : ∀ g ∈ (N.trans t).guard, GuardTy N.types N.vty g := fun g hg => (R.guard _ (trans_mem ht) g hg).1
  unfold usable at hu
  have hut := List.all_eq_true.1 hu t (List.mem_range.2 ht)
  by_cases hv : (N.trans t).vars = []
  · refine ⟨?_, fun fuel bs hbs => ?_⟩
    · obtain ⟨f0, h1⟩ := C67_generator_no_variables R.types hg hv (s.maps t)
      exact ⟨f0, fun fuel hf => (h1 fuel hf).imp fun bs h => h.1⟩
    · cases hm : s.maps t with
      | nil =>
        rw [hm] at hbs
        obtain ⟨h1, h2⟩ := fix_none R.types hg hv hbs
        have ha : ∀ b ∈ bs, ∀ ρ : Nat → Val, Agree N.types N.vty b ρ (N.trans t).vars := fun b hb ρ v h => by rw [hv] at h; cases h
        refine ⟨fun b hb => ⟨fun _ => [], ha b hb _⟩, fun b hb ρ _ => (h2 ρ).1 (List.ne_nil_of_mem hb), fun ρ hl _ => ?_⟩
        obtain ⟨b, hb⟩ := List.exists_mem_of_ne_nil _ ((h2 ρ).2 hl.2)
        exact ⟨b, hb, ha b hb ρ⟩
      | cons m ms =>
        have hne : s.maps t ≠ [] := by rw [hm]; simp
        obtain ⟨h3, h4, h5⟩ := (C67_generator_complete_partial (vty := N.vty) R.types hg hne (fun m _ v hv' => by rw [hv] at hv'; cases hv')).2 fuel bs hbs
        exact ⟨h3, h4, fun ρ hl _ => h5 ρ hl.1 hl.2 ⟨m, by rw [hm]; exact List.mem_cons_self, fun v hv' => by rw [hv] at hv'; cases hv'⟩⟩
  · have hvE : (N.trans t).vars.isEmpty = false := by simpa using hv
    rw [hvE, Bool.false_or, Bool.and_eq_true] at hut
    obtain ⟨hw, hm⟩ := hut
    have hw' : (∃ a ∈ (N.trans t).outputs, a.expr.vars ≠ []) ∨ (N.trans t).inputs = [] := by
      rcases Bool.or_eq_true _ _ ▸ hw with h | h
      · obtain ⟨a, ha, h⟩ := List.any_eq_true.1 h
        exact Or.inl ⟨a, ha, by simpa using h⟩
      · exact Or.inr (by simpa using h)
    by_cases hne : s.maps t = []
    · rw [hne]
      have h1 : ∀ fuel, fixBindings N.types N.vty [] fuel (N.trans t) = some [] := by
        intro fuel
        unfold fixBindings
        rw [hvE]
        rfl
      refine ⟨⟨0, fun fuel _ => ⟨[], h1 fuel⟩⟩, fun fuel bs hbs => ?_⟩
      rw [h1] at hbs
      cases hbs
      refine ⟨(fun b hb => nomatch hb), (fun b hb => nomatch hb), fun ρ hl hb => ?_⟩
      obtain ⟨m, hmm, _⟩ := hb hw'
      rw [hne] at hmm
      cases hmm
    · have hwalk : ∀ m ∈ s.maps t, Walkable N.types N.vty (N.trans t).vars m := by
        intro m hmm v hv'
        have h1 := List.all_eq_true.1 (List.all_eq_true.1 hm m hmm) v hv'
        rw [Bool.and_eq_true] at h1
        refine ⟨dims_ne R.parts _, h1.1, ?_, h1.2⟩
        unfold boxesOf
        cases hl : m.lookup v with
        | none => rw [hl] at h1; exact absurd h1.1 (by simp)
        | some vec => exact (hs t ht m hmm).1 _ (lookup_mem' hl)
      obtain ⟨h1, h2⟩ := C67_generator_complete_partial (vty := N.vty) R.types hg hne hwalk
      refine ⟨h1, fun fuel bs hbs => ?_⟩
      obtain ⟨h3, h4, h5⟩ := h2 fuel bs hbs
      refine ⟨h3, h4, fun ρ hl hb => ?_⟩
      obtain ⟨m, hmm, hc⟩ := hb hw'
      refine h5 ρ hl.1 hl.2 ⟨m, hmm, fun v hv' => ?_⟩
      have hp := (hwalk m hmm v hv').2.1
      unfold boxesOf
      cases hl : m.lookup v with
      | none => rw [hl] at hp; cases hp
      | some vec => exact hc _ (lookup_mem' hl)

theorem find_self {N : CNet} (w : N.WF) {t : Nat} (ht : t < N.transitions.length) : N.transitions.findIdx (fun x => x.name == (N.trans t).name) = t := by
  have hlt : N.transitions.findIdx (fun x => x.name == (N.trans t).name) < N.transitions.length :=
    List.findIdx_lt_length_of_exists ⟨N.trans t, trans_mem ht, by simp⟩
  refine w.trans_inj hlt ht ?_
  have h3 := List.findIdx_getElem (w := hlt)
  generalize N.transitions.findIdx (fun x => x.name == (N.trans t).name) = k at *
  show (N.transitions.getD k _).name = _
  rw [List.getD_eq_getElem?_getD, List.getElem?_eq_getElem hlt]
  simpa using h3

theorem mem_trans {N : CNet} {t : CTrans} (h : t ∈ N.transitions) : ∃ k < N.transitions.length, N.trans k = t := by
  obtain ⟨k, hk, e⟩ := List.mem_iff_getElem.1 h
  exact ⟨k, hk, by unfold CNet.trans; rw [List.getD_eq_getElem?_getD, List.getElem?_eq_getElem hk, e]; rfl⟩

/-- **C68 (partial).**  For nets in the class of C66, if the fixed point misses no growth, keeps watching all transitions with variables
(F91), and leaves maps that the generator can go through (F94, F95), then unfolding with its bindings keeps the behaviour of the net. -/
theorem C68_unfolding_with_fixpoint_partial {N : CNet} (R : Ready N) (w : N.WF) (hsm : N.SmallSums) (hmix : N.NoMix) (hpl : 0 < N.places.length)
    {ks : Nat → Nat} {n : Nat} {s : FSt} (e : compute N ks n = some s) (ht : tidy N ks n = true) (hu : usable N s = true) : Keeps N s := by
  have hs : ∀ t < N.transitions.length, ∀ m ∈ s.maps t, m.Sane N.types N.vty := by
    unfold tidy at ht
    rw [Bool.and_eq_true] at ht
    exact (loop_good R n 0 (start_good R ht.1) ht.2 e).1.sane
  have hgen : ∀ t < N.transitions.length, ∀ fuel, fixGen N s fuel (N.trans t) = fixBindings N.types N.vty (s.maps t) fuel (N.trans t) := by
    intro t ht fuel
    unfold fixGen
    rw [find_self w ht]
  have hlegal : ∀ fuel, (∀ t ∈ N.transitions, fixGen N s fuel t ≠ none) → GenLegal N (fixGen N s fuel) := by
    intro fuel h t htt
    obtain ⟨k, hk, rfl⟩ := mem_trans htt
    cases hb : fixGen N s fuel (N.trans k) with
    | none => exact absurd hb (h _ htt)
    | some bs =>
      obtain ⟨h1, h2, _⟩ := (fix_one R hs hu hk).2 fuel bs (by rw [← hgen k hk]; exact hb)
      exact ⟨bs, rfl, h1, h2⟩
  refine ⟨?_, fun fuel u hun => ?_⟩
  · have hb : ∀ k ≤ N.transitions.length, ∃ f0, ∀ fuel, f0 ≤ fuel → ∀ t < k, fixGen N s fuel (N.trans t) ≠ none := by
      intro k
      induction k with
      | zero => exact fun _ => ⟨0, fun _ _ t h => absurd h (Nat.not_lt_zero _)⟩
      | succ k ih =>
        intro hk
        obtain ⟨f1, h1⟩ := ih (Nat.le_of_succ_le hk)
        obtain ⟨f2, h2⟩ := (fix_one R hs hu hk).1
        refine ⟨max f1 f2, fun fuel hf t htk => ?_⟩
        rcases Nat.lt_succ_iff_lt_or_eq.1 htk with h | rfl
        · exact h1 fuel (Nat.le_trans (Nat.le_max_left _ _) hf) t h
        · obtain ⟨bs, hbs⟩ := h2 fuel (Nat.le_trans (Nat.le_max_right _ _) hf)
          rw [hgen t hk, hbs]
          exact Option.some_ne_none _
    obtain ⟨f0, hf0⟩ := hb _ (Nat.le_refl _)
    refine ⟨f0, fun fuel hf => ?_⟩
    obtain ⟨u, h1, _⟩ := result_of w (hlegal fuel fun t htt => by
      obtain ⟨k, hk, rfl⟩ := mem_trans htt
      exact hf0 fuel hf k hk)
    exact ⟨u, h1⟩
  · have hg : GenLegal N (fixGen N s fuel) := by
      have hun' := hun
      unfold unfoldFix unfoldWith at hun'
      obtain ⟨s0, h0, _⟩ := Option.map_eq_some_iff.1 hun'
      exact hlegal fuel (transitions_gen h0)
    refine reachability_of w hsm hmix hpl hg hun fun M hM t htl ρ hl hen => ?_
    obtain ⟨bs, hbs, _⟩ := hg _ (trans_mem htl)
    obtain ⟨_, _, h3⟩ := (fix_one R hs hu htl).2 fuel bs (by rw [← hgen t htl]; exact hbs)
    exact ⟨bs, hbs, h3 ρ hl (((C66_fixpoint_covers_partial R e ht hM).2 t htl ρ hl hen).2)⟩

/-! ### Examples -/

/-- number of transitions of the unfolded net -/
def unfoldedSize (N : CNet) (k n fuel : Nat) : Option Nat :=
  (compute N (fun _ => k) n).bind fun s => (unfoldFix N s fuel).bind fun u => (run u.ops).map fun B => B.transitions.length

theorem one_arc {N : CNet} {ty : Nat} {t : CExpr} (hT : N.types = fT) (hv : N.vty = fun _ => 1) (h : HasTy fT (fun _ => 1) t ty) :
    ArcTy N.types N.vty ty (one t) ∧ (one t).Small ∧ (one t).bound < 2 ^ 31 := by
  rw [hT, hv]
  exact ⟨⟨by simp, List.forall_mem_cons.2 ⟨h, fun t h => nomatch h⟩⟩, by simp [one, ArcE.Small, W32], by simp [one, ArcE.bound]⟩

theorem nGood_wf : nGood.WF where
  types := fWF
  pnames := by decide
  tnames := by decide
  vpos := by decide
  guard := fun t ht g hg => (nGood_ready.guard t ht g hg).1
  arcs := by
    refine List.forall_mem_cons.2 ⟨?_, List.forall_mem_cons.2 ⟨?_, fun t h => nomatch h⟩⟩ <;>
      refine List.forall_mem_cons.2 ⟨⟨by decide, one_arc rfl rfl ?_⟩, List.forall_mem_cons.2 ⟨⟨by decide, one_arc rfl rfl ?_⟩, fun t h => nomatch h⟩⟩
    · rfl
    · exact ⟨rfl, rfl⟩
    · rfl
    · rfl
  marking := by decide
  inhib := fun h hh => nomatch hh

/-- The hypotheses hold for a net; five transitions instead of sixteen. -/
example : ∃ s, Ready nGood ∧ nGood.WF ∧ nGood.SmallSums ∧ nGood.NoMix ∧ compute nGood (fun _ => 250) 30 = some s ∧ tidy nGood (fun _ => 250) 30 = true ∧
    usable nGood s = true ∧ unfoldedSize nGood 250 30 20 = some 5 := by
  have h : (compute nGood (fun _ => 250) 30).map (usable nGood) = some true := by decide +kernel
  obtain ⟨s, e, h⟩ := Option.map_eq_some_iff.1 h
  exact ⟨s, nGood_ready, nGood_wf, by unfold CNet.SmallSums; decide, (fun h hh => nomatch hh), e, by decide +kernel, h, by decide +kernel⟩

/-! ### Finding -/

theorem nDone_wf : nDone.WF where
  types := fWF
  pnames := by decide
  tnames := by decide
  vpos := by decide
  guard := fun t ht g hg => (nDone_ready.guard t ht g hg).1
  arcs := by
    refine List.forall_mem_cons.2 ⟨?_, List.forall_mem_cons.2 ⟨?_, fun t h => nomatch h⟩⟩ <;>
      refine List.forall_mem_cons.2 ⟨⟨by decide, one_arc rfl rfl ?_⟩, List.forall_mem_cons.2 ⟨⟨by decide, one_arc rfl rfl ?_⟩, fun t h => nomatch h⟩⟩
    · rfl
    · rfl
    · rfl
    · exact ⟨rfl, by decide⟩
  marking := by decide
  inhib := fun h hh => nomatch hh

local instance : DecidableEq Binding := inferInstanceAs (DecidableEq (List (Nat × Nat)))

/-- the assignment of c0 to all variables -/
def all0 : Nat → Val := fun _ => [0]

/-- `u` and then `t` with c0 have fired -/
def lastM : CMark := nDone.fire (nDone.fire nDone.init 1 all1) 0 all0

theorem fire_p {M : CMark} {ρ : Nat → Val} (h : ρ 0 = [0] ∨ ρ 0 = [1]) (x : Val) : nDone.fire M 0 ρ 1 x = M 1 x - [ρ 0].count x := by
  unfold CNet.fire
  rw [show (nDone.trans 0).inputs = [⟨1, one (.var 0)⟩] from rfl, show (nDone.trans 0).outputs = [⟨2, one .dot⟩] from rfl, taken rfl, taken rfl]
  rfl

theorem fire_up (x : Val) : nDone.fire nDone.init 1 all1 1 x = [[0]].count x + [[1]].count x := by
  unfold CNet.fire
  rw [show (nDone.trans 1).inputs = [⟨0, one .dot⟩] from rfl, show (nDone.trans 1).outputs = [⟨1, one (fC 1)⟩] from rfl, taken rfl, taken rfl,
    init_one (N := nDone) (p := 1) (q := (0, 1)) rfl rfl]
  rfl

theorem lastM_p (x : Val) : lastM 1 x = [[1]].count x := by
  unfold lastM
  rw [fire_p (Or.inl rfl), fire_up]
  exact Nat.add_sub_cancel_left _ _

theorem enabled_t {M : CMark} {ρ : Nat → Val} (h : ∀ x, [ρ 0].count x ≤ M 1 x) : nDone.Enabled M 0 ρ := by
  refine ⟨fun q x => ?_, fun h hh => nomatch hh⟩
  rw [show (nDone.trans 0).inputs = [⟨1, one (.var 0)⟩] from rfl, taken rfl]
  split
  · rename_i e
    have e : 1 = q := e
    subst e
    exact h x
  · exact Nat.zero_le _

theorem lastM_reach : nDone.Reach lastM := by
  obtain ⟨h1, _⟩ := puts (N := nDone) (t := 0) (u := 1) (p := 1) rfl rfl (by decide) rfl rfl rfl rfl rfl rfl rfl
  refine .step h1 ⟨by decide, ⟨fun v _ => ?_, by trivial⟩, enabled_t fun x => ?_, rfl⟩
  · exact (by decide : [0] ∈ fT.values 1)
  · rw [fire_up]
    exact Nat.le_add_right _ _

/-- **F91, unfolded.**  In a reachable marking of the coloured net a transition can fire, but the unfolded net is dead there: the
unfolder was not given the binding. -/
theorem C68_finding_lost_transition : ∃ s, Ready nDone ∧ nDone.WF ∧ nDone.SmallSums ∧ nDone.NoMix ∧ compute nDone (fun _ => 250) 30 = some s ∧
    tidy nDone (fun _ => 250) 30 = true ∧ nDone.Reach lastM ∧ nDone.Legal 0 all1 ∧ nDone.Enabled lastM 0 all1 ∧
    ∃ u B, unfoldFix nDone s 20 = some u ∧ run u.ops = some B ∧ ∀ reorder, ∃ c, B.makePetriNet reorder = some c ∧
      ∀ m, Reads nDone u B c lastM m → c.net.toNet.Dead m := by
  have hsm : nDone.SmallSums := by unfold CNet.SmallSums; decide
  have hmix : nDone.NoMix := fun h hh => nomatch hh
  have h : ((compute nDone (fun _ => 250) 30).bind fun s => (unfoldFix nDone s 20).bind fun u => (run u.ops).map fun B =>
      (B.transitions.length, fixGen nDone s 20 (nDone.trans 0), fixGen nDone s 20 (nDone.trans 1))) = some (2, some [[(0, 0)]], some [[]]) := by
    decide +kernel
  obtain ⟨s, e, h⟩ := Option.bind_eq_some_iff.1 h
  obtain ⟨u, hu, h⟩ := Option.bind_eq_some_iff.1 h
  obtain ⟨B, hB, h⟩ := Option.map_eq_some_iff.1 h
  simp only [Prod.mk.injEq] at h
  obtain ⟨hl, h0, h1⟩ := h
  refine ⟨s, nDone_ready, nDone_wf, hsm, hmix, e, by decide +kernel, lastM_reach, legal1 rfl rfl rfl, enabled_t fun x => ?_, u, B, hu, hB, fun reorder => ?_⟩
  · rw [lastM_p]
    exact Nat.le_refl _
  · have hg : GenLegal nDone (fixGen nDone s 20) := by
      refine List.forall_mem_cons.2 ⟨⟨_, h0, List.forall_mem_cons.2 ⟨⟨all0, ?_⟩, fun b h => nomatch h⟩, fun b _ ρ _ => trivial⟩,
        List.forall_mem_cons.2 ⟨⟨_, h1, List.forall_mem_cons.2 ⟨⟨all0, ?_⟩, fun b h => nomatch h⟩, fun b _ ρ _ => trivial⟩, fun t h => nomatch h⟩⟩
      · exact (by decide : ∀ v ∈ [0], ∃ i < 8, List.lookup v [(0, 0)] = some i ∧ [0] = fT.value ⟨1, i⟩)
      · exact fun v h => nomatch h
    obtain ⟨B', hB', h2⟩ := compiled_of nDone_wf hsm hmix (by decide) hg hu
    rw [hB] at hB'
    cases hB'
    obtain ⟨c, hc, _, _, _, _, h3⟩ := h2 (by rw [hl]; decide) reorder
    refine ⟨c, hc, fun m hr => (h3 lastM m hr).2 fun t ht bs hbs b hb ρ ha hen => ?_⟩
    have : t = 0 ∨ t = 1 := by have : t < 2 := ht; omega
    rcases this with rfl | rfl
    · rw [h0] at hbs
      cases hbs
      rw [List.mem_singleton] at hb
      subst hb
      obtain ⟨i, _, hi, hρ⟩ := ha 0 (by decide)
      cases hi
      have h4 := hen.1 1 [0]
      rw [show (nDone.trans 0).inputs = [⟨1, one (.var 0)⟩] from rfl, taken rfl, lastM_p] at h4
      have h5 : den nDone.types nDone.vty ρ (.var 0) = [0] := hρ.trans (by decide)
      rw [h5] at h4
      exact absurd h4 (by decide)
    · have h4 := hen.1 0 [0]
      rw [show (nDone.trans 1).inputs = [⟨0, one .dot⟩] from rfl, taken rfl] at h4
      have h5 : den nDone.types nDone.vty ρ .dot = [0] := rfl
      rw [h5, show lastM 0 [0] = 0 from by decide] at h4
      exact absurd h4 (by decide)

/-- The full claim fails. -/
theorem C68_full_fails : ¬ C68_full := by
  intro h
  obtain ⟨s, hr, hw, hsm, hmix, e, _, hM, hl, hen, u, B, hu, hB, hd⟩ := C68_finding_lost_transition
  obtain ⟨_, h1⟩ := h nDone _ 30 s hr.typed hw hsm hmix (by decide) e
  obtain ⟨B', hB', h1⟩ := h1 20 u hu
  rw [hB] at hB'
  cases hB'
  have hsz : B.transitions.length < W32 - 1 := by
    have h : ((compute nDone (fun _ => 250) 30).bind fun s => (unfoldFix nDone s 20).bind fun u => (run u.ops).map fun B => B.transitions.length) = some 2 := by
      decide +kernel
    rw [e, Option.bind_some, hu, Option.bind_some, hB] at h
    have h := Option.some.inj h
    simp only at h
    rw [h]
    decide
  obtain ⟨c, hc, _, _, h2, _, h3⟩ := h1 hsz false
  obtain ⟨c', hc', h4⟩ := hd false
  rw [hc] at hc'
  cases hc'
  obtain ⟨m, _, hm⟩ := h2 lastM hM
  exact (h3 lastM m hM hm).1 (h4 m hm) 0 (by decide) all1 hl hen

end CFP
end Verif
