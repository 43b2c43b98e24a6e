import Verif.PQL.Shorthand
import Verif.PQL.BinaryLemmas
import Verif.Net.FlatLemmas
import Verif.Net.Examples

/-!
# C20: shorthand queries mean what they say
-/

namespace Verif
namespace ShorthandProps
open PQL Shorthand Examples

/-! ### Paths and reachability -/

theorem path_reach {N : FlatNet} {π : Nat → Mark} (h : N.ts.IsPath π) (i : Nat) : N.toNet.Reach (π 0) (π i) := by
  induction i with
  | zero => exact .refl _ _
  | succ i ih =>
    rcases h i with ⟨t, hs⟩ | ⟨_, he⟩
    · exact ih.step _ hs
    · rw [he]; exact ih

theorem reach_path {N : FlatNet} {m m' : Mark} (h : N.toNet.Reach m m') :
    ∃ π i, N.ts.IsPath π ∧ π 0 = m ∧ π i = m' := by
  obtain ⟨ts, h⟩ := h
  induction h with
  | nil m =>
    obtain ⟨π, h1, h2⟩ := N.ts.exists_path m
    exact ⟨π, 0, h1, h2, h2⟩
  | cons s _ ih =>
    obtain ⟨π, i, h1, h2, h3⟩ := ih
    refine ⟨prepend _ π, i + 1, prepend_path h1 (by rw [h2]; exact ⟨_, s⟩), rfl, ?_⟩
    exact h3

/-- The formula holds in a marking (of a path starting there). -/
def HoldsAt (N : FlatNet) (m : Mark) (c : Cond) : Prop := ∀ π, N.ts.IsPath π → π 0 = m → c.sat N.ts π

theorem ef_iff {N : FlatNet} {π : Nat → Mark} (c : Cond) (P : Mark → Prop)
    (hc : ∀ ρ, N.ts.IsPath ρ → N.toNet.Reach (π 0) (ρ 0) → (c.sat N.ts ρ ↔ P (ρ 0))) :
    (Cond.EF c).sat N.ts π ↔ ∃ m, N.toNet.Reach (π 0) m ∧ P m := by
  simp only [Cond.sat]
  constructor
  · rintro ⟨ρ, h1, h2, i, h3⟩
    have hr : N.toNet.Reach (π 0) (ρ i) := by rw [← h2]; exact path_reach h1 i
    exact ⟨ρ i, hr, (hc _ (suffix_path h1 i) (by rw [suffix_head]; exact hr)).1 h3⟩
  · rintro ⟨m, hr, hp⟩
    obtain ⟨ρ, i, h1, h2, h3⟩ := reach_path hr
    refine ⟨ρ, h1, h2, i, (hc _ (suffix_path h1 i) ?_).2 ?_⟩
    · rw [suffix_head, h3]; exact hr
    · rw [suffix_head, h3]; exact hp

theorem ag_iff {N : FlatNet} {π : Nat → Mark} (c : Cond) (P : Mark → Prop)
    (hc : ∀ ρ, N.ts.IsPath ρ → N.toNet.Reach (π 0) (ρ 0) → (c.sat N.ts ρ ↔ P (ρ 0))) :
    (Cond.AG c).sat N.ts π ↔ ∀ m, N.toNet.Reach (π 0) m → P m := by
  simp only [Cond.sat]
  constructor
  · intro h m hr
    obtain ⟨ρ, i, h1, h2, h3⟩ := reach_path hr
    have := (hc _ (suffix_path h1 i) (by rw [suffix_head, h3]; exact hr)).1 (h ρ h1 h2 i)
    rwa [suffix_head, h3] at this
  · intro h ρ h1 h2 i
    have hr : N.toNet.Reach (π 0) (ρ i) := by rw [← h2]; exact path_reach h1 i
    exact (hc _ (suffix_path h1 i) (by rw [suffix_head]; exact hr)).2 (h _ hr)

/-- All reachable markings fit in 32 bits (the code stops otherwise, C04). -/
def Fits (N : FlatNet) (m : Mark) : Prop := ∀ m', N.toNet.Reach m m' → ∀ p, m' p ≤ umax

/-! ### Fireability -/

/-- **C20**, fireability: the formula holds exactly where the transition is enabled. -/
theorem C20_fireable {N : FlatNet} (w : N.WF) (t : Fin N.ntransitions) (π : Nat → Mark) (hm : ∀ p, π 0 p ≤ umax) :
    (fireable N t).sat N.ts π ↔ N.toNet.Enabled (π 0) t := by
  rw [← FlatNet.checkPreset_iff w, FlatNet.checkPreset, FlatNet.checkInvs_iff]
  have hall : (∀ c ∈ (N.preset t).map arcCons, c.holds (π 0)) ↔
      ∀ i ∈ N.preset t, (i.inhibitor = false → i.tokens ≤ π 0 i.place) ∧
        (i.inhibitor = true → π 0 i.place < i.tokens) := by
    rw [List.forall_mem_map]
    refine forall₂_congr fun i hi => ?_
    have hpos : 0 < i.tokens := w.tokens_pos i (List.mem_of_mem_drop (List.mem_of_mem_take hi))
    have := hm i.place
    cases h : i.inhibitor
    · simp only [arcCons, h, Cons.holds]
      simp [this]
    · simp only [arcCons, h, Cons.holds, hpos]
      simp; omega
  unfold fireable
  simp only
  split
  · rename_i he
    simp only [List.isEmpty_iff, List.map_eq_nil_iff] at he
    simp [he, Cond.sat]
  · simp only [Cond.sat, ccHolds]
    rw [hall]

theorem or_operands {N : FlatNet} {π : Nat → Mark} (cs : List Cond) :
    (Cond.or (logOperands true cs)).sat N.ts π ↔ ∃ c ∈ cs, c.sat N.ts π := by
  have := Binary.logOperands_sat (T := N.ts) (π := π) true cs
  simp only [logHolds, if_true] at this
  simp only [Cond.sat, satAny_iff]
  exact this

theorem and_operands {N : FlatNet} {π : Nat → Mark} (cs : List Cond) :
    (Cond.and (logOperands false cs)).sat N.ts π ↔ ∀ c ∈ cs, c.sat N.ts π := by
  have := Binary.logOperands_sat (T := N.ts) (π := π) false cs
  simp only [logHolds, Bool.false_eq_true, if_false] at this
  simp only [Cond.sat, satAll_iff]
  exact this

/-- Some transition of the list is enabled. -/
def AnyEnabled (N : FlatNet) (ts : List (Fin N.ntransitions)) (m : Mark) : Prop :=
  ∃ t ∈ ts, N.toNet.Enabled m t

theorem or_fireable {N : FlatNet} (w : N.WF) (ts : List (Fin N.ntransitions)) (π : Nat → Mark)
    (hm : ∀ p, π 0 p ≤ umax) :
    (Cond.or (logOperands true ((ts.map Fin.val).map (fireable N)))).sat N.ts π ↔ AnyEnabled N ts (π 0) := by
  rw [or_operands]
  simp only [List.mem_map, exists_exists_and_eq_and, AnyEnabled]
  exact exists_congr fun t => and_congr_right fun _ => C20_fireable w t π hm

/-- **C20**, fireability of a coloured transition: some of the transitions it was unfolded to is enabled. -/
theorem C20_fireable_coloured {N : FlatNet} (w : N.WF) (ts : List (Fin N.ntransitions)) (π : Nat → Mark)
    (hm : ∀ p, π 0 p ≤ umax) :
    (fireableOf N (ts.map Fin.val)).sat N.ts π ↔ AnyEnabled N ts (π 0) := by
  match ts with
  | [] => simp [fireableOf, AnyEnabled, Cond.sat]
  | [t] =>
    simp only [List.map_cons, List.map_nil, fireableOf, C20_fireable w t π hm]
    simp [AnyEnabled]
  | t :: u :: ts =>
    have := or_fireable w (t :: u :: ts) π hm
    simpa only [List.map_cons, fireableOf] using this

/-! ### Quasi-liveness and liveness -/

/-- **C20**, quasi-liveness: every transition is enabled in some reachable marking. -/
theorem C20_quasi_live {N : FlatNet} (w : N.WF) (ts : List (Fin N.ntransitions)) (hts : ∀ t, t ∈ ts)
    (π : Nat → Mark) (hf : Fits N (π 0)) :
    (quasiLive N (ts.map Fin.val)).sat N.ts π ↔
      ∀ t, ∃ m, N.toNet.Reach (π 0) m ∧ N.toNet.Enabled m t := by
  unfold quasiLive
  rw [and_operands]
  simp only [List.forall_mem_map]
  constructor
  · intro h t
    exact (ef_iff _ (fun m => N.toNet.Enabled m t) fun ρ _ hr => C20_fireable w t ρ (hf _ hr)).1 (h t (hts t))
  · intro h t _
    exact (ef_iff _ (fun m => N.toNet.Enabled m t) fun ρ _ hr => C20_fireable w t ρ (hf _ hr)).2 (h t)

theorem C20_quasi_live_coloured {N : FlatNet} (w : N.WF) (gs : List (List (Fin N.ntransitions)))
    (π : Nat → Mark) (hf : Fits N (π 0)) :
    (quasiLiveCol N (gs.map (List.map Fin.val))).sat N.ts π ↔
      ∀ g ∈ gs, ∃ m, N.toNet.Reach (π 0) m ∧ AnyEnabled N g m := by
  unfold quasiLiveCol
  rw [and_operands]
  simp only [List.forall_mem_map]
  exact forall₂_congr fun g _ =>
    ef_iff _ (fun m => AnyEnabled N g m) fun ρ _ hr => or_fireable w g ρ (hf _ hr)

theorem Fits.reach {N : FlatNet} {m m' : Mark} (h : Fits N m) (hr : N.toNet.Reach m m') : Fits N m' :=
  fun _ h' => h _ (hr.trans _ h')

/-- **C20**, liveness: from every reachable marking every transition can become enabled again. -/
theorem C20_live {N : FlatNet} (w : N.WF) (ts : List (Fin N.ntransitions)) (hts : ∀ t, t ∈ ts)
    (π : Nat → Mark) (hf : Fits N (π 0)) :
    (live N (ts.map Fin.val)).sat N.ts π ↔
      ∀ t m, N.toNet.Reach (π 0) m → ∃ m', N.toNet.Reach m m' ∧ N.toNet.Enabled m' t := by
  unfold live
  rw [and_operands]
  simp only [List.forall_mem_map]
  have key : ∀ t, (Cond.AG (.EF (fireable N t.val))).sat N.ts π ↔
      ∀ m, N.toNet.Reach (π 0) m → ∃ m', N.toNet.Reach m m' ∧ N.toNet.Enabled m' t := fun t =>
    ag_iff _ (fun m => ∃ m', N.toNet.Reach m m' ∧ N.toNet.Enabled m' t) fun ρ _ hr =>
      ef_iff _ (fun m => N.toNet.Enabled m t) fun ρ' _ hr' => C20_fireable w t ρ' ((hf.reach hr) _ hr')
  exact ⟨fun h t => (key t).1 (h t (hts t)), fun h t _ => (key t).2 (h t)⟩

theorem C20_live_coloured {N : FlatNet} (w : N.WF) (gs : List (List (Fin N.ntransitions)))
    (π : Nat → Mark) (hf : Fits N (π 0)) :
    (liveCol N (gs.map (List.map Fin.val))).sat N.ts π ↔
      ∀ g ∈ gs, ∀ m, N.toNet.Reach (π 0) m → ∃ m', N.toNet.Reach m m' ∧ AnyEnabled N g m' := by
  unfold liveCol
  rw [and_operands]
  simp only [List.forall_mem_map]
  exact forall₂_congr fun g _ =>
    ag_iff _ (fun m => ∃ m', N.toNet.Reach m m' ∧ AnyEnabled N g m') fun ρ _ hr =>
      ef_iff _ (fun m => AnyEnabled N g m) fun ρ' _ hr' => or_fireable w g ρ' ((hf.reach hr) _ hr')

/-! ### k-safety -/

theorem sum_cast (l : List Nat) (m : Mark) :
    (l.map fun p => (m p : Int)).sum = (((l.map m).sum : Nat) : Int) := by
  induction l with
  | nil => rfl
  | cons p l ih => simp [ih]

theorem placeExpr_val (ps : List Nat) (m : Mark) : (placeExpr ps).val m = (((ps.map m).sum : Nat) : Int) := by
  have hp : ∀ l : List Nat, (Expr.plus 0 (l.mergeSort fun a b => decide (a ≤ b)) []).val m =
      (((l.map m).sum : Nat) : Int) := by
    intro l
    simp only [Expr.val, vals, List.sum_nil, Int.add_zero, Int.zero_add]
    rw [((List.mergeSort_perm l fun a b => decide (a ≤ b)).map fun p => (m p : Int)).sum_eq, sum_cast]
  match ps with
  | [p] => simp [placeExpr, Expr.val]
  | [] => exact hp []
  | p :: q :: ps => exact hp (p :: q :: ps)

/-- **C20**, k-safety: every place (every coloured place, as the sum of the places it was unfolded to) has at
most `k` tokens in every reachable marking. -/
theorem C20_k_safe {N : FlatNet} (places : List (List Nat)) (k : Int) (π : Nat → Mark) :
    (kSafe places (.lit k)).sat N.ts π ↔
      ∀ m, N.toNet.Reach (π 0) m → ∀ ps ∈ places, (((ps.map m).sum : Nat) : Int) ≤ k := by
  unfold kSafe
  refine ag_iff _ (fun m => ∀ ps ∈ places, (((ps.map m).sum : Nat) : Int) ≤ k) fun ρ _ _ => ?_
  rw [and_operands]
  simp only [List.forall_mem_map, Cond.sat, Cmp.holds, placeExpr_val, Expr.val]

/-- Uncoloured nets. -/
theorem C20_k_safe_places {N : FlatNet} (order : List Nat) (ho : ∀ p, p ∈ order ↔ p < N.nplaces) (k : Nat)
    (π : Nat → Mark) :
    (kSafe (order.map fun p => [p]) (.lit k)).sat N.ts π ↔
      ∀ m, N.toNet.Reach (π 0) m → ∀ p, p < N.nplaces → m p ≤ k := by
  rw [C20_k_safe]
  refine forall₂_congr fun m _ => ?_
  simp only [List.forall_mem_map, ho]
  refine forall₂_congr fun p _ => ?_
  simp

/-! ### Stable markings -/

/-- **C20**, stable marking: some place never changes.  Partial: initial markings of 2^31 and more tokens are
misread as negative (`C20_finding_stable_large`). -/
theorem C20_stable_partial {N : FlatNet} (π : Nat → Mark) (h : ∀ p, p < N.nplaces → π 0 p < 2 ^ 31) :
    (stable N.nplaces (π 0)).sat N.ts π ↔
      ∃ p, p < N.nplaces ∧ ∀ m, N.toNet.Reach (π 0) m → m p = π 0 p := by
  unfold stable
  rw [or_operands]
  simp only [List.mem_map, List.mem_range, exists_exists_and_eq_and]
  refine exists_congr fun p => and_congr_right fun hp => ?_
  have hw : Binary.wrap32 (π 0 p) = π 0 p := Binary.wrap32_eq ⟨by have := h p hp; omega, by have := h p hp; omega⟩
  rw [hw]
  exact ag_iff _ (fun m => m p = π 0 p) fun ρ _ _ => by simp only [Cond.sat, Cmp.holds, Expr.val]; omega

theorem C20_stable_coloured_partial {N : FlatNet} (places : List (List Nat)) (π : Nat → Mark)
    (h : ∀ ps ∈ places, (ps.map (π 0)).sum < 2 ^ 31) :
    (stableCol places (π 0)).sat N.ts π ↔
      ∃ ps ∈ places, ∀ m, N.toNet.Reach (π 0) m → (ps.map m).sum = (ps.map (π 0)).sum := by
  unfold stableCol
  rw [or_operands]
  simp only [List.mem_map, exists_exists_and_eq_and]
  refine exists_congr fun ps => and_congr_right fun hp => ?_
  have h1 : (ps.map (π 0)).sum % W32 = (ps.map (π 0)).sum :=
    Nat.mod_eq_of_lt (by have := h ps hp; unfold W32; omega)
  have hw : Binary.wrap32 ((ps.map (π 0)).sum : Nat) = ((ps.map (π 0)).sum : Nat) :=
    Binary.wrap32_eq ⟨by omega, by have := h ps hp; omega⟩
  rw [h1, hw]
  refine ag_iff _ (fun m => (ps.map m).sum = (ps.map (π 0)).sum) fun ρ _ _ => ?_
  have hv : (mkPlus (ps.map Expr.id)).val (ρ 0) = (((ps.map (ρ 0)).sum : Nat) : Int) := by
    rw [mkPlus_val, List.map_map, ← sum_cast]
    congr 1
  simp only [Cond.sat, Cmp.holds, Expr.val, hv]
  omega

/-- **Finding**: in a net without transitions whose place has 2^31 tokens the marking is stable, but the formula
compares with -2^31 (`LiteralExpr` takes an `int`, src/PetriEngine/PQL/Analyze.cpp:405-408). -/
theorem C20_finding_stable_large (N : FlatNet) (hn : N.ntransitions = 0) (h1 : N.nplaces = 1) :
    (∀ m, N.toNet.Reach (fun _ => 2 ^ 31) m → m 0 = 2 ^ 31) ∧
    ∀ π : Nat → Mark, N.ts.IsPath π → ¬ (stable N.nplaces fun _ => 2 ^ 31).sat N.ts π := by
  constructor
  · rintro m ⟨ts, hr⟩
    cases hr with
    | nil => rfl
    | @cons _ t _ _ _ s _ => exact absurd t.2 (by omega)
  · intro π hp
    have hw : Binary.wrap32 ((2 ^ 31 : Nat) : Int) = -2147483648 := by decide
    unfold stable
    rw [or_operands]
    rintro ⟨c, hc, hs⟩
    rw [h1] at hc
    simp only [List.range_one, List.map_cons, List.map_nil, List.mem_singleton] at hc
    subst hc
    have := hs π hp rfl 0
    rw [hw] at this
    simp only [Cond.sat, Cmp.holds, Expr.val, suffix_head] at this
    omega

/-- Not vacuous: a transition with a consumed and an inhibiting place, in a marking where it is enabled and in
one where it is not. -/
example : (∃ m : Mark, (∀ p, m p ≤ umax) ∧ ∃ t, net3.toNet.Enabled m t) ∧
    ∃ m : Mark, (∀ p, m p ≤ umax) ∧ ∃ t, ¬ net3.toNet.Enabled m t := by
  refine ⟨⟨mark3, ?_, ⟨0, by decide⟩, (FlatNet.checkPreset_iff net3_wf mark3 _).1 (by decide)⟩,
    ⟨fun _ => 0, fun _ => Nat.zero_le _, ⟨1, by decide⟩, fun h =>
      absurd ((FlatNet.checkPreset_iff net3_wf (fun _ => 0) ⟨1, by decide⟩).2 h) (by decide)⟩⟩
  intro p
  unfold mark3 umax
  split
  · omega
  · split <;> omega

end ShorthandProps
end Verif
