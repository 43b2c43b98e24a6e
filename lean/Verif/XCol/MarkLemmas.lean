import Verif.XCol.ArcComp
import Verif.XCol.GuardComp
import Verif.XCol.Gen
import Verif.CPN.Shares
import Verif.CPN.BindingLemmas
import Verif.Props.SeqMultiSet

/-!
# Markings of the explicit coloured engine and markings of the coloured net
-/

namespace Verif
namespace XCol
open Colored CPN OffsetsProps

variable {T : Types} {vty : Nat → Nat}

/-! ## Only the variables that occur matter -/

mutual
theorem den_congr {ρ σ : Nat → Val} : (e : CExpr) → (∀ v ∈ e.vars, ρ v = σ v) → den T vty ρ e = den T vty σ e
  | .dot, _ => by rw [den, den]
  | .var v, h => by rw [den, den]; exact h v (by simp [CExpr.vars])
  | .const c, _ => by rw [den, den]
  | .succ e, h => by rw [den, den, den_congr e (by rw [CExpr.vars] at h; exact h)]
  | .pred e, h => by rw [den, den, den_congr e (by rw [CExpr.vars] at h; exact h)]
  | .tuple es, h => by rw [den, den, denL_congr es (by rw [CExpr.vars] at h; exact h)]
theorem denL_congr {ρ σ : Nat → Val} : (es : List CExpr) → (∀ v ∈ CExpr.varsL es, ρ v = σ v) → denL T vty ρ es = denL T vty σ es
  | [], _ => by rw [denL, denL]
  | e :: es, h => by
    rw [CExpr.varsL] at h
    rw [denL, denL, den_congr e fun v hv => h v (List.mem_append_left _ hv), denL_congr es fun v hv => h v (List.mem_append_right _ hv)]
end

theorem holds_congr {ρ σ : Nat → Val} : (g : Guard) → (∀ v ∈ g.vars, ρ v = σ v) → (g.holds T vty ρ ↔ g.holds T vty σ)
  | .lt a b, h => by
    rw [Guard.vars] at h
    rw [Guard.holds, Guard.holds, den_congr a fun v hv => h v (List.mem_append_left _ hv), den_congr b fun v hv => h v (List.mem_append_right _ hv)]
  | .le a b, h => by
    rw [Guard.vars] at h
    rw [Guard.holds, Guard.holds, den_congr a fun v hv => h v (List.mem_append_left _ hv), den_congr b fun v hv => h v (List.mem_append_right _ hv)]
  | .eq a b, h => by
    rw [Guard.vars] at h
    rw [Guard.holds, Guard.holds, den_congr a fun v hv => h v (List.mem_append_left _ hv), den_congr b fun v hv => h v (List.mem_append_right _ hv)]
  | .ne a b, h => by
    rw [Guard.vars] at h
    rw [Guard.holds, Guard.holds, den_congr a fun v hv => h v (List.mem_append_left _ hv), den_congr b fun v hv => h v (List.mem_append_right _ hv)]
  | .and a b, h => by
    rw [Guard.vars] at h
    rw [Guard.holds, Guard.holds, holds_congr a fun v hv => h v (List.mem_append_left _ hv), holds_congr b fun v hv => h v (List.mem_append_right _ hv)]
  | .or a b, h => by
    rw [Guard.vars] at h
    rw [Guard.holds, Guard.holds, holds_congr a fun v hv => h v (List.mem_append_left _ hv), holds_congr b fun v hv => h v (List.mem_append_right _ hv)]

mutual
theorem tokens_congr {ρ σ : Nat → Val} : (e : ArcE) → (∀ v ∈ e.vars, ρ v = σ v) → tokens T vty ρ e = tokens T vty σ e
  | .num n es, h => by
    rw [ArcE.vars] at h
    rw [tokens, tokens]
    have : (es.map fun e => den T vty ρ e) = es.map fun e => den T vty σ e :=
      List.map_congr_left fun e he => den_congr e fun v hv => h v (mem_varsL he hv)
    rw [this]
  | .add as, h => by rw [tokens, tokens, tokensL_congr as (by rw [ArcE.vars] at h; exact h)]
  | .sub a b, h => by
    rw [ArcE.vars] at h
    rw [tokens, tokens, tokens_congr a fun v hv => h v (List.mem_append_left _ hv), tokens_congr b fun v hv => h v (List.mem_append_right _ hv)]
  | .scal k a, h => by rw [tokens, tokens, tokens_congr a (by rw [ArcE.vars] at h; exact h)]
theorem tokensL_congr {ρ σ : Nat → Val} : (es : List ArcE) → (∀ v ∈ ArcE.varsL es, ρ v = σ v) → tokensL T vty ρ es = tokensL T vty σ es
  | [], _ => by rw [tokensL, tokensL]
  | e :: es, h => by
    rw [ArcE.varsL] at h
    rw [tokensL, tokensL, tokens_congr e fun v hv => h v (List.mem_append_left _ hv), tokensL_congr es fun v hv => h v (List.mem_append_right _ hv)]
end

theorem mem_arcsVars {as : List CArc} {a : CArc} {v : Nat} (ha : a ∈ as) (hv : v ∈ a.expr.vars) : v ∈ arcsVars as :=
  List.mem_flatten.2 ⟨_, List.mem_map.2 ⟨a, ha, rfl⟩, hv⟩

theorem arcsTokens_congr {N : CNet} {ρ σ : Nat → Val} (as : List CArc) (h : ∀ v ∈ arcsVars as, ρ v = σ v) :
    arcsTokens N ρ as = arcsTokens N σ as := by
  funext p x
  unfold arcsTokens
  apply sum_congr
  intro a ha
  rw [tokens_congr a.expr fun v hv => h v (mem_arcsVars ha hv)]

theorem mem_ctvars {c : CTrans} {v : Nat} : v ∈ c.vars ↔ v ∈ guardVars c.guard ∨ v ∈ arcsVars c.inputs ∨ v ∈ arcsVars c.outputs := by
  unfold CTrans.vars
  rw [mem_dedup, List.mem_append, List.mem_append, or_assoc]

theorem step_congr {N : CNet} {M M' : CMark} {t : Nat} {ρ σ : Nat → Val} (h : ∀ v ∈ (N.trans t).vars, ρ v = σ v)
    (hs : N.Step M t ρ M') : N.Step M t σ M' := by
  obtain ⟨h1, ⟨h2, h3⟩, ⟨h4, h5⟩, h6⟩ := hs
  have hi := arcsTokens_congr (N := N) (ρ := ρ) (σ := σ) (N.trans t).inputs fun v hv => h v (mem_ctvars.2 (.inr (.inl hv)))
  have ho := arcsTokens_congr (N := N) (ρ := ρ) (σ := σ) (N.trans t).outputs fun v hv => h v (mem_ctvars.2 (.inr (.inr hv)))
  refine ⟨h1, ⟨fun v hv => by rw [← h v hv]; exact h2 v hv, ?_⟩, ⟨by rw [← hi]; exact h4, h5⟩, ?_⟩
  · cases hg : (N.trans t).guard with
    | none => trivial
    | some g =>
      rw [hg] at h3
      exact (holds_congr g fun v hv => h v (mem_ctvars.2 (.inl (by rw [hg]; exact hv)))).1 h3
  · rw [h6]; unfold CNet.fire; rw [hi, ho]

/-! ## Nets -/

/-- The nets for which the engine is looked at: types with fewer than 2^32 colours and no type without colours;
expressions of the types of their places; no constants of product types; the tokens of a place are listed by different
colours; a constant tuple by itself has components of one size. -/
structure XOK (N : CNet) : Prop where
  types : TFit N.types
  guard : ∀ t ∈ N.transitions, ∀ g ∈ t.guard, GuardTy N.types N.vty g ∧ guardConst N.types g
  arcs : ∀ t ∈ N.transitions, ∀ a ∈ t.inputs ++ t.outputs,
    ArcTy N.types N.vty (N.place a.place).ty a.expr ∧ arcConst N.types a.expr ∧ topOK N.types (N.place a.place).ty a.expr
  marking : ∀ pl ∈ N.places, (pl.marking.map (·.1)).Nodup ∧ ∀ i ∈ pl.marking.map (·.1), i < N.types.size pl.ty

/-- A marking of the engine: multisets of colours of the types of the places. -/
def MOK (N : CNet) (m : XMark) : Prop := ∀ p, (m p).Good ∧ ∀ c, N.types.size (N.place p).ty ≤ c → (m p).val c = 0

/-- The marking of the coloured net. -/
def abs (N : CNet) (m : XMark) : CMark := fun p x =>
  if x ∈ N.types.values (N.place p).ty then ((m p).val (rank (N.types.dims (N.place p).ty) x)).toNat else 0

theorem abs_eq {N : CNet} {m : XMark} (h : MOK N m) {p : Nat} {x : Val} (hx : x ∈ N.types.values (N.place p).ty) :
    (abs N m p x : Int) = (m p).val (rank (N.types.dims (N.place p).ty) x) := by
  unfold abs
  rw [if_pos hx]
  have := (h p).1.val_nonneg (rank (N.types.dims (N.place p).ty) x)
  omega

theorem abs_unrank {N : CNet} (w : XOK N) {m : XMark} (h : MOK N m) {p c : Nat} (hc : c < N.types.size (N.place p).ty) :
    (abs N m p (unrank (N.types.dims (N.place p).ty) c) : Int) = (m p).val c := by
  obtain ⟨h1, h2⟩ := unrank_spec _ (w.types.pos (N.place p).ty) c (by rw [← size_eq]; exact hc)
  rw [abs_eq h (mem_values_iff.2 h1), h2]

/-! ### Totals -/

theorem total_map (f : Nat → Nat) (n : Nat) : SeqMultiSetProps.total (fun x => (f x : Int)) n = (((List.range n).map f).sum : Nat) := by
  induction n with
  | zero => rfl
  | succ n ih =>
    rw [SeqMultiSetProps.total, ih, List.range_succ, List.map_append, List.sum_append]
    simp

theorem nodup_of_map {α β : Type} (f : α → β) {l : List α} (h : (l.map f).Nodup) : l.Nodup :=
  List.Pairwise.of_map f (fun _ _ hab e => hab (e ▸ rfl)) h

theorem values_nodup (ty : Nat) : (T.values ty).Nodup := by
  rw [values_eq]
  apply nodup_of_map (fun x => enc (T.dims ty) x)
  rw [List.map_map]
  have : (List.range (T.size ty)).map ((fun x => enc (T.dims ty) x) ∘ fun k => T.value ⟨ty, k⟩) = List.range (T.size ty) := by
    conv_rhs => rw [← List.map_id (List.range (T.size ty))]
    apply List.map_congr_left
    intro k hk
    rw [List.mem_range] at hk
    simp only [Function.comp, id]
    rw [value_eq T hk, enc_dec _ _ (by rw [← size_eq]; exact hk)]
  rw [this]
  exact List.nodup_range

theorem values_perm (w : TFit T) (ty : Nat) : (T.values ty).Perm ((List.range (T.size ty)).map (unrank (T.dims ty))) := by
  rw [List.perm_ext_iff_of_nodup (values_nodup ty)]
  · intro x
    rw [mem_values_iff, List.mem_map]
    constructor
    · intro h
      exact ⟨rank (T.dims ty) x, List.mem_range.2 (by rw [size_eq]; exact rank_lt _ _ h), unrank_rank h⟩
    · rintro ⟨k, hk, rfl⟩
      rw [List.mem_range, size_eq] at hk
      exact (unrank_spec _ (w.pos ty) k hk).1
  · apply nodup_of_map (rank (T.dims ty))
    rw [List.map_map]
    have : (List.range (T.size ty)).map (rank (T.dims ty) ∘ unrank (T.dims ty)) = List.range (T.size ty) := by
      conv_rhs => rw [← List.map_id (List.range (T.size ty))]
      apply List.map_congr_left
      intro k hk
      rw [List.mem_range, size_eq] at hk
      exact (unrank_spec _ (w.pos ty) k hk).2
    rw [this]
    exact List.nodup_range

/-- The number of tokens that the engine keeps for a place is the number of its tokens. -/
theorem total_ok {N : CNet} (w : XOK N) {m : XMark} (h : MOK N m) (p : Nat) : (m p).card = N.total (abs N m) p := by
  have hd : SeqMultiSetProps.Denotes (m p) fun x => ((m p).val x).toNat :=
    ⟨(h p).1.wf, fun x => by have := (h p).1.val_nonneg x; dsimp only; omega⟩
  rw [SeqMultiSetProps.C49_total hd (n := N.types.size (N.place p).ty) (fun x hx => by rw [(h p).2 x hx]; rfl), total_map]
  unfold CNet.total
  have hp := (values_perm w.types (N.place p).ty).map (abs N m p)
  rw [hp.sum_nat, List.map_map]
  congr 1
  congr 1
  apply List.map_congr_left
  intro c hc
  rw [List.mem_range] at hc
  have := abs_unrank w h hc
  simp only [Function.comp]
  omega

/-! ### Arcs -/

/-- the elements that the arcs ask of a place -/
def arcsVal (b : Bind) (as : List (Nat × Arc)) (p c : Nat) : Int := (as.map fun a => if a.1 = p then (a.2.eval b).val c else 0).sum

theorem arcsVal_cons (b : Bind) (a : Nat × Arc) (as : List (Nat × Arc)) (p c : Nat) :
    arcsVal b (a :: as) p c = (if a.1 = p then (a.2.eval b).val c else 0) + arcsVal b as p c := rfl

theorem consume_spec (b : Bind) : ∀ (as : List (Nat × Arc)) (m : XMark), (∀ a ∈ as, a.2.OK) → (∀ p, (m p).Good) →
    ∀ p, (consumePre b as m p).Good ∧ ∀ c, (consumePre b as m p).val c = max 0 ((m p).val c - arcsVal b as p c)
  | [], m, _, hm, p => ⟨hm p, fun c => by
      rw [consumePre]
      have := (hm p).val_nonneg c
      simp only [arcsVal, List.map_nil, List.sum_nil]; omega⟩
  | a :: as, m, ha, hm, p => by
    have ha0 := ha a (by simp)
    have hm' : ∀ q, (m.upd a.1 (a.2.consume b (m a.1)) q).Good := fun q => by
      unfold XMark.upd
      split
      · exact consume_good b ha0 (hm _)
      · exact hm q
    obtain ⟨i1, i2⟩ := consume_spec b as _ (fun a' h => ha a' (by simp [h])) hm' p
    refine ⟨i1, fun c => ?_⟩
    rw [consumePre, i2 c, arcsVal_cons]
    unfold XMark.upd
    have hn : 0 ≤ arcsVal b as p c := by
      clear i1 i2 hm'
      induction as with
      | nil => simp [arcsVal]
      | cons a' as ih =>
        rw [arcsVal_cons]
        have := ih fun a'' h => ha a'' (by rcases List.mem_cons.1 h with rfl | h <;> simp_all)
        have h2 := (eval_good b (ha a' (by simp))).val_nonneg c
        split <;> omega
    by_cases hp : a.1 = p
    · rw [if_pos hp.symm, if_pos hp, consume_val b ha0 (hm _), hp]
      have := (hm p).val_nonneg c
      omega
    · rw [if_neg (fun h => hp h.symm), if_neg hp]; omega

theorem produce_all (b : Bind) : ∀ (as : List (Nat × Arc)) (m : XMark), (∀ a ∈ as, a.2.OK) → (∀ p, (m p).Good) →
    ∀ p, (producePost b as m p).Good ∧ ∀ c, (producePost b as m p).val c = (m p).val c + arcsVal b as p c
  | [], m, _, hm, p => ⟨hm p, fun c => by
      rw [producePost]
      simp only [arcsVal, List.map_nil, List.sum_nil]; omega⟩
  | a :: as, m, ha, hm, p => by
    have ha0 := ha a (by simp)
    obtain ⟨s1, s2⟩ := produce_spec b a.2 ha0 (m a.1) (hm _)
    have hm' : ∀ q, (m.upd a.1 (a.2.produce b (m a.1)) q).Good := fun q => by
      unfold XMark.upd
      split
      · exact s1
      · exact hm q
    obtain ⟨i1, i2⟩ := produce_all b as _ (fun a' h => ha a' (by simp [h])) hm' p
    refine ⟨i1, fun c => ?_⟩
    rw [producePost, i2 c, arcsVal_cons]
    unfold XMark.upd
    by_cases hp : a.1 = p
    · rw [if_pos hp.symm, if_pos hp]
      have := s2 c
      rw [this, hp]; omega
    · rw [if_neg (fun h => hp h.symm), if_neg hp]; omega

/-! ### Compiled arcs of a transition -/

/-- What is needed of the arcs of a transition. -/
def ArcsOK (N : CNet) (as : List CArc) : Prop := ∀ a ∈ as,
  ArcTy N.types N.vty (N.place a.place).ty a.expr ∧ arcConst N.types a.expr ∧ topOK N.types (N.place a.place).ty a.expr

theorem arcList_ok {N : CNet} (w : TFit N.types) : ∀ {as : List CArc} {cs : List (Nat × Arc)}, ArcsOK N as →
    compArcList N.types N.vty as = some cs →
    (∀ a ∈ cs, a.2.OK) ∧ (∀ v, v ∈ (cs.map fun a => a.2.vars).flatten ↔ v ∈ arcsVars as) ∧ cs.map (·.1) = as.map (·.place) ∧
    (∀ a ∈ cs, ∃ e ∈ as, e.place = a.1 ∧ compile N.types N.vty e.expr = some a.2) ∧
    (∀ b, Bound N.types N.vty b (arcsVars as) → ∀ p c, arcsVal b cs p c =
      if c < N.types.size (N.place p).ty then (arcsTokens N (asg N.types N.vty b) as p (unrank (N.types.dims (N.place p).ty) c) : Int) else 0)
  | [], cs, _, h => by
    rw [compArcList] at h
    obtain rfl := Option.some.inj h
    refine ⟨(fun a ha => by cases ha), fun v => Iff.rfl, rfl, (fun a ha => by cases ha), fun b hb p c => ?_⟩
    simp [arcsVal, arcsTokens]
  | a :: as, cs, hok, h => by
    rw [compArcList] at h
    cases h1 : compile N.types N.vty a.expr with
    | none => simp [h1] at h
    | some x =>
      cases h2 : compArcList N.types N.vty as with
      | none => simp [h1, h2] at h
      | some xs =>
        simp only [h1, h2] at h
        obtain rfl := Option.some.inj h
        obtain ⟨t1, t2, t3⟩ := hok a (by simp)
        obtain ⟨c1, c2, c3, _⟩ := compile_ok w t1 t2 t3 h1
        obtain ⟨i1, i2, i3, i4, i5⟩ := arcList_ok w (fun a' h => hok a' (by simp [h])) h2
        refine ⟨fun y hy => ?_, fun v => ?_, by simp [i3], fun y hy => ?_, fun b hb p c => ?_⟩
        · rcases List.mem_cons.1 hy with rfl | hy
          · exact c1
          · exact i1 y hy
        · rw [List.map_cons, List.flatten_cons, List.mem_append, c2, i2]
          unfold arcsVars
          rw [List.map_cons, List.flatten_cons, List.mem_append]
        · rcases List.mem_cons.1 hy with rfl | hy
          · exact ⟨a, by simp, rfl, h1⟩
          · obtain ⟨e, e1, e2⟩ := i4 y hy
            exact ⟨e, by simp [e1], e2⟩
        · have hb1 : Bound N.types N.vty b a.expr.vars := hb.mono fun v hv => mem_arcsVars (by simp) hv
          have hb2 : Bound N.types N.vty b (arcsVars as) := hb.mono fun v hv => by
            unfold arcsVars
            rw [List.map_cons, List.flatten_cons, List.mem_append]
            exact .inr hv
          rw [arcsVal_cons, i5 b hb2 p c]
          have ht : ∀ x, arcsTokens N (asg N.types N.vty b) (a :: as) p x =
              (if a.place = p then tokens N.types N.vty (asg N.types N.vty b) a.expr x else 0) +
                arcsTokens N (asg N.types N.vty b) as p x := fun x => by
            unfold arcsTokens; rw [List.map_cons, List.sum_cons]
          rw [ht]
          dsimp only
          by_cases hp : a.place = p
          · rw [if_pos hp, if_pos hp, c3 b hb1 c]
            unfold At
            rw [hp]
            split
            · push_cast; rfl
            · rfl
          · rw [if_neg hp, if_neg hp]
            split
            · push_cast; omega
            · rfl

theorem arcsTokens_in {N : CNet} (w : TFit N.types) {b : Bind} {as : List CArc} (hok : ArcsOK N as)
    (hb : Bound N.types N.vty b (arcsVars as)) {p : Nat} {x : Val} (hx : x ∉ N.types.values (N.place p).ty) :
    arcsTokens N (asg N.types N.vty b) as p x = 0 := by
  unfold arcsTokens
  apply sum_zero
  intro a ha
  split
  · rename_i hp
    refine Classical.byContradiction fun h0 => hx ?_
    obtain ⟨t1, t2, _⟩ := hok a ha
    rw [← hp]
    exact mem_values_iff.2 (tokens_in w a.expr t1 t2 (hb.mono fun v hv => mem_arcsVars ha hv) x h0)
  · rfl

/-! ### Sets -/

theorem mem_insertSet {x y : Nat} {l : List Nat} : y ∈ insertSet x l ↔ y = x ∨ y ∈ l := by
  induction l with
  | nil => simp [insertSet]
  | cons z l ih =>
    rw [insertSet]
    split
    · simp
    · split
      · rename_i h; subst h; simp
      · simp only [List.mem_cons, ih]
        constructor
        · rintro (h | h | h) <;> simp [h]
        · rintro (h | h | h) <;> simp [h]

theorem insertSet_sorted {x : Nat} {l : List Nat} (h : l.Pairwise (· < ·)) : (insertSet x l).Pairwise (· < ·) := by
  induction l with
  | nil => simp [insertSet]
  | cons z l ih =>
    rw [List.pairwise_cons] at h
    rw [insertSet]
    split
    · rename_i hx
      rw [List.pairwise_cons]
      refine ⟨fun y hy => ?_, List.pairwise_cons.2 h⟩
      rcases List.mem_cons.1 hy with rfl | hy
      · exact hx
      · have := h.1 y hy; omega
    · split
      · exact List.pairwise_cons.2 h
      · rw [List.pairwise_cons]
        refine ⟨fun y hy => ?_, ih h.2⟩
        rcases mem_insertSet.1 hy with rfl | hy
        · omega
        · exact h.1 y hy

theorem toSet_aux (l : List Nat) : ∀ s : List Nat, s.Pairwise (· < ·) →
    (l.foldl (fun s x => insertSet x s) s).Pairwise (· < ·) ∧ ∀ y, y ∈ l.foldl (fun s x => insertSet x s) s ↔ y ∈ s ∨ y ∈ l := by
  induction l with
  | nil => intro s hs; exact ⟨hs, fun y => by simp⟩
  | cons x l ih =>
    intro s hs
    obtain ⟨h1, h2⟩ := ih (insertSet x s) (insertSet_sorted hs)
    refine ⟨h1, fun y => ?_⟩
    rw [List.foldl_cons, h2, mem_insertSet, List.mem_cons]
    constructor
    · rintro ((h | h) | h) <;> simp [h]
    · rintro (h | h | h) <;> simp [h]

theorem mem_toSet {l : List Nat} {y : Nat} : y ∈ toSet l ↔ y ∈ l := by
  have := (toSet_aux l [] List.Pairwise.nil).2 y
  unfold toSet
  rw [this]; simp

theorem toSet_nodup (l : List Nat) : (toSet l).Nodup :=
  ((toSet_aux l [] List.Pairwise.nil).1).imp fun h => by omega

/-! ### Transitions -/

theorem countBindings_eq (vsize : Nat → Nat) : ∀ (vs : List Nat) (n k : Nat), countBindings vsize n vs = some k →
    k = n * (vs.map vsize).prod ∧ ∀ v ∈ vs, 0 < vsize v
  | [], n, k, h => by
    rw [countBindings] at h
    obtain rfl := Option.some.inj h
    simp
  | v :: vs, n, k, h => by
    rw [countBindings] at h
    split at h
    · cases h
    · rename_i hv
      split at h
      · cases h
      · obtain ⟨i1, i2⟩ := countBindings_eq vsize vs _ k h
        refine ⟨by rw [i1, List.map_cons, List.prod_cons, Nat.mul_assoc], fun u hu => ?_⟩
        rcases List.mem_cons.1 hu with rfl | hu
        · omega
        · exact i2 u hu

theorem countBindings_le (vsize : Nat → Nat) : ∀ (vs : List Nat) (n k : Nat), n < 2 ^ 64 → countBindings vsize n vs = some k → k < 2 ^ 64
  | [], n, k, hn, h => by
    rw [countBindings] at h
    obtain rfl := Option.some.inj h
    exact hn
  | v :: vs, n, k, hn, h => by
    rw [countBindings] at h
    split at h
    · cases h
    · split at h
      · cases h
      · rename_i h0 h1
        refine countBindings_le vsize vs _ k ?_ h
        have := (Nat.le_div_iff_mul_le (by omega : 0 < vsize v)).1 (Nat.not_lt.1 h1)
        omega

/-- A transition of the engine and the transition that it comes from. -/
structure TOK (N : CNet) (t : Nat) (x : XTrans) : Prop where
  lt : t < N.transitions.length
  ins : ∀ a ∈ x.inputs, a.2.OK
  outs : ∀ a ∈ x.outputs, a.2.OK
  vars : ∀ v, v ∈ x.vars ↔ v ∈ (N.trans t).vars
  nodup : x.vars.Nodup
  total : x.total = if x.vars = [] then 0 else (x.vars.map fun v => N.types.size (N.vty v)).prod
  total64 : x.total < 2 ^ 64
  inhibs : ∀ q, q ∈ x.inhibs ↔ ∃ h ∈ N.inhibitors, h.trans = t ∧ q = (h.place, h.weight)
  places : x.inputs.map (·.1) = (N.trans t).inputs.map (·.place)
  inputs : ∀ a ∈ x.inputs, ∃ e ∈ (N.trans t).inputs, e.place = a.1 ∧ compile N.types N.vty e.expr = some a.2
  ivars : ∀ a ∈ x.inputs, ∀ v ∈ a.2.vars, v ∈ x.vars
  gvars : ∀ g, x.guard = some g → ∀ v ∈ g.vars, v ∈ x.vars
  ovars : ∀ a ∈ x.outputs, ∀ v ∈ a.2.vars, v ∈ x.vars
  cons : x.cons = preCons x.inputs
  guard : ∀ b, Bound N.types N.vty b x.vars → (guardOK x.guard b = true ↔ guardHolds N.types N.vty (asg N.types N.vty b) (N.trans t).guard)
  inval : ∀ b, Bound N.types N.vty b x.vars → ∀ p c, arcsVal b x.inputs p c =
      if c < N.types.size (N.place p).ty then
        (arcsTokens N (asg N.types N.vty b) (N.trans t).inputs p (unrank (N.types.dims (N.place p).ty) c) : Int) else 0
  outval : ∀ b, Bound N.types N.vty b x.vars → ∀ p c, arcsVal b x.outputs p c =
      if c < N.types.size (N.place p).ty then
        (arcsTokens N (asg N.types N.vty b) (N.trans t).outputs p (unrank (N.types.dims (N.place p).ty) c) : Int) else 0

theorem compGuardOpt_vars (w : TFit T) {g : Option Guard} {x : Option XGuard} (h : ∀ g' ∈ g, GuardTy T vty g' ∧ guardConst T g')
    (hg : compGuardOpt T vty g = some x) : guardVarsX x = guardVars g ∧
      ∀ b, Bound T vty b (guardVars g) → (guardOK x b = true ↔ guardHolds T vty (asg T vty b) g) := by
  cases g with
  | none =>
    rw [compGuardOpt] at hg
    obtain rfl := Option.some.inj hg
    exact ⟨rfl, fun b _ => by simp [guardOK, guardHolds]⟩
  | some g =>
    rw [compGuardOpt] at hg
    obtain ⟨y, y1, rfl⟩ := Option.map_eq_some_iff.1 hg
    obtain ⟨h1, h2⟩ := h g rfl
    exact ⟨(guard_ok w g h1 h2 (bound_zero w _) y1).2, fun b hb => (guard_ok w g h1 h2 hb y1).1⟩

theorem buildTrans_ok {N : CNet} (w : XOK N) {t : Nat} {x : XTrans} (ht : t < N.transitions.length)
    (h : buildTrans N t (N.trans t) = some x) : TOK N t x := by
  have hm := trans_mem ht
  unfold buildTrans at h
  cases hg : compGuardOpt N.types N.vty (N.trans t).guard with
  | none => simp [hg] at h
  | some g =>
    cases hi : compArcList N.types N.vty (N.trans t).inputs with
    | none => simp [hg, hi] at h
    | some ins =>
      cases ho : compArcList N.types N.vty (N.trans t).outputs with
      | none => simp [hg, hi, ho] at h
      | some outs =>
        simp only [hg, hi, ho] at h
        cases hn : totalBindings (fun v => N.types.size (N.vty v)) (transVars g ins outs) with
        | none => simp [hn] at h
        | some n =>
          simp only [hn] at h
          obtain rfl := Option.some.inj h
          obtain ⟨g1, g2⟩ := compGuardOpt_vars w.types (w.guard _ hm) hg
          obtain ⟨i1, i2, i3, i4, i5⟩ := arcList_ok w.types (as := (N.trans t).inputs) (fun a ha => w.arcs _ hm a (List.mem_append_left _ ha)) hi
          obtain ⟨o1, o2, o3, o4, o5⟩ := arcList_ok w.types (as := (N.trans t).outputs) (fun a ha => w.arcs _ hm a (List.mem_append_right _ ha)) ho
          have hv : ∀ v, v ∈ transVars g ins outs ↔ v ∈ (N.trans t).vars := fun v => by
            unfold transVars
            rw [mem_toSet, List.mem_append, List.mem_append, g1, i2, o2, mem_ctvars, or_assoc]
          have hnd : (transVars g ins outs).Nodup := toSet_nodup _
          have htot : n = (if transVars g ins outs = [] then 0 else ((transVars g ins outs).map fun v => N.types.size (N.vty v)).prod) ∧ n < 2 ^ 64 := by
            unfold totalBindings at hn
            cases hvs : transVars g ins outs with
            | nil => rw [hvs] at hn; simp at hn; subst hn; simp
            | cons v vs =>
              rw [hvs] at hn
              simp only at hn
              have := (countBindings_eq _ _ _ _ hn).1
              rw [if_neg (by simp)]
              exact ⟨by rw [this, Nat.one_mul], countBindings_le _ _ _ _ (by omega) hn⟩
          refine
            { lt := ht, ins := i1, outs := o1, vars := hv, nodup := hnd, total := htot.1, total64 := htot.2
              inhibs := ?_, places := i3, inputs := i4, ivars := ?_, gvars := ?_, ovars := ?_, cons := rfl, guard := ?_, inval := ?_, outval := ?_ }
          · intro q
            simp only [List.mem_map, List.mem_filter, beq_iff_eq]
            constructor
            · rintro ⟨h, ⟨h1, h2⟩, rfl⟩; exact ⟨h, h1, h2, rfl⟩
            · rintro ⟨h, h1, h2, rfl⟩; exact ⟨h, ⟨h1, h2⟩, rfl⟩
          · intro a ha v hv'
            show v ∈ transVars g ins outs
            unfold transVars
            rw [mem_toSet, List.mem_append, List.mem_append]
            exact .inl (.inr (List.mem_flatten.2 ⟨_, List.mem_map.2 ⟨a, ha, rfl⟩, hv'⟩))
          · intro g' hg' v hv'
            show v ∈ transVars g ins outs
            unfold transVars
            rw [mem_toSet, List.mem_append, List.mem_append]
            refine .inl (.inl ?_)
            rw [show g = some g' from hg']
            exact hv'
          · intro a ha v hv'
            show v ∈ transVars g ins outs
            unfold transVars
            rw [mem_toSet, List.mem_append, List.mem_append]
            exact .inr (List.mem_flatten.2 ⟨_, List.mem_map.2 ⟨a, ha, rfl⟩, hv'⟩)
          · intro b hb
            exact g2 b (hb.mono fun v hv' => (hv v).2 (mem_ctvars.2 (.inl hv')))
          · intro b hb p c
            exact i5 b (hb.mono fun v hv' => (hv v).2 (mem_ctvars.2 (.inr (.inl hv')))) p c
          · intro b hb p c
            exact o5 b (hb.mono fun v hv' => (hv v).2 (mem_ctvars.2 (.inr (.inr hv')))) p c

theorem buildTransL_get {N : CNet} : ∀ {cs : List CTrans} {s : Nat} {xs : List XTrans}, buildTransL N s cs = some xs →
    xs.length = cs.length ∧ ∀ i c x, cs[i]? = some c → xs[i]? = some x → buildTrans N (s + i) c = some x
  | [], s, xs, h => by
    rw [buildTransL] at h
    obtain rfl := Option.some.inj h
    exact ⟨rfl, fun i c x h => by simp at h⟩
  | c :: cs, s, xs, h => by
    rw [buildTransL] at h
    cases h1 : buildTrans N s c with
    | none => simp [h1] at h
    | some x =>
      cases h2 : buildTransL N (s + 1) cs with
      | none => simp [h1, h2] at h
      | some xs' =>
        simp only [h1, h2] at h
        obtain rfl := Option.some.inj h
        obtain ⟨i1, i2⟩ := buildTransL_get h2
        refine ⟨by simp [i1], fun i d y hd hy => ?_⟩
        cases i with
        | zero =>
          simp only [List.getElem?_cons_zero, Option.some.injEq] at hd hy
          subst hd; subst hy
          exact h1
        | succ i =>
          simp only [List.getElem?_cons_succ] at hd hy
          have := i2 i d y hd hy
          rw [show s + (i + 1) = s + 1 + i by omega]
          exact this

/-- the transition with the given number -/
theorem build_trans {N : CNet} (w : XOK N) {X : XNet} (h : build N = some X) : X.trans.length = N.transitions.length ∧
    ∀ t x, X.trans[t]? = some x → TOK N t x := by
  unfold build at h
  obtain ⟨ts, h1, rfl⟩ := Option.map_eq_some_iff.1 h
  obtain ⟨l1, l2⟩ := buildTransL_get h1
  refine ⟨l1, fun t x hx => ?_⟩
  have ht : t < N.transitions.length := by
    rw [← l1]
    exact (List.getElem?_eq_some_iff.1 hx).1
  apply buildTrans_ok w ht
  have hc : N.transitions[t]? = some (N.trans t) := by
    unfold CNet.trans
    rw [List.getD_eq_getElem?_getD, List.getElem?_eq_getElem ht]
    rfl
  have := l2 t (N.trans t) x hc hx
  rwa [Nat.zero_add] at this

theorem build_data {N : CNet} {X : XNet} (h : build N = some X) : X.np = N.places.length ∧ (∀ p, X.dims p = N.types.dims (N.place p).ty) ∧
    (∀ v, X.vsize v = N.types.size (N.vty v)) ∧ X.init = fun p => if p < N.places.length then placeInit N.types (N.place p) else MS.empty := by
  unfold build at h
  obtain ⟨ts, h1, rfl⟩ := Option.map_eq_some_iff.1 h
  exact ⟨rfl, fun p => xdims_eq _, fun v => rfl, rfl⟩

/-! ### Firing and checking -/

theorem fire_ok {N : CNet} (w : XOK N) {t : Nat} {x : XTrans} (hx : TOK N t x) {m : XMark} (hm : MOK N m) {b : Bind}
    (hb : Bound N.types N.vty b x.vars) :
    MOK N (fire m x b) ∧ abs N (fire m x b) = N.fire (abs N m) t (asg N.types N.vty b) := by
  have hcs := consume_spec b x.inputs m hx.ins fun p => (hm p).1
  have hps := produce_all b x.outputs (consumePre b x.inputs m) hx.outs fun p => (hcs p).1
  have hval : ∀ p c, (fire m x b p).val c = max 0 ((m p).val c - arcsVal b x.inputs p c) + arcsVal b x.outputs p c := fun p c => by
    unfold fire
    rw [(hps p).2 c, (hcs p).2 c]
  have hM : MOK N (fire m x b) := by
    refine fun p => ⟨(hps p).1, fun c hc => ?_⟩
    rw [hval, hx.inval b hb, hx.outval b hb, if_neg (by omega), if_neg (by omega), (hm p).2 c hc]
    rfl
  refine ⟨hM, ?_⟩
  have hmt := trans_mem hx.lt
  have bi : Bound N.types N.vty b (arcsVars (N.trans t).inputs) := hb.mono fun v hv => (hx.vars v).2 (mem_ctvars.2 (.inr (.inl hv)))
  have bo : Bound N.types N.vty b (arcsVars (N.trans t).outputs) := hb.mono fun v hv => (hx.vars v).2 (mem_ctvars.2 (.inr (.inr hv)))
  funext p y
  unfold CNet.fire
  by_cases hy : y ∈ N.types.values (N.place p).ty
  · have h1 := abs_eq hM hy
    have h2 := abs_eq hm hy
    have hin := mem_values_iff.1 hy
    have hr : rank (N.types.dims (N.place p).ty) y < N.types.size (N.place p).ty := by rw [size_eq]; exact rank_lt _ _ hin
    rw [hval, hx.inval b hb, hx.outval b hb, if_pos hr, if_pos hr, unrank_rank hin, ← h2] at h1
    omega
  · rw [arcsTokens_in w.types (fun a ha => w.arcs _ hmt a (List.mem_append_left _ ha)) bi hy,
      arcsTokens_in w.types (fun a ha => w.arcs _ hmt a (List.mem_append_right _ ha)) bo hy]
    unfold abs
    rw [if_neg hy, if_neg hy]

/-- No two input arcs of a transition come from one place. -/
def Single (N : CNet) : Prop := ∀ t ∈ N.transitions, (t.inputs.map (·.place)).Nodup

theorem arcsVal_single (b : Bind) : ∀ {as : List (Nat × Arc)}, (as.map (·.1)).Nodup → ∀ {a : Nat × Arc}, a ∈ as → ∀ c,
    arcsVal b as a.1 c = (a.2.eval b).val c
  | [], _, a, ha, _ => by cases ha
  | d :: as, hn, a, ha, c => by
    rw [List.map_cons, List.nodup_cons] at hn
    rw [arcsVal_cons]
    rcases List.mem_cons.1 ha with rfl | ha
    · rw [if_pos rfl]
      have : arcsVal b as a.1 c = 0 := arcsVal_none b hn.1 c
      omega
    · have hd : d.1 ≠ a.1 := fun h => hn.1 (by rw [h]; exact List.mem_map.2 ⟨a, ha, rfl⟩)
      rw [if_neg hd, arcsVal_single b hn.2 ha]
      omega
where
  arcsVal_none (b : Bind) : ∀ {as : List (Nat × Arc)} {p : Nat}, p ∉ as.map (·.1) → ∀ c, arcsVal b as p c = 0
    | [], _, _, _ => rfl
    | d :: as, p, h, c => by
      rw [List.map_cons, List.mem_cons, not_or] at h
      rw [arcsVal_cons, if_neg (fun e => h.1 e.symm), arcsVal_none b h.2 c]
      rfl

theorem arcsVal_none (b : Bind) {as : List (Nat × Arc)} {p : Nat} (h : p ∉ as.map (·.1)) (c : Nat) : arcsVal b as p c = 0 :=
  arcsVal_single.arcsVal_none b h c

theorem arcsVal_le (b : Bind) {as : List (Nat × Arc)} (ho : ∀ a ∈ as, a.2.OK) {a : Nat × Arc} (ha : a ∈ as) (c : Nat) :
    (a.2.eval b).val c ≤ arcsVal b as a.1 c := by
  have nn : ∀ {as : List (Nat × Arc)}, (∀ a ∈ as, a.2.OK) → ∀ p, 0 ≤ arcsVal b as p c := by
    intro as
    induction as with
    | nil => intro _ p; simp [arcsVal]
    | cons d as ih =>
      intro h p
      rw [arcsVal_cons]
      have := ih (fun a' h' => h a' (by simp [h'])) p
      have h2 := (eval_good b (h d (by simp))).val_nonneg c
      split <;> omega
  induction as with
  | nil => cases ha
  | cons d as ih =>
    rw [arcsVal_cons]
    rcases List.mem_cons.1 ha with rfl | ha
    · rw [if_pos rfl]
      have := nn (fun a' h' => ho a' (by simp [h'])) a.1 (as := as)
      omega
    · have := ih (fun a' h' => ho a' (by simp [h'])) ha
      have h2 := (eval_good b (ho d (by simp))).val_nonneg c
      split <;> omega

/-- `checkPresetAndGuard`: the guard holds and each input arc finds its tokens. -/
theorem checkPG_iff {N : CNet} {t : Nat} {x : XTrans} (hx : TOK N t x) {m : XMark} (hm : MOK N m) {b : Bind}
    (hb : Bound N.types N.vty b x.vars) : checkPG m x b = true ↔
      guardHolds N.types N.vty (asg N.types N.vty b) (N.trans t).guard ∧ ∀ a ∈ x.inputs, ∀ c, (a.2.eval b).val c ≤ (m a.1).val c := by
  have hg := hx.guard b hb
  unfold checkPG
  rw [← hg]
  cases guardOK x.guard b with
  | false => simp
  | true =>
    simp only [Bool.not_true, Bool.false_eq_true, if_false, true_and, List.all_eq_true]
    constructor
    · intro h a ha; exact (isSubSet_iff b (hx.ins a ha) (hm a.1).1).1 (h a ha)
    · intro h a ha; exact (isSubSet_iff b (hx.ins a ha) (hm a.1).1).2 (h a ha)

/-- the tokens are there -/
def Fed (N : CNet) (M : CMark) (t : Nat) (ρ : Nat → Val) : Prop := ∀ p y, arcsTokens N ρ (N.trans t).inputs p y ≤ M p y

theorem fed_iff {N : CNet} (w : XOK N) {t : Nat} {x : XTrans} (hx : TOK N t x) {m : XMark} (hm : MOK N m) {b : Bind}
    (hb : Bound N.types N.vty b x.vars) : Fed N (abs N m) t (asg N.types N.vty b) ↔ ∀ p c, arcsVal b x.inputs p c ≤ (m p).val c := by
  have hmt := trans_mem hx.lt
  have bi : Bound N.types N.vty b (arcsVars (N.trans t).inputs) := hb.mono fun v hv => (hx.vars v).2 (mem_ctvars.2 (.inr (.inl hv)))
  constructor
  · intro h p c
    rw [hx.inval b hb]
    split
    · rename_i hc
      rw [← abs_unrank w hm hc]
      have := h p (unrank (N.types.dims (N.place p).ty) c)
      omega
    · exact (hm p).1.val_nonneg c
  · intro h p y
    by_cases hy : y ∈ N.types.values (N.place p).ty
    · have h2 := abs_eq hm hy
      have hin := mem_values_iff.1 hy
      have hr : rank (N.types.dims (N.place p).ty) y < N.types.size (N.place p).ty := by rw [size_eq]; exact rank_lt _ _ hin
      have := h p (rank (N.types.dims (N.place p).ty) y)
      rw [hx.inval b hb, if_pos hr, unrank_rank hin, ← h2] at this
      omega
    · rw [arcsTokens_in w.types (fun a ha => w.arcs _ hmt a (List.mem_append_left _ ha)) bi hy]
      omega

theorem checkPG_of_fed {N : CNet} (w : XOK N) {t : Nat} {x : XTrans} (hx : TOK N t x) {m : XMark} (hm : MOK N m) {b : Bind}
    (hb : Bound N.types N.vty b x.vars) (hg : guardHolds N.types N.vty (asg N.types N.vty b) (N.trans t).guard)
    (hf : Fed N (abs N m) t (asg N.types N.vty b)) : checkPG m x b = true := by
  rw [checkPG_iff hx hm hb]
  refine ⟨hg, fun a ha c => ?_⟩
  have := (fed_iff w hx hm hb).1 hf a.1 c
  have h2 := arcsVal_le b hx.ins ha c
  omega

theorem fed_of_checkPG {N : CNet} (w : XOK N) (hs : Single N) {t : Nat} {x : XTrans} (hx : TOK N t x) {m : XMark} (hm : MOK N m) {b : Bind}
    (hb : Bound N.types N.vty b x.vars) (hc : checkPG m x b = true) :
    guardHolds N.types N.vty (asg N.types N.vty b) (N.trans t).guard ∧ Fed N (abs N m) t (asg N.types N.vty b) := by
  rw [checkPG_iff hx hm hb] at hc
  refine ⟨hc.1, (fed_iff w hx hm hb).2 fun p c => ?_⟩
  by_cases hp : p ∈ x.inputs.map (·.1)
  · obtain ⟨a, ha, rfl⟩ := List.mem_map.1 hp
    rw [arcsVal_single b (by rw [hx.places]; exact hs _ (trans_mem hx.lt)) ha]
    exact hc.2 a ha c
  · rw [arcsVal_none b hp]
    exact (hm p).1.val_nonneg c

theorem checkInh_iff {N : CNet} (w : XOK N) {t : Nat} {x : XTrans} (hx : TOK N t x) {m : XMark} (hm : MOK N m) :
    checkInh m x = true ↔ ∀ h ∈ N.inhibitors, h.trans = t → N.total (abs N m) h.place < h.weight := by
  unfold checkInh
  rw [List.all_eq_true]
  constructor
  · intro h i hi ht
    have := h (i.place, i.weight) ((hx.inhibs _).2 ⟨i, hi, ht, rfl⟩)
    simp only [Bool.not_eq_true', decide_eq_false_iff_not] at this
    rw [total_ok w hm] at this
    omega
  · intro h q hq
    obtain ⟨i, hi, ht, rfl⟩ := (hx.inhibs q).1 hq
    have := h i hi ht
    simp only [Bool.not_eq_true', decide_eq_false_iff_not]
    rw [total_ok w hm]
    omega

end XCol
end Verif
