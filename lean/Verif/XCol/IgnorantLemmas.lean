import Verif.XCol.Ignorant
import Verif.XCol.MarkLemmas
import Verif.CPN.Sim
import Verif.CPN.Compile
import Verif.CPN.Names
import Verif.Props.Builder
import Mathlib.Data.List.Nodup

/-!
# What the net without colours is
-/

namespace Verif
namespace XCol
open CPN Colored OffsetsProps
open Builder (Op specPre specPost specInh specInit specNet Sane run)

/-! ### The numbers of tokens of arcs -/

/-- the number of tokens of an arc -/
def arcCount (N : CNet) (ρ : Nat → Val) (a : CArc) : Nat :=
  ((N.types.values (N.place a.place).ty).map (tokens N.types N.vty ρ a.expr)).sum

theorem arcCount_bounds {N : CNet} (w : TFit N.types) {a : CArc} {c : Arc}
    (hok : ArcTy N.types N.vty (N.place a.place).ty a.expr ∧ arcConst N.types a.expr ∧ topOK N.types (N.place a.place).ty a.expr)
    (hc : compile N.types N.vty a.expr = some c) {ρ : Nat → Val} (hρ : ∀ v ∈ a.expr.vars, ρ v ∈ N.types.values (N.vty v)) :
    c.minCount ≤ arcCount N ρ a ∧ arcCount N ρ a ≤ c.upper := by
  obtain ⟨t1, t2, t3⟩ := hok
  obtain ⟨c1, _, c3, _⟩ := compile_ok w t1 t2 t3 hc
  let b : Bind := fun v => rank (N.types.dims (N.vty v)) (ρ v)
  have hin : ∀ v ∈ a.expr.vars, InSizes (N.types.dims (N.vty v)) (ρ v) := fun v hv => mem_values_iff.1 (hρ v hv)
  have hb : Bound N.types N.vty b a.expr.vars := fun v hv => by
    rw [size_eq]; exact rank_lt _ _ (hin v hv)
  have hcong : tokens N.types N.vty (asg N.types N.vty b) a.expr = tokens N.types N.vty ρ a.expr :=
    tokens_congr a.expr fun v hv => unrank_rank (hin v hv)
  have hv := c3 b hb
  rw [hcong] at hv
  have hg := eval_good b c1
  have hd : SeqMultiSetProps.Denotes (c.eval b) fun x => ((c.eval b).val x).toNat :=
    ⟨hg.wf, fun x => by have := hg.val_nonneg x; dsimp only; omega⟩
  have hcard : (c.eval b).card = (arcCount N ρ a : Nat) := by
    rw [SeqMultiSetProps.C49_total hd (n := N.types.size (N.place a.place).ty)
      (fun x hx => by rw [hv x]; unfold At; rw [if_neg (Nat.not_lt.2 hx)]; rfl), total_map]
    unfold arcCount
    have hp := (values_perm w (N.place a.place).ty).map (tokens N.types N.vty ρ a.expr)
    rw [hp.sum_nat, List.map_map]
    congr 1
    congr 1
    apply List.map_congr_left
    intro x hx
    rw [List.mem_range] at hx
    rw [hv x]
    unfold At
    rw [if_pos hx]
    simp only [Function.comp]
    omega
  have := card_bounds b c c1
  omega

theorem exact_of_neg : (a : Arc) → a.neg = false → a.minCount = a.upper
  | .add l r, h => by
    rw [Arc.neg, Bool.or_eq_false_iff] at h
    rw [Arc.minCount, Arc.upper, exact_of_neg l h.1, exact_of_neg r h.2]
  | .sub l r, h => by cases h
  | .const m, _ => rfl
  | .coll _ _ _, _ => rfl

/-- the tokens of the arcs at a place -/
theorem arcs_total {N : CNet} (ρ : Nat → Val) (as : List CArc) (p : Nat) :
    ((N.types.values (N.place p).ty).map (arcsTokens N ρ as p)).sum = (as.map fun a => if a.place = p then arcCount N ρ a else 0).sum := by
  have h1 : ((N.types.values (N.place p).ty).map (arcsTokens N ρ as p)).sum =
      ((N.types.values (N.place p).ty).map fun x => (as.map fun a => if a.place = p then tokens N.types N.vty ρ a.expr x else 0).sum).sum := rfl
  rw [h1, sum_swap]
  congr 1
  apply List.map_congr_left
  intro a _
  by_cases h : a.place = p
  · simp only [if_pos h]
    unfold arcCount
    rw [h]
  · simp only [if_neg h]
    exact sum_zero _ fun _ _ => rfl

/-! ### The copies -/

/-- the ranges with these weights -/
def weigh : List Range → List Nat → List Range
  | r :: rs, c :: cs => { r with current := c } :: weigh rs cs
  | _, _ => []

/-- the weights are in the ranges -/
def Fits : List Range → List Nat → Prop
  | [], [] => True
  | r :: rs, c :: cs => r.lower ≤ c ∧ c ≤ r.upper ∧ Fits rs cs
  | _, _ => False

/-- From `x` the counter goes through the list and then starts over at `o`. -/
def Turns (o : List Range) : List Range → List (List Range) → Prop
  | x, [] => turn x = (o, true)
  | x, y :: ys => turn x = (y, false) ∧ Turns o y ys

/-- all choices, the first arc running fastest -/
def allR : List Range → List (List Range)
  | [] => [[]]
  | r :: rs => ((allR rs).map fun c => (List.range' r.lower (r.upper - r.lower + 1)).map fun i => { r with current := i } :: c).flatten

theorem turns_block {r : Range} {O c : List Range} {rest : List (List Range)}
    (hrest : (∃ c', turn c = (c', false) ∧ ∃ l, rest = ({ r with current := r.lower } :: c') :: l ∧ Turns O ({ r with current := r.lower } :: c') l) ∨
      (rest = [] ∧ ∃ c', turn c = (c', true) ∧ O = { r with current := r.lower } :: c')) :
    (n a : Nat) → a + n = r.upper →
    Turns O ({ r with current := a } :: c) (((List.range' (a + 1) n).map fun i => { r with current := i } :: c) ++ rest)
  | 0, a, h => by
    have hge : a ≥ r.upper := by omega
    rw [List.range'_zero, List.map_nil, List.nil_append]
    rcases hrest with ⟨c', h1, l, rfl, h2⟩ | ⟨rfl, c', h1, rfl⟩
    · refine ⟨?_, h2⟩
      rw [turn, if_pos hge, h1]
    · show turn _ = _
      rw [turn, if_pos hge, h1]
  | n + 1, a, h => by
    have hlt : ¬ a ≥ r.upper := by omega
    rw [List.range'_succ, List.map_cons, List.cons_append]
    refine ⟨?_, turns_block hrest n (a + 1) (by omega)⟩
    rw [turn, if_neg hlt]

theorem turns_prod {r : Range} (hr : r.lower ≤ r.upper) {C : List Range} : (c : List Range) → (cs : List (List Range)) → Turns C c cs →
    Turns ({ r with current := r.lower } :: C) ({ r with current := r.lower } :: c)
      (((List.range' (r.lower + 1) (r.upper - r.lower)).map fun i => { r with current := i } :: c) ++
        (cs.map fun b => (List.range' r.lower (r.upper - r.lower + 1)).map fun i => { r with current := i } :: b).flatten)
  | c, [], h => by
    rw [List.map_nil, List.flatten_nil]
    exact turns_block (Or.inr ⟨rfl, C, h, rfl⟩) _ r.lower (by omega)
  | c, d :: cs, h => by
    refine turns_block (Or.inl ⟨d, h.1, _, ?_, turns_prod hr d cs h.2⟩) _ r.lower (by omega)
    rw [List.map_cons, List.flatten_cons, List.range'_succ, List.map_cons]
    rfl

theorem turns_all : (rs : List Range) → (∀ r ∈ rs, r.lower ≤ r.upper) →
    ∃ ys, allR rs = (rs.map fun r => { r with current := r.lower }) :: ys ∧
      Turns (rs.map fun r => { r with current := r.lower }) (rs.map fun r => { r with current := r.lower }) ys
  | [], _ => ⟨[], rfl, rfl⟩
  | r :: rs, h => by
    obtain ⟨ys, h1, h2⟩ := turns_all rs fun r' hr => h r' (List.mem_cons_of_mem _ hr)
    refine ⟨_, ?_, turns_prod (h r List.mem_cons_self) _ ys h2⟩
    rw [allR, h1, List.map_cons, List.flatten_cons, List.range'_succ, List.map_cons]
    rfl

theorem allR_length : (rs : List Range) → (allR rs).length = choices rs
  | [] => rfl
  | r :: rs => by
    have ih := allR_length rs
    rw [allR]
    unfold choices at ih ⊢
    rw [List.map_cons, List.prod_cons, ← ih]
    generalize allR rs = l
    induction l with
    | nil => simp
    | cons c l ihl =>
      rw [List.map_cons, List.flatten_cons, List.length_append, ihl, List.length_map, List.length_range', List.length_cons,
        Nat.mul_add, Nat.mul_one, Nat.add_comm]

/-- the copies of a run of the counter -/
def named (t : String) : Nat → List (List Range) → List (String × List Range)
  | _, [] => []
  | k, y :: ys => (copyName t k, y) :: named t (k + 1) ys

theorem copies_eq {t : String} {O : List Range} : (ys : List (List Range)) → (x : List Range) → (fuel k : Nat) → ys.length < fuel → Turns O x ys →
    copies t fuel k x = some (named t k (x :: ys))
  | [], x, fuel + 1, k, _, h => by
    have h : turn x = (O, true) := h
    rw [copies, h, if_pos rfl]
    rfl
  | y :: ys, x, fuel + 1, k, hf, h => by
    rw [copies, h.1, if_neg Bool.false_ne_true, copies_eq ys y fuel (k + 1) (by simpa using hf) h.2]
    rfl
  | [], _, 0, _, hf, _ => absurd hf (Nat.not_lt_zero _)
  | _ :: _, _, 0, _, hf, _ => absurd hf (Nat.not_lt_zero _)

/-- The loop over the weights ends, after one pass for each choice. -/
theorem copies_all {t : String} {rs : List Range} (h : ∀ r ∈ rs, r.lower ≤ r.upper) (h0 : ∀ r ∈ rs, r.current = r.lower) :
    copies t (choices rs) 0 rs = some (named t 0 (allR rs)) := by
  obtain ⟨ys, h1, h2⟩ := turns_all rs h
  have hr : (rs.map fun r => { r with current := r.lower }) = rs := by
    conv_rhs => rw [← List.map_id rs]
    apply List.map_congr_left
    intro r hr
    have := h0 r hr
    cases r
    cases this
    rfl
  rw [hr] at h1 h2
  rw [h1]
  refine copies_eq ys rs _ 0 ?_ h2
  have := allR_length rs
  rw [h1, List.length_cons] at this
  omega

theorem allR_has : (rs : List Range) → (cs : List Nat) → Fits rs cs → weigh rs cs ∈ allR rs
  | [], [], _ => List.mem_singleton.2 rfl
  | r :: rs, c :: cs, h => by
    obtain ⟨h1, h2, h3⟩ := h
    rw [allR, weigh]
    exact List.mem_flatten.2 ⟨_, List.mem_map.2 ⟨_, allR_has rs cs h3, rfl⟩,
      List.mem_map.2 ⟨c, List.mem_range'_1.2 ⟨h1, by omega⟩, rfl⟩⟩
  | [], _ :: _, h => h.elim
  | _ :: _, [], h => h.elim

theorem mem_allR : (rs : List Range) → (∀ r ∈ rs, r.lower ≤ r.upper) → {c : List Range} → c ∈ allR rs → ∃ cs, Fits rs cs ∧ c = weigh rs cs
  | [], _, c, h => ⟨[], by trivial, List.mem_singleton.1 h⟩
  | r :: rs, hr, c, h => by
    rw [allR] at h
    obtain ⟨l, h1, h2⟩ := List.mem_flatten.1 h
    obtain ⟨d, h3, rfl⟩ := List.mem_map.1 h1
    obtain ⟨i, hi, rfl⟩ := List.mem_map.1 h2
    obtain ⟨cs, h4, rfl⟩ := mem_allR rs (fun r' h => hr r' (List.mem_cons_of_mem _ h)) h3
    have := List.mem_range'_1.1 hi
    have := hr r List.mem_cons_self
    exact ⟨i :: cs, ⟨by omega, by omega, h4⟩, rfl⟩

theorem mem_named {t : String} {e : String × List Range} : (ys : List (List Range)) → (k : Nat) →
    (e ∈ named t k ys ↔ ∃ j, ys[j]? = some e.2 ∧ e.1 = copyName t (k + j))
  | [], k => by simp [named]
  | y :: ys, k => by
    rw [named, List.mem_cons, mem_named ys (k + 1)]
    constructor
    · rintro (rfl | ⟨j, h1, h2⟩)
      · exact ⟨0, rfl, rfl⟩
      · exact ⟨j + 1, by simpa using h1, by rw [h2]; congr 1; omega⟩
    · rintro ⟨j, h1, h2⟩
      cases j with
      | zero =>
        left
        simp only [List.getElem?_cons_zero, Option.some.injEq] at h1
        rw [Prod.ext_iff]
        exact ⟨h2, h1.symm⟩
      | succ j =>
        right
        exact ⟨j, by simpa using h1, by rw [h2]; congr 1; omega⟩

theorem copyName_pos {t : String} {k : Nat} (h : k ≠ 0) : copyName t k = bname (t ++ "__") (k + 1) := by
  unfold copyName bname
  rw [if_neg h]
  have : "___" = "__" ++ "_" := by decide
  rw [this]
  simp only [String.append_assoc]

theorem append_inj_right {a b c : String} (h : a ++ c = b ++ c) : a = b := by
  have := congrArg String.toList h
  rw [String.toList_append, String.toList_append] at this
  exact String.toList_inj.1 (List.append_cancel_right this)

/-- No transition has the name of a copy of another. -/
def FreshNames (N : CNet) : Prop := ∀ s ∈ N.transitions, ∀ t ∈ N.transitions, ∀ k, k ≠ 0 → s.name ≠ copyName t.name k

theorem copyName_inj {N : CNet} (hf : FreshNames N) {s t : CTrans} (hs : s ∈ N.transitions) (ht : t ∈ N.transitions) {j k : Nat}
    (h : copyName s.name j = copyName t.name k) : s.name = t.name ∧ j = k := by
  by_cases hj : j = 0
  · by_cases hk : k = 0
    · subst hj hk
      exact ⟨by simpa [copyName] using h, rfl⟩
    · subst hj
      exact absurd (by simpa [copyName] using h) (hf s hs t ht k hk)
  · by_cases hk : k = 0
    · subst hk
      exact absurd (by simpa [copyName] using h.symm) (hf t ht s hs j hj)
    · rw [copyName_pos hj, copyName_pos hk] at h
      obtain ⟨h1, h2⟩ := bname_inj h
      exact ⟨append_inj_right h1, by omega⟩

end XCol
end Verif
