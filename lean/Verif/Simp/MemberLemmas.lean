import Verif.Simp.Member
import Verif.PQL.Semantics
import Mathlib.Tactic.Ring
import Mathlib.Tactic.Linarith
import Mathlib.Algebra.BigOperators.Fin

/-!
# Linear forms denote the value of the expression
-/

namespace Verif
namespace Simp
open PQL

/-- scalar product with firing counts -/
def dot : List Int → (Nat → Int) → Int
  | [], _ => 0
  | a :: l, x => a * x 0 + dot l fun i => x (i + 1)

theorem dot_addV (a b : List Int) (x : Nat → Int) : dot (Member.addV a b) x = dot a x + dot b x := by
  induction a generalizing b x with
  | nil => simp [Member.addV, dot]
  | cons v a ih =>
    cases b with
    | nil => simp [Member.addV, dot]
    | cons w b => simp only [Member.addV, dot, ih]; ring

theorem dot_neg (b : List Int) (x : Nat → Int) : dot (b.map fun y => 0 - y) x = - dot b x := by
  induction b generalizing x with
  | nil => simp [dot]
  | cons w b ih => simp only [List.map_cons, dot, ih]; ring

theorem dot_subV (a b : List Int) (x : Nat → Int) : dot (Member.subV a b) x = dot a x - dot b x := by
  induction a generalizing b x with
  | nil =>
    simp only [Member.subV]
    rw [dot_neg]
    simp [dot]
  | cons v a ih =>
    cases b with
    | nil => simp [Member.subV, dot]
    | cons w b => simp only [Member.subV, dot, ih]; ring

theorem dot_mul (a : List Int) (k : Int) (x : Nat → Int) : dot (a.map fun v => v * k) x = dot a x * k := by
  induction a generalizing x with
  | nil => simp [dot]
  | cons v a ih => simp only [List.map_cons, dot, ih]; ring

theorem dot_zero {a : List Int} (h : ∀ v ∈ a, v = 0) (x : Nat → Int) : dot a x = 0 := by
  induction a generalizing x with
  | nil => rfl
  | cons v a ih =>
    simp only [dot, h v List.mem_cons_self, ih fun w hw => h w (List.mem_cons_of_mem _ hw)]
    ring

theorem dot_nonneg {a : List Int} (h : ∀ v ∈ a, 0 ≤ v) {x : Nat → Int} (hx : ∀ i, 0 ≤ x i) : 0 ≤ dot a x := by
  induction a generalizing x with
  | nil => simp [dot]
  | cons v a ih =>
    simp only [dot]
    have h1 := mul_nonneg (h v List.mem_cons_self) (hx 0)
    have h2 := ih (fun w hw => h w (List.mem_cons_of_mem _ hw)) fun i => hx (i + 1)
    linarith

theorem dot_nonpos {a : List Int} (h : ∀ v ∈ a, v ≤ 0) {x : Nat → Int} (hx : ∀ i, 0 ≤ x i) : dot a x ≤ 0 := by
  have := dot_nonneg (a := a.map fun y => 0 - y) (by
    intro v hv
    obtain ⟨w, hw, rfl⟩ := List.mem_map.1 hv
    have := h w hw
    omega) hx
  rw [dot_neg] at this
  linarith

theorem dot_same {a b : List Int} (h : Member.sameV a b = true) (x : Nat → Int) : dot a x = dot b x := by
  induction a generalizing b x with
  | nil =>
    simp only [Member.sameV, List.all_eq_true, beq_iff_eq] at h
    rw [dot_zero h]; rfl
  | cons v a ih =>
    cases b with
    | nil =>
      simp only [Member.sameV, List.all_eq_true, beq_iff_eq] at h
      rw [dot_zero h]; rfl
    | cons w b =>
      simp only [Member.sameV, Bool.and_eq_true, beq_iff_eq] at h
      simp only [dot, h.1, ih h.2]

theorem dot_range (n : Nat) (f : Nat → Int) (x : Nat → Int) :
    dot ((List.range n).map f) x = ∑ t : Fin n, f t * x t := by
  induction n generalizing f x with
  | zero => simp [dot]
  | succ n ih =>
    rw [List.range_succ_eq_map, Fin.sum_univ_succ]
    simp only [List.map_cons, List.map_map, dot]
    have := ih (fun t => f (t + 1)) fun t => x (t + 1)
    have h2 : (List.range n).map (f ∘ Nat.succ) = (List.range n).map fun t => f (t + 1) := rfl
    rw [h2, this]
    rfl

/-- the value of a linear form at the firing counts -/
def Member.at (m : Member) (x : Nat → Int) : Int := m.const + dot m.vars x

theorem isZero_dot {m : Member} (h : m.isZero = true) (x : Nat → Int) : dot m.vars x = 0 := by
  simp only [Member.isZero, List.all_eq_true, beq_iff_eq] at h
  exact dot_zero h x

theorem at_mul {m n : Member} (h : (Member.mul m n).can = true) (x : Nat → Int) :
    (Member.mul m n).at x = m.at x * n.at x := by
  unfold Member.mul at h ⊢
  split at h
  · simp at h
  · rename_i hz
    rw [if_neg hz]
    simp only [Member.at, Member.mulV]
    by_cases h1 : m.isZero = true
    · rw [isZero_dot h1]
      by_cases h2 : n.isZero = true
      · rw [isZero_dot h2]; simp [h1, h2, dot]
      · simp only [h1, h2, bne_iff_ne, ne_eq, not_false_eq_true, if_true, Bool.true_eq_false, if_false, dot_mul,
          Bool.not_eq_true] at *
        simp [dot_mul]; ring
    · by_cases h2 : n.isZero = true
      · rw [isZero_dot h2]
        simp only [Bool.not_eq_true] at h1
        simp [h1, h2, dot_mul]; ring
      · simp only [Bool.not_eq_true] at h1 h2
        exact absurd ⟨h1, h2⟩ hz

theorem at_add (m n : Member) (x : Nat → Int) : (Member.add m n).at x = m.at x + n.at x := by
  simp only [Member.at, Member.add, dot_addV]; ring

theorem at_sub (m n : Member) (x : Nat → Int) : (Member.sub m n).at x = m.at x - n.at x := by
  simp only [Member.at, Member.sub, dot_subV]; ring

theorem mul_can {m n : Member} (h : (Member.mul m n).can = true) : m.can = true ∧ n.can = true := by
  unfold Member.mul at h
  split at h
  · simp at h
  · simpa using h

theorem add_can {m n : Member} (h : (Member.add m n).can = true) : m.can = true ∧ n.can = true := by
  simpa [Member.add] using h

theorem sub_can {m n : Member} (h : (Member.sub m n).can = true) : m.can = true ∧ n.can = true := by
  simpa [Member.sub] using h

theorem commCons_eq (neutral k : Int) (ids vals : List Member) (op : Member → Member → Member) :
    commCons neutral k ids vals op = ((ids ++ vals).foldl (commStep op)
      (if k ≠ neutral ∨ (vals = [] ∧ ids = []) then some (Member.lit k) else none)).getD {} := by
  rfl

/-- The combination of the operands, for an operation whose meaning is `g`. -/
theorem fold_some {op : Member → Member → Member} {g : Int → Int → Int} (x : Nat → Int)
    (hc : ∀ m n, (op m n).can = true → m.can = true ∧ n.can = true)
    (ha : ∀ m n, (op m n).can = true → (op m n).at x = g (m.at x) (n.at x))
    (l : List Member) (a : Member) :
    ∃ r, l.foldl (commStep op) (some a) = some r ∧ (r.can = true → a.can = true ∧ (∀ m ∈ l, m.can = true) ∧
      r.at x = (l.map fun m => m.at x).foldl g (a.at x)) := by
  induction l generalizing a with
  | nil => exact ⟨a, rfl, fun h => ⟨h, by simp, rfl⟩⟩
  | cons m l ih =>
    obtain ⟨r, h1, h2⟩ := ih (op a m)
    refine ⟨r, h1, fun h => ?_⟩
    obtain ⟨h3, h4, h5⟩ := h2 h
    obtain ⟨h6, h7⟩ := hc _ _ h3
    refine ⟨h6, ?_, ?_⟩
    · intro n hn
      rcases List.mem_cons.1 hn with rfl | hn
      · exact h7
      · exact h4 n hn
    · rw [h5, ha _ _ h3]; rfl

theorem lit_at {k : Int} (h : fits k = true) (x : Nat → Int) : (Member.lit k).at x = k := by
  simp [Member.at, Member.lit, dot, toI32_fits h]

theorem commCons_at {op : Member → Member → Member} {g : Int → Int → Int} (x : Nat → Int) {neutral k : Int}
    (hk : fits k = true) (hn : ∀ v, g neutral v = v)
    (hc : ∀ m n, (op m n).can = true → m.can = true ∧ n.can = true)
    (ha : ∀ m n, (op m n).can = true → (op m n).at x = g (m.at x) (n.at x))
    (ids vals : List Member) (h : (commCons neutral k ids vals op).can = true) :
    (∀ m ∈ ids ++ vals, m.can = true) ∧
    (commCons neutral k ids vals op).at x = ((ids ++ vals).map fun m => m.at x).foldl g k := by
  rw [commCons_eq] at h ⊢
  split at h
  · rename_i hs
    rw [if_pos hs]
    obtain ⟨r, h1, h2⟩ := fold_some (g := g) x hc ha (ids ++ vals) (Member.lit k)
    rw [h1] at h ⊢
    obtain ⟨_, h4, h5⟩ := h2 h
    refine ⟨h4, ?_⟩
    simp only [Option.getD_some]
    rw [h5, lit_at hk]
  · rename_i hs
    rw [if_neg hs]
    have hke : k = neutral := by
      by_cases hke : k = neutral
      · exact hke
      · exact absurd (Or.inl hke) hs
    subst hke
    cases hl : ids ++ vals with
    | nil =>
      rw [List.append_eq_nil_iff] at hl
      exact absurd (Or.inr ⟨hl.2, hl.1⟩) hs
    | cons m l =>
      rw [hl] at h
      simp only [List.foldl_cons, commStep] at h ⊢
      obtain ⟨r, h1, h2⟩ := fold_some (g := g) x hc ha l m
      rw [h1] at h ⊢
      obtain ⟨h3, h4, h5⟩ := h2 h
      refine ⟨?_, ?_⟩
      · intro n hnm
        rcases List.mem_cons.1 hnm with rfl | hnm
        · exact h3
        · exact h4 n hnm
      · simp only [Option.getD_some, List.map_cons, List.foldl_cons]
        rw [h5, hn]

theorem foldl_add (l : List Int) (k : Int) : l.foldl (fun a b => a + b) k = k + l.sum := by
  induction l generalizing k with
  | nil => simp
  | cons a l ih => simp only [List.foldl_cons, ih, List.sum_cons]; ring

theorem foldl_mul (l : List Int) (k : Int) : l.foldl (fun a b => a * b) k = k * l.prod := by
  induction l generalizing k with
  | nil => simp
  | cons a l ih => simp only [List.foldl_cons, ih, List.prod_cons]; ring

theorem constraints_eq (N : FlatNet) (m0 : Nat → Nat) (es : List Expr) :
    constraints N m0 es = es.map (constraint N m0) := by
  induction es with
  | nil => rfl
  | cons e es ih => simp [constraints, ih]

theorem exactEs_iff (es : List Expr) : exactEs es = true ↔ ∀ e ∈ es, exactE e = true := by
  induction es with
  | nil => simp [exactEs]
  | cons e es ih => simp [exactEs, ih]

/-- `x` are firing counts that lead from `m0` to `m`. -/
def Counts (N : FlatNet) (m0 m : Nat → Nat) (x : Nat → Int) : Prop :=
  (∀ i, 0 ≤ x i) ∧ ∀ p, (m p : Int) = m0 p + ∑ t : Fin N.ntransitions, N.effect t p * x t

theorem memberForPlace_at {N : FlatNet} {m0 m : Nat → Nat} {x : Nat → Int} (h : Counts N m0 m x) (p : Nat) :
    (memberForPlace N m0 p).at x = m p := by
  simp only [Member.at, memberForPlace, dot_range, h.2 p]

theorem sub_fold {x : Nat → Int} (l : List Member) (a : Member) (h : (l.foldl Member.sub a).can = true) :
    a.can = true ∧ (∀ m ∈ l, m.can = true) ∧
      (l.foldl Member.sub a).at x = a.at x - (l.map fun m => m.at x).sum := by
  induction l generalizing a with
  | nil => exact ⟨h, by simp, by simp⟩
  | cons m l ih =>
    obtain ⟨h1, h2, h3⟩ := ih (Member.sub a m) h
    obtain ⟨h4, h5⟩ := sub_can h1
    refine ⟨h4, ?_, ?_⟩
    · intro n hn
      rcases List.mem_cons.1 hn with rfl | hn
      · exact h5
      · exact h2 n hn
    · simp only [List.foldl_cons, List.map_cons, List.sum_cons]
      rw [h3, at_sub]; ring

/-- An analysable linear form is the value of the expression at the marking reached. -/
theorem constraint_at {N : FlatNet} {m0 m : Nat → Nat} {x : Nat → Int} (hx : Counts N m0 m x) (e : Expr)
    (he : exactE e = true) (hc : (constraint N m0 e).can = true) :
    (constraint N m0 e).at x = e.val m := by
  induction e using Expr.ind with
  | lit v =>
    simp only [exactE] at he
    simp only [constraint, Expr.val, lit_at he]
  | id p => simp only [constraint, Expr.val, memberForPlace_at hx]
  | plus k ids es ih =>
    simp only [exactE, Bool.and_eq_true, exactEs_iff] at he
    simp only [constraint] at hc ⊢
    obtain ⟨h1, h2⟩ := commCons_at (g := fun a b => a + b) x he.1 (by intro v; simp) (fun _ _ => add_can)
      (fun m n _ => at_add m n x) _ _ hc
    rw [h2, foldl_add]
    simp only [Expr.val, List.map_append, List.sum_append, List.map_map, vals_eq, constraints_eq]
    rw [← add_assoc]
    have e1 : List.map ((fun m => m.at x) ∘ memberForPlace N m0) ids = ids.map fun p => (m p : Int) :=
      List.map_congr_left fun p _ => memberForPlace_at hx p
    have e2 : List.map ((fun m => m.at x) ∘ constraint N m0) es = es.map (Expr.val m) :=
      List.map_congr_left fun e hm => ih e hm (he.2 e hm) (h1 _ (List.mem_append_right _ (by
        rw [constraints_eq]; exact List.mem_map_of_mem hm)))
    rw [e1, e2]
  | mul k ids es ih =>
    simp only [exactE, Bool.and_eq_true, exactEs_iff] at he
    simp only [constraint] at hc ⊢
    obtain ⟨h1, h2⟩ := commCons_at (g := fun a b => a * b) x he.1 (by intro v; simp) (fun _ _ => mul_can)
      (fun m n h => at_mul h x) _ _ hc
    rw [h2, foldl_mul]
    simp only [Expr.val, List.map_append, List.prod_append, List.map_map, vals_eq, constraints_eq]
    rw [← mul_assoc]
    have e1 : List.map ((fun m => m.at x) ∘ memberForPlace N m0) ids = ids.map fun p => (m p : Int) :=
      List.map_congr_left fun p _ => memberForPlace_at hx p
    have e2 : List.map ((fun m => m.at x) ∘ constraint N m0) es = es.map (Expr.val m) :=
      List.map_congr_left fun e hm => ih e hm (he.2 e hm) (h1 _ (List.mem_append_right _ (by
        rw [constraints_eq]; exact List.mem_map_of_mem hm)))
    rw [e1, e2]
  | sub e es ih ihs =>
    simp only [exactE, Bool.and_eq_true, exactEs_iff] at he
    simp only [constraint] at hc ⊢
    obtain ⟨h1, h2, h3⟩ := sub_fold (x := x) _ _ hc
    rw [h3, ih he.1 h1]
    simp only [Expr.val, List.map_map, vals_eq, constraints_eq]
    have e2 : List.map ((fun m => m.at x) ∘ constraint N m0) es = es.map (Expr.val m) :=
      List.map_congr_left fun e hm => ihs e hm (he.2 e hm) (h2 _ (by
        rw [constraints_eq]; exact List.mem_map_of_mem hm))
    rw [e2]
  | minus e ih =>
    simp only [exactE] at he
    simp only [constraint] at hc ⊢
    rw [at_mul hc, ih he (mul_can hc).1, lit_at (by decide)]
    simp only [Expr.val]
    ring

/-! ### Trivial comparisons -/

theorem kind_constant {m : Member} (h : m.kind = .constant) (x : Nat → Int) : dot m.vars x = 0 := by
  unfold Member.kind at h
  split at h
  · rename_i hz
    simp only [List.all_eq_true, beq_iff_eq] at hz
    exact dot_zero hz x
  · split at h
    · cases h
    · split at h <;> cases h

theorem kind_input {m : Member} (h : m.kind = .input) {x : Nat → Int} (hx : ∀ i, 0 ≤ x i) : dot m.vars x ≤ 0 := by
  unfold Member.kind at h
  split at h
  · cases h
  · split at h
    · rename_i _ hz
      simp only [List.all_eq_true, decide_eq_true_eq] at hz
      exact dot_nonpos hz hx
    · split at h <;> cases h

theorem kind_output {m : Member} (h : m.kind = .output) {x : Nat → Int} (hx : ∀ i, 0 ≤ x i) : 0 ≤ dot m.vars x := by
  unfold Member.kind at h
  split at h
  · cases h
  · split at h
    · cases h
    · split at h
      · rename_i _ _ hz
        simp only [List.all_eq_true, decide_eq_true_eq] at hz
        exact dot_nonneg hz hx
      · cases h

/-- `<` or `≤` -/
def lessP (strict : Bool) (a b : Int) : Prop := if strict then a < b else a ≤ b

theorem lessP_mono {s : Bool} {a b a' b' : Int} (h : lessP s a b) (ha : a' ≤ a) (hb : b ≤ b') : lessP s a' b' := by
  unfold lessP at *
  cases s <;> simp at * <;> omega

theorem compare_iff {s : Bool} {a b : Int} (ha : fits a = true) (hb : fits b = true) :
    Member.compare s a b = true ↔ lessP s a b := by
  unfold Member.compare lessP
  rw [toI32_fits ha, toI32_fits hb]
  cases s <;> simp

/-- A trivial verdict is right for all firing counts. -/
theorem trivialLess_at {s : Bool} {m n : Member} (hm : fits m.const = true) (hn : fits n.const = true)
    {b : Bool} (h : Member.trivialLess s m n = some b) {x : Nat → Int} (hx : ∀ i, 0 ≤ x i) :
    b = true ↔ lessP s (m.at x) (n.at x) := by
  have hcmp := compare_iff (s := s) hm hn
  have up : ∀ {a c : Int}, Member.compare s m.const n.const = true → a ≤ 0 → 0 ≤ c →
      lessP s (m.const + a) (n.const + c) := fun h ha hc => lessP_mono (hcmp.1 h) (by omega) (by omega)
  have down : ∀ {a c : Int}, Member.compare s m.const n.const = false → 0 ≤ a → c ≤ 0 →
      ¬ lessP s (m.const + a) (n.const + c) := by
    intro a c h ha hc hl
    have := hcmp.2 (lessP_mono hl (by omega) (by omega))
    rw [h] at this
    cases this
  have both : ∀ {a c : Int}, a = c → (Member.compare s m.const n.const = true ↔
      lessP s (m.const + a) (n.const + c)) := by
    intro a c he
    rw [hcmp, he]
    unfold lessP
    cases s <;> simp
  unfold Member.trivialLess at h
  unfold Member.at
  split at h
  · rename_i hsv
    obtain rfl := Option.some.inj h
    exact both (dot_same hsv x)
  · split at h
    · rename_i h1 h2
      obtain rfl := Option.some.inj h
      exact both (by rw [kind_constant h1, kind_constant h2])
    · rename_i h1 h2
      split at h
      · obtain rfl := Option.some.inj h
        rename_i hc
        simp only [Bool.false_eq_true, false_iff]
        exact down hc (by rw [kind_constant h1]) (kind_input h2 hx)
      · cases h
    · rename_i h1 h2
      split at h
      · obtain rfl := Option.some.inj h
        rename_i hc
        simp only [true_iff]
        exact up hc (by rw [kind_constant h1]) (kind_output h2 hx)
      · cases h
    · rename_i h1 h2
      split at h
      · obtain rfl := Option.some.inj h
        rename_i hc
        simp only [true_iff]
        exact up hc (kind_input h1 hx) (by rw [kind_constant h2])
      · cases h
    · rename_i h1 h2
      split at h
      · obtain rfl := Option.some.inj h
        rename_i hc
        simp only [true_iff]
        exact up hc (kind_input h1 hx) (kind_output h2 hx)
      · cases h
    · rename_i h1 h2
      split at h
      · obtain rfl := Option.some.inj h
        rename_i hc
        simp only [Bool.false_eq_true, false_iff]
        exact down hc (kind_output h1 hx) (by rw [kind_constant h2])
      · cases h
    · rename_i h1 h2
      split at h
      · obtain rfl := Option.some.inj h
        rename_i hc
        simp only [Bool.false_eq_true, false_iff]
        exact down hc (kind_output h1 hx) (kind_input h2 hx)
      · cases h
    · cases h

end Simp
end Verif
