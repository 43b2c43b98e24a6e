import Verif.XCol.Net
import Verif.XCol.ArcLemmas
import Verif.CPN.Values
import Verif.CPN.EvalLemmas

/-!
# Compiled expressions have the meaning of the expressions
-/

namespace Verif
namespace XCol
open Colored CPN OffsetsProps

/-! ## Numbers of tuples -/

/-- the tuple with the given number in the lexicographic order -/
def unrank : List Nat → Nat → List Nat
  | [], _ => []
  | s :: ss, k => k / ss.prod % s :: unrank ss (k % ss.prod)

theorem unrank_spec : ∀ (sizes : List Nat), (∀ s ∈ sizes, 0 < s) → ∀ k, k < sizes.prod →
    InSizes sizes (unrank sizes k) ∧ rank sizes (unrank sizes k) = k
  | [], _, k, hk => by simp at hk; simp [unrank, InSizes, rank, hk]
  | s :: ss, h, k, hk => by
    have hp : 0 < ss.prod := inSizes_pos ss fun t ht => h t (by simp [ht])
    obtain ⟨i1, i2⟩ := unrank_spec ss (fun t ht => h t (by simp [ht])) (k % ss.prod) (Nat.mod_lt _ hp)
    rw [List.prod_cons] at hk
    have hq : k / ss.prod < s := (Nat.div_lt_iff_lt_mul hp).2 hk
    refine ⟨⟨Nat.mod_lt _ (h s (by simp)), i1⟩, ?_⟩
    simp only [unrank, rank, i2, Nat.mod_eq_of_lt hq]
    rw [Nat.mul_comm]
    exact Nat.div_add_mod k ss.prod

theorem rank_inj {sizes : List Nat} : ∀ {vs ws : List Nat}, InSizes sizes vs → InSizes sizes ws → rank sizes vs = rank sizes ws → vs = ws := by
  induction sizes with
  | nil =>
    intro vs ws h1 h2 _
    cases vs <;> cases ws <;> simp_all [InSizes]
  | cons s ss ih =>
    intro vs ws h1 h2 h
    cases vs with
    | nil => exact h1.elim
    | cons v vs =>
      cases ws with
      | nil => exact h2.elim
      | cons w ws =>
        have l1 := rank_lt ss vs h1.2
        have l2 := rank_lt ss ws h2.2
        simp only [rank] at h
        have hv : v = w := by
          have e1 : (v * ss.prod + rank ss vs) / ss.prod = v := by
            rw [Nat.add_comm, Nat.add_mul_div_right _ _ (by omega), Nat.div_eq_of_lt l1, Nat.zero_add]
          have e2 : (w * ss.prod + rank ss ws) / ss.prod = w := by
            rw [Nat.add_comm, Nat.add_mul_div_right _ _ (by omega), Nat.div_eq_of_lt l2, Nat.zero_add]
          rw [← e1, h, e2]
        subst hv
        rw [ih h1.2 h2.2 (by omega)]

theorem unrank_rank {sizes vs : List Nat} (h : InSizes sizes vs) : unrank sizes (rank sizes vs) = vs := by
  obtain ⟨i1, i2⟩ := unrank_spec sizes (pos_of_in sizes vs h) _ (rank_lt sizes vs h)
  exact rank_inj i1 h i2

theorem pack_eq {sizes vs : List Nat} (h : InSizes sizes vs) (hW : sizes.prod < 2 ^ 32) : pack sizes vs = rank sizes vs := by
  have hpos := pos_of_in sizes vs h
  have hlt := rank_lt sizes vs h
  have ht : seqTotal sizes = sizes.prod := by
    have := total_eq W32' sizes hpos 1 (by omega) (by simpa [W32'] using hW)
    simpa [seqTotal] using this
  unfold pack seqEncode
  rw [ht, seqEncodeFrom_eq sizes vs 0 h hW (by unfold W64; omega), Nat.zero_add]
  rfl

theorem fits_inSizes : ∀ {ns : List Nat} {v : Val}, Fits ns v ↔ InSizes ns v
  | [], [] => Iff.rfl
  | [], _ :: _ => Iff.rfl
  | _ :: _, [] => Iff.rfl
  | n :: ns, i :: v => by
    simp only [Fits, InSizes]
    rw [fits_inSizes]

/-- Types with colours, fewer than 2^32. -/
structure TFit (T : Types) : Prop where
  dot_plain : T.parts dotTy = none
  dot_one : T.basic dotTy = 1
  pos : ∀ ty, ∀ s ∈ T.dims ty, 0 < s
  small : ∀ ty, T.size ty < 2 ^ 32

variable {T : Types} {vty : Nat → Nat}

theorem mem_values_iff {ty : Nat} {x : Val} : x ∈ T.values ty ↔ InSizes (T.dims ty) x := by
  rw [mem_values]
  constructor
  · rintro ⟨k, hk, rfl⟩
    rw [value_eq T hk, ← fits_inSizes]
    exact fits_dec _ _ (by rw [← size_eq]; exact hk)
  · intro h
    rw [← fits_inSizes] at h
    obtain ⟨h1, h2⟩ := enc_lt _ _ h
    exact ⟨enc (T.dims ty) x, by rw [size_eq]; exact h1, by rw [value_eq T (by rw [size_eq]; exact h1), h2]⟩

theorem dims_plain {ty : Nat} (h : T.parts ty = none) : T.dims ty = [T.basic ty] := by unfold Types.dims; rw [h]
theorem size_plain {ty : Nat} (h : T.parts ty = none) : T.size ty = T.basic ty := by unfold Types.size; rw [h]

theorem xdims_eq (ty : Nat) : xdims T ty = T.dims ty := by
  unfold xdims Types.dims
  cases h : T.parts ty with
  | none => simp [size_plain h]
  | some cs => rfl

theorem TFit.basic_pos (w : TFit T) {ty : Nat} (h : T.parts ty = none) : 0 < T.basic ty :=
  w.pos ty _ (by rw [dims_plain h]; simp)

/-- The values that a binding of the code gives to the variables. -/
def asg (T : Types) (vty : Nat → Nat) (b : Bind) : Nat → Val := fun v => unrank (T.dims (vty v)) (b v)

/-- The variables are bound to colours of their types. -/
def Bound (T : Types) (vty : Nat → Nat) (b : Bind) (vs : List Nat) : Prop := ∀ v ∈ vs, b v < T.size (vty v)

theorem Bound.mono {b : Bind} {vs ws : List Nat} (h : Bound T vty b vs) (hs : ∀ v ∈ ws, v ∈ vs) : Bound T vty b ws :=
  fun v hv => h v (hs v hv)

theorem asg_spec (w : TFit T) {b : Bind} {v : Nat} (h : b v < T.size (vty v)) :
    InSizes (T.dims (vty v)) (asg T vty b v) ∧ rank (T.dims (vty v)) (asg T vty b v) = b v :=
  unrank_spec _ (w.pos _) _ (by rw [← size_eq]; exact h)

/-! ## Offsets -/

theorem off_zero {c n : Nat} (h : c < n) : (addColorOffset c 0 n).toNat = c := by
  unfold addColorOffset
  rw [signedWrap_eq _ _ (by omega), Int.add_zero, Int.emod_eq_of_lt (by omega) (by omega)]
  rfl

theorem off_lt (c o : Int) {n : Nat} (h : 0 < n) : (addColorOffset c o n).toNat < n := by
  have := C32_in_range c o n h
  omega

theorem off_cast (c o : Int) {n : Nat} (h : 0 < n) : ((addColorOffset c o n).toNat : Int) = addColorOffset c o n := by
  have := C32_in_range c o n h
  omega

theorem off_succ (c o : Int) {n : Nat} (h : 0 < n) :
    (addColorOffset c (o + 1) n).toNat = ((addColorOffset c o n).toNat + 1) % n := by
  have h1 : (((addColorOffset c o n).toNat + 1) % n : Int) = addColorOffset c (o + 1) n := by
    rw [off_cast c o h, ← C32_additive c o 1 n h]
    conv_rhs => unfold addColorOffset
    rw [signedWrap_eq _ _ (by omega)]
    rfl
  have h2 := off_cast c (o + 1) h
  have : ((((addColorOffset c o n).toNat + 1) % n : Nat) : Int) = ((addColorOffset c (o + 1) n).toNat : Int) := by
    push_cast; rw [h1, h2]
  exact (Int.ofNat.inj this).symm

theorem off_pred (c o : Int) {n : Nat} (h : 0 < n) :
    (addColorOffset c (o - 1) n).toNat = ((addColorOffset c o n).toNat + (n - 1)) % n := by
  have h1 : (((addColorOffset c o n).toNat + ((n - 1 : Nat) : Int)) % n : Int) = addColorOffset c (o - 1) n := by
    rw [off_cast c o h, show o - 1 = o + -1 by omega, ← C32_additive c o (-1) n h]
    rw [C32_modulo _ (-1) ((n - 1 : Nat) : Int) n h (by
      rw [show (-1 : Int) - ((n - 1 : Nat) : Int) = -1 * n by omega, Int.mul_emod_left])]
    conv_rhs => unfold addColorOffset
    rw [signedWrap_eq _ _ (by omega)]
    rfl
  have h2 := off_cast c (o - 1) h
  have : ((((addColorOffset c o n).toNat + (n - 1)) % n : Nat) : Int) = ((addColorOffset c (o - 1) n).toNat : Int) := by
    rw [← h2] at h1; rw [← h1]; push_cast; rfl
  exact (Int.ofNat.inj this).symm

theorem PC.val_lt (b : Bind) (c : PC) {s : Nat} (h : 0 < s) : c.val b s < s := off_lt _ _ h

/-! ## Colour expressions -/

theorem color_ok (w : TFit T) {b : Bind} : (e : CExpr) → {ty : Nat} → T.parts ty = none → HasTy T vty e ty →
    Bound T vty b e.vars → ∃ pc, compColor T vty e = some (pc, T.basic ty) ∧ den T vty (asg T vty b) e = [pc.val b (T.basic ty)] ∧
      pcVars [pc] = e.vars ∧ (pc.isVar = true → vty pc.value = ty)
  | .dot, ty, hp, h, _ => by
    rw [HasTy] at h
    subst h
    refine ⟨⟨false, 0, 0⟩, by rw [compColor, w.dot_one], ?_, rfl, by simp⟩
    rw [den, PC.val, PC.base, w.dot_one]
    simp only [Bool.false_eq_true, if_false]
    rw [off_zero (by omega)]
  | .var v, ty, hp, h, hb => by
    rw [HasTy] at h
    subst h
    have hv := hb v (by simp [CExpr.vars])
    refine ⟨⟨true, v, 0⟩, by rw [compColor, size_plain hp], ?_, rfl, fun _ => rfl⟩
    rw [size_plain hp] at hv
    rw [den, PC.val, PC.base]
    simp only [if_true]
    rw [off_zero hv, asg, dims_plain hp]
    simp [unrank, Nat.mod_eq_of_lt hv]
  | .const c, ty, hp, h, _ => by
    rw [HasTy] at h
    obtain ⟨rfl, hc⟩ := h
    refine ⟨⟨false, c.id, 0⟩, by rw [compColor, size_plain hp], ?_, rfl, by simp⟩
    rw [den, PC.val, PC.base]
    simp only [Bool.false_eq_true, if_false]
    have hc' := hc
    rw [size_plain hp] at hc'
    rw [off_zero hc']
    exact value_plain T hp hc
  | .succ e, ty, hp, h, hb => by
    rw [HasTy] at h
    obtain ⟨pc, h1, h2, h3, h4⟩ := color_ok w e hp h.1 (by rw [CExpr.vars] at hb; exact hb)
    refine ⟨{ pc with offset := pc.offset + 1 }, by rw [compColor, h1]; rfl, ?_, ?_, h4⟩
    · rw [den, h2, tyOf_of h.1 hp]
      simp only [List.map_cons, List.map_nil, PC.val]
      have := off_succ (pc.base b) pc.offset (w.basic_pos hp)
      rw [← this]; rfl
    · rw [CExpr.vars, ← h3]; obtain ⟨iv, va, off⟩ := pc; cases iv <;> rfl
  | .pred e, ty, hp, h, hb => by
    rw [HasTy] at h
    obtain ⟨pc, h1, h2, h3, h4⟩ := color_ok w e hp h.1 (by rw [CExpr.vars] at hb; exact hb)
    refine ⟨{ pc with offset := pc.offset - 1 }, by rw [compColor, h1]; rfl, ?_, ?_, h4⟩
    · rw [den, h2, tyOf_of h.1 hp]
      simp only [List.map_cons, List.map_nil, PC.val]
      have := off_pred (pc.base b) pc.offset (w.basic_pos hp)
      rw [← this]; rfl
    · rw [CExpr.vars, ← h3]; obtain ⟨iv, va, off⟩ := pc; cases iv <;> rfl
  | .tuple es, ty, hp, h, _ => by
    rw [HasTy] at h
    obtain ⟨cs, h1, _⟩ := h
    rw [hp] at h1; cases h1

/-- the variables of a sequence have the sizes at their places -/
def SeqFit (T : Types) (vty : Nat → Nat) : List Nat → List PC → Prop
  | [], [] => True
  | s :: ss, c :: cs => (c.isVar = true → T.parts (vty c.value) = none ∧ T.size (vty c.value) = s) ∧ SeqFit T vty ss cs
  | _, _ => False

theorem pcVars_cons (c : PC) (cs : List PC) : pcVars (c :: cs) = pcVars [c] ++ pcVars cs := by
  unfold pcVars
  by_cases h : c.isVar = true <;> simp [h]

theorem colors_ok (w : TFit T) {b : Bind} : (es : List CExpr) → {cs : List Nat} → HasTys T vty es cs →
    Bound T vty b (CExpr.varsL es) → ∃ q, compColors T vty es = some (q, cs.map T.basic) ∧
      denL T vty (asg T vty b) es = seqVals b (cs.map T.basic) q ∧ InSizes (cs.map T.basic) (seqVals b (cs.map T.basic) q) ∧
      pcVars q = CExpr.varsL es ∧ SeqFit T vty (cs.map T.basic) q
  | [], cs, h, _ => by
    rw [HasTys] at h
    subst h
    exact ⟨[], rfl, by rw [denL]; rfl, trivial, rfl, trivial⟩
  | e :: es, cs, h, hb => by
    rw [HasTys] at h
    obtain ⟨c, cs', rfl, hp, h1, h2⟩ := h
    rw [CExpr.varsL] at hb
    obtain ⟨pc, a1, a2, a3, a4⟩ := color_ok w e hp h1 (hb.mono fun v hv => List.mem_append_left _ hv)
    obtain ⟨q, b1, b2, b3, b4, b5⟩ := colors_ok w es h2 (hb.mono fun v hv => List.mem_append_right _ hv)
    refine ⟨pc :: q, ?_, ?_, ?_, ?_, ?_⟩
    · rw [compColors, a1, b1]; rfl
    · rw [denL, a2, b2]; rfl
    · exact ⟨PC.val_lt b pc (w.basic_pos hp), b3⟩
    · rw [pcVars_cons, a3, b4, CExpr.varsL]
    · refine ⟨fun hv => ?_, b5⟩
      rw [a4 hv]
      exact ⟨hp, size_plain hp⟩

/-- Constants of product types are not written (the parser knows the names of the colours of plain types only). -/
def constOK (T : Types) : CExpr → Prop
  | .const c => T.parts c.ty = none
  | _ => True

theorem plain_seq (w : TFit T) {b : Bind} (e : CExpr) {ty : Nat} (hp : T.parts ty = none) (h : HasTy T vty e ty)
    (hb : Bound T vty b e.vars) : ∃ q, compSeq T vty e = some (q, T.dims ty) ∧
      seqColor b (T.dims ty) q = rank (T.dims ty) (den T vty (asg T vty b) e) ∧
      InSizes (T.dims ty) (den T vty (asg T vty b) e) ∧ pcVars q = e.vars ∧ SeqFit T vty (T.dims ty) q ∧
      den T vty (asg T vty b) e = seqVals b (T.dims ty) q := by
  obtain ⟨pc, a1, a2, a3, a4⟩ := color_ok w e hp h hb
  have hc : compSeq T vty e = some ([pc], T.dims ty) := by
    rw [dims_plain hp]
    cases e with
    | tuple es => rw [compColor] at a1; cases a1
    | _ => rw [compSeq, a1]; all_goals first | rfl | (intro es he; cases he)
  have hi : InSizes (T.dims ty) [pc.val b (T.basic ty)] := by
    rw [dims_plain hp]; exact ⟨PC.val_lt b pc (w.basic_pos hp), trivial⟩
  have hd : den T vty (asg T vty b) e = seqVals b (T.dims ty) [pc] := by rw [a2, dims_plain hp]; rfl
  have hs : (T.dims ty).prod < 2 ^ 32 := by rw [← size_eq]; exact w.small ty
  refine ⟨[pc], hc, ?_, by rw [a2]; exact hi, a3, ?_, hd⟩
  · rw [seqColor, ← hd, a2, pack_eq hi hs]
  · rw [dims_plain hp]
    refine ⟨fun hv => ?_, trivial⟩
    rw [a4 hv]
    exact ⟨hp, size_plain hp⟩

theorem seq_ok (w : TFit T) {b : Bind} (e : CExpr) {ty : Nat} (h : HasTy T vty e ty) (hc : constOK T e)
    (hb : Bound T vty b e.vars) : ∃ q sizes, compSeq T vty e = some (q, sizes) ∧
      seqColor b sizes q = rank (T.dims ty) (den T vty (asg T vty b) e) ∧
      InSizes (T.dims ty) (den T vty (asg T vty b) e) ∧ pcVars q = e.vars ∧
      ((∀ v ∈ e.vars, T.parts (vty v) = none) → sizes = T.dims ty ∧ SeqFit T vty (T.dims ty) q) ∧
      (e.vars = [] → sizes = T.dims ty ∧ InSizes (T.dims ty) (seqVals b (T.dims ty) q) ∧ q.length = (T.dims ty).length) := by
  by_cases hp : T.parts ty = none
  · obtain ⟨q, h1, h2, h3, h4, h5, h6⟩ := plain_seq w e hp h hb
    refine ⟨q, T.dims ty, h1, h2, h3, h4, fun _ => ⟨rfl, h5⟩, fun _ => ⟨rfl, by rw [← h6]; exact h3, ?_⟩⟩
    exact seqFit_length h5
  · cases e with
    | dot => rw [HasTy] at h; subst h; exact absurd w.dot_plain hp
    | var v =>
      rw [HasTy] at h
      subst h
      have hv := hb v (by simp [CExpr.vars])
      obtain ⟨a1, a2⟩ := asg_spec w (vty := vty) hv
      have hi : InSizes [T.size (vty v)] [b v] := ⟨hv, trivial⟩
      have hsv : seqVals b [T.size (vty v)] [⟨true, v, 0⟩] = [b v] := by
        simp only [seqVals, PC.val, PC.base, if_true]
        rw [off_zero hv]
      have hs : ([T.size (vty v)] : List Nat).prod < 2 ^ 32 := by simpa using w.small (vty v)
      refine ⟨[⟨true, v, 0⟩], [T.size (vty v)], rfl, ?_, ?_, rfl, ?_, ?_⟩
      · rw [seqColor, hsv, pack_eq hi hs, den, a2]
        simp [rank]
      · rw [den]; exact a1
      · intro hv'
        exact absurd (hv' v (by simp [CExpr.vars])) hp
      · intro hv'; simp [CExpr.vars] at hv'
    | const c => rw [HasTy] at h; rw [constOK, ← h.1] at hc; exact absurd hc hp
    | succ e => rw [HasTy] at h; exact absurd h.2 hp
    | pred e => rw [HasTy] at h; exact absurd h.2 hp
    | tuple es =>
      rw [HasTy] at h
      obtain ⟨cs, h1, h2⟩ := h
      have hd : T.dims ty = cs.map T.basic := by unfold Types.dims; rw [h1]
      rw [CExpr.vars] at hb
      obtain ⟨q, b1, b2, b3, b4, b5⟩ := colors_ok w es h2 hb
      have hs : (T.dims ty).prod < 2 ^ 32 := by rw [← size_eq]; exact w.small ty
      rw [← hd] at b1 b2 b3 b5
      refine ⟨q, T.dims ty, b1, ?_, ?_, ?_, fun _ => ⟨rfl, b5⟩, fun _ => ⟨rfl, b3, seqFit_length b5⟩⟩
      · rw [seqColor, pack_eq b3 hs, den, b2]
      · rw [den, b2]; exact b3
      · rw [CExpr.vars]; exact b4
where
  seqFit_length : ∀ {ss : List Nat} {q : List PC}, SeqFit T vty ss q → q.length = ss.length
    | [], [], _ => rfl
    | _ :: _, _ :: _, h => by simp [seqFit_length h.2]
    | [], _ :: _, h => h.elim
    | _ :: _, [], h => h.elim

end XCol
end Verif
