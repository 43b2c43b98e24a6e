import Verif.Colored.Offsets

/-!
# C32: cyclic colours; C35: packed colour tuples
-/

namespace Verif
namespace OffsetsProps
open Colored

/-! ## C32 -/

theorem signedWrap_eq (v m : Int) (hm : 0 < m) : signedWrap v m = v % m := by
  unfold signedWrap
  have h1 : -m < v.tmod m := by
    have := Int.lt_tmod_of_pos v hm; omega
  have h3 : (v.tmod m + m).tmod m = (v.tmod m + m) % m := Int.tmod_eq_emod_of_nonneg (by omega)
  rw [h3, Int.add_emod_right, Int.tmod_def, Int.sub_mul_emod_self_left]

/-- **C32**: moving by an offset stays within the type. -/
theorem C32_in_range (base offset : Int) (n : Nat) (hn : 0 < n) :
    0 ≤ addColorOffset base offset n ∧ addColorOffset base offset n < n := by
  unfold addColorOffset
  rw [signedWrap_eq _ _ (by omega)]
  exact ⟨Int.emod_nonneg _ (by omega), Int.emod_lt_of_pos _ (by omega)⟩

/-- **C32**: the result is the colour `base + offset` counted cyclically. -/
theorem C32_cyclic (base offset : Int) (n : Nat) (hn : 0 < n) :
    ∃ k : Int, addColorOffset base offset n + k * n = base + offset := by
  unfold addColorOffset
  rw [signedWrap_eq _ _ (by omega)]
  exact ⟨(base + offset) / n, by rw [Int.mul_comm]; exact Int.emod_add_mul_ediv _ _⟩

/-- **C32**: moving by `a` and then by `b` is moving by `a + b`. -/
theorem C32_additive (base a b : Int) (n : Nat) (hn : 0 < n) :
    addColorOffset (addColorOffset base a n) b n = addColorOffset base (a + b) n := by
  unfold addColorOffset
  rw [signedWrap_eq _ _ (by omega), signedWrap_eq _ _ (by omega), signedWrap_eq _ _ (by omega),
    Int.emod_add_emod, Int.add_assoc]

/-- **C32**: moving forward and back returns the original colour. -/
theorem C32_inverse (base k : Int) (n : Nat) (h0 : 0 ≤ base) (h1 : base < n) :
    addColorOffset (addColorOffset base k n) (-k) n = base := by
  rw [C32_additive _ _ _ _ (by omega), Int.add_right_neg]
  unfold addColorOffset
  rw [signedWrap_eq _ _ (by omega), Int.add_zero, Int.emod_eq_of_lt h0 h1]

/-- **C32**: offsets that are equal modulo the size act equally. -/
theorem C32_modulo (base a b : Int) (n : Nat) (hn : 0 < n) (h : (a - b) % n = 0) :
    addColorOffset base a n = addColorOffset base b n := by
  unfold addColorOffset
  rw [signedWrap_eq _ _ (by omega), signedWrap_eq _ _ (by omega),
    show base + a = (base + b) + (a - b) by omega, Int.add_emod, h, Int.add_zero, Int.emod_emod]

/-- **C32** (unfolding engine): the successor and predecessor of a colour are the moves by 1 and -1. -/
theorem C32_succ_pred (n id : Nat) (h : id < n) :
    (succColor n id : Int) = addColorOffset id 1 n ∧ (predColor n id : Int) = addColorOffset id (-1) n ∧
      predColor n (succColor n id) = id ∧ succColor n (predColor n id) = id := by
  unfold addColorOffset succColor predColor
  rw [signedWrap_eq _ _ (by omega), signedWrap_eq _ _ (by omega)]
  refine ⟨?_, ?_, ?_, ?_⟩
  · split
    · have : id + 1 = n := by omega
      rw [show (id : Int) + 1 = n by omega]; simp
    · rw [Int.emod_eq_of_lt (by omega) (by omega)]; push_cast; rfl
  · split
    · rename_i h0
      subst h0
      rw [show ((0 : Nat) : Int) + -1 = ((n - 1 : Nat) : Int) + -1 * n by omega, Int.add_mul_emod_self_right,
        Int.emod_eq_of_lt (by omega) (by omega)]
    · rw [Int.emod_eq_of_lt (by omega) (by omega)]; omega
  · split <;> split <;> omega
  · split <;> split <;> omega

example : addColorOffset 0 (-1) 5 = 4 ∧ addColorOffset 3 (-13) 5 = 0 ∧ addColorOffset 4 7 5 = 1 := by decide

/-! ## C35 -/

/-- A tuple within the sizes. -/
def InSizes : List Nat → List Nat → Prop
  | [], [] => True
  | s :: ss, v :: vs => v < s ∧ InSizes ss vs
  | _, _ => False

/-- The number of a tuple in the lexicographic order: the specification of packing. -/
def rank : List Nat → List Nat → Nat
  | _ :: ss, v :: vs => v * ss.prod + rank ss vs
  | _, _ => 0

theorem rank_lt : ∀ (sizes vs : List Nat), InSizes sizes vs → rank sizes vs < sizes.prod
  | [], [], _ => by simp [rank]
  | s :: ss, v :: vs, h => by
    have ih := rank_lt ss vs h.2
    simp only [rank, List.prod_cons]
    calc v * ss.prod + rank ss vs < v * ss.prod + ss.prod := by omega
      _ = (v + 1) * ss.prod := by rw [Nat.add_mul, Nat.one_mul]
      _ ≤ s * ss.prod := Nat.mul_le_mul_right _ h.1

theorem prod_pos_of_in : ∀ (sizes vs : List Nat), InSizes sizes vs → 0 < sizes.prod :=
  fun sizes vs h => by have := rank_lt sizes vs h; omega

theorem inSizes_pos : ∀ (sizes : List Nat), (∀ s ∈ sizes, 0 < s) → 0 < sizes.prod
  | [], _ => by simp
  | s :: ss, h => by
    rw [List.prod_cons]
    exact Nat.mul_pos (h s (by simp)) (inSizes_pos ss fun t ht => h t (by simp [ht]))

theorem total_eq (W : Nat) (sizes : List Nat) (hpos : ∀ s ∈ sizes, 0 < s) : ∀ t, 0 < t → t * sizes.prod < W →
    sizes.foldl (fun t s => t * s % W) t = t * sizes.prod := by
  induction sizes with
  | nil => intro t _ _; simp
  | cons s ss ih =>
    intro t ht h
    rw [List.prod_cons, ← Nat.mul_assoc] at h
    have hs : 0 < ss.prod := inSizes_pos ss fun u hu => hpos u (by simp [hu])
    have hlt : t * s < W := by
      calc t * s = t * s * 1 := by omega
        _ ≤ t * s * ss.prod := Nat.mul_le_mul_left _ hs
        _ < W := h
    simp only [List.foldl_cons, List.prod_cons]
    rw [Nat.mod_eq_of_lt hlt, ih (fun u hu => hpos u (by simp [hu])) _ (Nat.mul_pos ht (hpos s (by simp))) h,
      Nat.mul_assoc]

/-- The products of the remaining sizes. -/
def suffixProds : List Nat → List Nat
  | [] => []
  | _ :: ss => ss.prod :: suffixProds ss

theorem codecIntervals_eq : ∀ (sizes : List Nat), (∀ s ∈ sizes, 0 < s) →
    codecIntervals sizes.prod sizes = some (suffixProds sizes)
  | [], _ => rfl
  | s :: ss, h => by
    have hs : 0 < s := h s (by simp)
    simp only [codecIntervals, List.prod_cons, suffixProds]
    rw [if_neg (by omega), Nat.mul_div_cancel_left _ hs,
      codecIntervals_eq ss fun t ht => h t (by simp [ht])]

theorem codec_new (sizes : List Nat) (hpos : ∀ s ∈ sizes, 0 < s) (hW : sizes.prod < W64) :
    Codec.new sizes = some ⟨sizes.prod :: suffixProds sizes, sizes, sizes.prod⟩ := by
  have ht := total_eq W64 sizes hpos 1 (by omega) (by simpa using hW)
  rw [Nat.one_mul] at ht
  simp only [Codec.new, ht, codecIntervals_eq sizes hpos]

theorem rank_digit : ∀ (sizes vs : List Nat) (i : Nat), InSizes sizes vs → i < sizes.length →
    ∃ d s v, (suffixProds sizes)[i]? = some d ∧ sizes[i]? = some s ∧ vs[i]? = some v ∧ 0 < d ∧ 0 < s ∧
      rank sizes vs / d % s = v
  | s :: ss, v :: vs, 0, h, _ => by
    have hlt := rank_lt ss vs h.2
    refine ⟨ss.prod, s, v, rfl, rfl, rfl, by omega, by have := h.1; omega, ?_⟩
    simp only [rank]
    rw [Nat.add_comm, Nat.mul_comm, Nat.add_mul_div_left _ _ (by omega), Nat.div_eq_of_lt hlt, Nat.zero_add,
      Nat.mod_eq_of_lt h.1]
  | s :: ss, v :: vs, i + 1, h, hi => by
    obtain ⟨d, s', v', h1, h2, h3, h4, h5, h6⟩ := rank_digit ss vs i h.2 (by simpa using hi)
    refine ⟨d, s', v', h1, h2, h3, h4, h5, ?_⟩
    simp only [rank]
    -- the leading digit contributes a multiple of `d * s'`
    have hdvd : d * s' ∣ ss.prod := suffix_dvd ss i d s' h1 h2
    obtain ⟨k, hk⟩ := hdvd
    rw [hk, show v * (d * s' * k) + rank ss vs = rank ss vs + d * (s' * (k * v)) by
      rw [Nat.add_comm]; congr 1; simp only [Nat.mul_comm, Nat.mul_left_comm]]
    rw [Nat.add_mul_div_left _ _ h4, Nat.add_mul_mod_self_left, h6]
  | [], [], i, _, hi => by simp at hi
where
  suffix_dvd : ∀ (ss : List Nat) (i d s : Nat), (suffixProds ss)[i]? = some d → ss[i]? = some s → d * s ∣ ss.prod
    | a :: ss, 0, d, s, h1, h2 => by
      simp only [suffixProds, List.getElem?_cons_zero, Option.some.injEq] at h1 h2
      subst h1; subst h2
      rw [List.prod_cons, Nat.mul_comm]
    | a :: ss, i + 1, d, s, h1, h2 => by
      simp only [suffixProds, List.getElem?_cons_succ] at h1 h2
      rw [List.prod_cons]
      exact Nat.dvd_mul_left_of_dvd (suffix_dvd ss i d s h1 h2) a
    | [], i, d, s, h1, _ => by simp [suffixProds] at h1

theorem pos_of_in : ∀ (sizes vs : List Nat), InSizes sizes vs → ∀ s ∈ sizes, 0 < s
  | [], [], _, s, hs => by simp at hs
  | a :: ss, v :: vs, h, s, hs => by
    rcases List.mem_cons.1 hs with rfl | hs
    · have := h.1; omega
    · exact pos_of_in ss vs h.2 s hs

/-- **C35**: unpacking returns the components of the packed tuple. -/
theorem C35_decode_rank (sizes vs : List Nat) (h : InSizes sizes vs) (hW : sizes.prod < W64) :
    ∃ c, Codec.new sizes = some c ∧ c.totalValues = sizes.prod ∧
      ∀ i, i < sizes.length → c.decode (rank sizes vs) i = vs[i]? := by
  have hpos : ∀ s ∈ sizes, 0 < s := pos_of_in sizes vs h
  refine ⟨_, codec_new sizes hpos hW, rfl, fun i hi => ?_⟩
  obtain ⟨d, s, v, h1, h2, h3, h4, h5, h6⟩ := rank_digit sizes vs i h hi
  simp only [Codec.decode, List.getElem?_cons_succ, h1, h2]
  rw [if_neg (by omega), h6, h3]

theorem seqEncodeFrom_eq : ∀ (sizes vs : List Nat) (acc : Nat), InSizes sizes vs → sizes.prod < W32' →
    acc + rank sizes vs < W64 → seqEncodeFrom sizes sizes.prod acc vs = some (acc + rank sizes vs)
  | [], [], acc, _, _, _ => by simp [seqEncodeFrom, rank]
  | s :: ss, v :: vs, acc, h, hW, hA => by
    have hs : 0 < s := by have := h.1; omega
    have hlt := rank_lt (s :: ss) (v :: vs) h
    have hss : ss.prod < W32' := by
      have : ss.prod ≤ s * ss.prod := Nat.le_mul_of_pos_left _ hs
      rw [List.prod_cons] at hW; omega
    simp only [rank] at hlt hA ⊢
    simp only [seqEncodeFrom]
    rw [if_neg (by omega), List.prod_cons, Nat.mul_div_cancel_left _ hs,
      Nat.mul_comm ss.prod v, Nat.mod_eq_of_lt (a := v * ss.prod) (by omega),
      Nat.mod_eq_of_lt (by omega), seqEncodeFrom_eq ss vs _ h.2 hss (by omega), Nat.add_assoc]

theorem seqDecode_eq (sizes : List Nat) (hpos : ∀ s ∈ sizes, 0 < s) (e : Nat) :
    ∃ l, seqDecode e sizes.prod sizes = some l ∧ l.length = sizes.length ∧
      ∀ i, i < sizes.length → ∃ d s, (suffixProds sizes)[i]? = some d ∧ sizes[i]? = some s ∧ l[i]? = some (e / d % s) := by
  induction sizes with
  | nil => exact ⟨[], rfl, rfl, by simp⟩
  | cons s ss ih =>
    have hs : 0 < s := hpos s (by simp)
    have hp : 0 < ss.prod := inSizes_pos ss fun t ht => hpos t (by simp [ht])
    obtain ⟨l, h1, h2, h3⟩ := ih fun t ht => hpos t (by simp [ht])
    simp only [seqDecode, List.prod_cons, Nat.mul_div_cancel_left _ hs]
    rw [if_neg (by omega), h1]
    refine ⟨_, rfl, by simp [h2], fun i hi => ?_⟩
    cases i with
    | zero => exact ⟨ss.prod, s, rfl, rfl, rfl⟩
    | succ i =>
      obtain ⟨d, s', g1, g2, g3⟩ := h3 i (by simpa using hi)
      exact ⟨d, s', g1, g2, g3⟩

theorem inSizes_length : ∀ (sizes vs : List Nat), InSizes sizes vs → vs.length = sizes.length
  | [], [], _ => rfl
  | _ :: ss, _ :: vs, h => by simp [inSizes_length ss vs h.2]

/-- **C35** (the packing used): a tuple of colours is packed to its number in the lexicographic order,
which is below the size of the type; both ways of unpacking return the tuple. -/
theorem C35_round_trip (sizes vs : List Nat) (h : InSizes sizes vs) (hW : sizes.prod < W32') :
    ∃ e c, seqEncode sizes vs = some e ∧ e < sizes.prod ∧ Codec.new sizes = some c ∧
      (∀ i, i < sizes.length → c.decode e i = vs[i]?) ∧ seqDecode e (seqTotal sizes) sizes = some vs := by
  have hpos := pos_of_in sizes vs h
  have hW' : sizes.prod < W64 := by unfold W64; unfold W32' at hW; omega
  have hlt := rank_lt sizes vs h
  have ht : seqTotal sizes = sizes.prod := by
    have := total_eq W32' sizes hpos 1 (by omega) (by simpa using hW)
    simpa [seqTotal] using this
  obtain ⟨c, hc, _, hd⟩ := C35_decode_rank sizes vs h hW'
  refine ⟨rank sizes vs, c, ?_, hlt, hc, hd, ?_⟩
  · unfold seqEncode
    rw [ht, seqEncodeFrom_eq sizes vs 0 h hW (by omega), Nat.zero_add]
  · rw [ht]
    obtain ⟨l, h1, h2, h3⟩ := seqDecode_eq sizes hpos (rank sizes vs)
    rw [h1]
    congr 1
    refine List.ext_getElem? fun i => ?_
    by_cases hi : i < sizes.length
    · obtain ⟨d, s, g1, g2, g3⟩ := h3 i hi
      obtain ⟨d', s', v, k1, k2, k3, _, _, k6⟩ := rank_digit sizes vs i h hi
      rw [g1] at k1; rw [g2] at k2
      cases k1; cases k2
      rw [g3, k3, k6]
    · rw [List.getElem?_eq_none (by omega), List.getElem?_eq_none (by rw [inSizes_length sizes vs h]; omega)]

/-- **C35**: distinct tuples are packed to distinct numbers. -/
theorem C35_injective (sizes vs ws : List Nat) (hv : InSizes sizes vs) (hw : InSizes sizes ws)
    (hW : sizes.prod < W32') (he : seqEncode sizes vs = seqEncode sizes ws) : vs = ws := by
  obtain ⟨e, _, h1, _, _, _, h2⟩ := C35_round_trip sizes vs hv hW
  obtain ⟨e', _, h3, _, _, _, h4⟩ := C35_round_trip sizes ws hw hW
  rw [h1, h3] at he
  cases he
  rw [h2] at h4
  exact Option.some.inj h4

/-- **C35**: every number below the size of the type is the packing of a tuple. -/
theorem C35_surjective (sizes : List Nat) (hpos : ∀ s ∈ sizes, 0 < s) (e : Nat) (he : e < sizes.prod) :
    ∃ vs, InSizes sizes vs ∧ rank sizes vs = e := by
  induction sizes generalizing e with
  | nil => exact ⟨[], trivial, by simp [rank] at he ⊢; omega⟩
  | cons s ss ih =>
    have hp : 0 < ss.prod := inSizes_pos ss fun t ht => hpos t (by simp [ht])
    obtain ⟨vs, h1, h2⟩ := ih (fun t ht => hpos t (by simp [ht])) (e % ss.prod) (Nat.mod_lt _ hp)
    rw [List.prod_cons] at he
    refine ⟨e / ss.prod :: vs, ⟨(Nat.div_lt_iff_lt_mul hp).2 he, h1⟩, ?_⟩
    simp only [rank, h2]
    rw [Nat.mul_comm]
    exact Nat.div_add_mod e ss.prod

theorem encodeFrom_eq : ∀ (vs : List Nat) (c : Codec) (i cur : Nat) (ss : List Nat), InSizes ss vs →
    c.decodeValues.drop i = ss.prod :: suffixProds ss → c.valueSizes.drop i = ss → cur + rank ss vs < W64 →
    c.encodeFrom i cur vs = some (cur + rank ss vs)
  | [], c, i, cur, [], _, _, _, _ => by simp [Codec.encodeFrom, rank]
  | v :: vs, c, i, cur, s :: ss, h, hd, hv, hW => by
    have hs : 0 < s := by have := h.1; omega
    have d0 : c.decodeValues[i]? = some ((s :: ss).prod) := by
      have := congrArg List.head? hd; rwa [List.head?_drop] at this
    have v0 : c.valueSizes[i]? = some s := by
      have := congrArg List.head? hv; rwa [List.head?_drop] at this
    have d1 : c.decodeValues.drop (i + 1) = ss.prod :: suffixProds ss := by
      have := congrArg List.tail hd; rw [List.tail_drop] at this; simpa [suffixProds] using this
    have v1 : c.valueSizes.drop (i + 1) = ss := by
      have := congrArg List.tail hv; rwa [List.tail_drop] at this
    simp only [rank] at hW ⊢
    simp only [Codec.encodeFrom, Codec.addToValue, d0, v0]
    rw [if_neg (by omega), List.prod_cons, Nat.mul_div_cancel_left _ hs, Nat.mul_comm ss.prod v,
      Nat.mod_eq_of_lt (by omega)]
    simp only
    rw [encodeFrom_eq vs c (i + 1) _ ss h.2 d1 v1 (by omega), Nat.add_assoc]

/-- **C35**: packing with `addToValue` gives the same numbers. -/
theorem C35_addToValue (sizes vs : List Nat) (h : InSizes sizes vs) (hW : sizes.prod < W64) :
    ∃ c, Codec.new sizes = some c ∧ c.encode vs = some (rank sizes vs) := by
  have hpos := pos_of_in sizes vs h
  have hlt := rank_lt sizes vs h
  refine ⟨_, codec_new sizes hpos hW, ?_⟩
  unfold Codec.encode
  rw [encodeFrom_eq vs _ 0 0 sizes h rfl rfl (by omega), Nat.zero_add]

/-- Finding: colour products of 2^32 or more are packed with wrapping arithmetic: with two components
of size 65536 the total wraps to 0, and all tuples are packed to 0. -/
theorem C35_finding_wraps (a b : Nat) : seqEncode [65536, 65536] [a, b] = some 0 := by
  simp [seqEncode, seqTotal, seqEncodeFrom, W32', W64]

/-- Finding: a codec whose sizes multiply to a multiple of 2^64 divides by zero when unpacking. -/
theorem C35_finding_division_by_zero (e : Nat) :
    (Codec.new [2 ^ 32 - 1, 2 ^ 31, 2 ^ 31, 4]).bind (fun c => c.decode e 3) = none := by
  have : Codec.new [2 ^ 32 - 1, 2 ^ 31, 2 ^ 31, 4] = some ⟨[0, 0, 0, 0, 0], [2 ^ 32 - 1, 2 ^ 31, 2 ^ 31, 4], 0⟩ := by
    simp [Codec.new, codecIntervals, W64]
  rw [this]
  simp [Codec.decode]

example : InSizes [3, 4, 2] [2, 1, 1] ∧ seqEncode [3, 4, 2] [2, 1, 1] = some 19 := ⟨by simp [InSizes], by decide⟩

end OffsetsProps
end Verif
