import Verif.XCol.Encoder
import Verif.XCol.MSLemmas

/-!
# Lemmas on the encoding of markings
-/

namespace Verif
namespace XCol

theorem typeSize_cases (n : Nat) : typeSize n = 1 ∨ typeSize n = 2 ∨ typeSize n = 4 := by
  unfold typeSize
  simp only
  generalize (if n = 0 then 1 else Nat.log2 n + 1) = b
  split
  · exact Or.inl rfl
  · split
    · exact Or.inr (Or.inl rfl)
    · exact Or.inr (Or.inr rfl)

theorem typeSize_fits {n : Nat} (h : n < 2 ^ 32) : n < 256 ^ typeSize n := by
  unfold typeSize
  simp only
  by_cases h0 : n = 0
  · subst h0; decide
  · rw [if_neg h0]
    split
    · rename_i hb
      have := (Nat.log2_lt h0 (k := 8)).1 (by omega)
      omega
    · split
      · rename_i hb
        have := (Nat.log2_lt h0 (k := 16)).1 (by omega)
        omega
      · omega

@[simp] theorem bytes_length (w n : Nat) : (bytes w n).length = w := by
  induction w generalizing n with
  | zero => rfl
  | succ w ih => simp [bytes, ih]

@[simp] theorem bytesI_length (w : Nat) (k : Int) : (bytesI w k).length = w := bytes_length _ _

theorem leNat_bytes (w n : Nat) : leNat (bytes w n) = n % 256 ^ w := by
  induction w generalizing n with
  | zero => simp [bytes, leNat, Nat.mod_one]
  | succ w ih =>
    rw [bytes, leNat, ih, Nat.pow_succ, Nat.mul_comm (256 ^ w), Nat.mod_mul]

theorem readN_ok {pre rest : List Nat} {w n : Nat} (hw : w = 1 ∨ w = 2 ∨ w = 4) (hn : n < 256 ^ w) (hl : pre.length + w ≤ maxLen) :
    readN (pre ++ (bytes w n ++ rest)) w pre.length = some (n, pre.length + w) := by
  unfold readN
  rw [if_neg (by omega), if_pos hw, if_pos (by simp)]
  rw [List.drop_left, List.take_append_of_le_length (by simp), List.take_of_length_le (by simp), leNat_bytes, Nat.mod_eq_of_lt hn]

theorem readN_okI {pre rest : List Nat} {w n : Nat} (hw : w = 1 ∨ w = 2 ∨ w = 4) (hn : n < 256 ^ w) (h32 : n < 2 ^ 32) (hl : pre.length + w ≤ maxLen) :
    readN (pre ++ (bytesI w n ++ rest)) w pre.length = some (n, pre.length + w) := by
  have : bytesI w (n : Int) = bytes w n := by
    unfold bytesI
    congr 1
    omega
  rw [this]
  exact readN_ok hw hn hl

/-- Setting a colour above all others appends it. -/
theorem put_append {l : List (Nat × Int)} {c : Nat} {k : Int} (h : ∀ e ∈ l, e.1 < c) : put c k l = l ++ [(c, k)] := by
  induction l with
  | nil => rfl
  | cons e l ih =>
    obtain ⟨d, m⟩ := e
    have hd : d < c := h (d, m) (by simp)
    rw [put, if_pos hd, ih fun e he => h e (by simp [he]), List.cons_append]

theorem sumL_append (a b : List (Nat × Int)) : sumL (a ++ b) = sumL a + sumL b := by
  induction a with
  | nil => simp [sumL]
  | cons e a ih => obtain ⟨c, k⟩ := e; rw [List.cons_append, sumL_cons, sumL_cons, ih]; omega

/-- the multiset with the given entries -/
def msOf (l : List (Nat × Int)) : MS := ⟨l, sumL l⟩

theorem setCount_append {l : List (Nat × Int)} {c : Nat} {k : Int} (h : ∀ e ∈ l, e.1 < c) :
    (msOf l).setCount c k = msOf (l ++ [(c, k)]) := by
  unfold MS.setCount msOf
  simp only
  rw [put_append h, valL_not_mem (l := l) (fun e he => by have := h e he; omega), sumL_append]
  congr 1
  simp [sumL]

theorem tcLoop_nil (w n c : Nat) : tcLoop w (n + 1) c [] = bytesI w 0 ++ tcLoop w n (c + 1) [] := rfl

/-- The loop for token counts reads back what was written. -/
theorem decTC_ok {w : Nat} (hw : w = 1 ∨ w = 2 ∨ w = 4) (n : Nat) : ∀ (c : Nat) (done es : List (Nat × Int)) (pre rest : List Nat),
    (∀ e ∈ done, e.1 < c) → Sorted es → (∀ e ∈ es, c ≤ e.1 ∧ e.1 < c + n) → (∀ e ∈ es, 0 < e.2 ∧ e.2 < 2 ^ 32 ∧ e.2.toNat < 256 ^ w) →
    pre.length + (tcLoop w n c es).length ≤ maxLen →
    decTC (pre ++ (tcLoop w n c es ++ rest)) w n c pre.length (msOf done) = some (msOf (done ++ es), pre.length + (tcLoop w n c es).length) := by
  induction n with
  | zero =>
    intro c done es pre rest _ _ hr _ _
    have : es = [] := by
      cases es with
      | nil => rfl
      | cons e es => have := hr e (by simp); omega
    subst this
    simp [tcLoop, decTC]
  | succ n ih =>
    intro c done es pre rest hd hs hr hv hl
    rw [decTC]
    cases es with
    | nil =>
      rw [tcLoop_nil] at hl ⊢
      rw [List.append_assoc]
      simp only [List.length_append, bytesI_length] at hl
      have hz : bytesI w 0 = bytesI w ((0 : Nat) : Int) := rfl
      rw [hz, readN_okI hw (Nat.pow_pos (by omega)) (by omega) (by omega)]
      simp only [gt_iff_lt, Nat.lt_irrefl, if_false]
      have := ih (c + 1) done [] (pre ++ bytesI w ((0 : Nat) : Int)) rest (fun e he => by have := hd e he; omega) List.Pairwise.nil (by simp) (by simp)
        (by simp only [List.length_append, bytesI_length]; omega)
      simp only [List.length_append, bytesI_length, List.append_assoc] at this ⊢
      rw [this]
      simp; omega
    | cons e es =>
      obtain ⟨d, k⟩ := e
      have hr0 := hr (d, k) (by simp)
      have hv0 := hv (d, k) (by simp)
      simp only at hr0 hv0
      by_cases hdc : d = c
      · subst hdc
        rw [tcLoop, if_pos rfl] at hl ⊢
        rw [List.append_assoc]
        simp only [List.length_append, bytesI_length] at hl
        have hk : bytesI w k = bytesI w ((k.toNat : Nat) : Int) := by congr 1; omega
        rw [hk, readN_okI hw hv0.2.2 (by omega) (by omega)]
        simp only
        rw [if_pos (by omega), setCount_append hd]
        have := ih (d + 1) (done ++ [(d, (k.toNat : Int))]) es (pre ++ bytesI w ((k.toNat : Nat) : Int)) rest
          (by
            intro e he
            rcases List.mem_append.1 he with he | he
            · have := hd e he; omega
            · simp only [List.mem_singleton] at he; rw [he]; simp only; omega)
          hs.tail
          (fun e he => by
            have h1 := (List.pairwise_cons.1 hs).1 e he
            have h2 := hr e (by simp [he])
            simp only at h1; omega)
          (fun e he => hv e (by simp [he]))
          (by simp only [List.length_append, bytesI_length]; omega)
        simp only [List.length_append, bytesI_length, List.append_assoc] at this ⊢
        rw [this]
        have hk' : (k.toNat : Int) = k := by omega
        rw [hk']
        simp; omega
      · rw [tcLoop, if_neg hdc] at hl ⊢
        rw [List.append_assoc]
        simp only [List.length_append, bytesI_length] at hl
        have hz : bytesI w 0 = bytesI w ((0 : Nat) : Int) := rfl
        rw [hz, readN_okI hw (Nat.pow_pos (by omega)) (by omega) (by omega)]
        simp only [gt_iff_lt, Nat.lt_irrefl, if_false]
        have := ih (c + 1) done ((d, k) :: es) (pre ++ bytesI w ((0 : Nat) : Int)) rest (fun e he => by have := hd e he; omega) hs
          (fun e he => by
            have h2 := hr e he
            rcases List.mem_cons.1 he with he | he
            · rw [he]; simp only; omega
            · have h1 := (List.pairwise_cons.1 hs).1 e he
              simp only at h1; omega)
          hv
          (by simp only [List.length_append, bytesI_length]; omega)
        simp only [List.length_append, bytesI_length, List.append_assoc] at this ⊢
        rw [this]
        simp; omega

/-- The loop for pairs reads back what was written. -/
theorem decPTC_ok {cw w : Nat} (hcw : cw = 1 ∨ cw = 2 ∨ cw = 4) (hw : w = 1 ∨ w = 2 ∨ w = 4) : ∀ (es done : List (Nat × Int)) (pre rest : List Nat),
    Sorted (done ++ es) → (∀ e ∈ es, e.1 < 256 ^ cw ∧ 0 < e.2 ∧ e.2 < 2 ^ 32 ∧ e.2.toNat < 256 ^ w) →
    pre.length + (es.flatMap fun e => bytes cw e.1 ++ bytesI w e.2).length ≤ maxLen →
    decPTC (pre ++ ((es.flatMap fun e => bytes cw e.1 ++ bytesI w e.2) ++ rest)) cw w es.length pre.length (msOf done) =
      some (msOf (done ++ es), pre.length + (es.flatMap fun e => bytes cw e.1 ++ bytesI w e.2).length) := by
  intro es
  induction es with
  | nil => intro done pre rest _ _ _; simp [decPTC]
  | cons e es ih =>
    intro done pre rest hs hv hl
    obtain ⟨c, k⟩ := e
    have hv0 := hv (c, k) (by simp)
    simp only at hv0
    rw [List.flatMap_cons] at hl ⊢
    simp only [List.length_append, bytes_length, bytesI_length] at hl
    simp only [List.length_cons, decPTC, List.append_assoc]
    rw [readN_ok hcw hv0.1 (by omega)]
    simp only
    have hk : bytesI w k = bytesI w ((k.toNat : Nat) : Int) := by congr 1; omega
    have h1 := readN_okI (pre := pre ++ bytes cw c) (rest := (es.flatMap fun e => bytes cw e.1 ++ bytesI w e.2) ++ rest) hw hv0.2.2.2 (by omega)
      (by simp only [List.length_append, bytes_length]; omega)
    simp only [List.length_append, bytes_length, List.append_assoc] at h1
    rw [hk, h1]
    simp only
    have hd : ∀ e ∈ done, e.1 < c := by
      intro e he
      exact (List.pairwise_append.1 hs).2.2 e he (c, k) (by simp)
    rw [if_pos (by omega), setCount_append hd]
    have := ih (done ++ [(c, (k.toNat : Int))]) (pre ++ (bytes cw c ++ bytesI w ((k.toNat : Nat) : Int))) rest
      (by
        have hk' : (k.toNat : Int) = k := by omega
        rw [hk']; simpa using hs)
      (fun e he => hv e (by simp [he]))
      (by simp only [List.length_append, bytes_length, bytesI_length]; omega)
    simp only [List.length_append, bytes_length, bytesI_length, List.append_assoc] at this ⊢
    rw [show pre.length + cw + w = pre.length + (cw + w) by omega, this]
    have hk' : (k.toNat : Int) = k := by omega
    rw [hk']
    simp; omega

/-- A multiset that the encoder can hold: shrunk, colours of the type, numbers of 32 bits. -/
structure Enc (size : Nat) (m : MS) : Prop where
  wf : m.WF
  pos : ∀ e ∈ m.counts, 0 < e.2
  color : ∀ e ∈ m.counts, e.1 < size
  small : ∀ e ∈ m.counts, e.2 < 2 ^ 32

theorem Enc.msOf {size : Nat} {m : MS} (h : Enc size m) : msOf m.counts = m := by
  cases m; unfold XCol.msOf; simp only [MS.mk.injEq, true_and]; exact h.wf.card.symm

theorem Enc.width {size : Nat} {m : MS} (h : Enc size m) : ∀ e ∈ m.counts, e.2.toNat < 256 ^ typeSize m.highest.toNat := by
  intro e he
  obtain ⟨h1, h2, h3⟩ := highestL_spec m.counts 0
  have hle := h2 e he
  have hlt : m.highest.toNat < 2 ^ 32 := by
    rcases h3 with h3 | ⟨x, hx, h3⟩
    · unfold MS.highest; rw [h3]; decide
    · have := h.small x hx
      unfold MS.highest; omega
  have := typeSize_fits hlt
  unfold MS.highest at this ⊢
  omega

theorem filter_pos {l : List (Nat × Int)} (h : ∀ e ∈ l, 0 < e.2) : (l.filter fun e => decide (e.2 ≠ 0)) = l := by
  apply List.filter_eq_self.2
  intro e he
  have := h e he
  simp only [ne_eq, decide_not, Bool.not_eq_true', decide_eq_false_iff_not]
  omega

theorem sorted_length {l : List (Nat × Int)} {n : Nat} : ∀ c, Sorted l → (∀ e ∈ l, c ≤ e.1 ∧ e.1 < c + n) → l.length ≤ n := by
  induction n generalizing l with
  | zero =>
    intro c _ h
    cases l with
    | nil => simp
    | cons e l => have := h e (by simp); omega
  | succ n ih =>
    intro c hs h
    cases l with
    | nil => simp
    | cons e l =>
      have := ih (l := l) (c + 1) hs.tail (fun x hx => by
        have h1 := (List.pairwise_cons.1 hs).1 x hx
        have h2 := h x (by simp [hx])
        have h3 := h e (by simp)
        omega)
      simp only [List.length_cons]; omega

theorem decPlace_ok {size : Nat} {m : MS} (h : Enc size m) (hsz : size < 2 ^ 32) (pre rest : List Nat)
    (hl : pre.length + (placeBytes size m).length ≤ maxLen) :
    decPlace (pre ++ (placeBytes size m ++ rest)) size pre.length = some (m, pre.length + (placeBytes size m).length) := by
  have hT : encType m size = 0 ∨ encType m size = 1 ∨ encType m size = 2 := by
    unfold encType
    split
    · simp
    · split <;> simp
  have hw := typeSize_cases m.highest.toNat
  have hcw := typeSize_cases size
  unfold decPlace
  unfold placeBytes at hl ⊢
  rcases hT with hT | hT | hT
  · rw [hT] at hl ⊢
    rw [if_pos rfl] at hl ⊢
    unfold writeTC at hl ⊢
    simp only [List.length_append, bytes_length] at hl
    rw [List.append_assoc, readN_ok (Or.inl rfl) (by omega) (by omega)]
    simp only
    rw [if_neg (by omega), if_pos trivial]
    have h1 := readN_ok (pre := pre ++ bytes 1 0) (rest := tcLoop (typeSize m.highest.toNat) size 0 m.counts ++ rest) (w := 1)
      (n := typeSize m.highest.toNat) (Or.inl rfl) (by omega) (by simp only [List.length_append, bytes_length]; omega)
    simp only [List.length_append, bytes_length, List.append_assoc] at h1 ⊢
    rw [h1]
    simp only
    have h2 := decTC_ok hw size 0 [] m.counts (pre ++ (bytes 1 0 ++ bytes 1 (typeSize m.highest.toNat))) rest (by simp) h.wf.sorted
      (fun e he => ⟨by omega, by have := h.color e he; omega⟩)
      (fun e he => ⟨h.pos e he, h.small e he, h.width e he⟩)
      (by simp only [List.length_append, bytes_length]; omega)
    simp only [List.length_append, bytes_length, List.append_assoc, List.nil_append] at h2
    have hE : MS.empty = XCol.msOf [] := rfl
    rw [hE, show pre.length + 1 + 1 = pre.length + (1 + 1) by omega, h2, h.msOf]
    simp; omega
  · rw [hT] at hl ⊢
    rw [if_neg (by omega), if_pos rfl] at hl ⊢
    unfold writePTC at hl ⊢
    simp only [filter_pos h.pos, List.length_append, bytes_length] at hl ⊢
    rw [List.append_assoc, readN_ok (Or.inl rfl) (by omega) (by omega)]
    simp only
    rw [if_pos trivial]
    have hlen : m.counts.length ≤ size := sorted_length 0 h.wf.sorted fun e he => ⟨by omega, by have := h.color e he; omega⟩
    have hsz' := typeSize_fits hsz
    have h1 := readN_ok (pre := pre ++ bytes 1 1)
      (rest := bytes 1 (typeSize m.highest.toNat) ++ ((m.counts.flatMap fun e => bytes (typeSize size) e.1 ++ bytesI (typeSize m.highest.toNat) e.2) ++ rest))
      (n := m.counts.length) hcw (by omega) (by simp only [List.length_append, bytes_length]; omega)
    simp only [List.length_append, bytes_length, List.append_assoc] at h1 ⊢
    rw [h1]
    simp only
    have h2 := readN_ok (pre := pre ++ (bytes 1 1 ++ bytes (typeSize size) m.counts.length))
      (rest := (m.counts.flatMap fun e => bytes (typeSize size) e.1 ++ bytesI (typeSize m.highest.toNat) e.2) ++ rest) (w := 1)
      (n := typeSize m.highest.toNat) (Or.inl rfl) (by omega) (by simp only [List.length_append, bytes_length]; omega)
    simp only [List.length_append, bytes_length, List.append_assoc] at h2
    rw [show pre.length + 1 + typeSize size = pre.length + (1 + typeSize size) by omega, h2]
    simp only
    have h3 := decPTC_ok hcw hw m.counts [] (pre ++ (bytes 1 1 ++ (bytes (typeSize size) m.counts.length ++ bytes 1 (typeSize m.highest.toNat)))) rest
      (by simpa using h.wf.sorted)
      (fun e he => ⟨by have := h.color e he; omega, h.pos e he, h.small e he, h.width e he⟩)
      (by simp only [List.length_append, bytes_length]; omega)
    simp only [List.length_append, bytes_length, List.append_assoc, List.nil_append] at h3
    have hE : MS.empty = XCol.msOf [] := rfl
    rw [hE, show pre.length + (1 + typeSize size) + 1 = pre.length + (1 + (typeSize size + 1)) by omega, h3, h.msOf]
    simp; omega
  · have hc : m.counts = [] := by
      unfold encType at hT
      split at hT
      · rename_i hz; exact List.length_eq_zero_iff.1 hz
      · split at hT <;> omega
    rw [hT] at hl ⊢
    rw [if_neg (by omega), if_neg (by omega)] at hl ⊢
    simp only [List.length_append, bytes_length, List.length_nil] at hl
    rw [List.append_assoc, readN_ok (Or.inl rfl) (by omega) (by omega)]
    simp only
    rw [if_neg (by omega), if_neg (by omega), if_pos trivial]
    have hm := h.msOf
    rw [hc] at hm
    have hE : MS.empty = XCol.msOf [] := rfl
    rw [hE, hm]
    simp

/-- A marking the encoder can hold. -/
inductive EncAll : List Nat → List MS → Prop
  | nil : EncAll [] []
  | cons {size : Nat} {m : MS} {sizes : List Nat} {ms : List MS} : size < 2 ^ 32 → Enc size m → EncAll sizes ms → EncAll (size :: sizes) (m :: ms)

theorem decAll_ok {sizes : List Nat} {ms : List MS} (h : EncAll sizes ms) : ∀ (pre : List Nat),
    pre.length + (allBytes sizes ms).length ≤ maxLen → decAll (pre ++ allBytes sizes ms) sizes pre.length = some ms := by
  induction h with
  | nil => intro pre _; rfl
  | @cons size m sizes ms hsz h1 h2 ih =>
    intro pre hl
    rw [allBytes] at hl ⊢
    simp only [List.length_append] at hl
    rw [decAll, decPlace_ok h1 hsz pre (allBytes sizes ms) (by omega)]
    simp only
    have := ih (pre ++ placeBytes size m) (by simp only [List.length_append]; omega)
    simp only [List.length_append, List.append_assoc] at this
    rw [this]

end XCol
end Verif
