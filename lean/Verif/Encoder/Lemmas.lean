import Verif.Encoder.Model
import Mathlib.Data.Nat.Bitwise
import Mathlib.Tactic.IntervalCases
import Mathlib.Tactic.Ring
import Mathlib.Tactic.Linarith

/-! # Lemmas about the marking compression -/

namespace Verif
namespace Encoder

/-! ### Loops -/

theorem foldlM_range {σ : Type} (f : σ → Nat → Option σ) (P : Nat → σ → Prop) (n : Nat) (s0 : σ)
    (h0 : P 0 s0) (hs : ∀ i s, i < n → P i s → ∃ s', f s i = some s' ∧ P (i + 1) s') :
    ∃ s', (List.range n).foldlM f s0 = some s' ∧ P n s' := by
  induction n with
  | zero => exact ⟨s0, rfl, h0⟩
  | succ n ih =>
    obtain ⟨s', h1, h2⟩ := ih (fun i s hi => hs i s (by omega))
    obtain ⟨s'', h3, h4⟩ := hs n s' (by omega) h2
    refine ⟨s'', ?_, h4⟩
    rw [List.range_succ, List.foldlM_append, h1]
    simp [h3]

theorem foldl_range {σ : Type} (f : σ → Nat → σ) (P : Nat → σ → Prop) (n : Nat) (s0 : σ)
    (h0 : P 0 s0) (hs : ∀ i s, i < n → P i s → P (i + 1) (f s i)) :
    P n ((List.range n).foldl f s0) := by
  induction n with
  | zero => exact h0
  | succ n ih =>
    rw [List.range_succ, List.foldl_append]
    exact hs n _ (by omega) (ih (fun i s hi => hs i s (by omega)))

/-! ### Bytes and bits -/

theorem write_eq {b : Pad} {i : Nat} (h : i < b.size) (v : Nat) :
    b.write i v = some ⟨b.size, upd b.raw i (v % 256)⟩ := by
  unfold Pad.write; rw [if_pos h]

/-- bit `i` of a memory block. -/
def bit (raw : Nat → Nat) (i : Nat) : Bool := (raw (i / 8)).testBit (7 - i % 8)

theorem mask_eq {i : Nat} (h : i < 8) : Pad.mask i = 2 ^ (7 - i) := by
  interval_cases i <;> rfl

theorem and_pow (x k : Nat) : ((x &&& 2 ^ k) != 0) = x.testBit k := by
  rw [Nat.and_two_pow]
  cases h : x.testBit k
  · simp
  · simp

theorem at'_eq (raw : Nat → Nat) (off n place : Nat) (h : place < n) :
    at' raw off (wrapBytes n) place = bit raw (place + off * 8) := by
  unfold at' bit wrapBytes
  have h1 : place / 8 < n / 8 + if n % 8 = 0 then 0 else 1 := by
    split <;> omega
  rw [if_pos h1, mask_eq (Nat.mod_lt _ (by omega)), and_pow]
  have e1 : (place + off * 8) / 8 = off + place / 8 := by omega
  have e2 : (place + off * 8) % 8 = place % 8 := by omega
  rw [e1, e2]

theorem set_spec (b : Pad) (place : Nat) (v : Bool) (h : place / 8 < b.size) :
    ∃ b', b.set place v = some b' ∧ b'.size = b.size ∧
      (∀ i, bit b'.raw i = if i = place then v else bit b.raw i) ∧
      (∀ j, j ≠ place / 8 → b'.raw j = b.raw j) := by
  have hm : place % 8 < 8 := Nat.mod_lt _ (by omega)
  refine ⟨⟨b.size, upd b.raw (place / 8) ((if v then b.raw (place / 8) ||| Pad.mask (place % 8)
    else b.raw (place / 8) &&& (255 - Pad.mask (place % 8))) % 256)⟩, ?_, rfl, ?_, ?_⟩
  · unfold Pad.set
    cases v
    · simp only [Bool.false_eq_true, if_false]; rw [write_eq h]
    · simp only [if_true]; rw [write_eq h]
  · intro i
    have hi : i % 8 < 8 := Nat.mod_lt _ (by omega)
    unfold bit
    simp only [upd]
    by_cases hb : i / 8 = place / 8
    · rw [if_pos hb, hb, show (256 : Nat) = 2 ^ 8 from rfl, Nat.testBit_mod_two_pow, mask_eq hm]
      have h8 : 7 - i % 8 < 8 := by omega
      have hpow : 2 ^ (7 - place % 8) < 2 ^ 8 := Nat.pow_lt_pow_right (by omega) (by omega)
      cases v
      · simp only [Bool.false_eq_true, if_false, Nat.testBit_and]
        rw [show (255 : Nat) - 2 ^ (7 - place % 8) = 2 ^ 8 - (2 ^ (7 - place % 8) + 1) by omega,
          Nat.testBit_two_pow_sub_succ hpow, Nat.testBit_two_pow]
        by_cases he : i = place
        · subst he; simp
        · rw [if_neg he]
          have : ¬ (7 - place % 8 = 7 - i % 8) := by omega
          simp [h8, this]
      · simp only [if_true, Nat.testBit_or, Nat.testBit_two_pow]
        by_cases he : i = place
        · subst he; simp [h8]
        · rw [if_neg he]
          have : ¬ (7 - place % 8 = 7 - i % 8) := by omega
          simp [h8, this]
    · rw [if_neg hb, if_neg (fun e => hb (by rw [e]))]
  · intro j hj
    simp only [upd, if_neg hj]

theorem writeLE_spec (s : Nat) : ∀ (b : Pad) (off v : Nat), off + s ≤ b.size →
    ∃ b', b.writeLE off s v = some b' ∧ b'.size = b.size ∧
      readLE b'.raw off s = v % 256 ^ s ∧
      (∀ j, (j < off ∨ off + s ≤ j) → b'.raw j = b.raw j) := by
  induction s with
  | zero => intro b off v _; exact ⟨b, rfl, rfl, by simp [readLE, Nat.mod_one], fun _ _ => rfl⟩
  | succ s ih =>
    intro b off v h
    obtain ⟨b', h1, h2, h3, h4⟩ := ih ⟨b.size, upd b.raw off (v % 256 % 256)⟩ (off + 1) (v / 256)
      (by simp only; omega)
    refine ⟨b', ?_, h2, ?_, ?_⟩
    · simp only [Pad.writeLE]
      rw [write_eq (by omega)]
      exact h1
    · rw [readLE, h3, h4 off (.inl (by omega))]
      simp only [upd, if_true]
      rw [Nat.pow_succ, Nat.mul_comm (256 ^ s) 256, Nat.mod_mul]
      simp
    · intro j hj
      rw [h4 j (by omega)]
      simp only [upd]
      rw [if_neg (by omega)]

theorem readLE_congr (s : Nat) : ∀ (raw raw' : Nat → Nat) (off : Nat),
    (∀ j, off ≤ j → j < off + s → raw j = raw' j) → readLE raw off s = readLE raw' off s := by
  induction s with
  | zero => intros; rfl
  | succ s ih =>
    intro raw raw' off h
    rw [readLE, readLE, h off (by omega) (by omega), ih raw raw' (off + 1) (fun j h1 h2 => h j (by omega) (by omega))]

theorem bit_congr {raw raw' : Nat → Nat} {i : Nat} (h : raw (i / 8) = raw' (i / 8)) :
    bit raw i = bit raw' i := by unfold bit; rw [h]

/-! ### Sizes -/

theorem bytes_eq (n : Nat) : bytes n = wrapBytes n := by
  unfold bytes overhead wrapBytes; split <;> omega

theorem bytes_ge (n : Nat) : n ≤ 8 * bytes n := by
  rw [bytes_eq]; unfold wrapBytes; split <;> omega

theorem bytes_lt (n i : Nat) (h : i < n) : i / 8 < bytes n := by
  have := bytes_ge n; omega

theorem bytes_le (n : Nat) : bytes n ≤ n := by
  rw [bytes_eq]; unfold wrapBytes; split <;> omega

theorem bytes_le' (n : Nat) : bytes n ≤ n / 8 + 1 := by
  rw [bytes_eq]; unfold wrapBytes; split <;> omega

theorem psize_cases (n : Nat) : psize n = 1 ∨ psize n = 2 ∨ psize n = 4 := by
  unfold psize; split
  · simp
  · split <;> simp

theorem tokenBytes_cases (n : Nat) : tokenBytes n = 1 ∨ tokenBytes n = 2 ∨ tokenBytes n = 4 := by
  unfold tokenBytes; split
  · simp
  · split <;> simp

theorem lt_psize {n i : Nat} (h : n < W32) (hi : i ≤ n) : i < 256 ^ psize n := by
  unfold psize; unfold W32 at h
  split
  · norm_num; omega
  · split
    · norm_num; omega
    · norm_num; omega

theorem lt_tokenBytes {v w : Nat} (h : w < W32) (hi : v ≤ w) : v < 256 ^ tokenBytes w := by
  unfold tokenBytes; unfold W32 at h
  split
  · norm_num; omega
  · split
    · norm_num; omega
    · norm_num; omega

/-! ### Marked places -/

/-- The marked places below `n`, in order. -/
def nz (d : Nat → Nat) (n : Nat) : List Nat := (List.range n).filter (fun i => decide (d i > 0))

theorem nz_succ (d : Nat → Nat) (n : Nat) : nz d (n + 1) = if d n > 0 then nz d n ++ [n] else nz d n := by
  unfold nz
  rw [List.range_succ, List.filter_append]
  by_cases h : d n > 0 <;> simp [h]

theorem mem_nz {d : Nat → Nat} {n p : Nat} : p ∈ nz d n ↔ p < n ∧ d p > 0 := by
  simp [nz]

theorem nz_le (d : Nat → Nat) (n : Nat) : (nz d n).length ≤ n := by
  have := List.length_filter_le (fun i => decide (d i > 0)) (List.range n)
  simpa [nz] using this

theorem nz_prefix (d : Nat → Nat) (n k : Nat) : ∃ r, nz d (n + k) = nz d n ++ r := by
  induction k with
  | zero => exact ⟨[], by simp⟩
  | succ k ih =>
    obtain ⟨r, hr⟩ := ih
    rw [← Nat.add_assoc, nz_succ, hr]
    split
    · exact ⟨r ++ [n + k], by simp⟩
    · exact ⟨r, rfl⟩

theorem nz_at {d : Nat → Nat} {n i : Nat} (hi : i < n) (hd : d i > 0) :
    (nz d n)[(nz d i).length]? = some i := by
  obtain ⟨k, rfl⟩ : ∃ k, n = i + 1 + k := ⟨n - (i + 1), by omega⟩
  obtain ⟨r, hr⟩ := nz_prefix d (i + 1) k
  rw [hr, nz_succ, if_pos hd]
  simp

theorem nz_length_lt {d : Nat → Nat} {n i : Nat} (hi : i < n) (hd : d i > 0) :
    (nz d i).length < (nz d n).length := by
  have := nz_at hi hd
  by_contra hc
  rw [List.getElem?_eq_none (by omega)] at this; simp at this

/-! ### Writers -/

theorem writeBitVector_spec (places : Nat) (b : Pad) (off : Nat) (d : Nat → Nat)
    (h : off + bytes places ≤ b.size) :
    ∃ b', writeBitVector places b off d = some (b', off + bytes places) ∧ b'.size = b.size ∧
      (∀ i, i < places → bit b'.raw (i + off * 8) = decide (d i > 0)) ∧
      (∀ j, (j < off ∨ off + bytes places ≤ j) → b'.raw j = b.raw j) := by
  obtain ⟨b', h1, h2, h3, h4⟩ := foldlM_range
    (fun (b : Pad) i => b.set (i + off * 8) (decide (d i > 0)))
    (fun n b' => b'.size = b.size ∧ (∀ i, i < n → bit b'.raw (i + off * 8) = decide (d i > 0)) ∧
      (∀ j, (j < off ∨ off + bytes places ≤ j) → b'.raw j = b.raw j)) places b
    ⟨rfl, fun i hi => by omega, fun _ _ => rfl⟩ (by
      rintro i s hi ⟨hs1, hs2, hs3⟩
      have hlt : (i + off * 8) / 8 < off + bytes places := by have := bytes_lt places i hi; omega
      obtain ⟨s', e1, e2, e3, e4⟩ := set_spec s (i + off * 8) (decide (d i > 0)) (by omega)
      refine ⟨s', e1, by rw [e2, hs1], fun j hj => ?_, fun j hj => ?_⟩
      · rw [e3]
        by_cases hji : j = i
        · subst hji; simp
        · rw [if_neg (by omega)]; exact hs2 j (by omega)
      · rw [e4 j (by omega)]; exact hs3 j hj)
  refine ⟨b', ?_, h2, h3, h4⟩
  unfold writeBitVector
  rw [h1]; rfl

theorem bytes_lt2 (n i : Nat) (h : i < 2 * n) : i / 8 < bytes (n * 2) := by
  have := bytes_ge (n * 2); omega

theorem twoBit_spec (b : Pad) (off : Nat) (d : Nat → Nat) (i : Nat)
    (hz1 : bit b.raw (i * 2 + off * 8) = false) (hz2 : bit b.raw (i * 2 + off * 8 + 1) = false)
    (hd : d i < 4) (h : (i * 2 + off * 8) / 8 < b.size) (h' : (i * 2 + off * 8 + 1) / 8 < b.size) :
    ∃ b', twoBit b off d i = some b' ∧ b'.size = b.size ∧
      bit b'.raw (i * 2 + off * 8) = decide (d i % 2 = 1) ∧
      bit b'.raw (i * 2 + off * 8 + 1) = decide (d i ≥ 2) ∧
      (∀ j, j ≠ i * 2 + off * 8 → j ≠ i * 2 + off * 8 + 1 → bit b'.raw j = bit b.raw j) ∧
      (∀ j, j ≠ (i * 2 + off * 8) / 8 → j ≠ (i * 2 + off * 8 + 1) / 8 → b'.raw j = b.raw j) := by
  obtain ⟨b1, a1, a2, a3, a4⟩ := set_spec b (i * 2 + off * 8) true h
  obtain ⟨b2, c1, c2, c3, c4⟩ := set_spec b (i * 2 + off * 8 + 1) true h'
  obtain ⟨b3, e1, e2, e3, e4⟩ := set_spec b1 (i * 2 + off * 8 + 1) true (by rw [a2]; exact h')
  unfold twoBit
  have hc : d i = 0 ∨ d i = 1 ∨ d i = 2 ∨ d i = 3 := by omega
  rcases hc with hc | hc | hc | hc
  · simp only [hc]
    exact ⟨b, by simp, rfl, by simp [hz1], by simp [hz2], fun _ _ _ => rfl, fun _ _ _ => rfl⟩
  · simp only [hc]
    refine ⟨b1, by simp [a1], a2, by rw [a3]; simp, ?_, fun j h1 h2 => ?_, fun j h1 _ => a4 j h1⟩
    · rw [a3]; simp [hz2]
    · rw [a3, if_neg h1]
  · simp only [hc]
    refine ⟨b2, by simp [c1], c2, ?_, by rw [c3]; simp, fun j h1 h2 => ?_, fun j _ h2 => c4 j h2⟩
    · rw [c3]; simp [hz1]
    · rw [c3, if_neg h2]
  · simp only [hc]
    refine ⟨b3, by simp [a1, e1], by rw [e2, a2], ?_, by rw [e3]; simp, fun j h1 h2 => ?_, fun j h1 h2 => ?_⟩
    · rw [e3, if_neg (by omega), a3]; simp
    · rw [e3, if_neg h2, a3, if_neg h1]
    · rw [e4 j h2, a4 j h1]

theorem writeTwoBitVector_spec (places : Nat) (b : Pad) (off : Nat) (d : Nat → Nat)
    (h : off + bytes (places * 2) ≤ b.size) (hd : ∀ i, i < places → d i < 4)
    (hz : ∀ j, off ≤ j → b.raw j = 0) :
    ∃ b', writeTwoBitVector places b off d = some (b', off + bytes (places * 2)) ∧ b'.size = b.size ∧
      (∀ i, i < places → bit b'.raw (i * 2 + off * 8) = decide (d i % 2 = 1) ∧
        bit b'.raw (i * 2 + 1 + off * 8) = decide (d i ≥ 2)) ∧
      (∀ j, (j < off ∨ off + bytes (places * 2) ≤ j) → b'.raw j = b.raw j) := by
  obtain ⟨b', h1, h2, h3, _, h4⟩ := foldlM_range
    (fun (b : Pad) i => twoBit b off d i)
    (fun n b' => b'.size = b.size ∧ (∀ i, i < n → bit b'.raw (i * 2 + off * 8) = decide (d i % 2 = 1) ∧
        bit b'.raw (i * 2 + 1 + off * 8) = decide (d i ≥ 2)) ∧
      (∀ j, n * 2 + off * 8 ≤ j → bit b'.raw j = false) ∧
      (∀ j, (j < off ∨ off + bytes (places * 2) ≤ j) → b'.raw j = b.raw j)) places b
    ⟨rfl, fun i hi => by omega, fun j hj => by unfold bit; rw [hz _ (by omega)]; simp, fun _ _ => rfl⟩ (by
      rintro i s hi ⟨hs1, hs2, hs3, hs4⟩
      have l1 : (i * 2 + off * 8) / 8 < off + bytes (places * 2) := by
        have := bytes_lt2 places (i * 2) (by omega); omega
      have l2 : (i * 2 + off * 8 + 1) / 8 < off + bytes (places * 2) := by
        have := bytes_lt2 places (i * 2 + 1) (by omega); omega
      obtain ⟨s', e1, e2, e3, e4, e5, e6⟩ := twoBit_spec s off d i (hs3 _ (by omega)) (hs3 _ (by omega))
        (hd i hi) (by omega) (by omega)
      refine ⟨s', e1, by rw [e2, hs1], fun j hj => ?_, fun j hj => ?_, fun j hj => ?_⟩
      · by_cases hji : j = i
        · subst hji
          refine ⟨e3, ?_⟩
          rw [show j * 2 + 1 + off * 8 = j * 2 + off * 8 + 1 by omega]; exact e4
        · rw [e5 _ (by omega) (by omega), e5 _ (by omega) (by omega)]
          exact hs2 j (by omega)
      · rw [e5 _ (by omega) (by omega)]; exact hs3 j (by omega)
      · rw [e6 j (by omega) (by omega)]; exact hs4 j hj)
  refine ⟨b', ?_, h2, h3, h4⟩
  unfold writeTwoBitVector
  rw [h1]; rfl

theorem writeTokens_spec (places s : Nat) (b : Pad) (off : Nat) (d : Nat → Nat)
    (h : off + places * s ≤ b.size) (hd : ∀ i, i < places → d i < 256 ^ s) :
    ∃ b', writeTokens places s b off d = some (b', off + places * s) ∧ b'.size = b.size ∧
      (∀ i, i < places → readLE b'.raw (off + i * s) s = d i) ∧
      (∀ j, (j < off ∨ off + places * s ≤ j) → b'.raw j = b.raw j) := by
  obtain ⟨b', h1, h2, h3, h4⟩ := foldlM_range
    (fun (b : Pad) i => b.writeLE (off + i * s) s (d i))
    (fun n b' => b'.size = b.size ∧ (∀ i, i < n → readLE b'.raw (off + i * s) s = d i) ∧
      (∀ j, (j < off ∨ off + places * s ≤ j) → b'.raw j = b.raw j)) places b
    ⟨rfl, fun i hi => by omega, fun _ _ => rfl⟩ (by
      rintro i t hi ⟨hs1, hs2, hs3⟩
      have hle : (i + 1) * s ≤ places * s := Nat.mul_le_mul_right s hi
      have hle' : (i + 1) * s = i * s + s := by ring
      obtain ⟨t', e1, e2, e3, e4⟩ := writeLE_spec s t (off + i * s) (d i) (by omega)
      refine ⟨t', e1, by rw [e2, hs1], fun j hj => ?_, fun j hj => ?_⟩
      · by_cases hji : j = i
        · subst hji; rw [e3, Nat.mod_eq_of_lt (hd j hi)]
        · have : (j + 1) * s ≤ i * s := Nat.mul_le_mul_right s (by omega)
          have hj' : (j + 1) * s = j * s + s := by ring
          rw [← hs2 j (by omega)]
          exact readLE_congr s _ _ _ (fun k k1 k2 => e4 k (.inl (by omega)))
      · rw [e4 j (by omega)]; exact hs3 j hj)
  refine ⟨b', ?_, h2, h3, h4⟩
  unfold writeTokens
  rw [h1]; rfl

/-- The common loop of `writeTokenCounts` and `writePlaces`: marked places write `g i` at
consecutive positions. -/
theorem countLoop_spec (places s : Nat) (b : Pad) (base : Nat) (d g : Nat → Nat) (pos : Nat → Nat)
    (hpos : ∀ c, pos c = base + c * s)
    (h : base + (nz d places).length * s ≤ b.size) (hd : ∀ i, i < places → g i < 256 ^ s) :
    ∃ b', (List.range places).foldlM (fun (x : Pad × Nat) i =>
        if d i > 0 then do
          let b ← x.1.writeLE (pos x.2) s (g i)
          some (b, x.2 + 1)
        else some x) (b, 0) = some (b', (nz d places).length) ∧ b'.size = b.size ∧
      (∀ c p, (nz d places)[c]? = some p → readLE b'.raw (base + c * s) s = g p) ∧
      (∀ j, (j < base ∨ base + (nz d places).length * s ≤ j) → b'.raw j = b.raw j) := by
  obtain ⟨⟨b', k⟩, h1, rfl, h2, h3, h4⟩ := foldlM_range
    (fun (x : Pad × Nat) i =>
        if d i > 0 then do
          let b ← x.1.writeLE (pos x.2) s (g i)
          some (b, x.2 + 1)
        else some x)
    (fun n x => x.2 = (nz d n).length ∧ x.1.size = b.size ∧
      (∀ c p, (nz d n)[c]? = some p → readLE x.1.raw (base + c * s) s = g p) ∧
      (∀ j, (j < base ∨ base + (nz d places).length * s ≤ j) → x.1.raw j = b.raw j)) places (b, 0)
    ⟨by simp [nz], rfl, fun c p hc => by simp [nz] at hc, fun _ _ => rfl⟩ (by
      rintro i ⟨t, k⟩ hi ⟨hk, hs1, hs2, hs3⟩
      simp only at hk hs1 hs2 hs3
      subst hk
      by_cases hdi : d i > 0
      · have hlt := nz_length_lt hi hdi
        have hle : ((nz d i).length + 1) * s ≤ (nz d places).length * s := Nat.mul_le_mul_right s hlt
        have hle' : ((nz d i).length + 1) * s = (nz d i).length * s + s := by ring
        obtain ⟨t', e1, e2, e3, e4⟩ := writeLE_spec s t (base + (nz d i).length * s) (g i) (by omega)
        refine ⟨(t', (nz d i).length + 1), ?_, ?_, by rw [e2, hs1], ?_, ?_⟩
        · simp [hdi, hpos, e1]
        · rw [nz_succ, if_pos hdi]; simp
        · intro c p hc
          rw [nz_succ, if_pos hdi] at hc
          by_cases hcl : c < (nz d i).length
          · rw [List.getElem?_append_left hcl] at hc
            rw [← hs2 c p hc]
            have : (c + 1) * s ≤ (nz d i).length * s := Nat.mul_le_mul_right s (by omega)
            have hj' : (c + 1) * s = c * s + s := by ring
            exact readLE_congr s _ _ _ (fun k k1 k2 => e4 k (.inl (by omega)))
          · rw [List.getElem?_append_right (by omega)] at hc
            have : c = (nz d i).length := by
              by_contra hne
              rw [List.getElem?_eq_none (by simp; omega)] at hc; simp at hc
            subst this
            simp at hc; subst hc
            simp only
            rw [e3, Nat.mod_eq_of_lt (hd i hi)]
        · intro j hj
          simp only
          rw [e4 j (by omega)]; exact hs3 j hj
      · refine ⟨(t, (nz d i).length), by simp [hdi], ?_, hs1, ?_, hs3⟩
        · rw [nz_succ, if_neg hdi]
        · intro c p hc
          rw [nz_succ, if_neg hdi] at hc
          exact hs2 c p hc)
  exact ⟨b', h1, h2, h3, h4⟩

theorem writeTokenCounts_spec (places s : Nat) (b : Pad) (off : Nat) (d : Nat → Nat)
    (h : off + (nz d places).length * s ≤ b.size) (hd : ∀ i, i < places → d i < 256 ^ s) :
    ∃ b', writeTokenCounts places s b off d = some (b', off + (nz d places).length * s) ∧
      b'.size = b.size ∧
      (∀ c p, (nz d places)[c]? = some p → readLE b'.raw (off + c * s) s = d p) ∧
      (∀ j, (j < off ∨ off + (nz d places).length * s ≤ j) → b'.raw j = b.raw j) := by
  obtain ⟨b', h1, h2, h3, h4⟩ := countLoop_spec places s b off d d (fun c => off + c * s) (fun _ => rfl) h hd
  refine ⟨b', ?_, h2, h3, h4⟩
  unfold writeTokenCounts
  rw [h1]; rfl

theorem writePlaces_spec (places : Nat) (hpl : places < W32) (b : Pad) (off : Nat) (d : Nat → Nat)
    (h : off + psize places + (nz d places).length * psize places ≤ b.size) :
    ∃ b', writePlaces places b off d =
        some (b', off + psize places + (nz d places).length * psize places) ∧
      b'.size = b.size ∧
      readLE b'.raw off (psize places) = (nz d places).length ∧
      (∀ c p, (nz d places)[c]? = some p →
        readLE b'.raw (off + psize places + c * psize places) (psize places) = p) ∧
      (∀ j, (j < off ∨ off + psize places + (nz d places).length * psize places ≤ j) →
        b'.raw j = b.raw j) := by
  obtain ⟨b1, h1, h2, h3, h4⟩ := countLoop_spec places (psize places) b (off + psize places) d (fun i => i)
    (fun c => off + (c + 1) * psize places) (fun c => by ring) h
    (fun i hi => lt_psize hpl (by omega))
  obtain ⟨b', e1, e2, e3, e4⟩ := writeLE_spec (psize places) b1 off (nz d places).length (by omega)
  refine ⟨b', ?_, by rw [e2, h2], ?_, ?_, ?_⟩
  · unfold writePlaces
    simp only
    rw [h1]
    simp [e1]
  · rw [e3, Nat.mod_eq_of_lt (lt_psize hpl (nz_le d places))]
  · intro c p hc
    rw [← h3 c p hc]
    exact readLE_congr _ _ _ _ (fun k k1 k2 => e4 k (.inr (by omega)))
  · intro j hj
    rw [e4 j (by omega)]; exact h4 j (by omega)

/-! ### Readers -/

/-- Overwrite the first `n` entries. -/
def over (n : Nat) (d dst : Nat → Nat) : Nat → Nat := fun p => if p < n then d p else dst p

theorem over_succ (n : Nat) (d dst : Nat → Nat) : upd (over n d dst) n (d n) = over (n + 1) d dst := by
  funext p
  simp only [upd, over]
  by_cases h : p = n
  · subst h; simp
  · rw [if_neg h]
    by_cases h' : p < n
    · rw [if_pos h', if_pos (by omega)]
    · rw [if_neg h', if_neg (by omega)]

theorem over_zeroed (n : Nat) (d dst : Nat → Nat) : over n d (zeroed n dst) = over n d dst := by
  funext p; simp only [over, zeroed]; split <;> rfl

theorem readBitVector_spec (places : Nat) (dst raw : Nat → Nat) (off v : Nat) (d : Nat → Nat)
    (hb : ∀ i, i < places → bit raw (i + off * 8) = decide (d i > 0))
    (hv : ∀ i, i < places → d i > 0 → d i = v) :
    readBitVector places dst raw off v = over places d dst := by
  unfold readBitVector
  refine foldl_range _ (fun n x => x = over n d dst) places dst (by funext p; simp [over]) ?_
  rintro i _ hi rfl
  rw [at'_eq _ _ _ _ hi, hb i hi, ← over_succ]
  by_cases h : d i > 0
  · rw [decide_eq_true h, if_pos rfl, ← hv i hi h]
  · have : d i = 0 := by omega
    simp [this]

theorem readTwoBitVector_spec (places : Nat) (dst raw : Nat → Nat) (off : Nat) (d : Nat → Nat)
    (hd : ∀ i, i < places → d i < 4)
    (hb : ∀ i, i < places → bit raw (i * 2 + off * 8) = decide (d i % 2 = 1) ∧
        bit raw (i * 2 + 1 + off * 8) = decide (d i ≥ 2)) :
    readTwoBitVector places dst raw off = over places d dst := by
  unfold readTwoBitVector
  refine foldl_range _ (fun n x => x = over n d dst) places dst (by funext p; simp [over]) ?_
  rintro i _ hi rfl
  simp only
  rw [at'_eq _ _ _ _ (by omega), at'_eq _ _ _ _ (by omega), (hb i hi).1, (hb i hi).2, ← over_succ]
  have hdi := hd i hi
  have hc : d i = 0 ∨ d i = 1 ∨ d i = 2 ∨ d i = 3 := by omega
  rcases hc with hc | hc | hc | hc <;> rw [hc] <;> funext p <;> by_cases h : p = i <;> simp [upd, h]

theorem readTokens_spec (places s : Nat) (dst raw : Nat → Nat) (off : Nat) (d : Nat → Nat)
    (hb : ∀ i, i < places → readLE raw (off + i * s) s = d i) :
    readTokens places s dst raw off = over places d dst := by
  unfold readTokens
  refine foldl_range _ (fun n x => x = over n d dst) places dst (by funext p; simp [over]) ?_
  rintro i _ hi rfl
  rw [hb i hi, over_succ]

theorem readBitTokenCounts_spec (places s : Nat) (dst raw : Nat → Nat) (off : Nat) (d : Nat → Nat)
    (hb : ∀ i, i < places → bit raw (i + off * 8) = decide (d i > 0))
    (hc : ∀ c p, (nz d places)[c]? = some p → readLE raw (off + bytes places + c * s) s = d p) :
    readBitTokenCounts places s (zeroed places dst) raw off = over places d dst := by
  unfold readBitTokenCounts
  have := foldl_range (fun (x : (Nat → Nat) × Nat) i =>
    if at' raw off (wrapBytes places) i then
      (upd x.1 i (readLE raw (off + bytes places + x.2) s), x.2 + s)
    else x) (fun n x => x.1 = over n d (zeroed places dst) ∧ x.2 = (nz d n).length * s) places
    (zeroed places dst, 0) ⟨by funext p; simp [over], by simp [nz]⟩ (by
    rintro i ⟨x, k⟩ hi ⟨hx, hk⟩
    simp only at hx hk
    subst hx; subst hk
    rw [at'_eq _ _ _ _ hi, hb i hi]
    by_cases h : d i > 0
    · simp only [h, decide_true, if_true]
      refine ⟨?_, ?_⟩
      · rw [hc _ i (nz_at hi h), over_succ]
      · rw [nz_succ, if_pos h, List.length_append]; simp; ring
    · simp only [h, decide_false]
      refine ⟨?_, ?_⟩
      · rw [← over_succ]
        have : d i = 0 := by omega
        funext p
        simp only [upd, Bool.false_eq_true, if_false]
        by_cases hp : p = i
        · subst hp; simp [over, zeroed, hi, this]
        · rw [if_neg hp]
      · rw [nz_succ, if_neg h]; simp)
  rw [this.1, over_zeroed]

/-- The common loop of `readPlaces` and `readPlaceTokenCounts`. -/
theorem scatter_spec (l : List Nat) (f g : Nat → Nat) (h : Nat → Nat) (dst : Nat → Nat)
    (hf : ∀ c p, l[c]? = some p → f c = p ∧ g c = h p) :
    (List.range l.length).foldl (fun dst i => upd dst (f i) (g i)) dst =
      fun p => if p ∈ l then h p else dst p := by
  have := foldl_range (fun dst i => upd dst (f i) (g i))
    (fun n x => x = fun p => if p ∈ l.take n then h p else dst p) l.length dst (by simp) (by
      rintro i _ hi rfl
      obtain ⟨e1, e2⟩ := hf i l[i] (List.getElem?_eq_getElem hi)
      rw [e1, e2, List.take_succ_eq_append_getElem hi]
      funext p
      simp only [upd, List.mem_append, List.mem_singleton]
      by_cases hp : p = l[i]
      · simp [hp]
      · simp [hp])
  rw [this, List.take_length]

theorem readPlaces_spec (places : Nat) (dst raw : Nat → Nat) (off v : Nat) (d : Nat → Nat)
    (hn : readLE raw off (psize places) = (nz d places).length)
    (hc : ∀ c p, (nz d places)[c]? = some p →
        readLE raw (off + psize places + c * psize places) (psize places) = p)
    (hv : ∀ i, i < places → d i > 0 → d i = v) :
    readPlaces places (zeroed places dst) raw off v = over places d dst := by
  unfold readPlaces
  simp only
  rw [hn, scatter_spec (nz d places) _ (fun _ => v) d _ ?_]
  · funext p
    simp only [mem_nz, over, zeroed]
    by_cases h : p < places
    · by_cases h' : d p > 0
      · simp [h, h']
      · have : d p = 0 := by omega
        simp [h, this]
    · simp [h]
  · intro c p h
    refine ⟨hc c p h, ?_⟩
    have := mem_nz.1 (List.mem_of_getElem? h)
    exact (hv p this.1 this.2).symm

theorem readPlaceTokenCounts_spec (places s : Nat) (dst raw : Nat → Nat) (off : Nat) (d : Nat → Nat)
    (hn : readLE raw off (psize places) = (nz d places).length)
    (hc : ∀ c p, (nz d places)[c]? = some p →
        readLE raw (off + psize places + c * psize places) (psize places) = p)
    (ht : ∀ c p, (nz d places)[c]? = some p →
        readLE raw (off + psize places + (nz d places).length * psize places + c * s) s = d p) :
    readPlaceTokenCounts places s (zeroed places dst) raw off = over places d dst := by
  unfold readPlaceTokenCounts
  simp only
  rw [hn, scatter_spec (nz d places) _ _ d _ ?_]
  · funext p
    simp only [mem_nz, over, zeroed]
    by_cases h : p < places
    · by_cases h' : d p > 0
      · simp [h, h']
      · have : d p = 0 := by omega
        simp [h, this]
    · simp [h]
  · intro c p h
    refine ⟨hc c p h, ?_⟩
    rw [Nat.mul_comm (psize places) (nz d places).length]
    exact ht c p h

end Encoder
end Verif
