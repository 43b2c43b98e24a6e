import Verif.Encoder.Lemmas

/-! # The compression round trip -/

namespace Verif
namespace Encoder

/-! ### Marking statistics -/

/-- Sum of the first `n` entries. -/
def total (m : Nat → Nat) (n : Nat) : Nat := ((List.range n).map m).sum

theorem total_succ (m : Nat → Nat) (n : Nat) : total m (n + 1) = total m n + m n := by
  simp [total, List.range_succ]

theorem stats_spec (places : Nat) (m : Nat → Nat) :
    let st := markingStats places m
    st.active = (nz m places).length ∧ st.sum = total m places % W32 ∧
    (∀ p, p < places → m p ≤ st.val) ∧
    (st.val = 0 ∨ ∃ p, p < places ∧ m p = st.val) ∧
    (st.allsame = true → ∀ p, p < places → m p > 0 → m p = st.val) := by
  simp only
  unfold markingStats
  refine foldl_range _ (fun n (st : Stats) => st.active = (nz m n).length ∧ st.sum = total m n % W32 ∧
    (∀ p, p < n → m p ≤ st.val) ∧ (st.val = 0 ∨ ∃ p, p < n ∧ m p = st.val) ∧
    (st.allsame = true → ∀ p, p < n → m p > 0 → m p = st.val)) places {} ?_ ?_
  · exact ⟨by simp [nz], by simp [total], fun p hp => by omega, .inl rfl, fun _ p hp => by omega⟩
  · rintro i ⟨sum, same, val, act⟩ hi ⟨h1, h2, h3, h4, h5⟩
    simp only at h1 h2 h3 h4 h5
    by_cases hm : m i = 0
    · simp only [hm, ne_eq, not_true, if_false]
      refine ⟨?_, ?_, ?_, ?_, ?_⟩
      · rw [nz_succ, if_neg (by omega)]; exact h1
      · rw [total_succ, hm]; exact h2
      · intro p hp
        by_cases hpi : p = i
        · subst hpi; omega
        · exact h3 p (by omega)
      · rcases h4 with h4 | ⟨p, hp, hpe⟩
        · exact .inl h4
        · exact .inr ⟨p, by omega, hpe⟩
      · intro hs p hp hpos
        by_cases hpi : p = i
        · subst hpi; omega
        · exact h5 hs p (by omega) hpos
    · simp only [ne_eq, hm, not_false_eq_true, if_true]
      refine ⟨?_, ?_, ?_, ?_, ?_⟩
      · rw [nz_succ, if_pos (by omega)]; simp [h1]
      · rw [total_succ, h2, Nat.mod_add_mod]
      · intro p hp
        by_cases hpi : p = i
        · subst hpi; omega
        · have := h3 p (by omega); omega
      · right
        by_cases hle : m i ≤ val
        · rcases h4 with h4 | ⟨p, hp, hpe⟩
          · omega
          · exact ⟨p, by omega, by omega⟩
        · exact ⟨i, by omega, by omega⟩
      · intro hs p hp hpos
        simp only [Bool.and_eq_true, Bool.not_eq_true', Bool.and_eq_false_iff, decide_eq_false_iff_not,
          not_not] at hs
        obtain ⟨hs1, hs2⟩ := hs
        by_cases hpi : p = i
        · subst hpi
          rcases hs2 with hs2 | hs2 <;> omega
        · have h3' := h3 p (by omega)
          have h5' := h5 hs1 p (by omega) hpos
          rcases hs2 with hs2 | hs2 <;> omega

/-! ### Per-format round trip -/

/-- What one format has to satisfy. -/
def Good (places : Nat) (m : Nat → Nat) (r : Option (Pad × Nat)) : Prop :=
  ∃ b n, r = some (b, n) ∧ 0 < n ∧ n ≤ b.size ∧ b.size = 8 + places * 4 ∧
    ∀ raw : Nat → Nat, (∀ j, j < n → raw j = b.raw j) →
      (∀ dst, decode places dst raw = over places m dst) ∧ sizeOf places raw = some n

theorem head_spec (places type : Nat) (ht : type < 256) :
    ∃ b, (freshPad places).write 0 type = some b ∧ b.size = 8 + places * 4 ∧ b.raw 0 = type ∧
      ∀ j, 1 ≤ j → b.raw j = 0 := by
  refine ⟨_, write_eq (by simp only [freshPad]; omega) _, by simp only [freshPad], ?_, ?_⟩
  · simp only [upd, if_true, Nat.mod_eq_of_lt ht]
  · intro j hj
    simp only [upd, freshPad]
    rw [if_neg (by omega)]

theorem good_bitvector (places type : Nat) (m : Nat → Nat) (ht : type ≤ SAMEBOUND)
    (hv : ∀ i, i < places → m i > 0 → m i = type) : Good places m (encode places m type) := by
  obtain ⟨b, h1, h2, h3, h4⟩ := head_spec places type (by unfold SAMEBOUND at ht; omega)
  have hb := bytes_le places
  obtain ⟨b', e1, e2, e3, e4⟩ := writeBitVector_spec places b 1 m (by omega)
  refine ⟨b', 1 + bytes places, ?_, by omega, by omega, by omega, ?_⟩
  · unfold encode; rw [h1]; simp [ht, e1]
  · intro raw hraw
    have hr0 : raw 0 = type := by rw [hraw 0 (by omega), e4 0 (.inl (by omega)), h3]
    refine ⟨fun dst => ?_, ?_⟩
    · unfold decode
      simp only
      rw [hr0, if_pos ht, readBitVector_spec places _ raw 1 type m ?_ hv, over_zeroed]
      intro i hi
      rw [← e3 i hi]
      exact bit_congr (hraw _ (by have := bytes_lt places i hi; omega))
    · unfold sizeOf
      simp only
      rw [hr0, if_pos ht, bytes_eq]
      unfold wrapBytes
      split <;> congr 1
      omega

theorem good_places (places type : Nat) (hpl : places < W32) (m : Nat → Nat) (ht1 : SAMEBOUND < type)
    (ht : type ≤ DBOUND)
    (hv : ∀ i, i < places → m i > 0 → m i = type - SAMEBOUND) : Good places m (encode places m type) := by
  obtain ⟨b, h1, h2, h3, h4⟩ := head_spec places type (by unfold DBOUND at ht; omega)
  have hsz : 1 + psize places + (nz m places).length * psize places ≤ b.size := by
    have := nz_le m places
    have hm : (nz m places).length * psize places ≤ places * 4 :=
      Nat.mul_le_mul this (by rcases psize_cases places with h | h | h <;> omega)
    rcases psize_cases places with h | h | h <;> omega
  obtain ⟨b', e1, e2, e3, e4, e5⟩ := writePlaces_spec places hpl b 1 m hsz
  refine ⟨b', 1 + psize places + (nz m places).length * psize places, ?_, by omega, by omega, by omega, ?_⟩
  · unfold encode; rw [h1]; simp [ht, e1, Nat.not_le.2 ht1]
  · intro raw hraw
    have hr0 : raw 0 = type := by rw [hraw 0 (by omega), e5 0 (.inl (by omega)), h3]
    have hn : readLE raw 1 (psize places) = (nz m places).length := by
      rw [← e3]
      refine readLE_congr _ _ _ _ (fun j j1 j2 => hraw j ?_)
      generalize (nz m places).length * psize places = z
      omega
    refine ⟨fun dst => ?_, ?_⟩
    · unfold decode
      simp only
      rw [hr0, if_neg (Nat.not_le.2 ht1), if_pos ht]
      refine readPlaces_spec places _ raw 1 _ m hn ?_ hv
      intro c p hc
      rw [← e4 c p hc]
      refine readLE_congr _ _ _ _ (fun j j1 j2 => hraw j ?_)
      have hcl : c < (nz m places).length := by
        by_contra hne
        rw [List.getElem?_eq_none (by omega)] at hc; simp at hc
      have := Nat.mul_le_mul_right (psize places) hcl
      rw [Nat.succ_mul] at this
      omega
    · unfold sizeOf
      simp only
      rw [hr0, if_neg (Nat.not_le.2 ht1), if_pos ht, hn]
      congr 1
      ring

theorem good_twobit (places : Nat) (m : Nat → Nat) (hd : ∀ i, i < places → m i < 4) :
    Good places m (encode places m (DBOUND + 1)) := by
  obtain ⟨b, h1, h2, h3, h4⟩ := head_spec places (DBOUND + 1) (by unfold DBOUND; omega)
  have hb : bytes (places * 2) ≤ places * 4 := by have := bytes_le (places * 2); omega
  obtain ⟨b', e1, e2, e3, e4⟩ := writeTwoBitVector_spec places b 1 m (by omega) hd h4
  refine ⟨b', 1 + bytes (places * 2), ?_, by omega, by omega, by omega, ?_⟩
  · unfold encode; rw [h1]; simp [SAMEBOUND, DBOUND, e1]
  · intro raw hraw
    have hr0 : raw 0 = DBOUND + 1 := by rw [hraw 0 (by omega), e4 0 (.inl (by omega)), h3]
    refine ⟨fun dst => ?_, ?_⟩
    · unfold decode
      simp only
      rw [hr0, if_neg (by simp [SAMEBOUND, DBOUND]), if_neg (by omega), if_pos rfl,
        readTwoBitVector_spec places _ raw 1 m hd ?_, over_zeroed]
      intro i hi
      rw [← (e3 i hi).1, ← (e3 i hi).2]
      have l1 := bytes_lt2 places (i * 2) (by omega)
      have l2 := bytes_lt2 places (i * 2 + 1) (by omega)
      exact ⟨bit_congr (hraw _ (by omega)), bit_congr (hraw _ (by omega))⟩
    · unfold sizeOf
      simp only
      rw [hr0, if_neg (by simp [SAMEBOUND, DBOUND]), if_neg (by omega), if_pos rfl, bytes_eq]
      unfold wrapBytes
      split <;> split <;> congr 1 <;> omega

/-- Selection of the three token widths starting from a base type. -/
theorem byWidth_cases {base s : Nat} (hs : s = 1 ∨ s = 2 ∨ s = 4) :
    (s = 1 ∧ byWidth base s = base) ∨ (s = 2 ∧ byWidth base s = base + 1) ∨
    (s = 4 ∧ byWidth base s = base + 2) := by
  rcases hs with rfl | rfl | rfl <;> simp [byWidth]

theorem good_direct (places s : Nat) (hs : s = 1 ∨ s = 2 ∨ s = 4) (m : Nat → Nat)
    (hd : ∀ i, i < places → m i < 256 ^ s) :
    Good places m (encode places m (byWidth (DBOUND + 2) s)) := by
  have htlt : byWidth (DBOUND + 2) s < 256 := by
    rcases byWidth_cases (base := DBOUND + 2) hs with ⟨_, h⟩ | ⟨_, h⟩ | ⟨_, h⟩ <;> rw [h] <;> simp [DBOUND]
  obtain ⟨b, h1, h2, h3, h4⟩ := head_spec places _ htlt
  have hle : places * s ≤ places * 4 := Nat.mul_le_mul_left _ (by omega)
  obtain ⟨b', e1, e2, e3, e4⟩ := writeTokens_spec places s b 1 m (by omega) hd
  refine ⟨b', 1 + places * s, ?_, by omega, by omega, by omega, ?_⟩
  · unfold encode; rw [h1]
    rcases byWidth_cases (base := DBOUND + 2) hs with ⟨rfl, _⟩ | ⟨rfl, _⟩ | ⟨rfl, _⟩ <;>
      simp [byWidth, SAMEBOUND, DBOUND, e1]
  · intro raw hraw
    have hr0 : raw 0 = byWidth (DBOUND + 2) s := by rw [hraw 0 (by omega), e4 0 (.inl (by omega)), h3]
    refine ⟨fun dst => ?_, ?_⟩
    · have hrd : readTokens places s (zeroed places dst) raw 1 = over places m dst := by
        rw [readTokens_spec places s _ raw 1 m ?_, over_zeroed]
        intro i hi
        rw [← e3 i hi]
        refine readLE_congr _ _ _ _ (fun j j1 j2 => hraw j ?_)
        have := Nat.mul_le_mul_right s hi
        rw [Nat.succ_mul] at this
        omega
      unfold decode
      simp only
      rw [hr0]
      rcases byWidth_cases (base := DBOUND + 2) hs with ⟨rfl, _⟩ | ⟨rfl, _⟩ | ⟨rfl, _⟩ <;>
        simp [byWidth, SAMEBOUND, DBOUND, hrd]
    · unfold sizeOf
      simp only
      rw [hr0]
      rcases byWidth_cases (base := DBOUND + 2) hs with ⟨rfl, _⟩ | ⟨rfl, _⟩ | ⟨rfl, _⟩ <;>
        simp [byWidth, SAMEBOUND, DBOUND] <;> ring

theorem good_indirect (places s : Nat) (hpl : places < W32) (hs : s = 1 ∨ s = 2 ∨ s = 4) (m : Nat → Nat)
    (hd : ∀ i, i < places → m i < 256 ^ s)
    (hsz : psize places + (nz m places).length * (psize places + s) ≤ places * 4) :
    Good places m (encode places m (byWidth (DBOUND + 5) s)) := by
  have htlt : byWidth (DBOUND + 5) s < 256 := by
    rcases byWidth_cases (base := DBOUND + 5) hs with ⟨_, h⟩ | ⟨_, h⟩ | ⟨_, h⟩ <;> rw [h] <;> simp [DBOUND]
  obtain ⟨b, h1, h2, h3, h4⟩ := head_spec places _ htlt
  rw [Nat.mul_add] at hsz
  obtain ⟨b1, c1, c2, c3, c4, c5⟩ := writePlaces_spec places hpl b 1 m (by omega)
  obtain ⟨b', e1, e2, e3, e4⟩ := writeTokenCounts_spec places s b1
    (1 + psize places + (nz m places).length * psize places) m (by omega) hd
  refine ⟨b', 1 + psize places + (nz m places).length * psize places + (nz m places).length * s, ?_,
    by omega, by omega, by omega, ?_⟩
  · unfold encode; rw [h1]
    rcases byWidth_cases (base := DBOUND + 5) hs with ⟨rfl, _⟩ | ⟨rfl, _⟩ | ⟨rfl, _⟩ <;>
      simp [byWidth, SAMEBOUND, DBOUND, c1, e1]
  · intro raw hraw
    have hr0 : raw 0 = byWidth (DBOUND + 5) s := by
      rw [hraw 0 (by omega), e4 0 (.inl (by omega)), c5 0 (.inl (by omega)), h3]
    have hn : readLE raw 1 (psize places) = (nz m places).length := by
      rw [← c3]
      refine readLE_congr _ _ _ _ (fun j j1 j2 => ?_)
      rw [hraw j (by omega), e4 j (.inl (by omega))]
    have hlt : ∀ {c p : Nat}, (nz m places)[c]? = some p → c < (nz m places).length := by
      intro c p hc
      by_contra hne
      rw [List.getElem?_eq_none (by omega)] at hc; simp at hc
    refine ⟨fun dst => ?_, ?_⟩
    · have hrd : readPlaceTokenCounts places s (zeroed places dst) raw 1 = over places m dst := by
        refine readPlaceTokenCounts_spec places s _ raw 1 m hn ?_ ?_
        · intro c p hc
          rw [← c4 c p hc]
          have := Nat.mul_le_mul_right (psize places) (hlt hc)
          rw [Nat.succ_mul] at this
          refine readLE_congr _ _ _ _ (fun j j1 j2 => ?_)
          rw [hraw j (by omega), e4 j (.inl (by omega))]
        · intro c p hc
          rw [← e3 c p hc]
          have := Nat.mul_le_mul_right s (hlt hc)
          rw [Nat.succ_mul] at this
          refine readLE_congr _ _ _ _ (fun j j1 j2 => ?_)
          rw [hraw j (by omega)]
      unfold decode
      simp only
      rw [hr0]
      rcases byWidth_cases (base := DBOUND + 5) hs with ⟨rfl, _⟩ | ⟨rfl, _⟩ | ⟨rfl, _⟩ <;>
        simp [byWidth, SAMEBOUND, DBOUND, hrd]
    · have hsize : placeTokenCountsSize places s raw 1 =
          1 + psize places + (nz m places).length * psize places + (nz m places).length * s := by
        unfold placeTokenCountsSize
        simp only
        rw [hn, Nat.mul_comm (psize places)]
      unfold sizeOf
      simp only
      rw [hr0]
      rcases byWidth_cases (base := DBOUND + 5) hs with ⟨rfl, _⟩ | ⟨rfl, _⟩ | ⟨rfl, _⟩ <;>
        simp [byWidth, SAMEBOUND, DBOUND, hsize]

theorem good_bvindirect (places s : Nat) (hs : s = 1 ∨ s = 2 ∨ s = 4) (m : Nat → Nat)
    (hd : ∀ i, i < places → m i < 256 ^ s)
    (hsz : bytes places + (nz m places).length * s ≤ places * 4) :
    Good places m (encode places m (byWidth (DBOUND + 8) s)) := by
  have htlt : byWidth (DBOUND + 8) s < 256 := by
    rcases byWidth_cases (base := DBOUND + 8) hs with ⟨_, h⟩ | ⟨_, h⟩ | ⟨_, h⟩ <;> rw [h] <;> simp [DBOUND]
  obtain ⟨b, h1, h2, h3, h4⟩ := head_spec places _ htlt
  obtain ⟨b1, c1, c2, c3, c4⟩ := writeBitVector_spec places b 1 m (by omega)
  obtain ⟨b', e1, e2, e3, e4⟩ := writeTokenCounts_spec places s b1 (1 + bytes places) m (by omega) hd
  refine ⟨b', 1 + bytes places + (nz m places).length * s, ?_, by omega, by omega, by omega, ?_⟩
  · unfold encode; rw [h1]
    rcases byWidth_cases (base := DBOUND + 8) hs with ⟨rfl, _⟩ | ⟨rfl, _⟩ | ⟨rfl, _⟩ <;>
      simp [byWidth, SAMEBOUND, DBOUND, c1, e1]
  · intro raw hraw
    have hr0 : raw 0 = byWidth (DBOUND + 8) s := by
      rw [hraw 0 (by omega), e4 0 (.inl (by omega)), c4 0 (.inl (by omega)), h3]
    have hbit : ∀ i, i < places → bit raw (i + 1 * 8) = decide (m i > 0) := by
      intro i hi
      rw [← c3 i hi]
      have := bytes_lt places i hi
      refine bit_congr ?_
      rw [hraw _ (by omega), e4 _ (.inl (by omega))]
    have hlt : ∀ {c p : Nat}, (nz m places)[c]? = some p → c < (nz m places).length := by
      intro c p hc
      by_contra hne
      rw [List.getElem?_eq_none (by omega)] at hc; simp at hc
    refine ⟨fun dst => ?_, ?_⟩
    · have hrd : readBitTokenCounts places s (zeroed places dst) raw 1 = over places m dst := by
        refine readBitTokenCounts_spec places s _ raw 1 m hbit ?_
        intro c p hc
        rw [← e3 c p hc]
        have := Nat.mul_le_mul_right s (hlt hc)
        rw [Nat.succ_mul] at this
        refine readLE_congr _ _ _ _ (fun j j1 j2 => ?_)
        rw [hraw j (by omega)]
      unfold decode
      simp only
      rw [hr0]
      rcases byWidth_cases (base := DBOUND + 8) hs with ⟨rfl, _⟩ | ⟨rfl, _⟩ | ⟨rfl, _⟩ <;>
        simp [byWidth, SAMEBOUND, DBOUND, hrd]
    · have hsize : bitTokenCountsSize places s raw 1 = 1 + bytes places + (nz m places).length * s := by
        unfold bitTokenCountsSize
        rw [← bytes_eq]
        congr 1
        refine foldl_range _ (fun n x => x = (nz m n).length * s) places 0 (by simp [nz]) ?_
        rintro i _ hi rfl
        rw [bytes_eq, at'_eq _ _ _ _ hi, hbit i hi, nz_succ]
        by_cases hdi : m i > 0
        · simp [hdi]; ring
        · simp [hdi]
      unfold sizeOf
      simp only
      rw [hr0]
      rcases byWidth_cases (base := DBOUND + 8) hs with ⟨rfl, _⟩ | ⟨rfl, _⟩ | ⟨rfl, _⟩ <;>
        simp [byWidth, SAMEBOUND, DBOUND, hsize]

/-! ### The selected format -/

theorem compress_good (places : Nat) (hpl : places < W32) (m : Nat → Nat)
    (hm : ∀ p, p < places → m p < W32) : Good places m (compress places m) := by
  obtain ⟨hact, _, hmax, hval, hsame⟩ := stats_spec places m
  unfold compress
  simp only
  generalize markingStats places m = st at *
  have hvlt : st.val < W32 := by
    rcases hval with h | ⟨p, hp, he⟩
    · rw [h]; decide
    · rw [← he]; exact hm p hp
  rw [hact]
  unfold getType
  by_cases h0 : (nz m places).length = 0
  · rw [if_pos h0]
    refine good_bitvector places 0 m (by decide) (fun i hi hpos => ?_)
    have : i ∈ nz m places := mem_nz.2 ⟨hi, hpos⟩
    rw [List.length_eq_zero_iff.1 h0] at this
    simp at this
  · rw [if_neg h0]
    have hvpos : 0 < st.val := by
      obtain ⟨x, hx⟩ := List.exists_mem_of_length_pos (Nat.pos_of_ne_zero h0)
      have hx := mem_nz.1 hx
      have := hmax x hx.1
      omega
    by_cases hsb : st.allsame = true ∧ st.val ≤ SAMEBOUND
    · rw [if_pos hsb]
      split
      · exact good_bitvector places _ m hsb.2 (fun i hi hpos => hsame hsb.1 i hi hpos)
      · refine good_places places _ hpl m (by omega) ?_ (fun i hi hpos => ?_)
        · have := hsb.2; unfold SAMEBOUND at *; unfold DBOUND; omega
        · rw [hsame hsb.1 i hi hpos]; omega
    · rw [if_neg hsb]
      simp only
      have htb := tokenBytes_cases st.val
      have hd : ∀ i, i < places → m i < 256 ^ tokenBytes st.val :=
        fun i hi => lt_tokenBytes hvlt (hmax i hi)
      have hdir : places * tokenBytes st.val ≤ places * 4 := Nat.mul_le_mul_left _ (by omega)
      split
      · rename_i h
        exact good_twobit places m (fun i hi => lt_of_le_of_lt (hmax i hi) h.1)
      · split
        · exact good_direct places _ htb m hd
        · rename_i h2
          split
          · refine good_indirect places _ hpl htb m hd ?_
            omega
          · refine good_bvindirect places _ htb m hd ?_
            omega

end Encoder
end Verif
