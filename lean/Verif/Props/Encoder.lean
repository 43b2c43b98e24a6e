import Verif.Encoder.Roundtrip

/-!
# C05, C06: compression of markings

`compress places m` is the pad and length produced for marking `m` by the format selection and the
encoder; `decode places dst raw` is the contents of the destination array after decoding the bytes
`raw` into an array that held `dst`.  `none` would be a write outside the pad or a failing
assertion.
-/

namespace Verif
open Encoder

/-- **C05**.  Compression always succeeds, and decoding any memory block that starts with the
compressed bytes (whatever follows, whatever the destination array held) gives back the marking,
leaving everything after the `places` entries of the array untouched. -/
theorem C05_round_trip (places : Nat) (hpl : places < W32) (m : Nat → Nat)
    (hm : ∀ p, p < places → m p < W32) :
    ∃ b n, compress places m = some (b, n) ∧
      ∀ (raw dst : Nat → Nat), (∀ j, j < n → raw j = b.raw j) →
        (∀ p, p < places → decode places dst raw p = m p) ∧
        (∀ p, places ≤ p → decode places dst raw p = dst p) := by
  obtain ⟨b, n, h1, _, _, _, h2⟩ := compress_good places hpl m hm
  refine ⟨b, n, h1, fun raw dst hraw => ?_⟩
  rw [(h2 raw hraw).1 dst]
  exact ⟨fun p hp => by simp [over, hp], fun p hp => by simp [over, Nat.not_lt.2 hp]⟩

/-- **C06** (injectivity).  If two markings compress to the same byte string they are the same
marking. -/
theorem C06_compress_injective (places : Nat) (hpl : places < W32) (m m' : Nat → Nat)
    (hm : ∀ p, p < places → m p < W32) (hm' : ∀ p, p < places → m' p < W32)
    (b b' : Pad) (n n' : Nat) (h : compress places m = some (b, n))
    (h' : compress places m' = some (b', n'))
    (he : prefixBytes b.raw n = prefixBytes b'.raw n') : ∀ p, p < places → m p = m' p := by
  obtain ⟨c, k, h1, _, _, _, h2⟩ := compress_good places hpl m hm
  obtain ⟨c', k', h1', _, _, _, h2'⟩ := compress_good places hpl m' hm'
  rw [h] at h1; rw [h'] at h1'
  simp only [Option.some.injEq, Prod.mk.injEq] at h1 h1'
  obtain ⟨rfl, rfl⟩ := h1
  obtain ⟨rfl, rfl⟩ := h1'
  have hlen : n = n' := by
    have := congrArg List.length he
    simpa [prefixBytes] using this
  subst hlen
  have hraw : ∀ j, j < n → b.raw j = b'.raw j := by
    intro j hj
    have := congrArg (fun l => l[j]?) he
    simpa [prefixBytes, List.getElem?_range hj] using this
  intro p hp
  have e1 := congrFun ((h2 b.raw (fun _ _ => rfl)).1 (fun _ => 0)) p
  have e2 := congrFun ((h2' b.raw hraw).1 (fun _ => 0)) p
  rw [e1] at e2
  simpa [over, hp] using e2

/-- **C06** (length and memory safety).  The pad really has the size the constructor allocates, the
bytes used fit in it (an out-of-bounds store would have made the result `none`), and the
length computed from the bytes alone is the number of bytes used. -/
theorem C06_length_and_bounds (places : Nat) (hpl : places < W32) (m : Nat → Nat)
    (hm : ∀ p, p < places → m p < W32) :
    ∃ b n, compress places m = some (b, n) ∧ b.size = (freshPad places).size ∧ n ≤ b.size ∧
      ∀ raw : Nat → Nat, (∀ j, j < n → raw j = b.raw j) → sizeOf places raw = some n := by
  obtain ⟨b, n, h1, _, h3, h4, h2⟩ := compress_good places hpl m hm
  exact ⟨b, n, h1, by rw [h4]; simp [freshPad], h3, fun raw hraw => (h2 raw hraw).2⟩

/-- **C06** (formats).  The same statement for every format that is legal for a marking, not only
the one selected: the two-bit format needs values below 4. -/
theorem C06_twobit_format (places : Nat) (m : Nat → Nat) (hd : ∀ i, i < places → m i < 4) :
    ∃ b n, encode places m (DBOUND + 1) = some (b, n) ∧ n ≤ b.size ∧
      ∀ raw : Nat → Nat, (∀ j, j < n → raw j = b.raw j) →
        ∀ dst p, p < places → decode places dst raw p = m p := by
  obtain ⟨b, n, h1, _, h3, _, h2⟩ := good_twobit places m hd
  refine ⟨b, n, h1, h3, fun raw hraw dst p hp => ?_⟩
  rw [(h2 raw hraw).1 dst]; simp [over, hp]

/-! ### Non-vacuity: concrete markings hit the different formats -/

/-- The type byte selected for a marking given as a list. -/
def typeOf (l : List Nat) : Nat :=
  let st := markingStats l.length (fun i => l.getD i 0)
  getType l.length st.active st.allsame st.val

example : typeOf [0, 0, 0] = 0 := by decide
example : typeOf [5, 0, 5] = 5 := by decide
example : typeOf (5 :: List.replicate 30 0) = 125 := by decide +kernel
example : typeOf [1, 2, 3, 1, 2, 3] = 241 := by decide
example : typeOf [1, 2, 7] = 242 := by decide
example : typeOf [1, 300, 7] = 243 := by decide
example : typeOf [1, 70000, 7] = 244 := by decide
example : typeOf (300 :: 7 :: List.replicate 100 0) = 246 := by decide +kernel
example : typeOf (List.replicate 10 7 ++ [70000] ++ List.replicate 20 0) = 250 := by decide +kernel

example : ((compress 3 (fun i => [1, 70000, 7].getD i 0)).map fun r =>
    (List.range 3).map (decode 3 (fun _ => 9) r.1.raw)) = some [1, 70000, 7] := by decide +kernel

end Verif
