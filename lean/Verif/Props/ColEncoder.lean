import Verif.XCol.EncLemmas
import Verif.Props.SeqMultiSet

/-!
# C50: the encoding of coloured markings is injective
-/

namespace Verif
namespace ColEncoderProps
open XCol

/-- C50: decoding gives back every marking whose encoding has at most 65535 bytes. -/
theorem C50_round_trip {sizes : List Nat} {ms : List MS} (h : EncAll sizes ms) (hc : complete sizes ms = true) :
    decode sizes (key sizes ms) = some ms := by
  have hl : (allBytes sizes ms).length ≤ maxLen := of_decide_eq_true hc
  unfold decode key
  rw [List.take_of_length_le hl]
  exact decAll_ok h [] (by simpa using hl)

/-- C50: markings with complete encodings are told apart by what the search stores. -/
theorem C50_injective {sizes : List Nat} {ms ms' : List MS} (h : EncAll sizes ms) (h' : EncAll sizes ms')
    (hc : complete sizes ms = true) (hc' : complete sizes ms' = true) (he : key sizes ms = key sizes ms') : ms = ms' := by
  have h1 := C50_round_trip h hc
  have h2 := C50_round_trip h' hc'
  rw [he, h2] at h1
  exact (Option.some.inj h1).symm

/-- C50: two markings that are shrunk before they are stored, as the search does, are stored alike exactly when they have the same
tokens in every place. -/
theorem C50_shrunk {sizes : List Nat} {ms ms' : List MS} (h : EncAll sizes (ms.map MS.shrink)) (h' : EncAll sizes (ms'.map MS.shrink))
    (hc : complete sizes (ms.map MS.shrink) = true) (hc' : complete sizes (ms'.map MS.shrink) = true)
    (hlen : ms.length = ms'.length) (hw : ∀ m ∈ ms, m.WF ∧ NonNeg m.counts) (hw' : ∀ m ∈ ms', m.WF ∧ NonNeg m.counts) :
    key sizes (ms.map MS.shrink) = key sizes (ms'.map MS.shrink) ↔ ∀ (i : Nat) (m m' : MS), ms[i]? = some m → ms'[i]? = some m' → ∀ c, m.val c = m'.val c := by
  constructor
  · intro he i m m' hm hm' c
    have := C50_injective h h' hc hc' he
    have h1 : (ms.map MS.shrink)[i]? = some m.shrink := by rw [List.getElem?_map, hm]; rfl
    have h2 : (ms'.map MS.shrink)[i]? = some m'.shrink := by rw [List.getElem?_map, hm']; rfl
    rw [this, h2] at h1
    have hs : m'.shrink = m.shrink := Option.some.inj h1
    have e1 := hw m (List.mem_of_getElem? hm)
    have e2 := hw' m' (List.mem_of_getElem? hm')
    rw [← MS.shrink_val e1.1 e1.2 c, ← MS.shrink_val e2.1 e2.2 c, hs]
  · intro hv
    have : ms.map MS.shrink = ms'.map MS.shrink := by
      apply List.ext_getElem?
      intro i
      rw [List.getElem?_map, List.getElem?_map]
      by_cases hi : i < ms.length
      · have h1 := List.getElem?_eq_getElem hi
        have h2 := List.getElem?_eq_getElem (hlen ▸ hi)
        have e1 := hw _ (List.mem_of_getElem? h1)
        have e2 := hw' _ (List.mem_of_getElem? h2)
        rw [h1, h2]
        simp only [Option.map_some, Option.some.injEq]
        refine MS.shrunk_ext (MS.shrink_wf e1.1 e1.2) (MS.shrink_wf e2.1 e2.2) (MS.shrink_pos _) (MS.shrink_pos _) fun x => ?_
        rw [MS.shrink_val e1.1 e1.2, MS.shrink_val e2.1 e2.2]
        exact hv i _ _ h1 h2 x
      · rw [List.getElem?_eq_none (by omega), List.getElem?_eq_none (by omega)]
    rw [this]

/-- Non-vacuity: the three kinds of encoding, and a marking they hold. -/
example : placeBytes 1 MS.empty = [2] ∧ placeBytes 1 ⟨[(0, 300)], 300⟩ = [0, 2, 44, 1] ∧
    placeBytes 300 ⟨[(7, 1), (299, 2)], 3⟩ = [1, 2, 0, 1, 7, 0, 1, 43, 1, 2] := by
  simp only [placeBytes, encType, writeTC, writePTC, MS.highest, highestL, MS.empty]
  decide +kernel

example : EncAll [1, 300] [MS.empty, ⟨[(7, 1), (299, 2)], 3⟩] ∧ complete [1, 300] [MS.empty, ⟨[(7, 1), (299, 2)], 3⟩] = true := by
  refine ⟨.cons (by omega) ⟨MS.empty_wf, by simp [MS.empty], by simp [MS.empty], by simp [MS.empty]⟩
    (.cons (by omega) ⟨⟨by simp [Sorted], by simp [sumL]⟩, by simp, by simp, by simp⟩ .nil), ?_⟩
  decide +kernel

theorem allBytes_replicate (n : Nat) (ms : List MS) (sizes : List Nat) :
    allBytes (List.replicate n 1 ++ sizes) (List.replicate n MS.empty ++ ms) = List.replicate n 2 ++ allBytes sizes ms := by
  induction n with
  | zero => rfl
  | succ n ih =>
    have : ∀ {α : Type} (a : α), List.replicate (n + 1) a = a :: List.replicate n a := fun a => List.replicate_succ
    rw [this, this, this, List.cons_append, List.cons_append, List.cons_append, allBytes, ih]
    rfl

theorem encAll_replicate {n : Nat} {ms : List MS} {sizes : List Nat} (h : EncAll sizes ms) :
    EncAll (List.replicate n 1 ++ sizes) (List.replicate n MS.empty ++ ms) := by
  induction n with
  | zero => exact h
  | succ n ih =>
    have : ∀ {α : Type} (a : α), List.replicate (n + 1) a = a :: List.replicate n a := fun a => List.replicate_succ
    rw [this, this]
    exact .cons (by omega) ⟨MS.empty_wf, by simp [MS.empty], by simp [MS.empty], by simp [MS.empty]⟩ ih

/-- Finding: encodings are cut after 65535 bytes, so two markings of a net with many places may be stored alike: the second is
then never explored.  The full claim, that the stored encodings of different markings differ, is false. -/
theorem C50_finding_truncated : ∃ (sizes : List Nat) (ms ms' : List MS), EncAll sizes ms ∧ EncAll sizes ms' ∧ ms ≠ ms' ∧ key sizes ms = key sizes ms' := by
  refine ⟨List.replicate 65535 1 ++ [1], List.replicate 65535 MS.empty ++ [MS.empty], List.replicate 65535 MS.empty ++ [⟨[(0, 1)], 1⟩],
    encAll_replicate (.cons (by omega) ⟨MS.empty_wf, by simp [MS.empty], by simp [MS.empty], by simp [MS.empty]⟩ .nil),
    encAll_replicate (.cons (by omega) ⟨⟨by simp [Sorted], by simp [sumL]⟩, by simp, by simp, by simp⟩ .nil), ?_, ?_⟩
  · intro h
    have := List.append_cancel_left h
    simp [MS.empty] at this
  · unfold key
    rw [allBytes_replicate, allBytes_replicate]
    unfold maxLen
    rw [List.take_append_of_le_length (by rw [List.length_replicate]; exact Nat.le_refl _),
      List.take_append_of_le_length (by rw [List.length_replicate]; exact Nat.le_refl _)]

end ColEncoderProps
end Verif
