import Verif.Util.Buckets
import Mathlib.Tactic.Common
import Mathlib.Tactic.Ring

/-! # Lemmas on the bucket allocator -/

namespace Verif
namespace Buckets

theorem findPage_insert {C : Nat} (hC : 0 < C) (b : Nat) : ∀ (f : Nat) (ps : List (Nat → Option Nat)) (i j : Nat), i < f →
    findPage C (insertPage C f ps i b) j = if j / C = i / C then some b else findPage C ps j
  | 0, _, _, _, h => by omega
  | f + 1, ps, i, j, h => by
    have hCC : 0 < C * C := Nat.mul_pos hC hC
    have hhead : ∀ j, j < C * C → (ps.headD fun _ => none) (j / C) = findPage C ps j := by
      intro j hj
      cases ps with
      | nil => rfl
      | cons p ps => rw [findPage, if_neg (by omega)]; rfl
    have htail : ∀ j, C * C ≤ j → findPage C ps.tail (j - C * C) = findPage C ps j := by
      intro j hj
      cases ps with
      | nil => rfl
      | cons p ps => rw [findPage, if_pos hj]; rfl
    rw [insertPage]
    by_cases hi : C * C ≤ i
    · rw [if_pos hi, findPage]
      have h1 : C ≤ i / C := (Nat.le_div_iff_mul_le hC).2 hi
      by_cases hj : C * C ≤ j
      · have h2 : C ≤ j / C := (Nat.le_div_iff_mul_le hC).2 hj
        rw [if_pos hj, findPage_insert hC b f _ _ _ (by omega), Nat.sub_mul_div, Nat.sub_mul_div, htail j hj]
        by_cases e : j / C = i / C
        · rw [if_pos e, if_pos (by rw [e])]
        · rw [if_neg e, if_neg (by omega)]
      · have h2 : j / C < C := (Nat.div_lt_iff_lt_mul hC).2 (by omega)
        rw [if_neg hj, if_neg (by omega), hhead j (by omega)]
    · have h1 : i / C < C := (Nat.div_lt_iff_lt_mul hC).2 (by omega)
      rw [if_neg hi, findPage]
      by_cases hj : C * C ≤ j
      · have h2 : C ≤ j / C := (Nat.le_div_iff_mul_le hC).2 hj
        rw [if_pos hj, if_neg (by omega), htail j hj]
      · rw [if_neg hj]
        by_cases e : j / C = i / C
        · rw [if_pos e, if_pos e]
        · rw [if_neg e, if_neg e, hhead j (by omega)]

/-- The buckets are linked in order, the offsets fit, no counter is too large, and the index knows all buckets. -/
structure Inv (C : Nat) (s : Alloc) : Prop where
  pos : 0 < s.bs.length
  off : ∀ b, b < s.bs.length → (s.get b).off = b * C
  count : ∀ b, b < s.bs.length → (s.get b).count ≤ C
  link : ∀ b, b < s.bs.length → (s.get b).link = if b + 1 < s.bs.length then some (b + 1) else none
  thr : ∀ th c, s.tnext.getD th none = some c → c < s.bs.length
  idx : ∀ i, findPage C s.pages i = if i / C < s.bs.length then some (i / C) else none

/-- The ids given out. -/
def Given (C : Nat) (s : Alloc) (i : Nat) : Prop := i / C < s.bs.length ∧ i % C < (s.get (i / C)).count

theorem getD_set_list {α : Type} (l : List α) (i j : Nat) (x d : α) : (l.set i x).getD j d = if i = j ∧ i < l.length then x else l.getD j d := by
  simp only [List.getD_eq_getElem?_getD, List.getElem?_set]
  by_cases h : i = j
  · subst h
    by_cases h2 : i < l.length
    · simp [h2]
    · simp [h2]
  · simp [h]

theorem getD_app_left {α : Type} (l r : List α) (i : Nat) (d : α) (h : i < l.length) : (l ++ r).getD i d = l.getD i d := by
  rw [List.getD_eq_getElem?_getD, List.getD_eq_getElem?_getD, List.getElem?_append_left h]

theorem getD_app_right {α : Type} (l r : List α) (i : Nat) (d : α) (h : l.length ≤ i) : (l ++ r).getD i d = r.getD (i - l.length) d := by
  rw [List.getD_eq_getElem?_getD, List.getD_eq_getElem?_getD, List.getElem?_append_right h]

theorem start_inv {C : Nat} (hC : 0 < C) (threads : Nat) : Inv C (start threads) where
  pos := Nat.zero_lt_one
  off b hb := by
    have : b = 0 := by simp [start] at hb; exact hb
    subst this; simp [start, Alloc.get]
  count b hb := by
    have : b = 0 := by simp [start] at hb; exact hb
    subst this; simp [start, Alloc.get]
  link b hb := by
    have : b = 0 := by simp [start] at hb; exact hb
    subst this; simp [start, Alloc.get]
  thr th c h := by
    simp only [start, getD_set_list] at h
    split at h
    · cases h; exact Nat.zero_lt_one
    · rw [List.getD_eq_getElem?_getD, List.getElem?_replicate] at h
      split at h <;> cases h
  idx i := by
    have hCC : C ≤ C * C := Nat.le_mul_of_pos_left C hC
    show findPage C [fun k => if k = 0 then some 0 else none] i = if i / C < 1 then some (i / C) else none
    simp only [findPage]
    by_cases h : i / C < 1
    · have h0 : i / C = 0 := Nat.lt_one_iff.1 h
      have : i < C := (Nat.div_lt_iff_lt_mul hC).1 h |>.trans_eq (Nat.one_mul C)
      rw [if_neg (by omega), if_pos h0, if_pos h, h0]
    · have h0 : i / C ≠ 0 := fun e => h (by rw [e]; exact Nat.zero_lt_one)
      rw [if_neg h, if_neg h0]
      split <;> rfl

theorem start_given {C : Nat} (threads i : Nat) : ¬ Given C (start threads) i := by
  rintro ⟨h1, h2⟩
  have : i / C = 0 := by simpa [start] using h1
  rw [this] at h2
  simp [start, Alloc.get] at h2

theorem chain_eq {C : Nat} {s : Alloc} (h : Inv C s) : ∀ (fuel n off : Nat), n < s.bs.length → s.bs.length ≤ n + fuel →
    chain C s fuel n off = (s.bs.length - 1, off + (s.bs.length - 1 - n) * C)
  | 0, n, off, h1, h2 => by omega
  | fuel + 1, n, off, h1, h2 => by
    rw [chain, h.link n h1]
    by_cases e : n + 1 < s.bs.length
    · rw [if_pos e]
      show chain C s fuel (n + 1) (off + C) = _
      rw [chain_eq h fuel (n + 1) _ e (by omega)]
      have : s.bs.length - 1 - n = (s.bs.length - 1 - (n + 1)) + 1 := by omega
      rw [this, Nat.add_mul, Nat.one_mul]
      simp only [Prod.mk.injEq, true_and]
      omega
    · rw [if_neg e]
      have : n = s.bs.length - 1 := by omega
      subst this
      simp

/-- A new bucket comes at the end, at the right offset. -/
theorem grow_eq {C : Nat} {s : Alloc} (h : Inv C s) (th : Nat) : s.grow C th =
    ⟨(s.bs.set (s.bs.length - 1) { s.get (s.bs.length - 1) with link := some s.bs.length }) ++ [⟨none, s.bs.length * C, 0⟩],
      s.tnext.set th (some s.bs.length), insertPage C (s.bs.length * C + 1) s.pages (s.bs.length * C) s.bs.length⟩ := by
  have hn : (s.tnext.getD th none).getD 0 < s.bs.length := by
    cases e : s.tnext.getD th none with
    | none => exact h.pos
    | some c => exact h.thr th c e
  have hp := h.pos
  rw [Alloc.grow]
  simp only [chain_eq h _ _ _ hn (by omega : s.bs.length ≤ (s.tnext.getD th none).getD 0 + s.bs.length), h.off _ hn]
  generalize (s.tnext.getD th none).getD 0 = n at hn
  have e : n * C + C + (s.bs.length - 1 - n) * C = s.bs.length * C := by
    obtain ⟨d, hd⟩ : ∃ d, s.bs.length = n + 1 + d := ⟨s.bs.length - (n + 1), by omega⟩
    rw [hd, show n + 1 + d - 1 - n = d by omega]
    ring
  rw [e]

theorem grow_get {C : Nat} {s : Alloc} (h : Inv C s) (th b : Nat) : (s.grow C th).get b =
    if b = s.bs.length then ⟨none, s.bs.length * C, 0⟩
    else if b + 1 = s.bs.length then { s.get b with link := some s.bs.length } else s.get b := by
  have hp := h.pos
  rw [grow_eq h]
  simp only [Alloc.get]
  by_cases h1 : b < s.bs.length
  · rw [if_neg (by omega), getD_app_left _ _ _ _ (by simpa using h1), getD_set_list]
    by_cases h2 : b + 1 = s.bs.length
    · rw [if_pos (by omega), if_pos h2, show s.bs.length - 1 = b by omega]
    · rw [if_neg (by omega), if_neg h2]
  · by_cases h2 : b = s.bs.length
    · rw [if_pos h2, getD_app_right _ _ _ _ (by simp; omega)]
      simp [h2]
    · rw [if_neg h2, if_neg (by omega), getD_app_right _ _ _ _ (by simp; omega)]
      have : s.bs.length < b := by omega
      simp only [List.getD_eq_getElem?_getD, List.length_set]
      rw [List.getElem?_eq_none (by simp; omega), List.getElem?_eq_none (by omega)]

theorem grow_length {C : Nat} {s : Alloc} (h : Inv C s) (th : Nat) : (s.grow C th).bs.length = s.bs.length + 1 := by
  rw [grow_eq h]; simp

theorem grow_inv {C : Nat} (hC : 0 < C) {s : Alloc} (h : Inv C s) (th : Nat) : Inv C (s.grow C th) where
  pos := by rw [grow_length h]; omega
  off b hb := by
    rw [grow_length h] at hb
    rw [grow_get h]
    split
    · rename_i e; rw [e]
    · split
      · exact h.off b (by omega)
      · exact h.off b (by omega)
  count b hb := by
    rw [grow_length h] at hb
    rw [grow_get h]
    split
    · exact Nat.zero_le _
    · split
      · exact h.count b (by omega)
      · exact h.count b (by omega)
  link b hb := by
    rw [grow_length h] at hb ⊢
    rw [grow_get h]
    split
    · rw [if_neg (by omega)]
    · split
      · rename_i e; rw [if_pos (by omega)]; show some _ = _; rw [e]
      · rw [h.link b (by omega), if_pos (by omega), if_pos (by omega)]
  thr t c e := by
    rw [grow_length h]
    rw [grow_eq h] at e
    simp only [getD_set_list] at e
    split at e
    · cases e; omega
    · have := h.thr t c e; omega
  idx i := by
    rw [grow_length h, grow_eq h]
    show findPage C (insertPage C (s.bs.length * C + 1) s.pages (s.bs.length * C) s.bs.length) i = _
    rw [findPage_insert hC _ _ _ _ _ (by omega), h.idx, Nat.mul_div_cancel _ hC]
    by_cases e : i / C = s.bs.length
    · rw [if_pos e, if_pos (by omega), e]
    · rw [if_neg e]
      by_cases e2 : i / C < s.bs.length
      · rw [if_pos e2, if_pos (by omega)]
      · rw [if_neg e2, if_neg (by omega)]

theorem grow_given {C : Nat} {s : Alloc} (h : Inv C s) (th i : Nat) : Given C (s.grow C th) i ↔ Given C s i := by
  unfold Given
  rw [grow_length h, grow_get h]
  constructor
  · rintro ⟨h1, h2⟩
    by_cases e : i / C = s.bs.length
    · rw [if_pos e] at h2; exact absurd h2 (Nat.not_lt_zero _)
    · rw [if_neg e] at h2
      refine ⟨by omega, ?_⟩
      split at h2 <;> exact h2
  · rintro ⟨h1, h2⟩
    refine ⟨by omega, ?_⟩
    rw [if_neg (by omega)]
    split <;> exact h2

theorem sum_set (l : List Bucket) (i : Nat) (x : Bucket) (h : i < l.length) :
    ((l.set i x).map Bucket.count).sum + (l.getD i ⟨none, 0, 0⟩).count = (l.map Bucket.count).sum + x.count := by
  induction l generalizing i with
  | nil => cases h
  | cons a l ih =>
    cases i with
    | zero => simp; omega
    | succ i =>
      have := ih i (by simpa using h)
      simp only [List.set_cons_succ, List.map_cons, List.sum_cons, List.getD_cons_succ]
      omega

theorem grow_size {C : Nat} {s : Alloc} (h : Inv C s) (th : Nat) : (s.grow C th).size = s.size := by
  have hp := h.pos
  rw [grow_eq h]
  have := sum_set s.bs (s.bs.length - 1) { s.get (s.bs.length - 1) with link := some s.bs.length } (by omega)
  simp only [Alloc.size, List.map_append, List.sum_append, List.map_cons, List.map_nil, List.sum_cons, List.sum_nil]
  have e : (s.bs.getD (s.bs.length - 1) ⟨none, 0, 0⟩).count = (s.get (s.bs.length - 1)).count := rfl
  rw [e] at this
  simp only [] at this
  omega

theorem take_get {s : Alloc} (th b : Nat) (hc : (s.tnext.getD th none).getD 0 < s.bs.length) : (s.take th).2.get b =
    if b = (s.tnext.getD th none).getD 0 then { s.get b with count := (s.get b).count + 1 } else s.get b := by
  simp only [Alloc.take, Alloc.get, getD_set_list]
  by_cases e : b = (s.tnext.getD th none).getD 0
  · rw [if_pos ⟨e.symm, hc⟩, if_pos e, e]
  · rw [if_neg (fun h => e h.1.symm), if_neg e]

/-- What a call of `next` does. -/
theorem take_spec {C : Nat} (hC : 0 < C) {s : Alloc} (h : Inv C s) (th : Nat) (hc : (s.tnext.getD th none).getD 0 < s.bs.length)
    (hf : (s.get ((s.tnext.getD th none).getD 0)).count < C) :
    Inv C (s.take th).2 ∧ ¬ Given C s (s.take th).1 ∧ (∀ i, Given C (s.take th).2 i ↔ Given C s i ∨ i = (s.take th).1) ∧
      (s.take th).2.size = s.size + 1 ∧ (s.take th).2.bs.length = s.bs.length := by
  have hlen : (s.take th).2.bs.length = s.bs.length := by simp [Alloc.take]
  have hg := fun b => take_get (s := s) th b hc
  have hsz := sum_set s.bs ((s.tnext.getD th none).getD 0)
    { s.get ((s.tnext.getD th none).getD 0) with count := (s.get ((s.tnext.getD th none).getD 0)).count + 1 } hc
  have hid : (s.take th).1 = (s.tnext.getD th none).getD 0 * C + (s.get ((s.tnext.getD th none).getD 0)).count := by
    rw [Alloc.take]; simp only [h.off _ hc]
  have hsize : (s.take th).2.size = s.size + 1 := by
    simp only [Alloc.take, Alloc.size]
    have e : (s.bs.getD ((s.tnext.getD th none).getD 0) ⟨none, 0, 0⟩).count = (s.get ((s.tnext.getD th none).getD 0)).count := rfl
    rw [e] at hsz
    simp only [] at hsz
    omega
  have htn : (s.take th).2.tnext = s.tnext := rfl
  have hpg : (s.take th).2.pages = s.pages := rfl
  generalize (s.tnext.getD th none).getD 0 = c at *
  have hdiv : (s.take th).1 / C = c := by
    rw [hid, Nat.add_comm, Nat.add_mul_div_right _ _ hC, Nat.div_eq_of_lt hf, Nat.zero_add]
  have hmod : (s.take th).1 % C = (s.get c).count := by
    rw [hid, Nat.add_comm, Nat.add_mul_mod_self_right, Nat.mod_eq_of_lt hf]
  refine ⟨⟨by rw [hlen]; exact h.pos, fun b hb => ?_, fun b hb => ?_, fun b hb => ?_, fun t c' e => ?_, fun i => ?_⟩, ?_, fun i => ?_, hsize, hlen⟩
  · rw [hlen] at hb; rw [hg]; split <;> exact h.off b hb
  · rw [hlen] at hb; rw [hg]
    split
    · rename_i e; subst e; exact hf
    · exact h.count b hb
  · rw [hlen] at hb; rw [hg, hlen]; split <;> exact h.link b hb
  · rw [hlen]; rw [htn] at e; exact h.thr t c' e
  · rw [hlen, hpg]; exact h.idx i
  · rintro ⟨_, h2⟩
    rw [hdiv, hmod] at h2
    omega
  · unfold Given
    rw [hlen, hg]
    constructor
    · rintro ⟨h1, h2⟩
      by_cases e : i / C = c
      · rw [if_pos e] at h2
        have h3 : i % C < (s.get (i / C)).count + 1 := h2
        by_cases e2 : i % C = (s.get c).count
        · right
          rw [hid, ← e2, ← e, Nat.mul_comm]
          exact (Nat.div_add_mod i C).symm
        · left; refine ⟨h1, ?_⟩; rw [e] at h3 ⊢; omega
      · rw [if_neg e] at h2; exact .inl ⟨h1, h2⟩
    · rintro (⟨h1, h2⟩ | e)
      · refine ⟨h1, ?_⟩
        split
        · show _ < _ + 1; omega
        · exact h2
      · subst e
        rw [hdiv, hmod]
        refine ⟨hc, ?_⟩
        rw [if_pos rfl]
        show _ < _ + 1
        omega

theorem next_spec {C : Nat} (hC : 0 < C) {s : Alloc} (h : Inv C s) {th : Nat} (ht : th < s.tnext.length) :
    Inv C (s.next C th).2 ∧ ¬ Given C s (s.next C th).1 ∧ (∀ i, Given C (s.next C th).2 i ↔ Given C s i ∨ i = (s.next C th).1) ∧
      (s.next C th).2.size = s.size + 1 ∧ s.bs.length ≤ (s.next C th).2.bs.length ∧ (s.next C th).2.tnext.length = s.tnext.length := by
  rw [Alloc.next]
  by_cases hf : s.full C th = true
  · rw [if_pos hf]
    have hth : ((s.grow C th).tnext.getD th none).getD 0 = s.bs.length := by
      rw [grow_eq h]
      simp only [getD_set_list, ht, and_self, if_true, Option.getD_some]
    obtain ⟨h1, h2, h3, h4, h5⟩ := take_spec hC (grow_inv hC h th) th (by rw [hth, grow_length h]; omega)
      (by rw [hth, grow_get h, if_pos rfl]; exact hC)
    refine ⟨h1, fun hg => h2 ((grow_given h th _).2 hg), fun i => ?_, by rw [h4, grow_size h], by rw [h5, grow_length h]; omega, ?_⟩
    · rw [h3, grow_given h]
    · show (s.grow C th).tnext.length = _
      rw [grow_eq h]; simp
  · rw [if_neg hf]
    simp only [Alloc.full] at hf
    cases e : s.tnext.getD th none with
    | none => rw [e] at hf; simp at hf
    | some c =>
      rw [e] at hf
      have hc := h.thr th c e
      have := h.count c hc
      have hne : (s.get c).count ≠ C := by simpa using hf
      obtain ⟨h1, h2, h3, h4, h5⟩ := take_spec hC h th (by rw [e]; exact hc) (by rw [e]; show (s.get c).count < C; omega)
      exact ⟨h1, h2, h3, h4, by rw [h5], rfl⟩

theorem at_of {C : Nat} {s : Alloc} (h : Inv C s) {i : Nat} (hi : i / C < s.bs.length) : s.at C i = some (i / C, i % C) := by
  rw [Alloc.at, h.idx, if_pos hi]

theorem calls_spec {C : Nat} (hC : 0 < C) : ∀ (ths : List Nat) {s : Alloc}, Inv C s → (∀ t ∈ ths, t < s.tnext.length) →
    Inv C (calls C s ths).2 ∧ (calls C s ths).1.Nodup ∧ (∀ i ∈ (calls C s ths).1, ¬ Given C s i) ∧
      (∀ i, Given C (calls C s ths).2 i ↔ Given C s i ∨ i ∈ (calls C s ths).1) ∧
      (calls C s ths).2.size = s.size + ths.length ∧ s.bs.length ≤ (calls C s ths).2.bs.length
  | [], s, h, _ => by simp [calls, h]
  | th :: ths, s, h, ht => by
    obtain ⟨h1, h2, h3, h4, h5, h6⟩ := next_spec hC h (ht th (List.mem_cons_self ..))
    obtain ⟨g1, g2, g3, g4, g5, g6⟩ := calls_spec hC ths h1 (fun t hm => by rw [h6]; exact ht t (List.mem_cons_of_mem _ hm))
    rw [calls]
    refine ⟨g1, List.nodup_cons.2 ⟨fun hm => g3 _ hm ((h3 _).2 (.inr rfl)), g2⟩, fun i hi => ?_, fun i => ?_, ?_, by simp only []; omega⟩
    · rcases List.mem_cons.1 hi with rfl | hi
      · exact h2
      · exact fun hg => g3 i hi ((h3 i).2 (.inl hg))
    · show Given C (calls C (s.next C th).2 ths).2 i ↔ _
      rw [g4, h3, List.mem_cons]
      tauto
    · simp only [List.length_cons]; omega

theorem calls_length (C : Nat) : ∀ (ths : List Nat) (s : Alloc), (calls C s ths).1.length = ths.length
  | [], _ => rfl
  | _ :: ths, s => by rw [calls, List.length_cons, List.length_cons, calls_length C ths]

end Buckets
end Verif
