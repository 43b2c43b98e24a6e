import Verif.CFP.Gen
import Verif.CFP.GenLemmas
import Verif.CPN.BindingLemmas
import Mathlib.Data.List.Nodup

/-!
# What the generator walks through
-/

namespace Verif
namespace CFP

open CPN

/-! ### Counters -/

/-- From `x` the counter goes through the list and then starts over at `o`. -/
def Turns {α : Type} (f : α → Option (α × Bool)) (o : α) : α → List α → Prop
  | x, [] => f x = some (o, true)
  | x, y :: ys => f x = some (y, false) ∧ Turns f o y ys

def allB : List (Nat × List Nat) → List Binding
  | [] => [[]]
  | (v, l) :: ws => ((allB ws).map fun b => l.map fun i => (v, i) :: b).flatten

variable {T : Types} {vty : Nat → Nat}

theorem turns_block {m : VMap} {v : Nat} {vec : IVec} (hm : m.lookup v = some vec) {o : Nat} {O c : Binding} {rest : List Binding}
    (hrest : (∃ c', bumpG T vty m c = some (c', false) ∧ ∃ r, rest = ((v, o) :: c') :: r ∧ Turns (bumpG T vty m) O ((v, o) :: c') r) ∨
      (rest = [] ∧ ∃ c', bumpG T vty m c = some (c', true) ∧ O = (v, o) :: c')) :
    (a : Nat) → (as : List Nat) → Turns (fun i => some (stepVar T (vty v) vec i)) o a as →
    Turns (bumpG T vty m) O ((v, a) :: c) ((as.map fun i => (v, i) :: c) ++ rest)
  | a, [], h => by
    have h : stepVar T (vty v) vec a = (o, true) := by simpa [Turns] using h
    rw [List.map_nil, List.nil_append]
    rcases hrest with ⟨c', h1, r, rfl, h2⟩ | ⟨rfl, c', h1, rfl⟩
    · refine ⟨?_, h2⟩
      rw [bumpG, hm]
      simp only
      rw [h, if_pos rfl, h1]
      rfl
    · show bumpG T vty m ((v, a) :: c) = _
      rw [bumpG, hm]
      simp only
      rw [h, if_pos rfl, h1]
      rfl
  | a, b :: as, h => by
    have h1 : stepVar T (vty v) vec a = (b, false) := by simpa using h.1
    refine ⟨?_, turns_block hm hrest b as h.2⟩
    rw [bumpG, hm]
    simp only
    rw [h1]
    rfl

theorem turns_prod {m : VMap} {v : Nat} {vec : IVec} (hm : m.lookup v = some vec) {o : Nat} {os : List Nat} (ho : Turns (fun i => some (stepVar T (vty v) vec i)) o o os)
    {C : Binding} : (c : Binding) → (cs : List Binding) → Turns (bumpG T vty m) C c cs →
    Turns (bumpG T vty m) ((v, o) :: C) ((v, o) :: c) ((os.map fun i => (v, i) :: c) ++ (cs.map fun b => (o :: os).map fun i => (v, i) :: b).flatten)
  | c, [], h => by
    rw [List.map_nil, List.flatten_nil]
    exact turns_block hm (Or.inr ⟨rfl, C, h, rfl⟩) o os ho
  | c, d :: cs, h => by
    refine turns_block hm (Or.inl ⟨d, h.1, _, ?_, turns_prod hm ho d cs h.2⟩) o os ho
    rw [List.map_cons, List.flatten_cons, List.map_cons]
    rfl

/-- The colours of a variable in the order in which they are tried. -/
def Walk (T : Types) (ty : Nat) (vec : IVec) (l : List Nat) : Prop :=
  ∃ i is o os, vec = i :: is ∧ l = o :: os ∧ o = colorOf T ty i.lowerIds ∧ Turns (fun i => some (stepVar T ty vec i)) o o os

theorem walk_all {m : VMap} : (ws : List (Nat × List Nat)) → (∀ w ∈ ws, ∃ vec, m.lookup w.1 = some vec ∧ Walk T (vty w.1) vec w.2) →
    ∃ b bs, allB ws = b :: bs ∧ firstG T vty m (ws.map (·.1)) = some b ∧ startG T vty m (ws.map (·.1)) = some (some b) ∧ Turns (bumpG T vty m) b b bs
  | [], _ => ⟨[], [], rfl, rfl, rfl, rfl⟩
  | (v, l) :: ws, h => by
    obtain ⟨b, bs, h1, h2, h2', h3⟩ := walk_all ws fun w hw => h w (List.mem_cons_of_mem _ hw)
    obtain ⟨vec, h4, i, is, o, os, rfl, h5, h6, h7⟩ := h (v, l) List.mem_cons_self
    simp only at h4 h5 h6 h7
    subst h5
    refine ⟨(v, o) :: b, _, ?_, ?_, ?_, turns_prod h4 h7 b bs h3⟩
    · rw [allB, h1, List.map_cons, List.flatten_cons, List.map_cons]
      rfl
    · rw [List.map_cons, firstG]
      simp only
      rw [h4]
      simp only
      rw [h2, ← h6]
      rfl
    · rw [List.map_cons, startG]
      simp only
      rw [h4]
      simp only
      rw [h2', ← h6]
      rfl

theorem mem_allB {b : Binding} : (ws : List (Nat × List Nat)) → (ws.map (·.1)).Nodup → b ∈ allB ws →
    b.map (·.1) = ws.map (·.1) ∧ ∀ w ∈ ws, ∃ i ∈ w.2, b.lookup w.1 = some i
  | [], _, h => by
    rw [allB, List.mem_singleton] at h
    subst h
    exact ⟨rfl, fun w hw => nomatch hw⟩
  | (v, l) :: ws, hn, h => by
    rw [allB] at h
    obtain ⟨l', h1, h2⟩ := List.mem_flatten.1 h
    obtain ⟨c, h3, rfl⟩ := List.mem_map.1 h1
    obtain ⟨i, hi, rfl⟩ := List.mem_map.1 h2
    rw [List.map_cons, List.nodup_cons] at hn
    obtain ⟨h4, h5⟩ := mem_allB ws hn.2 h3
    refine ⟨by rw [List.map_cons, List.map_cons, h4], fun w hw => ?_⟩
    rcases List.mem_cons.1 hw with rfl | hw
    · exact ⟨i, hi, by rw [List.lookup_cons]; simp⟩
    · obtain ⟨j, hj, he⟩ := h5 w hw
      refine ⟨j, hj, ?_⟩
      have hne : (w.1 == v) = false := by
        simp only [beq_eq_false_iff_ne]
        intro e
        exact hn.1 (e ▸ List.mem_map.2 ⟨w, hw, rfl⟩)
      rw [List.lookup_cons, hne]
      exact he

theorem allB_has (f : Nat → Nat) : (ws : List (Nat × List Nat)) → (∀ w ∈ ws, f w.1 ∈ w.2) → ws.map (fun w => (w.1, f w.1)) ∈ allB ws
  | [], _ => List.mem_singleton.2 rfl
  | (v, l) :: ws, h => by
    rw [allB, List.map_cons]
    exact List.mem_flatten.2 ⟨_, List.mem_map.2 ⟨_, allB_has f ws fun w hw => h w (List.mem_cons_of_mem _ hw), rfl⟩,
      List.mem_map.2 ⟨f v, h (v, l) List.mem_cons_self, rfl⟩⟩

theorem allB_nodup : (ws : List (Nat × List Nat)) → (∀ w ∈ ws, w.2.Nodup) → (allB ws).Nodup
  | [], _ => List.nodup_singleton []
  | (v, l) :: ws, h => by
    have ih := allB_nodup ws fun w hw => h w (List.mem_cons_of_mem _ hw)
    have hl := h (v, l) List.mem_cons_self
    rw [allB]
    generalize allB ws = bs at ih
    induction bs with
    | nil => exact List.nodup_nil
    | cons b bs ihb =>
      rw [List.nodup_cons] at ih
      rw [List.map_cons, List.flatten_cons, List.nodup_append]
      refine ⟨?_, ihb ih.2, ?_⟩
      · exact hl.map fun i j e => by
          cases e
          rfl
      · intro x hx y hy e
        subst e
        obtain ⟨i, _, rfl⟩ := List.mem_map.1 hx
        obtain ⟨l', h1, h2⟩ := List.mem_flatten.1 hy
        obtain ⟨c, h3, rfl⟩ := List.mem_map.1 h1
        obtain ⟨j, _, e⟩ := List.mem_map.1 h2
        cases e
        exact ih.1 h3

/-! ### The colours of one variable -/

/-- The numbers between the corners of the boxes. -/
def walkOf (T : Types) (ty : Nat) (vec : IVec) : List Nat :=
  (vec.map fun i => List.range' (colorOf T ty i.lowerIds) (colorOf T ty (i.map (·.hi)) - colorOf T ty i.lowerIds + 1)).flatten

/-- No upper corner of a box comes between the corners of a box, except at the end of its own. -/
def tame (T : Types) (ty : Nat) (vec : IVec) : Bool :=
  !vec.isEmpty && decide (vec.map fun i => colorOf T ty (i.map (·.hi))).Nodup &&
    vec.all fun i => vec.all fun j => !(decide (colorOf T ty i.lowerIds ≤ colorOf T ty (j.map (·.hi))) && decide (colorOf T ty (j.map (·.hi)) < colorOf T ty (i.map (·.hi))))

theorem enc_mono : (ns : List Nat) → (i : Interval) → (x : Val) → Interval.Has i x → enc ns (i.map (·.lo)) ≤ enc ns x ∧ enc ns x ≤ enc ns (i.map (·.hi))
  | [], i, x, h => by cases i <;> cases x <;> simp [enc]
  | n :: ns, [], [], h => by simp [enc]
  | n :: ns, [], _ :: _, h => h.elim
  | n :: ns, _ :: _, [], h => h.elim
  | n :: ns, r :: i, a :: x, h => by
    obtain ⟨h1, h2⟩ := enc_mono ns i x h.2
    obtain ⟨g1, g2⟩ := h.1
    rw [List.map_cons, List.map_cons, enc, enc, enc]
    have := Nat.mul_le_mul_left n h1
    have := Nat.mul_le_mul_left n h2
    omega

theorem Interval.In.lo : {ns : List Nat} → {i : Interval} → Interval.In ns i → Interval.Has i (i.map (·.lo))
  | [], [], _ => trivial
  | _ :: _, _ :: _, h => ⟨⟨Nat.le_refl _, h.1.1⟩, h.2.lo⟩
  | [], _ :: _, h => h.elim
  | _ :: _, [], h => h.elim

theorem Interval.In.hi : {ns : List Nat} → {i : Interval} → Interval.In ns i → Interval.Has i (i.map (·.hi))
  | [], [], _ => trivial
  | _ :: _, _ :: _, h => ⟨⟨h.1.1, Nat.le_refl _⟩, h.2.hi⟩
  | [], _ :: _, h => h.elim
  | _ :: _, [], h => h.elim

theorem colorOf_lt {ty : Nat} {x : Val} (h : Fits (T.dims ty) x) : colorOf T ty x < T.size ty ∧ T.value ⟨ty, colorOf T ty x⟩ = x := by
  obtain ⟨h1, h2⟩ := enc_lt _ _ h
  unfold colorOf
  rw [size_eq]
  exact ⟨h1, by rw [value_eq T (by rw [size_eq]; exact h1)]; exact h2⟩

theorem upper_iff {ty a : Nat} {i : Interval} (hi : Interval.In (T.dims ty) i) (ha : a < T.size ty) :
    (i.map (·.hi) == T.value ⟨ty, a⟩) = decide (colorOf T ty (i.map (·.hi)) = a) := by
  obtain ⟨h1, h2⟩ := colorOf_lt (hi.fits hi.hi)
  rw [Bool.eq_iff_iff, beq_iff_eq, decide_eq_true_iff]
  constructor
  · intro e
    rw [e] at h2 ⊢
    exact value_inj T (by rw [← e]; exact h1) ha h2
  · intro e
    rw [e] at h2
    exact h2.symm

/-- Inside a box. -/
theorem stepVar_in {ty a : Nat} {vec : IVec} (hin : IVec.In (T.dims ty) vec) (ha : a + 1 < T.size ty)
    (h : ∀ i ∈ vec, colorOf T ty (i.map (·.hi)) ≠ a) : stepVar T ty vec a = (a + 1, false) := by
  unfold stepVar IVec.next
  rw [List.findIdx?_eq_none_iff.2 fun i hi => by
    rw [upper_iff (hin i hi) (by omega)]
    exact decide_eq_false (h i hi)]
  simp only [List.isEmpty_nil, if_true]
  rw [succC_id (by omega), Nat.mod_eq_of_lt ha]

/-- At the end of a box. -/
theorem stepVar_end {ty : Nat} {pre post : IVec} {i : Interval} (hd : T.dims ty ≠ []) (hin : IVec.In (T.dims ty) (pre ++ i :: post))
    (hn : ((pre ++ i :: post).map fun i => colorOf T ty (i.map (·.hi))).Nodup) :
    stepVar T ty (pre ++ i :: post) (colorOf T ty (i.map (·.hi))) =
      match post with
      | [] => (colorOf T ty ((pre ++ i :: post).getD 0 []).lowerIds, true)
      | j :: _ => (colorOf T ty j.lowerIds, false) := by
  have hi : Interval.In (T.dims ty) i := hin i (List.mem_append_right _ List.mem_cons_self)
  have hlt := (colorOf_lt (hi.fits hi.hi)).1
  have hf : (pre ++ i :: post).findIdx? (fun k => k.map (·.hi) == T.value ⟨ty, colorOf T ty (i.map (·.hi))⟩) = some pre.length := by
    rw [List.map_append, List.map_cons, List.nodup_append] at hn
    rw [List.findIdx?_append, List.findIdx?_eq_none_iff.2, List.findIdx?_cons, upper_iff hi hlt]
    · simp
    · intro k hk
      rw [upper_iff (hin k (List.mem_append_left _ hk)) hlt]
      refine decide_eq_false fun e => ?_
      exact hn.2.2 _ (List.mem_map.2 ⟨k, hk, rfl⟩) _ List.mem_cons_self e
  have hne : ∀ k ∈ pre ++ i :: post, k.isEmpty = false := by
    intro k hk
    have := (hin k hk).length
    cases k with
    | nil => exact absurd (List.length_eq_zero_iff.1 this.symm) hd
    | cons => rfl
  cases post with
  | nil =>
    have h0 : (pre ++ [i]).getD 0 [] ∈ pre ++ [i] := by
      rw [List.getD_eq_getElem?_getD]
      cases pre <;> simp
    have hx : IVec.next (pre ++ [i]) (T.value ⟨ty, colorOf T ty (i.map (·.hi))⟩) = (pre ++ [i]).getD 0 [] := by
      unfold IVec.next
      rw [hf]
      simp only
      rw [if_neg (by simp)]
    unfold stepVar
    rw [hx]
    simp only
    rw [hne _ h0, if_neg Bool.false_ne_true, decide_true]
  | cons j post =>
    have hj : (pre ++ i :: j :: post).getD (pre.length + 1) [] = j := by
      rw [List.getD_eq_getElem?_getD, List.getElem?_append_right (by omega)]
      simp
    have hjm : j ∈ pre ++ i :: j :: post := List.mem_append_right _ (List.mem_cons_of_mem _ List.mem_cons_self)
    have hx : IVec.next (pre ++ i :: j :: post) (T.value ⟨ty, colorOf T ty (i.map (·.hi))⟩) = j := by
      unfold IVec.next
      rw [hf]
      simp only
      rw [if_pos (by simp), hj]
    have : j ≠ (pre ++ i :: j :: post).getD 0 [] := by
      intro e
      cases pre with
      | nil =>
        simp only [List.nil_append, List.map_cons, List.nodup_cons] at hn
        have e : j = i := by simpa using e
        exact hn.1 (by rw [e]; exact List.mem_cons_self)
      | cons k pre =>
        have e : j = k := by simpa using e
        rw [List.cons_append, List.map_cons, List.nodup_cons] at hn
        exact hn.1 (List.mem_map.2 ⟨j, List.mem_append_right _ (List.mem_cons_of_mem _ List.mem_cons_self), by rw [e]⟩)
    unfold stepVar
    rw [hx]
    simp only
    rw [hne j hjm, if_neg Bool.false_ne_true, decide_eq_false this]

theorem walk_seg {ty : Nat} {vec : IVec} (hd : T.dims ty ≠ []) (hin : IVec.In (T.dims ty) vec) (hn : (vec.map fun i => colorOf T ty (i.map (·.hi))).Nodup)
    (hb : ∀ i ∈ vec, ∀ j ∈ vec, ¬ (colorOf T ty i.lowerIds ≤ colorOf T ty (j.map (·.hi)) ∧ colorOf T ty (j.map (·.hi)) < colorOf T ty (i.map (·.hi)))) :
    (post pre : IVec) → (i : Interval) → vec = pre ++ i :: post → (n a : Nat) → colorOf T ty i.lowerIds ≤ a → a + n = colorOf T ty (i.map (·.hi)) →
    Turns (fun i => some (stepVar T ty vec i)) (colorOf T ty (vec.getD 0 []).lowerIds) a (List.range' (a + 1) n ++ walkOf T ty post)
  | post, pre, i, he, n + 1, a, h1, h2 => by
    have hi : i ∈ vec := by rw [he]; exact List.mem_append_right _ List.mem_cons_self
    have hlt := (colorOf_lt ((hin i hi).fits (hin i hi).hi)).1
    refine ⟨?_, walk_seg hd hin hn hb post pre i he n (a + 1) (by omega) (by omega)⟩
    show some (stepVar T ty vec a) = _
    rw [stepVar_in hin (by omega) fun j hj e => hb i hi j hj ⟨by omega, by omega⟩]
  | [], pre, i, he, 0, a, h1, h2 => by
    have h2 : a = colorOf T ty (i.map (·.hi)) := h2
    subst he
    have := stepVar_end hd hin hn
    simp only at this
    show some (stepVar T ty (pre ++ [i]) a) = _
    rw [h2, this]
  | j :: post, pre, i, he, 0, a, h1, h2 => by
    have h2 : a = colorOf T ty (i.map (·.hi)) := h2
    have hj : j ∈ vec := by rw [he]; exact List.mem_append_right _ (List.mem_cons_of_mem _ List.mem_cons_self)
    have hlo := enc_mono (T.dims ty) j _ (hin j hj).lo
    have he' : vec = (pre ++ [i]) ++ j :: post := by rw [he]; simp
    have ih := walk_seg hd hin hn hb post (pre ++ [i]) j he' (colorOf T ty (j.map (·.hi)) - colorOf T ty j.lowerIds) (colorOf T ty j.lowerIds) (Nat.le_refl _) (by
      have := hlo.2
      unfold colorOf Interval.lowerIds
      omega)
    rw [walkOf, List.map_cons, List.flatten_cons, List.range'_succ]
    refine ⟨?_, ih⟩
    have := stepVar_end hd (he ▸ hin) (he ▸ hn)
    simp only at this
    show some (stepVar T ty vec a) = _
    rw [h2, he, this]

theorem walk_tame {ty : Nat} {vec : IVec} (hd : T.dims ty ≠ []) (hin : IVec.In (T.dims ty) vec) (ht : tame T ty vec = true) : Walk T ty vec (walkOf T ty vec) := by
  unfold tame at ht
  rw [Bool.and_eq_true, Bool.and_eq_true] at ht
  obtain ⟨⟨h1, h2⟩, h3⟩ := ht
  cases vec with
  | nil => cases h1
  | cons i is =>
    have hi := hin i List.mem_cons_self
    have hlo := enc_mono (T.dims ty) i _ hi.lo
    have := walk_seg hd hin (of_decide_eq_true h2) (fun a ha b hb => by
      have := List.all_eq_true.1 (List.all_eq_true.1 h3 a ha) b hb
      simp only [Bool.not_eq_true', Bool.and_eq_false_iff, decide_eq_false_iff_not] at this
      omega) is [] i rfl (colorOf T ty (i.map (·.hi)) - colorOf T ty i.lowerIds) (colorOf T ty i.lowerIds) (Nat.le_refl _) (by
      have := hlo.2
      unfold colorOf Interval.lowerIds
      omega)
    exact ⟨i, is, colorOf T ty i.lowerIds, _, rfl, by rw [walkOf, List.map_cons, List.flatten_cons, List.range'_succ]; rfl, rfl, this⟩

theorem walkOf_lt {ty : Nat} {vec : IVec} (hin : IVec.In (T.dims ty) vec) : ∀ a ∈ walkOf T ty vec, a < T.size ty := by
  intro a ha
  obtain ⟨l, h1, h2⟩ := List.mem_flatten.1 ha
  obtain ⟨i, hi, rfl⟩ := List.mem_map.1 h1
  have h3 := (colorOf_lt ((hin i hi).fits (hin i hi).hi)).1
  have h4 := (enc_mono (T.dims ty) i _ (hin i hi).lo).2
  have h5 := List.mem_range'_1.1 h2
  unfold colorOf at h5 h3
  unfold Interval.lowerIds at h5
  omega

theorem walkOf_has {ty : Nat} {vec : IVec} {x : Val} (hx : IVec.Has vec x) : colorOf T ty x ∈ walkOf T ty vec := by
  obtain ⟨i, hi, h⟩ := hx
  obtain ⟨h1, h2⟩ := enc_mono (T.dims ty) i x h
  refine List.mem_flatten.2 ⟨_, List.mem_map.2 ⟨i, hi, rfl⟩, List.mem_range'_1.2 ?_⟩
  unfold colorOf Interval.lowerIds
  omega

/-! ### The bindings of one map after those of another -/

/-- From `x` the generator goes through the list and ends. -/
def Runs {α : Type} (f : α → Option (Option α)) : α → List α → Prop
  | x, [] => f x = some none
  | x, y :: ys => f x = some (some y) ∧ Runs f y ys

theorem runs_map {maps : List VMap} {k : Nat} {b : Binding} {rest : List (Nat × Binding)}
    (hrest : (rest = [] ∧ k + 1 ≥ maps.length) ∨ (k + 1 < maps.length ∧ ∃ c r, firstG T vty (maps.getD (k + 1) []) (b.map (·.1)) = some c ∧ rest = (k + 1, c) :: r ∧
      Runs (stepG T vty maps) (k + 1, c) r)) :
    (x : Binding) → (xs : List Binding) → Turns (bumpG T vty (maps.getD k [])) b x xs → Runs (stepG T vty maps) (k, x) ((xs.map fun y => (k, y)) ++ rest)
  | x, [], h => by
    have h : bumpG T vty (maps.getD k []) x = some (b, true) := h
    rw [List.map_nil, List.nil_append]
    rcases hrest with ⟨rfl, h1⟩ | ⟨h1, c, r, h2, rfl, h3⟩
    · show stepG T vty maps (k, x) = _
      unfold stepG
      rw [h]
      simp only
      rw [if_pos h1]
    · refine ⟨?_, h3⟩
      unfold stepG
      rw [h]
      simp only
      rw [if_neg (by omega), h2]
      rfl
  | x, y :: xs, h => by
    refine ⟨?_, runs_map hrest y xs h.2⟩
    unfold stepG
    rw [h.1]

/-- The bindings of the maps from number `k` on. -/
def fromMap (A : Nat → List Binding) (n k : Nat) : List (Nat × Binding) := ((List.range' k (n - k)).map fun j => (A j).map fun b => (j, b)).flatten

theorem runs_maps {maps : List VMap} {vs : List Nat} {A : Nat → List Binding}
    (hA : ∀ k < maps.length, ∃ b bs, A k = b :: bs ∧ b.map (·.1) = vs ∧ firstG T vty (maps.getD k []) vs = some b ∧ Turns (bumpG T vty (maps.getD k [])) b b bs) :
    (d k : Nat) → k + d + 1 = maps.length → ∃ b r, firstG T vty (maps.getD k []) vs = some b ∧ fromMap A maps.length k = (k, b) :: r ∧ Runs (stepG T vty maps) (k, b) r
  | d, k, h => by
    obtain ⟨b, bs, h1, h2, h3, h4⟩ := hA k (by omega)
    have he : fromMap A maps.length k = (k, b) :: ((bs.map fun y => (k, y)) ++ fromMap A maps.length (k + 1)) := by
      unfold fromMap
      obtain ⟨n, hn⟩ : ∃ n, maps.length - k = n + 1 := ⟨maps.length - k - 1, by omega⟩
      rw [hn, List.range'_succ, List.map_cons, List.flatten_cons, h1, List.map_cons, List.cons_append, show maps.length - (k + 1) = n from by omega]
    refine ⟨b, _, h3, he, runs_map ?_ b bs h4⟩
    cases d with
    | zero =>
      left
      refine ⟨?_, by omega⟩
      unfold fromMap
      rw [show maps.length - (k + 1) = 0 from by omega]
      rfl
    | succ d =>
      right
      obtain ⟨c, r, g1, g2, g3⟩ := runs_maps hA d (k + 1) (by omega)
      exact ⟨by omega, c, r, by rw [h2]; exact g1, g2, g3⟩

/-! ### The guard -/

theorem next_runs {maps : List VMap} {g : Option Guard} : (l : List (Nat × Binding)) → (x : Nat × Binding) → Runs (stepG T vty maps) x l →
    (∀ y ∈ l, ∃ r, guardEval T vty y.2 g = some r) → (n : Nat) →
    (n ≤ l.length ∧ nextG T vty maps g n x = none) ∨
    ((l.filter fun y => guardEval T vty y.2 g == some true) = [] ∧ nextG T vty maps g n x = some none) ∨
    ∃ y post, nextG T vty maps g n x = some (some y) ∧
      (l.filter fun y => guardEval T vty y.2 g == some true) = y :: (post.filter fun y => guardEval T vty y.2 g == some true) ∧
      Runs (stepG T vty maps) y post ∧ post.length < l.length ∧ ∀ z ∈ post, z ∈ l
  | _, x, _, _, 0 => Or.inl ⟨Nat.zero_le _, rfl⟩
  | [], x, h, _, n + 1 => by
    right; left
    refine ⟨rfl, ?_⟩
    have h : stepG T vty maps x = some none := h
    rw [nextG, h]
  | y :: l, x, h, hg, n + 1 => by
    obtain ⟨r, hr⟩ := hg y List.mem_cons_self
    rw [nextG, h.1]
    simp only
    rw [hr]
    cases r with
    | true =>
      right; right
      refine ⟨y, l, rfl, ?_, h.2, Nat.lt_succ_self _, fun z hz => List.mem_cons_of_mem _ hz⟩
      rw [List.filter_cons, hr, if_pos (by simp)]
    | false =>
      simp only
      have hf : ((y :: l).filter fun y => guardEval T vty y.2 g == some true) = l.filter fun y => guardEval T vty y.2 g == some true := by
        rw [List.filter_cons, hr, if_neg (by simp)]
      rw [hf]
      rcases next_runs l y h.2 (fun z hz => hg z (List.mem_cons_of_mem _ hz)) n with ⟨h1, h2⟩ | h1 | ⟨z, post, h1, h2, h3, h4, h5⟩
      · exact Or.inl ⟨Nat.succ_le_succ h1, h2⟩
      · exact Or.inr (Or.inl h1)
      · exact Or.inr (Or.inr ⟨z, post, h1, h2, h3, Nat.lt_succ_of_lt h4, fun z hz => List.mem_cons_of_mem _ (h5 z hz)⟩)

theorem iter_runs {maps : List VMap} {g : Option Guard} : (n : Nat) → (l : List (Nat × Binding)) → (x : Nat × Binding) → Runs (stepG T vty maps) x l →
    (∀ y ∈ l, ∃ r, guardEval T vty y.2 g = some r) →
    (n ≤ l.length ∧ iterG T vty maps g n x = none) ∨
    iterG T vty maps g n x = some (x.2 :: (l.filter fun y => guardEval T vty y.2 g == some true).map (·.2))
  | 0, l, x, _, _ => Or.inl ⟨Nat.zero_le _, rfl⟩
  | n + 1, l, x, h, hg => by
    rw [iterG]
    rcases next_runs l x h hg (n + 1) with ⟨h1, h2⟩ | ⟨h1, h2⟩ | ⟨y, post, h1, h2, h3, h4, h5⟩
    · rw [h2]; exact Or.inl ⟨h1, rfl⟩
    · rw [h2, h1]; exact Or.inr rfl
    · rw [h1, h2]
      simp only
      rcases iter_runs n post y h3 (fun z hz => hg z (h5 z hz)) with ⟨g1, g2⟩ | g1
      · rw [g2]; exact Or.inl ⟨by omega, rfl⟩
      · rw [g1]; exact Or.inr rfl

/-- The whole iteration: the bindings of the maps, one map after the other, that satisfy the guard. -/
theorem fix_runs {maps : List VMap} {t : CTrans} {A : Nat → List Binding} (hne : maps ≠ [])
    (hA : ∀ k < maps.length, ∃ b bs, A k = b :: bs ∧ b.map (·.1) = t.vars ∧ firstG T vty (maps.getD k []) t.vars = some b ∧
      startG T vty (maps.getD k []) t.vars = some (some b) ∧ Turns (bumpG T vty (maps.getD k [])) b b bs)
    (hg : ∀ k < maps.length, ∀ b ∈ A k, ∃ r, guardEval T vty b t.guard = some r) (fuel : Nat) :
    (fuel < (fromMap A maps.length 0).length ∧ fixBindings T vty maps fuel t = none) ∨
    fixBindings T vty maps fuel t = some (((fromMap A maps.length 0).map (·.2)).filter fun b => guardEval T vty b t.guard == some true) := by
  have hl : 0 < maps.length := List.length_pos_iff.2 hne
  obtain ⟨b, r, h1, h2, h3⟩ := runs_maps (A := A) (vs := t.vars) (fun k hk => by
    obtain ⟨b, bs, h1, h2, h3, _, h4⟩ := hA k hk
    exact ⟨b, bs, h1, h2, h3, h4⟩) (maps.length - 1) 0 (by omega)
  obtain ⟨b', bs, g1, g2, g3, g4, g5⟩ := hA 0 hl
  have hb : b' = b := by rw [g3] at h1; exact Option.some.inj h1
  subst hb
  have hgf : ∀ y ∈ fromMap A maps.length 0, ∃ r, guardEval T vty y.2 t.guard = some r := by
    intro y hy
    obtain ⟨l, h5, h6⟩ := List.mem_flatten.1 hy
    obtain ⟨k, hk, rfl⟩ := List.mem_map.1 h5
    obtain ⟨c, hc, rfl⟩ := List.mem_map.1 h6
    have := List.mem_range'_1.1 hk
    exact hg k (by omega) c hc
  rw [h2] at hgf ⊢
  have hgr : ∀ y ∈ r, ∃ r, guardEval T vty y.2 t.guard = some r := fun y hy => hgf y (List.mem_cons_of_mem _ hy)
  have hempty : (!t.vars.isEmpty && (maps.getD 0 []).isEmpty) = false := by
    cases hv : t.vars with
    | nil => rfl
    | cons v vs =>
      cases hm : maps.getD 0 [] with
      | nil =>
        rw [hv, hm, firstG] at g3
        cases g3
      | cons => rfl
  unfold fixBindings
  rw [hempty, if_neg Bool.false_ne_true, g4]
  simp only
  obtain ⟨v, hv⟩ := hgf (0, b') List.mem_cons_self
  simp only at hv
  rw [hv]
  have hfm : ∀ l : List (Nat × Binding), (l.map (·.2)).filter (fun b => guardEval T vty b t.guard == some true) =
      (l.filter fun y => guardEval T vty y.2 t.guard == some true).map (·.2) := by
    intro l
    rw [List.filter_map]
    rfl
  cases v with
  | true =>
    simp only
    rw [hfm, List.filter_cons]
    simp only [hv, BEq.rfl, if_true]
    rcases iter_runs fuel r (0, b') h3 hgr with ⟨h4, h5⟩ | h4
    · exact Or.inl ⟨Nat.lt_succ_of_le h4, h5⟩
    · exact Or.inr h4
  | false =>
    simp only
    rw [hfm, List.filter_cons]
    simp only [hv]
    rw [if_neg (by simp)]
    rcases next_runs r (0, b') h3 hgr fuel with ⟨h4, h5⟩ | ⟨h4, h5⟩ | ⟨y, post, h4, h5, h6, h7, h8⟩
    · rw [h5]; exact Or.inl ⟨Nat.lt_succ_of_le h4, rfl⟩
    · rw [h5, h4]; exact Or.inr rfl
    · rw [h4, h5]
      simp only
      rcases iter_runs fuel post y h6 (fun z hz => hgr z (h8 z hz)) with ⟨h9, h10⟩ | h9
      · exact Or.inl ⟨by rw [List.length_cons]; omega, h10⟩
      · exact Or.inr h9

end CFP
end Verif
