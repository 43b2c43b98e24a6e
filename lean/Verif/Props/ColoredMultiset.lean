import Verif.Colored.Multiset

/-!
# C33: coloured multisets behave as multisets
-/

namespace Verif
namespace ColMsProps
open ColMs

/-- The two multisets are not over different colour types. -/
def Compat (s o : Ms) : Prop := s.type = none ∨ o.type = none ∨ s.type = o.type

theorem get_lt {s : Ms} (h : Ok s) (c : Color) : s.get c < W := by
  unfold Ms.get
  split
  · exact look_lt h.lt _
  · split
    · exact look_lt h.lt _
    · decide

/-- The type after an operation with `o`. -/
def joinType (s o : Ms) : Option Nat := if s.type = none then o.type else s.type

theorem joinType_cases {s o : Ms} (hc : Compat s o) :
    (o.type = none ∨ joinType s o = o.type) ∧ (s.type = none ∨ joinType s o = s.type) := by
  unfold joinType
  rcases hc with h | h | h
  · simp [h]
  · by_cases hs : s.type = none
    · simp [h, hs]
    · simp [h, hs]
  · simp [h]

theorem get_retype {s : Ms} (h : Ok s) {t : Nat} (ht : s.type = none ∨ s.type = some t) (c : Color) :
    s.get c = if t = c.type then look s.set c.id else 0 := by
  rcases ht with ht | ht
  · rw [get_none h ht, h.typed ht]; simp [look]
  · exact get_some ht c

/-- **C33**, addition (counts are 32-bit numbers and wrap). -/
theorem C33_add {s o : Ms} (hs : Ok s) (ho : Ok o) (hc : Compat s o) :
    ∃ r, s.add o = .ok r ∧ Ok r ∧ r.type = joinType s o ∧ ∀ c, r.get c = (s.get c + o.get c) % W := by
  obtain ⟨j1, j2⟩ := joinType_cases hc
  have hthrow : ¬ (o.type ≠ none ∧ joinType s o ≠ o.type) := by
    rintro ⟨a, b⟩
    rcases j1 with j1 | j1
    · exact a j1
    · exact b j1
  unfold Ms.add
  simp only
  change ∃ r, (if o.type ≠ none ∧ joinType s o ≠ o.type then R.thrown
    else addLoop o.set { s with type := joinType s o }) = .ok r ∧ _
  rw [if_neg hthrow]
  cases ht : joinType s o with
  | none =>
    have h1 : s.type = none := by
      rcases j2 with h | h
      · exact h
      · rw [← h, ht]
    have h2 : o.type = none := by
      rcases j1 with h | h
      · exact h
      · rw [← h, ht]
    rw [ho.typed h2]
    refine ⟨_, rfl, ⟨hs.nodup, hs.lt, fun _ => hs.typed h1⟩, rfl, fun c => ?_⟩
    rw [get_none hs h1, get_none ho h2]
    simp [Ms.get, hs.typed h1, look]
  | some t =>
    obtain ⟨r, h1, h2, h3, h4⟩ := addLoop_ok o.set ho.nodup { s with type := some t } t hs.nodup hs.lt rfl
    refine ⟨r, h1, h2, h3, fun c => ?_⟩
    have a1 : s.type = none ∨ s.type = some t := by rw [← ht]; exact j2.imp_right Eq.symm
    have a2 : o.type = none ∨ o.type = some t := by rw [← ht]; exact j1.imp_right Eq.symm
    rw [get_some h3, get_retype hs a1, get_retype ho a2, h4]
    split
    · rfl
    · rfl

/-- **C33**, subtraction, truncated at 0. -/
theorem C33_sub {s o : Ms} (hs : Ok s) (ho : Ok o) (hc : Compat s o) :
    ∃ r, s.sub o = .ok r ∧ Ok r ∧ r.type = joinType s o ∧ ∀ c, r.get c = s.get c - o.get c := by
  obtain ⟨j1, j2⟩ := joinType_cases hc
  have hthrow : ¬ (o.type ≠ none ∧ joinType s o ≠ o.type) := by
    rintro ⟨a, b⟩
    rcases j1 with j1 | j1
    · exact a j1
    · exact b j1
  unfold Ms.sub
  simp only
  change ∃ r, (if o.type ≠ none ∧ joinType s o ≠ o.type then R.thrown
    else subLoop o s.set { s with type := joinType s o }) = .ok r ∧ _
  rw [if_neg hthrow]
  cases ht : joinType s o with
  | none =>
    have h1 : s.type = none := by
      rcases j2 with h | h
      · exact h
      · rw [← h, ht]
    have h2 : o.type = none := by
      rcases j1 with h | h
      · exact h
      · rw [← h, ht]
    rw [hs.typed h1]
    refine ⟨_, rfl, ⟨by simp, by simp, fun _ => rfl⟩, rfl, fun c => ?_⟩
    rw [get_none hs h1, get_none ho h2]
    simp [Ms.get, look]
  | some t =>
    obtain ⟨r, h1, h2, h3, _, h4⟩ := subLoop_ok o t s.set hs.nodup { s with type := some t }
      ⟨hs.nodup, hs.lt, by simp⟩ rfl (fun e he => he)
    refine ⟨r, h1, h2, h3, fun c => ?_⟩
    have a1 : s.type = none ∨ s.type = some t := by rw [← ht]; exact j2.imp_right Eq.symm
    rw [get_some h3, get_retype hs a1, h4]
    obtain ⟨ct, ci⟩ := c
    by_cases hh : t = ct
    · subst hh
      simp only [if_true]
      split
      · rfl
      · rename_i hm
        rw [look_of_notMem hm]; simp
    · simp [hh]

/-- Adding or subtracting multisets over different colour types throws, and only that. -/
theorem C33_type_error {s o : Ms} (hs : Ok s) (ho : Ok o) :
    (s.add o = .thrown ↔ ¬ Compat s o) ∧ (s.sub o = .thrown ↔ ¬ Compat s o) := by
  by_cases hc : Compat s o
  · obtain ⟨r, h1, _⟩ := C33_add hs ho hc
    obtain ⟨r', h2, _⟩ := C33_sub hs ho hc
    rw [h1, h2]
    simp [hc]
  · have hc' := hc
    unfold Compat at hc
    push Not at hc
    obtain ⟨h1, h2, h3⟩ := hc
    simp only [Ms.add, Ms.sub, h1, if_false]
    rw [if_pos ⟨h2, h3⟩, if_pos ⟨h2, h3⟩]
    simp [hc']

/-- **C33**, scaling (counts wrap). -/
theorem C33_mul {s : Ms} (hs : Ok s) (n : Nat) :
    Ok (s.mul n) ∧ (s.mul n).type = s.type ∧ ∀ c, (s.mul n).get c = s.get c * n % W := by
  refine ⟨⟨?_, ?_, ?_⟩, rfl, fun c => ?_⟩
  · simp only [Ms.mul, List.map_map]
    exact hs.nodup
  · intro e he
    simp only [Ms.mul, List.mem_map] at he
    obtain ⟨c, _, rfl⟩ := he
    exact Nat.mod_lt _ (by decide)
  · intro ht
    simp only [Ms.mul] at ht ⊢
    rw [hs.typed ht]; rfl
  · unfold Ms.get Ms.mul
    simp only [look_map]
    split
    · rfl
    · split
      · rfl
      · simp

theorem exists_color {s : Ms} (hs : Ok s) {e : Nat × Nat} (he : e ∈ s.set) : ∃ c, s.get c = e.2 := by
  cases ht : s.type with
  | none => rw [hs.typed ht] at he; simp at he
  | some t => exact ⟨⟨t, e.1⟩, by rw [get_some ht]; simpa using look_of_mem hs.nodup he⟩

theorem get_mem {s : Ms} {c : Color} (h : 0 < s.get c) : ∃ e ∈ s.set, e.2 = s.get c := by
  have key : ∀ l : List (Nat × Nat), 0 < look l c.id → ∃ e ∈ l, e.2 = look l c.id := by
    intro l
    induction l with
    | nil => simp [look]
    | cons a l ih =>
      intro hl
      simp only [look] at hl ⊢
      split at hl
      · rename_i ha; exact ⟨a, by simp, by simp [ha]⟩
      · rename_i ha
        obtain ⟨e, h1, h2⟩ := ih hl
        exact ⟨e, by simp [h1], by simp [ha, h2]⟩
  unfold Ms.get at h ⊢
  split at h
  · rename_i ht; rw [if_pos ht]; exact key _ h
  · split at h
    · rename_i h1 h2; rw [if_neg h1, if_pos h2]; exact key _ h
    · simp at h

/-- **C33**, emptiness. -/
theorem C33_empty {s : Ms} (hs : Ok s) : s.empty = true ↔ ∀ c, s.get c = 0 := by
  unfold Ms.empty
  rw [List.all_eq_true]
  constructor
  · intro h c
    by_contra hc
    obtain ⟨e, h1, h2⟩ := get_mem (Nat.pos_of_ne_zero hc)
    have := h e h1
    simp at this
    omega
  · intro h e he
    obtain ⟨c, hc⟩ := exists_color hs he
    have := h c
    simp; omega

/-- **C33**, inclusion. -/
theorem C33_isSubsetOrEqTo {s o : Ms} (hs : Ok s) (ho : Ok o) (hc : Compat s o) :
    ∃ b, s.isSubsetOrEqTo o = .ok b ∧ (b = true ↔ ∀ c, s.get c ≤ o.get c) := by
  obtain ⟨r, h1, h2, _, h4⟩ := C33_sub hs ho hc
  refine ⟨r.empty, by simp [Ms.isSubsetOrEqTo, h1], ?_⟩
  rw [C33_empty h2]
  refine forall_congr' fun c => ?_
  rw [h4]; omega

theorem compat_symm {s o : Ms} (h : Compat s o) : Compat o s := by
  rcases h with h | h | h
  · exact .inr (.inl h)
  · exact .inl h
  · exact .inr (.inr h.symm)

/-- **C33**, proper inclusion. -/
theorem C33_isSubsetOf {s o : Ms} (hs : Ok s) (ho : Ok o) (hc : Compat s o) :
    ∃ b, s.isSubsetOf o = .ok b ∧
      (b = true ↔ (∀ c, s.get c ≤ o.get c) ∧ ∃ c, s.get c ≠ o.get c) := by
  obtain ⟨r, h1, h2, _, h4⟩ := C33_sub hs ho hc
  obtain ⟨r', g1, g2, _, g4⟩ := C33_sub ho hs (compat_symm hc)
  refine ⟨r.empty && !r'.empty, by simp [Ms.isSubsetOf, h1, g1], ?_⟩
  simp only [Bool.and_eq_true, Bool.not_eq_true', ← Bool.not_eq_true]
  rw [C33_empty h2, C33_empty g2]
  push Not
  constructor
  · rintro ⟨a, c, b⟩
    refine ⟨fun c => ?_, c, ?_⟩
    · have := a c; rw [h4] at this; omega
    · rw [g4] at b; omega
  · rintro ⟨a, c, b⟩
    refine ⟨fun c => ?_, c, ?_⟩
    · rw [h4]; have := a c; omega
    · rw [g4]; have := a c; omega

/-- **C33**, size: the sum of the counts over the colours of the type, if the ids are below `n`. -/
theorem C33_size {s : Ms} (hs : Ok s) {t n : Nat} (ht : s.type = some t) (hn : ∀ e ∈ s.set, e.1 < n) :
    s.size = ((List.range n).map fun i => s.get ⟨t, i⟩).sum := by
  have hget : ∀ i, s.get ⟨t, i⟩ = look s.set i := fun i => by rw [get_some ht]; simp
  simp only [hget, Ms.size]
  have key : ∀ l : List (Nat × Nat), (l.map Prod.fst).Nodup → (∀ e ∈ l, e.1 < n) →
      (l.map Prod.snd).sum = ((List.range n).map (look l)).sum := by
    intro l
    induction l with
    | nil =>
      intro _ _
      have : (List.range n).map (look []) = List.replicate n 0 := by
        rw [List.eq_replicate_iff]
        refine ⟨by simp, ?_⟩
        intro b hb
        simp only [List.mem_map] at hb
        obtain ⟨_, _, rfl⟩ := hb; rfl
      rw [this]; simp
    | cons c l ih =>
      intro h1 h2
      simp only [List.map_cons, List.nodup_cons] at h1
      rw [List.map_cons, List.sum_cons, ih h1.2 fun e he => h2 e (by simp [he])]
      have hc := h2 c (by simp)
      have hl0 := look_of_notMem h1.1
      have : ∀ m, ((List.range m).map (look (c :: l))).sum =
          ((List.range m).map (look l)).sum + if c.1 < m then c.2 else 0 := by
        intro m
        induction m with
        | zero => simp
        | succ m ihm =>
          rw [List.range_succ, List.map_append, List.map_append, List.sum_append, List.sum_append, ihm]
          simp only [List.map_cons, List.map_nil, List.sum_cons, List.sum_nil, Nat.add_zero, look]
          by_cases hm : c.1 = m
          · subst hm; simp [hl0]
          · by_cases hm' : c.1 < m
            · simp [hm, hm', Nat.lt_succ_of_lt hm']; omega
            · have : ¬ c.1 < m + 1 := by omega
              simp [hm, hm', this]
      rw [this n, if_pos hc, Nat.add_comm]
  exact key s.set hs.nodup hn

/-- **C33**, the constructor from a list of colours of one type. -/
theorem C33_ofList (t : Nat) (l : List (Color × Nat)) (ht : ∀ x ∈ l, x.1.type = t) :
    ∃ s, Ms.ofList l {} = .ok s ∧ Ok s ∧ (s.type = none ∨ s.type = some t) ∧
      ∀ c, s.get c = ((l.filter fun x => x.1 = c).map Prod.snd).sum % W := by
  obtain ⟨s, h1, h2, h3, h4⟩ := ofList_ok t l ht {} Ok.empty (.inl rfl)
  refine ⟨s, h1, h2, h3, fun c => ?_⟩
  rw [h4, get_none Ok.empty rfl, Nat.zero_add]

/-! ### Every sequence of operations -/

/-- Multisets built by the operations. -/
inductive Term
  | lit (l : List (Color × Nat))
  | add (a b : Term)
  | sub (a b : Term)
  | mul (a : Term) (n : Nat)

/-- What the code computes. -/
def Term.run : Term → R Ms
  | .lit l => Ms.ofList l {}
  | .add a b => match a.run, b.run with
    | .ok x, .ok y => x.add y
    | _, _ => .thrown
  | .sub a b => match a.run, b.run with
    | .ok x, .ok y => x.sub y
    | _, _ => .thrown
  | .mul a n => match a.run with
    | .ok x => .ok (x.mul n)
    | .thrown => .thrown

/-- What it should be: functions from colours to numbers. -/
def Term.val : Term → Color → Nat
  | .lit l, c => ((l.filter fun x => x.1 = c).map Prod.snd).sum
  | .add a b, c => a.val c + b.val c
  | .sub a b, c => a.val c - b.val c
  | .mul a n, c => a.val c * n

/-- All colours are of type `t`. -/
def Term.Typed (t : Nat) : Term → Prop
  | .lit l => ∀ x ∈ l, x.1.type = t
  | .add a b => a.Typed t ∧ b.Typed t
  | .sub a b => a.Typed t ∧ b.Typed t
  | .mul a _ => a.Typed t

/-- No count exceeds 32 bits, in any part of the term. -/
def Term.Small : Term → Prop
  | .lit l => ∀ c, (Term.lit l).val c < W
  | .add a b => a.Small ∧ b.Small ∧ ∀ c, a.val c + b.val c < W
  | .sub a b => a.Small ∧ b.Small
  | .mul a n => a.Small ∧ ∀ c, a.val c * n < W

/-- **C33**.  Every combination of the operations over one colour type yields a valid representation of
the mathematical multiset, as long as no count exceeds 32 bits. -/
theorem C33_operations_partial (t : Nat) (a : Term) (ht : a.Typed t) (hs : a.Small) :
    ∃ s, a.run = .ok s ∧ Ok s ∧ (s.type = none ∨ s.type = some t) ∧ ∀ c, s.get c = a.val c := by
  have compat : ∀ {x y : Ms}, (x.type = none ∨ x.type = some t) → (y.type = none ∨ y.type = some t) →
      Compat x y := by
    rintro x y (h | h) (g | g)
    · exact .inl h
    · exact .inl h
    · exact .inr (.inl g)
    · exact .inr (.inr (h.trans g.symm))
  have join : ∀ {x y : Ms}, (x.type = none ∨ x.type = some t) → (y.type = none ∨ y.type = some t) →
      (joinType x y = none ∨ joinType x y = some t) := by
    intro x y h g
    unfold joinType
    split
    · exact g
    · exact h
  induction a with
  | lit l =>
    obtain ⟨s, h1, h2, h3, h4⟩ := C33_ofList t l ht
    exact ⟨s, h1, h2, h3, fun c => by rw [h4]; exact Nat.mod_eq_of_lt (hs c)⟩
  | add a b iha ihb =>
    obtain ⟨x, h1, h2, h3, h4⟩ := iha ht.1 hs.1
    obtain ⟨y, g1, g2, g3, g4⟩ := ihb ht.2 hs.2.1
    obtain ⟨r, k1, k2, k3, k4⟩ := C33_add h2 g2 (compat h3 g3)
    refine ⟨r, by simp only [Term.run, h1, g1]; exact k1, k2, by rw [k3]; exact join h3 g3, fun c => ?_⟩
    rw [k4, h4, g4]
    exact Nat.mod_eq_of_lt (hs.2.2 c)
  | sub a b iha ihb =>
    obtain ⟨x, h1, h2, h3, h4⟩ := iha ht.1 hs.1
    obtain ⟨y, g1, g2, g3, g4⟩ := ihb ht.2 hs.2
    obtain ⟨r, k1, k2, k3, k4⟩ := C33_sub h2 g2 (compat h3 g3)
    refine ⟨r, by simp only [Term.run, h1, g1]; exact k1, k2, by rw [k3]; exact join h3 g3, fun c => ?_⟩
    rw [k4, h4, g4]
    rfl
  | mul a n iha =>
    obtain ⟨x, h1, h2, h3, h4⟩ := iha ht hs.1
    obtain ⟨k1, k2, k3⟩ := C33_mul h2 n
    refine ⟨x.mul n, by simp only [Term.run, h1], k1, by rw [k2]; exact h3, fun c => ?_⟩
    rw [k3, h4]
    exact Nat.mod_eq_of_lt (hs.2 c)

/-- Beyond 32 bits the counts wrap. -/
theorem C33_finding_wraps :
    (Term.mul (.lit [(⟨1, 0⟩, 3000000000)]) 2).run = .ok ⟨some 1, [(0, 1705032704)]⟩ := by decide

/-- `distinctSize` also counts colours that were subtracted away; the reduction rule for parallel
places (src/PetriEngine/Colored/Reduction/RedRuleParallelPlaces.cpp:67-68) compares supports with it. -/
theorem C33_finding_distinct_size :
    ∃ s, (Term.sub (.lit [(⟨1, 0⟩, 1), (⟨1, 1⟩, 1)]) (.lit [(⟨1, 0⟩, 1)])).run = .ok s ∧
      s.distinctSize = 2 ∧ ∀ c, s.get c = if c = ⟨1, 1⟩ then 1 else 0 := by
  refine ⟨⟨some 1, [(0, 0), (1, 1)]⟩, by decide, rfl, ?_⟩
  rintro ⟨t, i⟩
  simp only [Ms.get, look, Color.mk.injEq]
  by_cases h : 1 = t
  · subst h
    by_cases h0 : 0 = i
    · subst h0; simp
    · by_cases h1 : 1 = i
      · subst h1; simp
      · simp [h0, h1, Ne.symm h1]
  · simp [h, Ne.symm h]

/-- Not vacuous: a term with all operations. -/
example : (Term.sub (.add (.lit [(⟨1, 0⟩, 2), (⟨1, 3⟩, 1), (⟨1, 0⟩, 5)]) (.mul (.lit [(⟨1, 3⟩, 4)]) 3))
    (.lit [(⟨1, 3⟩, 20), (⟨1, 0⟩, 6)])).run = .ok ⟨some 1, [(0, 1), (3, 0)]⟩ := by decide

end ColMsProps
end Verif
