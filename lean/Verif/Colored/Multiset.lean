import Mathlib.Algebra.BigOperators.Group.List.Basic
import Mathlib.Algebra.Order.BigOperators.Group.List

/-!
# Coloured multisets

Models `src/PetriEngine/Colored/Multiset.cpp` and `include/PetriEngine/Colored/Multiset.h`.  A colour
type is a number (its address); a colour is its type and its id.  Counts are `uint32_t` and wrap.
-/

namespace Verif
namespace ColMs

/-- Width of `uint32_t`. -/
def W : Nat := 2 ^ 32

/-- A colour: `getColorType()` and `getId()`. -/
structure Color where
  type : Nat
  id : Nat
deriving DecidableEq, Repr

/-- models include/PetriEngine/Colored/Multiset.h:85-87 (`_set`, `_type`). -/
structure Ms where
  type : Option Nat := none
  set : List (Nat × Nat) := []
deriving DecidableEq, Repr

/-- Result of an operation that may throw `base_error`. -/
inductive R (α : Type)
  | ok (a : α)
  | thrown
deriving DecidableEq, Repr

/-- The entry for a key, 0 if there is none. -/
def look : List (Nat × Nat) → Nat → Nat
  | [], _ => 0
  | c :: l, i => if c.1 = i then c.2 else look l i

/-- Writing through the reference found or appended by src/PetriEngine/Colored/Multiset.cpp:117-123. -/
def put : List (Nat × Nat) → Nat → (Nat → Nat) → List (Nat × Nat)
  | [], i, f => [(i, f 0)]
  | c :: l, i, f => if c.1 = i then (i, f c.2) :: l else c :: put l i f

/-- models src/PetriEngine/Colored/Multiset.cpp:95-108 (`operator[] const`). -/
def Ms.get (s : Ms) (c : Color) : Nat :=
  if s.type = some c.type then look s.set c.id
  else if s.type = none then look s.set c.id
  else 0

/-- models src/PetriEngine/Colored/Multiset.cpp:110-124 (`operator[]`, and storing `f` of the old value
through the reference). -/
def Ms.upd (s : Ms) (c : Color) (f : Nat → Nat) : R Ms :=
  let t := s.type.getD c.type
  if t ≠ c.type then .thrown else .ok ⟨some t, put s.set c.id f⟩

/-- models src/PetriEngine/Colored/Multiset.cpp:29-35 (the constructor from a list). -/
def Ms.ofList : List (Color × Nat) → Ms → R Ms
  | [], s => .ok s
  | (c, n) :: l, s =>
    match s.upd c (fun x => (x + n) % W) with
    | .thrown => .thrown
    | .ok s => ofList l s

/-- The colour type of `dot`, src/PetriEngine/Colored/Colors.cpp (`dotInstance`). -/
def dotType : Nat := 0

/-- The colour used for the entry `c` of a loop: `(*_type)[c.first]`, or `dot` without a type. -/
def colorOf (type : Option Nat) (i : Nat) : Color :=
  match type with
  | none => ⟨dotType, 0⟩
  | some t => ⟨t, i⟩

/-- The loop of src/PetriEngine/Colored/Multiset.cpp:64-69. -/
def addLoop : List (Nat × Nat) → Ms → R Ms
  | [], s => .ok s
  | c :: l, s =>
    match s.upd (colorOf s.type c.1) (fun x => (x + c.2) % W) with
    | .thrown => .thrown
    | .ok s => addLoop l s

/-- models src/PetriEngine/Colored/Multiset.cpp:57-70 (`operator+=`). -/
def Ms.add (s o : Ms) : R Ms :=
  let t := if s.type = none then o.type else s.type
  if o.type ≠ none ∧ t ≠ o.type then .thrown
  else addLoop o.set { s with type := t }

/-- The loop of src/PetriEngine/Colored/Multiset.cpp:79-84, over the entries of the receiver. -/
def subLoop (o : Ms) : List (Nat × Nat) → Ms → R Ms
  | [], s => .ok s
  | c :: l, s =>
    match s.upd (colorOf s.type c.1) (fun _ => if c.2 < o.get (colorOf s.type c.1) then 0
        else c.2 - o.get (colorOf s.type c.1)) with
    | .thrown => .thrown
    | .ok s => subLoop o l s

/-- models src/PetriEngine/Colored/Multiset.cpp:72-85 (`operator-=`). -/
def Ms.sub (s o : Ms) : R Ms :=
  let t := if s.type = none then o.type else s.type
  if o.type ≠ none ∧ t ≠ o.type then .thrown
  else subLoop o s.set { s with type := t }

/-- models src/PetriEngine/Colored/Multiset.cpp:87-91 (`operator*=`). -/
def Ms.mul (s : Ms) (n : Nat) : Ms := { s with set := s.set.map fun c => (c.1, c.2 * n % W) }

/-- models src/PetriEngine/Colored/Multiset.cpp:140-145 (`empty`). -/
def Ms.empty (s : Ms) : Bool := s.set.all fun e => !decide (e.2 > 0)

/-- models src/PetriEngine/Colored/Multiset.cpp:126-132 (`isSubsetOf`). -/
def Ms.isSubsetOf (s o : Ms) : R Bool :=
  match s.sub o, o.sub s with
  | .ok a, .ok b => .ok (a.empty && !b.empty)
  | _, _ => .thrown

/-- models src/PetriEngine/Colored/Multiset.cpp:134-138 (`isSubsetOrEqTo`). -/
def Ms.isSubsetOrEqTo (s o : Ms) : R Bool :=
  match s.sub o with
  | .ok a => .ok a.empty
  | .thrown => .thrown

/-- models src/PetriEngine/Colored/Multiset.cpp:197-203 (`size`). -/
def Ms.size (s : Ms) : Nat := (s.set.map Prod.snd).sum

/-- models include/PetriEngine/Colored/Multiset.h:72-74 (`distinctSize`). -/
def Ms.distinctSize (s : Ms) : Nat := s.set.length

/-! ### The representation -/

/-- The representation invariant: no colour twice, counts of 32 bits, entries only with a type. -/
structure Ok (s : Ms) : Prop where
  nodup : (s.set.map Prod.fst).Nodup
  lt : ∀ e ∈ s.set, e.2 < W
  typed : s.type = none → s.set = []

theorem look_put (l : List (Nat × Nat)) (i : Nat) (f : Nat → Nat) (j : Nat) :
    look (put l i f) j = if j = i then f (look l i) else look l j := by
  induction l with
  | nil =>
    simp only [put, look]
    by_cases h : j = i
    · subst h; simp
    · simp [h, Ne.symm h]
  | cons c l ih =>
    simp only [put, look]
    by_cases hc : c.1 = i
    · simp only [hc, if_true]
      simp only [look]
      by_cases h : i = j
      · subst h; simp
      · simp [h, Ne.symm h]
    · simp only [hc, if_false, look, ih]
      by_cases h : j = i
      · subst h; simp [hc]
      · simp [h]

theorem keys_put (l : List (Nat × Nat)) (i : Nat) (f : Nat → Nat) :
    (put l i f).map Prod.fst = if i ∈ l.map Prod.fst then l.map Prod.fst else l.map Prod.fst ++ [i] := by
  induction l with
  | nil => simp [put]
  | cons c l ih =>
    simp only [put]
    by_cases hc : c.1 = i
    · simp [hc]
    · simp only [hc, if_false, List.map_cons, ih, List.mem_cons, Ne.symm hc, false_or]
      split <;> simp

theorem put_lt {l : List (Nat × Nat)} {i : Nat} {f : Nat → Nat} (h : ∀ e ∈ l, e.2 < W)
    (hf : ∀ x, x < W → f x < W) : ∀ e ∈ put l i f, e.2 < W := by
  induction l with
  | nil => intro e he; simp [put] at he; subst he; exact hf 0 (by decide)
  | cons c l ih =>
    intro e he
    simp only [put] at he
    split at he
    · rcases List.mem_cons.1 he with rfl | he
      · exact hf _ (h c (by simp))
      · exact h e (by simp [he])
    · rcases List.mem_cons.1 he with rfl | he
      · exact h e (by simp)
      · exact ih (fun e he => h e (by simp [he])) e he

theorem look_of_notMem {l : List (Nat × Nat)} {i : Nat} (h : i ∉ l.map Prod.fst) : look l i = 0 := by
  induction l with
  | nil => rfl
  | cons c l ih =>
    simp only [List.map_cons, List.mem_cons, not_or] at h
    simp [look, Ne.symm h.1, ih h.2]

theorem look_of_mem {l : List (Nat × Nat)} (hn : (l.map Prod.fst).Nodup) {e : Nat × Nat} (h : e ∈ l) :
    look l e.1 = e.2 := by
  induction l with
  | nil => simp at h
  | cons c l ih =>
    simp only [List.map_cons, List.nodup_cons] at hn
    rcases List.mem_cons.1 h with rfl | h
    · simp [look]
    · have : c.1 ≠ e.1 := fun he => hn.1 (he ▸ List.mem_map.2 ⟨e, h, rfl⟩)
      simp [look, this, ih hn.2 h]

theorem look_lt {l : List (Nat × Nat)} (h : ∀ e ∈ l, e.2 < W) (i : Nat) : look l i < W := by
  induction l with
  | nil => simp [look, W]
  | cons c l ih =>
    simp only [look]
    split
    · exact h c (by simp)
    · exact ih fun e he => h e (by simp [he])

/-- The number of copies of each colour. -/
def Ms.count (s : Ms) (c : Color) : Nat := s.get c

theorem Ok.empty : Ok {} := ⟨by simp, by simp, fun _ => rfl⟩

theorem get_none {s : Ms} (h : Ok s) (ht : s.type = none) (c : Color) : s.get c = 0 := by
  simp [Ms.get, ht, h.typed ht, look]

theorem get_some {s : Ms} {t : Nat} (ht : s.type = some t) (c : Color) :
    s.get c = if t = c.type then look s.set c.id else 0 := by
  simp [Ms.get, ht]

theorem upd_ok {s : Ms} (h : Ok s) (c : Color) (hc : s.type = none ∨ s.type = some c.type)
    {f : Nat → Nat} (hf : ∀ x, x < W → f x < W) :
    ∃ s', s.upd c f = .ok s' ∧ Ok s' ∧ s'.type = some c.type ∧ s'.set = put s.set c.id f := by
  refine ⟨⟨some c.type, put s.set c.id f⟩, ?_, ⟨?_, put_lt h.lt hf, by simp⟩, rfl, rfl⟩
  · unfold Ms.upd
    rcases hc with hc | hc <;> simp [hc]
  · simp only [keys_put]
    split
    · exact h.nodup
    · rename_i hi
      rw [List.nodup_append]
      exact ⟨h.nodup, by simp, by intro a ha b hb; simp only [List.mem_singleton] at hb; subst hb; exact fun e => hi (e ▸ ha)⟩

theorem addLoop_ok (l : List (Nat × Nat)) (hn : (l.map Prod.fst).Nodup) (s : Ms) (t : Nat)
    (h : (s.set.map Prod.fst).Nodup) (hl : ∀ e ∈ s.set, e.2 < W) (ht : s.type = some t) :
    ∃ s', addLoop l s = .ok s' ∧ Ok s' ∧ s'.type = some t ∧
      ∀ i, look s'.set i = (look s.set i + look l i) % W := by
  induction l generalizing s with
  | nil =>
    refine ⟨s, rfl, ⟨h, hl, by simp [ht]⟩, ht, fun i => ?_⟩
    rw [look, Nat.add_zero, Nat.mod_eq_of_lt (look_lt hl i)]
  | cons c l ih =>
    simp only [List.map_cons, List.nodup_cons] at hn
    obtain ⟨s1, h1, h2, h3, h4⟩ := upd_ok (s := s) ⟨h, hl, by simp [ht]⟩ ⟨t, c.1⟩ (.inr ht)
      (f := fun x => (x + c.2) % W) (fun x _ => Nat.mod_lt _ (by decide))
    obtain ⟨s2, g1, g2, g3, g4⟩ := ih hn.2 s1 h2.nodup h2.lt h3
    refine ⟨s2, ?_, g2, g3, fun i => ?_⟩
    · simp only [addLoop, ht, colorOf]
      rw [h1]; exact g1
    · rw [g4, h4, look_put]
      simp only [look]
      by_cases hi : i = c.1
      · subst hi
        simp only [if_true, look_of_notMem hn.1, Nat.add_zero, Nat.mod_mod]
      · simp [hi, Ne.symm hi]

theorem subLoop_ok (o : Ms) (t : Nat) (l : List (Nat × Nat)) (hn : (l.map Prod.fst).Nodup) (s : Ms)
    (h : Ok s) (ht : s.type = some t) (hl : ∀ e ∈ l, e ∈ s.set) :
    ∃ s', subLoop o l s = .ok s' ∧ Ok s' ∧ s'.type = some t ∧ s'.set.map Prod.fst = s.set.map Prod.fst ∧
      ∀ i, look s'.set i = if i ∈ l.map Prod.fst then look s.set i - o.get ⟨t, i⟩ else look s.set i := by
  induction l generalizing s with
  | nil => exact ⟨s, rfl, h, ht, rfl, by simp⟩
  | cons c l ih =>
    simp only [List.map_cons, List.nodup_cons] at hn
    have hc := hl c (by simp)
    have hcl := look_of_mem h.nodup hc
    have hb : ∀ (x : Nat), (if c.2 < o.get ⟨t, c.1⟩ then 0 else c.2 - o.get ⟨t, c.1⟩) < W := by
      intro _
      have := h.lt c hc
      split <;> simp only [W] at * <;> omega
    obtain ⟨s1, h1, h2, h3, h4⟩ := upd_ok h ⟨t, c.1⟩ (.inr ht)
      (f := fun _ => if c.2 < o.get ⟨t, c.1⟩ then 0 else c.2 - o.get ⟨t, c.1⟩) (fun x _ => hb x)
    have hk : s1.set.map Prod.fst = s.set.map Prod.fst := by
      rw [h4, keys_put, if_pos (List.mem_map.2 ⟨c, hc, rfl⟩)]
    have hl1 : ∀ e ∈ l, e ∈ s1.set := by
      intro e he
      have hne : e.1 ≠ c.1 := fun hh => hn.1 (hh ▸ List.mem_map.2 ⟨e, he, rfl⟩)
      have hes := hl e (by simp [he])
      rw [h4]
      have : ∀ l : List (Nat × Nat), e ∈ l → e.1 ≠ c.1 → ∀ f, e ∈ put l c.1 f := by
        intro l
        induction l with
        | nil => simp
        | cons a l ih =>
          intro hm hne f
          simp only [put]
          rcases List.mem_cons.1 hm with rfl | hm
          · rw [if_neg hne]; simp
          · split
            · simp [hm]
            · simp [ih hm hne f]
      exact this _ hes hne _
    obtain ⟨s2, g1, g2, g3, g4, g5⟩ := ih hn.2 s1 h2 h3 hl1
    refine ⟨s2, ?_, g2, g3, g4.trans hk, fun i => ?_⟩
    · simp only [subLoop, ht, colorOf]
      rw [h1]; exact g1
    · rw [g5, h4, look_put]
      by_cases hi : i = c.1
      · subst hi
        rw [if_neg hn.1, if_pos rfl, if_pos (List.mem_map.2 ⟨c, List.mem_cons_self .., rfl⟩), hcl]
        split <;> omega
      · simp only [List.map_cons, List.mem_cons, hi, false_or, if_false]

theorem look_map (l : List (Nat × Nat)) (n i : Nat) :
    look (l.map fun c => (c.1, c.2 * n % W)) i = look l i * n % W := by
  induction l with
  | nil => simp [look]
  | cons c l ih =>
    simp only [List.map_cons, look, ih]
    split <;> rfl

theorem ofList_ok (t : Nat) (l : List (Color × Nat)) (ht : ∀ x ∈ l, x.1.type = t) (s : Ms) (h : Ok s)
    (hs : s.type = none ∨ s.type = some t) :
    ∃ s', Ms.ofList l s = .ok s' ∧ Ok s' ∧ (s'.type = none ∨ s'.type = some t) ∧
      ∀ c, s'.get c = (s.get c + ((l.filter fun x => x.1 = c).map Prod.snd).sum) % W := by
  induction l generalizing s with
  | nil =>
    refine ⟨s, rfl, h, hs, fun c => ?_⟩
    have hlt : s.get c < W := by
      unfold Ms.get
      split
      · exact look_lt h.lt _
      · split
        · exact look_lt h.lt _
        · decide
    simp [Nat.mod_eq_of_lt hlt]
  | cons x l ih =>
    obtain ⟨⟨xt, xi⟩, n⟩ := x
    have hxt : xt = t := ht ⟨⟨xt, xi⟩, n⟩ (by simp)
    subst hxt
    obtain ⟨s1, h1, h2, h3, h4⟩ := upd_ok h ⟨xt, xi⟩ hs (f := fun y => (y + n) % W)
      (fun y _ => Nat.mod_lt _ (by decide))
    obtain ⟨s2, g1, g2, g3, g4⟩ := ih (fun x hx => ht x (by simp [hx])) s1 h2 (.inr h3)
    refine ⟨s2, by simp only [Ms.ofList]; rw [h1]; exact g1, g2, g3, fun c => ?_⟩
    rw [g4, get_some h3, h4, look_put]
    have hsg : s.get c = if xt = c.type then look s.set c.id else 0 := by
      rcases hs with hs | hs
      · rw [get_none h hs, h.typed hs]; simp [look]
      · exact get_some hs c
    rw [hsg]
    obtain ⟨ct, ci⟩ := c
    by_cases h1 : xt = ct
    · subst h1
      by_cases h2 : ci = xi
      · subst h2
        simp [Nat.add_assoc]
      · have : ¬ xi = ci := fun e => h2 e.symm
        simp [h2, this]
    · simp [h1]

end ColMs
end Verif
