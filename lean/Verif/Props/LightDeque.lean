import Verif.Util.LightDeque

/-!
# C39: `light_deque` is a deque

The specification is a list (front first) with the same operations; an operation that C++ callers may
not use (`front`, `back`, `pop_front` of an empty deque, an index out of range) has no result.
-/

namespace Verif
namespace LightDequeProps
open Util LDeque

variable {T : Type}

/-- The operations. -/
inductive Op (T : Type)
  | push (v : T) | popFront | popBack | clear
  | front | back | get (i : Nat) | size | empty

/-- What an operation returns. -/
inductive Obs (T : Type)
  | nothing | elem (v : T) | num (n : Nat) | bool (b : Bool)

/-- The operations on lists. -/
def spec (l : List T) : Op T → Option (List T × Obs T)
  | .push v => some (l ++ [v], .nothing)
  | .popFront => if l = [] then none else some (l.tail, .nothing)
  | .popBack => some (l.dropLast, .nothing)
  | .clear => some ([], .nothing)
  | .front => l.head?.map fun v => (l, .elem v)
  | .back => l.getLast?.map fun v => (l, .elem v)
  | .get i => l[i]?.map fun v => (l, .elem v)
  | .size => some (l, .num l.length)
  | .empty => some (l, .bool (l = []))

/-- The operations on the model of the code. -/
def impl (d : LDeque T) : Op T → Option (LDeque T × Obs T)
  | .push v => (d.pushBack v).map (·, .nothing)
  | .popFront => d.popFront.map (·, .nothing)
  | .popBack => d.popBack.map (·, .nothing)
  | .clear => d.clear.map (·, .nothing)
  | .front => d.getFront.map fun v => (d, .elem v)
  | .back => d.getBack.map fun v => (d, .elem v)
  | .get i => (d.get i).map fun v => (d, .elem v)
  | .size => some (d, .num d.len)
  | .empty => some (d, .bool d.isEmpty)

/-- A sequence of operations with all observations. -/
def runSpec : List T → List (Op T) → Option (List T × List (Obs T))
  | l, [] => some (l, [])
  | l, o :: os => match spec l o with
    | none => none
    | some (l, x) => match runSpec l os with
      | none => none
      | some (l, xs) => some (l, x :: xs)

def runImpl : LDeque T → List (Op T) → Option (LDeque T × List (Obs T))
  | d, [] => some (d, [])
  | d, o :: os => match impl d o with
    | none => none
    | some (d, x) => match runImpl d os with
      | none => none
      | some (d, xs) => some (d, x :: xs)

/-- The deque holds the list: the cells from `_front` to `_back` hold the elements, all others hold
nothing, and there is room for one more. -/
structure Rep (d : LDeque T) (l : List T) : Prop where
  len : d.front + l.length = d.back
  room : d.back < d.size
  cell : ∀ i, i < l.length → d.mem (d.front + i) = l[i]?
  raw : ∀ i, i < d.front ∨ d.back ≤ i → d.mem i = none

theorem rep_new (n : Nat) : Rep (new n : LDeque T) [] := by
  refine ⟨rfl, ?_, by simp, fun _ _ => rfl⟩
  simp only [new]
  split <;> omega

theorem Rep.read {d : LDeque T} {l : List T} (h : Rep d l) {i : Nat} (hi : i < l.length) :
    d.read (d.front + i) = some l[i] := by
  have := h.len
  have := h.room
  unfold LDeque.read
  rw [if_pos (by omega), h.cell i hi, List.getElem?_eq_getElem hi]

theorem Rep.readFrom {d : LDeque T} {l : List T} (h : Rep d l) : ∀ n i, i + n = l.length →
    d.readFrom (d.front + i) n = some (l.drop i) := by
  intro n
  induction n with
  | zero => intro i hi; simp [LDeque.readFrom, List.drop_eq_nil_of_le (show l.length ≤ i by omega)]
  | succ n ih =>
    intro i hi
    have hlt : i < l.length := by omega
    simp only [LDeque.readFrom, h.read hlt]
    rw [Nat.add_assoc, ih (i + 1) (by omega)]
    simp only [Option.some.injEq]
    rw [← List.drop_eq_getElem_cons hlt]

theorem Rep.readAll {d : LDeque T} {l : List T} (h : Rep d l) :
    d.readFrom d.front (d.back - d.front) = some l := by
  have := h.readFrom l.length 0 (by omega)
  have hl := h.len
  rw [show d.back - d.front = l.length by omega]
  simpa using this

theorem destroyFrom_ok : ∀ (n i : Nat) (d : LDeque T), i + n ≤ d.size → (∀ j, i ≤ j → j < i + n → (d.mem j).isSome) →
    ∃ d', d.destroyFrom i n = some d' ∧ d'.front = d.front ∧ d'.back = d.back ∧ d'.size = d.size ∧
      ∀ j, d'.mem j = if i ≤ j ∧ j < i + n then none else d.mem j := by
  intro n
  induction n with
  | zero => intro i d _ _; exact ⟨d, rfl, rfl, rfl, rfl, fun j => by rw [if_neg (by omega)]⟩
  | succ n ih =>
    intro i d hs hl
    have h0 := hl i (by omega) (by omega)
    obtain ⟨v, hv⟩ := Option.isSome_iff_exists.1 h0
    have hr : d.read i = some v := by unfold LDeque.read; rw [if_pos (by omega), hv]
    simp only [destroyFrom, LDeque.destroy, hr]
    obtain ⟨d', h1, h2, h3, h4, h5⟩ := ih (i + 1) { d with mem := fun j => if j = i then none else d.mem j }
      (by simp only; omega) (fun j h1 h2 => by simp only; rw [if_neg (by omega)]; exact hl j (by omega) (by omega))
    refine ⟨d', h1, h2, h3, h4, fun j => ?_⟩
    rw [h5]
    simp only
    by_cases hj : j = i
    · subst hj; rw [if_neg (by omega), if_pos rfl, if_pos (by omega)]
    · rw [if_neg hj]
      by_cases hk : i + 1 ≤ j ∧ j < i + 1 + n
      · rw [if_pos hk, if_pos (by omega)]
      · rw [if_neg hk, if_neg (by omega)]

theorem Rep.destroyAll {d : LDeque T} {l : List T} (h : Rep d l) :
    ∃ d', d.destroyFrom d.front (d.back - d.front) = some d' ∧ d'.size = d.size ∧ ∀ j, d'.mem j = none := by
  have hl := h.len
  have hr := h.room
  obtain ⟨d', h1, _, _, h4, h5⟩ := destroyFrom_ok (d.back - d.front) d.front d (by omega) (fun j h1 h2 => by
    have := h.cell (j - d.front) (by omega)
    rw [show d.front + (j - d.front) = j by omega] at this
    rw [this, List.getElem?_eq_getElem (by omega)]; rfl)
  refine ⟨d', h1, h4, fun j => ?_⟩
  rw [h5]
  split
  · rfl
  · exact h.raw j (by omega)

theorem Rep.clear {d : LDeque T} {l : List T} (h : Rep d l) : ∃ d', d.clear = some d' ∧ Rep d' [] := by
  obtain ⟨d', h1, h2, h3⟩ := h.destroyAll
  refine ⟨{ d' with front := 0, back := 0 }, by simp [LDeque.clear, h1], rfl, ?_, by simp, fun i _ => h3 i⟩
  have := h.room
  simp only [h2]; omega

theorem pushRep {d : LDeque T} {l : List T} {v : T} (hl : d.front + l.length = d.back) (hr : d.back < d.size)
    (hc : ∀ i, i < l.length → d.mem (d.front + i) = l[i]?)
    (hraw : ∀ i, i < d.front ∨ d.back ≤ i → d.mem i = none) :
    ∃ d', d.pushBack v = some d' ∧ Rep d' (l ++ [v]) := by
  unfold pushBack
  rw [if_pos hr]
  simp only
  have hcell : ∀ i, i < (l ++ [v]).length →
      (if d.front + i = d.back then some v else d.mem (d.front + i)) = (l ++ [v])[i]? := by
    intro i hi
    simp only [List.length_append, List.length_singleton] at hi
    by_cases hb : d.front + i = d.back
    · rw [if_pos hb]
      have : i = l.length := by omega
      subst this; simp
    · rw [if_neg hb, hc i (by omega), List.getElem?_append_left (by omega)]
  by_cases hx : d.back + 1 = d.size
  · rw [if_pos hx]
    -- expand
    have hread : LDeque.readFrom { d with mem := fun j => if j = d.back then some v else d.mem j, back := d.back + 1 }
        d.front (d.back + 1 - d.front) = some (l ++ [v]) := by
      have key : ∀ n i, i + n = (l ++ [v]).length →
          LDeque.readFrom { d with mem := fun j => if j = d.back then some v else d.mem j, back := d.back + 1 }
            (d.front + i) n = some ((l ++ [v]).drop i) := by
        intro n
        induction n with
        | zero =>
          intro i hi
          rw [List.drop_eq_nil_of_le (show (l ++ [v]).length ≤ i by omega)]
          rfl
        | succ n ih =>
          intro i hi
          have hlt : i < (l ++ [v]).length := by omega
          simp only [List.length_append, List.length_singleton] at hlt
          simp only [LDeque.readFrom, LDeque.read]
          rw [if_pos (by omega), hcell i (by simpa using hlt), List.getElem?_eq_getElem (by simpa using hlt)]
          simp only
          rw [Nat.add_assoc, ih (i + 1) (by omega)]
          simp only [Option.some.injEq]
          rw [← List.drop_eq_getElem_cons (by simpa using hlt)]
      have := key (d.back + 1 - d.front) 0 (by simp only [List.length_append, List.length_singleton]; omega)
      simpa using this
    unfold expand
    simp only
    rw [hread]
    refine ⟨_, rfl, by simp only [List.length_append, List.length_singleton]; omega, by simp only; omega, ?_, ?_⟩
    · intro i _; simp
    · intro i hi
      simp only at hi ⊢
      rw [List.getElem?_eq_none]
      simp only [List.length_append, List.length_singleton]
      omega
  · rw [if_neg hx]
    refine ⟨_, rfl, by simp only [List.length_append, List.length_singleton]; omega, by simp only; omega, hcell, ?_⟩
    intro i hi
    simp only at hi ⊢
    rw [if_neg (by omega)]
    exact hraw i (by omega)

theorem Rep.push {d : LDeque T} {l : List T} (h : Rep d l) (v : T) :
    ∃ d', d.pushBack v = some d' ∧ Rep d' (l ++ [v]) := pushRep h.len h.room h.cell h.raw

theorem Rep.popFront {d : LDeque T} {l : List T} (h : Rep d l) (hne : l ≠ []) :
    ∃ d', d.popFront = some d' ∧ Rep d' l.tail := by
  have hl := h.len
  have hroom := h.room
  have hpos : 0 < l.length := List.length_pos_iff.2 hne
  have hr := h.read hpos
  simp only [Nat.add_zero] at hr
  unfold LDeque.popFront LDeque.destroy
  rw [hr]
  simp only
  by_cases hb : d.front + 1 ≥ d.back
  · rw [if_pos hb]
    have h1 : l.length = 1 := by omega
    have ht : l.tail = [] := by
      rw [← List.length_eq_zero_iff, List.length_tail]; omega
    rw [ht]
    refine ⟨_, rfl, rfl, by simp only; omega, by simp, fun i _ => ?_⟩
    simp only
    split
    · rfl
    · exact h.raw i (by omega)
  · rw [if_neg hb]
    refine ⟨_, rfl, by simp only [List.length_tail]; omega, hroom, ?_, ?_⟩
    · intro i hi
      simp only [List.length_tail] at hi ⊢
      rw [if_neg (by omega), show d.front + 1 + i = d.front + (i + 1) by omega, h.cell (i + 1) (by omega)]
      rw [List.getElem?_tail]
    · intro i hi
      simp only at hi ⊢
      split
      · rfl
      · exact h.raw i (by omega)

theorem Rep.popBack {d : LDeque T} {l : List T} (h : Rep d l) :
    ∃ d', d.popBack = some d' ∧ Rep d' l.dropLast := by
  have hl := h.len
  have hroom := h.room
  unfold LDeque.popBack
  by_cases hne : d.back > d.front
  · rw [if_pos hne]
    have hr := h.read (i := l.length - 1) (by omega)
    rw [show d.front + (l.length - 1) = d.back - 1 by omega] at hr
    have hr' : LDeque.read { d with back := d.back - 1 } (d.back - 1) = some l[l.length - 1] := hr
    unfold LDeque.destroy
    rw [hr']
    simp only
    have hrep : Rep { d with back := d.back - 1, mem := fun j => if j = d.back - 1 then none else d.mem j } l.dropLast := by
      refine ⟨by simp only [List.length_dropLast]; omega, by simp only; omega, ?_, ?_⟩
      · intro i hi
        simp only [List.length_dropLast] at hi ⊢
        rw [if_neg (by omega), h.cell i (by omega), List.getElem?_dropLast, if_pos (by omega)]
      · intro i hi
        simp only at hi ⊢
        split
        · rfl
        · exact h.raw i (by omega)
    split
    · rename_i hbf
      obtain ⟨d', h1, h2⟩ := hrep.clear
      have : l.dropLast = [] := by
        rw [← List.length_eq_zero_iff, List.length_dropLast]; omega
      rw [this]
      exact ⟨d', h1, h2⟩
    · exact ⟨_, rfl, hrep⟩
  · rw [if_neg hne]
    simp only
    have h0 : l = [] := by rw [← List.length_eq_zero_iff]; omega
    rw [if_pos (by omega)]
    obtain ⟨d', h1, h2⟩ := h.clear
    exact ⟨d', h1, by rw [h0]; exact h2⟩

theorem Rep.op {d : LDeque T} {l l' : List T} {x : Obs T} (h : Rep d l) (o : Op T) (hs : spec l o = some (l', x)) :
    ∃ d', impl d o = some (d', x) ∧ Rep d' l' := by
  have hl := h.len
  cases o with
  | push v =>
    simp only [spec, Option.some.injEq, Prod.mk.injEq] at hs
    obtain ⟨rfl, rfl⟩ := hs
    obtain ⟨d', h1, h2⟩ := h.push v
    exact ⟨d', by simp [impl, h1], h2⟩
  | popFront =>
    simp only [spec] at hs
    split at hs
    · simp at hs
    · rename_i hne
      simp only [Option.some.injEq, Prod.mk.injEq] at hs
      obtain ⟨rfl, rfl⟩ := hs
      obtain ⟨d', h1, h2⟩ := h.popFront hne
      exact ⟨d', by simp [impl, h1], h2⟩
  | popBack =>
    simp only [spec, Option.some.injEq, Prod.mk.injEq] at hs
    obtain ⟨rfl, rfl⟩ := hs
    obtain ⟨d', h1, h2⟩ := h.popBack
    exact ⟨d', by simp [impl, h1], h2⟩
  | clear =>
    simp only [spec, Option.some.injEq, Prod.mk.injEq] at hs
    obtain ⟨rfl, rfl⟩ := hs
    obtain ⟨d', h1, h2⟩ := h.clear
    exact ⟨d', by simp [impl, h1], h2⟩
  | front =>
    simp only [spec, Option.map_eq_some_iff] at hs
    obtain ⟨v, hv, he⟩ := hs
    simp only [Prod.mk.injEq] at he
    obtain ⟨rfl, rfl⟩ := he
    have hpos : 0 < l.length := by cases l <;> simp_all
    have := h.read hpos
    simp only [Nat.add_zero] at this
    refine ⟨d, ?_, h⟩
    simp only [impl, getFront, this, Option.map_some]
    rw [List.head?_eq_getElem?, List.getElem?_eq_getElem hpos] at hv
    simp only [Option.some.injEq] at hv
    rw [hv]
  | back =>
    simp only [spec, Option.map_eq_some_iff] at hs
    obtain ⟨v, hv, he⟩ := hs
    simp only [Prod.mk.injEq] at he
    obtain ⟨rfl, rfl⟩ := he
    have hpos : 0 < l.length := by cases l <;> simp_all
    have := h.read (i := l.length - 1) (by omega)
    rw [show d.front + (l.length - 1) = d.back - 1 by omega] at this
    refine ⟨d, ?_, h⟩
    simp only [impl, getBack, this]
    rw [if_neg (by omega)]
    rw [List.getLast?_eq_getElem?, List.getElem?_eq_getElem (by omega)] at hv
    simp only [Option.some.injEq] at hv
    rw [← hv]; rfl
  | get i =>
    simp only [spec, Option.map_eq_some_iff] at hs
    obtain ⟨v, hv, he⟩ := hs
    simp only [Prod.mk.injEq] at he
    obtain ⟨rfl, rfl⟩ := he
    obtain ⟨hi, rfl⟩ := List.getElem?_eq_some_iff.1 hv
    refine ⟨d, ?_, h⟩
    simp only [impl, LDeque.get, h.read hi, Option.map_some]
  | size =>
    simp only [spec, Option.some.injEq, Prod.mk.injEq] at hs
    obtain ⟨rfl, rfl⟩ := hs
    refine ⟨d, ?_, h⟩
    simp only [impl, LDeque.len]
    rw [show d.back - d.front = l.length by omega]
  | empty =>
    simp only [spec, Option.some.injEq, Prod.mk.injEq] at hs
    obtain ⟨rfl, rfl⟩ := hs
    refine ⟨d, ?_, h⟩
    simp only [impl, isEmpty]
    have : (d.front == d.back) = decide (l = []) := by
      rw [Bool.eq_iff_iff, beq_iff_eq, decide_eq_true_iff, ← List.length_eq_zero_iff]
      omega
    rw [this]

theorem Rep.run {d : LDeque T} {l : List T} (h : Rep d l) : ∀ (os : List (Op T)) (l' : List T) (xs : List (Obs T)),
    runSpec l os = some (l', xs) → ∃ d', runImpl d os = some (d', xs) ∧ Rep d' l' := by
  intro os
  induction os generalizing d l with
  | nil =>
    intro l' xs hs
    simp only [runSpec, Option.some.injEq, Prod.mk.injEq] at hs
    obtain ⟨rfl, rfl⟩ := hs
    exact ⟨d, rfl, h⟩
  | cons o os ih =>
    intro l' xs hs
    simp only [runSpec] at hs
    split at hs
    · simp at hs
    · rename_i l1 x h1
      split at hs
      · simp at hs
      · rename_i l2 xs2 h2
        simp only [Option.some.injEq, Prod.mk.injEq] at hs
        obtain ⟨rfl, rfl⟩ := hs
        obtain ⟨d1, e1, e2⟩ := h.op o h1
        obtain ⟨d2, e3, e4⟩ := ih e2 _ _ h2
        exact ⟨d2, by simp [runImpl, e1, e3], e4⟩

/-- **C39**.  From a new deque, every sequence of operations that makes sense for a list has no
undefined behaviour on the deque and gives the same observations; at the end the destructor destroys
exactly the elements still held. -/
theorem C39_deque_is_list (n : Nat) (os : List (Op T)) (l : List T) (xs : List (Obs T))
    (h : runSpec [] os = some (l, xs)) :
    ∃ d, runImpl (new n) os = some (d, xs) ∧ d.readFrom d.front (d.back - d.front) = some l ∧
      ∃ d', d.destruct = some d' ∧ ∀ i, d'.mem i = none := by
  obtain ⟨d, h1, h2⟩ := (rep_new n).run os l xs h
  obtain ⟨d', h3, _, h4⟩ := h2.destroyAll
  exact ⟨d, h1, h2.readAll, d', h3, h4⟩

theorem pushAll_rep : ∀ (l : List T) (d : LDeque T) (l0 : List T), Rep d l0 →
    ∃ d', d.pushAll l = some d' ∧ Rep d' (l0 ++ l) := by
  intro l
  induction l with
  | nil => intro d l0 h; exact ⟨d, rfl, by simpa using h⟩
  | cons v l ih =>
    intro d l0 h
    obtain ⟨d1, h1, h2⟩ := h.push v
    obtain ⟨d2, h3, h4⟩ := ih d1 _ h2
    exact ⟨d2, by simp [pushAll, h1, h3], by simpa using h4⟩

/-- **C39** (assignment).  Assigning from a deque with at least one element copies it: all later
operations behave as on the copied list.  (From an empty deque, see the finding.) -/
theorem C39_assign_partial (n k : Nat) (os os' : List (Op T)) (l l' : List T) (xs xs' : List (Obs T))
    (h : runSpec [] os = some (l, xs)) (h' : runSpec [] os' = some (l', xs')) (hne : l' ≠ [])
    (rest : List (Op T)) (r : List T) (ys : List (Obs T)) (hr : runSpec l' rest = some (r, ys)) :
    ∃ d o a b, runImpl (new n) os = some (d, xs) ∧ runImpl (new k) os' = some (o, xs') ∧
      d.assign o = some a ∧ runImpl a rest = some (b, ys) := by
  obtain ⟨d, h1, h2⟩ := (rep_new n).run os l xs h
  obtain ⟨o, h3, h4⟩ := (rep_new k).run os' l' xs' h'
  obtain ⟨_, h5, _, _⟩ := h2.destroyAll
  have hlen : o.len = l'.length := by have := h4.len; unfold LDeque.len; omega
  obtain ⟨v, t, rfl⟩ := List.exists_cons_of_ne_nil hne
  have hpush : ∃ a, pushAll ⟨0, 0, o.len, fun _ => none⟩ (v :: t) = some a ∧ Rep a (v :: t) := by
    obtain ⟨d1, g1, g2⟩ := pushRep (d := ⟨0, 0, o.len, fun _ => none⟩) (l := []) (v := v) rfl
      (by simp [hlen]) (by simp) (fun _ _ => rfl)
    obtain ⟨d2, g3, g4⟩ := pushAll_rep t d1 _ g2
    exact ⟨d2, by simp [pushAll, g1, g3], by simpa using g4⟩
  obtain ⟨a, g1, g2⟩ := hpush
  obtain ⟨b, g3, _⟩ := g2.run rest r ys hr
  exact ⟨d, o, a, b, h1, h3, by simp [assign, h5, h4.readAll, g1], g3⟩

/-- Finding: after assigning from an empty deque the block has size 0, and the next `push_back` writes
outside it, whatever was assigned to. -/
theorem C39_finding_assign_empty (n k : Nat) (os os' : List (Op T)) (l : List T) (xs xs' : List (Obs T))
    (h : runSpec [] os = some (l, xs)) (h' : runSpec [] os' = some ([], xs')) (v : T) :
    ∃ d o a, runImpl (new n) os = some (d, xs) ∧ runImpl (new k) os' = some (o, xs') ∧
      d.assign o = some a ∧ a.pushBack v = none := by
  obtain ⟨d, h1, h2⟩ := (rep_new n).run os l xs h
  obtain ⟨o, h3, h4⟩ := (rep_new k).run os' [] xs' h'
  obtain ⟨_, h5, _, _⟩ := h2.destroyAll
  have hlen : o.len = 0 := by have := h4.len; simp only [List.length_nil] at this; unfold LDeque.len; omega
  exact ⟨d, o, ⟨0, 0, o.len, fun _ => none⟩, h1, h3, by simp [assign, h5, h4.readAll, pushAll], by
    simp [pushBack, hlen]⟩

/-- All operations at work, with growth from size 1. -/
example : ((runImpl (new 0 : LDeque Nat)
      [.push 5, .push 6, .push 7, .front, .popFront, .back, .popBack, .get 0, .size, .clear, .empty]).map fun r =>
    (r.1.size, r.2.length)) = some (4, 11) ∧
    ((runSpec ([] : List Nat)
      [.push 5, .push 6, .push 7, .front, .popFront, .back, .popBack, .get 0, .size, .clear, .empty]).isSome) = true := by
  decide +kernel

end LightDequeProps
end Verif
