import Verif.Spec.PetriNet

/-!
# Model of the flat net representation, successor generator and deadlock test

Models `include/PetriEngine/PetriNet.h`, `src/PetriEngine/PetriNet.cpp`,
`include/PetriEngine/SuccessorGenerator.h` and `src/PetriEngine/SuccessorGenerator.cpp`.
-/

namespace Verif

/-- models include/PetriEngine/PetriNet.h:50-56 (`struct Invariant`). -/
structure Invariant where
  place : Nat
  tokens : Nat
  inhibitor : Bool
  direction : Int
deriving DecidableEq, Repr, Inhabited

/-- models include/PetriEngine/PetriNet.h:45-48 (`struct TransPtr`). -/
structure TransPtr where
  inputs : Nat
  outputs : Nat
deriving DecidableEq, Repr, Inhabited

/-- models include/PetriEngine/PetriNet.h:127-147 (data members of `PetriNet`; names, locations
and the initial marking are kept elsewhere). -/
structure FlatNet where
  nplaces : Nat
  ntransitions : Nat
  ninvariants : Nat
  transitions : List TransPtr
  invariants : List Invariant
  placeToPtrs : List Nat
  controllable : List Bool
deriving DecidableEq, Repr, Inhabited

/-- The half-open index range `[a, b)` of a vector; the C++ iterates
`for (; finv < linv; ++finv)` over it. -/
def slice {α : Type} (l : List α) (a b : Nat) : List α := (l.drop a).take (b - a)

/-- A memory write `m[p] = v`. -/
def upd (m : Nat → Nat) (p v : Nat) : Nat → Nat := fun q => if q = p then v else m q

/-- `2^32`, the modulus of the C++ type `MarkVal = uint32_t`
(include/PetriEngine/PetriNet.h:59). -/
def W32 : Nat := 4294967296

namespace FlatNet

def inputs (N : FlatNet) (t : Nat) : Nat := (N.transitions.getD t default).inputs
def outputs (N : FlatNet) (t : Nat) : Nat := (N.transitions.getD t default).outputs
def ptr (N : FlatNet) (p : Nat) : Nat := N.placeToPtrs.getD p 0

/-- models src/PetriEngine/PetriNet.cpp:129-135 (`preset`). -/
def preset (N : FlatNet) (t : Nat) : List Invariant := slice N.invariants (N.inputs t) (N.outputs t)

/-- models src/PetriEngine/PetriNet.cpp:137-142 (`postset`). -/
def postset (N : FlatNet) (t : Nat) : List Invariant :=
  slice N.invariants (N.outputs t) (N.inputs (t + 1))

/-- models src/PetriEngine/SuccessorGenerator.cpp:60-78 (`checkPreset`, the loop body). -/
def checkInvs (m : Nat → Nat) : List Invariant → Bool
  | [] => true
  | inv :: rest =>
    if m inv.place < inv.tokens then
      if !inv.inhibitor then false else checkInvs m rest
    else
      if inv.inhibitor then false else checkInvs m rest

/-- models src/PetriEngine/SuccessorGenerator.cpp:60-78 (`checkPreset`). -/
def checkPreset (N : FlatNet) (m : Nat → Nat) (t : Nat) : Bool := checkInvs m (N.preset t)

/-- models src/PetriEngine/PetriNet.cpp:144-156 (`fireable`). -/
def fireable (N : FlatNet) (m : Nat → Nat) (t : Nat) : Bool :=
  (N.preset t).all fun inv => !(inv.inhibitor == decide (m inv.place ≥ inv.tokens))

/-- `uint32_t` subtraction with wrap-around. -/
def sub32 (a b : Nat) : Nat := (a + W32 - b % W32) % W32

/-- models src/PetriEngine/SuccessorGenerator.cpp:47-58 (`consumePreset`), 32-bit wrap-around
subtraction; the `assert` is compiled out in release builds and not modelled. -/
def consume (m : Nat → Nat) : List Invariant → (Nat → Nat)
  | [] => m
  | inv :: rest =>
    if !inv.inhibitor then consume (upd m inv.place (sub32 (m inv.place) inv.tokens)) rest
    else consume m rest

/-- models src/PetriEngine/SuccessorGenerator.cpp:80-93 (`producePostset`); `none` models the
thrown `base_error`.  `n` is a 64-bit `size_t`, so the sum itself cannot wrap. -/
def produce (m : Nat → Nat) : List Invariant → Option (Nat → Nat)
  | [] => some m
  | inv :: rest =>
    let n := m inv.place + inv.tokens
    if n ≥ W32 - 1 then none else produce (upd m inv.place n) rest

/-- models src/PetriEngine/SuccessorGenerator.cpp:95-101 (`_fire`). -/
def fire (N : FlatNet) (m : Nat → Nat) (t : Nat) : Option (Nat → Nat) :=
  produce (consume m (N.preset t)) (N.postset t)

/-- First index in `[t, t+n)` accepted by `ok`; the inner `for` loop of
include/PetriEngine/SuccessorGenerator.h:95-101.  (The C++ test is `_suc_tcounter != last`;
the layout invariant below guarantees `t ≤ last`, where both loops coincide.) -/
def scan (ok : Nat → Bool) : Nat → Nat → Option Nat
  | _, 0 => none
  | t, n + 1 => if ok t then some t else scan ok (t + 1) n

/-- State of the generator: `_suc_pcounter`, and `_suc_tcounter` where `none` models the
sentinel `UINT32_MAX` (include/PetriEngine/SuccessorGenerator.h:111-112). -/
abbrev GenState := Nat × Option Nat

/-- models include/PetriEngine/SuccessorGenerator.h:86-107 (`_next`); the first argument counts
the remaining places (`_nplaces - _suc_pcounter`).  The result is the transition found and the
new counters; firing it is done by `fire`. -/
def nextAux (N : FlatNet) (m : Nat → Nat) (pred : Nat → Bool) :
    Nat → Nat → Option Nat → Option (Nat × GenState)
  | 0, _, _ => none
  | n + 1, pc, tc =>
    if pc = 0 ∨ 0 < m pc then
      let t0 := tc.getD (N.ptr pc)
      let last := N.ptr (pc + 1)
      match scan (fun t => N.checkPreset m t && pred t) t0 (last - t0) with
      | some t => some (t, (pc, some (t + 1)))
      | none => nextAux N m pred n (pc + 1) none
    else nextAux N m pred n (pc + 1) none

/-- models include/PetriEngine/SuccessorGenerator.h:86-107 (`_next`). -/
def next (N : FlatNet) (m : Nat → Nat) (pred : Nat → Bool) (s : GenState) :
    Option (Nat × GenState) :=
  nextAux N m pred (N.nplaces - s.1) s.1 s.2

/-- models src/PetriEngine/SuccessorGenerator.cpp:42-45 and :35-40 (`reset` / `prepare` with
default counters). -/
def genInit : GenState := (0, none)

/-- Client loop `prepare(state); while (next(write)) ...` run for at most `fuel` calls: the list
of fired transitions with the markings written.  `Except.error` models the token-limit exception;
the `Bool` says whether the generator reported the end. -/
def enumFrom (N : FlatNet) (m : Nat → Nat) (pred : Nat → Bool) :
    Nat → GenState → Except Unit (List (Nat × (Nat → Nat)) × Bool)
  | 0, _ => .ok ([], false)
  | fuel + 1, s =>
    match N.next m pred s with
    | none => .ok ([], true)
    | some (t, s') =>
      match N.fire m t with
      | none => .error ()
      | some m' =>
        match enumFrom N m pred fuel s' with
        | .error e => .error e
        | .ok (l, b) => .ok ((t, m') :: l, b)

/-- One transition's test inside `deadlocked`,
models src/PetriEngine/PetriNet.cpp:104-117. -/
def deadCheck (m : Nat → Nat) : List Invariant → Bool
  | [] => true
  | inv :: rest =>
    let good := if !inv.inhibitor then decide (m inv.place ≥ inv.tokens)
                else decide (m inv.place < inv.tokens)
    if !good then false else deadCheck m rest

/-- models src/PetriEngine/PetriNet.cpp:96-126 (outer loop of `deadlocked`). -/
def deadAux (N : FlatNet) (m : Nat → Nat) : Nat → Nat → Bool
  | 0, _ => true
  | n + 1, i =>
    if i = 0 ∨ 0 < m i then
      match scan (fun t => deadCheck m (N.preset t)) (N.ptr i) (N.ptr (i + 1) - N.ptr i) with
      | some _ => false
      | none => deadAux N m n (i + 1)
    else deadAux N m n (i + 1)

/-- models src/PetriEngine/PetriNet.cpp:90-127 (`deadlocked`). -/
def deadlocked (N : FlatNet) (m : Nat → Nat) : Bool :=
  if N.nplaces = 0 then N.ntransitions = 0 else deadAux N m N.nplaces 0

/-- models src/PetriEngine/PetriNet.cpp:51-74 (`inArc`). -/
def inArc (N : FlatNet) (p t : Nat) : Nat :=
  match (N.preset t).find? (fun i => i.place == p) with
  | some i => if i.inhibitor then 0 else i.tokens
  | none => 0

/-- models src/PetriEngine/PetriNet.cpp:75-88 (`outArc`). -/
def outArc (N : FlatNet) (t p : Nat) : Nat :=
  match (N.postset t).find? (fun i => i.place == p) with
  | some i => i.tokens
  | none => 0

/-- The layout invariant of a flat net: what the comment in
src/PetriEngine/PetriNetBuilder.cpp:200-218 describes.  It is established by `makePetriNet`
(see `Verif.Net.Builder`). -/
structure WF (N : FlatNet) : Prop where
  places_pos : 0 < N.nplaces
  len_trans : N.transitions.length = N.ntransitions + 1
  len_inv : N.invariants.length = N.ninvariants
  len_ptr : N.placeToPtrs.length = N.nplaces + 1
  ptr_zero : N.ptr 0 = 0
  ptr_mono : ∀ p, p < N.nplaces → N.ptr p ≤ N.ptr (p + 1)
  ptr_last : N.ptr N.nplaces = N.ntransitions
  in_out : ∀ t, t < N.ntransitions → N.inputs t ≤ N.outputs t
  out_in : ∀ t, t < N.ntransitions → N.outputs t ≤ N.inputs (t + 1)
  last_in : N.inputs N.ntransitions = N.ninvariants
  place_lt : ∀ i ∈ N.invariants, i.place < N.nplaces
  tokens_pos : ∀ i ∈ N.invariants, 0 < i.tokens
  tokens_lt : ∀ i ∈ N.invariants, i.tokens < W32
  pre_nodup : ∀ t, t < N.ntransitions → ((N.preset t).map Invariant.place).Nodup
  post_nodup : ∀ t, t < N.ntransitions → ((N.postset t).map Invariant.place).Nodup
  block : ∀ p t, 0 < p → p < N.nplaces → N.ptr p ≤ t → t < N.ptr (p + 1) →
    ∃ i ∈ N.preset t, i.place = p ∧ i.inhibitor = false

/-- The abstract net denoted by the arrays: arc weights read off the preset/postset ranges. -/
def toNet (N : FlatNet) : Net Nat (Fin N.ntransitions) where
  pre t p := match (N.preset t).find? (fun i => i.place == p && !i.inhibitor) with
    | some i => i.tokens
    | none => 0
  inh t p := match (N.preset t).find? (fun i => i.place == p && i.inhibitor) with
    | some i => some i.tokens
    | none => none
  post t p := match (N.postset t).find? (fun i => i.place == p) with
    | some i => i.tokens
    | none => 0

end FlatNet
end Verif
