import Verif.Net.Flat

/-!
# Model of the search queues

Models `include/PetriEngine/Structures/Queue.h`, `src/PetriEngine/Structures/Queue.cpp`,
`include/PetriEngine/Structures/PotencyQueue.h` and `src/PetriEngine/Structures/PotencyQueue.cpp`.
`std::queue`, `std::stack`, `std::vector` and `std::priority_queue` are modelled by lists.
Every random outcome is an argument (`Rand`), so a theorem that quantifies over it holds for every
random number generator.
-/

namespace Verif
namespace Queue

/-- The random choices made during one `pop`: the result of `std::shuffle` (some permutation) and
the outcome of each comparison `r <= threshold` that depends on `rand()`. -/
structure Rand where
  shuffle : List Nat → List Nat
  perm : ∀ l, (shuffle l).Perm l
  coin : Nat → Bool

/-- A queue implementation as `tryReach` uses it
(models include/PetriEngine/Structures/Queue.h:25-35).  `push q id dist t`: `dist` is the value of
`query->distance(*context)`, `t` the fired transition when the four-argument `push` is called.
`none` is undefined behaviour.  `pop` returns `none` for `EMPTY`. -/
structure QImpl (Q : Type) where
  init : Q
  push : Q → Nat → Nat → Option Nat → Option Q
  pop : Q → Rand → Option (Option Nat × Q)
  isEmpty : Q → Bool

/-- Conversion `size_t → uint32_t`. -/
def u32 (n : Nat) : Nat := n % W32

/-! ### BFS -/

structure Bfs where
  queue : List Nat := []
  cache : List Nat := []
deriving DecidableEq, Repr

/-- models src/PetriEngine/Structures/Queue.cpp:55-59. -/
def Bfs.push (q : Bfs) (id : Nat) : Bfs := { q with cache := q.cache ++ [u32 id] }

/-- models src/PetriEngine/Structures/Queue.cpp:36-53. -/
def Bfs.pop (q : Bfs) (r : Rand) : Option Nat × Bfs :=
  let queue := q.queue ++ r.shuffle q.cache
  match queue with
  | x :: rest => (some x, { queue := rest, cache := [] })
  | [] => (none, { queue := [], cache := [] })

/-- models src/PetriEngine/Structures/Queue.cpp:61-63. -/
def Bfs.empty (q : Bfs) : Bool := q.queue.isEmpty && q.cache.isEmpty

def bfs : QImpl Bfs where
  init := {}
  push q id _ _ := some (q.push id)
  pop q r := some (q.pop r)
  isEmpty := Bfs.empty

/-! ### DFS -/

/-- models src/PetriEngine/Structures/Queue.cpp:65-85; the head of the list is the top of the
stack. -/
def dfs : QImpl (List Nat) where
  init := []
  push q id _ _ := some (u32 id :: q)
  pop q _ := match q with
    | [] => some (none, [])
    | x :: rest => some (some x, rest)
  isEmpty q := q.isEmpty

/-! ### Random DFS -/

structure Rdfs where
  stack : List Nat := []
  cache : List Nat := []
deriving DecidableEq, Repr

/-- models src/PetriEngine/Structures/Queue.cpp:137-141. -/
def Rdfs.push (q : Rdfs) (id : Nat) : Rdfs := { q with cache := q.cache ++ [u32 id] }

/-- models src/PetriEngine/Structures/Queue.cpp:101-121: `_cache.back()` is returned, the other
entries are pushed on the stack in order. -/
def Rdfs.pop (q : Rdfs) (r : Rand) : Option Nat × Rdfs :=
  if q.cache.isEmpty then
    match q.stack with
    | [] => (none, q)
    | x :: rest => (some x, { q with stack := rest })
  else
    let c := r.shuffle q.cache
    (c.getLast?, { stack := c.dropLast.foldl (fun s x => x :: s) q.stack, cache := [] })

/-- models src/PetriEngine/Structures/Queue.cpp:143-145. -/
def Rdfs.empty (q : Rdfs) : Bool := q.cache.isEmpty && q.stack.isEmpty

def rdfs : QImpl Rdfs where
  init := {}
  push q id _ _ := some (q.push id)
  pop q r := some (q.pop r)
  isEmpty := Rdfs.empty

/-! ### Priority queues of `weighted_t` -/

/-- A `weighted_t`: (weight, item). -/
abbrev Weighted := Nat × Nat

/-- models include/PetriEngine/Structures/Queue.h:88-92 and PotencyQueue.h:18-22 (`operator <`). -/
def Weighted.lt (a b : Weighted) : Bool :=
  if a.1 = b.1 then a.2 < b.2 else a.1 > b.1

/-- `std::priority_queue::top`: a greatest element w.r.t. `operator <`. -/
def pqTop : List Weighted → Option Weighted
  | [] => none
  | a :: l => match pqTop l with
    | none => some a
    | some b => if Weighted.lt a b then some b else some a

/-- `std::priority_queue::pop`. -/
def pqPop (l : List Weighted) : List Weighted := match pqTop l with
  | none => l
  | some a => l.erase a

/-- models src/PetriEngine/Structures/Queue.cpp:147-170. -/
def heur : QImpl (List Weighted) where
  init := []
  push q id dist _ := some ((u32 dist, u32 id) :: q)
  pop q _ := match pqTop q with
    | none => some (none, q)
    | some a => some (some a.2, pqPop q)
  isEmpty q := q.isEmpty

/-! ### Random potency queue -/

/-- models include/PetriEngine/Structures/PotencyQueue.h:40-45 (data members). -/
structure Pot where
  size : Nat := 0
  best : Nat := 0
  parentDist : Nat
  potencies : List Nat := []
  queues : List (List Weighted) := []
deriving DecidableEq, Repr

/-- models src/PetriEngine/Structures/PotencyQueue.cpp:47-55 (`_initializePotencies(n, v)`). -/
def Pot.initN (q : Pot) (n v : Nat) : Pot :=
  { q with queues := List.replicate (if n ≠ 0 then n else 1) [],
           potencies := q.potencies ++ List.replicate n v, best := 0 }

/-- models src/PetriEngine/Structures/PotencyQueue.cpp:57-65 (`_initializePotencies(initPotencies)`,
called by the constructor), 32-bit arithmetic. -/
def Pot.initV (parentDist : Nat) (ps : List Nat) : Pot :=
  { parentDist,
    queues := List.replicate (if ps.length ≠ 0 then ps.length else 1) [],
    potencies := ps.map fun p => (p * 60 + 1) % W32, best := 0 }

/-- models src/PetriEngine/Structures/PotencyQueue.cpp:30-37 (three-argument `push`);
`nT` is `net()->numberOfTransitions()`. -/
def Pot.push3 (nT : Nat) (q : Pot) (id dist : Nat) : Option Pot :=
  let q := if q.potencies.isEmpty then q.initN nT 100 else q
  match q.queues[q.best]? with
  | none => none
  | some l => some { q with queues := q.queues.set q.best ((u32 dist, id) :: l), size := q.size + 1 }

/-- models src/PetriEngine/Structures/PotencyQueue.cpp:81-90: the new potency of the fired
transition, in 32-bit arithmetic. -/
def newPotency (parentDist dist pot : Nat) : Nat :=
  if dist < parentDist then (pot + (parentDist - dist)) % W32
  else if dist > parentDist ∧ pot ≠ 0 then
    if pot - 1 ≥ dist - parentDist then pot - (dist - parentDist) else 1
  else pot

/-- models src/PetriEngine/Structures/PotencyQueue.cpp:77-94 (four-argument `push`). -/
def Pot.push4 (q : Pot) (id dist t : Nat) : Option Pot :=
  match q.potencies[t]?, q.queues[t]? with
  | some pot, some l =>
    some { q with potencies := q.potencies.set t (newPotency q.parentDist (u32 dist) pot),
                  queues := q.queues.set t ((u32 dist, id) :: l), size := q.size + 1 }
  | _, _ => none

/-- The loop of src/PetriEngine/Structures/PotencyQueue.cpp:111-121, run over the pairs
(potency, queue) from index `t` on.  `r` is uniform in `[0,1]`, so `r <= threshold` is certain when
`threshold = 1` (the potency equals `n ≠ 0`), impossible when `threshold` is NaN (`0/0`), and
otherwise an arbitrary coin flip. -/
def pickLoop (coin : Nat → Bool) : List (Nat × List Weighted) → Nat → Nat → Option Nat → Option Nat
  | [], _, _, cur => cur
  | (pot, l) :: rest, t, n, cur =>
    if l.isEmpty then pickLoop coin rest (t + 1) n cur
    else
      let n := (n + pot) % W32
      let hit := if pot = 0 ∧ n = 0 then false else if pot = n then true else coin t
      pickLoop coin rest (t + 1) n (if hit then some t else cur)

/-- Remove the top of queue number `c` (common tail of both branches of `pop`); `none`:
out-of-range index or empty priority queue. -/
def Pot.take (q : Pot) (c : Nat) : Option (Option Nat × Pot) :=
  match q.queues[c]? with
  | none => none
  | some l => match pqTop l with
    | none => none
    | some e => some (some e.2, { q with queues := q.queues.set c (pqPop l), size := q.size - 1,
                                         parentDist := e.1 })

/-- models src/PetriEngine/Structures/PotencyQueue.cpp:96-128 (`RandomPotencyQueue::pop`). -/
def Pot.pop (q : Pot) (r : Rand) : Option (Option Nat × Pot) :=
  if q.size = 0 then some (none, q)
  else if q.potencies.isEmpty then q.take q.best
  else match pickLoop r.coin (q.potencies.zip q.queues) 0 0 none with
    | none => none
    | some c => q.take c

/-- `RandomPotencyQueue` on a net with `nT` transitions.  `c0` is the indeterminate initial value of
`_currentParentDist`; `ps` the initial potencies (empty if not given). -/
def pot (nT c0 : Nat) (ps : List Nat) : QImpl Pot where
  init := if ps.isEmpty then { parentDist := c0 } else Pot.initV c0 ps
  push q id dist t := match t with
    | none => q.push3 nT id dist
    | some t => q.push4 id dist t
  pop := Pot.pop
  isEmpty q := q.size == 0

end Queue
end Verif
