/-!
# Model of the controller synthesis engine

Models `src/PetriEngine/Synthesis/SimpleSynthesis.cpp` and
`include/PetriEngine/Synthesis/SynthConfig.h`, without stubborn sets (`use_stubborn = false`).

Simplifications.  A configuration is addressed by its marking instead of a `SynthConfig*` or a state
number: the state set is injective (C06), so pointer equality is equality of markings.  The queue
(`DFSQueue`, `BFSQueue`, `RDFSQueue`) is a list from which an arbitrary element is removed, which
covers every queue (C08).  Statistics and timers are left out.
-/

namespace Verif
namespace Synth

/-- models include/PetriEngine/Synthesis/SynthConfig.h:40-44 (the values of `_state`; the flag
`PRINTED` is only used by `print_strategy`). -/
inductive CState
  | unknown | processed | maybe | losing | winning
deriving DecidableEq, Repr

/-- models include/PetriEngine/Synthesis/SynthConfig.h:67-82 (`struct SynthConfig`).  `known` tells
whether the marking has been added to the state set.  The child counters are `uint32_t`. -/
structure Cfg (σ : Type) where
  known : Bool := false
  state : CState := .unknown
  waiting : Nat := 0
  ctrlC : Nat := 0
  envC : Nat := 0
  deps : List (Bool × σ) := []

/-- The annotated state set `_stateset`. -/
abbrev Store (σ : Type) := σ → Cfg σ

/-- Everything a synthesis run depends on: the successors written by `next_env` and `next_ctrl`
(include/PetriEngine/Synthesis/GameSuccessorGenerator.h:40-54) in order, the negation of
`check_bound`, the value of `eval(_predicate)`, `_is_safety`, `permissive`, and the position
of the element removed from the queue by the k-th `pop`. -/
structure Game (σ : Type) where
  env : σ → List σ
  ctrl : σ → List σ
  over : σ → Bool
  goal : σ → Bool
  safety : Bool
  permissive : Bool
  pick : Nat → List σ → Nat

variable {σ : Type}

/-- models include/PetriEngine/Synthesis/SynthConfig.h:80-82 (`determined`). -/
def CState.det : CState → Bool
  | .losing => true
  | .winning => true
  | _ => false

/-- `uint32_t` decrement with wrap-around. -/
def dec32 (n : Nat) : Nat := if n = 0 then 4294967295 else n - 1

section
variable [DecidableEq σ]

def Store.put (st : Store σ) (s : σ) (c : Cfg σ) : Store σ := fun x => if x = s then c else st x

def Store.setState (st : Store σ) (s : σ) (v : CState) : Store σ := st.put s { st s with state := v }

/-- models src/PetriEngine/Synthesis/SimpleSynthesis.cpp:226-236: the state of a new configuration. -/
def Game.init0 (G : Game σ) (s : σ) : CState :=
  if G.over s then .losing
  else if G.safety then (if G.goal s then .unknown else .losing)
  else (if G.goal s then .winning else .unknown)

/-- models src/PetriEngine/Synthesis/SimpleSynthesis.cpp:204-240 (`get_config`). -/
def getConfig (G : Game σ) (st : Store σ) (s : σ) : Store σ :=
  if (st s).known then st else st.put s { known := true, state := G.init0 s }

/-- models src/PetriEngine/Synthesis/SimpleSynthesis.cpp:501-532 (`get_env_successors`), for the
configuration `s`: the remaining successors, the store, `some_env` and `env_buffer`. -/
def envLoop (G : Game σ) (s : σ) : List σ → Store σ → Bool → List σ → Store σ × Bool × List σ
  | [], st, sm, buf => (st, sm, buf)
  | c :: cs, st, _, buf =>
    let st := getConfig G st c
    if (st c).state = .losing then (st.setState s .losing, true, buf)
    else if (st c).state = .winning then envLoop G s cs st true buf
    else if c = s then
      if G.safety then envLoop G s cs st true buf
      else (st.setState s .losing, true, buf)
    else envLoop G s cs st true (buf ++ [c])

/-- The `break` of `get_ctrl_successors` at lines 472-479 and 487-493: the state is `MAYBE` already. -/
def ctrlBreak (s : σ) (envEmpty : Bool) (st : Store σ) (sw : Bool) : Store σ × Bool × Bool × List σ :=
  (if envEmpty then st.setState s .winning else st, true, sw, [])

/-- models src/PetriEngine/Synthesis/SimpleSynthesis.cpp:448-499 (`get_ctrl_successors`): the store,
`some`, `some_winning` and `ctrl_buffer`. -/
def ctrlLoop (G : Game σ) (s : σ) (envEmpty : Bool) :
    List σ → Store σ → Bool → Bool → List σ → Store σ × Bool × Bool × List σ
  | [], st, sm, sw, buf => (st, sm, sw, buf)
  | c :: cs, st, _, sw, buf =>
    let st := getConfig G st c
    if c = s then
      if G.safety then
        let st := st.setState s .maybe
        if G.permissive then ctrlLoop G s envEmpty cs st true sw (buf ++ [c])
        else ctrlBreak s envEmpty st sw
      else ctrlLoop G s envEmpty cs st true sw buf
    else if (st c).state = .losing then ctrlLoop G s envEmpty cs st true sw buf
    else if (st c).state = .winning then
      let st := st.setState s .maybe
      if G.permissive then ctrlLoop G s envEmpty cs st true true (buf ++ [c])
      else ctrlBreak s envEmpty st true
    else ctrlLoop G s envEmpty cs st true sw (buf ++ [c])

/-- models src/PetriEngine/Synthesis/SimpleSynthesis.cpp:534-560 (`fix_assignment`): the new state. -/
def fixAssign (safety : Bool) (v : CState) (someCtrl someWinning ctrlEmpty someEnv envEmpty : Bool) :
    CState :=
  if v.det then v
  else if someCtrl && !someWinning && ctrlEmpty then .losing
  else if !someCtrl && !someEnv then (if safety then .winning else .losing)
  else if envEmpty && someWinning then .winning
  else if !someCtrl && someEnv && envEmpty then .winning
  else if !someCtrl && !envEmpty then .maybe
  else v

/-- models src/PetriEngine/Synthesis/SimpleSynthesis.cpp:562-571 (`to_queue`). -/
def toQueue (isCtrl : Bool) (s : σ) : List σ → Store σ → List σ → Store σ × List σ
  | [], st, q => (st, q)
  | c :: cs, st, q =>
    let cfg := st c
    if cfg.waiting = 0 then
      toQueue isCtrl s cs (st.put c { cfg with waiting := 1, deps := (isCtrl, s) :: cfg.deps }) (q ++ [c])
    else
      toQueue isCtrl s cs (st.put c { cfg with deps := (isCtrl, s) :: cfg.deps }) q

/-- models src/PetriEngine/Synthesis/SimpleSynthesis.cpp:134-171: the new state and counters of an
undetermined ancestor `a`, for a depender entry with flag `isCtrl` of a configuration in state
`nst`. -/
def depUpdate (nst : CState) (isCtrl : Bool) (a : Cfg σ) : Cfg σ :=
  let a :=
    if isCtrl then
      let a := { a with ctrlC := dec32 a.ctrlC }
      let a := if nst = .winning then
          { a with state := if a.envC = 0 then .winning else .maybe }
        else a
      if a.ctrlC = 0 ∧ a.state ≠ .maybe ∧ a.state ≠ .winning then { a with state := .losing } else a
    else
      let a := { a with envC := dec32 a.envC }
      if nst = .losing then { a with state := .losing }
      else if nst = .winning then
        (if a.envC = 0 ∧ a.state = .maybe then { a with state := .winning } else a)
      else a
  if a.envC = 0 ∧ a.ctrlC = 0 ∧ a.state = .maybe then { a with state := .winning } else a

/-- models src/PetriEngine/Synthesis/SimpleSynthesis.cpp:127-181: the body of the loop of
`dependers_to_waiting` for one depender entry. -/
def depStep (next : σ) (d : Bool × σ) (st : Store σ) (back : List σ) : Store σ × List σ :=
  if (st d.2).state.det then (st, back)
  else
    let a := depUpdate (st next).state d.1 (st d.2)
    if a.state.det then
      (st.put d.2 { a with waiting := 2 }, if a.waiting < 2 then d.2 :: back else back)
    else (st.put d.2 a, back)

/-- models src/PetriEngine/Synthesis/SimpleSynthesis.cpp:127-181: the loop over the dependers. -/
def depLoop (next : σ) : List (Bool × σ) → Store σ → List σ → Store σ × List σ
  | [], st, back => (st, back)
  | d :: ds, st, back =>
    depLoop next ds (depStep next d st back).1 (depStep next d st back).2

/-- models src/PetriEngine/Synthesis/SimpleSynthesis.cpp:123-184 (`dependers_to_waiting`). -/
def dependersToWaiting (next : σ) (st : Store σ) (back : List σ) : Store σ × List σ :=
  let r := depLoop next (st next).deps st back
  (r.1.put next { r.1 next with deps := [] }, r.2)

/-- The variables of `run`.  `inner` tells that the condition of the outer loop has been tested and
the inner loop over `back` is running; `pops` counts the calls of `queue->pop()`; the head of `back` is
the top of the stack. -/
structure RState (σ : Type) where
  st : Store σ
  queue : List σ
  back : List σ := []
  inner : Bool := false
  pops : Nat := 0

/-- models src/PetriEngine/Synthesis/SimpleSynthesis.cpp:639-673: processing of an undetermined
configuration `s` that has been removed from the queue. -/
def process (G : Game σ) (s : σ) (r : RState σ) : RState σ :=
  let st := r.st.setState s .processed
  let (st, someEnv, envBuf) := envLoop G s (G.env s) st false []
  let (st, someCtrl, someWin, ctrlBuf) :=
    if (st s).state.det then (st, false, false, [])
    else ctrlLoop G s envBuf.isEmpty (G.ctrl s) st false false []
  let v := fixAssign G.safety (st s).state someCtrl someWin ctrlBuf.isEmpty someEnv envBuf.isEmpty
  let st := st.setState s v
  let back := if v.det then s :: r.back else r.back
  if !v.det || G.permissive then
    let (st, q) := toQueue true s ctrlBuf st r.queue
    let (st, q) := toQueue false s envBuf st q
    { r with st := st.put s { st s with ctrlC := ctrlBuf.length, envC := envBuf.length },
             queue := q, back := back, inner := false }
  else { r with st := st, back := back, inner := false }

/-- models src/PetriEngine/Synthesis/SimpleSynthesis.cpp:614-635: `pop` and the checks before
processing.  `m0` is the configuration `meta`. -/
def popStep (G : Game σ) (m0 s : σ) (r : RState σ) : RState σ :=
  let cfg := r.st s
  if cfg.state.det then
    { r with back := if G.permissive && !cfg.deps.isEmpty then s :: r.back else r.back, inner := false }
  else if cfg.deps.all (fun p => (r.st p.2).state.det) && decide (s ≠ m0) then
    { r with st := r.st.put s { cfg with waiting := 0, deps := [] }, inner := false }
  else process G s r

/-- The element removed by the next `pop`. -/
def popIdx (G : Game σ) (r : RState σ) : Nat := G.pick r.pops r.queue % r.queue.length

/-- models src/PetriEngine/Synthesis/SimpleSynthesis.cpp:605-674: one turn of the inner loop, or one
test of the outer condition, or one turn of the rest of the outer loop.  `none`: the loop is left. -/
def step (G : Game σ) (m0 : σ) (r : RState σ) : Option (RState σ) :=
  if r.inner = false ∧ (r.st m0).state.det = true ∧ G.permissive = false then none
  else
    match r.back with
    | next :: back =>
      let x := dependersToWaiting next r.st back
      some { r with st := x.1, back := x.2, inner := true }
    | [] =>
      match r.queue[popIdx G r]? with
      | none => none
      | some s => some (popStep G m0 s { r with queue := r.queue.eraseIdx (popIdx G r), pops := r.pops + 1 })

/-- models src/PetriEngine/Synthesis/SimpleSynthesis.cpp:590-603: the state before the loop. -/
def start (G : Game σ) (m0 : σ) : RState σ :=
  let st := getConfig G (fun _ => {}) m0
  { st := st.put m0 { st m0 with waiting := 1 }, queue := [m0] }

/-- The loop with a bound on the number of steps; `none` when the bound is reached. -/
def loop (G : Game σ) (m0 : σ) : Nat → RState σ → Option (RState σ)
  | 0, _ => none
  | fuel + 1, r =>
    match step G m0 r with
    | none => some r
    | some r' => loop G m0 fuel r'

/-- models src/PetriEngine/Synthesis/SimpleSynthesis.cpp:680-681: `_result.result`. -/
def answer (G : Game σ) (m0 : σ) (r : RState σ) : Bool :=
  if G.safety then (r.st m0).state ≠ .losing else (r.st m0).state = .winning

/-- models src/PetriEngine/Synthesis/SimpleSynthesis.cpp:581-682 (`run`). -/
def run (G : Game σ) (m0 : σ) (fuel : Nat) : Option Bool :=
  (loop G m0 fuel (start G m0)).map (answer G m0)

end
end Synth
end Verif
