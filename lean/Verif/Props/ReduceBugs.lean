import Verif.Reduce.Check
import Verif.Reduce.ModelP

/-!
# C31: nets on which the structural reductions change the answer

Each theorem gives a well-formed net, the places of the query and the rules (`mode = 1` are the default reductions of
`-r 1`, `mode = 3` the rules given by `-r 3`), such that a number of tokens in a place of the query can be reached in one
of the two nets and not in the other.  The flags are those of a reachability query (`remove_loops`, `all_reach`,
`all_ltl`, src/PetriEngine/PetriNetBuilder.cpp:551-579) and the clock never runs out.
-/

namespace Verif
namespace Reduce
namespace Bugs

/-- An arc. -/
def arc (p w : Nat) : Arc := ⟨p, w, false⟩
/-- An inhibitor arc. -/
def inh (p w : Nat) : Arc := ⟨p, w, true⟩
/-- A transition. -/
def T (pre post : List Arc) : RTr := { pre := pre, post := post, skip := false, inhib := pre.any fun a => a.inhib }

/-- The clock that never runs out (in these small nets). -/
def clock : Clock := ⟨fun _ => 1000, fun _ => false, fun _ => false⟩
/-- The flags of a reachability query. -/
def flags : Flags := ⟨true, true, true, false⟩

/-- The reachable values of the query place `q` are not the same in the net and in the reduced net. -/
def Wrong (N : RNet) (q mode : Nat) (rs : List Nat) : Prop :=
  N.WF ∧ ∃ fuel N', reduce (fun p => p == q) flags clock mode rs fuel N = some N' ∧
    (¬Covers q N N' ∨ ¬Covers q N' N)

/-- The test: `ts` is a path in the net (`lose`) or in the reduced net (`gain`) to a value of `q` that does not occur in
the closed set `S` of the other net. -/
def lose (N : RNet) (q mode : Nat) (rs : List Nat) (fuel : Nat) (ts : List Nat) (S : List (List Nat)) : Bool :=
  match reduce (fun p => p == q) flags clock mode rs fuel N with
  | none => false
  | some N' => loses q N N' ts S

def gain (N : RNet) (q mode : Nat) (rs : List Nat) (fuel : Nat) (ts : List Nat) (S : List (List Nat)) : Bool :=
  match reduce (fun p => p == q) flags clock mode rs fuel N with
  | none => false
  | some N' => loses q N' N ts S

theorem wrong_of_lose {N : RNet} {q mode : Nat} {rs : List Nat} {fuel : Nat} {ts : List Nat} {S : List (List Nat)} (hN : N.WF)
    (h : lose N q mode rs fuel ts S = true) : Wrong N q mode rs := by
  unfold lose at h
  split at h
  · cases h
  · rename_i N' he; exact ⟨hN, fuel, N', he, Or.inl (loses_not h)⟩

theorem wrong_of_gain {N : RNet} {q mode : Nat} {rs : List Nat} {fuel : Nat} {ts : List Nat} {S : List (List Nat)} (hN : N.WF)
    (h : gain N q mode rs fuel ts S = true) : Wrong N q mode rs := by
  unfold gain at h
  split at h
  · cases h
  · rename_i N' he; exact ⟨hN, fuel, N', he, Or.inr (loses_not h)⟩

/-- `a` and `b` feed `p` (2 tokens, 1 token), `p` holds one token, two tokens of `p` make one of `r`, that one of `q`. -/
def netB1 : RNet := RNet.ofList [1, 1, 1, 0, 0]
  [T [arc 0 1] [arc 2 2], T [arc 1 1] [arc 2 1], T [arc 2 2] [arc 3 1], T [arc 3 1] [arc 4 1]]

/-- Rule B throws away the initial token of `p` although a second producer could have made use of it: in the net `q` can
get two tokens, in the reduced net only one (default reductions, no inhibitor arcs). -/
theorem C31_ruleB_initial_tokens_lost : Wrong netB1 4 1 [] :=
  wrong_of_lose (ofList_WF (by decide +kernel))
    (show lose netB1 4 1 [] 20 [0, 1, 2, 2, 3, 3] [[0, 0, 0, 1, 0], [0, 0, 0, 0, 1]] = true by decide +kernel)

/-- `a` makes two tokens of `p`, and a token of `p` together with one of `x` makes one of `r`, which makes one of `q`. -/
def netB2 : RNet := RNet.ofList [1, 0, 1, 0, 0]
  [T [arc 0 1] [arc 1 2], T [arc 1 1, arc 2 1] [arc 3 1], T [arc 3 1] [arc 4 1]]

/-- Rule B lets the producer fire the consumer twice or not at all: in the net `q` can get a token, in the reduced net it
cannot (default reductions, no inhibitor arcs). -/
theorem C31_ruleB_all_or_nothing : Wrong netB2 4 1 [] :=
  wrong_of_lose (ofList_WF (by decide +kernel))
    (show lose netB2 4 1 [] 20 [0, 1, 2] [[1, 0, 1, 0, 0]] = true by decide +kernel)

/-- `a` can be emptied into `p`, where a token waits for one of `x`; `q` gets a token when `a` is empty. -/
def netB3 : RNet := RNet.ofList [1, 0, 0, 0, 0, 1]
  [T [arc 0 1] [arc 1 1], T [arc 1 1, arc 2 1] [arc 3 1], T [inh 0 1, arc 5 1] [arc 4 1]]

/-- Rule B makes the producer wait for the tokens of the consumer, its own tokens are seen by inhibitor arcs meanwhile. -/
theorem C31_ruleB_inhibitor : Wrong netB3 4 3 [1] :=
  wrong_of_lose (ofList_WF (by decide +kernel))
    (show lose netB3 4 3 [1] 20 [0, 2] [[1, 0, 0, 0, 0, 1]] = true by decide +kernel)

/-- `a` makes a token of `p` and one of `p'`; `q` gets the token of `p'` (and one of `x`) when `p` is empty. -/
def netC : RNet := RNet.ofList [1, 0, 0, 0, 1]
  [T [arc 0 1] [arc 1 1, arc 2 1], T [inh 1 1, arc 2 1, arc 4 1] [arc 3 1]]

/-- Rule C takes the inhibitor arc of `p` for an arc: it removes `p'` as parallel to `p`, and `q` can get a token. -/
theorem C31_ruleC_inhibitor : Wrong netC 3 1 [] :=
  wrong_of_gain (ofList_WF (by decide +kernel))
    (show gain netC 3 1 [] 20 [1] [[1, 0, 0, 0, 1], [0, 1, 1, 0, 1]] = true by decide +kernel)

/-- Two ways from `a` to `b`, the first leaves two tokens in `p`, the second one; two tokens in `p` keep `q` empty. -/
def netD : RNet := RNet.ofList [1, 0, 0, 0]
  [T [arc 0 1] [arc 1 1, arc 2 2], T [arc 0 1] [arc 1 1, arc 2 1], T [arc 1 1, inh 2 2] [arc 3 1]]

/-- Rule D removes the transition with the smaller effect although the larger one feeds an inhibitor arc. -/
theorem C31_ruleD_inhibitor : Wrong netD 3 3 [3] :=
  wrong_of_lose (ofList_WF (by decide +kernel))
    (show lose netD 3 3 [3] 20 [1, 2] [[1, 0, 0, 0], [0, 1, 2, 0]] = true by decide +kernel)

/-- The only transition can never fire, `p` is empty. -/
def netE : RNet := RNet.ofList [0, 1, 0] [T [arc 0 1, arc 1 1] [arc 2 1]]

/-- Rules E and P (`-r 3`) remove the empty place instead of the transition, which becomes enabled. -/
theorem C31_ruleEP_revives_dead_transitions : Wrong netE 2 3 [4] ∧ Wrong netE 2 3 [15] :=
  ⟨wrong_of_gain (ofList_WF (by decide +kernel)) (show gain netE 2 3 [4] 20 [0] [[0, 1, 0]] = true by decide +kernel),
   wrong_of_gain (ofList_WF (by decide +kernel)) (show gain netE 2 3 [15] 20 [0] [[0, 1, 0]] = true by decide +kernel)⟩

/-- `p` holds 20 tokens, one transition takes 13 of them (20 in, 7 out), another one takes 3, once; with less than 5 of
them `q` gets the token of `x`. -/
def netI : RNet := RNet.ofList [20, 0, 1, 1]
  [T [inh 0 5, arc 3 1] [arc 1 1], T [arc 0 20] [arc 0 7], T [arc 0 3, arc 2 1] []]

/-- Rule I keeps only the transitions that can bring an inhibitor place below the weight in one step. -/
theorem C31_ruleI_inhibitor : Wrong netI 1 1 [] :=
  wrong_of_lose (ofList_WF (by decide +kernel))
    (show lose netI 1 1 [] 20 [1, 2, 0] [[20, 0, 1, 1], [17, 0, 0, 1]] = true by decide +kernel)

/-- The only transition that can be enabled needs one token more than there are, `2^32 - 1`. -/
def netJ : RNet := RNet.ofList [4294967294, 0, 0] [T [arc 0 4294967295] [arc 1 1], T [arc 2 1] [arc 0 2]]

/-- Rule J takes the weight `2^32 - 1` for "no weight yet" and divides everything by 2. -/
theorem C31_ruleJ_sentinel : Wrong netJ 1 1 [] :=
  wrong_of_gain (ofList_WF (by decide +kernel))
    (show gain netJ 1 1 [] 20 [0] [[4294967294, 0, 0]] = true by decide +kernel)

/-- `a` makes two tokens of `p` or three of `q`, each token of `p` makes one of `q`. -/
def netS : RNet := RNet.ofList [1, 0, 0]
  [T [arc 0 1] [arc 1 2], T [arc 1 1] [arc 2 1], T [arc 0 1] [arc 2 3]]

/-- Rule S removes the transitions it has just made for the case that the consumer does not fire as often as it could: in
the net `q` can have exactly one token, in the reduced net it cannot (default reductions, no inhibitor arcs). -/
theorem C31_ruleS_all_or_nothing : Wrong netS 2 1 [] :=
  wrong_of_lose (ofList_WF (by decide +kernel))
    (show lose netS 2 1 [] 20 [0, 1] [[1, 0, 0], [0, 0, 2], [0, 0, 3]] = true by decide +kernel)

end Bugs
end Reduce
end Verif
