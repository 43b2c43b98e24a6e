import Verif.LTL.Product
import Verif.PQL.Eval

/-!
# From queries to formulas of the library spot

Models src/LTL/LTLSearch.cpp:41-103, include/LTL/LTLValidator.h and src/LTL/Algorithm/LTLToBuchi.cpp.  HyperLTL is
not modelled.
-/

namespace Verif
namespace LTL
open PQL

/-- Text of an atomic proposition: the printed condition, or a running number (as text) when the propositions are
compressed. -/
inductive Key
  | txt (s : String)
  | idx (n : Nat)
deriving DecidableEq, Repr

/-- Formulas of the library spot, as far as the program builds them. -/
inductive SpotF
  | tt
  | ff
  | ap (k : Key)
  | not (f : SpotF)
  | and (fs : List SpotF)
  | or (fs : List SpotF)
  | X (f : SpotF)
  | F (f : SpotF)
  | G (f : SpotF)
  | U (f g : SpotF)

/-- include/PetriEngine/options.h (`APCompression`) -/
inductive Compress
  | none | choose | full
deriving DecidableEq

/-- What the translation depends on: the option, whether conjunctions of predicates are expanded (`formulaSize(query) <
100`), whether a condition counts as large (`formulaSize > 250`), and the printer of conditions. -/
structure TCfg where
  compress : Compress
  expand : Bool
  big : Cond → Bool
  print : Cond → String

/-- `APInfo`: the atomic propositions in order of creation. -/
abbrev APInfo := List (Key × Cond)

variable (cfg : TCfg)

/-- models src/LTL/Algorithm/LTLToBuchi.cpp:269-290 (`make_atomic_prop`) -/
def mkAp (c : Cond) (st : APInfo) : SpotF × APInfo :=
  let k := if cfg.compress = .full ∨ (cfg.compress = .choose ∧ cfg.big c = true) then Key.idx st.length
    else Key.txt (cfg.print c)
  (.ap k, st ++ [(k, c)])

mutual
/-- models src/LTL/Algorithm/LTLToBuchi.cpp:45-267 (`FormulaToSpotSyntax`) -/
def toSpot : Cond → APInfo → SpotF × APInfo
  | .bool b, st => (if b then .tt else .ff, st)
  | .dead, st => mkAp cfg .dead st
  | .cmp o a b, st => mkAp cfg (.cmp o a b) st
  | .cc l n, st => mkAp cfg (.cc l n) st
  | .not c, st => let r := toSpot c st; (.not r.1, r.2)
  | .and cs, st =>
    let t := toSpotT cs st
    if (cs.filter fun c => !c.isTemporal).isEmpty then (.and t.1, t.2)
    else if cfg.expand then
      let n := toSpotN cs t.2
      (.and (t.1 ++ [.and n.1]), n.2)
    else
      let n := mkAp cfg (.and (cs.filter fun c => !c.isTemporal)) t.2
      (.and (t.1 ++ [n.1]), n.2)
  | .or cs, st =>
    let t := toSpotT cs st
    if (cs.filter fun c => !c.isTemporal).isEmpty then (.or t.1, t.2)
    else if cfg.expand then
      let n := toSpotN cs t.2
      (.or (t.1 ++ [.or n.1]), n.2)
    else
      let n := mkAp cfg (.or (cs.filter fun c => !c.isTemporal)) t.2
      (.or (t.1 ++ [n.1]), n.2)
  | .X c, st | .EX c, st | .AX c, st => let r := toSpot c st; (.X r.1, r.2)
  | .F c, st | .EF c, st | .AF c, st => let r := toSpot c st; (.F r.1, r.2)
  | .G c, st | .EG c, st | .AG c, st => let r := toSpot c st; (.G r.1, r.2)
  | .U c d, st | .EU c d, st | .AU c d, st =>
    let r := toSpot c st
    let s := toSpot d r.2
    (.U r.1 s.1, s.2)
  | .E c, st | .A c, st => toSpot c st
/-- the temporal children (lines 49-57) -/
def toSpotT : List Cond → APInfo → List SpotF × APInfo
  | [], st => ([], st)
  | c :: cs, st =>
    if c.isTemporal then
      let r := toSpot c st
      let s := toSpotT cs r.2
      (r.1 :: s.1, s.2)
    else toSpotT cs st
/-- the other children (lines 63-68) -/
def toSpotN : List Cond → APInfo → List SpotF × APInfo
  | [], st => ([], st)
  | c :: cs, st =>
    if c.isTemporal then toSpotN cs st
    else
      let r := toSpot c st
      let s := toSpotN cs r.2
      (r.1 :: s.1, s.2)
end

mutual
/-- models include/LTL/LTLValidator.h:64-216: the visitor finds nothing bad.  The second operand of an until is not
visited (lines 180-182). -/
def valid : Cond → Bool
  | .bool _ | .dead | .cmp _ _ _ | .cc _ _ => true
  | .not c | .X c | .F c | .G c => valid c
  | .and cs | .or cs => validAll cs
  | .U c _ => valid c
  | .EX _ | .AX _ | .EF _ | .AF _ | .EG _ | .AG _ | .EU _ _ | .AU _ _ | .E _ | .A _ => false
def validAll : List Cond → Bool
  | [] => true
  | c :: cs => valid c && validAll cs
end

/-- models include/LTL/LTLValidator.h:30-60 (`isLTL`) -/
def isLTL : Cond → Bool
  | .A c | .E c | .AF c | .EF c | .AG c | .EG c => valid c
  | .EU c d | .AU c d => valid c && valid d
  | _ => false

/-- models src/LTL/LTLSearch.cpp:50-103 (`to_ltl`): the formula to be checked and whether the answer is to be negated;
`none` is the null pointer -/
def toLtl (c : Cond) : Option Cond × Bool :=
  let r : Cond × Bool := match c with
    | .E f => (.not f, true)
    | .A f => (f, false)
    | .AG f => (.G f, false)
    | .AF f => (.F f, false)
    | .EF f => (.not (.F f), true)
    | .EG f => (.not (.G f), true)
    | .AU f g => (.U f g, false)
    | .EU f g => (.not (.U f g), true)
    | c => (c, false)
  (if valid r.1 then some r.1 else none, r.2)

/-- models src/LTL/Algorithm/LTLToBuchi.cpp:323-329 and include/LTL/Structures/BuchiAutomaton.h:88: the value of the
BDD variable `x` in a marking.  `reg` is spot's `register_ap`; the last of several entries with the same number is
the one left in `ap_map`. -/
def apValue (N : FlatNet) (reg : Key → Nat) (st : APInfo) (m : Mark) (x : Nat) : Bool :=
  match st.reverse.find? fun e => reg e.1 == x with
  | some e => evaluate (N.deadlocked m) m e.2 == .rTrue
  | none => false

/-! ### Specification -/

mutual
/-- Specification: meaning of spot's formulas at position `i` of a word. -/
def SpotF.sat (v : Nat → Key → Bool) (i : Nat) : SpotF → Prop
  | .tt => True
  | .ff => False
  | .ap k => v i k = true
  | .not f => ¬ f.sat v i
  | .and fs => spotAll v i fs
  | .or fs => spotAny v i fs
  | .X f => f.sat v (i + 1)
  | .F f => ∃ j, f.sat v (i + j)
  | .G f => ∀ j, f.sat v (i + j)
  | .U f g => ∃ j, g.sat v (i + j) ∧ ∀ k, k < j → f.sat v (i + k)
def spotAll (v : Nat → Key → Bool) (i : Nat) : List SpotF → Prop
  | [] => True
  | f :: fs => f.sat v i ∧ spotAll v i fs
def spotAny (v : Nat → Key → Bool) (i : Nat) : List SpotF → Prop
  | [] => False
  | f :: fs => f.sat v i ∨ spotAny v i fs
end

/-- Specification, the contract of the library spot: different propositions of the table `st` have different variables, and
the automaton obtained from `f` accepts exactly the words that satisfy `f`. -/
structure SpotOK (A : Buchi) (reg : Key → Nat) (st : APInfo) (f : SpotF) : Prop where
  inj : ∀ e ∈ st, ∀ e' ∈ st, reg e.1 = reg e'.1 → e.1 = e'.1
  lang : ∀ v : Nat → Nat → Bool, A.AcceptsWord v ↔ f.sat (fun i k => v i (reg k)) 0

mutual
/-- Specification: formulas of LTL, without path quantifiers. -/
def PathF : Cond → Bool
  | .bool _ | .dead | .cmp _ _ _ | .cc _ _ => true
  | .not c | .X c | .F c | .G c => PathF c
  | .and cs | .or cs => pathAll cs
  | .U c d => PathF c && PathF d
  | _ => false
def pathAll : List Cond → Bool
  | [] => true
  | c :: cs => PathF c && pathAll cs
end

/-- Specification: a path quantifier followed by a formula of LTL. -/
def QueryF : Cond → Bool
  | .A c | .E c | .AF c | .EF c | .AG c | .EG c => PathF c
  | .EU c d | .AU c d => PathF c && PathF d
  | _ => false

/-- Specification: the printer does not give conditions of the table that differ in meaning the same text. -/
def PrintOK (T : TS) (print : Cond → String) (st : APInfo) : Prop :=
  ∀ e ∈ st, ∀ e' ∈ st, print e.2 = print e'.2 → ∀ π, T.IsPath π → (e.2.sat T π ↔ e'.2.sat T π)

end LTL
end Verif
