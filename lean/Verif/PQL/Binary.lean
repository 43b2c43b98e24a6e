import Verif.PQL.Merge
import Verif.PQL.Eval

/-!
# The binary query format

Models `src/PetriEngine/PQL/BinaryPrinter.cpp`, `src/PetriParse/QueryBinaryParser.cpp` and the binary half
of `writeQueries` (`src/VerifyPN.cpp:316-350`).  Bytes are numbers below 256; the machine is little endian,
`int`, `Path`, `Quantifier` have 4 bytes and `bool` has 1.  Reading past the end of the file leaves
indeterminate values; here it yields `none`, like the failed assertions.  A double is its 64-bit pattern.
-/

namespace Verif
namespace Binary
open PQL

abbrev Bytes := List Nat

/-- The `n` lowest bytes of a number. -/
def bytesOf : Nat → Nat → Bytes
  | 0, _ => []
  | n + 1, v => v % 256 :: bytesOf n (v / 256)

/-- `istream::read` of an unsigned number of `n` bytes. -/
def readNat : Nat → Bytes → Option (Nat × Bytes)
  | 0, bs => some (0, bs)
  | _ + 1, [] => none
  | n + 1, b :: bs =>
    match readNat n bs with
    | some (v, r) => some (b + 256 * v, r)
    | none => none

def u32 (v : Nat) : Bytes := bytesOf 4 v

/-- Conversion to a 32-bit integer and writing it. -/
def i32 (v : Int) : Bytes := bytesOf 4 (v % 2 ^ 32).toNat

/-- The value of a 32-bit two's complement pattern. -/
def sign32 (n : Nat) : Int := if n < 2 ^ 31 then n else (n : Int) - 2 ^ 32

/-- What is left of a 64-bit constant after storing it in an `int`. -/
def wrap32 (v : Int) : Int := sign32 (v % 2 ^ 32).toNat

def readI32 (bs : Bytes) : Option (Int × Bytes) :=
  match readNat 4 bs with
  | some (v, r) => some (sign32 v, r)
  | none => none

/-- models `std::getline(in, s, '\0')`. -/
def getline : Bytes → Bytes × Bytes
  | [] => ([], [])
  | b :: bs => if b = 0 then ([], bs) else ((b :: (getline bs).1), (getline bs).2)

/-- include/PetriEngine/PQL/PQL.h:64-65: the numbers of the enumerations; -1 is 0xffffffff. -/
def qAND := 1
def qOR := 2
def qA := 3
def qE := 4
def qNEG := 5
def qCOMPCONJ := 6
def qDEADLOCK := 7
def qUPPERBOUNDS := 8
def qBOOL := 9
def qBControl := 10
def qEMPTY := 4294967295
def pG := 1
def pX := 2
def pF := 3
def pU := 4
def pControl := 5
def pError := 4294967295

/-! ### Writing -/

mutual
/-- models src/PetriEngine/PQL/BinaryPrinter.cpp:20-67 (expressions). -/
def printExpr : Expr → Bytes
  | .lit v => 108 :: i32 v
  | .id p => 105 :: u32 p
  | .minus e => 45 :: (u32 2 ++ (108 :: i32 0) ++ printExpr e)
  | .sub e es => 45 :: (u32 (es.length + 1) ++ printExpr e ++ printExprs es)
  | .plus k ids es =>
    43 :: (i32 k ++ u32 ids.length ++ u32 es.length ++ ids.flatMap u32 ++ printExprs es)
  | .mul k ids es =>
    42 :: (i32 k ++ u32 ids.length ++ u32 es.length ++ ids.flatMap u32 ++ printExprs es)
def printExprs : List Expr → Bytes
  | [] => []
  | e :: es => printExpr e ++ printExprs es
end

/-- Path and quantifier. -/
def hd (p q : Nat) : Bytes := u32 p ++ u32 q

/-- models src/PetriEngine/PQL/Expressions.cpp:238-252 (`op`), with the terminating zero. -/
def opBytes : Cmp → Bytes
  | .lt => [60]
  | .le => [60, 61]
  | .eq => [61, 61]
  | .ne => [33, 61]

def boolByte (b : Bool) : Nat := if b then 1 else 0

def printCons (c : Cons) : Bytes := u32 c.place ++ u32 c.lower ++ u32 c.upper

mutual
/-- models src/PetriEngine/PQL/BinaryPrinter.cpp:69-164 (conditions). -/
def printCond : Cond → Bytes
  | .bool b => hd pError qBOOL ++ [boolByte b]
  | .dead => hd pError qDEADLOCK
  | .cmp op e1 e2 => hd pError qEMPTY ++ opBytes op ++ [0] ++ printExpr e1 ++ printExpr e2
  | .cc l n => hd pError qCOMPCONJ ++ [boolByte n] ++ u32 l.length ++ l.flatMap printCons
  | .not c => hd pError qNEG ++ printCond c
  | .and cs => hd pError qAND ++ u32 cs.length ++ printConds cs
  | .or cs => hd pError qOR ++ u32 cs.length ++ printConds cs
  | .EX c => hd pX qE ++ printCond c
  | .AX c => hd pX qA ++ printCond c
  | .EF c => hd pF qE ++ printCond c
  | .AF c => hd pF qA ++ printCond c
  | .EG c => hd pG qE ++ printCond c
  | .AG c => hd pG qA ++ printCond c
  | .EU c d => hd pU qE ++ printCond c ++ printCond d
  | .AU c d => hd pU qA ++ printCond c ++ printCond d
  | .E c => hd pError qE ++ printCond c
  | .A c => hd pError qA ++ printCond c
  | .X c => hd pX qEMPTY ++ printCond c
  | .F c => hd pF qEMPTY ++ printCond c
  | .G c => hd pG qEMPTY ++ printCond c
  | .U c d => hd pU qEMPTY ++ printCond c ++ printCond d
def printConds : List Cond → Bytes
  | [] => []
  | c :: cs => printCond c ++ printConds cs
end

/-- A query: a formula, a formula under `control:`, or an upper-bounds query with the places and their
maxima, the overall maximum and the offset.  (The code allows the last two also inside formulas.) -/
inductive Query
  | cond (c : Cond)
  | control (c : Cond)
  | bounds (places : List (Nat × Nat)) (max offset : Nat)

/-- models src/PetriEngine/PQL/BinaryPrinter.cpp:69-75, 136-153. -/
def printQuery : Query → Bytes
  | .cond c => printCond c
  | .control c => hd pControl qBControl ++ printCond c
  | .bounds ps mx off => hd pError qUPPERBOUNDS ++ u32 ps.length ++ bytesOf 8 mx ++ bytesOf 8 off ++
      ps.flatMap fun x => u32 x.1 ++ bytesOf 8 x.2

/-! ### Reading -/

/-- A loop that reads `n` items. -/
def many {α : Type} (p : Bytes → Option (α × Bytes)) : Nat → Bytes → Option (List α × Bytes)
  | 0, bs => some ([], bs)
  | n + 1, bs =>
    match p bs with
    | none => none
    | some (x, r) =>
      match many p n r with
      | none => none
      | some (xs, r') => some (x :: xs, r')

/-- Reads a place number and looks it up in the table of `nn` names; outside the table is undefined. -/
def readPlace (nn : Nat) (bs : Bytes) : Option (Nat × Bytes) :=
  match readNat 4 bs with
  | some (p, r) => if p < nn then some (p, r) else none
  | none => none

/-- Reads the rest of a sum or product: the constant, the places, the other operands. -/
def readComm (nn : Nat) (p : Bytes → Option (Expr × Bytes)) (bs : Bytes) : Option (List Expr × Bytes) :=
  match readI32 bs with
  | none => none
  | some (k, r) =>
    match readNat 4 r with
    | none => none
    | some (ni, r) =>
      match readNat 4 r with
      | none => none
      | some (ne, r) =>
        match many (readPlace nn) ni r with
        | none => none
        | some (ids, r) =>
          match many p ne r with
          | none => none
          | some (es, r) => some (.lit k :: (ids.map .id ++ es), r)

/-- models src/PetriParse/QueryBinaryParser.cpp:249-321 (`parseExpr`), with a bound on the nesting.
The number of a single place is read into an `int`; as an index into the names a negative one is undefined. -/
def parseExpr (nn : Nat) : Nat → Bytes → Option (Expr × Bytes)
  | 0, _ => none
  | _ + 1, [] => none
  | f + 1, t :: bs =>
    if t = 108 then
      match readI32 bs with
      | some (v, r) => some (.lit v, r)
      | none => none
    else if t = 105 then
      match readPlace nn bs with
      | some (p, r) => if p < 2 ^ 31 then some (.id p, r) else none
      | none => none
    else if t = 45 then
      match readNat 4 bs with
      | none => none
      | some (n, r) =>
        match many (parseExpr nn f) n r with
        | some (e :: es, r) => some (.sub e es, r)
        | _ => none
    else if t = 42 then
      match readComm nn (parseExpr nn f) bs with
      | some (es, r) => some (mkMul es, r)
      | none => none
    else if t = 43 then
      match readComm nn (parseExpr nn f) bs with
      | some (es, r) => some (mkPlus es, r)
      | none => none
    else none

/-- models src/PetriParse/QueryBinaryParser.cpp:125-139: the comparison, by its text. -/
def mkCmp (op : Bytes) (e1 e2 : Expr) : Option Cond :=
  if op = [60] then some (.cmp .lt e1 e2)
  else if op = [60, 61] then some (.cmp .le e1 e2)
  else if op = [62, 61] then some (.cmp .le e2 e1)
  else if op = [62] then some (.cmp .lt e2 e1)
  else if op = [61, 61] then some (.cmp .eq e1 e2)
  else if op = [33, 61] then some (.cmp .ne e1 e2)
  else none

def readCons (nn : Nat) (bs : Bytes) : Option (Cons × Bytes) :=
  match readPlace nn bs with
  | none => none
  | some (p, r) =>
    match readNat 4 r with
    | none => none
    | some (l, r) =>
      match readNat 4 r with
      | none => none
      | some (u, r) => some (⟨p, l, u⟩, r)

/-- models src/PetriParse/QueryBinaryParser.cpp:98-114 -/
def readCC (nn : Nat) (bs : Bytes) : Option (Cond × Bytes) :=
  match readNat 1 bs with
  | none => none
  | some (b, r) =>
    match readNat 4 r with
    | none => none
    | some (n, r) =>
      match many (readCons nn) n r with
      | none => none
      | some (l, r) => some (.cc l (decide (b ≠ 0)), r)

/-- models src/PetriParse/QueryBinaryParser.cpp:115-145 -/
def readCmp (nn : Nat) (f : Nat) (bs : Bytes) : Option (Cond × Bytes) :=
  match parseExpr nn f (getline bs).2 with
  | none => none
  | some (e1, r) =>
    match parseExpr nn f r with
    | none => none
    | some (e2, r) =>
      match mkCmp (getline bs).1 e1 e2 with
      | none => none
      | some c => some (c, r)

/-- models src/PetriParse/QueryBinaryParser.cpp:82-97 -/
def readLog (orp : Bool) (p : Bytes → Option (Cond × Bytes)) (bs : Bytes) : Option (Cond × Bytes) :=
  match readNat 4 bs with
  | none => none
  | some (n, r) =>
    match many p n r with
    | none => none
    | some (cs, r) => some (logNode orp (logOperands orp cs), r)

def unary (p : Bytes → Option (Cond × Bytes)) (k : Cond → Cond) (bs : Bytes) : Option (Cond × Bytes) :=
  match p bs with
  | none => none
  | some (c, r) => some (k c, r)

def binary (p : Bytes → Option (Cond × Bytes)) (k : Cond → Cond → Cond) (bs : Bytes) :
    Option (Cond × Bytes) :=
  match p bs with
  | none => none
  | some (c, r) =>
    match p r with
    | none => none
    | some (d, r) => some (k c d, r)

/-- The three variants of a path operator (src/PetriParse/QueryBinaryParser.cpp:190-238): a quantifier
that is neither `EMPTY` nor `A` counts as `E`. -/
def pick {α : Type} (q : Nat) (plain a e : α) : α :=
  if q = qEMPTY then plain else if q = qA then a else e

/-- models src/PetriParse/QueryBinaryParser.cpp:76-81 -/
def readBoolean (bs : Bytes) : Option (Cond × Bytes) :=
  match readNat 1 bs with
  | none => none
  | some (b, r) => some (.bool (decide (b ≠ 0)), r)

/-- models src/PetriParse/QueryBinaryParser.cpp:57-247 (`parseQuery`). -/
def parseCond (nn : Nat) : Nat → Bytes → Option (Cond × Bytes)
  | 0, _ => none
  | f + 1, bs =>
    match readNat 4 bs with
    | none => none
    | some (p, r) =>
      match readNat 4 r with
      | none => none
      | some (q, r) =>
        if p = pError then
          if q = qNEG then unary (parseCond nn f) .not r
          else if q = qDEADLOCK then some (.dead, r)
          else if q = qBOOL then
            readBoolean r
          else if q = qAND then readLog false (parseCond nn f) r
          else if q = qOR then readLog true (parseCond nn f) r
          else if q = qCOMPCONJ then readCC nn r
          else if q = qEMPTY then readCmp nn f r
          else if q = qA then unary (parseCond nn f) .A r
          else if q = qE then unary (parseCond nn f) .E r
          else none
        else if p = pX then unary (parseCond nn f) (pick q .X .AX .EX) r
        else if p = pF then unary (parseCond nn f) (pick q .F .AF .EF) r
        else if p = pG then unary (parseCond nn f) (pick q .G .AG .EG) r
        else if p = pU then binary (parseCond nn f) (pick q .U .AU .EU) r
        else none

def readBound (nn : Nat) (bs : Bytes) : Option ((Nat × Nat) × Bytes) :=
  match readPlace nn bs with
  | none => none
  | some (p, r) =>
    match readNat 8 r with
    | none => none
    | some (m, r) => some ((p, m), r)

/-- models src/PetriParse/QueryBinaryParser.cpp:146-166 -/
def readBounds (nn : Nat) (bs : Bytes) : Option (Query × Bytes) :=
  match readNat 4 bs with
  | none => none
  | some (n, r) =>
    match readNat 8 r with
    | none => none
    | some (mx, r) =>
      match readNat 8 r with
      | none => none
      | some (off, r) =>
        match many (readBound nn) n r with
        | none => none
        | some (ps, r) => some (.bounds ps mx off, r)

/-- The cases of `parseQuery` for the outermost operator (lines 146-166 and 239-242 are read here). -/
def parseQuery (nn : Nat) (bs : Bytes) : Option (Query × Bytes) :=
  match readNat 4 bs with
  | none => none
  | some (p, r) =>
    match readNat 4 r with
    | none => none
    | some (q, r) =>
      if p = pError ∧ q = qUPPERBOUNDS then readBounds nn r
      else if p = pControl then
        match parseCond nn r.length r with
        | none => none
        | some (c, r) => some (.control c, r)
      else
        match parseCond nn bs.length bs with
        | none => none
        | some (c, r) => some (.cond c, r)

/-! ### Files -/

/-- A query file: the place names with their numbers in the order of the name map, and the named queries. -/
structure File where
  names : List (Nat × Bytes)
  queries : List (Bytes × Query)

/-- models src/VerifyPN.cpp:321-333, 343-348 (`writeQueries`, binary); the queries are those that are kept,
in the order they are written. -/
def printFile (x : File) : Bytes :=
  u32 x.queries.length ++ u32 x.names.length ++
    (x.names.flatMap fun n => u32 n.1 ++ n.2 ++ [0]) ++
    x.queries.flatMap fun q => q.1 ++ [0] ++ printQuery q.2

/-- One line of the name table. -/
def readName (nn : Nat) (bs : Bytes) : Option ((Nat × Bytes) × Bytes) :=
  match readPlace nn bs with
  | none => none
  | some (i, r) => some ((i, (getline r).1), (getline r).2)

/-- The table the names are stored in, `names[id] = …` in order. -/
def table (nn : Nat) (l : List (Nat × Bytes)) : List Bytes :=
  l.foldl (fun t n => t.set n.1 n.2) (List.replicate nn [])

def readNamed (nn : Nat) (bs : Bytes) : Option ((Bytes × Query) × Bytes) :=
  match parseQuery nn (getline bs).2 with
  | none => none
  | some (q, r) => some (((getline bs).1, q), r)

/-- models src/PetriParse/QueryBinaryParser.cpp:22-55 (`parse`): the table of names and the queries. -/
def parseFile (bs : Bytes) : Option (List Bytes × List (Bytes × Query)) :=
  match readNat 4 bs with
  | none => none
  | some (nq, r) =>
    match readNat 4 r with
    | none => none
    | some (nn, r) =>
      match many (readName nn) nn r with
      | none => none
      | some (ns, r) =>
        match many (readNamed nn) nq r with
        | none => none
        | some (qs, _) => some (table nn ns, qs)

end Binary
end Verif
