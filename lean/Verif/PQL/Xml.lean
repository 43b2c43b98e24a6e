import Verif.PQL.Merge
import Verif.PQL.Binary

/-!
# The XML query format

Models `src/PetriEngine/PQL/XMLPrinter.cpp`, `src/PetriParse/QueryXMLParser.cpp` and the XML half of
`writeQueries` (`src/VerifyPN.cpp:333-358`).

The printer writes a sequence of tags and texts (`Ev`); white space between tags is left out.  The rapidxml
library, which is not part of the repository, turns the sequence into a tree (`build`).  Texts are not escaped by
the printer, so a text stands for itself only if it contains no `<` and no `&`; this is not modelled.  Attributes
(HyperLTL trace names) are not modelled either.  Names of places are resolved by an environment, as in the analysis
that follows the parser; a shallow condition is the condition it is compiled to.
-/

namespace Verif
namespace Xml
open PQL

abbrev Txt := List Char

/-- What the printer writes: opening tags, closing tags and texts. -/
inductive Ev
  | op (n : String)
  | cl (n : String)
  | tx (s : Txt)
deriving DecidableEq, Repr

/-- The tree of nodes (`rapidxml::xml_node<>`). -/
inductive Node
  | elem (n : String) (ks : List Node)
  | text (s : Txt)

/-- The document reader: `st` are the open elements with their finished children (latest first), `cur` the finished
children of the innermost one.  An empty text makes no node. -/
def build : List Ev → List (String × List Node) → List Node → Option (List Node)
  | [], [], cur => some cur.reverse
  | [], _ :: _, _ => none
  | .op n :: r, st, cur => build r ((n, cur) :: st) []
  | .cl n :: r, (m, prev) :: st, cur => if n = m then build r st (.elem n cur.reverse :: prev) else none
  | .cl _ :: _, [], _ => none
  | .tx s :: r, st, cur => if s = [] then build r st cur else build r st (.text s :: cur)

/-! ### Numbers as text -/

def digitChar (d : Nat) : Char := Char.ofNat (48 + d)

/-- Decimal digits, `f` bounds their number. -/
def decDigits : Nat → Nat → Txt
  | 0, _ => []
  | f + 1, n => if n < 10 then [digitChar n] else decDigits f (n / 10) ++ [digitChar (n % 10)]

/-- `operator<<` of an unsigned number. -/
def showNat (n : Nat) : Txt := decDigits (n + 1) n

/-- `operator<<` of a signed number. -/
def showInt (v : Int) : Txt := if v < 0 then '-' :: showNat v.natAbs else showNat v.natAbs

/-- `isspace` in the C locale. -/
def isSpace (c : Char) : Bool :=
  c == ' ' || c == '\t' || c == '\n' || c == '\r' || c.toNat == 11 || c.toNat == 12

def digitVal (c : Char) : Option Nat :=
  if 48 ≤ c.toNat ∧ c.toNat ≤ 57 then some (c.toNat - 48) else none

/-- The value of the longest prefix of digits, added to `acc`; the flag says that there was a digit. -/
def scanDigits (acc : Nat) (seen : Bool) : Txt → Nat × Bool
  | [] => (acc, seen)
  | c :: cs =>
    match digitVal c with
    | some d => scanDigits (10 * acc + d) true cs
    | none => (acc, seen)

/-- Why nothing is parsed: `null` is returned, an exception is thrown, or the behaviour is undefined. -/
inductive Fail
  | null
  | throw
  | undef
deriving DecidableEq, Repr

/-- An `int` of 32 bits. -/
def IsInt (v : Int) : Prop := -2147483648 ≤ v ∧ v ≤ 2147483647

instance (v : Int) : Decidable (IsInt v) := inferInstanceAs (Decidable (_ ∧ _))

/-- The number `scanf` stores, from sign and digits.  No digits leave the variable indeterminate, a number that
does not fit makes the behaviour undefined. -/
def scanSigned (neg : Bool) (s : Txt) : Except Fail Int :=
  match scanDigits 0 false s with
  | (_, false) => .error .undef
  | (n, true) =>
    let v : Int := if neg then - (n : Int) else n
    if IsInt v then .ok v else .error .undef

/-- models `sscanf(element->value(), "%d", &i)`, src/PetriParse/QueryXMLParser.cpp:467-474. -/
def scanInt (s : Txt) : Except Fail Int :=
  match s.dropWhile isSpace with
  | [] => .error .null
  | c :: cs =>
    if c = '-' then scanSigned true cs
    else if c = '+' then scanSigned false cs
    else scanSigned false (c :: cs)

/-! ### Printing -/

/-- models include/PetriEngine/PQL/XMLPrinter.h:54-72 (`openXmlTag`), src/PetriEngine/PQL/XMLPrinter.cpp:38-42
(`closeXmlTag`) and the class `Tag`. -/
def tag (n : String) (body : List Ev) : List Ev := .op n :: (body ++ [.cl n])

/-- A line `<n>s</n>`. -/
def leaf (n : String) (s : Txt) : List Ev := [.op n, .tx s, .cl n]

/-- A line `<place>name</place>`. -/
def place (nm : Nat → Txt) (p : Nat) : List Ev := leaf "place" (nm p)

/-- models src/PetriEngine/PQL/XMLPrinter.cpp:321-324 -/
def printId (nm : Nat → Txt) (p : Nat) : List Ev := tag "tokens-count" (place nm p)

def printConst (v : Int) : List Ev := leaf "integer-constant" (showInt v)

/-- models src/PetriEngine/PQL/XMLPrinter.cpp:330-355: the operands of a sum; `es` are the operands as printed. -/
def plusBody (nm : Nat → Txt) (k : Int) (ids : List Nat) (es : List Ev) : List Ev :=
  (if k ≠ 0 then printConst k else []) ++
  (if ids.isEmpty then [] else tag "tokens-count" (ids.flatMap (place nm))) ++ es

/-- models src/PetriEngine/PQL/XMLPrinter.cpp:357-381: the operands of a product. -/
def mulBody (nm : Nat → Txt) (k : Int) (ids : List Nat) (es : List Ev) : List Ev :=
  (if k ≠ 1 then printConst k else []) ++ ids.flatMap (printId nm) ++ es

mutual
/-- models src/PetriEngine/PQL/XMLPrinter.cpp:321-397 (expressions); `nm` are the names of the places. -/
def printExpr (nm : Nat → Txt) : Expr → List Ev
  | .lit v => printConst v
  | .id p => printId nm p
  | .plus k ids es =>
    if 2 ≤ es.length + (if ids.isEmpty then 0 else 1) + (if k ≠ 0 then 1 else 0) then
      tag "integer-sum" (plusBody nm k ids (printExprs nm es))
    else plusBody nm k ids (printExprs nm es)
  | .mul k ids es =>
    if 2 ≤ (if k ≠ 1 then 1 else 0) + es.length + ids.length then
      tag "integer-product" (mulBody nm k ids (printExprs nm es))
    else mulBody nm k ids (printExprs nm es)
  | .sub e es => tag "integer-difference" (printExpr nm e ++ printExprs nm es)
  | .minus e => tag "integer-difference" (leaf "integer-constant" ['0'] ++ printExpr nm e)
def printExprs (nm : Nat → Txt) : List Expr → List Ev
  | [] => []
  | e :: es => printExpr nm e ++ printExprs nm es
end

def cmpTag : Cmp → String
  | .lt => "integer-lt"
  | .le => "integer-le"
  | .eq => "integer-eq"
  | .ne => "integer-ne"

def printBool (b : Bool) : List Ev := if b then tag "true" [] else tag "false" []

/-- One bound of a place, src/PetriEngine/PQL/XMLPrinter.cpp:132-150. -/
def printBound (nm : Nat → Txt) (t : String) (p v : Nat) : List Ev :=
  tag t (printId nm p ++ leaf "integer-constant" (showNat v))

/-- models src/PetriEngine/PQL/XMLPrinter.cpp:130-151: the body of the loop over the constraints. -/
def printCons (nm : Nat → Txt) (c : Cons) : List Ev :=
  (if c.lower ≠ 0 then printBound nm "integer-ge" c.place c.lower else []) ++
  (if c.upper ≠ umax then printBound nm "integer-le" c.place c.upper else [])

/-- models src/PetriEngine/PQL/XMLPrinter.cpp:121-154 -/
def printConj (nm : Nat → Txt) (l : List Cons) : List Ev :=
  if l.isEmpty then printBool true
  else if ccSingular l then l.flatMap (printCons nm)
  else tag "conjunction" (l.flatMap (printCons nm))

/-- models src/PetriEngine/PQL/XMLPrinter.cpp:116-158 (`CompareConjunction`). -/
def printCC (nm : Nat → Txt) (l : List Cons) (neg : Bool) : List Ev :=
  if neg then tag "negation" (printConj nm l) else printConj nm l

/-- models src/PetriEngine/PQL/XMLPrinter.cpp:56-90: no operands, one operand, more. -/
def printLog (b : Bool) (t : String) (len : Nat) (body : List Ev) : List Ev :=
  if len = 0 then printBool b else if len = 1 then body else tag t body

def printUntil (c d : List Ev) : List Ev := tag "until" (tag "before" c ++ tag "reach" d)

mutual
/-- models src/PetriEngine/PQL/XMLPrinter.cpp:51-315 (conditions; `isEmpty` is size 0). -/
def printCond (nm : Nat → Txt) : Cond → List Ev
  | .bool b => printBool b
  | .dead => tag "deadlock" []
  | .cmp op e1 e2 => tag (cmpTag op) (printExpr nm e1 ++ printExpr nm e2)
  | .cc l n => printCC nm l n
  | .not c => tag "negation" (printCond nm c)
  | .and cs => printLog true "conjunction" cs.length (printConds nm cs)
  | .or cs => printLog false "disjunction" cs.length (printConds nm cs)
  | .EX c => tag "exists-path" (tag "next" (printCond nm c))
  | .AX c => tag "all-paths" (tag "next" (printCond nm c))
  | .EF c => tag "exists-path" (tag "finally" (printCond nm c))
  | .AF c => tag "all-paths" (tag "finally" (printCond nm c))
  | .EG c => tag "exists-path" (tag "globally" (printCond nm c))
  | .AG c => tag "all-paths" (tag "globally" (printCond nm c))
  | .EU c d => tag "exists-path" (printUntil (printCond nm c) (printCond nm d))
  | .AU c d => tag "all-paths" (printUntil (printCond nm c) (printCond nm d))
  | .E c => tag "exists-path" (printCond nm c)
  | .A c => tag "all-paths" (printCond nm c)
  | .X c => tag "next" (printCond nm c)
  | .F c => tag "finally" (printCond nm c)
  | .G c => tag "globally" (printCond nm c)
  | .U c d => printUntil (printCond nm c) (printCond nm d)
def printConds (nm : Nat → Txt) : List Cond → List Ev
  | [] => []
  | c :: cs => printCond nm c ++ printConds nm cs
end

/-- models src/PetriEngine/PQL/XMLPrinter.cpp:160-165: an unfolded upper-bounds condition. -/
def printBounds (nm : Nat → Txt) (ps : List Nat) : List Ev := tag "place-bound" (ps.flatMap (place nm))

/-- models src/PetriEngine/PQL/XMLPrinter.cpp:301-303: a fireability condition for one transition. -/
def printFireable (t : Txt) : List Ev := tag "is-fireable" (leaf "transition" t)

/-- models src/PetriEngine/PQL/XMLPrinter.cpp:160-178: a query.  An upper-bounds query is
`EF` of the bounds (src/PetriParse/QueryXMLParser.cpp:193-194; the preprocessing keeps the quantifier,
src/PetriEngine/PQL/PushNegation.cpp:44-51). -/
def printQuery (nm : Nat → Txt) : Binary.Query → List Ev
  | .cond c => printCond nm c
  | .control c => tag "control" (printCond nm c)
  | .bounds ps _ _ => tag "exists-path" (tag "finally" (printBounds nm (ps.map Prod.fst)))

/-- models src/PetriEngine/PQL/XMLPrinter.cpp:22-31 (`print`). -/
def printProperty (nm : Nat → Txt) (q : Txt × Binary.Query) : List Ev :=
  tag "property" (leaf "id" q.1 ++ leaf "description" "Simplified".toList ++ tag "formula" (printQuery nm q.2))

/-- models src/VerifyPN.cpp:333-358 (`writeQueries`; the queries are those that are not left out). -/
def printFile (nm : Nat → Txt) (qs : List (Txt × Binary.Query)) : List Ev :=
  tag "property-set" (qs.flatMap (printProperty nm))

/-! ### Parsing -/

/-- The names of the net: places, and what the fireability of a transition is compiled to. -/
structure Env where
  place : Txt → Nat
  fire : Txt → Cond

/-- `element->value()`: the first text. -/
def value : List Node → Txt
  | [] => []
  | .text s :: _ => s
  | .elem _ _ :: ks => value ks

/-- A loop over the children that stops at the first failure. -/
def mapE {α β : Type} (g : α → Except Fail β) : List α → Except Fail (List β)
  | [] => .ok []
  | x :: xs =>
    match g x with
    | .error e => .error e
    | .ok y =>
      match mapE g xs with
      | .error e => .error e
      | .ok ys => .ok (y :: ys)

/-- models src/PetriParse/QueryXMLParser.cpp:560-566 (`parsePlace`) and the checks of its callers. -/
def parsePlace (env : Env) : Node → Except Fail Nat
  | .elem n ks =>
    if n = "place" then
      let s := (value ks).filter fun c => !isSpace c
      if s = [] then .error .null else .ok (env.place s)
    else .error .null
  | .text _ => .error .null

/-- models src/PetriParse/QueryXMLParser.cpp:475-501 -/
def mkTokens : List Nat → Except Fail Expr
  | [] => .error .null
  | [p] => .ok (.id p)
  | ps => .ok (mkPlus (ps.map .id))

/-- models src/PetriParse/QueryXMLParser.cpp:502-532 -/
def mkComm (mul : Bool) : List Expr → Except Fail Expr
  | [] => .error .throw
  | [e] => .ok e
  | es => .ok (if mul then mkMul es else mkPlus es)

/-- models src/PetriParse/QueryXMLParser.cpp:533-541; a difference of nothing has no first operand. -/
def mkSub : List Expr → Except Fail Expr
  | [] => .error .undef
  | [e] => .ok (.sub (.lit 0) [e])
  | e :: es => .ok (.sub e es)

/-- The operands of a difference are not checked (lines 535-538): a null pointer is dereferenced later. -/
def unchecked {α : Type} : Except Fail α → Except Fail α
  | .error .null => .error .undef
  | x => x

/-- models src/PetriParse/QueryXMLParser.cpp:465-558 (`parseIntegerExpression`), with a bound on the nesting. -/
def parseExpr (env : Env) : Nat → Node → Except Fail Expr
  | 0, _ => .error .null
  | _ + 1, .text _ => .error .null
  | f + 1, .elem n ks =>
    if n = "integer-constant" then (scanInt (value ks)).map .lit
    else if n = "tokens-count" then (mapE (parsePlace env) ks).bind mkTokens
    else if n = "integer-sum" then (mapE (parseExpr env f) ks).bind (mkComm false)
    else if n = "integer-product" then (mapE (parseExpr env f) ks).bind (mkComm true)
    else if n = "integer-difference" then (mapE (fun k => unchecked (parseExpr env f k)) ks).bind mkSub
    else .error .null

/-- A failure to parse the operand of a unary operator ends at `fatal_error` (line 468). -/
def orThrow {α : Type} : Except Fail α → Except Fail α
  | .error .null => .error .throw
  | x => x

/-- The only child (lines 213-216 and the like). -/
def only (ks : List Node) : Except Fail Node :=
  match ks with
  | [k] => .ok k
  | _ => .error .null

/-- The first child, not checked to be there (lines 203-211). -/
def first (ks : List Node) : Except Fail Node :=
  match ks with
  | k :: _ => .ok k
  | [] => .error .undef

/-- The two children (lines 364-369 and the like). -/
def both (ks : List Node) : Except Fail (Node × Node) :=
  match ks with
  | [k1, k2] => .ok (k1, k2)
  | _ => .error .null

/-- models src/PetriParse/QueryXMLParser.cpp:325-362; no operands is an exception. -/
def mkLog (orp : Bool) : List Cond → Except Fail Cond
  | [] => .error .throw
  | [c] => .ok c
  | cs => .ok (logNode orp (logOperands orp cs))

/-- models src/PetriParse/QueryXMLParser.cpp:274-292 -/
def untilParts : List Node → Except Fail (Node × Node)
  | [.elem b [c], .elem r [d]] => if b = "before" ∧ r = "reach" then .ok (c, d) else .error .null
  | _ => .error .null

/-- models src/PetriParse/QueryXMLParser.cpp:424-429: comparisons; `none` for other names. -/
def cmpOf (n : String) (a b : Expr) : Option Cond :=
  if n = "integer-eq" then some (.cmp .eq a b)
  else if n = "integer-ne" then some (.cmp .ne a b)
  else if n = "integer-lt" then some (.cmp .lt a b)
  else if n = "integer-le" then some (.cmp .le a b)
  else if n = "integer-gt" then some (.cmp .lt b a)
  else if n = "integer-ge" then some (.cmp .le b a)
  else none

def isCmp (n : String) : Bool :=
  n == "integer-eq" || n == "integer-ne" || n == "integer-lt" || n == "integer-le" || n == "integer-gt" ||
    n == "integer-ge"

/-- models src/PetriParse/QueryXMLParser.cpp:408-429 -/
def parseCmp (env : Env) (f : Nat) (n : String) (ks : List Node) : Except Fail Cond :=
  match both ks with
  | .error e => .error e
  | .ok (k1, k2) =>
    match parseExpr env f k1, parseExpr env f k2 with
    | .ok a, .ok b =>
      match cmpOf n a b with
      | some c => .ok c
      | none => .error .throw
    | .error .undef, _ => .error .undef
    | _, .error .undef => .error .undef
    | .error .throw, _ => .error .throw
    | _, .error .throw => .error .throw
    | _, _ => .error .null

/-- models src/PetriParse/QueryXMLParser.cpp:430-447: one transition of a fireability condition. -/
def parseFire (env : Env) : Node → Except Fail Cond
  | .elem n ks => if n = "transition" then .ok (env.fire (value ks)) else .error .null
  | .text _ => .error .null

def mkFire : List Cond → Except Fail Cond
  | [] => .error .null
  | cs => .ok (.or cs)

/-- The formulas with two operands that are rewritten (src/PetriParse/QueryXMLParser.cpp:363-407). -/
def binForm (n : String) (a b : Cond) : Cond :=
  if n = "exclusive-disjunction" then
    .or (logOperands true [.and (logOperands false [a, .not b]), .and (logOperands false [.not a, b])])
  else if n = "implication" then .or (logOperands true [.not a, b])
  else .or (logOperands true [.and (logOperands false [a, b]), .and (logOperands false [.not a, .not b])])

def isBin (n : String) : Bool :=
  n == "exclusive-disjunction" || n == "implication" || n == "equivalence"

/-- The formulas with one operand and a check of the number of children. -/
def unForm (n : String) : Option (Cond → Cond) :=
  if n = "exists-path" then some .E
  else if n = "next" then some .X
  else if n = "globally" then some .G
  else if n = "finally" then some .F
  else if n = "all-paths" then some .A
  else if n = "negation" then some .not
  else if n = "not" then some .not
  else none

/-- The old names of reachability formulas (lines 219-227), which look at the first child only. -/
def oldForm (n : String) : Option (Cond → Cond) :=
  if n = "invariant" then some fun c => .not (.EF (.not c))
  else if n = "impossibility" then some fun c => .not (.EF c)
  else if n = "possibility" then some .EF
  else none

def isLog (n : String) : Option Bool :=
  if n = "conjunction" then some false
  else if n = "and" then some false
  else if n = "disjunction" then some true
  else if n = "or" then some true
  else none

/-- models src/PetriParse/QueryXMLParser.cpp:204-463 (`parseBooleanFormula`), with a bound on the nesting.
Games (`control`) are only modelled at the top (`parseFormula`), named traces not at all. -/
def parseCond (env : Env) : Nat → Node → Except Fail Cond
  | 0, _ => .error .null
  | _ + 1, .text _ => .error .throw
  | f + 1, .elem n ks =>
    match unForm n with
    | some k => (only ks).bind fun x => orThrow ((parseCond env f x).map k)
    | none =>
    match oldForm n with
    | some k => (first ks).bind fun x => orThrow ((parseCond env f x).map k)
    | none =>
    match isLog n with
    | some orp => (mapE (parseCond env f) ks).bind (mkLog orp)
    | none =>
    if n = "until" then
      (untilParts ks).bind fun x =>
        orThrow ((parseCond env f x.1).bind fun c => (parseCond env f x.2).map fun d => .U c d)
    else if n = "deadlock" then .ok .dead
    else if n = "true" then .ok (.bool true)
    else if n = "false" then .ok (.bool false)
    else if isBin n then
      (both ks).bind fun x => (parseCond env f x.1).bind fun c => (parseCond env f x.2).map fun d => binForm n c d
    else if isCmp n then parseCmp env f n ks
    else if n = "is-fireable" then (mapE (parseFire env) ks).bind mkFire
    else .error .throw

/-- The parsed queries: formulas, games, upper bounds and the global properties
(src/PetriParse/QueryXMLParser.cpp:148-199). -/
inductive PQuery
  | cond (c : Cond)
  | control (c : Cond)
  | bounds (ps : List Nat)
  | kSafe (bound : Expr)
  | quasiLive
  | stable
  | live

/-- models src/PetriParse/QueryXMLParser.cpp:154-164: the bound of `k-safe`. -/
def parseKSafe (env : Env) (f : Nat) (ks : List Node) : Except Fail PQuery :=
  match ks with
  | [k] => (orThrow (parseExpr env f k)).map .kSafe
  | [] => .error .throw
  | k :: _ => (orThrow (parseExpr env f k)).bind fun _ => .error .throw

/-- models src/PetriParse/QueryXMLParser.cpp:138-202 (`parseFormula`). -/
def parseFormula (env : Env) (f : Nat) (ks : List Node) : Except Fail PQuery :=
  match ks with
  | [.elem n cs] =>
    if n = "k-safe" then parseKSafe env f cs
    else if n = "quasi-liveness" then .ok .quasiLive
    else if n = "stable-marking" then .ok .stable
    else if n = "liveness" then .ok .live
    else if n = "place-bound" then (mapE (parsePlace env) cs).map .bounds
    else if n = "control" then (only cs).bind fun x => orThrow ((parseCond env f x).map .control)
    else (parseCond env f (.elem n cs)).map .cond
  | [.text _] => .error .throw
  | _ => .error .null

/-- models src/PetriParse/QueryXMLParser.cpp:124-132 (`parseTags`). -/
def parseTags (ks : List Node) : Bool :=
  ks.all fun
    | .elem n cs => !(n == "is-reachability" && value cs == "true".toList)
    | .text _ => true

/-- The children of the last element called `n`. -/
def lastOf (n : String) : List Node → Option (List Node)
  | [] => none
  | .text _ :: ks => lastOf n ks
  | .elem m cs :: ks =>
    match lastOf n ks with
    | some x => some x
    | none => if m = n then some cs else none

/-- An entry of the list of queries; `none` is an unsupported query. -/
abbrev Item := Txt × Option PQuery

/-- models src/PetriParse/QueryXMLParser.cpp:86-122 (`parseProperty`).  `throw` also stands for the result `false`. -/
def parseProperty (env : Env) (f : Nat) : Node → Except Fail Item
  | .text _ => .error .throw
  | .elem n ks =>
    if n ≠ "property" then .error .throw
    else
      let id := value ((lastOf "id" ks).getD [])
      if id = [] then .error .throw
      else if (match lastOf "tags" ks with | some ts => parseTags ts | none => true) = false then .ok (id, none)
      else
        match lastOf "formula" ks with
        | none => .error .undef
        | some cs => (parseFormula env f cs).map fun q => (id, some q)

/-- models src/PetriParse/QueryXMLParser.cpp:60-84 (`parsePropertySet`): `sel` are the queries to parse; for the
others an empty entry is made. -/
def parseSet (env : Env) (f : Nat) (sel : Nat → Bool) : Nat → List Node → Except Fail (List (Option Item))
  | _, [] => .ok []
  | i, k :: ks =>
    if sel i then
      (parseProperty env f k).bind fun q => (parseSet env f sel (i + 1) ks).map fun qs => some q :: qs
    else (parseSet env f sel (i + 1) ks).map fun qs => none :: qs

/-- models src/PetriParse/QueryXMLParser.cpp:42-58 (`parse`). -/
def parseFile (env : Env) (sel : Nat → Bool) (evs : List Ev) : Except Fail (List (Option Item)) :=
  match build evs [] [] with
  | some (.elem n ks :: _) => if n = "property-set" then parseSet env evs.length sel 0 ks else .error .throw
  | _ => .error .throw

end Xml
end Verif
