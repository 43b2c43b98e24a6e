import Verif.CPN.Syntax

/-!
# Evaluation of colour expressions, guards and arc expressions

Models `src/PetriEngine/Colored/EvaluationVisitor.cpp` (without a partition), `src/PetriEngine/Colored/Multiset.cpp` and the
arithmetic of `src/PetriEngine/Colored/Colors.cpp`.  `none` is an exception or a failed assertion.
-/

namespace Verif
namespace CPN

/-- a binding: variables and the numbers of their colours, in the order in which the map is traversed -/
abbrev Binding := List (Nat × Nat)

/-- models src/PetriEngine/Colored/Colors.cpp:74-80 (`operator++`). -/
def succC (T : Types) (c : Color) : Color :=
  if c.id ≥ T.size c.ty - 1 then ⟨c.ty, 0⟩ else ⟨c.ty, c.id + 1⟩

/-- models src/PetriEngine/Colored/Colors.cpp:82-88 (`operator--`). -/
def predC (T : Types) (c : Color) : Color :=
  if c.id ≤ 0 then ⟨c.ty, T.size c.ty - 1⟩ else ⟨c.ty, c.id - 1⟩

/-- models src/PetriEngine/Colored/Colors.cpp:201-215 (`ProductType::getColor`): the loop with `product` and `sum`. -/
def getColorLoop (T : Types) : List Color → Nat → Nat → Nat
  | [], _, sum => sum
  | c :: cs, product, sum => getColorLoop T cs (product * T.basic c.ty) (sum + product * c.id)

/-- models include/PetriEngine/Colored/EvaluationVisitor.h:51-60 (`findProductColorType`). -/
def findProd (T : Types) (tys : List Nat) : Option Nat := (T.prods.find? fun q => q.2 == tys).map (·.1)

/-- models include/PetriEngine/Colored/Colors.h:63-65 (`isTuple`); tuples of one component do not count. -/
def isTuple (T : Types) (c : Color) : Bool :=
  match T.parts c.ty with
  | none => false
  | some cs => decide (cs.length > 1)

mutual
/-- models src/PetriEngine/Colored/EvaluationVisitor.cpp:10-56 (without a partition of the place). -/
def CExpr.eval (T : Types) (vty : Nat → Nat) (b : Binding) : CExpr → Option Color
  | .dot => some ⟨dotTy, 0⟩
  | .var v => (b.lookup v).map fun i => ⟨vty v, i⟩
  | .const c => some c
  | .succ e => (e.eval T vty b).map (succC T)
  | .pred e => (e.eval T vty b).map (predC T)
  | .tuple es =>
    match CExpr.evalL T vty b es with
    | none => none
    | some cs => (findProd T (cs.map (·.ty))).map fun ty => ⟨ty, getColorLoop T cs 1 0⟩
def CExpr.evalL (T : Types) (vty : Nat → Nat) (b : Binding) : List CExpr → Option (List Color)
  | [] => some []
  | e :: es =>
    match e.eval T vty b, CExpr.evalL T vty b es with
    | some c, some cs => some (c :: cs)
    | _, _ => none
end

/-- models src/PetriEngine/Colored/EvaluationVisitor.cpp:58-74: the colours of one type are in one array, so that pointers
are compared like numbers; the comparison of pointers into different arrays has no defined result. -/
def cmpC (T : Types) (f : Nat → Nat → Bool) (a b : Color) : Option Bool :=
  if isTuple T a || isTuple T b then none else if a.ty = b.ty then some (f a.id b.id) else none

def cmpE (f : Color → Color → Option Bool) : Option Color → Option Color → Option Bool
  | some a, some b => f a b
  | _, _ => none

def bothB (f : Bool → Bool → Bool) : Option Bool → Option Bool → Option Bool
  | some a, some b => some (f a b)
  | _, _ => none

/-- models src/PetriEngine/Colored/EvaluationVisitor.cpp:58-102. -/
def Guard.eval (T : Types) (vty : Nat → Nat) (b : Binding) : Guard → Option Bool
  | .lt x y => cmpE (cmpC T fun i j => decide (i < j)) (x.eval T vty b) (y.eval T vty b)
  | .le x y => cmpE (cmpC T fun i j => decide (i ≤ j)) (x.eval T vty b) (y.eval T vty b)
  | .eq x y => cmpE (fun c d => some (decide (c = d))) (x.eval T vty b) (y.eval T vty b)
  | .ne x y => cmpE (fun c d => some (decide (c ≠ d))) (x.eval T vty b) (y.eval T vty b)
  | .and g h => bothB (· && ·) (g.eval T vty b) (h.eval T vty b)
  | .or g h => bothB (· || ·) (g.eval T vty b) (h.eval T vty b)

def guardEval (T : Types) (vty : Nat → Nat) (b : Binding) : Option Guard → Option Bool
  | none => some true
  | some g => g.eval T vty b

/-! ### Multisets -/

/-- models include/PetriEngine/Colored/Multiset.h (data members). -/
structure MS where
  ty : Option Nat := none
  set : List (Nat × Nat) := []
deriving DecidableEq, Repr

def entry (l : List (Nat × Nat)) (i : Nat) : Nat := (l.lookup i).getD 0

/-- models src/PetriEngine/Colored/Multiset.cpp:93-107 (`operator[]`, reading). -/
def MS.get (m : MS) (c : Color) : Nat :=
  if m.ty = some c.ty ∨ m.ty = none then entry m.set c.id else 0

/-- adds `k`, in 32 bits, to the entry of `i`, which is appended if missing -/
def bump (l : List (Nat × Nat)) (i k : Nat) : List (Nat × Nat) :=
  match l with
  | [] => [(i, k % W32)]
  | (j, n) :: l => if j = i then (j, (n + k) % W32) :: l else (j, n) :: bump l i k

/-- models src/PetriEngine/Colored/Multiset.cpp:109-124 (`operator[]`, writing) as used in `(*this)[c] += k`. -/
def MS.addAt (m : MS) (c : Color) (k : Nat) : Option MS :=
  match m.ty with
  | none => some ⟨some c.ty, bump m.set c.id k⟩
  | some ty => if ty = c.ty then some ⟨some ty, bump m.set c.id k⟩ else none

/-- models src/PetriEngine/Colored/Multiset.cpp:29-35 (the constructor from a vector). -/
def MS.ofList (n : Nat) : List Color → MS → Option MS
  | [], m => some m
  | c :: cs, m => (m.addAt c n).bind (MS.ofList n cs)

def MS.addAll (ty : Nat) : List (Nat × Nat) → MS → Option MS
  | [], m => some m
  | (i, k) :: l, m => (m.addAt ⟨ty, i⟩ k).bind (MS.addAll ty l)

/-- the type of a combined multiset: the first one that is known; two different ones are an error
(src/PetriEngine/Colored/Multiset.cpp:58-63, 73-78) -/
def joinTy : Option Nat → Option Nat → Option (Option Nat)
  | none, b => some b
  | some a, none => some (some a)
  | some a, some b => if a = b then some (some a) else none

/-- models src/PetriEngine/Colored/Multiset.cpp:57-70 (`+=`). -/
def MS.add (m o : MS) : Option MS :=
  match joinTy m.ty o.ty with
  | none => none
  | some ty => MS.addAll (ty.getD dotTy) o.set ⟨ty, m.set⟩

/-- models src/PetriEngine/Colored/Multiset.cpp:72-85 (`-=`). -/
def MS.sub (m o : MS) : Option MS :=
  match joinTy m.ty o.ty with
  | none => none
  | some ty => some ⟨ty, m.set.map fun q => (q.1, if q.2 < o.get ⟨ty.getD dotTy, q.1⟩ then 0 else q.2 - o.get ⟨ty.getD dotTy, q.1⟩)⟩

/-- models src/PetriEngine/Colored/Multiset.cpp:87-91 (`*=`). -/
def MS.scale (m : MS) (k : Nat) : MS := ⟨m.ty, m.set.map fun q => (q.1, (q.2 * k) % W32)⟩

mutual
/-- models src/PetriEngine/Colored/EvaluationVisitor.cpp:108-140; `stale` is the value of `_mres` before the visit. -/
def ArcE.eval (T : Types) (vty : Nat → Nat) (b : Binding) (stale : MS) : ArcE → Option MS
  | .num n es =>
    if es.isEmpty then some stale
    else (CExpr.evalL T vty b es).bind fun cs => MS.ofList n cs {}
  | .add as => ArcE.evalL T vty b stale {} as
  | .sub x y =>
    (x.eval T vty b stale).bind fun l => (y.eval T vty b l).bind fun r => l.sub r
  | .scal k x => (x.eval T vty b stale).map fun m => m.scale k
def ArcE.evalL (T : Types) (vty : Nat → Nat) (b : Binding) (stale acc : MS) : List ArcE → Option MS
  | [] => some acc
  | x :: xs => (x.eval T vty b stale).bind fun m => (acc.add m).bind fun acc' => ArcE.evalL T vty b m acc' xs
end

/-- models src/PetriEngine/Colored/EvaluationVisitor.cpp:141-146. -/
def ArcE.evaluate (T : Types) (vty : Nat → Nat) (b : Binding) (e : ArcE) : Option MS := e.eval T vty b {}

end CPN
end Verif
