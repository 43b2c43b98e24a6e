/-!
# Syntax of the property language

Models the classes of `include/PetriEngine/PQL/Expressions.h` after name resolution: places are
indices, the "shallow" conditions have been replaced by the condition they are compiled to.
HyperLTL path quantifiers, control conditions and upper-bound queries are not part of this type.
-/

namespace Verif
namespace PQL

/-- models include/PetriEngine/PQL/Expressions.h:40-330: integer expressions.  A `CommutativeExpr`
(`PlusExpr`, `MultiplyExpr`) has a constant, a list of places and a list of other operands; a
`SubtractExpr` has at least one operand. -/
inductive Expr
  | lit (v : Int)
  | id (place : Nat)
  | plus (const : Int) (ids : List Nat) (es : List Expr)
  | mul (const : Int) (ids : List Nat) (es : List Expr)
  | sub (e : Expr) (es : List Expr)
  | minus (e : Expr)

/-- The four comparison classes (include/PetriEngine/PQL/Expressions.h:900-1010). -/
inductive Cmp
  | lt | le | eq | ne
deriving DecidableEq, Repr

/-- models include/PetriEngine/PQL/Expressions.h:826-862 (`cons_t`, without the name). -/
structure Cons where
  place : Nat
  lower : Nat
  upper : Nat
deriving DecidableEq, Repr

/-- models include/PetriEngine/PQL/Expressions.h: the conditions.  `EX` … `AU` are the CTL operators,
`X`, `F`, `G`, `U` the LTL ones and `E`, `A` the path quantifiers put in front of LTL formulas. -/
inductive Cond
  | bool (b : Bool)
  | dead
  | cmp (op : Cmp) (e1 e2 : Expr)
  | cc (cons : List Cons) (neg : Bool)
  | not (c : Cond)
  | and (cs : List Cond)
  | or (cs : List Cond)
  | EX (c : Cond)
  | AX (c : Cond)
  | EF (c : Cond)
  | AF (c : Cond)
  | EG (c : Cond)
  | AG (c : Cond)
  | EU (c d : Cond)
  | AU (c d : Cond)
  | E (c : Cond)
  | A (c : Cond)
  | X (c : Cond)
  | F (c : Cond)
  | G (c : Cond)
  | U (c d : Cond)

/-- Induction on expressions. -/
theorem Expr.ind {P : Expr → Prop} (lit : ∀ v, P (.lit v)) (id : ∀ p, P (.id p))
    (plus : ∀ k ids es, (∀ e ∈ es, P e) → P (.plus k ids es))
    (mul : ∀ k ids es, (∀ e ∈ es, P e) → P (.mul k ids es))
    (sub : ∀ e es, P e → (∀ e ∈ es, P e) → P (.sub e es))
    (minus : ∀ e, P e → P (.minus e)) (e : Expr) : P e :=
  Expr.rec (motive_1 := P) (motive_2 := fun es => ∀ e ∈ es, P e) lit id plus mul sub minus
    (by simp) (fun e es he hes x hx => by
      rcases List.mem_cons.1 hx with rfl | hx
      · exact he
      · exact hes x hx) e

/-- Induction on conditions. -/
theorem Cond.ind {P : Cond → Prop} (bool : ∀ b, P (.bool b)) (dead : P .dead)
    (cmp : ∀ op e1 e2, P (.cmp op e1 e2)) (cc : ∀ l n, P (.cc l n))
    (not : ∀ c, P c → P (.not c))
    (and : ∀ cs, (∀ c ∈ cs, P c) → P (.and cs)) (or : ∀ cs, (∀ c ∈ cs, P c) → P (.or cs))
    (EX : ∀ c, P c → P (.EX c)) (AX : ∀ c, P c → P (.AX c))
    (EF : ∀ c, P c → P (.EF c)) (AF : ∀ c, P c → P (.AF c))
    (EG : ∀ c, P c → P (.EG c)) (AG : ∀ c, P c → P (.AG c))
    (EU : ∀ c d, P c → P d → P (.EU c d)) (AU : ∀ c d, P c → P d → P (.AU c d))
    (E : ∀ c, P c → P (.E c)) (A : ∀ c, P c → P (.A c))
    (X : ∀ c, P c → P (.X c)) (F : ∀ c, P c → P (.F c)) (G : ∀ c, P c → P (.G c))
    (U : ∀ c d, P c → P d → P (.U c d)) (c : Cond) : P c :=
  Cond.rec (motive_1 := P) (motive_2 := fun cs => ∀ c ∈ cs, P c)
    bool dead cmp cc not and or EX AX EF AF EG AG EU AU E A X F G U
    (by simp) (fun e es he hes x hx => by
      rcases List.mem_cons.1 hx with rfl | hx
      · exact he
      · exact hes x hx) c

mutual
/-- models src/PetriEngine/PQL/PredicateCheckers.cpp:52-72 (`isTemporal`). -/
def Cond.isTemporal : Cond → Bool
  | .bool _ => false
  | .dead => false
  | .cmp _ _ _ => false
  | .cc _ _ => false
  | .not c => c.isTemporal
  | .and cs => anyTemporal cs
  | .or cs => anyTemporal cs
  | .EX _ | .AX _ | .EF _ | .AF _ | .EG _ | .AG _ | .EU _ _ | .AU _ _ => true
  | .E _ | .A _ | .X _ | .F _ | .G _ | .U _ _ => true
def anyTemporal : List Cond → Bool
  | [] => false
  | c :: cs => c.isTemporal || anyTemporal cs
end

theorem anyTemporal_eq (cs : List Cond) : anyTemporal cs = cs.any Cond.isTemporal := by
  induction cs with
  | nil => rfl
  | cons c cs ih => simp [anyTemporal, ih]

mutual
/-- models src/PetriEngine/PQL/Expressions.cpp:254-273 (`placeFree`). -/
def Expr.placeFree : Expr → Bool
  | .lit _ => true
  | .id _ => false
  | .plus _ ids es => ids.isEmpty && allFree es
  | .mul _ ids es => ids.isEmpty && allFree es
  | .sub e es => e.placeFree && allFree es
  | .minus e => e.placeFree
def allFree : List Expr → Bool
  | [] => true
  | e :: es => e.placeFree && allFree es
end

theorem allFree_eq (es : List Expr) : allFree es = es.all Expr.placeFree := by
  induction es with
  | nil => rfl
  | cons c cs ih => simp [allFree, ih]

/-- State formulas: the truth depends on the first state of the path only.  (`LTL` operators must be
under a path quantifier.) -/
def Cond.isState : Cond → Bool
  | .bool _ => true
  | .dead => true
  | .cmp _ _ _ => true
  | .cc _ _ => true
  | .not c => c.isState
  | .and cs => all cs
  | .or cs => all cs
  | .EX _ | .AX _ | .EF _ | .AF _ | .EG _ | .AG _ | .EU _ _ | .AU _ _ => true
  | .E _ | .A _ => true
  | .X _ | .F _ | .G _ | .U _ _ => false
where all : List Cond → Bool
  | [] => true
  | c :: cs => c.isState && all cs

end PQL
end Verif
