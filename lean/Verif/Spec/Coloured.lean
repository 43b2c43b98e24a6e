import Verif.CPN.Syntax

/-!
# Specification: coloured nets

The usual semantics of coloured nets, over tuples of numbers: a colour of a plain type is a tuple of one number, a colour
of a product type a tuple of numbers.  Independent of the evaluation and the unfolding of the model; only the syntax is
shared.
-/

namespace Verif
namespace CPN

/-- A value. -/
abbrev Val := List Nat

/-- The sizes of the components of a value of a type. -/
def Types.dims (T : Types) (ty : Nat) : List Nat :=
  match T.parts ty with
  | none => [T.basic ty]
  | some cs => cs.map T.basic

/-- The tuples below the given sizes: the first component runs fastest. -/
def box : List Nat → List Val
  | [] => [[]]
  | n :: ns => ((box ns).map fun v => (List.range n).map fun i => i :: v).flatten

/-- All values of a type, in the order of the numbering of its colours. -/
def Types.values (T : Types) (ty : Nat) : List Val := box (T.dims ty)

/-- The value of the colour numbered `id` in its type. -/
def Types.value (T : Types) (c : Color) : Val := (T.values c.ty).getD c.id []

mutual
/-- Typing of colour expressions: successors of plain types only, tuples of plain types only. -/
def HasTy (T : Types) (vty : Nat → Nat) : CExpr → Nat → Prop
  | .dot, ty => ty = dotTy
  | .var v, ty => ty = vty v
  | .const c, ty => ty = c.ty ∧ c.id < T.size ty
  | .succ e, ty => HasTy T vty e ty ∧ T.parts ty = none
  | .pred e, ty => HasTy T vty e ty ∧ T.parts ty = none
  | .tuple es, ty => ∃ cs, T.parts ty = some cs ∧ HasTys T vty es cs
def HasTys (T : Types) (vty : Nat → Nat) : List CExpr → List Nat → Prop
  | [], cs => cs = []
  | e :: es, cs => ∃ c cs', cs = c :: cs' ∧ T.parts c = none ∧ HasTy T vty e c ∧ HasTys T vty es cs'
end

/-- The plain type of an expression of a plain type. -/
def tyOf (T : Types) (vty : Nat → Nat) : CExpr → Nat
  | .dot => dotTy
  | .var v => vty v
  | .const c => c.ty
  | .succ e => tyOf T vty e
  | .pred e => tyOf T vty e
  | .tuple _ => dotTy

mutual
/-- The value of a colour expression under an assignment of values to variables; successor and predecessor are cyclic. -/
def den (T : Types) (vty : Nat → Nat) (ρ : Nat → Val) : CExpr → Val
  | .dot => [0]
  | .var v => ρ v
  | .const c => T.value c
  | .succ e => (den T vty ρ e).map fun i => (i + 1) % T.basic (tyOf T vty e)
  | .pred e => (den T vty ρ e).map fun i => (i + (T.basic (tyOf T vty e) - 1)) % T.basic (tyOf T vty e)
  | .tuple es => denL T vty ρ es
def denL (T : Types) (vty : Nat → Nat) (ρ : Nat → Val) : List CExpr → Val
  | [] => []
  | e :: es => den T vty ρ e ++ denL T vty ρ es
end

/-- Typing of guards: the order is that of a plain type; equality compares values of one type. -/
def GuardTy (T : Types) (vty : Nat → Nat) : Guard → Prop
  | .lt a b => ∃ ty, T.parts ty = none ∧ HasTy T vty a ty ∧ HasTy T vty b ty
  | .le a b => ∃ ty, T.parts ty = none ∧ HasTy T vty a ty ∧ HasTy T vty b ty
  | .eq a b => ∃ ty, HasTy T vty a ty ∧ HasTy T vty b ty
  | .ne a b => ∃ ty, HasTy T vty a ty ∧ HasTy T vty b ty
  | .and g h => GuardTy T vty g ∧ GuardTy T vty h
  | .or g h => GuardTy T vty g ∧ GuardTy T vty h

/-- Truth of guards. -/
def Guard.holds (T : Types) (vty : Nat → Nat) (ρ : Nat → Val) : Guard → Prop
  | .lt a b => ∃ i j, den T vty ρ a = [i] ∧ den T vty ρ b = [j] ∧ i < j
  | .le a b => ∃ i j, den T vty ρ a = [i] ∧ den T vty ρ b = [j] ∧ i ≤ j
  | .eq a b => den T vty ρ a = den T vty ρ b
  | .ne a b => den T vty ρ a ≠ den T vty ρ b
  | .and g h => g.holds T vty ρ ∧ h.holds T vty ρ
  | .or g h => g.holds T vty ρ ∨ h.holds T vty ρ

def guardHolds (T : Types) (vty : Nat → Nat) (ρ : Nat → Val) : Option Guard → Prop
  | none => True
  | some g => g.holds T vty ρ

mutual
/-- Typing of arc expressions. -/
def ArcTy (T : Types) (vty : Nat → Nat) (ty : Nat) : ArcE → Prop
  | .num _ es => es ≠ [] ∧ ∀ e ∈ es, HasTy T vty e ty
  | .add as => ArcTys T vty ty as
  | .sub a b => ArcTy T vty ty a ∧ ArcTy T vty ty b
  | .scal _ a => ArcTy T vty ty a
def ArcTys (T : Types) (vty : Nat → Nat) (ty : Nat) : List ArcE → Prop
  | [] => True
  | a :: as => ArcTy T vty ty a ∧ ArcTys T vty ty as
end

mutual
/-- The multiset denoted by an arc expression: how often each value occurs. -/
def tokens (T : Types) (vty : Nat → Nat) (ρ : Nat → Val) : ArcE → Val → Nat
  | .num n es => fun x => n * (es.map fun e => den T vty ρ e).count x
  | .add as => tokensL T vty ρ as
  | .sub a b => fun x => tokens T vty ρ a x - tokens T vty ρ b x
  | .scal k a => fun x => k * tokens T vty ρ a x
def tokensL (T : Types) (vty : Nat → Nat) (ρ : Nat → Val) : List ArcE → Val → Nat
  | [] => fun _ => 0
  | a :: as => fun x => tokens T vty ρ a x + tokensL T vty ρ as x
end

/-- A marking of a coloured net: tokens on each place of each value. -/
abbrev CMark := Nat → Val → Nat

/-- The tokens on a place, whatever their values. -/
def CNet.total (N : CNet) (M : CMark) (p : Nat) : Nat := ((N.types.values (N.place p).ty).map (M p)).sum

/-- The tokens taken from a place. -/
def arcsTokens (N : CNet) (ρ : Nat → Val) (as : List CArc) (p : Nat) (x : Val) : Nat :=
  (as.map fun a => if a.place = p then tokens N.types N.vty ρ a.expr x else 0).sum

/-- A legal binding of a transition: values of the right types satisfying the guard. -/
def CNet.Legal (N : CNet) (t : Nat) (ρ : Nat → Val) : Prop :=
  (∀ v ∈ (N.trans t).vars, ρ v ∈ N.types.values (N.vty v)) ∧ guardHolds N.types N.vty ρ (N.trans t).guard

/-- The transition can fire with the binding: the input arcs find their tokens, and the places of the inhibitor arcs hold
fewer tokens, of whatever colours, than the weights. -/
def CNet.Enabled (N : CNet) (M : CMark) (t : Nat) (ρ : Nat → Val) : Prop :=
  (∀ p x, arcsTokens N ρ (N.trans t).inputs p x ≤ M p x) ∧
  ∀ h ∈ N.inhibitors, h.trans = t → N.total M h.place < h.weight

/-- The marking after firing. -/
def CNet.fire (N : CNet) (M : CMark) (t : Nat) (ρ : Nat → Val) : CMark :=
  fun p x => M p x - arcsTokens N ρ (N.trans t).inputs p x + arcsTokens N ρ (N.trans t).outputs p x

/-- The initial marking: the listed numbers of tokens of the listed colours. -/
def CNet.init (N : CNet) : CMark := fun p x =>
  ((N.place p).marking.map fun q => if N.types.value ⟨(N.place p).ty, q.1⟩ = x then q.2 else 0).sum

/-- One firing of the coloured net. -/
def CNet.Step (N : CNet) (M : CMark) (t : Nat) (ρ : Nat → Val) (M' : CMark) : Prop :=
  t < N.transitions.length ∧ N.Legal t ρ ∧ N.Enabled M t ρ ∧ M' = N.fire M t ρ

/-- The reachable markings of the coloured net. -/
inductive CNet.Reach (N : CNet) : CMark → Prop
  | init : CNet.Reach N N.init
  | step {M M' : CMark} {t : Nat} {ρ : Nat → Val} : CNet.Reach N M → N.Step M t ρ M' → CNet.Reach N M'

end CPN
end Verif
