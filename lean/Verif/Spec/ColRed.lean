import Verif.Spec.ColQuery
import Verif.CRed.Model

/-!
# Specification: coloured nets with places and transitions left out

Only the syntax of the net, with its lists of skipped places and transitions, is shared with the model of the reducer.
-/

namespace Verif
namespace CRed
open CPN XCol

/-- A firing of the net: skipped transitions do not fire. -/
def Red.Step (R : Red) (M : CMark) (t : Nat) (ρ : Nat → Val) (M' : CMark) : Prop := t ∉ R.skT ∧ R.net.Step M t ρ M'

/-- The reachable markings. -/
inductive Red.Reach (R : Red) : CMark → Prop
  | init : Red.Reach R R.net.init
  | step {M M' : CMark} {t : Nat} {ρ : Nat → Val} : Red.Reach R M → R.Step M t ρ M' → Red.Reach R M'

/-- The transition can fire. -/
def Red.CanFire (R : Red) (M : CMark) (t : Nat) : Prop := ∃ ρ M', R.Step M t ρ M'

/-- The truth of a proposition in a marking. -/
def Red.holds (R : Red) (M : CMark) : XQ → Prop
  | .and a b => R.holds M a ∧ R.holds M b
  | .or a b => R.holds M a ∨ R.holds M b
  | .not a => ¬R.holds M a
  | .lt x y => x.sem R.net M < y.sem R.net M
  | .le x y => x.sem R.net M ≤ y.sem R.net M
  | .eq x y => x.sem R.net M = y.sem R.net M
  | .ne x y => x.sem R.net M ≠ y.sem R.net M
  | .dead => ∀ t, ¬R.CanFire M t
  | .fire t => R.CanFire M t

/-- Some reachable marking satisfies the proposition. -/
def Red.EF (R : Red) (φ : XQ) : Prop := ∃ M, R.Reach M ∧ R.holds M φ

/-- The places of an operand. -/
def vplaces : QVal → List Nat
  | .place p => [p]
  | .lit _ => []

/-- The places that a proposition mentions. -/
def qplaces : XQ → List Nat
  | .and a b => qplaces a ++ qplaces b
  | .or a b => qplaces a ++ qplaces b
  | .not a => qplaces a
  | .lt x y => vplaces x ++ vplaces y
  | .le x y => vplaces x ++ vplaces y
  | .eq x y => vplaces x ++ vplaces y
  | .ne x y => vplaces x ++ vplaces y
  | .dead => []
  | .fire _ => []

/-- The transitions that a proposition mentions. -/
def qtrans : XQ → List Nat
  | .and a b => qtrans a ++ qtrans b
  | .or a b => qtrans a ++ qtrans b
  | .not a => qtrans a
  | .fire t => [t]
  | _ => []

/-- The proposition speaks of deadlocks. -/
def qdead : XQ → Bool
  | .and a b => qdead a || qdead b
  | .or a b => qdead a || qdead b
  | .not a => qdead a
  | .dead => true
  | _ => false

/-- The reducer knows all places and transitions that the proposition mentions. -/
def Known (q : Uses) (φ : XQ) : Prop := (∀ p ∈ qplaces φ, q.place p = true) ∧ ∀ t ∈ qtrans φ, q.trans t = true

/-- The reduction leaves the answer to the query as it was. -/
def Keeps (R R' : Red) (φ : XQ) : Prop := R.EF φ ↔ R'.EF φ

/-- Two nets whose reachable markings are bisimilar: matching markings fire the same transitions, to matching markings. -/
structure Bisim (R R' : Red) (S : CMark → CMark → Prop) : Prop where
  init : S R.net.init R'.net.init
  fwd : ∀ M M', R.Reach M → R'.Reach M' → S M M' → ∀ t ρ L, R.Step M t ρ L → ∃ ρ' L', R'.Step M' t ρ' L' ∧ S L L'
  bwd : ∀ M M', R.Reach M → R'.Reach M' → S M M' → ∀ t ρ L', R'.Step M' t ρ L' → ∃ ρ' L, R.Step M t ρ' L ∧ S L L'

/-- The nets behave the same: they are bisimilar, where matching markings have the same tokens on all places that are
left, places of the same types. -/
structure Same (R R' : Red) : Prop where
  bisim : ∃ S, Bisim R R' S ∧ ∀ M M', S M M' → ∀ p, p ∉ R'.skP → M p = M' p
  types : R'.net.types = R.net.types
  tys : ∀ p, (R'.net.place p).ty = (R.net.place p).ty
  skP : ∀ p ∈ R.skP, p ∈ R'.skP

/-- The arcs of all transitions are sorted by place, at most one for each place. -/
def Sorted (N : CNet) : Prop := ∀ t ∈ N.transitions, (t.inputs.map (·.place)).Pairwise (· < ·) ∧ (t.outputs.map (·.place)).Pairwise (· < ·)

/-- Arc expressions of one transition that are printed alike mean the same -/
def Readable (nm : Names) (N : CNet) : Prop := ∀ t ∈ N.transitions, ∀ a ∈ t.inputs ++ t.outputs, ∀ b ∈ t.inputs ++ t.outputs,
  arcText nm a.expr = arcText nm b.expr → ∀ ρ x, tokens N.types N.vty ρ a.expr x = tokens N.types N.vty ρ b.expr x

end CRed
end Verif
