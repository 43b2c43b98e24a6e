/-!
# Specification: games between a controller and an environment, strategies and plays

Independent of the model of the C++ code.
-/

namespace Verif

/-- Moves of the environment and of the controller, the positions lost at once, and the goal. -/
structure Arena (σ : Type) where
  env : σ → σ → Prop
  ctrl : σ → σ → Prop
  lost : σ → Prop
  goal : σ → Prop

namespace Arena
variable {σ : Type} (A : Arena σ)

/-- A strategy maps the current position and the past ones (latest first) to the next position.  Where the
controller has a move it has to offer one. -/
def Valid (f : List σ → σ) : Prop := ∀ s h, (∃ c, A.ctrl s c) → A.ctrl s (f (s :: h))

/-- The next position: a move of the environment, or the one offered by the controller; nothing changes
if there is neither. -/
def Move (f : List σ → σ) (s : σ) (h : List σ) (t : σ) : Prop :=
  A.env s t ∨ ((∃ c, A.ctrl s c) ∧ t = f (s :: h)) ∨ ((∀ x, ¬ A.env s x) ∧ (∀ x, ¬ A.ctrl s x) ∧ t = s)

/-- The positions before the n-th, latest first. -/
def past (ρ : Nat → σ) : Nat → List σ
  | 0 => []
  | n + 1 => ρ n :: past ρ n

/-- The plays that follow a strategy. -/
def Play (f : List σ → σ) (s : σ) (ρ : Nat → σ) : Prop :=
  ρ 0 = s ∧ ∀ n, A.Move f (ρ n) (past ρ n) (ρ (n + 1))

/-- The strategy keeps all plays inside the goal. -/
def Keeps (f : List σ → σ) (s : σ) : Prop := ∀ ρ, A.Play f s ρ → ∀ n, ¬ A.lost (ρ n) ∧ A.goal (ρ n)

/-- The strategy leads all plays to the goal, without passing a lost position. -/
def Leads (f : List σ → σ) (s : σ) : Prop :=
  ∀ ρ, A.Play f s ρ → ∃ n, A.goal (ρ n) ∧ ∀ i ≤ n, ¬ A.lost (ρ i)

/-- The controller has a winning strategy, for the safety or the reachability objective. -/
def Winning (safety : Bool) (s : σ) : Prop :=
  ∃ f, A.Valid f ∧ (if safety then A.Keeps f s else A.Leads f s)

/-- As `Winning`, with a strategy that only looks at the current position. -/
def WinningPos (safety : Bool) (s : σ) : Prop :=
  ∃ g : σ → σ, A.Valid (fun h => g (h.headD s)) ∧
    (if safety then A.Keeps (fun h => g (h.headD s)) s else A.Leads (fun h => g (h.headD s)) s)

end Arena
end Verif
