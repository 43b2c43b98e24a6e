/-!
# Specification: place/transition nets with weighted and inhibitor arcs

This file is independent of the model of the C++ code.  It is the textbook semantics.
-/

namespace Verif

/-- A net over places `P` and transitions `T`: `pre t p` tokens are consumed by `t` from `p`,
`post t p` tokens are produced, and `inh t p = some w` is an inhibitor arc of weight `w`
(the transition is disabled as soon as `p` holds `w` or more tokens). -/
structure Net (P T : Type) where
  pre : T → P → Nat
  inh : T → P → Option Nat
  post : T → P → Nat

/-- A marking assigns a number of tokens to every place. -/
abbrev Marking (P : Type) := P → Nat

namespace Net
variable {P T : Type} (N : Net P T)

/-- `t` is enabled in `m`. -/
def Enabled (m : Marking P) (t : T) : Prop :=
  (∀ p, N.pre t p ≤ m p) ∧ (∀ p w, N.inh t p = some w → m p < w)

/-- The marking obtained by firing `t` in `m` (meaningful when `t` is enabled). -/
def fire (m : Marking P) (t : T) : Marking P := fun p => m p - N.pre t p + N.post t p

/-- One firing. -/
def Step (m : Marking P) (t : T) (m' : Marking P) : Prop :=
  N.Enabled m t ∧ m' = N.fire m t

/-- `Run m ts m'`: the transition sequence `ts` leads from `m` to `m'`. -/
inductive Run : Marking P → List T → Marking P → Prop
  | nil (m) : Run m [] m
  | cons {m t m' ts m''} : N.Step m t m' → Run m' ts m'' → Run m (t :: ts) m''

/-- `m'` is reachable from `m`. -/
def Reach (m m' : Marking P) : Prop := ∃ ts, N.Run m ts m'

/-- `RunWithin ok m ts m'`: as `Run`, and all markings on the way (ends included) satisfy `ok`. -/
inductive RunWithin (ok : Marking P → Prop) : Marking P → List T → Marking P → Prop
  | nil {m} : ok m → RunWithin ok m [] m
  | cons {m t m' ts m''} : ok m → N.Step m t m' → RunWithin ok m' ts m'' → RunWithin ok m (t :: ts) m''

/-- No transition is enabled. -/
def Dead (m : Marking P) : Prop := ∀ t, ¬ N.Enabled m t

theorem Run.append {m m' m'' : Marking P} {ts us : List T}
    (h : N.Run m ts m') (h' : N.Run m' us m'') : N.Run m (ts ++ us) m'' := by
  induction h with
  | nil => exact h'
  | cons s _ ih => exact .cons s (ih h')

theorem Run.snoc {m m' m'' : Marking P} {ts : List T} {t : T}
    (h : N.Run m ts m') (s : N.Step m' t m'') : N.Run m (ts ++ [t]) m'' :=
  h.append N (.cons s (.nil _))

theorem Reach.refl (m : Marking P) : N.Reach m m := ⟨[], .nil m⟩

theorem Reach.trans {m m' m'' : Marking P} (h : N.Reach m m') (h' : N.Reach m' m'') :
    N.Reach m m'' := by
  obtain ⟨a, ha⟩ := h; obtain ⟨b, hb⟩ := h'; exact ⟨a ++ b, ha.append N hb⟩

theorem Reach.step {m m' m'' : Marking P} {t : T} (h : N.Reach m m') (s : N.Step m' t m'') :
    N.Reach m m'' := by
  obtain ⟨a, ha⟩ := h; exact ⟨a ++ [t], ha.snoc N s⟩

theorem RunWithin.run {ok : Marking P → Prop} {m m' : Marking P} {ts : List T}
    (h : N.RunWithin ok m ts m') : N.Run m ts m' := by
  induction h with
  | nil _ => exact .nil _
  | cons _ s _ ih => exact .cons s ih

theorem RunWithin.snoc {ok : Marking P → Prop} {m m' m'' : Marking P} {ts : List T} {t : T}
    (h : N.RunWithin ok m ts m') (s : N.Step m' t m'') (ho : ok m'') :
    N.RunWithin ok m (ts ++ [t]) m'' := by
  induction h with
  | nil h => exact .cons h s (.nil ho)
  | cons h s' _ ih => exact .cons h s' (ih s)

theorem Run.within {m m' : Marking P} {ts : List T} (h : N.Run m ts m') :
    N.RunWithin (fun _ => True) m ts m' := by
  induction h with
  | nil => exact .nil trivial
  | cons s _ ih => exact .cons trivial s ih

theorem RunWithin.mono {ok ok' : Marking P → Prop} {m m' : Marking P} {ts : List T}
    (h : N.RunWithin ok m ts m') (hok : ∀ m, ok m → ok' m) : N.RunWithin ok' m ts m' := by
  induction h with
  | nil h => exact .nil (hok _ h)
  | cons h s _ ih => exact .cons (hok _ h) s ih

end Net
end Verif
