import Verif.Simp.Model
import Verif.Simp.SatC
import Verif.PQL.PushNegSound

/-!
# The simplifier: results of visits
-/

namespace Verif
namespace Simp
open PQL Coll

/-- The setting: a transition system whose states considered have firing counts that the solver respects. -/
structure Setting (T : TS) (I : Mark → Prop) (Ct : Mark → (Nat → Int) → Prop) (o : Oracle) (Fs : Pred) : Prop where
  inv : StateInv T I
  ex : ∀ m, I m → ∃ x, Ct m x
  fs : ∀ m x, Ct m x → Fs x
  sound : o.Sound Fs

/-- The result of a visit is an admissible formula that means `P`, and the programs cover the counts of the states where
it is true, and where it is false. -/
structure RetOK (T : TS) (I : Mark → Prop) (Ct : Mark → (Nat → Int) → Prop) (Fs : Pred) (r : Ret)
    (P : (Nat → Mark) → Prop) (st : Prop) : Prop where
  wf : r.formula.wf = true
  state : st → r.formula.isState = true
  sat : ∀ π, T.IsPath π → I (π 0) → (r.formula.sat T π ↔ P π)
  invL : InvR Fs r.lps
  invN : InvR Fs r.neglps
  pos : ∀ π x, T.IsPath π → I (π 0) → Ct (π 0) x → P π → Sat r.lps x
  neg : ∀ π x, T.IsPath π → I (π 0) → Ct (π 0) x → ¬ P π → Sat r.neglps x

variable {T : TS} {I : Mark → Prop} {Ct : Mark → (Nat → Int) → Prop} {o : Oracle} {Fs : Pred} {r r' : Ret}
  {P Q : (Nat → Mark) → Prop} {st st' : Prop} {n : Nat} {π : List Nat}

theorem RetOK.of {c : Cond} (hw : c.wf = true) (hst : st → c.isState = true)
    (hs : ∀ π, T.IsPath π → I (π 0) → (c.sat T π ↔ P π)) : RetOK T I Ct Fs (Ret.of c) P st :=
  ⟨hw, hst, hs, inv_empty, inv_empty, fun _ _ _ _ _ _ => sat_empty _, fun _ _ _ _ _ _ => sat_empty _⟩

theorem RetOK.bool {b : Bool} (hs : ∀ π, T.IsPath π → I (π 0) → (b = true ↔ P π)) :
    RetOK T I Ct Fs (Ret.of (.bool b)) P st :=
  RetOK.of rfl (fun _ => rfl) hs

theorem RetOK.change (h : RetOK T I Ct Fs r P st) (hst : st' → st)
    (hPQ : ∀ π, T.IsPath π → I (π 0) → (P π ↔ Q π)) : RetOK T I Ct Fs r Q st' :=
  ⟨h.wf, fun hs => h.state (hst hs), fun π hp hi => (h.sat π hp hi).trans (hPQ π hp hi), h.invL, h.invN,
    fun π x hp hi hx hq => h.pos π x hp hi hx ((hPQ π hp hi).2 hq),
    fun π x hp hi hx hq => h.neg π x hp hi hx fun hP => hq ((hPQ π hp hi).1 hP)⟩

theorem isB_iff {b : Bool} {c : Cond} : isB b c = true ↔ c = .bool b := by
  cases c <;> simp [isB]

section
variable (hS : Setting T I Ct o Fs)
include hS

theorem RetOK.always (h : RetOK T I Ct Fs r P st) (hu : ∀ x, Fs x → ¬ Sat r.neglps x) {ρ : Nat → Mark}
    (hρ : T.IsPath ρ) (hi : I (ρ 0)) : P ρ := by
  by_cases hP : P ρ
  · exact hP
  · obtain ⟨x, hx⟩ := hS.ex _ hi
    exact absurd (h.neg ρ x hρ hi hx hP) (hu x (hS.fs _ _ hx))

theorem RetOK.never (h : RetOK T I Ct Fs r P st) (hu : ∀ x, Fs x → ¬ Sat r.lps x) {ρ : Nat → Mark}
    (hρ : T.IsPath ρ) (hi : I (ρ 0)) : ¬ P ρ := by
  intro hP
  obtain ⟨x, hx⟩ := hS.ex _ hi
  exact hu x (hS.fs _ _ hx) (h.pos ρ x hρ hi hx hP)

theorem testC_spec {c c' : Coll} {b : Bool} (hc : InvR Fs c) (h : testC o n π c = some (b, c')) :
    SatOut Fs c b c' := by
  unfold testC at h
  split at h
  · cases h; exact ⟨fun h => (by cases h), hc, fun _ _ h => h⟩
  · exact satC_spec hS.sound n hc h

theorem triv_spec {c c' : Coll} {b b' : Bool} (hc : InvR Fs c) (h : triv o n π b c = some (b', c')) :
    (b' = true → b = true ∨ ∀ x, Fs x → ¬ Sat c x) ∧ InvR Fs c' ∧ (∀ x, Fs x → Sat c x → Sat c' x) := by
  unfold triv at h
  split at h
  · rename_i hb
    cases h; exact ⟨fun _ => .inl hb, hc, fun _ _ h => h⟩
  · cases hs : satC o n π c with
    | none => rw [hs] at h; simp at h
    | some q =>
      obtain ⟨s, d⟩ := q
      rw [hs] at h
      simp only [Option.some.injEq, Prod.mk.injEq] at h
      obtain ⟨h1, h2⟩ := h
      subst h2
      have hso := satC_spec hS.sound n hc hs
      exact ⟨fun hb => .inr (hso.no (by rw [← h1] at hb; simpa using hb)), hso.inv, hso.keep⟩

theorem trivT_spec (hr : RetOK T I Ct Fs r P st) {c' : Coll} {b : Bool}
    (h : triv o n π (isB true r.formula) r.neglps = some (b, c')) :
    (b = true → ∀ ρ, T.IsPath ρ → I (ρ 0) → P ρ) ∧ InvR Fs c' ∧ (∀ x, Fs x → Sat r.neglps x → Sat c' x) := by
  obtain ⟨h1, h2⟩ := triv_spec hS hr.invN h
  refine ⟨fun hb ρ hρ hi => ?_, h2⟩
  rcases h1 hb with h1 | h1
  · rw [isB_iff] at h1
    exact (hr.sat ρ hρ hi).1 (by rw [h1]; rfl)
  · exact hr.always hS h1 hρ hi

theorem trivF_spec (hr : RetOK T I Ct Fs r P st) {c' : Coll} {b : Bool}
    (h : triv o n π (isB false r.formula) r.lps = some (b, c')) :
    (b = true → ∀ ρ, T.IsPath ρ → I (ρ 0) → ¬ P ρ) ∧ InvR Fs c' ∧ (∀ x, Fs x → Sat r.lps x → Sat c' x) := by
  obtain ⟨h1, h2⟩ := triv_spec hS hr.invL h
  refine ⟨fun hb ρ hρ hi hP => ?_, h2⟩
  rcases h1 hb with h1 | h1
  · rw [isB_iff] at h1
    have := (hr.sat ρ hρ hi).2 hP
    rw [h1] at this
    exact Bool.false_ne_true this
  · exact hr.never hS h1 hρ hi hP

end

/-! ### Quantifiers -/

/-- the operators with one operand -/
inductive QOp
  | EX | AX | EF | AF | EG | AG | E | A | F | G | X
deriving DecidableEq

namespace QOp

def mk : QOp → Cond → Cond
  | EX => .EX | AX => .AX | EF => .EF | AF => .AF | EG => .EG | AG => .AG
  | E => .E | A => .A | F => .F | G => .G | X => .X

def sem (T : TS) (P : (Nat → Mark) → Prop) (π : Nat → Mark) : QOp → Prop
  | EX => ∃ π', T.IsPath π' ∧ T.step (π 0) (π' 0) ∧ P π'
  | AX => ∀ π', T.IsPath π' → T.step (π 0) (π' 0) → P π'
  | EF => ∃ π', T.IsPath π' ∧ π' 0 = π 0 ∧ ∃ i, P (suffix π' i)
  | AF => ∀ π', T.IsPath π' → π' 0 = π 0 → ∃ i, P (suffix π' i)
  | EG => ∃ π', T.IsPath π' ∧ π' 0 = π 0 ∧ ∀ i, P (suffix π' i)
  | AG => ∀ π', T.IsPath π' → π' 0 = π 0 → ∀ i, P (suffix π' i)
  | E => ∃ π', T.IsPath π' ∧ π' 0 = π 0 ∧ P π'
  | A => ∀ π', T.IsPath π' → π' 0 = π 0 → P π'
  | X => P (suffix π 1)
  | F => ∃ i, P (suffix π i)
  | G => ∀ i, P (suffix π i)

def onT : QOp → Cond
  | EX => .not .dead
  | _ => .bool true

def onF : QOp → Cond
  | AX => .dead
  | _ => .bool false

def dual : QOp → QOp
  | EX => AX | AX => EX | EF => AG | AG => EF | AF => EG | EG => AF
  | E => A | A => E | F => G | G => F | X => X

/-- the operand must be a state formula -/
def ctl : QOp → Bool
  | EX | AX | EF | AF | EG | AG => true
  | _ => false

theorem sat_mk (q : QOp) (c : Cond) (π : Nat → Mark) : (q.mk c).sat T π ↔ q.sem T (fun π => c.sat T π) π := by
  cases q <;> simp only [mk, sem, Cond.sat]

theorem wf_mk (q : QOp) (c : Cond) : (q.mk c).wf = true ↔ c.wf = true ∧ (q.ctl = true → c.isState = true) := by
  cases q <;> simp [mk, ctl, Cond.wf]

theorem state_mk (q : QOp) {c d : Cond} (h : (q.mk c).isState = true) : (q.mk d).isState = true := by
  cases q <;> simp [mk, Cond.isState] at h ⊢

theorem sem_dual (q : QOp) (P : (Nat → Mark) → Prop) (π : Nat → Mark) :
    ¬ q.sem T P π ↔ q.dual.sem T (fun π => ¬ P π) π := by
  cases q <;> simp only [dual, sem] <;> push Not <;> rfl

theorem sem_mono (hI : StateInv T I) (q : QOp) (h : ∀ π, T.IsPath π → I (π 0) → P π → Q π)
    {π : Nat → Mark} (hp : T.IsPath π) (hi : I (π 0)) : q.sem T P π → q.sem T Q π := by
  have later : ∀ {ρ : Nat → Mark} (i : Nat), T.IsPath ρ → I (ρ 0) → P (suffix ρ i) → Q (suffix ρ i) :=
    fun i hρ h0 => h _ (suffix_path hρ i) (hI.path hρ h0 i)
  cases q <;> simp only [sem]
  · rintro ⟨ρ, h1, h2, h3⟩; exact ⟨ρ, h1, h2, h ρ h1 (hI.closed _ _ hi h2) h3⟩
  · intro h' ρ h1 h2; exact h ρ h1 (hI.closed _ _ hi h2) (h' ρ h1 h2)
  · rintro ⟨ρ, h1, h2, i, h3⟩; exact ⟨ρ, h1, h2, i, later i h1 (h2 ▸ hi) h3⟩
  · intro h' ρ h1 h2
    obtain ⟨i, h3⟩ := h' ρ h1 h2
    exact ⟨i, later i h1 (h2 ▸ hi) h3⟩
  · rintro ⟨ρ, h1, h2, h3⟩; exact ⟨ρ, h1, h2, fun i => later i h1 (h2 ▸ hi) (h3 i)⟩
  · intro h' ρ h1 h2 i; exact later i h1 (h2 ▸ hi) (h' ρ h1 h2 i)
  · rintro ⟨ρ, h1, h2, h3⟩; exact ⟨ρ, h1, h2, h ρ h1 (h2 ▸ hi) h3⟩
  · intro h' ρ h1 h2; exact h ρ h1 (h2 ▸ hi) (h' ρ h1 h2)
  · rintro ⟨i, h3⟩; exact ⟨i, later i hp hi h3⟩
  · intro h3 i; exact later i hp hi (h3 i)
  · exact later 1 hp hi

theorem sem_congr (hI : StateInv T I) (q : QOp) (h : ∀ π, T.IsPath π → I (π 0) → (P π ↔ Q π))
    {π : Nat → Mark} (hp : T.IsPath π) (hi : I (π 0)) : q.sem T P π ↔ q.sem T Q π :=
  ⟨sem_mono hI q (fun π hp hi => (h π hp hi).1) hp hi, sem_mono hI q (fun π hp hi => (h π hp hi).2) hp hi⟩

theorem sem_true (q : QOp) {π : Nat → Mark} (hp : T.IsPath π) : q.onT.sat T π ↔ q.sem T (fun _ => True) π := by
  cases q <;> simp only [onT, sem, Cond.sat, true_iff]
  · constructor
    · intro h
      simp only [TS.Dead] at h
      push Not at h
      obtain ⟨m', hm⟩ := h
      obtain ⟨ρ, h1, h2⟩ := T.exists_path m'
      exact ⟨ρ, h1, h2 ▸ hm, trivial⟩
    · rintro ⟨ρ, _, h2, _⟩ hd
      exact hd _ h2
  all_goals first
    | exact fun _ _ _ => trivial
    | exact ⟨π, hp, rfl, 0, trivial⟩
    | exact fun _ _ _ => ⟨0, trivial⟩
    | exact ⟨π, hp, rfl, fun _ => trivial⟩
    | exact fun _ _ _ _ => trivial
    | exact ⟨π, hp, rfl, trivial⟩
    | exact ⟨0, trivial⟩
    | exact fun _ => trivial

theorem sem_false (q : QOp) {π : Nat → Mark} (hp : T.IsPath π) : q.onF.sat T π ↔ q.sem T (fun _ => False) π := by
  cases q <;> simp only [onF, sem, Cond.sat, Bool.false_eq_true, false_iff]
  case AX =>
    constructor
    · intro hd ρ _ h2; exact hd _ h2
    · intro h m' hm
      obtain ⟨ρ, h1, h2⟩ := T.exists_path m'
      exact h ρ h1 (h2 ▸ hm)
  all_goals first
    | (rintro ⟨_, _, _, h⟩; exact h)
    | (rintro ⟨_, _, _, _, h⟩; exact h)
    | (intro h; obtain ⟨_, h⟩ := h π hp rfl; exact h)
    | (rintro ⟨_, _, _, h⟩; exact h 0)
    | (intro h; exact h π hp rfl 0)
    | (intro h; exact h π hp rfl)
    | (rintro ⟨_, h⟩; exact h)
    | (intro h; exact h 0)

theorem onT_wf (q : QOp) : q.onT.wf = true ∧ q.onT.isState = true := by cases q <;> decide
theorem onF_wf (q : QOp) : q.onF.wf = true ∧ q.onF.isState = true := by cases q <;> decide

end QOp

theorem quant_spec (hS : Setting T I Ct o Fs) (q : QOp) (hr : RetOK T I Ct Fs r P st) (hst : q.ctl = true → st)
    (hst' : st' → ∀ c, (q.mk c).isState = true)
    (h : quant o n π q.onT q.onF q.mk r = some r') : RetOK T I Ct Fs r' (fun π => q.sem T P π) st' := by
  unfold quant at h
  cases h1 : triv o n (0 :: π) (isB true r.formula) r.neglps with
  | none => rw [h1] at h; simp at h
  | some k =>
    obtain ⟨b, c'⟩ := k
    rw [h1] at h
    obtain ⟨a1, _⟩ := trivT_spec hS hr h1
    cases b with
    | true =>
      simp only at h
      obtain rfl := Option.some.inj h
      refine RetOK.of q.onT_wf.1 (fun _ => q.onT_wf.2) fun ρ hp hi => ?_
      rw [q.sem_true hp]
      exact q.sem_congr hS.inv (fun π hp hi => by simp [a1 rfl π hp hi]) hp hi
    | false =>
      simp only at h
      cases h2 : triv o n (1 :: π) (isB false r.formula) r.lps with
      | none => rw [h2] at h; simp at h
      | some k =>
        obtain ⟨b, c'⟩ := k
        rw [h2] at h
        obtain ⟨a2, _⟩ := trivF_spec hS hr h2
        cases b with
        | true =>
          simp only at h
          obtain rfl := Option.some.inj h
          refine RetOK.of q.onF_wf.1 (fun _ => q.onF_wf.2) fun ρ hp hi => ?_
          rw [q.sem_false hp]
          exact q.sem_congr hS.inv (fun π hp hi => by simp [a2 rfl π hp hi]) hp hi
        | false =>
          simp only at h
          obtain rfl := Option.some.inj h
          refine RetOK.of ((q.wf_mk _).2 ⟨hr.wf, fun hc => hr.state (hst hc)⟩) (fun hs => hst' hs _) fun ρ hp hi => ?_
          rw [q.sat_mk]
          exact q.sem_congr hS.inv hr.sat hp hi

/-! ### Until -/

/-- the operators with two operands -/
inductive UOp
  | EU | AU | U
deriving DecidableEq

namespace UOp

def mkF : UOp → Cond → Cond
  | EU => .EF | AU => .AF | U => .F
def mkU : UOp → Cond → Cond → Cond
  | EU => .EU | AU => .AU | U => .U
def qF : UOp → QOp
  | EU => .EF | AU => .AF | U => .F

def ctl : UOp → Bool
  | U => false
  | _ => true

/-- until on a path -/
def unt (P Q : (Nat → Mark) → Prop) (π : Nat → Mark) : Prop := ∃ i, Q (suffix π i) ∧ ∀ j, j < i → P (suffix π j)

def sem (T : TS) (P Q : (Nat → Mark) → Prop) (π : Nat → Mark) : UOp → Prop
  | EU => ∃ π', T.IsPath π' ∧ π' 0 = π 0 ∧ unt P Q π'
  | AU => ∀ π', T.IsPath π' → π' 0 = π 0 → unt P Q π'
  | U => unt P Q π

theorem mkF_eq (u : UOp) : u.mkF = u.qF.mk := by cases u <;> rfl

theorem sat_mk (u : UOp) (c d : Cond) (π : Nat → Mark) :
    (u.mkU c d).sat T π ↔ u.sem T (fun π => c.sat T π) (fun π => d.sat T π) π := by
  cases u <;> simp only [mkU, sem, unt, Cond.sat]

theorem wf_mk (u : UOp) (c d : Cond) : (u.mkU c d).wf = true ↔
    c.wf = true ∧ d.wf = true ∧ (u.ctl = true → c.isState = true ∧ d.isState = true) := by
  cases u <;> simp [mkU, ctl, Cond.wf] <;> tauto

theorem wf_F (u : UOp) (d : Cond) : (u.mkF d).wf = true ↔ d.wf = true ∧ (u.ctl = true → d.isState = true) := by
  cases u <;> simp [mkF, ctl, Cond.wf]

theorem state_mk (u : UOp) {c d : Cond} (h : (u.mkU c d).isState = true) :
    (∀ c d, (u.mkU c d).isState = true) ∧ (∀ d, (u.mkF d).isState = true) ∧ u.ctl = true := by
  cases u <;> simp [mkU, mkF, ctl, Cond.isState] at h ⊢

theorem sem_mono (hI : StateInv T I) (u : UOp) {P' Q' : (Nat → Mark) → Prop}
    (h : ∀ π, T.IsPath π → I (π 0) → P π → P' π) (h' : ∀ π, T.IsPath π → I (π 0) → Q π → Q' π)
    {π : Nat → Mark} (hp : T.IsPath π) (hi : I (π 0)) : u.sem T P Q π → u.sem T P' Q' π := by
  have key : ∀ {ρ : Nat → Mark}, T.IsPath ρ → I (ρ 0) → unt P Q ρ → unt P' Q' ρ := by
    rintro ρ hρ h0 ⟨i, h1, h2⟩
    exact ⟨i, h' _ (suffix_path hρ i) (hI.path hρ h0 i) h1, fun j hj =>
      h _ (suffix_path hρ j) (hI.path hρ h0 j) (h2 j hj)⟩
  cases u <;> simp only [sem]
  · rintro ⟨ρ, h1, h2, h3⟩; exact ⟨ρ, h1, h2, key h1 (h2 ▸ hi) h3⟩
  · intro h3 ρ h1 h2; exact key h1 (h2 ▸ hi) (h3 ρ h1 h2)
  · exact key hp hi

theorem sem_congr (hI : StateInv T I) (u : UOp) {P' Q' : (Nat → Mark) → Prop}
    (h : ∀ π, T.IsPath π → I (π 0) → (P π ↔ P' π)) (h' : ∀ π, T.IsPath π → I (π 0) → (Q π ↔ Q' π))
    {π : Nat → Mark} (hp : T.IsPath π) (hi : I (π 0)) : u.sem T P Q π ↔ u.sem T P' Q' π :=
  ⟨sem_mono hI u (fun π a b => (h π a b).1) (fun π a b => (h' π a b).1) hp hi,
   sem_mono hI u (fun π a b => (h π a b).2) (fun π a b => (h' π a b).2) hp hi⟩

theorem sem_second_true (u : UOp) (P : (Nat → Mark) → Prop) {π : Nat → Mark} (hp : T.IsPath π) :
    u.sem T P (fun _ => True) π := by
  have key : ∀ ρ : Nat → Mark, unt P (fun _ => True) ρ := fun ρ => ⟨0, trivial, fun _ h => absurd h (Nat.not_lt_zero _)⟩
  cases u <;> simp only [sem]
  · exact ⟨π, hp, rfl, key _⟩
  · exact fun ρ _ _ => key ρ
  · exact key _

theorem sem_second_false (u : UOp) (P : (Nat → Mark) → Prop) {π : Nat → Mark} (hp : T.IsPath π) :
    ¬ u.sem T P (fun _ => False) π := by
  have key : ∀ ρ : Nat → Mark, ¬ unt P (fun _ => False) ρ := fun ρ ⟨_, h, _⟩ => h
  cases u <;> simp only [sem]
  · exact fun ⟨ρ, _, _, h⟩ => key ρ h
  · exact fun h => key π (h π hp rfl)
  · exact key _

theorem sem_first_true (u : UOp) (Q : (Nat → Mark) → Prop) (π : Nat → Mark) :
    u.sem T (fun _ => True) Q π ↔ u.qF.sem T Q π := by
  cases u <;> simp [sem, qF, QOp.sem, unt]

/-- The second operand of the CTL operators depends on the first state only. -/
theorem sem_first_false (u : UOp) (Q : (Nat → Mark) → Prop) {π : Nat → Mark} (hp : T.IsPath π)
    (hs : u.ctl = true → ∀ ρ : Nat → Mark, T.IsPath ρ → ρ 0 = π 0 → (Q ρ ↔ Q π)) :
    u.sem T (fun _ => False) Q π ↔ Q π := by
  have key : ∀ ρ : Nat → Mark, unt (fun _ => False) Q ρ ↔ Q ρ := by
    intro ρ
    constructor
    · rintro ⟨i, h1, h2⟩
      cases i with
      | zero => rwa [suffix_zero] at h1
      | succ i => exact (h2 0 (Nat.succ_pos _)).elim
    · exact fun h => ⟨0, by rwa [suffix_zero], fun _ h => absurd h (Nat.not_lt_zero _)⟩
  cases u <;> simp only [sem, key]
  · exact ⟨fun ⟨ρ, h1, h2, h3⟩ => (hs rfl ρ h1 h2).1 h3, fun h => ⟨π, hp, rfl, h⟩⟩
  · exact ⟨fun h => h π hp rfl, fun h ρ h1 h2 => (hs rfl ρ h1 h2).2 h⟩

end UOp

theorem notIf_wf (neg : Bool) {c : Cond} : (notIf neg c).wf = true ↔ c.wf = true := by
  cases neg <;> simp [notIf, Cond.wf]
theorem notIf_state (neg : Bool) {c : Cond} : (notIf neg c).isState = true ↔ c.isState = true := by
  cases neg <;> simp [notIf, Cond.isState]
theorem notIf_sat (neg : Bool) {c : Cond} {π : Nat → Mark} : (notIf neg c).sat T π ↔ xneg neg (c.sat T π) := by
  cases neg <;> simp [notIf, Cond.sat, xneg]

theorem simpUntil_spec (hS : Setting T I Ct o Fs) (u : UOp) {v : List Nat → Bool → Cond → Option Ret} {neg : Bool}
    {c d : Cond}
    (hv1 : ∀ π r, v π false c = some r → RetOK T I Ct Fs r (fun π => c.sat T π) (c.isState = true))
    (hv2 : ∀ π r, v π false d = some r → RetOK T I Ct Fs r (fun π => d.sat T π) (d.isState = true))
    (hw : (u.mkU c d).wf = true) (h : simpUntil o n v π neg c d u.mkF u.mkU = some r) :
    RetOK T I Ct Fs r (fun π => xneg neg ((u.mkU c d).sat T π)) ((u.mkU c d).isState = true) := by
  obtain ⟨w1, w2, w3⟩ := (u.wf_mk c d).1 hw
  have hsat : ∀ ρ, (u.mkU c d).sat T ρ ↔ u.sem T (fun π => c.sat T π) (fun π => d.sat T π) ρ := fun ρ => u.sat_mk c d ρ
  unfold simpUntil at h
  cases e2 : v (0 :: π) false d with
  | none => rw [e2] at h; simp at h
  | some r2 =>
  rw [e2] at h
  simp only at h
  have hr2 := hv2 _ _ e2
  cases t1 : triv o n (1 :: π) (isB true r2.formula) r2.neglps with
  | none => rw [t1] at h; simp at h
  | some k =>
  obtain ⟨b, neg2⟩ := k
  rw [t1] at h
  obtain ⟨a1, i1, k1⟩ := trivT_spec hS hr2 t1
  cases b with
  | true =>
    simp only at h
    obtain rfl := Option.some.inj h
    refine RetOK.bool fun ρ hp hi => ?_
    have : (u.mkU c d).sat T ρ := by
      rw [hsat, u.sem_congr hS.inv (fun _ _ _ => Iff.rfl) (fun π hp hi => iff_true_intro (a1 rfl π hp hi)) hp hi]
      exact u.sem_second_true _ hp
    cases neg <;> simp [xneg, this]
  | false =>
  simp only at h
  cases t2 : triv o n (2 :: π) (isB false r2.formula) r2.lps with
  | none => rw [t2] at h; simp at h
  | some k =>
  obtain ⟨b, lps2⟩ := k
  rw [t2] at h
  obtain ⟨a2, i2, k2⟩ := trivF_spec hS hr2 t2
  cases b with
  | true =>
    simp only at h
    obtain rfl := Option.some.inj h
    refine RetOK.bool fun ρ hp hi => ?_
    have : ¬ (u.mkU c d).sat T ρ := by
      rw [hsat, u.sem_congr hS.inv (fun _ _ _ => Iff.rfl) (fun π hp hi => iff_false_intro (a2 rfl π hp hi)) hp hi]
      exact u.sem_second_false _ hp
    cases neg <;> simp [xneg, this]
  | false =>
  simp only at h
  cases e1 : v (3 :: π) false c with
  | none => rw [e1] at h; simp at h
  | some r1 =>
  rw [e1] at h
  simp only at h
  have hr1 := hv1 _ _ e1
  cases t3 : triv o n (4 :: π) (isB true r1.formula) r1.neglps with
  | none => rw [t3] at h; simp at h
  | some k =>
  obtain ⟨b, cl⟩ := k
  rw [t3] at h
  obtain ⟨a3, _⟩ := trivT_spec hS hr1 t3
  cases b with
  | true =>
    simp only at h
    obtain rfl := Option.some.inj h
    refine RetOK.of ?_ ?_ fun ρ hp hi => ?_
    · rw [notIf_wf, u.wf_F]
      exact ⟨hr2.wf, fun hc => hr2.state (w3 hc).2⟩
    · intro hs
      rw [notIf_state]
      exact (u.state_mk hs).2.1 _
    · rw [notIf_sat]
      refine xneg_congr neg ?_
      rw [hsat, u.sem_congr hS.inv (fun π hp hi => iff_true_intro (a3 rfl π hp hi)) (fun _ _ _ => Iff.rfl) hp hi,
        u.sem_first_true, u.mkF_eq, QOp.sat_mk]
      exact QOp.sem_congr hS.inv _ hr2.sat hp hi
  | false =>
  simp only at h
  cases t4 : triv o n (5 :: π) (isB false r1.formula) r1.lps with
  | none => rw [t4] at h; simp at h
  | some k =>
  obtain ⟨b, cl⟩ := k
  rw [t4] at h
  obtain ⟨a4, _⟩ := trivF_spec hS hr1 t4
  cases b with
  | true =>
    simp only at h
    have key : ∀ ρ, T.IsPath ρ → I (ρ 0) → ((u.mkU c d).sat T ρ ↔ d.sat T ρ) := by
      intro ρ hp hi
      rw [hsat, u.sem_congr hS.inv (fun π hp hi => iff_false_intro (a4 rfl π hp hi)) (fun _ _ _ => Iff.rfl) hp hi]
      exact u.sem_first_false _ hp fun hc ρ' _ h0 => Cond.sat_state T h0 d (w3 hc).2
    split at h
    · rename_i hn
      obtain rfl := Option.some.inj h
      subst hn
      refine RetOK.of (by simpa [Cond.wf] using hr2.wf) (fun hs => ?_) fun ρ hp hi => ?_
      · have := hr2.state (w3 (u.state_mk hs).2.2).2
        simpa [Cond.isState] using this
      · simp only [Cond.sat, xneg, if_true]
        rw [key ρ hp hi, hr2.sat ρ hp hi]
    · rename_i hn
      obtain rfl := Option.some.inj h
      have hn : neg = false := by cases neg <;> simp_all
      subst hn
      refine RetOK.change (P := fun π => d.sat T π) (st := d.isState = true)
        ⟨hr2.wf, hr2.state, hr2.sat, i2, i1, fun ρ x hp hi hx hP => k2 x (hS.fs _ _ hx) (hr2.pos ρ x hp hi hx hP),
         fun ρ x hp hi hx hP => k1 x (hS.fs _ _ hx) (hr2.neg ρ x hp hi hx hP)⟩
        (fun hs => (w3 (u.state_mk hs).2.2).2) fun ρ hp hi => ?_
      simp only [xneg, Bool.false_eq_true, if_false]
      exact (key ρ hp hi).symm
  | false =>
    simp only at h
    obtain rfl := Option.some.inj h
    refine RetOK.of ?_ ?_ fun ρ hp hi => ?_
    · rw [notIf_wf, u.wf_mk]
      exact ⟨hr1.wf, hr2.wf, fun hc => ⟨hr1.state (w3 hc).1, hr2.state (w3 hc).2⟩⟩
    · intro hs
      rw [notIf_state]
      exact (u.state_mk hs).1 _ _
    · rw [notIf_sat]
      refine xneg_congr neg ?_
      rw [hsat, u.sat_mk]
      exact u.sem_congr hS.inv hr1.sat hr2.sat hp hi

end Simp
end Verif
