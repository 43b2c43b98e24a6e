import Verif.LTL.SafeAutMain

/-!
# C82: the automaton-guided partial-order reduction of the LTL engine

`LTL.RedStep` are the steps of the product explored with `--ltl-por automaton` (the default), `LTL.FullStep` those of the
whole product.  `G q` are the conditions the program makes from the edges of state `q`, and `σ` is what these condition
objects contain from earlier evaluations; every statement is for arbitrary contents.
-/

namespace Verif
namespace LTLStubbornProps
open PQL Stubborn StubbornProps LTL

variable {N : FlatNet} {A : Buchi} {ap : Mark → Nat → Bool} {G : Nat → Conds} {m0 : Mark}

/-- **C82** (nets without reachable deadlocks, conditions that are steady): the reduced product has an accepting run
if and only if the whole product has one, whatever the order in which product states are explored and whatever
earlier evaluations have left.  The full statement, without `hnd` and the field `steady` of `hG`, is refuted below.
The bound on the numbers of tokens is that of the stored 32-bit numbers. -/
theorem C82_automaton_reduction_keeps_accepting_runs_partial (w : N.WF) (hd : N.DirOK)
    (hb : ∀ m, N.toNet.Reach m0 m → ∀ p, m p + 1 < W32) (hsi : A.Simple) (hG : CondsOK N A ap G m0)
    (hnd : ∀ m, N.toNet.Reach m0 m → ¬ N.toNet.Dead m) (σ : Mark → Nat → Mem) (q0 : Nat) :
    AccRun (FullStep N A ap) (fun x => A.acc x.2) (m0, q0) ↔
      AccRun (RedStep N A ap G σ) (fun x => A.acc x.2) (m0, q0) :=
  ⟨red_of_full w hd hb hsi hG hnd, full_of_red w hd hb hG hnd⟩

/-! ### Non-vacuity and findings -/

/-- A witness against unrestricted C82: there is an accepting run, but none in the reduced product.  (The conditions are
what they should be, except for being steady.) -/
structure LostRun (N : FlatNet) (A : Buchi) (ap : Mark → Nat → Bool) (G : Nat → Conds) (m0 : Mark) : Prop where
  wf : N.WF
  dir : N.DirOK
  bounded : ∀ m, N.toNet.Reach m0 m → ∀ p, m p + 1 < W32
  simple : A.Simple
  prog : ∀ m q, evaluateSet (N.deadlocked m) m (G q).prog = .ofBool (A.progB q (ap m))
  ret : ∀ m q, evaluateSet (N.deadlocked m) m (G q).ret = .ofBool (A.retB q (ap m))
  sink : ∀ q, (G q).noSink = false
  tame : ∀ q, tameCond (G q).prog = true ∧ tameCond (G q).ret = true
  full : AccRun (FullStep N A ap) (fun x => A.acc x.2) (m0, 0)
  reduced : ∀ σ, ¬ AccRun (RedStep N A ap G σ) (fun x => A.acc x.2) (m0, 0)

theorem atLeast (dl : Bool) (m : Mark) (k p : Nat) :
    evaluateSet dl m (.cmp .le (.lit k) (.id p)) = .ofBool (decide (k ≤ m p)) := by
  simp [evaluateSet, PQL.compare, evalExpr]

/-- Where only `t` is both in the set and enabled, it is fired. -/
theorem red_only {σ : Mark → Nat → Mem} {m : Mark} {q : Nat} {y : Mark × Nat} (t : Fin N.ntransitions)
    (h : RedStep N A ap G σ (m, q) y) (hs : autSet N A ap G σ m q t = true) (he : N.toNet.Enabled m t)
    (ho : ∀ u : Fin N.ntransitions, u ≠ t → autSet N A ap G σ m q u = true → ¬ N.toNet.Enabled m u) :
    y.1 = N.toNet.fire m t ∧ ∃ g, (y.2, g) ∈ A.edges q ∧ g.valid (ap y.1) = true := by
  refine ⟨?_, h.2⟩
  rcases h.1 with ⟨u, h1, h2, h3⟩ | ⟨h1, _⟩
  · by_cases hu : u = t
    · subst hu; exact h3
    · exact (ho u hu h1 h2).elim
  · exact (h1 t hs he).elim

/-- `t0` moves a token from place 0 to place 2 if there is one on place 1, `t1` takes the token of place 1, `t2` moves
a token from place 2 to place 3. -/
def reader : FlatNet where
  nplaces := 4
  ntransitions := 3
  ninvariants := 7
  transitions := [⟨0, 2⟩, ⟨4, 5⟩, ⟨5, 6⟩, ⟨7, 7⟩]
  invariants := [⟨0, 1, false, -1⟩, ⟨1, 1, false, 0⟩, ⟨1, 1, false, 0⟩, ⟨2, 1, false, 1⟩, ⟨1, 1, false, -1⟩,
    ⟨2, 1, false, -1⟩, ⟨3, 1, false, 1⟩]
  placeToPtrs := [0, 1, 2, 3, 3]
  controllable := [true, true, true]

theorem reader_wf : reader.WF where
  places_pos := by decide
  len_trans := by decide
  len_inv := by decide
  len_ptr := by decide
  ptr_zero := by decide
  ptr_mono := by decide
  ptr_last := by decide
  in_out := by decide
  out_in := by decide
  last_in := by decide
  place_lt := by decide
  tokens_pos := by decide
  tokens_lt := by decide
  pre_nodup := by decide
  post_nodup := by decide
  block := by
    intro p t h1 h2 h3 h4
    have h2 : p < 4 := h2
    have : p = 1 ∨ p = 2 ∨ p = 3 := by omega
    rcases this with rfl | rfl | rfl
    · have h3 : 1 ≤ t := h3
      have h4 : t < 2 := h4
      have : t = 1 := by omega
      subst this; decide
    · have h3 : 2 ≤ t := h3
      have h4 : t < 3 := h4
      have : t = 2 := by omega
      subst this; decide
    · have h3 : 3 ≤ t := h3
      have h4 : t < 3 := h4
      omega

theorem reader_dir : reader.DirOK := dirOK_of (by decide)

/-- The automaton with an accepting state and one edge back to it. -/
def loopOn (g : Bdd) : Buchi where
  init := 0
  edges := fun q => [(q, g)]
  acc := fun _ => true

theorem loopOn_simple (g : Bdd) : (loopOn g).Simple := fun q => by simp [loopOn]
theorem loopOn_prog (g : Bdd) (q : Nat) (v : Nat → Bool) : (loopOn g).progB q v = false := by simp [Buchi.progB, loopOn]
theorem loopOn_ret (g : Bdd) (q : Nat) (v : Nat → Bool) : (loopOn g).retB q v = g.valid v := by
  simp [Buchi.retB, loopOn]

def readerM : Mark := fun p => if p = 0 ∨ p = 1 then 1 else 0

def readerG : Nat → Conds := fun _ => ⟨.bool false, .not (.cmp .le (.lit 1) (.id 3)), false⟩

theorem reader_step {m m' : Mark} {t : Fin reader.ntransitions} (h : reader.toNet.Step m t m') :
    m' 0 + m' 1 + m' 2 + m' 3 ≤ m 0 + m 1 + m 2 + m 3 ∧ ∀ p, m' (p + 4) = m (p + 4) := by
  obtain ⟨he, rfl⟩ := h
  rcases t with ⟨t, ht⟩
  have ht : t < 3 := ht
  have : t = 0 ∨ t = 1 ∨ t = 2 := by omega
  rcases this with rfl | rfl | rfl
  · have h0 : 1 ≤ m 0 := he.1 0
    have h1 : 1 ≤ m 1 := he.1 1
    exact ⟨show m 0 - 1 + (m 1 - 1 + 1) + (m 2 + 1) + m 3 ≤ _ by omega, fun _ => rfl⟩
  · have h1 : 1 ≤ m 1 := he.1 1
    exact ⟨show m 0 + (m 1 - 1) + m 2 + m 3 ≤ _ by omega, fun _ => rfl⟩
  · have h1 : 1 ≤ m 2 := he.1 2
    exact ⟨show m 0 + m 1 + (m 2 - 1) + (m 3 + 1) ≤ _ by omega, fun _ => rfl⟩

theorem reader_inv {m : Mark} (h : reader.toNet.Reach readerM m) :
    m 0 + m 1 + m 2 + m 3 ≤ 2 ∧ ∀ p, m (p + 4) = 0 := by
  have key : ∀ (a b : Mark) us, reader.toNet.Run a us b → (a 0 + a 1 + a 2 + a 3 ≤ 2 ∧ ∀ p, a (p + 4) = 0) →
      b 0 + b 1 + b 2 + b 3 ≤ 2 ∧ ∀ p, b (p + 4) = 0 := by
    intro a b us hr
    induction hr with
    | nil => exact id
    | cons hs _ ih =>
      rintro ⟨h1, h2⟩
      obtain ⟨h4, h5⟩ := reader_step hs
      exact ih ⟨by omega, fun p => (h5 p).trans (h2 p)⟩
  obtain ⟨us, hr⟩ := h
  exact key _ _ us hr ⟨by decide, fun p => by simp [readerM]⟩

/-- what the variables of the guards stand for -/
def readerAp : Mark → Nat → Bool := fun m _ => decide (1 ≤ m 3)

/-- `G ¬(1 ≤ p3)`, the negation of the query `A F (1 ≤ p3)` -/
def readerA : Buchi := loopOn (.node 0 (.leaf true) (.leaf false))

/-- the transitions of `reader` -/
def rt (k : Nat) (h : k < 3) : Fin reader.ntransitions := ⟨k, h⟩

/-- the marking after `t0` -/
def reader1 : Mark := reader.toNet.fire readerM (rt 0 (by decide))
/-- the marking after `t0` and `t1` -/
def reader2 : Mark := reader.toNet.fire reader1 (rt 1 (by decide))
/-- the marking after `t1` -/
def reader3 : Mark := reader.toNet.fire readerM (rt 1 (by decide))

theorem reader_cases {P : Fin reader.ntransitions → Prop} (h0 : P (rt 0 (by decide))) (h1 : P (rt 1 (by decide)))
    (h2 : P (rt 2 (by decide))) : ∀ t, P t := by
  rintro ⟨t, ht⟩
  have ht' : t < 3 := ht
  have : t = 0 ∨ t = 1 ∨ t = 2 := by omega
  rcases this with rfl | rfl | rfl
  · exact h0
  · exact h1
  · exact h2

theorem reader_en {m : Mark} {t : Fin reader.ntransitions} (h : reader.checkPreset m t = true) : reader.toNet.Enabled m t :=
  (FlatNet.checkPreset_iff reader_wf m t).1 h

theorem reader_dis {m : Mark} {t : Fin reader.ntransitions} (h : reader.checkPreset m t = false) : ¬ reader.toNet.Enabled m t :=
  fun he => by rw [(FlatNet.checkPreset_iff reader_wf m t).2 he] at h; cases h

theorem reader_edge {y : Mark × Nat} {q : Nat} (h : ∃ g, (y.2, g) ∈ readerA.edges q ∧ g.valid (readerAp y.1) = true) :
    y.2 = q ∧ y.1 3 = 0 := by
  obtain ⟨g, hg, hv⟩ := h
  have hg : (y.2, g) ∈ [(q, Bdd.node 0 (.leaf true) (.leaf false))] := hg
  simp only [List.mem_singleton, Prod.mk.injEq] at hg
  obtain ⟨h1, rfl⟩ := hg
  refine ⟨h1, ?_⟩
  by_cases h3 : 1 ≤ y.1 3
  · simp [Bdd.valid, readerAp, h3] at hv
  · omega

/-- **Finding F125** (SafeAutStubbornSet.cpp:24-88, used by default): the reduction does not keep deadlocks, though
the last marking of a finite run is repeated.  For the query `A F (1 ≤ p3)` and the net `reader`, `t1` leads to a
deadlock with no token on place 3, so that the query is not satisfied.  In the initial marking the reduced
product fires `t0` only; from there on every run ends with a token on place 3, and the query is found to be
satisfied. -/
theorem C82_finding_deadlock : LostRun reader readerA readerAp readerG readerM where
  wf := reader_wf
  dir := reader_dir
  bounded := by
    intro m hr p
    obtain ⟨h1, h2⟩ := reader_inv hr
    have hW : W32 = 4294967296 := rfl
    have : p = 0 ∨ p = 1 ∨ p = 2 ∨ p = 3 ∨ ∃ q, p = q + 4 := by
      by_cases h : 4 ≤ p
      · exact .inr (.inr (.inr (.inr ⟨p - 4, by omega⟩)))
      · omega
    rcases this with rfl | rfl | rfl | rfl | ⟨q, rfl⟩
    · omega
    · omega
    · omega
    · omega
    · rw [h2]; omega
  simple := loopOn_simple _
  prog := fun m q => by
    show _ = Res.ofBool (readerA.progB q (readerAp m))
    rw [show readerA.progB q (readerAp m) = false from loopOn_prog _ _ _]; rfl
  ret := fun m q => by
    rw [show readerA.retB q (readerAp m) = _ from loopOn_ret _ _ _]
    show (evaluateSet _ m (.cmp .le (.lit (1 : Nat)) (.id 3))).neg = Res.ofBool _
    rw [atLeast]
    by_cases h : 1 ≤ m 3 <;> simp [Bdd.valid, readerAp, h, Res.ofBool, Res.neg]
  sink := fun _ => rfl
  tame := fun _ => ⟨rfl, rfl⟩
  full := by
    refine ⟨fun n => if n = 0 then (readerM, 0) else (reader3, 0), rfl, fun n => ?_, fun n => ⟨n, Nat.le_refl _, rfl⟩⟩
    cases n with
    | zero => exact ⟨.inl ⟨rt 1 (by decide), reader_en rfl, rfl⟩, _, List.mem_singleton.2 rfl, rfl⟩
    | succ n =>
      refine ⟨.inr ⟨?_, rfl⟩, _, List.mem_singleton.2 rfl, rfl⟩
      exact reader_cases (reader_dis rfl) (reader_dis rfl) (reader_dis rfl)
  reduced := by
    rintro σ ⟨r, hr0, hr, -⟩
    have a0 := hr 0
    rw [hr0] at a0
    obtain ⟨b0, c0⟩ := red_only (rt 0 (by decide)) a0 rfl (reader_en rfl)
      (reader_cases (fun h => (h rfl).elim) (fun _ h => by cases h) (fun _ _ => reader_dis rfl))
    have e1 : r 1 = (reader1, 0) := Prod.ext b0 (reader_edge c0).1
    have a1 := hr 1
    rw [e1] at a1
    obtain ⟨b1, c1⟩ := red_only (rt 1 (by decide)) a1 rfl (reader_en rfl)
      (reader_cases (fun _ _ => reader_dis rfl) (fun h => (h rfl).elim) (fun _ h => by cases h))
    have e2 : r 2 = (reader2, 0) := Prod.ext b1 (reader_edge c1).1
    have a2 := hr 2
    rw [e2] at a2
    obtain ⟨b2, c2⟩ := red_only (rt 2 (by decide)) a2 rfl (reader_en rfl)
      (reader_cases (fun _ _ => reader_dis rfl) (fun _ _ => reader_dis rfl) (fun h => (h rfl).elim))
    have := (reader_edge c2).2
    rw [b2] at this
    cases this

/-- `t0` moves a token from place 0 to place 3, `t1` from place 1 to place 2, `t2` from place 2 to place 4, and `t3` changes
nothing, but needs tokens on the places 3 and 4. -/
def race : FlatNet where
  nplaces := 5
  ntransitions := 4
  ninvariants := 10
  transitions := [⟨0, 1⟩, ⟨2, 3⟩, ⟨4, 5⟩, ⟨6, 8⟩, ⟨10, 10⟩]
  invariants := [⟨0, 1, false, -1⟩, ⟨3, 1, false, 1⟩, ⟨1, 1, false, -1⟩, ⟨2, 1, false, 1⟩, ⟨2, 1, false, -1⟩, ⟨4, 1, false, 1⟩,
    ⟨3, 1, false, 0⟩, ⟨4, 1, false, 0⟩, ⟨3, 1, false, 0⟩, ⟨4, 1, false, 0⟩]
  placeToPtrs := [0, 1, 2, 3, 4, 4]
  controllable := [true, true, true, true]

theorem race_wf : race.WF where
  places_pos := by decide
  len_trans := by decide
  len_inv := by decide
  len_ptr := by decide
  ptr_zero := by decide
  ptr_mono := by decide
  ptr_last := by decide
  in_out := by decide
  out_in := by decide
  last_in := by decide
  place_lt := by decide
  tokens_pos := by decide
  tokens_lt := by decide
  pre_nodup := by decide
  post_nodup := by decide
  block := by
    intro p t h1 h2 h3 h4
    have h2 : p < 5 := h2
    have : p = 1 ∨ p = 2 ∨ p = 3 ∨ p = 4 := by omega
    rcases this with rfl | rfl | rfl | rfl
    · have h3 : 1 ≤ t := h3
      have h4 : t < 2 := h4
      have : t = 1 := by omega
      subst this; decide
    · have h3 : 2 ≤ t := h3
      have h4 : t < 3 := h4
      have : t = 2 := by omega
      subst this; decide
    · have h3 : 3 ≤ t := h3
      have h4 : t < 4 := h4
      have : t = 3 := by omega
      subst this; decide
    · have h3 : 4 ≤ t := h3
      have h4 : t < 4 := h4
      omega

theorem race_dir : race.DirOK := dirOK_of (by decide)

def raceM : Mark := fun p => if p = 0 ∨ p = 1 then 1 else 0

/-- the transitions of `race` -/
def ct (k : Nat) (h : k < 4) : Fin race.ntransitions := ⟨k, h⟩

theorem race_cases {P : Fin race.ntransitions → Prop} (h0 : P (ct 0 (by decide))) (h1 : P (ct 1 (by decide)))
    (h2 : P (ct 2 (by decide))) (h3 : P (ct 3 (by decide))) : ∀ t, P t := by
  rintro ⟨t, ht⟩
  have ht' : t < 4 := ht
  have : t = 0 ∨ t = 1 ∨ t = 2 ∨ t = 3 := by omega
  rcases this with rfl | rfl | rfl | rfl
  · exact h0
  · exact h1
  · exact h2
  · exact h3

theorem race_en {m : Mark} {t : Fin race.ntransitions} (h : race.checkPreset m t = true) : race.toNet.Enabled m t :=
  (FlatNet.checkPreset_iff race_wf m t).1 h

theorem race_dis {m : Mark} {t : Fin race.ntransitions} (h : race.checkPreset m t = false) : ¬ race.toNet.Enabled m t :=
  fun he => by rw [(FlatNet.checkPreset_iff race_wf m t).2 he] at h; cases h

/-- What never changes. -/
def RaceInv (m : Mark) : Prop := m 0 + m 3 = 1 ∧ m 1 + m 2 + m 4 = 1 ∧ ∀ p, m (p + 5) = 0

theorem race_step {m m' : Mark} {t : Fin race.ntransitions} (h : race.toNet.Step m t m') (hi : RaceInv m) : RaceInv m' := by
  obtain ⟨he, rfl⟩ := h
  obtain ⟨i1, i2, i3⟩ := hi
  revert he
  refine race_cases (P := fun t => race.toNet.Enabled m t → RaceInv (race.toNet.fire m t)) ?_ ?_ ?_ ?_ t
  · intro he
    have h0 : 1 ≤ m 0 := he.1 0
    exact ⟨show m 0 - 1 + (m 3 + 1) = 1 by omega, i2, i3⟩
  · intro he
    have h0 : 1 ≤ m 1 := he.1 1
    exact ⟨i1, show m 1 - 1 + (m 2 + 1) + m 4 = 1 by omega, i3⟩
  · intro he
    have h0 : 1 ≤ m 2 := he.1 2
    exact ⟨i1, show m 1 + (m 2 - 1) + (m 4 + 1) = 1 by omega, i3⟩
  · intro he
    have h0 : 1 ≤ m 3 := he.1 3
    have h1 : 1 ≤ m 4 := he.1 4
    exact ⟨show m 0 + (m 3 - 1 + 1) = 1 by omega, show m 1 + m 2 + (m 4 - 1 + 1) = 1 by omega, i3⟩

theorem race_inv {m : Mark} (h : race.toNet.Reach raceM m) : RaceInv m := by
  have key : ∀ (a b : Mark) us, race.toNet.Run a us b → RaceInv a → RaceInv b := by
    intro a b us hr
    induction hr with
    | nil => exact id
    | cons hs _ ih => exact fun h => ih (race_step hs h)
  obtain ⟨us, hr⟩ := h
  exact key _ _ us hr ⟨rfl, rfl, fun p => by simp [raceM]⟩

theorem race_bounded (m : Mark) (h : race.toNet.Reach raceM m) (p : Nat) : m p ≤ 1 := by
  obtain ⟨h1, h2, h3⟩ := race_inv h
  have : p = 0 ∨ p = 1 ∨ p = 2 ∨ p = 3 ∨ p = 4 ∨ ∃ q, p = q + 5 := by
    by_cases h : 5 ≤ p
    · exact .inr (.inr (.inr (.inr (.inr ⟨p - 5, by omega⟩))))
    · omega
  rcases this with rfl | rfl | rfl | rfl | rfl | ⟨q, rfl⟩
  · omega
  · omega
  · omega
  · omega
  · omega
  · rw [h3]; omega

theorem race_live (m : Mark) (h : race.toNet.Reach raceM m) : ¬ race.toNet.Dead m := by
  intro hd
  obtain ⟨h1, h2, h3⟩ := race_inv h
  have en : ∀ (t : Fin race.ntransitions) p, race.preset t = [⟨p, 1, false, -1⟩] → m p = 0 := fun t p ht =>
    Classical.byContradiction fun h0 => hd t (race_en (by
      have h1 : ¬ m p < 1 := by omega
      show FlatNet.checkInvs m (race.preset t) = true
      rw [ht]
      unfold FlatNet.checkInvs
      rw [if_neg h1]; rfl))
  have e0 := en (ct 0 (by decide)) 0 rfl
  have e1 := en (ct 1 (by decide)) 1 rfl
  have e2 := en (ct 2 (by decide)) 2 rfl
  refine hd (ct 3 (by decide)) (race_en ?_)
  show FlatNet.checkInvs m [⟨3, 1, false, 0⟩, ⟨4, 1, false, 0⟩] = true
  have e3 : m 3 = 1 := by omega
  have e4 : m 4 = 1 := by omega
  simp [FlatNet.checkInvs, e3, e4]

/-- what the variables of the guards stand for -/
def raceAp : Mark → Nat → Bool := fun m x => if x = 0 then decide (1 ≤ m 2) else decide (1 ≤ m 3)

/-- `G ¬(1 ≤ p2 ∧ 1 ≤ p3)`, the negation of the query `A F (1 ≤ p2 ∧ 1 ≤ p3)` -/
def raceA : Buchi := loopOn (.node 0 (.leaf true) (.node 1 (.leaf true) (.leaf false)))

def raceG : Nat → Conds := fun _ =>
  ⟨.bool false, .or [.not (.cmp .le (.lit 1) (.id 2)), .not (.cmp .le (.lit 1) (.id 3))], false⟩

theorem race_edge {y : Mark × Nat} {q : Nat} (h : ∃ g, (y.2, g) ∈ raceA.edges q ∧ g.valid (raceAp y.1) = true) :
    y.2 = q ∧ ¬ (1 ≤ y.1 2 ∧ 1 ≤ y.1 3) := by
  obtain ⟨g, hg, hv⟩ := h
  have hg : (y.2, g) ∈ [(q, Bdd.node 0 (.leaf true) (.node 1 (.leaf true) (.leaf false)))] := hg
  simp only [List.mem_singleton, Prod.mk.injEq] at hg
  obtain ⟨h1, rfl⟩ := hg
  refine ⟨h1, fun h3 => ?_⟩
  simp [Bdd.valid, raceAp, h3.1, h3.2] at hv

/-- the markings of the run `t1`, `t2`, `t0`, `t3`, `t3`, … -/
def raceRun : Nat → Mark
  | 0 => raceM
  | 1 => race.toNet.fire raceM (ct 1 (by decide))
  | 2 => race.toNet.fire (race.toNet.fire raceM (ct 1 (by decide))) (ct 2 (by decide))
  | n + 3 => fun p => if p = 3 ∨ p = 4 then 1 else 0

theorem raceRun_step (n : Nat) : ∃ t, race.toNet.Step (raceRun n) t (raceRun (n + 1)) := by
  match n with
  | 0 => exact ⟨ct 1 (by decide), race_en rfl, rfl⟩
  | 1 => exact ⟨ct 2 (by decide), race_en rfl, rfl⟩
  | 2 =>
    refine ⟨ct 0 (by decide), race_en rfl, funext fun p => ?_⟩
    match p with
    | 0 => rfl
    | 1 => rfl
    | 2 => rfl
    | 3 => rfl
    | 4 => rfl
    | p + 5 => rfl
  | n + 3 =>
    refine ⟨ct 3 (by decide), race_en rfl, funext fun p => ?_⟩
    match p with
    | 0 => rfl
    | 1 => rfl
    | 2 => rfl
    | 3 => rfl
    | 4 => rfl
    | p + 5 => rfl

theorem raceRun_full {g : Bdd} {ap : Mark → Nat → Bool} (h : ∀ n, g.valid (ap (raceRun n)) = true) :
    AccRun (FullStep race (loopOn g) ap) (fun x => (loopOn g).acc x.2) (raceM, 0) :=
  ⟨fun n => (raceRun n, 0), rfl, fun n => ⟨.inl (raceRun_step n), g, List.mem_singleton.2 rfl, h (n + 1)⟩,
    fun n => ⟨n, Nat.le_refl _, rfl⟩⟩

/-- **Finding F126** (InterestingTransitionVisitor.cpp:366-426 for the sink condition,
SafeAutStubbornSet.cpp:47-55): of a conjunction that is to stay false only the first false operand is looked
at, which another transition may make true.  For the query `A F (1 ≤ p2 ∧ 1 ≤ p3)` and the net `race`, the run
`t1 t2 t0 t3 t3 …` avoids the goal, and there are no deadlocks.  The reduced product fires `t0` first, and then
`t1` reaches the goal: the query is found to be satisfied. -/
theorem C82_finding_conjunction : LostRun race raceA raceAp raceG raceM ∧
    ∀ m, race.toNet.Reach raceM m → ¬ race.toNet.Dead m := by
  refine ⟨?_, race_live⟩
  exact {
    wf := race_wf
    dir := race_dir
    bounded := fun m hr p => by have := race_bounded m hr p; have hW : W32 = 4294967296 := rfl; omega
    simple := loopOn_simple _
    prog := fun m q => by rw [show raceA.progB q (raceAp m) = false from loopOn_prog _ _ _]; rfl
    ret := fun m q => by
      rw [show raceA.retB q (raceAp m) = _ from loopOn_ret _ _ _]
      have h2 := atLeast (race.deadlocked m) m 1 2
      have h3 := atLeast (race.deadlocked m) m 1 3
      simp only [Nat.cast_one] at h2 h3
      show evalOrSet _ m .rFalse [_, _] = _
      simp only [evalOrSet, evaluateSet]
      simp only [evaluateSet] at h2 h3
      simp only [h2, h3]
      by_cases a : 1 ≤ m 2 <;> by_cases b : 1 ≤ m 3 <;> simp [Bdd.valid, raceAp, a, b, Res.ofBool, Res.neg]
    sink := fun _ => rfl
    tame := fun _ => ⟨rfl, rfl⟩
    full := raceRun_full fun n => by
      match n with
      | 0 => rfl
      | 1 => rfl
      | 2 => rfl
      | n + 3 => rfl
    reduced := by
      rintro σ ⟨r, hr0, hr, -⟩
      have a0 := hr 0
      rw [hr0] at a0
      obtain ⟨b0, c0⟩ := red_only (ct 0 (by decide)) a0 rfl (race_en rfl)
        (race_cases (fun h => (h rfl).elim) (fun _ h => by cases h) (fun _ _ => race_dis rfl) (fun _ _ => race_dis rfl))
      have e1 : r 1 = (race.toNet.fire raceM (ct 0 (by decide)), 0) := Prod.ext b0 (race_edge c0).1
      have a1 := hr 1
      rw [e1] at a1
      obtain ⟨b1, c1⟩ := red_only (ct 1 (by decide)) a1 rfl (race_en rfl)
        (race_cases (fun _ _ => race_dis rfl) (fun h => (h rfl).elim) (fun _ _ => race_dis rfl) (fun _ _ => race_dis rfl))
      have := (race_edge c1).2
      rw [b1] at this
      exact this ⟨Nat.le_refl _, Nat.le_refl _⟩ }

/-! Non-vacuity of C82: on `race`, for the query `A F (2 ≤ p2)`, all hypotheses hold, there is an accepting run, and the
initial marking has two enabled transitions, of which the reduced product fires one. -/

def raceAp2 : Mark → Nat → Bool := fun m _ => decide (2 ≤ m 2)
def raceA2 : Buchi := loopOn (.node 0 (.leaf true) (.leaf false))
def raceG2 : Nat → Conds := fun _ => ⟨.bool false, .not (.cmp .le (.lit 2) (.id 2)), false⟩

theorem race_conds : CondsOK race raceA2 raceAp2 raceG2 raceM where
  prog := fun m _ q => by rw [show raceA2.progB q (raceAp2 m) = false from loopOn_prog _ _ _]; rfl
  ret := fun m _ q => by
    rw [show raceA2.retB q (raceAp2 m) = _ from loopOn_ret _ _ _]
    show (evaluateSet _ m (.cmp .le (.lit (2 : Nat)) (.id 2))).neg = Res.ofBool _
    rw [atLeast]
    by_cases h : 2 ≤ m 2 <;> simp [Bdd.valid, raceAp2, h, Res.ofBool, Res.neg]
  noSink := fun _ _ _ h => by cases h
  tameP := fun _ => rfl
  tameR := fun _ => rfl
  fitP := fun _ _ _ => trivial
  fitR := fun m hr _ => by
    have := race_bounded m hr 2
    show Stubborn.Int32 (2 : Int) ∧ Stubborn.Int32 ((m 2 : Nat) : Int)
    unfold Stubborn.Int32; omega
  steady := fun _ => .inr rfl

example (σ : Mark → Nat → Mem) : AccRun (RedStep race raceA2 raceAp2 raceG2 σ) (fun x => raceA2.acc x.2) (raceM, 0) :=
  (C82_automaton_reduction_keeps_accepting_runs_partial race_wf race_dir
    (fun m hr p => by have := race_bounded m hr p; have hW : W32 = 4294967296 := rfl; omega) (loopOn_simple _) race_conds
    race_live σ 0).1 (raceRun_full fun n => by
      match n with
      | 0 => rfl
      | 1 => rfl
      | 2 => rfl
      | n + 3 => rfl)

example (σ : Mark → Nat → Mem) : ordering race raceM = [0, 1] ∧
    ((List.range 4).map (autSet race raceA2 raceAp2 raceG2 σ raceM 0)) = [true, false, false, false] := ⟨rfl, rfl⟩

/-- **C82**: the visitor for unsafe transitions goes by the stored result of a comparison, whatever the negations around it: one that
holds is treated as one to be made false. -/
theorem C82_comparisons_turned (neg : Bool) (r : Res) : Cx.lneg neg r = decide (r = .rTrue) := by
  cases neg <;> cases r <;> rfl

end LTLStubbornProps
end Verif
