import Verif.Synthesis.Term
import Verif.Synthesis.Strategy
import Verif.CTL.EncodeNet

/-! # Synthesis on a net -/

namespace Verif
namespace Synth
open PQL CTL

/-- models src/PetriEngine/Synthesis/SimpleSynthesis.cpp:61-101 (`get_predicate`): whether the objective is
safety, and the predicate; `none`: the exception.  `neg` stands for `pushNegation` of the negation. -/
def getPredicate (neg : Cond → Cond) : Cond → Option (Bool × Cond)
  | .A (.F c) => some (false, c)
  | .A (.G c) => some (true, c)
  | .AG c => some (true, c)
  | .AF c => some (false, c)
  | .not (.EF c) => some (true, neg c)
  | .not (.EG c) => some (false, neg c)
  | .not (.E (.F c)) => some (true, neg c)
  | .not (.E (.G c)) => some (false, neg c)
  | _ => none

/-- include/PetriEngine/PetriNet.h: `controllable(t)`. -/
def _root_.Verif.FlatNet.isCtrl (N : FlatNet) (t : Nat) : Bool := N.controllable.getD t true

/-- The game a run works on: the successors written by `next_env` and `next_ctrl`
(include/PetriEngine/Synthesis/GameSuccessorGenerator.h:28-42), `check_bound`
(src/PetriEngine/Synthesis/SimpleSynthesis.cpp:186-196; the sum of 32-bit values over fewer than 2^32 places
does not wrap in 64 bits) and `eval` (:198-202). -/
def netGame (N : FlatNet) (k : Nat) (safety permissive : Bool) (pick : Nat → List (List Nat) → Nat) (φ : Cond) :
    Game (List Nat) where
  env l := (N.succGen (fun t => !N.isCtrl t) (toMark l)).1.map fun x => ofMark N.nplaces x.2
  ctrl l := (N.succGen N.isCtrl (toMark l)).1.map fun x => ofMark N.nplaces x.2
  over l := decide (0 < k) && decide (k < l.sum)
  goal l := decide (evaluate (N.deadlocked (toMark l)) (toMark l) φ = .rTrue)
  safety := safety
  permissive := permissive
  pick := pick

/-- What `synthesize` returns. -/
inductive Out
  | error
  | result (b : Bool)
deriving DecidableEq, Repr

/-- models src/PetriEngine/Synthesis/SimpleSynthesis.cpp:103-121 (`synthesize`) for the operand `q` of the
`control` condition; `k` is the bound, `l0` the initial marking; `none`: not finished within `fuel` steps. -/
def synthesize (N : FlatNet) (neg : Cond → Cond) (k : Nat) (permissive : Bool)
    (pick : Nat → List (List Nat) → Nat) (q : Cond) (l0 : List Nat) (fuel : Nat) : Option Out :=
  match getPredicate neg q with
  | none => some .error
  | some (safety, φ) =>
    if φ.isTemporal then some .error
    else (run (netGame N k safety permissive pick φ) l0 fuel).map .result

/-! ### Specification -/

/-- The tokens in a marking. -/
def tokens (N : FlatNet) (m : Mark) : Nat := ((List.range N.nplaces).map m).sum

/-- The marking is within the bound (0: no bound). -/
def Within (N : FlatNet) (k : Nat) (m : Mark) : Prop := k = 0 ∨ tokens N m ≤ k

/-- The game on the markings of a net. -/
def arena (N : FlatNet) (k : Nat) (φ : Cond) : Arena (List Nat) where
  env l l' := l'.length = N.nplaces ∧ ∃ t : Fin N.ntransitions, N.isCtrl t = false ∧
    N.toNet.Step (toMark l) t (toMark l')
  ctrl l l' := l'.length = N.nplaces ∧ ∃ t : Fin N.ntransitions, N.isCtrl t = true ∧
    N.toNet.Step (toMark l) t (toMark l')
  lost l := ¬ Within N k (toMark l)
  goal l := Sat N.ts (toMark l) φ

/-- A marking whose value the search may ask for: the initial one or a successor of one reached within the
bound. -/
def Seen (N : FlatNet) (k : Nat) (m0 m : Mark) : Prop :=
  m = m0 ∨ ∃ ts m' t, N.toNet.RunWithin (Within N k) m0 ts m' ∧ N.toNet.Step m' t m

/-- No marking seen comes near the largest 32-bit value. -/
def SmallWithin (N : FlatNet) (k : Nat) (m0 : Mark) : Prop :=
  ∀ m, Seen N k m0 m → ∀ p, p < N.nplaces → m p < W32 - 1

/-- In the markings seen that satisfy the predicate, a controllable transition without effect is only
enabled together with environment transitions without effect. -/
def NoIdle (N : FlatNet) (k : Nat) (m0 : Mark) (φ : Cond) : Prop :=
  ∀ m, Seen N k m0 m → Within N k m → Sat N.ts m φ →
    (∃ t : Fin N.ntransitions, N.isCtrl t = true ∧ N.toNet.Step m t m) →
    ∀ (t : Fin N.ntransitions) m', N.isCtrl t = false → N.toNet.Step m t m' → m' = m

/-! ### The game of the model is the game of the specification -/

theorem succGen_ok' {N : FlatNet} (w : N.WF) (pred : Nat → Bool) {m : Mark} (hm : ∀ p, p < N.nplaces → m p < W32)
    (hs : ∀ t m', N.toNet.Step m t m' → ∀ p, p < N.nplaces → m' p < W32 - 1) :
    (N.succGen pred m).2 = false := by
  have hen := FlatNet.genList_enum N m pred (N.ntransitions + 1) FlatNet.genInit
  unfold FlatNet.succGen
  rcases FlatNet.enumFrom_fuel w m pred (N.ntransitions + 1) FlatNet.genInit (FlatNet.genInit_ok w)
    (by omega) with ⟨l, hl⟩ | ⟨_, t, ht, hc, _, hf⟩
  · rw [hl] at hen
    simp only at hen
    rw [hen]
  · have he := (FlatNet.checkPreset_iff w m ⟨t, ht⟩).1 hc
    have := FlatNet.fire_spec w m hm ⟨t, ht⟩ he
    simp only [hf] at this
    obtain ⟨p, hp, hx⟩ := this
    have := hs ⟨t, ht⟩ _ ⟨he, rfl⟩ p hp
    omega

theorem ofMark_toMark {n : Nat} {l : List Nat} (h : l.length = n) : ofMark n (toMark l) = l := by
  refine List.ext_getElem (by simp [ofMark, h]) fun i h1 h2 => ?_
  simp [ofMark, toMark, List.getD, List.getElem?_eq_getElem h2]

theorem sum_eq {N : FlatNet} {l : List Nat} (h : l.length = N.nplaces) : l.sum = tokens N (toMark l) := by
  have := ofMark_toMark h
  unfold tokens
  unfold ofMark at this
  rw [this]

theorem over_iff {N : FlatNet} {k : Nat} {s p : Bool} {pick φ} {l : List Nat} (h : l.length = N.nplaces) :
    (netGame N k s p pick φ).over l = true ↔ ¬ Within N k (toMark l) := by
  simp only [netGame, Within, Bool.and_eq_true, decide_eq_true_eq, sum_eq h]
  omega

theorem not_over_iff {N : FlatNet} {k : Nat} {s p : Bool} {pick φ} {l : List Nat} (h : l.length = N.nplaces) :
    (netGame N k s p pick φ).over l = false ↔ Within N k (toMark l) := by
  have := over_iff (s := s) (p := p) (pick := pick) (φ := φ) (k := k) h
  cases hh : (netGame N k s p pick φ).over l with
  | false =>
    rw [hh] at this
    simp only [Bool.false_eq_true, false_iff, Classical.not_not] at this
    simp [this]
  | true =>
    rw [hh] at this
    simp only [true_iff] at this
    simp [this]

theorem goal_iff {N : FlatNet} (w : N.WF) {k : Nat} {s p : Bool} {pick φ} {l : List Nat} (hφ : φ.isTemporal = false) :
    (netGame N k s p pick φ).goal l = true ↔ Sat N.ts (toMark l) φ := by
  simp only [netGame, decide_eq_true_eq]
  constructor
  · intro h π hπ h0
    exact (EvalProps.C15_predicate_evaluation N w _ φ hφ π hπ h0).1.1 h
  · intro h
    obtain ⟨π, hπ, h0⟩ := EvalProps.C15_paths_exist N (toMark l)
    exact (EvalProps.C15_predicate_evaluation N w _ φ hφ π hπ h0).1.2 (h π hπ h0)

/-- The stored markings seen. -/
def SeenL (N : FlatNet) (k : Nat) (m0 : Mark) (l : List Nat) : Prop :=
  l.length = N.nplaces ∧ Seen N k m0 (toMark l)

theorem seen_run {N : FlatNet} {k : Nat} {m0 m : Mark} (h : Seen N k m0 m) (hw : Within N k m) :
    ∃ ts, N.toNet.RunWithin (Within N k) m0 ts m := by
  rcases h with rfl | ⟨ts, m', t, hr, hs⟩
  · exact ⟨[], .nil hw⟩
  · exact ⟨ts ++ [t], hr.snoc _ hs hw⟩

theorem list_agrees {N : FlatNet} (w : N.WF) {k : Nat} {m0 : Mark} (hsm : SmallWithin N k m0) (pred : Nat → Bool)
    {l : List Nat} (hl : SeenL N k m0 l) (hw : Within N k (toMark l)) (x : List Nat) :
    (x ∈ (N.succGen pred (toMark l)).1.map (fun x => ofMark N.nplaces x.2) ↔
      x.length = N.nplaces ∧ ∃ t : Fin N.ntransitions, pred t = true ∧ N.toNet.Step (toMark l) t (toMark x)) ∧
    (x ∈ (N.succGen pred (toMark l)).1.map (fun x => ofMark N.nplaces x.2) → SeenL N k m0 x) := by
  obtain ⟨ts, hrun⟩ := seen_run hl.2 hw
  have hb : ∀ p, p < N.nplaces → toMark l p < W32 := fun p hp => by
    have := hsm _ hl.2 p hp; omega
  have hno : (N.succGen pred (toMark l)).2 = false := succGen_ok' w pred hb fun t m' h p hp =>
    hsm m' (Or.inr ⟨ts, _, t, hrun, h⟩) p hp
  have tl : ∀ {t m'}, N.toNet.Step (toMark l) t m' → toMark (ofMark N.nplaces m') = m' := fun hst =>
    toMark_ofMark fun p hp => by
      rw [FlatNet.step_tail w hst p hp]
      exact toMark_tail (by rw [hl.1]; exact hp)
  constructor
  · simp only [List.mem_map]
    constructor
    · rintro ⟨y, hy, rfl⟩
      obtain ⟨t, _, hp, hst, _⟩ := FlatNet.succGen_step w _ hb hy
      refine ⟨by simp [ofMark], t, hp, ?_⟩
      rw [tl hst]; exact hst
    · rintro ⟨hx, t, hp, hst⟩
      exact ⟨_, FlatNet.succGen_complete w pred hb hno hp hst, ofMark_toMark hx⟩
  · simp only [List.mem_map]
    rintro ⟨y, hy, rfl⟩
    obtain ⟨t, _, hp, hst, _⟩ := FlatNet.succGen_step w _ hb hy
    refine ⟨by simp [ofMark], Or.inr ⟨ts, _, t, hrun, ?_⟩⟩
    rw [tl hst]; exact hst

theorem net_agrees {N : FlatNet} (w : N.WF) {k : Nat} {m0 : Mark} (hsm : SmallWithin N k m0) {s p : Bool} {pick}
    {φ : Cond} (hφ : φ.isTemporal = false) :
    Agrees (netGame N k s p pick φ) (arena N k φ) (SeenL N k m0) where
  env l hl ho x := by
    have := (list_agrees w hsm (fun t => !N.isCtrl t) hl ((not_over_iff hl.1).1 ho) x).1
    simp only [Bool.not_eq_true'] at this
    exact this
  ctrl l hl ho x := (list_agrees w hsm N.isCtrl hl ((not_over_iff hl.1).1 ho) x).1
  envS l hl ho x := (list_agrees w hsm (fun t => !N.isCtrl t) hl ((not_over_iff hl.1).1 ho) x).2
  ctrlS l hl ho x := (list_agrees w hsm N.isCtrl hl ((not_over_iff hl.1).1 ho) x).2
  lost l hl := over_iff hl.1
  goal l _ := goal_iff w hφ

theorem reach_seen {σ : Type} {G : Game σ} {A : Arena σ} {S : σ → Prop} (hA : Agrees G A S) {m0 : σ} (h0 : S m0)
    {s : σ} (h : G.Reach m0 s) : S s := by
  induction h with
  | refl => exact h0
  | env _ ho he ih => exact hA.envS _ ih ho _ he
  | ctrl _ ho he ih => exact hA.ctrlS _ ih ho _ he

theorem net_noIdle {N : FlatNet} (w : N.WF) {k : Nat} {m0 : Mark} (hsm : SmallWithin N k m0) {s p : Bool} {pick}
    {φ : Cond} (hφ : φ.isTemporal = false) {l0 : List Nat} (hl0 : SeenL N k m0 l0)
    (hi : s = true → p = false → NoIdle N k m0 φ) : (netGame N k s p pick φ).NoIdle l0 := by
  intro hs hp l hr ho hg hc e he
  have hA := net_agrees w hsm (s := s) (p := p) (pick := pick) hφ
  have hl := reach_seen hA hl0 hr
  obtain ⟨_, t, ht, hst⟩ := (hA.ctrl l hl ho l).1 hc
  obtain ⟨hle, t', ht', hst'⟩ := (hA.env l hl ho e).1 he
  have := hi hs hp (toMark l) hl.2 ((not_over_iff hl.1).1 ho) ((goal_iff w hφ).1 hg) ⟨t, ht, hst⟩ t' _ ht' hst'
  exact toMark_inj (hle.trans hl.1.symm) this

/-! ### Termination -/

/-- All lists of length `n` with entries up to `k`. -/
def boxes (k : Nat) : Nat → List (List Nat)
  | 0 => [[]]
  | n + 1 => (List.range (k + 1)).flatMap fun a => (boxes k n).map fun l => a :: l

theorem mem_boxes {k : Nat} : ∀ {l : List Nat}, l.sum ≤ k → l ∈ boxes k l.length
  | [], _ => by simp [boxes]
  | a :: l, h => by
    rw [List.sum_cons] at h
    simp only [List.length_cons, boxes, List.mem_flatMap, List.mem_range, List.mem_map]
    exact ⟨a, by omega, l, mem_boxes (by omega), rfl⟩

theorem net_run_bounded (N : FlatNet) {k : Nat} (hk : 0 < k) {s p : Bool} {pick} {φ : Cond} {l0 : List Nat}
    (h0 : l0.length = N.nplaces) : ∃ fuel b, run (netGame N k s p pick φ) l0 fuel = some b := by
  let G := netGame N k s p pick φ
  let B := boxes k N.nplaces
  refine run_some (U := l0 :: (B ++ B.flatMap fun l => G.env l ++ G.ctrl l)) (by simp) ?_
  have hlen : ∀ x ∈ l0 :: (B ++ B.flatMap fun l => G.env l ++ G.ctrl l), x.length = N.nplaces := by
    have hB : ∀ n, ∀ x ∈ boxes k n, x.length = n := by
      intro n
      induction n with
      | zero => intro x hx; simp [boxes] at hx; simp [hx]
      | succ n ih =>
        intro x hx
        simp only [boxes, List.mem_flatMap, List.mem_map] at hx
        obtain ⟨a, _, l, hl, rfl⟩ := hx
        simp [ih l hl]
    intro x hx
    rcases List.mem_cons.1 hx with rfl | hx
    · exact h0
    · rcases List.mem_append.1 hx with hx | hx
      · exact hB _ x hx
      · obtain ⟨l, _, hx⟩ := List.mem_flatMap.1 hx
        rcases List.mem_append.1 hx with hx | hx
        · simp only [G, netGame, List.mem_map] at hx
          obtain ⟨y, _, rfl⟩ := hx
          simp [ofMark]
        · simp only [G, netGame, List.mem_map] at hx
          obtain ⟨y, _, rfl⟩ := hx
          simp [ofMark]
  intro x hx hi y hy
  have ho := (init0_unknown hi).1
  have hsum : x.sum ≤ k := by
    simp only [netGame, Bool.and_eq_false_iff, decide_eq_false_iff_not] at ho
    omega
  have hxB : x ∈ B := by
    have := mem_boxes hsum
    rwa [hlen x hx] at this
  refine List.mem_cons_of_mem _ (List.mem_append_right _ (List.mem_flatMap.2 ⟨x, hxB, hy⟩))

theorem net_run_finite {N : FlatNet} (w : N.WF) {k : Nat} {m0 : Mark} (hsm : SmallWithin N k m0) {s p : Bool} {pick}
    {φ : Cond} (hφ : φ.isTemporal = false) {l0 : List Nat} (hl0 : SeenL N k m0 l0)
    (hfin : {m | Seen N k m0 m}.Finite) : ∃ fuel b, run (netGame N k s p pick φ) l0 fuel = some b := by
  have hL : {l | SeenL N k m0 l}.Finite :=
    Set.Finite.of_finite_image (f := toMark) (hfin.subset (by
      rintro _ ⟨l, hl, rfl⟩; exact hl.2)) (fun l hl l' hl' he => toMark_inj (hl.1.trans hl'.1.symm) he)
  have hA := net_agrees w hsm (s := s) (p := p) (pick := pick) hφ
  refine run_some (U := hL.toFinset.toList) (by simpa using hl0) ?_
  intro x hx hi y hy
  have hx' : SeenL N k m0 x := by simpa using hx
  have ho := (init0_unknown hi).1
  simp only [Finset.mem_toList, Set.Finite.mem_toFinset, Set.mem_ofPred_eq]
  rcases List.mem_append.1 hy with hy | hy
  · exact hA.envS x hx' ho y hy
  · exact hA.ctrlS x hx' ho y hy

/-- More steps do not change the result. -/
theorem loop_mono {σ : Type} [DecidableEq σ] {G : Game σ} {m0 : σ} : ∀ (n : Nat) (r r' : RState σ), loop G m0 n r = some r' →
    ∀ m, n ≤ m → loop G m0 m r = some r'
  | 0, _, _, h, _, _ => by simp [loop] at h
  | n + 1, r, r', h, m, hm => by
    obtain ⟨m, rfl⟩ : ∃ k, m = k + 1 := ⟨m - 1, by omega⟩
    simp only [loop] at h ⊢
    cases hs : step G m0 r with
    | none => rw [hs] at h; exact h
    | some r'' => rw [hs] at h; exact loop_mono n r'' r' h m (by omega)

theorem run_mono {σ : Type} [DecidableEq σ] {G : Game σ} {m0 : σ} {n : Nat} {b : Bool} (h : run G m0 n = some b)
    {m : Nat} (hm : n ≤ m) : run G m0 m = some b := by
  unfold run at *
  cases hl : loop G m0 n (start G m0) with
  | none => rw [hl] at h; cases h
  | some r => rw [loop_mono n _ _ hl m hm]; rw [hl] at h; exact h

end Synth
end Verif
