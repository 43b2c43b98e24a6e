import Verif.TAR.FreeLemmas
import Verif.TAR.SatLemmas

/-! # Checking a trace keeps the automaton's claims true -/

namespace Verif
namespace TAR
open PRVec Solver TraceSet PQL

/-- What the engine needs to know about a query on a net. -/
structure SOK (S : Solver) : Prop where
  ok : NetOK S.net
  q : QOK S.net.nplaces S.query
  rc : rcSafe (fun _ => false) S.query = true
  re : reSafe (fun _ => false) S.query = true
  inq : ∀ p, S.inq p = condUse p S.query
  m0 : ∀ p, S.m0 p < rmax
  dl : ∀ m, S.net.deadlocked m = false ↔ ∃ t < S.net.ntransitions, RCtx.En S.net m t

variable {S : Solver}

theorem SOK.env (h : SOK S) {mark : Nat → Nat} (hm : ∀ p, mark p < rmax) (d : Nat → Bool) :
    RCtx.Env ⟨S.net, S.uses, mark, d⟩ S.net.nplaces :=
  ⟨hm, fun _ ht _ ha => uses_pre S ht ha, fun t ht a ha => (h.ok.preLt t ht a ha).1, h.dl⟩

theorem final_outside {N : FlatNet} (ok : NetOK N) {p : Nat} (hp : N.nplaces ≤ p) : ∀ (l : List Nat) (m : Nat → Int),
    (∀ e ∈ l, 1 ≤ e ∧ e ≤ N.ntransitions) → final N l m p = m p := by
  intro l
  induction l with
  | nil => intro m _; rfl
  | cons e l ih =>
    intro m hl
    have ht : e - 1 < N.ntransitions := by have := hl e (by simp); omega
    show final N l (effect N m (e - 1)) p = m p
    rw [ih _ (fun x hx => hl x (by simp [hx])), effect_eq]
    have h1 : pre N (e - 1) p = 0 := arcSum_zero fun a ha h => by have := (ok.preLt _ ht a ha).1; omega
    have h2 : post N (e - 1) p = 0 := arcSum_zero fun a ha h => by have := (ok.postLt _ ht a ha).1; omega
    rw [h1, h2]; omega

/-- The marking at the end of the trace, with the negative numbers replaced. -/
def endMark (S : Solver) (l : List Nat) (p : Nat) : Nat := (final S.net l (fun p => (S.m0 p : Int)) p).toNat

theorem endMark_lt (h : SOK S) {l : List Nat} (hl : ∀ e ∈ l, 1 ≤ e ∧ e ≤ S.net.ntransitions)
    (hf : ∀ p < S.net.nplaces, final S.net l (fun p => (S.m0 p : Int)) p < rmax) (p : Nat) : endMark S l p < rmax := by
  unfold endMark
  by_cases hp : p < S.net.nplaces
  · have := hf p hp
    have : (0 : Int) < rmax := by decide
    omega
  · rw [final_outside h.ok (by omega) l _ hl]
    have := h.m0 p
    omega

/-- Where a trace fails. -/
inductive FailCase (S : Solver) (toEnd : Bool) (l : List Nat) (f : Failure) (i : Nat) : Prop
  | trans (h : firstShort S.net l 0 (fun p => (S.m0 p : Int)) = some (i, f.failm))
      (he : toEnd = true → goalI (S.net.deadlocked (endMark S l)) (endMark S l) S.query = true)
  | goal (h : i = l.length) (hm : f.mark = endMark S l) (hlt : ∀ p, endMark S l p < rmax)
      (hg : goalI (S.net.deadlocked (endMark S l)) (endMark S l) S.query = false)
      (hq : toEnd = false → NoShort S.net (fun p => S.inq p = true) l (fun p => (S.m0 p : Int)))

theorem failCase (h : SOK S) {toEnd : Bool} {d : Nat → Bool} {l : List Nat} (hl : ∀ e ∈ l, 1 ≤ e ∧ e ≤ S.net.ntransitions)
    {f : Failure} {i : Nat} (hf : findFailure S toEnd d (l ++ [0]) = .ok f) (hi : f.at? = some i) : FailCase S toEnd l f i := by
  rcases ffLoop_spec S toEnd d l 0 _ none f (fun e he => (hl e he).1) hf with ⟨h1, h2, h3, _, h5⟩ | ⟨h1, F, h2, h3, h4⟩
  · have hlt := endMark_lt h hl h2
    have hmk : f.mark = endMark S l := h3
    have hle : ∀ p, f.mark p ≤ rmax := fun p => by rw [hmk]; exact Nat.le_of_lt (hlt p)
    have hev := evaluateSet_goal hle (S.net.deadlocked f.mark) S.query h.q.supp
    rw [hev, hmk] at h5
    rcases h5 with ⟨h5, h6, h7⟩ | ⟨h5, h6⟩
    · have hg : goalI (S.net.deadlocked (endMark S l)) (endMark S l) S.query = true := by
        cases hb : goalI (S.net.deadlocked (endMark S l)) (endMark S l) S.query with
        | true => rfl
        | false => rw [hb] at h5; cases h5
      simp only [Option.none_or] at h6 h7
      cases hfs : firstShort S.net l 0 (fun p => (S.m0 p : Int)) with
      | none => rw [hfs, hi] at h6; cases h6
      | some F =>
        rw [hfs, hi] at h6
        obtain rfl : i = F.1 := by simpa using h6
        refine .trans ?_ (fun _ => hg)
        have := h7 F hfs
        rw [this]
        exact hfs
    · have hg : goalI (S.net.deadlocked (endMark S l)) (endMark S l) S.query = false := by
        cases hb : goalI (S.net.deadlocked (endMark S l)) (endMark S l) S.query with
        | false => rfl
        | true => rw [hb] at h5; exact (h5 rfl).elim
      rw [hi] at h6
      refine .goal ?_ hmk hlt hg h1
      have := Option.some.inj h6
      omega
  · simp only [Option.none_or] at h2
    rw [hi] at h3
    refine .trans ?_ (fun he => by rw [h1] at he; cases he)
    rw [h2, h4, Option.some.inj h3]

theorem getD_append_lt {l : List Nat} {i : Nat} (hi : i < l.length) : (l ++ [0]).getD i 0 = l.getD i 0 := by
  simp [List.getD_eq_getElem?_getD, List.getElem?_append_left hi]

theorem getD_append_len (l : List Nat) : (l ++ [0]).getD l.length 0 = 0 := by
  simp [List.getD_eq_getElem?_getD]

theorem take_append_le {l : List Nat} {i : Nat} (hi : i ≤ l.length) : (l ++ [0]).take i = l.take i := by
  rw [List.take_append_of_le_length hi]

/-- The terminal predicate of the query. -/
theorem terminal_goal (h : SOK S) {mark : Nat → Nat} (hlt : ∀ p, mark p < rmax)
    (hg : goalI (S.net.deadlocked mark) mark S.query = false) {d : Nat → Bool} {r : PRVec × Bool}
    (hc : RCtx.cond ⟨S.net, S.uses, mark, d⟩ S.query ([], false) = .ok r) (hr : r.2 = false) :
    Good S.net.nplaces r.1.compact ∧ EdgeOK S.net (Goal S.net S.query) r.1.compact 0 (falseRange S.net.nplaces) ∧
      (∀ p, ¬ S.inq p = true → rng r.1.compact p = {}) ∧
      ∀ p, (rng r.1.compact p).upper = rmax ∨ mark p ≤ (rng r.1.compact p).upper := by
  obtain ⟨h1, h2⟩ := RCtx.cond_spec (h.env hlt d) S.query (fun _ => false) [] r h.q h.rc RCtx.RI.nil (fun _ _ => rfl) hg hc hr
  have hs := h1.ri.good.sorted
  refine ⟨good_compact h1.ri.good, ?_, fun p hp => ?_, fun p => ?_⟩
  · intro m hm _ hG
    have := h2 m ((satI_compact hs).1 hm)
    unfold Goal at hG
    rw [this] at hG; cases hG
  · rw [rng_compact hs, h1.frame p (by rw [← h.inq]; simpa using hp)]; rfl
  · rw [rng_compact hs]; exact h1.ri.ub p

/-- The terminal predicate of a transition that is not enabled. -/
theorem terminal_short (h : SOK S) {l : List Nat} (hl : ∀ e ∈ l, 1 ≤ e ∧ e ≤ S.net.ntransitions) {f : Failure} {i : Nat}
    (hf : firstShort S.net l 0 (fun p => (S.m0 p : Int)) = some (i, f.failm)) {d : Nat → Bool} {r : Bool × PRVec}
    (hc : computeTerminal S { f with dirty := d } ((l ++ [0]).getD i 0) = .ok r) :
    i < l.length ∧ r.1 = true ∧ Good S.net.nplaces r.2 ∧
      EdgeOK S.net (Goal S.net S.query) r.2 ((l ++ [0]).getD i 0) (falseRange S.net.nplaces) ∧
      (∀ p, (rng r.2 p).upper = rmax ∨ (f.failm p).toNat ≤ (rng r.2 p).upper) ∧
      BackOK S.net (fun _ => True) (l.take i).reverse (fun p => (f.failm p).toNat) := by
  obtain ⟨k, h1, h2, h3, h4, a, ha, h5⟩ := firstShort_some l 0 _ i f.failm hf
  obtain rfl : i = k := by omega
  have he : 1 ≤ l.getD i 0 ∧ l.getD i 0 ≤ S.net.ntransitions := by
    have hm : l.getD i 0 ∈ l := by
      rw [List.getD_eq_getElem?_getD, List.getElem?_eq_getElem h2]; exact List.getElem_mem h2
    exact hl _ hm
  rw [getD_append_lt h2] at hc ⊢
  generalize l.getD i 0 = e at *
  obtain ⟨t, rfl⟩ : ∃ t, e = t + 1 := ⟨e - 1, by omega⟩
  have ht : t < S.net.ntransitions := by omega
  rw [Nat.add_sub_cancel] at ha
  simp only [computeTerminal, Except.ok.injEq] at hc
  subst hc
  have hback := (back_of h.ok (Q := fun _ => True) (l.take i) _ [] (fun x hx => hl x (List.mem_of_mem_take hx))
    (fun p _ => Int.natCast_nonneg (S.m0 p)) h3 trivial)
  rw [← h4, List.append_nil] at hback
  refine ⟨h2, rfl, ?_⟩
  rcases lastShort_spec S f.failm (S.net.preset t) ⟨rmax, {}⟩ (fun b hb => uses_pre S ht hb) with ⟨_, h6⟩ | ⟨b, hb, h6, h7⟩
  · have := h6 a ha; omega
  · simp only
    rw [h7]
    obtain ⟨h8, h9⟩ := terminal_trans (G := Goal S.net S.query) h.ok ht hb
    refine ⟨h8, h9, fun p => ?_, hback.1⟩
    rw [rng_single]
    split
    · rename_i hp
      subst hp
      right
      have := hback.2 b.place trivial
      simp only
      omega
    · left; rfl

theorem computeHoare_spec (h : SOK S) {l : List Nat} (hl : ∀ e ∈ l, 1 ≤ e ∧ e ≤ S.net.ntransitions) {i : Nat} (hi : i ≤ l.length)
    {v : PRVec} (hv : Good S.net.nplaces v)
    (he : EdgeOK S.net (Goal S.net S.query) v ((l ++ [0]).getD i 0) (falseRange S.net.nplaces)) {r : Inter × Option Nat}
    (hr : computeHoare S (l ++ [0]) i v = .ok r) :
    (r.2 = none → Chain S.net (Goal S.net S.query) r.1) ∧
    ∀ (Q : Nat → Prop) (x : Nat → Nat), (∀ p, ¬ Q p → rng v p = {}) → (∀ p, (rng v p).upper = rmax ∨ x p ≤ (rng v p).upper) →
      BackOK S.net Q (l.take i).reverse x → r.2 = none := by
  unfold computeHoare at hr
  rw [take_append_le hi] at hr
  have hs : ∀ e ∈ (l.take i).reverse, 1 ≤ e ∧ e ≤ S.net.ntransitions := fun e he =>
    hl e (List.mem_of_mem_take (List.mem_reverse.1 he))
  refine ⟨fun hn => ?_, fun Q x h1 h2 h3 => ?_⟩
  · exact (hoare_spec (G := Goal S.net S.query) h.ok (fun _ => True) _ v _ [] r hs hv hr).1 hn ⟨hv, he⟩
  · exact (hoare_spec (G := Goal S.net S.query) h.ok Q _ v _ [] r hs hv hr).2 x h1 h2 h3

/-- The goal can be excluded at the end of the trace when no place is dirty. -/
def Clean (S : Solver) (l : List Nat) : Prop :=
  (∀ p, endMark S l p < rmax) → goalI (S.net.deadlocked (endMark S l)) (endMark S l) S.query = false →
    ∃ w, RCtx.cond ⟨S.net, S.uses, endMark S l, fun _ => false⟩ S.query ([], false) = .ok (w, false)

theorem nxt_inv (h : SOK S) {l : List Nat} (hl : ∀ e ∈ l, 1 ≤ e ∧ e ≤ S.net.ntransitions) (hcl : Clean S l)
    {d : Nat → Bool} {ts ts' : TraceSet} (hi : AInv S.net S.m0 (Goal S.net S.query) ts)
    (hr : nxt S (l ++ [0]) d ts = .ok ts') : AInv S.net S.m0 (Goal S.net S.query) ts' := by
  unfold nxt at hr
  cases hf : findFailure S false d (l ++ [0]) with
  | error e => rw [hf] at hr; cases hr
  | ok f =>
    rw [hf] at hr
    simp only [bind, Except.bind] at hr
    cases ha : f.at? with
    | none => rw [ha] at hr; cases hr
    | some i =>
      rw [ha] at hr
      simp only at hr
      cases hc : computeTerminal S ⟨some i, f.failm, f.mark, fun _ => false⟩ ((l ++ [0]).getD i 0) with
      | error e => rw [hc] at hr; cases hr
      | ok r =>
        rw [hc] at hr
        simp only at hr
        cases hh : computeHoare S (l ++ [0]) i r.2 with
        | error e => rw [hh] at hr; cases hr
        | ok r2 =>
          rw [hh] at hr
          simp only [pure, Except.pure, Except.ok.injEq] at hr
          subst hr
          refine addTrace_inv h.ok hi ?_
          rcases failCase h hl hf ha with ⟨h1, _⟩ | ⟨h1, h2, h3, h4, h5⟩
          · obtain ⟨g1, g2, g3, g4, g5, g6⟩ := terminal_short (f := ⟨some i, f.failm, f.mark, f.dirty⟩) h hl h1 hc
            obtain ⟨k1, k2⟩ := computeHoare_spec h hl (Nat.le_of_lt g1) g3 g4 hh
            exact k1 (k2 (fun _ => True) _ (fun p hp => (hp trivial).elim) g5 g6)
          · subst h1
            rw [getD_append_len] at hc
            obtain ⟨w, hw⟩ := hcl h3 h4
            have hc' : r = (true, w.compact) := by
              simp only [computeTerminal, h2, hw, bind, Except.bind, pure, Except.pure, Except.ok.injEq, Bool.false_eq_true, if_false] at hc
              exact hc.symm
            subst hc'
            obtain ⟨g1, g2, g3, g4⟩ := terminal_goal h h3 h4 hw rfl
            obtain ⟨k1, k2⟩ := computeHoare_spec h hl (Nat.le_refl _) g1 (by rw [getD_append_len]; exact g2) hh
            refine k1 (k2 (fun p => S.inq p = true) _ g3 g4 ?_)
            have := (back_of h.ok (Q := fun p => S.inq p = true) l _ [] hl (fun p _ => Int.natCast_nonneg (S.m0 p)) (h5 rfl) trivial).1
            rw [List.append_nil] at this
            rw [List.take_length]
            exact this

/-- What one successful round adds. -/
theorem round_inv (h : SOK S) {l : List Nat} (hl : ∀ e ∈ l, 1 ≤ e ∧ e ≤ S.net.ntransitions) {d : Nat → Bool} {f : Failure} {i : Nat}
    (hf : findFailure S true d (l ++ [0]) = .ok f) (ha : f.at? = some i) {v : PRVec}
    (hc : computeTerminal S f ((l ++ [0]).getD i 0) = .ok (true, v)) {r : Inter × Option Nat}
    (hh : computeHoare S (l ++ [0]) i v = .ok r) (hn : r.2 = none) : Chain S.net (Goal S.net S.query) r.1 := by
  rcases failCase h hl hf ha with ⟨h1, _⟩ | ⟨h1, h2, h3, h4, _⟩
  · obtain ⟨g1, g2, g3, g4, _⟩ := terminal_short h hl h1 (d := f.dirty) hc
    exact (computeHoare_spec h hl (Nat.le_of_lt g1) g3 g4 hh).1 hn
  · subst h1
    rw [getD_append_len] at hc
    simp only [computeTerminal, h2] at hc
    cases hx : RCtx.cond ⟨S.net, S.uses, endMark S l, f.dirty⟩ S.query ([], false) with
    | error e => rw [hx] at hc; cases hc
    | ok x =>
      rw [hx] at hc
      simp only [bind, Except.bind, pure, Except.pure, Except.ok.injEq] at hc
      split at hc
      · cases hc
      · rename_i hxd
        obtain rfl : x.1.compact = v := (Prod.mk.inj hc).2
        obtain ⟨g1, g2, _, _⟩ := terminal_goal h h3 h4 hx (by simpa using hxd)
        exact (computeHoare_spec h hl (Nat.le_refl _) g1 (by rw [getD_append_len]; exact g2) hh).1 hn

theorem refine_inv (h : SOK S) {l : List Nat} (hl : ∀ e ∈ l, 1 ≤ e ∧ e ≤ S.net.ntransitions) : ∀ (fuel : Nat) (ok : Bool)
    (d : Nat → Bool) (ts ts' : TraceSet), (ok = true → Clean S l) → AInv S.net S.m0 (Goal S.net S.query) ts →
    refine S (l ++ [0]) fuel ok d ts = .ok ts' → AInv S.net S.m0 (Goal S.net S.query) ts' := by
  intro fuel
  induction fuel with
  | zero => intro ok d ts ts' _ _ hr; cases hr
  | succ fuel ih =>
    intro ok d ts ts' hcl hi hr
    simp only [refine, bind, Except.bind] at hr
    cases hf : findFailure S true d (l ++ [0]) with
    | error e => rw [hf] at hr; cases hr
    | ok f =>
      rw [hf] at hr
      simp only at hr
      cases ok with
      | false =>
        simp only [Bool.not_false, if_true, pure, Except.pure, Except.ok.injEq] at hr
        subst hr; exact hi
      | true =>
        simp only [Bool.not_true, Bool.false_eq_true, if_false] at hr
        have hcl := hcl rfl
        cases ha : f.at? with
        | none => rw [ha] at hr; cases hr
        | some i =>
          rw [ha] at hr
          simp only at hr
          cases hc : computeTerminal S f ((l ++ [0]).getD i 0) with
          | error e => rw [hc] at hr; cases hr
          | ok r =>
            rw [hc] at hr
            obtain ⟨b, v⟩ := r
            simp only at hr
            cases b with
            | false =>
              simp only [Bool.false_eq_true, if_false] at hr
              exact nxt_inv h hl hcl hi hr
            | true =>
              simp only [if_true] at hr
              cases hh : computeHoare S (l ++ [0]) i v with
              | error e => rw [hh] at hr; cases hr
              | ok r2 =>
                rw [hh] at hr
                obtain ⟨inter, stuck⟩ := r2
                simp only at hr
                have hi' : AInv S.net S.m0 (Goal S.net S.query) (if stuck.isNone then ts.addTrace S.net S.m0 inter else ts) := by
                  split
                  · rename_i hs
                    exact addTrace_inv h.ok hi (round_inv h hl hf ha hc hh (by simpa using hs))
                  · exact hi
                generalize (if stuck.isNone then ts.addTrace S.net S.m0 inter else ts) = ts1 at *
                split at hr
                · simp only [pure, Except.pure, Except.ok.injEq] at hr
                  subst hr; exact hi'
                · split at hr
                  · exact ih true _ _ _ (fun _ => hcl) hi' hr
                  · exact nxt_inv h hl hcl hi' hr

theorem clean_of (h : SOK S) {l : List Nat} (hl : ∀ e ∈ l, 1 ≤ e ∧ e ≤ S.net.ntransitions) {d : Nat → Bool} {f : Failure} {i : Nat}
    (hf : findFailure S true d (l ++ [0]) = .ok f) (ha : f.at? = some i) {v : PRVec}
    (hc : computeTerminal S f ((l ++ [0]).getD i 0) = .ok (true, v)) : Clean S l := by
  intro hlt hg
  rcases failCase h hl hf ha with ⟨_, h1⟩ | ⟨h1, h2, h3, h4, _⟩
  · rw [h1 rfl] at hg; cases hg
  · subst h1
    rw [getD_append_len] at hc
    simp only [computeTerminal, h2] at hc
    cases hx : RCtx.cond ⟨S.net, S.uses, endMark S l, f.dirty⟩ S.query ([], false) with
    | error e => rw [hx] at hc; cases hc
    | ok x =>
      rw [hx] at hc
      simp only [bind, Except.bind, pure, Except.pure, Except.ok.injEq] at hc
      split at hc
      · cases hc
      · rename_i hxd
        exact RCtx.cond_clean (h.env h3 f.dirty) S.query [] [] x h.q (fun p hp => uses_inq S (by rw [h.inq]; exact hp)) h4 hx (by simpa using hxd)

theorem check_inv (h : SOK S) {l : List Nat} (hl : ∀ e ∈ l, 1 ≤ e ∧ e ≤ S.net.ntransitions) {junk : Nat → Bool × Int} {fuel : Nat}
    {ts ts' : TraceSet} {b : Bool} (hi : AInv S.net S.m0 (Goal S.net S.query) ts)
    (hr : check S junk fuel ts (l ++ [0]) = .ok (ts', b)) : AInv S.net S.m0 (Goal S.net S.query) ts' := by
  unfold check at hr
  cases hff : findFree S junk (l ++ [0]) ((l ++ [0]).length - 2) with
  | error e => rw [hff] at hr; cases hr
  | ok back =>
    rw [hff] at hr
    simp only [bind, Except.bind] at hr
    have hi1 : AInv S.net S.m0 (Goal S.net S.query) (if back.isEmpty then ts else ts.addTrace S.net S.m0 back) := by
      split
      · exact hi
      · rename_i hb
        refine addTrace_inv h.ok hi (findFree_spec h.ok h.q h.re junk (l ++ [0]) ?_ _ back ?_ hff (by simpa using hb))
        · intro e he
          rcases List.mem_append.1 he with he | he
          · exact (hl e he).2
          · simp only [List.mem_singleton] at he; omega
        · intro j h1 h2
          simp only [List.length_append, List.length_singleton] at h2
          have hj : j < l.length := by omega
          rw [getD_append_lt hj]
          refine hl _ ?_
          rw [List.getD_eq_getElem?_getD, List.getElem?_eq_getElem hj]; exact List.getElem_mem hj
    generalize (if back.isEmpty then ts else ts.addTrace S.net S.m0 back) = ts1 at *
    cases hf : findFailure S true (fun _ => false) (l ++ [0]) with
    | error e => rw [hf] at hr; cases hr
    | ok f =>
      rw [hf] at hr
      simp only at hr
      cases ha : f.at? with
      | none =>
        rw [ha] at hr
        simp only [pure, Except.pure, Except.ok.injEq, Prod.mk.injEq] at hr
        rw [← hr.1]; exact hi1
      | some i =>
        rw [ha] at hr
        simp only at hr
        cases hc : computeTerminal S f ((l ++ [0]).getD i 0) with
        | error e => rw [hc] at hr; cases hr
        | ok r =>
          rw [hc] at hr
          obtain ⟨b', v⟩ := r
          simp only at hr
          cases b' with
          | false =>
            simp only [Bool.false_eq_true, if_false] at hr
            cases hrf : refine S (l ++ [0]) fuel false f.dirty ts1 with
            | error e => rw [hrf] at hr; cases hr
            | ok ts2 =>
              rw [hrf] at hr
              simp only [pure, Except.pure, Except.ok.injEq, Prod.mk.injEq] at hr
              rw [← hr.1]
              exact refine_inv h hl _ _ _ _ _ (fun h => (by cases h)) hi1 hrf
          | true =>
            simp only [if_true] at hr
            cases hh : computeHoare S (l ++ [0]) i v with
            | error e => rw [hh] at hr; cases hr
            | ok r2 =>
              rw [hh] at hr
              obtain ⟨inter, stuck⟩ := r2
              simp only at hr
              have hi2 : AInv S.net S.m0 (Goal S.net S.query) (if stuck.isNone then ts1.addTrace S.net S.m0 inter else ts1) := by
                split
                · rename_i hs
                  exact addTrace_inv h.ok hi1 (round_inv h hl hf ha hc hh (by simpa using hs))
                · exact hi1
              generalize (if stuck.isNone then ts1.addTrace S.net S.m0 inter else ts1) = ts2 at *
              cases hrf : refine S (l ++ [0]) fuel true (setDirty f.dirty stuck) ts2 with
              | error e => rw [hrf] at hr; cases hr
              | ok ts3 =>
                rw [hrf] at hr
                simp only [pure, Except.pure, Except.ok.injEq, Prod.mk.injEq] at hr
                rw [← hr.1]
                exact refine_inv h hl _ _ _ _ _ (fun _ => clean_of h hl hf ha hc) hi2 hrf

/-- When `tryReach` gives up, the last use of transitions is closed and no non-empty marking met on the way is a goal. -/
theorem tryLoop_none (h : SOK S) (rand : Nat → Nat → Nat) (junk : Nat → Nat → Bool × Int) : ∀ (fuel k : Nat) (u : Uses)
    (ts : TraceSet), u.trans 0 = true → AInv S.net S.m0 (Goal S.net S.query) ts →
    tryLoop S rand junk fuel k u ts = .ok none →
    ∃ n u', u' = (fun x => (Uses.update S.net x).1)^[n] u ∧ (u'.update S.net).2 = false ∧
      ∀ m, NzRun S.net u'.trans S.m0 m → Nz S.net.nplaces m → ¬ Goal S.net S.query m := by
  intro fuel
  induction fuel with
  | zero => intro k u ts _ _ hr; cases hr
  | succ fuel ih =>
    intro k u ts hu hi hr
    simp only [tryLoop, bind, Except.bind] at hr
    cases hrun : runTAR S.net ts u.trans (fun i => rand k (i + 1)) fuel 0 [] [⟨rand k 0, 0, ts.maximize ts.initial⟩] with
    | error e => rw [hrun] at hr; cases hr
    | ok r =>
      rw [hrun] at hr
      simp only at hr
      cases r with
      | covered =>
        simp only at hr
        split at hr
        · obtain ⟨n, u', h1, h2⟩ := ih _ (u.update S.net).1 ts (by simp [Uses.update, hu]) hi hr
          exact ⟨n + 1, u', by rw [Function.iterate_succ_apply]; exact h1, h2⟩
        · rename_i hfr
          exact ⟨0, u, rfl, by simpa using hfr, fun m hm hz => covered_sound hi hu hrun hm hz⟩
      | trace tr' =>
        simp only at hr
        obtain ⟨l, rfl, hl⟩ := runTAR_trace S.net ts u.trans _ fuel 0 [] _ tr' (by simp) hrun
        cases hc : Solver.check S (junk k) fuel ts (l ++ [0]) with
        | error e => rw [hc] at hr; cases hr
        | ok c =>
          rw [hc] at hr
          obtain ⟨ts', sat⟩ := c
          simp only at hr
          cases sat with
          | false => exact ih _ u ts' hu (check_inv h hl hi hc) hr
          | true => simp only [if_true, pure, Except.pure, Except.ok.injEq] at hr; cases hr

end TAR
end Verif
