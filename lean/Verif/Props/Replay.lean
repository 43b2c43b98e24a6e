import Verif.Net.Replay
import Verif.Props.Net

/-!
# C40: trace replay accepts exactly the executable traces
-/

namespace Verif
namespace ReplayProps
open Replay FlatNet

/-- The tokens listed with a transition, if there are any, name every input place with its weight. -/
def Listed (N : FlatNet) (e : Entry) (t : Fin N.ntransitions) : Prop :=
  e.tokens = [] ∨ ∀ p, 0 < N.toNet.pre t p → e.find p = some (N.toNet.pre t p)

/-- The entries fire the transitions `ts`, and the listed tokens are right. -/
def Fires (N : FlatNet) : List Entry → List (Fin N.ntransitions) → Prop
  | [], [] => True
  | e :: es, t :: ts => e.tid = some t.val ∧ Listed N e t ∧ Fires N es ts
  | _, _ => False

/-- What a valid trace is: a firing sequence, either ended by a deadlock entry in a dead marking, or,
if there is a loop mark before the end, returning to the marking at the mark. -/
def Executable (N : FlatNet) (m0 : Nat → Nat) (loopIdx : Nat) (trace : List Entry) : Prop :=
  ∃ es rest ts m, trace = es ++ rest ∧ Fires N es ts ∧ N.toNet.Run m0 ts m ∧
    ((∃ e r, rest = e :: r ∧ e.tid = none ∧ N.toNet.Dead m) ∨
     (rest = [] ∧ (loopIdx < trace.length →
        N.toNet.Run m0 (ts.take loopIdx) m ∧ N.toNet.Run m (ts.drop loopIdx) m)))

theorem checkTokens_iff (e : Entry) : ∀ l : List Invariant, checkTokens e l = true ↔
    ∀ i ∈ l, i.inhibitor = false → e.find i.place = some i.tokens
  | [] => by simp [checkTokens]
  | i :: l => by
    simp only [checkTokens]
    have ih := checkTokens_iff e l
    by_cases hi : i.inhibitor = true
    · rw [if_pos hi, ih]; simp [hi]
    · rw [if_neg hi]
      cases hf : e.find i.place with
      | none => simp [hf, hi]
      | some k =>
        simp only
        by_cases hk : k = i.tokens
        · rw [if_neg (by simp [hk]), ih]; simp [hf, hk]
        · rw [if_pos hk]; simp [hf, hk, hi]

variable {N : FlatNet}

theorem listed_iff (w : N.WF) (e : Entry) (t : Fin N.ntransitions) :
    (!e.tokens.isEmpty && !checkTokens e (N.preset t)) = false ↔ Listed N e t := by
  have hn := w.pre_nodup t t.2
  have key : checkTokens e (N.preset t) = true ↔
      ∀ p, 0 < N.toNet.pre t p → e.find p = some (N.toNet.pre t p) := by
    rw [checkTokens_iff]
    constructor
    · intro h p hp
      simp only [toNet] at hp ⊢
      cases hf : (N.preset t).find? (fun i => i.place == p && !i.inhibitor) with
      | none => rw [hf] at hp; simp at hp
      | some i =>
        simp only
        have h1 := List.find?_some hf
        have h2 := List.mem_of_find?_eq_some hf
        simp at h1
        have := h i h2 h1.2
        rw [h1.1] at this; exact this
    · intro h i hi hinh
      have hf := find_place hn hi (fun j => !j.inhibitor) (by simp [hinh])
      have hpre : N.toNet.pre t i.place = i.tokens := by simp only [toNet]; rw [hf]
      have hmem : i ∈ N.invariants := List.mem_of_mem_drop (List.mem_of_mem_take hi)
      have := h i.place (by rw [hpre]; exact w.tokens_pos i hmem)
      rw [hpre] at this; exact this
  unfold Listed
  rw [← key]
  cases ht : e.tokens with
  | nil => simp
  | cons a b => simp

/-- Firing does not change anything outside the places. -/
theorem fire_outside (w : N.WF) (m : Nat → Nat) (t : Fin N.ntransitions) (p : Nat) (hp : N.nplaces ≤ p) :
    N.toNet.fire m t p = m p := by
  have h1 : N.toNet.pre t p = 0 := by
    simp only [toNet]
    cases hf : (N.preset t).find? (fun i => i.place == p && !i.inhibitor) with
    | none => rfl
    | some i =>
      have h1 := List.find?_some hf
      have h2 := List.mem_of_find?_eq_some hf
      have := w.place_lt i (List.mem_of_mem_drop (List.mem_of_mem_take h2))
      simp at h1; omega
  have h2 : N.toNet.post t p = 0 := by
    simp only [toNet]
    cases hf : (N.postset t).find? (fun i => i.place == p) with
    | none => rfl
    | some i =>
      have h1 := List.find?_some hf
      have h2 := List.mem_of_find?_eq_some hf
      have := w.place_lt i (List.mem_of_mem_drop (List.mem_of_mem_take h2))
      simp at h1; omega
  simp [Net.fire, h1, h2]

theorem run_outside (w : N.WF) {m m' : Nat → Nat} {ts : List (Fin N.ntransitions)} (h : N.toNet.Run m ts m')
    (p : Nat) (hp : N.nplaces ≤ p) : m' p = m p := by
  induction h with
  | nil => rfl
  | cons s _ ih => rw [ih, s.2, fire_outside w _ _ p hp]

theorem run_det {m m1 m2 : Nat → Nat} {ts : List (Fin N.ntransitions)} (h1 : N.toNet.Run m ts m1)
    (h2 : N.toNet.Run m ts m2) : m1 = m2 := by
  induction h1 with
  | nil => cases h2; rfl
  | cons s _ ih =>
    cases h2 with
    | cons s' h' => rw [s'.2, ← s.2] at h'; exact ih h'

theorem run_split {m m' : Nat → Nat} : ∀ (ts : List (Fin N.ntransitions)) (k : Nat), N.toNet.Run m ts m' →
    ∃ x, N.toNet.Run m (ts.take k) x ∧ N.toNet.Run x (ts.drop k) m'
  | ts, 0, h => ⟨m, by simpa using .nil m, by simpa using h⟩
  | [], k + 1, h => by cases h; exact ⟨m, by simpa using .nil m, by simpa using .nil m⟩
  | t :: ts, k + 1, h => by
    cases h with
    | cons s h' =>
      obtain ⟨x, h1, h2⟩ := run_split ts k h'
      exact ⟨x, by simpa using .cons s h1, by simpa using h2⟩

/-- The copied marking while replaying: present exactly when the mark has been passed, and then the
marking there. -/
def LoopOK (N : FlatNet) (m0 : Nat → Nat) (loopIdx : Nat) (ts : List (Fin N.ntransitions)) :
    Option (Nat → Nat) → Prop
  | none => ts.length ≤ loopIdx
  | some l => loopIdx < ts.length ∧ N.toNet.Run m0 (ts.take loopIdx) l

theorem checkLoop_iff (w : N.WF) (m0 m : Nat → Nat) (loopIdx : Nat) (ts : List (Fin N.ntransitions))
    (loop : Option (Nat → Nat)) (hr : N.toNet.Run m0 ts m) (hl : LoopOK N m0 loopIdx ts loop) :
    checkLoop N m loop = .accepted ↔ (loopIdx < ts.length →
      N.toNet.Run m0 (ts.take loopIdx) m ∧ N.toNet.Run m (ts.drop loopIdx) m) := by
  cases loop with
  | none => simp only [LoopOK] at hl; simp [checkLoop]; omega
  | some l =>
    simp only [LoopOK] at hl
    have hrest : N.toNet.Run l (ts.drop loopIdx) m := by
      obtain ⟨x, h1, h2⟩ := run_split ts loopIdx hr
      rw [run_det h1 hl.2] at h2; exact h2
    have heq : ((List.range N.nplaces).all fun p => m p == l p) = true ↔ m = l := by
      simp only [List.all_eq_true, List.mem_range, beq_iff_eq]
      constructor
      · intro h
        funext p
        by_cases hp : p < N.nplaces
        · exact h p hp
        · rw [run_outside w hr p (by omega), run_outside w hl.2 p (by omega)]
      · rintro rfl p _; rfl
    simp only [checkLoop]
    by_cases hm : m = l
    · rw [if_pos (heq.2 hm)]
      simp only [true_iff]
      intro _
      exact ⟨by rw [hm]; exact hl.2, by rw [← hm] at hrest; exact hrest⟩
    · rw [if_neg (by rw [heq]; exact hm)]
      simp only [false_iff, reduceCtorEq]
      intro h
      exact hm (run_det (h hl.1).1 hl.2)

theorem fires_append : ∀ (es : List Entry) (ts : List (Fin N.ntransitions)) (e : Entry) (t : Fin N.ntransitions),
    Fires N es ts → e.tid = some t.val → Listed N e t → Fires N (es ++ [e]) (ts ++ [t])
  | [], [], _, _, _, h1, h2 => ⟨h1, h2, trivial⟩
  | _ :: es, _ :: ts, e, t, h, h1, h2 => ⟨h.1, h.2.1, fires_append es ts e t h.2.2 h1 h2⟩

theorem fires_length : ∀ (es : List Entry) (ts : List (Fin N.ntransitions)), Fires N es ts → es.length = ts.length
  | [], [], _ => rfl
  | _ :: es, _ :: ts, h => by simp [fires_length es ts h.2.2]

/-- The marking would exceed the 32-bit limit somewhere on the trace. -/
def Exceeds (N : FlatNet) (m0 : Nat → Nat) (trace : List Entry) : Prop :=
  ∃ es rest ts m, trace = es ++ rest ∧ es.length = ts.length ∧ N.toNet.Run m0 ts m ∧
    ∃ p, p < N.nplaces ∧ W32 - 1 ≤ m p

theorem play_spec (w : N.WF) (m0 : Nat → Nat) (loopIdx : Nat) (trace : List Entry) :
    ∀ (rest es : List Entry) (ts : List (Fin N.ntransitions)) (m : Nat → Nat) (loop : Option (Nat → Nat)),
    trace = es ++ rest → (∀ e ∈ rest, ∀ t, e.tid = some t → t < N.ntransitions) → Fires N es ts →
    N.toNet.Run m0 ts m → (∀ p, p < N.nplaces → m p < W32) → LoopOK N m0 loopIdx ts loop →
    (play N loopIdx es.length m loop rest = .accepted →
      ∃ es' rest' ts' m', rest = es' ++ rest' ∧ Fires N es' ts' ∧ N.toNet.Run m ts' m' ∧
        ((∃ e r, rest' = e :: r ∧ e.tid = none ∧ N.toNet.Dead m') ∨
          (rest' = [] ∧ (loopIdx < trace.length →
            N.toNet.Run m0 ((ts ++ ts').take loopIdx) m' ∧ N.toNet.Run m' ((ts ++ ts').drop loopIdx) m')))) ∧
    (play N loopIdx es.length m loop rest = .rejected →
      ¬ ∃ es' rest' ts' m', rest = es' ++ rest' ∧ Fires N es' ts' ∧ N.toNet.Run m ts' m' ∧
        ((∃ e r, rest' = e :: r ∧ e.tid = none ∧ N.toNet.Dead m') ∨
          (rest' = [] ∧ (loopIdx < trace.length →
            N.toNet.Run m0 ((ts ++ ts').take loopIdx) m' ∧ N.toNet.Run m' ((ts ++ ts').drop loopIdx) m')))) ∧
    (play N loopIdx es.length m loop rest = .tokenLimit →
      ∃ es' rest' ts' m', rest = es' ++ rest' ∧ es'.length = ts'.length ∧ N.toNet.Run m ts' m' ∧
        ∃ p, p < N.nplaces ∧ W32 - 1 ≤ m' p) := by
  intro rest
  induction rest with
  | nil =>
    intro es ts m loop htr _ hf hr hm hl
    have hlen : trace.length = ts.length := by rw [htr, List.append_nil, fires_length es ts hf]
    have hc := checkLoop_iff w m0 m loopIdx ts loop hr hl
    simp only [play]
    refine ⟨fun h => ?_, fun h => ?_, fun h => ?_⟩
    · refine ⟨[], [], [], m, rfl, trivial, .nil m, Or.inr ⟨rfl, fun hlt => ?_⟩⟩
      rw [List.append_nil]
      exact hc.1 h (by omega)
    · rintro ⟨es', rest', ts', m', h1, h2, h3, h4⟩
      have h5 := List.append_eq_nil_iff.1 h1.symm
      obtain ⟨rfl, rfl⟩ := h5
      cases ts' with
      | cons a b => exact h2
      | nil =>
        cases h3
        rcases h4 with ⟨e, r, h4, _⟩ | ⟨_, h4⟩
        · simp at h4
        · rw [List.append_nil, hlen] at h4
          rw [hc.2 h4] at h; simp at h
    · cases loop with
      | none => simp [checkLoop] at h
      | some l => simp only [checkLoop] at h; split at h <;> simp at h
  | cons e rest ih =>
    intro es ts m loop htr hv hf hr hm hl
    have hlen := fires_length es ts hf
    have hltr : es.length < trace.length := by rw [htr]; simp
    simp only [play]
    cases ht : e.tid with
    | none =>
      simp only
      have hd := C02_deadlock_exact N w m
      by_cases hdead : N.deadlocked m = true
      · rw [hdead]
        refine ⟨fun _ => ⟨[], e :: rest, [], m, rfl, trivial, .nil m, Or.inl ⟨e, rest, rfl, ht, hd.1 hdead⟩⟩, ?_, ?_⟩
        · simp
        · simp
      · have hdf : N.deadlocked m = false := by simpa using hdead
        rw [hdf]
        refine ⟨by simp, fun _ => ?_, by simp⟩
        rintro ⟨es', rest', ts', m', h1, h2, h3, h4⟩
        cases es' with
        | nil =>
          cases ts' with
          | cons a b => exact h2
          | nil =>
            cases h3
            rcases h4 with ⟨e', r, h4, h5, h6⟩ | ⟨h4, _⟩
            · exact hdead (hd.2 h6)
            · subst h4; simp at h1
        | cons a es' =>
          cases ts' with
          | nil => exact h2
          | cons t ts' =>
            simp at h1
            have h5 := h2.1
            rw [← h1.1, ht] at h5; simp at h5
    | some tn =>
      simp only
      have htlt : tn < N.ntransitions := hv e (by simp) tn ht
      -- the first entry of any split fires `tn`
      have hfirst : ∀ es' rest' ts' m', e :: rest = es' ++ rest' → Fires N es' ts' → N.toNet.Run m ts' m' →
          ((∃ e r, rest' = e :: r ∧ e.tid = none ∧ N.toNet.Dead m') ∨ rest' = []) →
          ∃ es'' ts'', es' = e :: es'' ∧ ts' = ⟨tn, htlt⟩ :: ts'' ∧ Listed N e ⟨tn, htlt⟩ ∧ rest = es'' ++ rest' ∧
            Fires N es'' ts'' ∧ N.toNet.Enabled m ⟨tn, htlt⟩ ∧ N.toNet.Run (N.toNet.fire m ⟨tn, htlt⟩) ts'' m' := by
        intro es' rest' ts' m' h1 h2 h3 h4
        cases es' with
        | nil =>
          exfalso
          simp at h1
          rcases h4 with ⟨e', r, h4, h5, h6⟩ | h4
          · rw [h4] at h1
            simp at h1
            rw [← h1.1, ht] at h5; simp at h5
          · rw [h4] at h1; simp at h1
        | cons a es' =>
          cases ts' with
          | nil => exact absurd h2 (by simp [Fires])
          | cons t ts' =>
            simp at h1
            obtain ⟨rfl, h1⟩ := h1
            obtain ⟨g1, g2, g3⟩ := h2
            rw [ht] at g1
            have : t = ⟨tn, htlt⟩ := Fin.ext (by simpa using g1.symm)
            subst this
            cases h3 with
            | cons s h3 =>
              rw [s.2] at h3
              exact ⟨es', ts', rfl, rfl, g2, h1, g3, s.1, h3⟩
      have hen := checkPreset_iff w m ⟨tn, htlt⟩
      simp only at hen
      by_cases hcp : N.checkPreset m tn = true
      · rw [hcp]
        simp only [Bool.not_true, Bool.false_eq_true, if_false]
        have he := hen.1 hcp
        have hfs := fire_spec w m hm ⟨tn, htlt⟩ he
        simp only at hfs
        cases hfire : N.fire m tn with
        | none =>
          rw [hfire] at hfs
          simp only at hfs ⊢
          refine ⟨by simp, by simp, fun _ => ?_⟩
          exact ⟨[e], rest, [⟨tn, htlt⟩], _, rfl, rfl, .cons ⟨he, rfl⟩ (.nil _), hfs⟩
        | some m1 =>
          rw [hfire] at hfs
          simp only at hfs ⊢
          obtain ⟨rfl, hm1⟩ := hfs
          have hli := listed_iff w e ⟨tn, htlt⟩
          simp only at hli
          by_cases hlist : (!e.tokens.isEmpty && !checkTokens e (N.preset tn)) = true
          · rw [if_pos hlist]
            refine ⟨by simp, fun _ => ?_, by simp⟩
            rintro ⟨es', rest', ts', m', h1, h2, h3, h4⟩
            obtain ⟨_, _, _, _, h5, _⟩ := hfirst es' rest' ts' m' h1 h2 h3 (h4.imp id (·.1))
            rw [hli.2 h5] at hlist; simp at hlist
          · rw [if_neg hlist]
            have hL := hli.1 (by simpa using hlist)
            have hr' : N.toNet.Run m0 (ts ++ [⟨tn, htlt⟩]) (N.toNet.fire m ⟨tn, htlt⟩) := hr.snoc _ ⟨he, rfl⟩
            have hl' : LoopOK N m0 loopIdx (ts ++ [⟨tn, htlt⟩]) (if es.length = loopIdx then some m else loop) := by
              by_cases hidx : es.length = loopIdx
              · rw [if_pos hidx]
                refine ⟨by simp; omega, ?_⟩
                rw [List.take_append_of_le_length (by omega), List.take_of_length_le (by omega)]
                exact hr
              · rw [if_neg hidx]
                cases loop with
                | none => simp only [LoopOK] at hl ⊢; simp; omega
                | some l =>
                  simp only [LoopOK] at hl ⊢
                  refine ⟨by simp; omega, ?_⟩
                  rw [List.take_append_of_le_length (by omega)]
                  exact hl.2
            have := ih (es ++ [e]) (ts ++ [⟨tn, htlt⟩]) _ _ (by rw [htr]; simp)
              (fun x hx => hv x (by simp [hx])) (fires_append es ts e _ hf ht hL) hr' hm1 hl'
            rw [List.length_append] at this
            simp only [List.length_cons, List.length_nil, Nat.zero_add] at this
            obtain ⟨i1, i2, i3⟩ := this
            refine ⟨fun h => ?_, fun h => ?_, fun h => ?_⟩
            · obtain ⟨es', rest', ts', m', h1, h2, h3, h4⟩ := i1 h
              refine ⟨e :: es', rest', ⟨tn, htlt⟩ :: ts', m', by rw [h1]; rfl, ⟨ht, hL, h2⟩, .cons ⟨he, rfl⟩ h3, ?_⟩
              simpa [List.append_assoc] using h4
            · rintro ⟨es', rest', ts', m', h1, h2, h3, h4⟩
              obtain ⟨es'', ts'', rfl, rfl, _, h5, h6, _, h7⟩ := hfirst es' rest' ts' m' h1 h2 h3 (h4.imp id (·.1))
              refine i2 h ⟨es'', rest', ts'', m', h5, h6, h7, ?_⟩
              simpa [List.append_assoc] using h4
            · obtain ⟨es', rest', ts', m', h1, h2, h3, h4⟩ := i3 h
              exact ⟨e :: es', rest', ⟨tn, htlt⟩ :: ts', m', by rw [h1]; rfl, by simp [h2], .cons ⟨he, rfl⟩ h3, h4⟩
      · have hcf : N.checkPreset m tn = false := by simpa using hcp
        rw [hcf]
        refine ⟨by simp, fun _ => ?_, by simp⟩
        rintro ⟨es', rest', ts', m', h1, h2, h3, h4⟩
        obtain ⟨_, _, _, _, _, _, _, h5, _⟩ := hfirst es' rest' ts' m' h1 h2 h3 (h4.imp id (·.1))
        exact hcp (hen.2 h5)

/-- **C40**: a trace is accepted only if it is executable, rejected only if it is not, and the only other
outcome is the token-limit error when a marking on the way is too large. -/
theorem C40_replay_exact (N : FlatNet) (w : N.WF) (m0 : Nat → Nat) (hm : ∀ p, p < N.nplaces → m0 p < W32)
    (loopIdx : Nat) (trace : List Entry) (hv : ∀ e ∈ trace, ∀ t, e.tid = some t → t < N.ntransitions) :
    (replay N m0 loopIdx trace = .accepted → Executable N m0 loopIdx trace) ∧
    (replay N m0 loopIdx trace = .rejected → ¬ Executable N m0 loopIdx trace) ∧
    (replay N m0 loopIdx trace = .tokenLimit → Exceeds N m0 trace) := by
  have := play_spec w m0 loopIdx trace trace [] [] m0 none rfl hv trivial (.nil m0) hm (by simp [LoopOK])
  exact this

/-- **C40**: if the markings of the trace stay below the limit, acceptance is executability. -/
theorem C40_replay_iff (N : FlatNet) (w : N.WF) (m0 : Nat → Nat) (hm : ∀ p, p < N.nplaces → m0 p < W32)
    (loopIdx : Nat) (trace : List Entry) (hv : ∀ e ∈ trace, ∀ t, e.tid = some t → t < N.ntransitions)
    (hx : ¬ Exceeds N m0 trace) :
    replay N m0 loopIdx trace = .accepted ↔ Executable N m0 loopIdx trace := by
  obtain ⟨h1, h2, h3⟩ := C40_replay_exact N w m0 hm loopIdx trace hv
  cases h : replay N m0 loopIdx trace with
  | accepted => simp [h1 h]
  | rejected => simp [h2 h]
  | tokenLimit => exact absurd (h3 h) hx

/-- Finding: tokens listed for places that are not inputs of the transition are not noticed. -/
theorem C40_finding_extra_tokens :
    let N : FlatNet := ⟨2, 1, 1, [⟨0, 1⟩, ⟨1, 1⟩], [⟨0, 1, false, -1⟩], [0, 1, 1], [true]⟩
    replay N (fun p => if p = 0 then 1 else 0) 9 [⟨some 0, [(0, 1), (1, 7)]⟩] = .accepted ∧
      replay N (fun p => if p = 0 then 1 else 0) 9 [⟨some 0, [(0, 2)]⟩] = .rejected := by
  decide

/-- Finding: entries after a deadlock entry are accepted whatever they are. -/
theorem C40_finding_after_deadlock :
    let N : FlatNet := ⟨2, 1, 1, [⟨0, 1⟩, ⟨1, 1⟩], [⟨0, 1, false, -1⟩], [0, 1, 1], [true]⟩
    replay N (fun _ => 0) 9 [⟨none, []⟩, ⟨some 0, []⟩] = .accepted := by
  decide

/-- There are executable traces; the same entries with a loop mark at the start do not return to it. -/
example : Executable Examples.net3 Examples.mark3 9 [⟨some 1, [(0, 2)]⟩, ⟨some 2, []⟩] ∧
    ¬ Executable Examples.net3 Examples.mark3 0 [⟨some 1, [(0, 2)]⟩, ⟨some 2, []⟩] := by
  have hv : ∀ e ∈ [(⟨some 1, [(0, 2)]⟩ : Entry), ⟨some 2, []⟩], ∀ t, e.tid = some t → t < Examples.net3.ntransitions := by
    intro e he t ht
    simp at he
    rcases he with rfl | rfl <;> (simp at ht; subst ht; decide)
  have hm : ∀ p, p < Examples.net3.nplaces → Examples.mark3 p < W32 := by decide
  exact ⟨(C40_replay_exact _ Examples.net3_wf _ hm 9 _ hv).1 (by decide),
    (C40_replay_exact _ Examples.net3_wf _ hm 0 _ hv).2.1 (by decide)⟩

end ReplayProps
end Verif
