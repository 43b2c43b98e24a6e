import Verif.Stubborn.Model
import Verif.Stubborn.Theory
import Verif.Net.FlatLemmas
import Verif.Net.Directions

/-!
# The closure of a stubborn set
-/

namespace Verif
namespace Stubborn

variable {N : FlatNet}

/-! ### The lists of transitions around a place -/

theorem preT_lt {p t : Nat} (h : t ∈ preT N p) : t < N.ntransitions := by
  simp only [preT, List.mem_flatMap, List.mem_range, List.mem_map] at h
  obtain ⟨a, ha, _, _, rfl⟩ := h
  exact ha

theorem postT_lt {p : Nat} {a : Nat × Int} (h : a ∈ postT N p) : a.1 < N.ntransitions := by
  simp only [postT, List.mem_flatMap, List.mem_range, List.mem_map] at h
  obtain ⟨t, ht, _, _, rfl⟩ := h
  exact ht

theorem inhT_lt {p t : Nat} (h : t ∈ inhT N p) : t < N.ntransitions := by
  simp only [inhT, List.mem_flatMap, List.mem_range, List.mem_map] at h
  obtain ⟨a, ha, _, _, rfl⟩ := h
  exact ha

theorem mem_preT (hd : N.DirOK) (t : Fin N.ntransitions) (p : Nat)
    (h : N.toNet.pre t p < N.toNet.post t p) : t.1 ∈ preT N p := by
  have hp : ∃ i, (N.postset t).find? (fun i => i.place == p) = some i := by
    cases hf : (N.postset t).find? (fun i => i.place == p) with
    | some i => exact ⟨i, rfl⟩
    | none => simp only [FlatNet.toNet, hf] at h; omega
  obtain ⟨i, hi⟩ := hp
  have hm := List.mem_of_find?_eq_some hi
  have hpl : i.place = p := by simpa using List.find?_some hi
  have hdir := hd t i (.inr hm)
  rw [hpl, Int.sign_eq_one_of_pos (by omega)] at hdir
  simp only [preT, List.mem_flatMap, List.mem_range, List.mem_map, List.mem_filter]
  exact ⟨t, t.2, i, ⟨hm, by simp [hpl, hdir]⟩, rfl⟩

theorem mem_postT (t : Fin N.ntransitions) (p : Nat) (h : 0 < N.toNet.pre t p) :
    ∃ i ∈ N.preset t, i.place = p ∧ i.inhibitor = false ∧ (t.1, i.direction) ∈ postT N p := by
  have hp : ∃ i, (N.preset t).find? (fun i => i.place == p && !i.inhibitor) = some i := by
    cases hf : (N.preset t).find? (fun i => i.place == p && !i.inhibitor) with
    | some i => exact ⟨i, rfl⟩
    | none => simp only [FlatNet.toNet, hf] at h; omega
  obtain ⟨i, hi⟩ := hp
  have hm := List.mem_of_find?_eq_some hi
  have hpl := List.find?_some hi
  simp only [Bool.and_eq_true, beq_iff_eq, Bool.not_eq_true'] at hpl
  refine ⟨i, hm, hpl.1, hpl.2, ?_⟩
  simp only [postT, List.mem_flatMap, List.mem_range, List.mem_map, List.mem_filter]
  exact ⟨t, t.2, i, ⟨hm, by simp [hpl.1, hpl.2]⟩, rfl⟩

theorem mem_postT_decr (hd : N.DirOK) (t : Fin N.ntransitions) (p : Nat)
    (h : N.toNet.post t p < N.toNet.pre t p) : ∃ d, d < 0 ∧ (t.1, d) ∈ postT N p := by
  obtain ⟨i, hm, hpl, _, hT⟩ := mem_postT t p (by omega)
  refine ⟨i.direction, ?_, hT⟩
  have := hd t i (.inl hm)
  rw [hpl, Int.sign_eq_neg_one_of_neg (by omega)] at this
  omega

theorem mem_inhT (t : Fin N.ntransitions) (p w : Nat) (h : N.toNet.inh t p = some w) : t.1 ∈ inhT N p := by
  have hp : ∃ i, (N.preset t).find? (fun i => i.place == p && i.inhibitor) = some i := by
    cases hf : (N.preset t).find? (fun i => i.place == p && i.inhibitor) with
    | some i => exact ⟨i, rfl⟩
    | none => simp only [FlatNet.toNet, hf] at h; cases h
  obtain ⟨i, hi⟩ := hp
  have hm := List.mem_of_find?_eq_some hi
  have hpl := List.find?_some hi
  simp only [Bool.and_eq_true, beq_iff_eq] at hpl
  simp only [inhT, List.mem_flatMap, List.mem_range, List.mem_map, List.mem_filter]
  exact ⟨t, t.2, i, ⟨hm, by simp [hpl.1, hpl.2]⟩, rfl⟩

theorem inhT_nil (h : hasInhibitor N = false) (p : Nat) : inhT N p = [] := by
  rw [List.eq_nil_iff_forall_not_mem]
  intro t ht
  simp only [inhT, List.mem_flatMap, List.mem_range, List.mem_map, List.mem_filter] at ht
  obtain ⟨a, ha, i, ⟨hi, h2⟩, rfl⟩ := ht
  simp only [Bool.and_eq_true] at h2
  unfold hasInhibitor at h
  rw [List.any_eq_false] at h
  have := h a (List.mem_range.2 ha)
  simp only [List.any_eq_true, not_exists, not_and] at this
  exact this i hi h2.2

/-! ### Growth -/

/-- `unproc` plus the transitions not in the set. -/
def mu (N : FlatNet) (s : Stub) : Nat :=
  s.unproc.length + ((List.range N.ntransitions).countP fun t => !s.stub t)

/-- Everything only grows. -/
structure Le (s s' : Stub) : Prop where
  stub : ∀ t, s.stub t = true → s'.stub t = true
  pre : ∀ p, s.seenPre p = true → s'.seenPre p = true
  post : ∀ p, s.seenPost p = true → s'.seenPost p = true
  inh : ∀ p, s.seenInh p = true → s'.seenInh p = true

theorem Le.refl (s : Stub) : Le s s := ⟨fun _ h => h, fun _ h => h, fun _ h => h, fun _ h => h⟩

theorem Le.trans {a b c : Stub} (h : Le a b) (h' : Le b c) : Le a c :=
  ⟨fun t x => h'.stub t (h.stub t x), fun t x => h'.pre t (h.pre t x),
   fun t x => h'.post t (h.post t x), fun t x => h'.inh t (h.inh t x)⟩

/-- Transitions have been added. -/
structure Grow (N : FlatNet) (s s' : Stub) : Prop where
  stub : ∀ t, s.stub t = true → s'.stub t = true
  pre : s'.seenPre = s.seenPre
  post : s'.seenPost = s.seenPost
  inh : s'.seenInh = s.seenInh
  un : ∀ t, t ∈ s.unproc → t ∈ s'.unproc
  new : ∀ t, s'.stub t = true → s.stub t = true ∨ (t ∈ s'.unproc ∧ t < N.ntransitions)
  unst : ∀ t, t ∈ s'.unproc → t ∈ s.unproc ∨ s'.stub t = true
  mu : mu N s' = mu N s

theorem Grow.refl (s : Stub) : Grow N s s :=
  ⟨fun _ h => h, rfl, rfl, rfl, fun _ h => h, fun _ h => .inl h, fun _ h => .inl h, rfl⟩

theorem Grow.trans {a b c : Stub} (h : Grow N a b) (h' : Grow N b c) : Grow N a c where
  stub t x := h'.stub t (h.stub t x)
  pre := h'.pre.trans h.pre
  post := h'.post.trans h.post
  inh := h'.inh.trans h.inh
  un t x := h'.un t (h.un t x)
  new t x := by
    rcases h'.new t x with h1 | h1
    · rcases h.new t h1 with h2 | h2
      · exact .inl h2
      · exact .inr ⟨h'.un t h2.1, h2.2⟩
    · exact .inr h1
  unst t x := by
    rcases h'.unst t x with h1 | h1
    · rcases h.unst t h1 with h2 | h2
      · exact .inl h2
      · exact .inr (h'.stub t h2)
    · exact .inr h1
  mu := h'.mu.trans h.mu

theorem countP_set {n t : Nat} (f : Nat → Bool) (ht : t < n) (hf : f t = false) :
    (List.range n).countP (fun u => !f u) = (List.range n).countP (fun u => !setB f t u) + 1 := by
  induction n with
  | zero => omega
  | succ n ih =>
    rw [List.range_succ, List.countP_append, List.countP_append]
    by_cases h : t = n
    · subst h
      have : (List.range t).countP (fun u => !f u) = (List.range t).countP (fun u => !setB f t u) := by
        apply List.countP_congr
        intro x hx
        have := List.mem_range.1 hx
        simp only [setB]
        rw [if_neg (by omega)]
      rw [this]
      simp [hf, setB]
    · rw [ih (by omega)]
      have : setB f t n = f n := by simp only [setB]; rw [if_neg (by omega)]
      simp only [List.countP_cons, List.countP_nil, this]
      omega

theorem addToStub_grow {s : Stub} {t : Nat} (ht : t < N.ntransitions) :
    Grow N s (addToStub s t) ∧ (addToStub s t).stub t = true := by
  unfold addToStub
  cases h : s.stub t with
  | true => exact ⟨by simpa using Grow.refl s, by simpa using h⟩
  | false =>
    simp only [Bool.not_false, if_true]
    refine ⟨⟨fun u hu => ?_, rfl, rfl, rfl, fun u hu => by simp [hu], fun u hu => ?_, fun u hu => ?_, ?_⟩,
      by simp [setB]⟩
    · simp only [setB]; split <;> simp [hu]
    · simp only [setB] at hu
      split at hu
      · rename_i he; right; simp [he, ht]
      · exact .inl hu
    · rcases List.mem_append.1 hu with hu | hu
      · exact .inl hu
      · rw [List.mem_singleton] at hu; right; simp [setB, hu]
    · simp only [mu, List.length_append, List.length_cons, List.length_nil]
      rw [countP_set s.stub ht h]
      omega

theorem foldl_grow {α : Type} (f : Stub → α → Stub) (g : α → Nat) (P : α → Prop) (l : List α)
    (hf : ∀ s, ∀ a ∈ l, Grow N s (f s a) ∧ (P a → (f s a).stub (g a) = true)) (s : Stub) :
    Grow N s (l.foldl f s) ∧ ∀ a ∈ l, P a → (l.foldl f s).stub (g a) = true := by
  induction l generalizing s with
  | nil => exact ⟨.refl s, by simp⟩
  | cons a l ih =>
    obtain ⟨h1, h2⟩ := hf s a (List.mem_cons_self ..)
    obtain ⟨h3, h4⟩ := ih (fun s b hb => hf s b (List.mem_cons_of_mem _ hb)) (f s a)
    refine ⟨h1.trans h3, fun b hb hP => ?_⟩
    rcases List.mem_cons.1 hb with rfl | hb
    · exact h3.stub _ (h2 hP)
    · exact h4 b hb hP

theorem addAll_grow (l : List Nat) (hl : ∀ t ∈ l, t < N.ntransitions) (s : Stub) :
    Grow N s (l.foldl addToStub s) ∧ ∀ t ∈ l, (l.foldl addToStub s).stub t = true := by
  have := foldl_grow (N := N) addToStub id (fun _ => True) l
    (fun s a ha => ⟨(addToStub_grow (hl a ha)).1, fun _ => (addToStub_grow (hl a ha)).2⟩) s
  exact ⟨this.1, fun t ht => this.2 t ht trivial⟩

theorem addDecr_grow (p : Nat) (s : Stub) :
    Grow N s ((postT N p).foldl addDecr s) ∧
      ∀ a ∈ postT N p, a.2 < 0 → ((postT N p).foldl addDecr s).stub a.1 = true := by
  refine foldl_grow (N := N) addDecr Prod.fst (fun a => a.2 < 0) _ (fun s a ha => ?_) s
  unfold addDecr
  split
  · exact ⟨(addToStub_grow (postT_lt ha)).1, fun _ => (addToStub_grow (postT_lt ha)).2⟩
  · rename_i h; exact ⟨.refl s, fun h' => (h h').elim⟩

theorem addPost_grow (p : Nat) (s : Stub) :
    Grow N s ((postT N p).foldl (fun s a => addToStub s a.1) s) ∧
      ∀ a ∈ postT N p, ((postT N p).foldl (fun s a => addToStub s a.1) s).stub a.1 = true := by
  have := foldl_grow (N := N) (fun s a => addToStub s a.1) Prod.fst (fun _ : Nat × Int => True) (postT N p)
    (fun s a ha => ⟨(addToStub_grow (postT_lt ha)).1, fun _ => (addToStub_grow (postT_lt ha)).2⟩) s
  exact ⟨this.1, fun t ht => this.2 t ht trivial⟩

/-! ### The invariant -/

section
variable (N : FlatNet) (m : Nat → Nat) (en : Nat → Bool)

/-- The conditions for a transition taken from `_unprocessed` hold. -/
def Proc (s : Stub) (t : Nat) : Prop :=
  if en t then
    (∀ i ∈ N.preset t, i.direction < 0 → ∀ a ∈ postT N i.place, s.stub a.1 = true) ∧
    (∀ i ∈ N.postset t, i.direction > 0 → ∀ u ∈ inhT N i.place, s.stub u = true)
  else ∃ i ∈ N.preset t,
    (m i.place < i.tokens ∧ i.inhibitor = false ∧ s.seenPre i.place = true) ∨
    (i.tokens ≤ m i.place ∧ i.inhibitor = true ∧ s.seenPost i.place = true)

/-- The invariant; `X` is a set of transitions being processed. -/
structure Inv (X : Nat → Prop) (s : Stub) : Prop where
  pre : ∀ p, s.seenPre p = true → ∀ t ∈ preT N p, s.stub t = true
  post : ∀ p, s.seenPost p = true → ∀ a ∈ postT N p, a.2 < 0 → s.stub a.1 = true
  inh : ∀ p, s.seenInh p = true → ∀ t ∈ inhT N p, s.stub t = true
  lt : ∀ t, s.stub t = true → t < N.ntransitions
  unst : ∀ t ∈ s.unproc, s.stub t = true
  proc : ∀ t, s.stub t = true → t ∈ s.unproc ∨ Proc N m en s t ∨ X t
  mu : mu N s ≤ N.ntransitions
end

variable {m : Nat → Nat} {en : Nat → Bool} {X : Nat → Prop}

theorem Proc.mono {s s' : Stub} (h : Le s s') {t : Nat} (hp : Proc N m en s t) : Proc N m en s' t := by
  unfold Proc at *
  split
  · rename_i he
    rw [if_pos he] at hp
    exact ⟨fun i hi hd a ha => h.stub _ (hp.1 i hi hd a ha), fun i hi hd a ha => h.stub _ (hp.2 i hi hd a ha)⟩
  · rename_i he
    rw [if_neg he] at hp
    obtain ⟨i, hi, ⟨h1, h2, h3⟩ | ⟨h1, h2, h3⟩⟩ := hp
    · exact ⟨i, hi, .inl ⟨h1, h2, h.pre _ h3⟩⟩
    · exact ⟨i, hi, .inr ⟨h1, h2, h.post _ h3⟩⟩

theorem Grow.le {s s' : Stub} (h : Grow N s s') : Le s s' :=
  ⟨h.stub, fun p => by rw [h.pre]; exact id, fun p => by rw [h.post]; exact id, fun p => by rw [h.inh]; exact id⟩

/-- A step that adds transitions and keeps the invariant. -/
structure Ext (N : FlatNet) (m : Nat → Nat) (en : Nat → Bool) (X : Nat → Prop) (s s' : Stub) : Prop where
  le : Le s s'
  inv : Inv N m en X s → Inv N m en X s'

theorem Ext.refl (s : Stub) : Ext N m en X s s := ⟨.refl s, id⟩
theorem Ext.trans {a b c : Stub} (h : Ext N m en X a b) (h' : Ext N m en X b c) : Ext N m en X a c :=
  ⟨h.le.trans h'.le, fun x => h'.inv (h.inv x)⟩

/-- Adding transitions keeps what does not concern the seen bits. -/
theorem Grow.inv {s s' : Stub} (h : Grow N s s') (hi : Inv N m en X s) : Inv N m en X s' where
  pre p hp t ht := h.stub _ (hi.pre p (by rw [← h.pre]; exact hp) t ht)
  post p hp t ht hd := h.stub _ (hi.post p (by rw [← h.post]; exact hp) t ht hd)
  inh p hp t ht := h.stub _ (hi.inh p (by rw [← h.inh]; exact hp) t ht)
  lt t ht := by
    rcases h.new t ht with h1 | h1
    · exact hi.lt t h1
    · exact h1.2
  unst t ht := by
    rcases h.unst t ht with h1 | h1
    · exact h.stub t (hi.unst t h1)
    · exact h1
  proc t ht := by
    rcases h.new t ht with h1 | h1
    · rcases hi.proc t h1 with h2 | h2 | h2
      · exact .inl (h.un t h2)
      · exact .inr (.inl (h2.mono h.le))
      · exact .inr (.inr h2)
    · exact .inl h1.1
  mu := by rw [h.mu]; exact hi.mu

theorem Grow.ext {s s' : Stub} (h : Grow N s s') : Ext N m en X s s' := ⟨h.le, h.inv⟩

theorem setB_self (f : Nat → Bool) (p : Nat) : setB f p p = true := by simp [setB]
theorem setB_of (f : Nat → Bool) (p q : Nat) (h : f q = true) : setB f p q = true := by
  simp only [setB]; split <;> simp [h]
theorem of_setB {f : Nat → Bool} {p q : Nat} (h : setB f p q = true) : q = p ∨ f q = true := by
  by_cases hq : q = p
  · exact .inl hq
  · right; simpa [setB, hq] using h

/-- Marking a place as seen and adding the transitions concerned. -/
theorem presetOf_ext (p : Nat) (s : Stub) :
    Ext N m en X s (presetOf N p s) ∧ (presetOf N p s).seenPre p = true := by
  unfold presetOf
  cases hs : s.seenPre p with
  | true => exact ⟨by simpa using Ext.refl s, by simpa using hs⟩
  | false =>
    simp only [Bool.false_eq_true, if_false]
    obtain ⟨h, hall⟩ := addAll_grow (preT N p) (fun t => preT_lt) { s with seenPre := setB s.seenPre p }
    generalize (preT N p).foldl addToStub { s with seenPre := setB s.seenPre p } = s' at h hall
    have hle : Le s s' := by
      refine Le.trans (b := { s with seenPre := setB s.seenPre p }) ⟨fun _ h => h, fun q hq => setB_of _ _ _ hq, fun _ h => h, fun _ h => h⟩ h.le
    refine ⟨⟨hle, fun hi => ?_⟩, by rw [h.pre]; exact setB_self _ _⟩
    refine ⟨fun q hq t ht => ?_, fun q hq t ht hd => ?_, fun q hq t ht => ?_, fun t ht => ?_, fun t ht => ?_,
      fun t ht => ?_, ?_⟩
    · rw [h.pre] at hq
      rcases of_setB hq with rfl | hq
      · exact hall t ht
      · exact hle.stub t (hi.pre q hq t ht)
    · rw [h.post] at hq; exact hle.stub _ (hi.post q hq t ht hd)
    · rw [h.inh] at hq; exact hle.stub _ (hi.inh q hq t ht)
    · rcases h.new t ht with h1 | h1
      · exact hi.lt t h1
      · exact h1.2
    · rcases h.unst t ht with h1 | h1
      · exact h.stub t (hi.unst t h1)
      · exact h1
    · rcases h.new t ht with h1 | h1
      · rcases hi.proc t h1 with h2 | h2 | h2
        · exact .inl (h.un t h2)
        · exact .inr (.inl (h2.mono hle))
        · exact .inr (.inr h2)
      · exact .inl h1.1
    · rw [h.mu]; exact hi.mu

theorem postsetOf_ext (p : Nat) (s : Stub) :
    Ext N m en X s (postsetOf N p s) ∧ (postsetOf N p s).seenPost p = true := by
  unfold postsetOf
  cases hs : s.seenPost p with
  | true => exact ⟨by simpa using Ext.refl s, by simpa using hs⟩
  | false =>
    simp only [Bool.false_eq_true, if_false]
    obtain ⟨h, hall⟩ := addDecr_grow (N := N) p { s with seenPost := setB s.seenPost p }
    generalize (postT N p).foldl addDecr { s with seenPost := setB s.seenPost p } = s' at h hall
    have hle : Le s s' := by
      refine Le.trans (b := { s with seenPost := setB s.seenPost p }) ⟨fun _ h => h, fun _ h => h, fun q hq => setB_of _ _ _ hq, fun _ h => h⟩ h.le
    refine ⟨⟨hle, fun hi => ?_⟩, by rw [h.post]; exact setB_self _ _⟩
    refine ⟨fun q hq t ht => ?_, fun q hq t ht hd => ?_, fun q hq t ht => ?_, fun t ht => ?_, fun t ht => ?_,
      fun t ht => ?_, ?_⟩
    · rw [h.pre] at hq; exact hle.stub _ (hi.pre q hq t ht)
    · rw [h.post] at hq
      rcases of_setB hq with rfl | hq
      · exact hall t ht hd
      · exact hle.stub _ (hi.post q hq t ht hd)
    · rw [h.inh] at hq; exact hle.stub _ (hi.inh q hq t ht)
    · rcases h.new t ht with h1 | h1
      · exact hi.lt t h1
      · exact h1.2
    · rcases h.unst t ht with h1 | h1
      · exact h.stub t (hi.unst t h1)
      · exact h1
    · rcases h.new t ht with h1 | h1
      · rcases hi.proc t h1 with h2 | h2 | h2
        · exact .inl (h.un t h2)
        · exact .inr (.inl (h2.mono hle))
        · exact .inr (.inr h2)
      · exact .inl h1.1
    · rw [h.mu]; exact hi.mu

theorem inhibitorPostsetOf_ext (p : Nat) (s : Stub) :
    Ext N m en X s (inhibitorPostsetOf N p s) ∧ (inhibitorPostsetOf N p s).seenInh p = true := by
  unfold inhibitorPostsetOf
  cases hs : s.seenInh p with
  | true => exact ⟨by simpa using Ext.refl s, by simpa using hs⟩
  | false =>
    simp only [Bool.false_eq_true, if_false]
    obtain ⟨h, hall⟩ := addAll_grow (inhT N p) (fun t => inhT_lt) { s with seenInh := setB s.seenInh p }
    generalize (inhT N p).foldl addToStub { s with seenInh := setB s.seenInh p } = s' at h hall
    have hle : Le s s' := by
      refine Le.trans (b := { s with seenInh := setB s.seenInh p }) ⟨fun _ h => h, fun _ h => h, fun _ h => h, fun q hq => setB_of _ _ _ hq⟩ h.le
    refine ⟨⟨hle, fun hi => ?_⟩, by rw [h.inh]; exact setB_self _ _⟩
    refine ⟨fun q hq t ht => ?_, fun q hq t ht hd => ?_, fun q hq t ht => ?_, fun t ht => ?_, fun t ht => ?_,
      fun t ht => ?_, ?_⟩
    · rw [h.pre] at hq; exact hle.stub _ (hi.pre q hq t ht)
    · rw [h.post] at hq; exact hle.stub _ (hi.post q hq t ht hd)
    · rw [h.inh] at hq
      rcases of_setB hq with rfl | hq
      · exact hall t ht
      · exact hle.stub _ (hi.inh q hq t ht)
    · rcases h.new t ht with h1 | h1
      · exact hi.lt t h1
      · exact h1.2
    · rcases h.unst t ht with h1 | h1
      · exact h.stub t (hi.unst t h1)
      · exact h1
    · rcases h.new t ht with h1 | h1
      · rcases hi.proc t h1 with h2 | h2 | h2
        · exact .inl (h.un t h2)
        · exact .inr (.inl (h2.mono hle))
        · exact .inr (.inr h2)
      · exact .inl h1.1
    · rw [h.mu]; exact hi.mu

theorem foldl_ext {α : Type} (f : Stub → α → Stub) (l : List α)
    (hf : ∀ s, ∀ a ∈ l, Ext N m en X s (f s a)) (s : Stub) : Ext N m en X s (l.foldl f s) := by
  induction l generalizing s with
  | nil => exact .refl s
  | cons a l ih =>
    exact (hf s a (List.mem_cons_self ..)).trans (ih (fun s b hb => hf s b (List.mem_cons_of_mem _ hb)) _)

/-- A fold in which every element establishes something that stays. -/
theorem foldl_ext_all {α : Type} (f : Stub → α → Stub) (Q : α → Stub → Prop) (l : List α)
    (hf : ∀ s, ∀ a ∈ l, Ext N m en X s (f s a) ∧ (Inv N m en X s → Q a (f s a)))
    (hQ : ∀ a s s', Le s s' → Q a s → Q a s') (s : Stub) :
    Ext N m en X s (l.foldl f s) ∧ (Inv N m en X s → ∀ a ∈ l, Q a (l.foldl f s)) := by
  induction l generalizing s with
  | nil => exact ⟨.refl s, by simp⟩
  | cons a l ih =>
    obtain ⟨h1, h2⟩ := hf s a (List.mem_cons_self ..)
    obtain ⟨h3, h4⟩ := ih (fun s b hb => hf s b (List.mem_cons_of_mem _ hb)) (f s a)
    refine ⟨h1.trans h3, fun hi b hb => ?_⟩
    rcases List.mem_cons.1 hb with rfl | hb
    · exact hQ _ _ _ h3.le (h2 hi)
    · exact h4 (h1.inv hi) b hb

/-! ### Rounds of the closure -/

theorem closeEnabled_ext (t : Nat) (s : Stub) :
    Ext N m en X s (closeEnabled N t s) ∧
    (Inv N m en X s → en t = true → Proc N m en (closeEnabled N t s) t) := by
  have h1 := foldl_ext_all (N := N) (m := m) (en := en) (X := X) (closePre N)
    (fun i s => i.direction < 0 → ∀ a ∈ postT N i.place, s.stub a.1 = true) (N.preset t)
    (fun s i _ => by
      unfold closePre
      split
      · have := addPost_grow (N := N) i.place s
        exact ⟨this.1.ext, fun _ _ => this.2⟩
      · rename_i h; exact ⟨.refl s, fun _ h' => (h h').elim⟩)
    (fun i s s' hle h hd a ha => hle.stub _ (h hd a ha)) s
  have h2 := fun s => foldl_ext_all (N := N) (m := m) (en := en) (X := X) (closePost N)
    (fun i s => i.direction > 0 → ∀ u ∈ inhT N i.place, s.stub u = true) (N.postset t)
    (fun s i _ => by
      unfold closePost
      split
      · have := inhibitorPostsetOf_ext (N := N) (m := m) (en := en) (X := X) i.place s
        exact ⟨this.1, fun hi _ => (this.1.inv hi).inh _ this.2⟩
      · rename_i h; exact ⟨.refl s, fun _ h' => (h h').elim⟩)
    (fun i s s' hle h hd a ha => hle.stub _ (h hd a ha)) s
  unfold closeEnabled
  dsimp only
  generalize (N.preset t).foldl (closePre N) s = s1 at h1
  cases hh : hasInhibitor N with
  | true =>
    simp only [if_true]
    have h2 := h2 s1
    refine ⟨h1.1.trans h2.1, fun hi he => ?_⟩
    unfold Proc
    rw [if_pos he]
    exact ⟨fun i him hd a ha => h2.1.le.stub _ (h1.2 hi i him hd a ha), h2.2 (h1.1.inv hi)⟩
  | false =>
    simp only [Bool.false_eq_true, if_false]
    refine ⟨h1.1, fun hi he => ?_⟩
    unfold Proc
    rw [if_pos he]
    refine ⟨h1.2 hi, fun i _ _ u hu => ?_⟩
    rw [inhT_nil hh] at hu
    cases hu

/-- An arc that disables the transition. -/
def Viol (m : Nat → Nat) (i : Invariant) : Prop :=
  (m i.place < i.tokens ∧ i.inhibitor = false) ∨ (i.tokens ≤ m i.place ∧ i.inhibitor = true)

theorem checkInvs_false {l : List Invariant} (h : FlatNet.checkInvs m l = false) : ∃ i ∈ l, Viol m i := by
  induction l with
  | nil => simp [FlatNet.checkInvs] at h
  | cons i l ih =>
    simp only [FlatNet.checkInvs] at h
    by_cases h1 : m i.place < i.tokens
    · rw [if_pos h1] at h
      cases hi : i.inhibitor with
      | false => exact ⟨i, List.mem_cons_self .., .inl ⟨h1, hi⟩⟩
      | true =>
        rw [hi] at h
        obtain ⟨j, hj, hv⟩ := ih (by simpa using h)
        exact ⟨j, List.mem_cons_of_mem _ hj, hv⟩
    · rw [if_neg h1] at h
      cases hi : i.inhibitor with
      | true => exact ⟨i, List.mem_cons_self .., .inr ⟨by omega, hi⟩⟩
      | false =>
        rw [hi] at h
        obtain ⟨j, hj, hv⟩ := ih (by simpa using h)
        exact ⟨j, List.mem_cons_of_mem _ hj, hv⟩

/-- A disabling arc that is already taken care of. -/
def Cared (m : Nat → Nat) (s : Stub) (i : Invariant) : Prop :=
  (m i.place < i.tokens ∧ i.inhibitor = false ∧ s.seenPre i.place = true) ∨
  (i.tokens ≤ m i.place ∧ i.inhibitor = true ∧ s.seenPost i.place = true)

theorem dependency_lt (p : Nat) (b : Bool) : dependency N p b ≤ W32 - 1 := by
  have : 0 < W32 := by decide
  unfold dependency
  split
  · have := Nat.mod_lt (preT N p).length this; omega
  · have := Nat.mod_lt (postT N p).length this; omega

theorem pick_spec (s : Stub) (L : List Invariant) : ∀ (l : List Invariant) (k : Pick), (∀ i ∈ l, i ∈ L) →
    k.ok = false → (k.cand = none → k.deps = W32 - 1) →
    (∀ p, k.cand = some p → ∃ i ∈ L, Viol m i ∧ i.place = p ∧ i.inhibitor = k.inhib) →
    ((pick N m s l k).ok = true ∧ ∃ i ∈ L, Cared m s i) ∨
    ((pick N m s l k).ok = false ∧ ((k.cand ≠ none ∨ ∃ i ∈ l, Viol m i) → (pick N m s l k).cand ≠ none) ∧
      ∀ p, (pick N m s l k).cand = some p →
        ∃ i ∈ L, Viol m i ∧ i.place = p ∧ i.inhibitor = (pick N m s l k).inhib)
  | [], k, _, hok, _, hc => by
    right
    simp only [pick]
    exact ⟨hok, fun h => h.elim id (by simp), hc⟩
  | i :: l, k, hL, hok, hn, hc => by
    have hiL := hL i (List.mem_cons_self ..)
    have hlL : ∀ j ∈ l, j ∈ L := fun j hj => hL j (List.mem_cons_of_mem _ hj)
    have ih := pick_spec s L l
    unfold pick
    by_cases h1 : m i.place < i.tokens ∧ i.inhibitor = false
    · rw [if_pos h1]
      cases hs : s.seenPre i.place with
      | true =>
        simp only [if_true]
        exact .inl ⟨by simp, i, hiL, .inl ⟨h1.1, h1.2, hs⟩⟩
      | false =>
        simp only [Bool.false_eq_true, if_false]
        by_cases hdp : k.deps ≥ dependency N i.place false
        · rw [if_pos hdp]
          rcases ih { ok := false, inhib := false, cand := some i.place, deps := dependency N i.place false } hlL rfl
            (by simp) (fun p hp => ⟨i, hiL, .inl h1, by simpa using hp, h1.2⟩) with h | ⟨h2, h3, h4⟩
          · exact .inl h
          · exact .inr ⟨h2, fun _ => h3 (.inl (by simp)), h4⟩
        · rw [if_neg hdp]
          have hcn : k.cand ≠ none := fun h => by
            have := hn h
            have := dependency_lt (N := N) i.place false
            omega
          rcases ih { k with ok := false } hlL rfl hn hc with h | ⟨h2, h3, h4⟩
          · exact .inl h
          · exact .inr ⟨h2, fun _ => h3 (.inl hcn), h4⟩
    · rw [if_neg h1]
      by_cases h2 : m i.place ≥ i.tokens ∧ i.inhibitor = true
      · rw [if_pos h2]
        cases hs : s.seenPost i.place with
        | true =>
          simp only [if_true]
          exact .inl ⟨by simp, i, hiL, .inr ⟨h2.1, h2.2, hs⟩⟩
        | false =>
          simp only [Bool.false_eq_true, if_false]
          by_cases hdp : k.deps ≥ dependency N i.place true
          · rw [if_pos hdp]
            rcases ih { ok := false, inhib := true, cand := some i.place, deps := dependency N i.place true } hlL rfl
              (by simp) (fun p hp => ⟨i, hiL, .inr h2, by simpa using hp, h2.2⟩) with h | ⟨h2, h3, h4⟩
            · exact .inl h
            · exact .inr ⟨h2, fun _ => h3 (.inl (by simp)), h4⟩
          · rw [if_neg hdp]
            have hcn : k.cand ≠ none := fun h => by
              have := hn h
              have := dependency_lt (N := N) i.place true
              omega
            rcases ih { k with ok := false } hlL rfl hn hc with h | ⟨h2, h3, h4⟩
            · exact .inl h
            · exact .inr ⟨h2, fun _ => h3 (.inl hcn), h4⟩
      · rw [if_neg h2]
        rcases ih k hlL hok hn hc with h | ⟨h3, h4, h5⟩
        · exact .inl h
        · refine .inr ⟨h3, fun h => h4 ?_, h5⟩
          rcases h with h | ⟨j, hj, hv⟩
          · exact .inl h
          · rcases List.mem_cons.1 hj with rfl | hj
            · rcases hv with hv | hv
              · exact (h1 hv).elim
              · exact (h2 hv).elim
            · exact .inr ⟨j, hj, hv⟩

theorem closeDisabled_ext (t : Nat) (s : Stub) :
    Ext N m en X s (closeDisabled N m t s) ∧
    (en t = false → N.checkPreset m t = false → Proc N m en (closeDisabled N m t s) t) := by
  have hsp := pick_spec (N := N) (m := m) s (N.preset t) (N.preset t) {} (fun _ h => h) rfl (fun _ => rfl)
    (fun p hp => by cases hp)
  unfold closeDisabled
  generalize pick N m s (N.preset t) {} = k at hsp
  unfold applyPick
  rcases hsp with ⟨hok, i, hi, hca⟩ | ⟨hok, hcn, hc⟩
  · rw [if_pos hok]
    refine ⟨.refl s, fun he _ => ?_⟩
    unfold Proc
    rw [if_neg (by simp [he])]
    exact ⟨i, hi, hca⟩
  · rw [if_neg (by simp [hok])]
    cases hcd : k.cand with
    | none =>
      simp only
      refine ⟨.refl s, fun he hck => ?_⟩
      exact (hcn (.inr (checkInvs_false hck)) hcd).elim
    | some p =>
      simp only
      obtain ⟨i, hi, hv, hp, hin⟩ := hc p hcd
      cases hb : k.inhib with
      | false =>
        simp only [Bool.not_false, if_true]
        have := presetOf_ext (N := N) (m := m) (en := en) (X := X) p s
        refine ⟨this.1, fun he _ => ?_⟩
        unfold Proc
        rw [if_neg (by simp [he])]
        rw [hb] at hin
        refine ⟨i, hi, .inl ?_⟩
        rcases hv with hv | hv
        · exact ⟨hv.1, hv.2, by rw [hp]; exact this.2⟩
        · rw [hv.2] at hin; cases hin
      | true =>
        simp only [Bool.not_true, Bool.false_eq_true, if_false]
        have := postsetOf_ext (N := N) (m := m) (en := en) (X := X) p s
        refine ⟨this.1, fun he _ => ?_⟩
        unfold Proc
        rw [if_neg (by simp [he])]
        rw [hb] at hin
        refine ⟨i, hi, .inr ?_⟩
        rcases hv with hv | hv
        · rw [hv.2] at hin; cases hin
        · exact ⟨hv.1, hv.2, by rw [hp]; exact this.2⟩

theorem closeStep_mu (t : Nat) (s : Stub) : mu N (closeStep N m en t s) = mu N s := by
  have hinh : ∀ p s, mu N (inhibitorPostsetOf N p s) = mu N s := by
    intro p s
    unfold inhibitorPostsetOf
    split
    · rfl
    · rw [(addAll_grow (inhT N p) (fun t => inhT_lt) _).1.mu]; rfl
  have hf : ∀ {α : Type} (f : Stub → α → Stub) (l : List α), (∀ s a, mu N (f s a) = mu N s) →
      ∀ s, mu N (l.foldl f s) = mu N s := by
    intro α f l h
    induction l with
    | nil => intro s; rfl
    | cons a l ih => intro s; rw [List.foldl_cons, ih, h]
  unfold closeStep
  split
  · unfold closeEnabled
    dsimp only
    have h1 : mu N ((N.preset t).foldl (closePre N) s) = mu N s := by
      apply hf
      intro s i
      unfold closePre
      split
      · exact (addPost_grow i.place s).1.mu
      · rfl
    split
    · rw [hf (closePost N), h1]
      intro s i
      unfold closePost
      split
      · exact hinh _ _
      · rfl
    · exact h1
  · unfold closeDisabled applyPick
    split
    · rfl
    · split
      · rfl
      · split
        · unfold presetOf
          split
          · rfl
          · rw [(addAll_grow (preT N _) (fun t => preT_lt) _).1.mu]; rfl
        · unfold postsetOf
          split
          · rfl
          · rw [(addDecr_grow _ _).1.mu]; rfl

/-- The test of the enabled transitions agrees with the flags. -/
def EnOK (N : FlatNet) (m : Nat → Nat) (en : Nat → Bool) : Prop :=
  ∀ t, t < N.ntransitions → en t = N.checkPreset m t

theorem closeStep_ext (hen : EnOK N m en) (t : Nat) (s : Stub) (ht : t < N.ntransitions) :
    Ext N m en X s (closeStep N m en t s) ∧ (Inv N m en X s → Proc N m en (closeStep N m en t s) t) := by
  unfold closeStep
  cases he : en t with
  | true =>
    simp only [if_true]
    have := closeEnabled_ext (N := N) (m := m) (en := en) (X := X) t s
    exact ⟨this.1, fun hi => this.2 hi he⟩
  | false =>
    simp only [Bool.false_eq_true, if_false]
    have := closeDisabled_ext (N := N) (m := m) (en := en) (X := X) t s
    exact ⟨this.1, fun _ => this.2 he (by rw [← hen t ht]; exact he)⟩

theorem closureLoop_spec (hen : EnOK N m en) : ∀ (n : Nat) (s : Stub), Inv N m en (fun _ => False) s → mu N s ≤ n →
    Le s (closureLoop N m en n s) ∧ Inv N m en (fun _ => False) (closureLoop N m en n s) ∧
    (closureLoop N m en n s).unproc = []
  | 0, s, hi, hmu => by
    simp only [closureLoop]
    refine ⟨.refl s, hi, ?_⟩
    have : s.unproc.length = 0 := by unfold mu at hmu; omega
    exact List.length_eq_zero_iff.1 this
  | n + 1, s, hi, hmu => by
    unfold closureLoop
    cases hu : s.unproc with
    | nil => exact ⟨.refl s, hi, hu⟩
    | cons t rest =>
      simp only
      have ht : t < N.ntransitions := hi.lt t (hi.unst t (by rw [hu]; exact List.mem_cons_self ..))
      have hi1 : Inv N m en (fun u => u = t) { s with unproc := rest } := by
        refine ⟨hi.pre, hi.post, hi.inh, hi.lt, fun u hu' => hi.unst u (by rw [hu]; exact List.mem_cons_of_mem _ hu'),
          fun u hu' => ?_, ?_⟩
        · rcases hi.proc u hu' with h | h | h
          · rw [hu] at h
            rcases List.mem_cons.1 h with h | h
            · exact .inr (.inr h)
            · exact .inl h
          · exact .inr (.inl h)
          · exact h.elim
        · have := hi.mu
          simp only [mu, hu, List.length_cons] at this ⊢
          omega
      obtain ⟨h1, h2⟩ := closeStep_ext (X := fun u => u = t) hen t { s with unproc := rest } ht
      have hm := closeStep_mu (N := N) (m := m) (en := en) t { s with unproc := rest }
      have hi2 := h1.inv hi1
      have hp := h2 hi1
      have hle1 : Le s (closeStep N m en t { s with unproc := rest }) := ⟨h1.le.stub, h1.le.pre, h1.le.post, h1.le.inh⟩
      generalize closeStep N m en t { s with unproc := rest } = s2 at hm hi2 hp hle1 ⊢
      obtain ⟨h3, h4, h5⟩ := closureLoop_spec hen n s2
        ⟨hi2.pre, hi2.post, hi2.inh, hi2.lt, hi2.unst, fun u hu' => by
          rcases hi2.proc u hu' with h | h | h
          · exact .inl h
          · exact .inr (.inl h)
          · exact .inr (.inl (by rw [h]; exact hp)), hi2.mu⟩ (by
            rw [hm]; simp only [mu, hu, List.length_cons] at hmu ⊢; omega)
      exact ⟨hle1.trans h3, h4, h5⟩

/-- `closure` empties `_unprocessed`, and all conditions hold then. -/
theorem closure_done (hen : EnOK N m en) (s : Stub) (hi : Inv N m en (fun _ => False) s) :
    Le s (closure N m en s) ∧ Inv N m en (fun _ => False) (closure N m en s) ∧ (closure N m en s).unproc = [] :=
  closureLoop_spec hen _ s hi hi.mu

/-- The result of the closure as a set of transitions of the net. -/
theorem closed_of_inv (w : N.WF) (hd : N.DirOK) (hen : EnOK N m en) {s : Stub} (hi : Inv N m en (fun _ => False) s)
    (hu : s.unproc = []) : Closed N.toNet m (fun t : Fin N.ntransitions => s.stub t = true) := by
  have hproc : ∀ t : Fin N.ntransitions, s.stub t = true → Proc N m en s t := by
    intro t ht
    rcases hi.proc t ht with h | h | h
    · rw [hu] at h; cases h
    · exact h
    · exact h.elim
  constructor
  · intro t ht he p
    have hp := hproc t ht
    unfold Proc at hp
    rw [if_pos (by rw [hen t t.2]; exact (FlatNet.checkPreset_iff w m t).2 he)] at hp
    constructor
    · intro hlt u hu
      obtain ⟨i, hi1, hpl, hin, _⟩ := mem_postT t p (by omega)
      obtain ⟨j, _, _, _, hj⟩ := mem_postT u p hu
      have hdir := hd t i (.inl hi1)
      rw [hpl, Int.sign_eq_neg_one_of_neg (by omega)] at hdir
      exact hp.1 i hi1 (by omega) _ (by rw [hpl]; exact hj)
    · intro hlt u v hv
      have hpm : ∃ i ∈ N.postset t, i.place = p := by
        cases hf : (N.postset t).find? (fun i => i.place == p) with
        | some i => exact ⟨i, List.mem_of_find?_eq_some hf, by simpa using List.find?_some hf⟩
        | none => simp only [FlatNet.toNet, hf] at hlt; omega
      obtain ⟨i, hi1, hpl⟩ := hpm
      have hdir := hd t i (.inr hi1)
      rw [hpl, Int.sign_eq_one_of_pos (by omega)] at hdir
      exact hp.2 i hi1 (by omega) _ (by rw [hpl]; exact mem_inhT u p v hv)
  · intro t ht hne
    have hp := hproc t ht
    unfold Proc at hp
    have hck : ¬ N.checkPreset m t = true := fun h => hne ((FlatNet.checkPreset_iff w m t).1 h)
    rw [if_neg (by rw [hen t t.2]; exact hck)] at hp
    obtain ⟨i, him, ⟨h1, h2, h3⟩ | ⟨h1, h2, h3⟩⟩ := hp
    · refine ⟨i.place, .inl ⟨?_, fun u hu => hi.pre _ h3 _ (mem_preT hd u _ hu)⟩⟩
      have : N.toNet.pre t i.place = i.tokens := by
        simp only [FlatNet.toNet]
        rw [(Builder.find_char (w.pre_nodup t t.2) i.place (fun j => !j.inhibitor) i).2 ⟨him, rfl, by simp [h2]⟩]
      omega
    · refine ⟨i.place, .inr ⟨i.tokens, ?_, h1, fun u hu => ?_⟩⟩
      · simp only [FlatNet.toNet]
        rw [(Builder.find_char (w.pre_nodup t t.2) i.place (fun j => j.inhibitor) i).2 ⟨him, rfl, by simp [h2]⟩]
      · obtain ⟨d, hd0, hdm⟩ := mem_postT_decr hd u _ hu
        exact hi.post _ h3 _ hdm hd0

end Stubborn
end Verif
