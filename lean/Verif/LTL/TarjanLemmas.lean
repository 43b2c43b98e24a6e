import Mathlib.Logic.Relation
import Verif.LTL.Tarjan

/-!
# Lemmas about the search based on Tarjan's algorithm
-/

set_option linter.unusedSectionVars false

namespace Verif
namespace LTL
namespace Tarjan
open Relation
variable {V : Type} [DecidableEq V] (G : PGraph V)

/-! ## The hash table -/

/-- The greatest position below `n` whose state has hash `h`. -/
def Last (cs : List (CEntry V)) (n h : Nat) : Option Nat → Prop
  | none => ∀ p e, p < n → cs[p]? = some e → G.hash e.id ≠ h
  | some q => q < n ∧ (∃ e, cs[q]? = some e ∧ G.hash e.id = h) ∧
      ∀ p e, q < p → p < n → cs[p]? = some e → G.hash e.id ≠ h

structure ChainOK (cs : List (CEntry V)) (chash : Nat → Option Nat) : Prop where
  top : ∀ h, Last G cs cs.length h (chash h)
  next : ∀ p e, cs[p]? = some e → Last G cs p (G.hash e.id) e.next

theorem lt_of_get {cs : List (CEntry V)} {p : Nat} {e : CEntry V} (h : cs[p]? = some e) : p < cs.length := by
  rcases Nat.lt_or_ge p cs.length with hl | hl
  · exact hl
  · rw [List.getElem?_eq_none hl] at h; cases h

theorem Last.congr {cs cs' : List (CEntry V)} {n h : Nat} {r : Option Nat}
    (hc : ∀ p, p < n → (cs'[p]?.map (·.id)) = (cs[p]?.map (·.id))) (hl : Last G cs n h r) : Last G cs' n h r := by
  have tr : ∀ p e', p < n → cs'[p]? = some e' → ∃ e, cs[p]? = some e ∧ e.id = e'.id := by
    intro p e' hp he
    have := hc p hp
    rw [he] at this
    cases hq : cs[p]? with
    | none => rw [hq] at this; simp at this
    | some e => rw [hq] at this; simp at this; exact ⟨e, rfl, this.symm⟩
  have tr' : ∀ p e, p < n → cs[p]? = some e → ∃ e', cs'[p]? = some e' ∧ e'.id = e.id := by
    intro p e hp he
    have := hc p hp
    rw [he] at this
    cases hq : cs'[p]? with
    | none => rw [hq] at this; simp at this
    | some e' => rw [hq] at this; simp at this; exact ⟨e', rfl, this⟩
  cases r with
  | none =>
    intro p e' hp he hh
    obtain ⟨e, h1, h2⟩ := tr p e' hp he
    exact hl p e hp h1 (by rw [h2]; exact hh)
  | some q =>
    obtain ⟨hq, ⟨e, he, hh⟩, hn⟩ := hl
    refine ⟨hq, ?_, ?_⟩
    · obtain ⟨e', h1, h2⟩ := tr' q e hq he
      exact ⟨e', h1, by rw [h2]; exact hh⟩
    · intro p e' hqp hp he hh'
      obtain ⟨e, h1, h2⟩ := tr p e' hp he
      exact hn p e hqp hp h1 (by rw [h2]; exact hh')

theorem find_none {cs : List (CEntry V)} {v : V} (hnext : ∀ p e, cs[p]? = some e → Last G cs p (G.hash e.id) e.next) :
    ∀ (n m : Nat) (r : Option Nat), m ≤ n → Last G cs m (G.hash v) r → find cs v n r = none →
      ∀ p e, p < m → cs[p]? = some e → e.id ≠ v := by
  intro n
  induction n with
  | zero => intro m r hm hl hf p e hp; omega
  | succ n ih =>
    intro m r hm hl hf p e hp he hv
    cases r with
    | none => exact hl p e hp he (by rw [hv])
    | some q =>
      obtain ⟨hq, ⟨f, hf1, hf2⟩, hn⟩ := hl
      simp only [find, hf1] at hf
      split at hf
      · cases hf
      · rename_i hne
        rcases Nat.lt_trichotomy p q with hlt | heq | hgt
        · have := hnext q f hf1
          rw [hf2] at this
          exact ih q f.next (by omega) this hf p e hlt he hv
        · subst heq
          rw [hf1] at he; cases he; exact hne hv
        · exact hn p e hgt hp he (by rw [hv])

theorem find_some {cs : List (CEntry V)} {v : V} :
    ∀ (n : Nat) (r : Option Nat) (p : Nat), find cs v n r = some p → ∃ e, cs[p]? = some e ∧ e.id = v := by
  intro n
  induction n with
  | zero => intro r p h; cases r <;> simp [find] at h
  | succ n ih =>
    intro r p h
    cases r with
    | none => simp [find] at h
    | some q =>
      simp only [find] at h
      cases hq : cs[q]? with
      | none => rw [hq] at h; cases h
      | some e =>
        rw [hq] at h
        simp only at h
        split at h
        · rename_i hv; cases h; exact ⟨e, hq, hv⟩
        · exact ih _ _ h

theorem push_get (cs : List (CEntry V)) (e : CEntry V) (p : Nat) (f : CEntry V) :
    (cs ++ [e])[p]? = some f ↔ cs[p]? = some f ∨ (p = cs.length ∧ f = e) := by
  rcases Nat.lt_trichotomy p cs.length with h | h | h
  · rw [List.getElem?_append_left h]
    constructor
    · exact Or.inl
    · rintro (h' | ⟨rfl, _⟩)
      · exact h'
      · omega
  · subst h
    rw [List.getElem?_append_right (Nat.le_refl _)]
    simp only [Nat.sub_self, List.getElem?_cons_zero, Option.some.injEq, true_and]
    constructor
    · exact fun h => Or.inr h.symm
    · rintro (h' | h')
      · have := lt_of_get h'; omega
      · exact h'.symm
  · rw [List.getElem?_eq_none (by simp; omega)]
    constructor
    · intro h'; cases h'
    · rintro (h' | ⟨rfl, _⟩)
      · have := lt_of_get h'; omega
      · omega

theorem chain_push {cs : List (CEntry V)} {chash : Nat → Option Nat} (hc : ChainOK G cs chash) (v : V) (l : Nat) :
    ChainOK G (cs ++ [⟨l, v, chash (G.hash v)⟩]) (fun h => if h = G.hash v then some cs.length else chash h) := by
  have hcg : ∀ p, p < cs.length → ((cs ++ [⟨l, v, chash (G.hash v)⟩])[p]?.map (·.id)) = (cs[p]?.map (·.id)) := by
    intro p hp; rw [List.getElem?_append_left hp]
  constructor
  · intro h
    show Last G _ _ h (if h = G.hash v then some cs.length else chash h)
    by_cases hh : h = G.hash v
    · rw [if_pos hh]
      refine ⟨by simp, ⟨_, (push_get cs _ _ _).2 (Or.inr ⟨rfl, rfl⟩), hh.symm⟩, ?_⟩
      intro p e h1 h2 _
      simp at h2; omega
    · rw [if_neg hh]
      have := (hc.top h).congr G hcg
      cases hr : chash h with
      | none =>
        rw [hr] at this
        intro p e hp he
        rcases (push_get cs _ _ _).1 he with h1 | ⟨h1, h2⟩
        · exact this p e (lt_of_get h1) he
        · rw [h2]; exact fun hx => hh hx.symm
      | some q =>
        rw [hr] at this
        obtain ⟨a, b, c⟩ := this
        refine ⟨by simp; omega, b, ?_⟩
        intro p e hqp hp he
        rcases (push_get cs _ _ _).1 he with h1 | ⟨h1, h2⟩
        · exact c p e hqp (lt_of_get h1) he
        · rw [h2]; exact fun hx => hh hx.symm
  · intro p e he
    rcases (push_get cs _ _ _).1 he with h1 | ⟨h1, h2⟩
    · exact (hc.next p e h1).congr G (fun q hq => hcg q (Nat.lt_trans hq (lt_of_get h1)))
    · subst h1; subst h2
      exact (hc.top (G.hash v)).congr G hcg

theorem dropLast_get (cs : List (CEntry V)) (p : Nat) (f : CEntry V) :
    cs.dropLast[p]? = some f ↔ cs[p]? = some f ∧ p < cs.length - 1 := by
  rw [List.dropLast_eq_take, List.getElem?_take]
  by_cases h : p < cs.length - 1
  · simp [h]
  · simp [h]

theorem chain_pop {cs : List (CEntry V)} {chash : Nat → Option Nat} (hc : ChainOK G cs chash) {e : CEntry V}
    (he : cs[cs.length - 1]? = some e) :
    ChainOK G cs.dropLast (fun h => if h = G.hash e.id then e.next else chash h) := by
  have hlen := lt_of_get he
  have hcg : ∀ n, n ≤ cs.length - 1 → ∀ p, p < n → (cs.dropLast[p]?.map (·.id)) = (cs[p]?.map (·.id)) := by
    intro n hn p hp
    rw [List.dropLast_eq_take, List.getElem?_take, if_pos (by omega)]
  constructor
  · intro h
    rw [List.length_dropLast]
    show Last G _ _ h (if h = G.hash e.id then e.next else chash h)
    by_cases hh : h = G.hash e.id
    · rw [if_pos hh, hh]
      exact (hc.next _ e he).congr G (hcg _ (Nat.le_refl _))
    · rw [if_neg hh]
      have := hc.top h
      cases hr : chash h with
      | none =>
        rw [hr] at this
        intro p f hp hf
        exact this p f (by omega) ((dropLast_get _ _ _).1 hf).1
      | some q =>
        rw [hr] at this
        obtain ⟨a, ⟨f, hf1, hf2⟩, c⟩ := this
        have hq : q ≠ cs.length - 1 := by
          rintro rfl
          rw [he] at hf1; cases hf1; exact hh hf2.symm
        refine ⟨by omega, ⟨f, (dropLast_get _ _ _).2 ⟨hf1, by omega⟩, hf2⟩, ?_⟩
        intro p f hqp hp hf
        exact c p f hqp (by omega) ((dropLast_get _ _ _).1 hf).1
  · intro p f hf
    obtain ⟨h1, h2⟩ := (dropLast_get _ _ _).1 hf
    exact (hc.next p f h1).congr G (hcg _ (by omega))

theorem chain_congr {cs cs' : List (CEntry V)} {chash : Nat → Option Nat} (hc : ChainOK G cs chash)
    (hlen : cs'.length = cs.length)
    (h : ∀ (p : Nat) (e' : CEntry V), cs'[p]? = some e' → ∃ e, cs[p]? = some e ∧ e'.id = e.id ∧ e'.next = e.next) : ChainOK G cs' chash := by
  have hm : ∀ p : Nat, (cs'[p]?.map (·.id)) = (cs[p]?.map (·.id)) := by
    intro p
    cases hp : cs'[p]? with
    | none =>
      have : cs.length ≤ p := by
        rcases Nat.lt_or_ge p cs'.length with h1 | h1
        · rw [List.getElem?_eq_getElem h1] at hp; cases hp
        · omega
      rw [List.getElem?_eq_none this]
    | some e' =>
      obtain ⟨e, h1, h2, _⟩ := h p e' hp
      rw [h1]; simp [h2]
  constructor
  · intro hh
    rw [hlen]
    exact (hc.top hh).congr G (fun p _ => hm p)
  · intro p e' he'
    obtain ⟨e, h1, h2, h3⟩ := h p e' he'
    rw [h2, h3]
    exact (hc.next p e h1).congr G (fun p _ => hm p)

theorem setLow_get {cs : List (CEntry V)} {p : Nat} {ep : CEntry V} (hp : cs[p]? = some ep) (l q : Nat) (f : CEntry V) :
    (setLow cs p l)[q]? = some f ↔ (q ≠ p ∧ cs[q]? = some f) ∨ (q = p ∧ f = { ep with low := l }) := by
  have hlt := lt_of_get hp
  simp only [setLow, hp]
  by_cases hq : q = p
  · subst hq
    rw [List.getElem?_set_self hlt]
    constructor
    · intro h; cases h; exact Or.inr ⟨rfl, rfl⟩
    · rintro (⟨h, _⟩ | ⟨_, rfl⟩)
      · exact absurd rfl h
      · rfl
  · rw [List.getElem?_set_ne (fun h => hq h.symm)]
    constructor
    · intro h; exact Or.inl ⟨hq, h⟩
    · rintro (⟨_, h⟩ | ⟨h, _⟩)
      · exact h
      · exact absurd h hq

theorem setLow_length (cs : List (CEntry V)) (p l : Nat) : (setLow cs p l).length = cs.length := by
  simp only [setLow]; split <;> simp

/-! ## Closing a component -/

structure PopCSpec (s : St V) (p : Nat) (s' : St V) : Prop where
  ds : s'.ds = s.ds
  as : s'.as = s.as
  viol : s'.viol = s.viol
  seen : s'.seen = s.seen
  inits : s'.inits = s.inits
  time : s'.time = s.time
  cs : ∀ q f, s'.cs[q]? = some f ↔ s.cs[q]? = some f ∧ q < p
  len : s'.cs.length = min p s.cs.length
  store : ∀ v, v ∈ s'.store ↔ v ∈ s.store ∨ ∃ q f, p ≤ q ∧ s.cs[q]? = some f ∧ f.id = v
  chain : ChainOK G s'.cs s'.chash

theorem popC_spec : ∀ (n : Nat) (s : St V) (p : Nat), s.cs.length ≤ n → ChainOK G s.cs s.chash →
    PopCSpec G s p (popC G s p n) := by
  intro n
  induction n with
  | zero =>
    intro s p hn hc
    have h0 : s.cs = [] := List.length_eq_zero_iff.1 (by omega)
    refine ⟨rfl, rfl, rfl, rfl, rfl, rfl, ?_, ?_, ?_, hc⟩
    · intro q f; simp [popC, h0]
    · simp [popC, h0]
    · intro v; simp [popC, h0]
  | succ n ih =>
    intro s p hn hc
    unfold popC
    by_cases hp : p < s.cs.length
    · rw [if_pos hp]
      have hlt : s.cs.length - 1 < s.cs.length := by omega
      obtain ⟨e, he⟩ : ∃ e, s.cs[s.cs.length - 1]? = some e := ⟨_, List.getElem?_eq_getElem hlt⟩
      rw [he]
      simp only
      have := ih { s with
          store := e.id :: s.store
          chash := fun h => if h = G.hash e.id then e.next else s.chash h
          cs := s.cs.dropLast } p (by simp; omega) (chain_pop G hc he)
      refine ⟨this.ds, this.as, this.viol, this.seen, this.inits, this.time, ?_, ?_, ?_, this.chain⟩
      · intro q f
        rw [this.cs]
        simp only
        rw [dropLast_get]
        constructor
        · rintro ⟨⟨h1, _⟩, h2⟩; exact ⟨h1, h2⟩
        · rintro ⟨h1, h2⟩; exact ⟨⟨h1, by omega⟩, h2⟩
      · rw [this.len]; simp; omega
      · intro v
        rw [this.store]
        simp only [List.mem_cons]
        constructor
        · rintro ((rfl | h) | ⟨q, f, h1, h2, h3⟩)
          · exact Or.inr ⟨_, e, by omega, he, rfl⟩
          · exact Or.inl h
          · exact Or.inr ⟨q, f, h1, ((dropLast_get _ _ _).1 h2).1, h3⟩
        · rintro (h | ⟨q, f, h1, h2, h3⟩)
          · exact Or.inl (Or.inr h)
          · by_cases hq : q = s.cs.length - 1
            · subst hq; rw [he] at h2; cases h2; exact Or.inl (Or.inl h3.symm)
            · have := lt_of_get h2
              exact Or.inr ⟨q, f, h1, (dropLast_get _ _ _).2 ⟨h2, by omega⟩, h3⟩
    · rw [if_neg hp]
      refine ⟨rfl, rfl, rfl, rfl, rfl, rfl, ?_, by omega, ?_, hc⟩
      · intro q f
        constructor
        · intro h; exact ⟨h, by have := lt_of_get h; omega⟩
        · exact fun h => h.1
      · intro v
        constructor
        · exact Or.inl
        · rintro (h | ⟨q, f, h1, h2, _⟩)
          · exact h
          · have := lt_of_get h2; omega

end Tarjan
end LTL
end Verif
