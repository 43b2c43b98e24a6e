import Verif.CFP.SymMain
import Verif.Props.UnfoldFixpoint
import Verif.XCol.MarkLemmas

/-!
# When the symmetric variables are symmetric
-/

namespace Verif
namespace CFP

open CPN
open XCol (tokens_congr)

/-- The parts of a sum with the variables of the set: the numbers and the variables; `none` if a part is not of the form n'x. -/
def spread (S : List Nat) : List ArcE → Option (List (Nat × Nat))
  | [] => some []
  | a :: as =>
    if a.vars.all fun v => !S.contains v then spread S as
    else
      match a with
      | .num n [.var v] => (spread S as).map ((n, v) :: ·)
      | _ => none

/-- The arc does not have the variables, or it has each of them once with the same number. -/
def evenArc (S : List Nat) (e : ArcE) : Bool :=
  (e.vars.all fun v => !S.contains v) ||
  match e with
  | .add as =>
    match spread S as with
    | some l => (l.all fun q => q.1 == (l.headD (0, 0)).1) && decide ((l.map (·.2)).Perm S)
    | none => false
  | _ => false

variable {T : Types} {vty : Nat → Nat}

theorem avoids {S : List Nat} {e : ArcE} (h : (e.vars.all fun v => !S.contains v) = true) {ρ σ : Nat → Val} (hs : ∀ v, v ∉ S → ρ v = σ v) : tokens T vty ρ e = tokens T vty σ e := by
  apply tokens_congr
  intro v hv
  apply hs
  have := List.all_eq_true.1 h v hv
  simpa using this

theorem spread_tokens {S : List Nat} {σ : Nat → Val} : (as : List ArcE) → (l : List (Nat × Nat)) → spread S as = some l →
    ∃ r : Val → Nat, ∀ ρ : Nat → Val, (∀ v, v ∉ S → ρ v = σ v) → ∀ x, tokensL T vty ρ as x = (l.map fun q => q.1 * [ρ q.2].count x).sum + r x
  | [], l, h => by
    cases h
    exact ⟨fun _ => 0, fun ρ _ x => rfl⟩
  | a :: as, l, h => by
    unfold spread at h
    split at h
    · rename_i ha
      obtain ⟨r, hr⟩ := spread_tokens as l h
      refine ⟨fun x => tokens T vty σ a x + r x, fun ρ hρ x => ?_⟩
      rw [tokensL]
      simp only
      rw [hr ρ hρ x, avoids ha hρ]
      omega
    · split at h
      · obtain ⟨l', h1, rfl⟩ := Option.map_eq_some_iff.1 h
        obtain ⟨r, hr⟩ := spread_tokens as l' h1
        refine ⟨r, fun ρ hρ x => ?_⟩
        rw [tokensL]
        simp only
        rw [hr ρ hρ x, tokens]
        simp only [List.map_cons, List.map_nil, den, List.sum_cons]
        omega
      · cases h

theorem sum_same {ρ : Nat → Val} {x : Val} {n : Nat} : (l : List (Nat × Nat)) → (∀ q ∈ l, q.1 = n) →
    (l.map fun q => q.1 * [ρ q.2].count x).sum = n * ((l.map (·.2)).map ρ).count x
  | [], _ => by simp
  | q :: l, h => by
    rw [List.map_cons, List.sum_cons, sum_same l fun q hq => h q (List.mem_cons_of_mem _ hq), h q List.mem_cons_self, List.map_cons, List.map_cons, ← Nat.mul_add,
      ← List.count_append, List.singleton_append]

/-- The order of the values does not matter. -/
theorem even_tokens {S : List Nat} {e : ArcE} (h : evenArc S e = true) {ρ σ : Nat → Val} (hs : ∀ v, v ∉ S → ρ v = σ v) (hp : (S.map ρ).Perm (S.map σ)) :
    tokens T vty ρ e = tokens T vty σ e := by
  unfold evenArc at h
  rcases Bool.or_eq_true _ _ ▸ h with h | h
  · exact avoids h hs
  · split at h
    · split at h
      · rename_i as _ _ l hl
        rw [Bool.and_eq_true, decide_eq_true_eq] at h
        obtain ⟨h1, h2⟩ := h
        obtain ⟨r, hr⟩ := spread_tokens (T := T) (vty := vty) (σ := σ) as l hl
        have hn : ∀ q ∈ l, q.1 = (l.headD (0, 0)).1 := fun q hq => by simpa using List.all_eq_true.1 h1 q hq
        funext x
        rw [tokens, tokens, hr ρ hs x, hr σ (fun _ _ => rfl) x, sum_same l hn, sum_same l hn]
        have : ((l.map (·.2)).map ρ).count x = ((l.map (·.2)).map σ).count x :=
          (((h2.map ρ).trans hp).trans (h2.map σ).symm).count_eq x
        rw [this]
      · cases h
    · cases h

/-- If 0 is possible for a symmetric variable of a map, it comes first; a check. -/
def lowest (T : Types) (vty : Nat → Nat) (S : List Nat) (m : VMap) : Bool :=
  S.all fun v => front T vty m v == 0 || (boxesOf m v).all fun i => colorOf T (vty v) i.lowerIds != 0

/-- There is at most one set of symmetric variables, of one type, the arcs are even in it, and 0 comes first in later maps. -/
def evenTrans (N : CNet) (s : FSt) (t : Nat) : Bool :=
  match symSets (N.trans t) with
  | [] => true
  | [S] => (S.all fun v => N.vty v == N.vty (S.headD 0)) && ((N.trans t).inputs ++ (N.trans t).outputs).all (fun a => evenArc S a.expr) &&
      ((N.trans t).vars.all (S.contains ·) || (s.maps t).tail.all (lowest N.types N.vty S))
  | _ => false

def even (N : CNet) (s : FSt) : Bool := (List.range N.transitions.length).all (evenTrans N s)

theorem sets_of {t : CTrans} {S : List Nat} (h : S ∈ symSets t) : t.guard = none ∧ S ≠ [] ∧ S.Nodup ∧ ∀ v ∈ S, v ∈ t.vars := by
  unfold symSets at h
  split at h
  · cases h
  · rename_i hg
    obtain ⟨a, _, h⟩ := List.mem_filterMap.1 h
    unfold symArc at h
    simp only at h
    split at h
    · rename_i hc
      cases h
      simp only [Bool.and_eq_true, decide_eq_true_eq] at hc
      refine ⟨by simpa using hg, fun e => ?_, (vars_nodup t).filter _, fun v hv => (List.mem_filter.1 hv).1⟩
      rw [e] at hc
      exact absurd hc.1.1.2 (by decide)
    · cases h

/-- models src/PetriEngine/Colored/Unfolder.cpp:138-155: the generator with the symmetric variables. -/
def symGen (N : CNet) (s : FSt) (fuel : Nat) (t : CTrans) : Option (List Binding) :=
  symBindings N.types N.vty (symSets t) (s.maps (N.transitions.findIdx fun x => x.name == t.name)) fuel t

theorem arcs_even {N : CNet} {S : List Nat} {as : List CArc} (h : ∀ a ∈ as, evenArc S a.expr = true) {ρ σ : Nat → Val} (hs : ∀ v, v ∉ S → ρ v = σ v)
    (hp : (S.map ρ).Perm (S.map σ)) : arcsTokens N ρ as = arcsTokens N σ as := by
  funext p x
  unfold arcsTokens
  congr 1
  apply List.map_congr_left
  intro a ha
  rw [even_tokens (h a ha) hs hp]

/-- What the unfolder needs to know about the bindings of one transition. -/
theorem sym_one {N : CNet} (R : Ready N) (w : N.WF) {s : FSt} (hs : ∀ t < N.transitions.length, ∀ m ∈ s.maps t, m.Sane N.types N.vty) (hu : usable N s = true)
    (he : even N s = true) {t : Nat} (ht : t < N.transitions.length) :
    (∃ fuel0, ∀ fuel, fuel0 ≤ fuel → ∃ bs, symBindings N.types N.vty (symSets (N.trans t)) (s.maps t) fuel (N.trans t) = some bs) ∧
    ∀ fuel bs, symBindings N.types N.vty (symSets (N.trans t)) (s.maps t) fuel (N.trans t) = some bs →
      (∀ b ∈ bs, ∃ ρ, Agree N.types N.vty b ρ (N.trans t).vars) ∧
      (∀ b ∈ bs, ∀ ρ, Agree N.types N.vty b ρ (N.trans t).vars → guardHolds N.types N.vty ρ (N.trans t).guard) ∧
      ∀ ρ, N.Legal t ρ → (((∃ a ∈ (N.trans t).outputs, a.expr.vars ≠ []) ∨ (N.trans t).inputs = [] → BindingIn s t ρ)) →
        ∃ b ∈ bs, ∃ ρ', Agree N.types N.vty b ρ' (N.trans t).vars ∧ (∀ M, N.Enabled M t ρ → N.Enabled M t ρ') ∧ ∀ M, N.fire M t ρ' = N.fire M t ρ := by
  have het := List.all_eq_true.1 he t (List.mem_range.2 ht)
  unfold evenTrans at het
  split at het
  · rename_i h0
    rw [h0]
    simp only [symBindings_nil]
    obtain ⟨h1, h2⟩ := fix_one R hs hu ht
    refine ⟨h1, fun fuel bs hbs => ?_⟩
    obtain ⟨h3, h4, h5⟩ := h2 fuel bs hbs
    exact ⟨h3, h4, fun ρ hl hb => (h5 ρ hl hb).imp fun b h => ⟨h.1, ρ, h.2, fun _ h => h, fun _ => rfl⟩⟩
  · rename_i S h0
    rw [h0]
    rw [Bool.and_eq_true, Bool.and_eq_true] at het
    obtain ⟨⟨hty, hev⟩, hlow⟩ := het
    obtain ⟨hg, hne, hnd, hsub⟩ := sets_of (t := N.trans t) (S := S) (by rw [h0]; exact List.mem_singleton_self _)
    obtain ⟨v0, hv0⟩ := List.exists_mem_of_ne_nil _ hne
    have hO : OneType N.types N.vty (N.trans t).vars S := by
      refine ⟨hne, hnd, hsub, fun v hv => by simpa using List.all_eq_true.1 hty v hv, ?_⟩
      have h1 := w.vpos _ (trans_mem ht) v0 (hsub v0 hv0)
      have h2 : N.vty v0 = N.vty (S.headD 0) := by simpa using List.all_eq_true.1 hty v0 hv0
      rw [← h2]
      exact h1
    have hgh : ∀ ρ, guardHolds N.types N.vty ρ (N.trans t).guard := fun ρ => by rw [hg]; trivial
    unfold usable at hu
    have hut := List.all_eq_true.1 hu t (List.mem_range.2 ht)
    have hvE : (N.trans t).vars.isEmpty = false := by
      cases e : (N.trans t).vars with
      | nil => have := hsub v0 hv0; rw [e] at this; cases this
      | cons => rfl
    rw [hvE, Bool.false_or, Bool.and_eq_true] at hut
    obtain ⟨hw, hm⟩ := hut
    have hw' : (∃ a ∈ (N.trans t).outputs, a.expr.vars ≠ []) ∨ (N.trans t).inputs = [] := by
      rcases Bool.or_eq_true _ _ ▸ hw with h | h
      · obtain ⟨a, ha, h⟩ := List.any_eq_true.1 h
        exact Or.inl ⟨a, ha, by simpa using h⟩
      · exact Or.inr (by simpa using h)
    by_cases hnm : s.maps t = []
    · rw [hnm]
      have h1 : ∀ fuel, symBindings N.types N.vty [S] [] fuel (N.trans t) = some [] := by
        intro fuel
        unfold symBindings
        rw [hvE]
        rfl
      refine ⟨⟨0, fun fuel _ => ⟨[], h1 fuel⟩⟩, fun fuel bs hbs => ?_⟩
      rw [h1] at hbs
      cases hbs
      refine ⟨(fun b hb => nomatch hb), (fun b hb => nomatch hb), fun ρ hl hb => ?_⟩
      obtain ⟨m, hmm, _⟩ := hb hw'
      rw [hnm] at hmm
      cases hmm
    · have hwalk : ∀ m ∈ s.maps t, Walkable N.types N.vty (N.trans t).vars m := by
        intro m hmm v hv'
        have h1 := List.all_eq_true.1 (List.all_eq_true.1 hm m hmm) v hv'
        rw [Bool.and_eq_true] at h1
        refine ⟨dims_ne R.parts _, h1.1, ?_, h1.2⟩
        unfold boxesOf
        cases hl : m.lookup v with
        | none => rw [hl] at h1; exact absurd h1.1 (by simp)
        | some vec => exact (hs t ht m hmm).1 _ (lookup_mem' hl)
      have hlow' : (∃ v ∈ (N.trans t).vars, v ∉ S) → ∀ m ∈ (s.maps t).tail, Lowest N.types N.vty S m := by
        rintro ⟨v, hv, hvS⟩ m hmm u hu
        rcases Bool.or_eq_true _ _ ▸ hlow with h | h
        · have := List.all_eq_true.1 h v hv
          exact absurd (by simpa using this) hvS
        · have h1 := List.all_eq_true.1 (List.all_eq_true.1 h m hmm) u hu
          rcases Bool.or_eq_true _ _ ▸ h1 with h2 | h2
          · exact Or.inl (by simpa using h2)
          · exact Or.inr fun i hi => by simpa using List.all_eq_true.1 h2 i hi
      obtain ⟨h1, h2⟩ := sym_spec (vars_nodup _) hO hnm hwalk hlow' hg rfl
      refine ⟨h1, fun fuel bs hbs => ?_⟩
      obtain ⟨h3, h4⟩ := h2 fuel bs hbs
      refine ⟨h3, fun b _ ρ _ => hgh ρ, fun ρ hl hb => ?_⟩
      obtain ⟨m, hmm, hc⟩ := hb hw'
      obtain ⟨b, hb, ρ', ha, hs', hp⟩ := h4 ρ hl.1 ⟨m, hmm, fun v hv' => by
        have hp := (hwalk m hmm v hv').2.1
        unfold boxesOf
        cases hl : m.lookup v with
        | none => rw [hl] at hp; cases hp
        | some vec => exact hc _ (lookup_mem' hl)⟩
      have hi := arcs_even (N := N) (as := (N.trans t).inputs) (fun a ha => List.all_eq_true.1 hev a (List.mem_append_left _ ha)) hs' hp
      have ho := arcs_even (N := N) (as := (N.trans t).outputs) (fun a ha => List.all_eq_true.1 hev a (List.mem_append_right _ ha)) hs' hp
      refine ⟨b, hb, ρ', ha, fun M hen => ⟨fun p x => ?_, hen.2⟩, fun M => ?_⟩
      · rw [hi]
        exact hen.1 p x
      · unfold CNet.fire
        rw [hi, ho]
  · cases het

end CFP
end Verif
