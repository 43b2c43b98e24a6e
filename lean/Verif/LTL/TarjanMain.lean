import Verif.LTL.TarjanInv

/-!
# The search based on Tarjan's algorithm is correct and terminates
-/

set_option linter.unusedSectionVars false

namespace Verif
namespace LTL
namespace Tarjan
open Relation
variable {V : Type} [DecidableEq V] {G : PGraph V} {E : V → V → Prop} {I : V → Prop} {s : St V}

theorem Inv.nostate (h : Inv G E I none s) {w : V}
    (hf : find s.cs w s.cs.length (s.chash (G.hash w)) = none) : ∀ p e, Get s.cs p e → e.id ≠ w := fun p e he =>
  find_none G h.chain.next _ _ _ (Nat.le_refl _) (h.chain.top _) hf p e (lt_of_get he) he

theorem Inv.visit (h : Inv G E I none s) (hE : G.Edges E) {p : Nat} {w : V} {ws : List V} {ds : List (Nat × List V)}
    (hds : s.ds = (p, w :: ws) :: ds) :
    Inv G E I none (visit G { s with ds := (p, ws) :: ds } w) ∨
      ((visit G { s with ds := (p, ws) :: ds } w).viol = true ∧ G.Lasso E I) := by
  have hpp : p ∈ s.pos := by simp [St.pos, hds]
  obtain ⟨e, hp⟩ := h.get hpp
  have hEw : E e.id w := h.remB p _ e w (by rw [hds]; exact List.mem_cons_self ..) (List.mem_cons_self ..) hp
  have ht := h.take hds
  unfold Tarjan.visit
  cases hb : G.bnd w with
  | false =>
    left
    simp only [Bool.false_eq_true, if_false]
    exact ht.done (fun e' _ hB => by rw [hB.2] at hb; cases hb)
  | true =>
    simp only [if_true]
    have hB : G.B E e.id w := ⟨hEw, hb⟩
    cases hf : find s.cs w s.cs.length (s.chash (G.hash w)) with
    | some q =>
      obtain ⟨f, hq, hfw⟩ := find_some _ _ _ hf
      simp only
      exact (ht.see (Or.inr ⟨q, f, hq, hfw⟩)).back rfl hp hB hq hfw
    | none =>
      simp only
      have hnc := h.nostate hf
      cases hst : s.store.contains w with
      | true =>
        left
        simp only [if_true]
        have hst' : w ∈ s.store := by simpa using hst
        exact (ht.see (Or.inl hst')).done (fun _ _ _ => hst')
      | false =>
        simp only [Bool.false_eq_true, if_false]
        have hst' : w ∉ s.store := by
          intro hh
          have : s.store.contains w = true := by simpa using hh
          rw [this] at hst; cases hst
        exact ht.pushSeen hE hb hst' hnc (Or.inr ⟨p, ws, ds, e, rfl, hp, hB⟩) (by intro u w' hh; cases hh; rfl)

theorem Inv.start (h : Inv G E I none s) (hE : G.Edges E) {v : V} {vs : List V} (hds : s.ds = [])
    (hi : s.inits = v :: vs) :
    Inv G E I none (start G { s with inits := vs } v) ∨
      ((start G { s with inits := vs } v).viol = true ∧ G.Lasso E I) := by
  have hcs := h.nil hds
  unfold Tarjan.start
  cases hc : (G.bnd v && !s.seen.contains v) with
  | false =>
    left
    simp only [Bool.false_eq_true, if_false]
    refine h.dropInit hi (fun hb => ?_)
    rw [hb] at hc
    simpa using hc
  | true =>
    simp only [if_true]
    simp only [Bool.and_eq_true, Bool.not_eq_true'] at hc
    have hns : v ∉ s.seen := by
      intro hh
      have : s.seen.contains v = true := by simpa using hh
      rw [this] at hc; exact absurd hc.2 (by simp)
    have hv : I v := h.initI v (by rw [hi]; exact List.mem_cons_self ..)
    have hst : v ∉ s.store := fun hh => hns (h.seenOf.2 v hh)
    rcases h.pushSeen hE hc.1 hst (by intro p e he; rw [hcs] at he; simp [Get] at he) (Or.inl ⟨hds, hv⟩) (by simp)
      with h0 | h0
    · left
      exact h0.dropInit (v := v) (vs := vs) hi (fun _ => List.mem_cons_self ..)
    · exact Or.inr h0

theorem step_cases (hv : s.viol = false) :
    (s.ds = [] ∧ s.inits = [] ∧ step G s = none) ∨
    (∃ v vs, s.ds = [] ∧ s.inits = v :: vs ∧
      step G s = some { Tarjan.start G { s with inits := vs } v with time := s.time + 1 }) ∨
    (∃ p ds, s.ds = (p, []) :: ds ∧ step G s = some { Tarjan.pop G s with time := s.time + 1 }) ∨
    (∃ p w ws ds, s.ds = (p, w :: ws) :: ds ∧
      step G s = some { Tarjan.visit G { s with ds := (p, ws) :: ds } w with time := s.time + 1 }) := by
  unfold step
  rw [if_neg (by simp [hv])]
  split
  · rename_i h0
    split
    · rename_i h1; exact Or.inl ⟨h0, h1, rfl⟩
    · rename_i v vs h1; exact Or.inr (Or.inl ⟨v, vs, h0, h1, rfl⟩)
  · rename_i p ds h0; exact Or.inr (Or.inr (Or.inl ⟨p, ds, h0, rfl⟩))
  · rename_i p w ws ds h0; exact Or.inr (Or.inr (Or.inr ⟨p, w, ws, ds, h0, rfl⟩))

theorem step_inv (h : Inv G E I none s) (hE : G.Edges E) {s' : St V} (hs : step G s = some s') :
    Inv G E I none s' ∨ (s'.viol = true ∧ G.Lasso E I) := by
  rcases step_cases (G := G) h.viol with ⟨_, _, h0⟩ | ⟨v, vs, hds, hi, h0⟩ | ⟨p, ds, hds, h0⟩ | ⟨p, w, ws, ds, hds, h0⟩
  · rw [h0] at hs; cases hs
  · rw [h0] at hs; cases hs
    exact (h.start hE hds hi).imp Inv.congr id
  · rw [h0] at hs; cases hs
    exact Or.inl (h.pop hds).congr
  · rw [h0] at hs; cases hs
    exact (h.visit hE hds).imp Inv.congr id

theorem run_inv (hE : G.Edges E) : ∀ (n : Nat) (s s' : St V), Inv G E I none s → run G n s = (s', true) →
    (Inv G E I none s' ∧ step G s' = none) ∨ (s'.viol = true ∧ G.Lasso E I) := by
  intro n
  induction n with
  | zero =>
    intro s s' h hr
    simp only [run, Prod.mk.injEq, Option.isNone_iff_eq_none] at hr
    obtain ⟨rfl, h2⟩ := hr
    exact Or.inl ⟨h, h2⟩
  | succ n ih =>
    intro s s' h hr
    unfold run at hr
    cases hs : step G s with
    | none =>
      rw [hs] at hr
      simp only [Prod.mk.injEq, and_true] at hr
      subst hr
      exact Or.inl ⟨h, hs⟩
    | some t =>
      rw [hs] at hr
      simp only at hr
      rcases step_inv h hE hs with h0 | ⟨hv, hl⟩
      · exact ih t s' h0 hr
      · have hst : step G t = none := by simp [step, hv]
        have : run G n t = (t, true) := by cases n <;> simp [run, hst]
        rw [this] at hr
        cases hr
        exact Or.inr ⟨hv, hl⟩

theorem init_inv (inits : List V) : Inv G E (· ∈ inits) none { inits := inits } := by
  refine ⟨rfl, ⟨fun h p e hp => ?_, fun p e he => ?_⟩, ?_, ?_, ?_, ?_, ?_, ?_, ?_, ?_, ?_, ?_, ?_, ?_, ?_, ?_, ?_, ?_, ?_, ?_, ?_,
    ?_, ?_, ?_, ?_⟩ <;> simp_all [Get, St.pos]

/-- The answer of the search. -/
theorem check_sound (hE : G.Edges E) {inits : List V} {fuel : Nat} (h : check G inits fuel = some false) :
    G.Lasso E (· ∈ inits) := by
  unfold check at h
  cases hr : run G fuel { inits := inits } with
  | mk s b =>
    rw [hr] at h
    cases b with
    | false => cases h
    | true =>
      simp only [Option.some.injEq, Bool.not_eq_false'] at h
      rcases run_inv hE fuel _ s (init_inv inits) hr with ⟨h0, _⟩ | ⟨_, h0⟩
      · rw [h0.viol] at h; cases h
      · exact h0

theorem check_complete (hE : G.Edges E) {inits : List V} {fuel : Nat} (h : check G inits fuel = some true)
    {i a : V} (hi : i ∈ inits) (hb : G.bnd i = true) (hr : ReflTransGen (G.B E) i a) (ha : G.acc a = true) :
    ¬ TransGen (G.B E) a a := by
  unfold check at h
  cases hrun : run G fuel { inits := inits } with
  | mk s b =>
    rw [hrun] at h
    cases b with
    | false => cases h
    | true =>
      simp only [Option.some.injEq, Bool.not_eq_true'] at h
      rcases run_inv hE fuel _ s (init_inv inits) hrun with ⟨h0, hst⟩ | ⟨h1, _⟩
      · rcases step_cases (G := G) h with ⟨hds, hin, _⟩ | ⟨v, vs, _, _, h1⟩ | ⟨p, ds, _, h1⟩ | ⟨p, w, ws, ds, _, h1⟩
        · have hcs := h0.nil hds
          have hstore : i ∈ s.store := by
            rcases h0.initDone i hi hb with h2 | h2
            · rw [hin] at h2; cases h2
            · rcases h0.seenOK i h2 with h3 | ⟨p, e, h3, _⟩
              · exact h3
              · rw [hcs] at h3; simp [Get] at h3
          have : ∀ v, ReflTransGen (G.B E) i v → v ∈ s.store := by
            intro v hv
            induction hv with
            | refl => exact hstore
            | tail _ hB ih => exact h0.closed _ _ ih hB
          exact h0.storeAcc a (this a hr) ha
        · rw [hst] at h1; cases h1
        · rw [hst] at h1; cases h1
        · rw [hst] at h1; cases h1
      · rw [h] at h1; cases h1

/-! ## Termination -/

/-- States that have been pushed. -/
def Known (s : St V) (v : V) : Prop := v ∈ s.store ∨ ∃ p e, Get s.cs p e ∧ e.id = v

open Classical in
/-- How many states may still be pushed. -/
noncomputable def fresh (R : List V) (s : St V) : Nat := (R.filter (fun v => decide (¬ Known s v))).length

theorem fresh_le {R : List V} {s s' : St V} (h : ∀ v, Known s v → Known s' v) : fresh R s' ≤ fresh R s := by
  unfold fresh
  induction R with
  | nil => simp
  | cons v R ih =>
    simp only [List.filter_cons]
    by_cases h1 : Known s v
    · have h2 := h v h1
      simpa [h1, h2] using ih
    · by_cases h2 : Known s' v
      · simp [h1, h2] at ih ⊢; omega
      · simp [h1, h2] at ih ⊢; omega

theorem fresh_lt {R : List V} {s s' : St V} (h : ∀ v, Known s v → Known s' v) {v : V} (hR : v ∈ R) (h1 : ¬ Known s v)
    (h2 : Known s' v) : fresh R s' < fresh R s := by
  induction R with
  | nil => cases hR
  | cons u R ih =>
    have hle := fresh_le (R := R) h
    unfold fresh at hle ih ⊢
    simp only [List.filter_cons]
    rcases List.mem_cons.1 hR with rfl | hR
    · simp [h1, h2] at hle ⊢; omega
    · have := ih hR
      by_cases h3 : Known s u
      · have h4 := h u h3
        simpa [h3, h4] using this
      · by_cases h4 : Known s' u
        · simp [h3, h4] at this ⊢; omega
        · simp [h3, h4] at this ⊢; omega

/-- Work left on the search stack. -/
def todo : List (Nat × List V) → Nat
  | [] => 0
  | (_, rem) :: ds => rem.length + 1 + todo ds

/-- The measure. -/
noncomputable def mu (R : List V) (D : Nat) (s : St V) : Nat := fresh R s * (D + 2) + todo s.ds + s.inits.length

theorem known_update {s : St V} (to l : Nat) {v : V} (h : Known s v) : Known (update s to l) v := by
  unfold update
  split
  · exact h
  · split
    · rcases h with h | ⟨p, e, h1, h2⟩
      · exact Or.inl h
      · rename_i fr _ _ _ _
        right
        cases hf : s.cs[fr]? with
        | none =>
          refine ⟨p, e, ?_, h2⟩
          show (setLow s.cs fr l)[p]? = some e
          simp only [setLow, hf]; exact h1
        | some ef =>
          by_cases hpf : p = fr
          · subst hpf
            have : ef = e := by rw [Get, hf] at h1; cases h1; rfl
            subst this
            exact ⟨p, _, (setLow_get hf l p _).2 (Or.inr ⟨rfl, rfl⟩), h2⟩
          · exact ⟨p, e, (setLow_get hf l p _).2 (Or.inl ⟨hpf, h1⟩), h2⟩
    · exact h

theorem update_ds (s : St V) (to l : Nat) : (update s to l).ds = s.ds ∧ (update s to l).inits = s.inits := by
  unfold update
  split
  · exact ⟨rfl, rfl⟩
  · split <;> exact ⟨rfl, rfl⟩

theorem known_push {s : St V} {w v : V} (h : Known s v) : Known (push G s w) v := by
  rcases h with h | ⟨p, e, h1, h2⟩
  · exact Or.inl h
  · exact Or.inr ⟨p, e, (push_get _ _ _ _).2 (Or.inl h1), h2⟩

theorem known_pushed (s : St V) (w : V) : Known (push G s w) w :=
  Or.inr ⟨_, _, (push_get _ _ _ _).2 (Or.inr ⟨rfl, rfl⟩), rfl⟩

theorem pop_mu (h : Inv G E I none s) {p : Nat} {ds : List (Nat × List V)} (hds : s.ds = (p, []) :: ds) :
    (∀ v, Known s v → Known (Tarjan.pop G s) v) ∧ (Tarjan.pop G s).ds = ds ∧ (Tarjan.pop G s).inits = s.inits := by
  unfold Tarjan.pop
  split
  · rename_i h0; rw [hds] at h0; cases h0
  · rename_i h0
    rw [hds] at h0; cases h0
    simp only
    rw [(update_ds _ _ _).1, (update_ds _ _ _).2]
    have hspec := popC_spec G s.cs.length { s with ds := ds } p (Nat.le_refl _) h.chain
    split
    · refine ⟨fun v hv => known_update _ _ ?_, hspec.ds, hspec.inits⟩
      rcases hv with hv | ⟨q, e, h1, h2⟩
      · exact Or.inl ((hspec.store v).2 (Or.inl hv))
      · by_cases hq : q < p
        · exact Or.inr ⟨q, e, (hspec.cs q e).2 ⟨h1, hq⟩, h2⟩
        · exact Or.inl ((hspec.store v).2 (Or.inr ⟨q, e, by omega, h1, h2⟩))
    · exact ⟨fun v hv => known_update _ _ hv, rfl, rfl⟩

theorem step_mu (h : Inv G E I none s) {R : List V} {D : Nat}
    (hD : ∀ n v, (G.succ n v).length ≤ D)
    (hR : ∀ i v, I i → G.bnd i = true → ReflTransGen (G.B E) i v → v ∈ R) {s' : St V} (hs : step G s = some s') :
    mu R D s' < mu R D s := by
  have push_lt : ∀ (t : St V) (w : V), (∀ v, Known s v → Known t v) → ¬ Known s w → w ∈ R →
      todo t.ds + t.inits.length ≤ todo s.ds + s.inits.length → ∀ t', t' = push G t w →
      mu R D { t' with time := s.time + 1 } < mu R D s := by
    rintro t w hk hnk hwR hle t' rfl
    have h1 : fresh R { push G t w with time := s.time + 1 } < fresh R s :=
      fresh_lt (s' := { push G t w with time := s.time + 1 }) (fun v hv => known_push (hk v hv)) hwR hnk
        (known_pushed t w)
    have h2 := hD t.time w
    have h3 : fresh R { push G t w with time := s.time + 1 } * (D + 2) + (D + 2) ≤ fresh R s * (D + 2) := by
      have := Nat.mul_le_mul_right (D + 2) h1
      rw [Nat.succ_mul] at this
      exact this
    show fresh R { push G t w with time := s.time + 1 } * (D + 2) + ((G.succ t.time w).length + 1 + todo t.ds) +
      t.inits.length < fresh R s * (D + 2) + todo s.ds + s.inits.length
    omega
  have same_lt : ∀ t : St V, (∀ v, Known s v → Known t v) →
      todo t.ds + t.inits.length < todo s.ds + s.inits.length → mu R D { t with time := s.time + 1 } < mu R D s := by
    intro t hk hlt
    have h1 : fresh R { t with time := s.time + 1 } ≤ fresh R s := fresh_le (s' := { t with time := s.time + 1 }) hk
    have h3 := Nat.mul_le_mul_right (D + 2) h1
    show fresh R { t with time := s.time + 1 } * (D + 2) + todo t.ds + t.inits.length <
      fresh R s * (D + 2) + todo s.ds + s.inits.length
    omega
  rcases step_cases (G := G) h.viol with ⟨_, _, h0⟩ | ⟨v, vs, hds, hi, h0⟩ | ⟨p, ds, hds, h0⟩ | ⟨p, w, ws, ds, hds, h0⟩
  · rw [h0] at hs; cases hs
  · rw [h0] at hs; cases hs
    unfold Tarjan.start
    cases hc : (G.bnd v && !s.seen.contains v) with
    | false =>
      simp only [Bool.false_eq_true, if_false]
      exact same_lt { s with inits := vs } (fun _ hv => hv) (by simp [hi])
    | true =>
      simp only [if_true]
      simp only [Bool.and_eq_true, Bool.not_eq_true'] at hc
      have hns : v ∉ s.seen := by
        intro hh
        have : s.seen.contains v = true := by simpa using hh
        rw [this] at hc; exact absurd hc.2 (by simp)
      have hv : I v := h.initI v (by rw [hi]; exact List.mem_cons_self ..)
      refine push_lt { s with inits := vs, seen := v :: s.seen } v (fun _ hv => hv) ?_ (hR v v hv hc.1 .refl)
        (by simp [hi]) _ rfl
      rintro (hk | ⟨p, e, hk, rfl⟩)
      · exact hns (h.seenOf.2 v hk)
      · exact hns (h.seenOf.1 p e hk)
  · rw [h0] at hs; cases hs
    obtain ⟨h1, h2, h3⟩ := pop_mu h hds
    exact same_lt _ h1 (by rw [h2, h3, hds]; simp [todo])
  · rw [h0] at hs; cases hs
    have hpp : p ∈ s.pos := by simp [St.pos, hds]
    obtain ⟨e, hp⟩ := h.get hpp
    have hEw : E e.id w := h.remB p _ e w (by rw [hds]; exact List.mem_cons_self ..) (List.mem_cons_self ..) hp
    unfold Tarjan.visit
    cases hb : G.bnd w with
    | false =>
      simp only [Bool.false_eq_true, if_false]
      exact same_lt { s with ds := (p, ws) :: ds } (fun _ hv => hv) (by rw [hds]; simp [todo])
    | true =>
      simp only [if_true]
      cases hf : find s.cs w s.cs.length (s.chash (G.hash w)) with
      | some q =>
        simp only
        refine same_lt _ (fun v hv => known_update _ _ hv) ?_
        rw [(update_ds _ _ _).1, (update_ds _ _ _).2, hds]
        simp [todo]
      | none =>
        simp only
        cases hst : s.store.contains w with
        | true =>
          simp only [if_true]
          exact same_lt { s with ds := (p, ws) :: ds, seen := w :: s.seen } (fun _ hv => hv) (by rw [hds]; simp [todo])
        | false =>
          simp only [Bool.false_eq_true, if_false]
          obtain ⟨i, hi1, hi2, hi3⟩ := h.root p e hp
          refine push_lt { s with ds := (p, ws) :: ds, seen := w :: s.seen } w (fun _ hv => hv) ?_
            (hR i w hi1 hi2 (hi3.tail ⟨hEw, hb⟩)) (by rw [hds]; simp [todo]) _ rfl
          rintro (hk | ⟨p, e, hk, h2⟩)
          · have : s.store.contains w = true := by simpa using hk
            rw [this] at hst; cases hst
          · exact h.nostate hf p e hk h2

theorem run_total (hE : G.Edges E) {R : List V} {D : Nat} (hD : ∀ n v, (G.succ n v).length ≤ D)
    (hR : ∀ i v, I i → G.bnd i = true → ReflTransGen (G.B E) i v → v ∈ R) :
    ∀ (n : Nat) (s : St V), Inv G E I none s → mu R D s ≤ n → (run G n s).2 = true := by
  intro n
  induction n with
  | zero =>
    intro s h hm
    simp only [run]
    cases hs : step G s with
    | none => rfl
    | some t => have := step_mu h hD hR hs; omega
  | succ n ih =>
    intro s h hm
    unfold run
    cases hs : step G s with
    | none => rfl
    | some t =>
      simp only
      have hlt := step_mu h hD hR hs
      rcases step_inv h hE hs with h0 | ⟨hv, _⟩
      · exact ih t h0 (by omega)
      · have hst : step G t = none := by simp [step, hv]
        cases n <;> simp [run, hst]

/-- With finitely many reachable states, the search ends. -/
theorem check_total (hE : G.Edges E) {inits R : List V} {D : Nat} (hD : ∀ n v, (G.succ n v).length ≤ D)
    (hR : ∀ i v, i ∈ inits → G.bnd i = true → ReflTransGen (G.B E) i v → v ∈ R) :
    ∃ fuel, ∀ n, fuel ≤ n → (check G inits n).isSome = true := by
  refine ⟨mu R D { inits := inits }, fun n hn => ?_⟩
  have := run_total (I := (· ∈ inits)) hE hD hR n { inits := inits } (init_inv inits) hn
  unfold check
  cases hr : run G n { inits := inits } with
  | mk s b =>
    rw [hr] at this
    simp only at this
    subst this
    rfl

end Tarjan
end LTL
end Verif
