import Verif.LTL.VisibleLemmas

/-!
# The classic reduction keeps paths up to repetition
-/

namespace Verif
namespace LTL
open PQL Stubborn

section
variable {N : FlatNet} {vis : Nat → Bool} {V : Nat → Prop} {S : Mark → Nat → Bool} {m0 : Mark}

/-- Specification: no visible transition is ignored for ever along an infinite run of the reduced system. -/
def Proviso (N : FlatNet) (vis : Nat → Bool) (S : Mark → Nat → Bool) (m0 : Mark) : Prop :=
  ∀ r : Nat → Mark, r 0 = m0 → (∀ k, (redTS N S).step (r k) (r (k + 1))) →
    ∀ v, v < N.ntransitions → vis v = true → ∀ k, ∃ l, k ≤ l ∧ S (r l) v = true

/-- the number of visible transitions among the first ones -/
def visCount {T : Type} (vis : T → Bool) (τ : Nat → Option T) : Nat → Nat
  | 0 => 0
  | i + 1 => visCount vis τ i + if (τ i).any vis then 1 else 0

theorem visCount_walk {T : Type} (vis : T → Bool) (τ : Nat → Option T) (i : Nat) :
    visCount vis τ (i + 1) = visCount vis τ i ∨ visCount vis τ (i + 1) = visCount vis τ i + 1 := by
  simp only [visCount]; split <;> simp

theorem visCount_same {P T : Type} {N : Net P T} {vis : T → Bool} {V : P → Prop} {ρ : Nat → Marking P} {τ : Nat → Option T}
    (h : ∀ i, OStep N (ρ i) (τ i) (ρ (i + 1))) (hV : ∀ t p, vis t = false → V p → N.pre t p = N.post t p) (i : Nat) :
    ∀ k, visCount vis τ (i + k) = visCount vis τ i → ∀ p, V p → ρ (i + k) p = ρ i p := by
  intro k
  induction k with
  | zero => exact fun _ _ _ => rfl
  | succ k ih =>
    intro he p hp
    have h1 := walk_mono (visCount_walk vis τ) (show i ≤ i + k by omega)
    have h2 : visCount vis τ (i + (k + 1)) = visCount vis τ (i + k) + if (τ (i + k)).any vis then 1 else 0 := rfl
    have h3 : (τ (i + k)).any vis = false := by
      cases hx : (τ (i + k)).any vis with
      | false => rfl
      | true => rw [hx] at h2; simp only [if_true] at h2; omega
    rw [h3] at h2
    simp only [Bool.false_eq_true, if_false] at h2
    rw [← ih (by omega) p hp]
    have hs := h (i + k)
    cases hτ : τ (i + k) with
    | none => rw [hτ] at hs; show ρ (i + k + 1) p = _; rw [hs.2]
    | some t =>
      rw [hτ] at hs h3
      have := hV t p (by simpa using h3) hp
      have := hs.1.1 p
      show ρ (i + k + 1) p = _
      rw [hs.2]; simp only [Net.fire]; omega

/-- Every path is matched by one of the reduced system. -/
theorem stair_of_path (hS : ∀ m, SetOK N.toNet (fun t : Fin N.ntransitions => vis t) m (fun t => S m t = true))
    (hV : ∀ (t : Fin N.ntransitions) p, vis t = false → V p → N.toNet.pre t p = N.toNet.post t p)
    (hinh : ∀ t p, N.toNet.inh t p = none) (hL : Proviso N vis S m0) {π : Nat → Mark} (hπ : N.ts.IsPath π) (h0 : π 0 = m0) :
    ∃ π', (redTS N S).IsPath π' ∧ π' 0 = m0 ∧ Stair (fun m m' => ∀ p, V p → m p = m' p) π π' := by
  classical
  let vs : Fin N.ntransitions → Bool := fun t => vis t
  have hstep : ∀ i, ∃ o, OStep N.toNet (π i) o (π (i + 1)) := by
    intro i
    rcases hπ i with ⟨t, ht⟩ | ⟨hd, he⟩
    · exact ⟨some t, ht⟩
    · exact ⟨none, (N.ts_dead _).1 hd, he⟩
  choose τ hτ using hstep
  let W0 := visCount vs τ
  let top : Nat → Prop := fun n => ∃ i, W0 i = n
  let Y : Nat → Mark := fun n => if h : ∃ i, W0 i = n then π (Classical.choose h) else π 0
  have hlab : ∀ i p, V p → π i p = Y (W0 i) p := by
    intro i p hp
    have hex : ∃ j, W0 j = W0 i := ⟨i, rfl⟩
    have hY : Y (W0 i) = π (Classical.choose hex) := dif_pos hex
    rw [hY]
    have hj := Classical.choose_spec hex
    generalize Classical.choose hex = j at hj
    rcases Nat.le_total i j with hij | hij
    · have := visCount_same hτ hV i (j - i) (by rw [show i + (j - i) = j by omega]; exact hj) p hp
      rw [show i + (j - i) = j by omega] at this
      exact this.symm
    · have := visCount_same hτ hV j (i - j) (by rw [show j + (i - j) = i by omega]; exact hj.symm) p hp
      rw [show j + (i - j) = i by omega] at this
      exact this
  let X := (Nat → Mark) × (Nat → Option (Fin N.ntransitions)) × (Nat → Nat)
  let OK : X → Prop := fun x => Rem N.toNet vs V Y top x.1 x.2.1 x.2.2
  have hinit : OK (π, τ, W0) := ⟨hτ, fun i => rfl, hlab, fun n _ => Iff.rfl⟩
  have hnext : ∀ x : {x // OK x}, ∃ y : {y // OK y}, Adv N.toNet vs V Y top (fun t => S (x.1.1 0) t = true)
      x.1.1 x.1.2.1 x.1.2.2 y.1.1 y.1.2.1 y.1.2.2 := by
    rintro ⟨⟨ρ, τ, W⟩, hx⟩
    obtain ⟨ρ', τ', W', ha⟩ := advance_vis hx (hS (ρ 0)) hV hinh
    exact ⟨⟨(ρ', τ', W'), ha.rem⟩, ha⟩
  choose nx hnx using hnext
  let sq : Nat → {x // OK x} := fun n => Nat.rec ⟨(π, τ, W0), hinit⟩ (fun _ x => nx x) n
  let r : Nat → Mark := fun n => (sq n).1.1 0
  let c : Nat → Nat := fun n => (sq n).1.2.2 0
  have hadv : ∀ n, Adv N.toNet vs V Y top (fun t => S (r n) t = true) (sq n).1.1 (sq n).1.2.1 (sq n).1.2.2
      (sq (n + 1)).1.1 (sq (n + 1)).1.2.1 (sq (n + 1)).1.2.2 := fun n => hnx (sq n)
  have hrem : ∀ n, Rem N.toNet vs V Y top (sq n).1.1 (sq n).1.2.1 (sq n).1.2.2 := fun n => (sq n).2
  have hpath : (redTS N S).IsPath r := by
    intro n
    rcases (hadv n).step with ⟨t, ht, hs⟩ | ⟨hd, he⟩
    · exact .inl ⟨t, ht, hs⟩
    · refine .inr ⟨?_, he⟩
      rintro m' ⟨t, _, hs⟩
      exact hd t hs.1
  have hclock : ∀ n, c (n + 1) = c n ∨ c (n + 1) = c n + 1 := fun n => (hadv n).clock
  -- a pending visible transition is fired some time
  have hdead : ∀ n l, n ≤ l → N.toNet.Dead (r n) → N.toNet.Dead (r l) := by
    intro n l hnl hd
    obtain ⟨k, rfl⟩ := Nat.exists_eq_add_of_le hnl
    clear hnl
    induction k with
    | zero => exact hd
    | succ k ih =>
      rcases (hadv (n + k)).step with ⟨t, _, hs⟩ | ⟨_, he⟩
      · exact (ih t hs.1).elim
      · show N.toNet.Dead ((sq (n + k + 1)).1.1 0); rw [he]; exact ih
  have hprog : ∀ j, top (c j + 1) → ∃ k, c k = c j + 1 := by
    intro j htop
    refine Classical.byContradiction fun hno => ?_
    have hc : ∀ l, c (j + l) = c j := by
      intro l
      induction l with
      | zero => rfl
      | succ l ih =>
        rcases hclock (j + l) with h | h
        · exact h.trans ih
        · exact (hno ⟨j + l + 1, by rw [h, ih]⟩).elim
    -- one that is pending
    have hex : ∃ d v, (sq j).1.2.1 d = some v ∧ vs v = true := by
      refine Classical.byContradiction fun hne => ?_
      obtain ⟨i, hi⟩ := ((hrem j).top (c j + 1) (Nat.le_succ _)).2 htop
      have : ∀ i, (sq j).1.2.2 i = (sq j).1.2.2 0 := by
        intro i
        induction i with
        | zero => rfl
        | succ i ih =>
          rw [(hrem j).inc i, ih]
          cases hx : (sq j).1.2.1 i with
          | none => simp
          | some v =>
            cases hv : vs v with
            | false => simp [hv]
            | true => exact (hne ⟨i, v, hx, hv⟩).elim
      rw [this i] at hi
      have : c j = c j + 1 := hi
      omega
    obtain ⟨d, v, hd, hv⟩ := hex
    have hone : ∀ l d, (sq (j + l)).1.2.1 d = some v → ∃ d', d' ≤ d ∧ (sq (j + l + 1)).1.2.1 d' = some v ∧
        (S (r (j + l)) v = true → d' < d) := by
      intro l d hd
      rcases (hadv (j + l)).next d v hd hv with h | h
      · have e1 : c (j + l + 1) = c (j + l) + 1 := h
        rw [hc l] at e1
        have e2 := hc (l + 1)
        rw [show j + (l + 1) = j + l + 1 by omega] at e2
        omega
      · exact h
    have hpend : ∀ l d, (sq (j + l)).1.2.1 d = some v → ∀ i, ∃ d', d' ≤ d ∧ (sq (j + l + i)).1.2.1 d' = some v := by
      intro l d hd i
      induction i with
      | zero => exact ⟨d, Nat.le_refl _, hd⟩
      | succ i ih =>
        obtain ⟨d', h1, h2⟩ := ih
        rw [show j + l + i = j + (l + i) by omega] at h2
        obtain ⟨d'', h3, h4, _⟩ := hone (l + i) d' h2
        exact ⟨d'', by omega, by rw [show j + l + (i + 1) = j + (l + i) + 1 by omega]; exact h4⟩
    have hlive : ∀ n, ¬ N.toNet.Dead (r n) := by
      intro n hdn
      have h1 := hdead n (j + n) (by omega) hdn
      obtain ⟨d', _, h2⟩ := hpend 0 d hd n
      have h3 := (dead_stay (hrem (j + n)).step (i := 0) h1 d').1
      rw [show 0 + d' = d' by omega] at h3
      have h2' : (sq (j + n)).1.2.1 d' = some v := h2
      rw [h3] at h2'; cases h2'
    have hreal : ∀ k, (redTS N S).step (r k) (r (k + 1)) := by
      intro k
      rcases (hadv k).step with ⟨t, ht, hs⟩ | ⟨hdk, _⟩
      · exact ⟨t, ht, hs⟩
      · exact (hlive k hdk).elim
    have hdec : ∀ d l, (sq (j + l)).1.2.1 d = some v → False := by
      intro d
      induction d using Nat.strongRecOn with
      | ind d ih =>
        intro l hd
        obtain ⟨k, hk, hSk⟩ := hL r h0 hreal v v.2 hv (j + l)
        obtain ⟨i, rfl⟩ := Nat.exists_eq_add_of_le hk
        obtain ⟨d', h1, h2⟩ := hpend l d hd i
        rw [show j + l + i = j + (l + i) by omega] at h2 hSk
        obtain ⟨d'', h3, h4, h5⟩ := hone (l + i) d' h2
        have := h5 hSk
        exact ih d'' (by omega) (l + i + 1) (by rw [show j + (l + i + 1) = j + (l + i) + 1 by omega]; exact h4)
    exact hdec d 0 hd
  have hvw : ∀ i, ∃ j, W0 i = c j := by
    intro i
    induction i with
    | zero => exact ⟨0, rfl⟩
    | succ i ih =>
      obtain ⟨j, hj⟩ := ih
      rcases visCount_walk vs τ i with h | h
      · exact ⟨j, h.trans hj⟩
      · have h' : W0 (i + 1) = c j + 1 := by rw [← hj]; exact h
        obtain ⟨k, hk⟩ := hprog j ⟨i + 1, h'⟩
        exact ⟨k, by rw [h', hk]⟩
  have hwv : ∀ j, ∃ i, c j = W0 i := by
    intro j
    obtain ⟨i, hi⟩ := ((hrem j).top (c j) (Nat.le_refl _)).1 ⟨0, rfl⟩
    exact ⟨i, hi.symm⟩
  obtain ⟨a, b, h1, h2, h3, h4, h5, h6, h7⟩ := common_walk (V := W0) (W := c) rfl (visCount_walk vs τ) hclock hvw hwv
  refine ⟨r, hpath, h0, a, b, h1, h2, h3, h4, h5, h6, fun k p hp => ?_⟩
  have e1 := hlab (a k) p hp
  have e2 := (hrem (b k)).lab 0 p hp
  rw [e1]
  show Y (W0 (a k)) p = (sq (b k)).1.1 0 p
  rw [e2]
  show Y (W0 (a k)) p = Y (c (b k)) p
  rw [h7 k]
end

/-! ### The sets of the program -/

section
variable {N : FlatNet} {m : Mark}

theorem posts_unproc (hen : EnOK N m (cx N m).en) (p : Nat) (ps : List Nat) {s : Stub}
    (hi : Inv N m (cx N m).en (fun _ => False) s) (hs : s.unproc = [] ∨ s.seenPost p = false) :
    Inv N m (cx N m).en (fun _ => False) ((p :: ps).foldl (fun s p => (cx N m).post p s) s) ∧
      ((p :: ps).foldl (fun s p => (cx N m).post p s) s).unproc = [] := by
  have hi' : Inv N m (cx N m).en (fun _ => False) ((cx N m).post p s) := (Cx.post_ext (C := cx N m) hen p s).1.inv hi
  have hu : ((cx N m).post p s).unproc = [] := by
    unfold Cx.post
    cases hx : s.seenPost p with
    | true =>
      simp only [if_true]
      rcases hs with h | h
      · exact h
      · rw [hx] at h; cases h
    | false =>
      simp only [Bool.false_eq_true, if_false]
      show (closure N m (cx N m).en (postsetOf N p s)).unproc = []
      exact (closure_done hen _ ((postsetOf_ext (N := N) (m := m) (en := (cx N m).en) p s).1.inv hi)).2.2
  cases ps with
  | nil => exact ⟨hi', hu⟩
  | cons q qs => exact posts_unproc hen q qs hi' (.inl hu)

theorem inh_none (hinh : hasInhibitor N = false) (t : Fin N.ntransitions) (p : Nat) : N.toNet.inh t p = none := by
  cases hx : N.toNet.inh t p with
  | none => rfl
  | some w =>
    have := mem_inhT t p w hx
    rw [inhT_nil hinh] at this
    cases this

theorem keySet_spec (w : N.WF) (hd : N.DirOK) (hinh : hasInhibitor N = false) (k : Fin N.ntransitions)
    (hk : N.toNet.Enabled m k) : Closed N.toNet m (fun t : Fin N.ntransitions => (keySet N m k).stub t = true) ∧
      (keySet N m k).stub k = true ∧
      ∀ u : Fin N.ntransitions, ¬ (keySet N m k).stub u = true → ∀ p, 0 < N.toNet.pre k p → N.toNet.pre u p ≤ N.toNet.post u p := by
  have hen := cx_en w m
  obtain ⟨hg, hks⟩ := addToStub_grow (N := N) (s := {}) k.2
  have hi0 : Inv N m (cx N m).en (fun _ => False) (addToStub {} k) := hg.inv (inv_empty m _)
  have hposts := Cx.posts_ext (C := cx N m) hen ((N.preset k).map (·.place)) (addToStub {} k)
  have hstub : (keySet N m k).stub k = true := hposts.1.le.stub _ hks
  have hinv : Inv N m (cx N m).en (fun _ => False) (keySet N m k) := hposts.1.inv hi0
  refine ⟨?_, hstub, ?_⟩
  · cases hp : N.preset k with
    | nil =>
      have hpre : ∀ p, N.toNet.pre k p = 0 := by
        intro p
        refine Classical.byContradiction fun h => ?_
        obtain ⟨i, hi, _⟩ := mem_postT k p (by omega)
        rw [hp] at hi; cases hi
      have hset : ∀ t : Fin N.ntransitions, (keySet N m k).stub t = true → t = k := by
        intro t ht
        unfold keySet at ht
        rw [hp] at ht
        have ht : (addToStub {} k.1).stub t = true := ht
        simp only [addToStub, Bool.not_false, if_true] at ht
        rcases of_setB ht with h | h
        · exact Fin.ext h
        · cases h
      constructor
      · intro t ht _ p
        rw [hset t ht]
        refine ⟨fun h => ?_, fun _ u w hw => ?_⟩
        · rw [hpre] at h; omega
        · rw [inh_none hinh] at hw; cases hw
      · intro t ht hne
        rw [hset t ht] at hne
        exact (hne hk).elim
    | cons i l =>
      refine closed_of_inv w hd hen hinv ?_
      unfold keySet
      rw [hp]
      exact (posts_unproc hen i.place (l.map (·.place)) hi0 (.inr (by
        simp [addToStub]))).2
  · intro u hu p hpos
    refine Classical.byContradiction fun hlt => hu ?_
    obtain ⟨i, hi, hpl, _⟩ := mem_postT k p hpos
    have hseen := hposts.2 p (List.mem_map.2 ⟨i, hi, hpl⟩)
    obtain ⟨d, hd0, hdm⟩ := mem_postT_decr hd u p (by omega)
    exact hinv.post p hseen _ hdm hd0

theorem visSet_ok (w : N.WF) (hd : N.DirOK) (hinh : hasInhibitor N = false) (vis : Nat → Bool) (m : Mark) :
    SetOK N.toNet (fun t : Fin N.ntransitions => vis t) m (fun t => visSet N vis m t = true) := by
  have hord : ∀ t : Fin N.ntransitions, N.toNet.Enabled m t ↔ t.1 ∈ ordering N m := fun t => by
    rw [mem_ordering w, FlatNet.checkPreset_iff w]; exact ⟨fun h => ⟨t.2, h⟩, fun h => h.2⟩
  have hen : ∀ t : Fin N.ntransitions, N.toNet.Enabled m t ↔ (cx N m).en t = true := fun t => by
    rw [hord]; exact List.contains_iff_mem.symm
  unfold visSet
  cases ho : ordering N m with
  | nil => exact .inl fun t ht => by rw [hord, ho] at ht; cases ht
  | cons t l =>
    cases l with
    | nil =>
      refine .inl fun u hu => ?_
      rw [hord, ho] at hu
      simp only [List.mem_singleton] at hu
      show setB _ t u = true
      rw [hu]; exact setB_self _ _
    | cons t' l =>
      have ht : t < N.ntransitions ∧ N.checkPreset m t = true := (mem_ordering w).1 (by rw [ho]; simp)
      have hkey : ∃ k : Fin N.ntransitions, visKey N vis m t = k.1 ∧ N.toNet.Enabled m k := by
        unfold visKey
        split
        · cases hf : (List.range N.ntransitions).find? fun u => (cx N m).en u && !vis u with
          | none => exact ⟨⟨t, ht.1⟩, rfl, (FlatNet.checkPreset_iff w m ⟨t, ht.1⟩).1 ht.2⟩
          | some u =>
            have h1 := List.mem_range.1 (List.mem_of_find?_eq_some hf)
            have h2 := List.find?_some hf
            simp only [Bool.and_eq_true] at h2
            exact ⟨⟨u, h1⟩, rfl, (hen ⟨u, h1⟩).2 h2.1⟩
        · exact ⟨⟨t, ht.1⟩, rfl, (FlatNet.checkPreset_iff w m ⟨t, ht.1⟩).1 ht.2⟩
      obtain ⟨k, hk, hke⟩ := hkey
      simp only [hk]
      obtain ⟨h1, h2, h3⟩ := keySet_spec w hd hinh k hke
      cases hv : (List.range N.ntransitions).any fun u => (keySet N m k).stub u && (cx N m).en u && vis u with
      | true => exact .inl fun _ _ => by simp
      | false =>
        simp only [Bool.false_eq_true, if_false]
        refine .inr ⟨h1, ⟨k, h2, hke, h3⟩, fun u hu he => ?_⟩
        rw [List.any_eq_false] at hv
        have := hv u.1 (List.mem_range.2 u.2)
        simp only [hu, (hen u).1 he, Bool.true_and] at this
        simpa using this

/-- The system explored never stops where the net does not. -/
theorem redTS_path {S : Mark → Nat → Bool} {vis : Nat → Bool}
    (hS : ∀ m, SetOK N.toNet (fun t : Fin N.ntransitions => vis t) m (fun t => S m t = true)) {π : Nat → Mark}
    (h : (redTS N S).IsPath π) : N.ts.IsPath π := by
  intro i
  rcases h i with ⟨t, _, hs⟩ | ⟨hdead, he⟩
  · exact .inl ⟨t, hs⟩
  · refine .inr ⟨?_, he⟩
    rintro m' ⟨t, hs⟩
    rcases hS (π i) with hall | ⟨_, ⟨k, hk, hke, _⟩, _⟩
    · exact hdead _ ⟨t, hall t hs.1, hs⟩
    · exact hdead _ ⟨k, hk, hke, rfl⟩
end

/-! ### Conditions on paths -/

mutual
/-- Specification: a formula about one path: no path quantifiers. -/
def onPath : Cond → Bool
  | .bool _ | .dead | .cmp _ _ _ | .cc _ _ => true
  | .not c => onPath c
  | .and cs => onPaths cs
  | .or cs => onPaths cs
  | .X c | .F c | .G c => onPath c
  | .U c d => onPath c && onPath d
  | _ => false
def onPaths : List Cond → Bool
  | [] => true
  | c :: cs => onPath c && onPaths cs
end

theorem onPaths_iff {cs : List Cond} : onPaths cs = true ↔ ∀ c ∈ cs, onPath c = true := by
  induction cs with
  | nil => simp [onPaths]
  | cons c cs ih => simp [onPaths, ih]

theorem visEs_eq (es : List Expr) (h : ∀ e ∈ es, ∀ f p, visE e f p = (f p || e.uses p)) (f : Nat → Bool) (p : Nat) :
    visEs es f p = (f p || usesE p es) := by
  induction es generalizing f with
  | nil => simp [visEs, usesE]
  | cons e es ih =>
    simp only [visEs, usesE]
    rw [ih (fun e he => h e (List.mem_cons_of_mem _ he)), h e (List.mem_cons_self ..), Bool.or_assoc]

theorem setBs_eq (ids : List Nat) (f : Nat → Bool) (p : Nat) : ids.foldl setB f p = (f p || ids.contains p) := by
  induction ids generalizing f with
  | nil => simp
  | cons i ids ih =>
    rw [List.foldl_cons, ih]
    by_cases h : p = i <;> simp [setB, h, List.contains_cons]

theorem visE_eq (e : Expr) : ∀ f p, visE e f p = (f p || e.uses p) := by
  induction e using Expr.ind with
  | lit v => simp [visE, Expr.uses]
  | id q => intro f p; by_cases h : p = q <;> simp [visE, Expr.uses, setB, h]
  | plus k ids es ih => intro f p; simp only [visE, Expr.uses]; rw [visEs_eq es ih, setBs_eq, Bool.or_assoc]
  | mul k ids es ih => intro f p; simp only [visE, Expr.uses]; rw [visEs_eq es ih, setBs_eq, Bool.or_assoc]
  | sub e es ih ihs => intro f p; simp only [visE, Expr.uses]; rw [visEs_eq es ihs, ih, Bool.or_assoc]
  | minus e ih => intro f p; simp only [visE, Expr.uses]; exact ih f p

theorem visCs_eq (cs : List Cond) (h : ∀ c ∈ cs, ∀ f p, visC c f p = (f p || c.uses p)) (f : Nat → Bool) (p : Nat) :
    visCs cs f p = (f p || usesC p cs) := by
  induction cs generalizing f with
  | nil => simp [visCs, usesC]
  | cons c cs ih =>
    simp only [visCs, usesC]
    rw [ih (fun c hc => h c (List.mem_cons_of_mem _ hc)), h c (List.mem_cons_self ..), Bool.or_assoc]

/-- The visitor finds the places of a formula. -/
theorem visC_eq (c : Cond) : onPath c = true → ∀ f p, visC c f p = (f p || c.uses p) := by
  induction c using Cond.ind with
  | bool b => intro _ f p; simp [visC, Cond.uses]
  | dead => intro _ f p; simp [visC, Cond.uses]
  | cmp o a b => intro _ f p; simp only [visC, Cond.uses]; rw [visE_eq, visE_eq, Bool.or_assoc]
  | cc l n =>
    intro _ f p
    simp only [visC, Cond.uses]
    induction l generalizing f with
    | nil => simp
    | cons i l ih =>
      rw [List.foldl_cons, ih rfl]
      by_cases h : p = i.place
      · simp [setB, h]
      · have h2 : (i.place == p) = false := beq_eq_false_iff_ne.2 fun h' => h h'.symm
        simp [setB, h, h2]
  | not c ih => intro h f p; simp only [visC, Cond.uses]; exact ih h f p
  | and cs ih => intro h f p; simp only [visC, Cond.uses]; exact visCs_eq cs (fun c hc => ih c hc (onPaths_iff.1 h c hc)) f p
  | or cs ih => intro h f p; simp only [visC, Cond.uses]; exact visCs_eq cs (fun c hc => ih c hc (onPaths_iff.1 h c hc)) f p
  | X c ih | F c ih | G c ih => intro h f p; simp only [visC, Cond.uses]; exact ih h f p
  | U c d ih ih' =>
    intro h f p
    simp only [onPath, Bool.and_eq_true] at h
    simp only [visC, Cond.uses]
    rw [ih' h.2, ih h.1, Bool.or_assoc]
  | EX | AX | EF | AF | EG | AG | EU | AU | E | A => intro h; simp [onPath] at h

/-- A formula about one path without deadlock propositions does not depend on the system. -/
theorem onPath_ts (T T' : TS) (c : Cond) : onPath c = true → c.hasDead = false → ∀ π, (c.sat T π ↔ c.sat T' π) := by
  induction c using Cond.ind with
  | bool b => exact fun _ _ _ => Iff.rfl
  | dead => intro _ h; simp [Cond.hasDead] at h
  | cmp o a b => exact fun _ _ _ => Iff.rfl
  | cc l n => exact fun _ _ _ => Iff.rfl
  | not c ih => exact fun h hd π => not_congr (ih h hd π)
  | and cs ih =>
    intro h hd π
    have hd' : ∀ c ∈ cs, c.hasDead = false := fun c hc => by
      cases hx : c.hasDead with
      | false => rfl
      | true => rw [Cond.hasDead, hasDeadL_true.2 ⟨c, hc, hx⟩] at hd; cases hd
    simp only [Cond.sat, satAll_iff]
    exact forall₂_congr fun c hc => ih c hc (onPaths_iff.1 h c hc) (hd' c hc) π
  | or cs ih =>
    intro h hd π
    have hd' : ∀ c ∈ cs, c.hasDead = false := fun c hc => by
      cases hx : c.hasDead with
      | false => rfl
      | true => rw [Cond.hasDead, hasDeadL_true.2 ⟨c, hc, hx⟩] at hd; cases hd
    simp only [Cond.sat, satAny_iff]
    exact exists_congr fun c => and_congr_right fun hc => ih c hc (onPaths_iff.1 h c hc) (hd' c hc) π
  | X c ih => exact fun h hd π => ih h hd _
  | F c ih => exact fun h hd π => exists_congr fun i => ih h hd _
  | G c ih => exact fun h hd π => forall_congr' fun i => ih h hd _
  | U c d ih ih' =>
    intro h hd π
    simp only [onPath, Bool.and_eq_true] at h
    simp only [Cond.hasDead, Bool.or_eq_false_iff] at hd
    exact exists_congr fun i => and_congr (ih' h.2 hd.2 _) (forall₂_congr fun j _ => ih h.1 hd.1 _)
  | EX | AX | EF | AF | EG | AG | EU | AU | E | A => intro h; simp [onPath] at h

/-- Formulas about one path, without next and deadlock propositions, do not see repetition. -/
theorem onPath_stair {V : Nat → Prop} (T T' : TS) (c : Cond) (hp : onPath c = true) (hd : c.hasDead = false)
    (hn : c.next = false) (hu : ∀ p, c.uses p = true → V p) {π π' : Nat → Mark}
    (h : Stair (fun m m' => ∀ p, V p → m p = m' p) π π') : c.sat T π ↔ c.sat T' π' := by
  let U : TS := ⟨fun _ _ => True⟩
  have sim : ∀ R : Mark → Mark → Prop, (∀ x, R x x) → StutterSim R U U := by
    intro R hr m m' hR π _ h0
    refine ⟨fun i => if i = 0 then m' else π i, fun _ => .inl trivial, rfl, fun k => k, fun k => k, rfl, rfl, fun _ => .inr rfl,
      fun _ => .inr rfl, fun i => ⟨i, rfl⟩, fun i => ⟨i, rfl⟩, fun k => ?_⟩
    by_cases hk : k = 0
    · subst hk; simp only [if_true]; rw [h0]; exact hR
    · simp only [if_neg hk]; exact hr _
  rw [onPath_ts T U c hp hd, onPath_ts T' U c hp hd]
  exact Cond.sat_stair ⟨sim _ fun _ _ _ => rfl, sim _ fun _ _ _ => rfl⟩ c hn
    (fun m m' hR p hx => hR p (hu p hx)) (fun hx => by rw [hd] at hx; cases hx) _ _ h

end LTL
end Verif
