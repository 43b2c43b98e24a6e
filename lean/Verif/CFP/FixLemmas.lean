import Verif.CFP.Fixpoint
import Verif.CFP.Align
import Verif.CFP.GuardMain
import Verif.CFP.OutLemmas
import Verif.CFP.IntervalCount
import Verif.CPN.BindingLemmas

/-!
# The steps of the fixed point

What one input step and one output step do to the boxes of the places and to the maps of a transition.
-/

namespace Verif
namespace CFP

open CPN

variable {T : Types} {vty : Nat → Nat}

/-! ### The maps, whether an assignment is allowed or not -/

/-- The boxes of the map lie in the types of the variables, and every variable has one. -/
def VMap.Sane (T : Types) (vty : Nat → Nat) (m : VMap) : Prop := m.In T vty ∧ m.Full

theorem localMap_full {k j : Nat} {box : Interval} : (mods : Mods) → (l : VMap) → localMap T vty k j box mods = some l → l.Full
  | [], l, h => by rw [localMap] at h; cases h; exact fun q hq => nomatch hq
  | (v, vec) :: ms, l, h => by
    rw [localMap] at h
    split at h
    · cases h
    · rename_i hne
      cases hl : localMap T vty k j box ms with
      | none => rw [hl] at h; cases h
      | some l' =>
        rw [hl] at h
        cases h
        intro q hq
        rcases List.mem_cons.1 hq with rfl | hq
        · intro e
          simp only at e
          rw [e] at hne
          exact hne rfl
        · exact localMap_full ms l' hl q hq

theorem populate_full {k j : Nat} {box : Interval} {old : VMap} : (mods : Mods) → (l : VMap) → populate T vty k j old box mods = some l → l.Full
  | [], l, h => by rw [populate] at h; cases h; exact fun q hq => nomatch hq
  | (v, vec) :: ms, l, h => by
    rw [populate] at h
    split at h
    · cases h
    · rename_i hne
      cases hl : populate T vty k j old box ms with
      | none => rw [hl] at h; cases h
      | some l' =>
        rw [hl] at h
        cases h
        intro q hq
        rcases List.mem_cons.1 hq with rfl | hq
        · intro e
          simp only at e
          rw [e] at hne
          exact hne rfl
        · exact populate_full ms l' hl q hq

theorem leafStep_sane (hn : ∀ v, ∀ n ∈ T.dims (vty v), 0 < n) {k j : Nat} {mods : Mods} {vec : IVec} {maps : List VMap}
    (h : ∀ m ∈ maps, m.Sane T vty) : ∀ m ∈ leafStep T vty k j mods vec maps, m.Sane T vty := by
  unfold leafStep
  split
  · rw [fill_eq]
    obtain ⟨h1, _, _⟩ := pushes (fun a => localMap T vty k j a mods) vec []
    intro m hm
    rcases h1 m hm with h' | ⟨a, _, e⟩
    · cases h'
    · exact ⟨(localMap_in hn mods m e).1, localMap_full mods m e⟩
  · rw [refine_eq]
    obtain ⟨h1, _, _⟩ := pushes (fun a : VMap × Interval => (populate T vty k j a.1 a.2 mods).map fun l => keepOld l a.1)
      (maps.map fun old => vec.map fun box => (old, box)).flatten []
    intro m hm
    rcases h1 m hm with h' | ⟨a, ha, e⟩
    · cases h'
    · obtain ⟨r, hr, ha⟩ := List.mem_flatten.1 ha
      obtain ⟨old, hold, rfl⟩ := List.mem_map.1 hr
      obtain ⟨box, _, rfl⟩ := List.mem_map.1 ha
      simp only at e
      cases hp : populate T vty k j old box mods with
      | none => rw [hp] at e; cases e
      | some l =>
        rw [hp] at e
        cases e
        have g1 := populate_in hn (h old hold).1 mods l hp
        have g2 := populate_full mods l hp
        constructor
        · intro q hq
          rcases List.mem_append.1 hq with hq | hq
          · exact g1.1 q hq
          · exact (h old hold).1 q (List.mem_filter.1 hq).1
        · intro q hq
          rcases List.mem_append.1 hq with hq | hq
          · exact g2 q hq
          · exact (h old hold).2 q (List.mem_filter.1 hq).1

theorem leavesStep_sane (hn : ∀ v, ∀ n ∈ T.dims (vty v), 0 < n) {mods : Mods} {k : Nat} : (vecs : List IVec) → (j : Nat) → (maps maps' : List VMap) →
    leavesStep T vty mods k j vecs maps = some maps' → (∀ m ∈ maps, m.Sane T vty) → ∀ m ∈ maps', m.Sane T vty
  | [], j, maps, maps', e, h => by rw [leavesStep] at e; cases e; exact h
  | vec :: vecs, j, maps, maps', e, h => by
    rw [leavesStep] at e
    split at e
    · cases e
    · simp only at e
      split at e
      · cases e
        exact fun m hm => nomatch hm
      · exact leavesStep_sane hn vecs (j + 1) _ maps' e (leafStep_sane hn h)

theorem arcsStep_sane (hn : ∀ v, ∀ n ∈ T.dims (vty v), 0 < n) : (arcs : List (Mods × List IVec)) → (maps maps' : List VMap) →
    arcsStep T vty arcs maps = some maps' → (∀ m ∈ maps, m.Sane T vty) → ∀ m ∈ maps', m.Sane T vty
  | [], maps, maps', e, h => by rw [arcsStep] at e; cases e; exact h
  | (mods, vecs) :: arcs, maps, maps', e, h => by
    rw [arcsStep] at e
    cases hl : leavesStep T vty mods vecs.length 0 vecs maps with
    | none => rw [hl] at e; cases e
    | some m1 =>
      rw [hl] at e
      simp only at e
      split at e
      · cases e
        exact fun m hm => nomatch hm
      · exact arcsStep_sane hn arcs m1 maps' e (leavesStep_sane hn vecs 0 maps m1 hl h)

theorem varIntervals_sane (hn : ∀ v, ∀ n ∈ T.dims (vty v), 0 < n) {arcs : List (Mods × List IVec)} {maps : List VMap} {b : Bool}
    (e : varIntervals T vty arcs = some (maps, b)) : ∀ m ∈ maps, m.Sane T vty := by
  unfold varIntervals at e
  split at e
  · cases e
    intro m hm
    rw [List.mem_singleton] at hm
    subst hm
    exact ⟨(fun q hq => nomatch hq), (fun q hq => nomatch hq)⟩
  · cases ha : arcsStep T vty arcs [] with
    | none => rw [ha] at e; cases e
    | some m1 =>
      rw [ha] at e
      cases e
      exact arcsStep_sane hn arcs [] _ ha fun m hm => nomatch hm

theorem varIntervals_ne {arcs : List (Mods × List IVec)} {maps : List VMap} (e : varIntervals T vty arcs = some (maps, true))
    (ha : ∀ a ∈ arcs, a.2 ≠ []) : maps ≠ [] := by
  unfold varIntervals at e
  cases arcs with
  | nil => cases e; simp
  | cons a arcs =>
    simp only [List.isEmpty_cons, Bool.false_eq_true, if_false] at e
    cases hs : arcsStep T vty (a :: arcs) [] with
    | none => rw [hs] at e; cases e
    | some m1 =>
      rw [hs] at e
      simp only [Option.map_some, Option.some.injEq, Prod.mk.injEq] at e
      obtain ⟨rfl, e⟩ := e
      intro h
      subst h
      have hne := ha a List.mem_cons_self
      cases hv : a.2 with
      | nil => exact hne hv
      | cons x xs => simp [hv] at e

/-! ### A leaf always has a list of boxes -/

mutual
theorem visitC_some {cfp : IVec} : (t : CExpr) → {ty : Nat} → HasTy T vty t ty → (∀ cs, T.parts ty = some cs → cs ≠ []) → ∀ (m : Int) (s : ASt),
    (ASt.visitC T cfp m s t).vec.isSome = true
  | .dot, ty, _, _, m, s => by rw [ASt.visitC]; rfl
  | .var v, ty, _, _, m, s => by rw [ASt.visitC]; rfl
  | .const c, ty, _, _, m, s => by rw [ASt.visitC]; rfl
  | .succ e, ty, h, hp, m, s => by rw [HasTy] at h; rw [ASt.visitC]; exact visitC_some e h.1 hp _ s
  | .pred e, ty, h, hp, m, s => by rw [HasTy] at h; rw [ASt.visitC]; exact visitC_some e h.1 hp _ s
  | .tuple es, ty, h, hp, m, s => by
    rw [HasTy] at h
    obtain ⟨cs, h1, h2⟩ := h
    rw [ASt.visitC]
    exact visitCs_some es h2 m s (Or.inr (hp cs h1))
theorem visitCs_some {cfp : IVec} : (es : List CExpr) → {cs : List Nat} → HasTys T vty es cs → ∀ (m : Int) (s : ASt), s.vec.isSome = true ∨ cs ≠ [] →
    (ASt.visitCs T cfp m s es).vec.isSome = true
  | [], cs, h, m, s, hs => by
    rw [HasTys] at h
    rw [ASt.visitCs]
    rcases hs with hs | hs
    · exact hs
    · exact absurd h hs
  | e :: es, cs, h, m, s, hs => by
    rw [HasTys] at h
    obtain ⟨c, cs', rfl, hp, h1, h2⟩ := h
    have := visitC_some (cfp := cfp) e h1 (fun cs hc => by rw [hp] at hc; cases hc) m s
    rw [ASt.visitCs]
    split
    · exact visitCs_some es h2 m _ (Or.inl this)
    · exact this
end

mutual
theorem arcFound_ne {ty : Nat} (hp : ∀ cs, T.parts ty = some cs → cs ≠ []) {cfp : IVec} : (e : ArcE) → ArcTy T vty ty e → Flat T e → ∀ vecs,
    arcFound T cfp e = .yes vecs → vecs ≠ []
  | .num n es, ht, hf, vecs, h => by
    rw [Flat] at hf
    obtain ⟨t, rfl, _⟩ := hf
    rw [ArcTy] at ht
    rw [arcFound] at h
    have h1 := visitC_some (cfp := cfp) t (ht.2 t (List.mem_singleton.2 rfl)) hp 0 {}
    have h2 : (ASt.elems T cfp {} [t]).vec.isSome = true := by
      rw [ASt.elems]
      split
      · rw [ASt.elems]; exact h1
      · exact h1
    generalize ASt.elems T cfp {} [t] = s at h h2
    split at h
    · cases h
    · split at h
      · cases h
        intro e
        cases hv : s.vec with
        | none => rw [hv] at h2; cases h2
        | some v => rw [hv] at e; cases e
      · cases h
  | .add as, ht, hf, vecs, h => by
    rw [Flat] at hf
    rw [ArcTy] at ht
    rw [arcFound] at h
    exact arcFounds_ne hp as ht hf.2 [] vecs h (Or.inr hf.1)
  | .sub a b, ht, hf, vecs, h => by
    rw [Flat] at hf
    rw [ArcTy] at ht
    rw [arcFound] at h
    exact arcFound_ne hp a ht.1 hf vecs h
  | .scal k a, ht, hf, vecs, h => by
    rw [Flat] at hf
    rw [ArcTy] at ht
    rw [arcFound] at h
    exact arcFound_ne hp a ht hf vecs h
theorem arcFounds_ne {ty : Nat} (hp : ∀ cs, T.parts ty = some cs → cs ≠ []) {cfp : IVec} : (as : List ArcE) → ArcTys T vty ty as → FlatL T as →
    ∀ (acc vecs : List IVec), arcFounds T cfp acc as = .yes vecs → (acc ≠ [] ∨ as ≠ []) → vecs ≠ []
  | [], _, _, acc, vecs, h, ha => by
    rw [arcFounds] at h
    cases h
    rcases ha with ha | ha
    · exact ha
    · exact absurd rfl ha
  | a :: as, ht, hf, acc, vecs, h, _ => by
    rw [FlatL] at hf
    rw [ArcTys] at ht
    rw [arcFounds] at h
    cases hv : arcFound T cfp a with
    | undef => rw [hv] at h; cases h
    | no => rw [hv] at h; cases h
    | yes v =>
      cases v with
      | nil => rw [hv] at h; cases h
      | cons y ys =>
        rw [hv] at h
        exact arcFounds_ne hp as ht.2 hf.2 _ vecs h (Or.inl (by simp))
end

/-! ### Nets the fixed point is right for -/

/-- Nets with guards and arcs for which C63, C64 and C65 hold. -/
structure Ready (N : CNet) : Prop where
  types : N.types.WF
  parts : ∀ ty cs, N.types.parts ty = some cs → cs ≠ []
  vpos : ∀ v, ∀ n ∈ N.types.dims (N.vty v), 0 < n
  ppos : ∀ p < N.places.length, ∀ n ∈ N.types.dims (N.place p).ty, 0 < n
  marking : ∀ p < N.places.length, ∀ q ∈ (N.place p).marking, q.1 < N.types.size (N.place p).ty
  guard : ∀ t ∈ N.transitions, ∀ g, t.guard = some g → GuardTy N.types N.vty g ∧ guardOk N.types N.vty g = true
  input : ∀ t ∈ N.transitions, ∀ a ∈ t.inputs, a.place < N.places.length ∧ ArcTy N.types N.vty (N.place a.place).ty a.expr ∧
    Flat N.types a.expr ∧ aligned N.types N.vty a.expr = true ∧ (Positive a.expr ∨ isSub a.expr = true)
  places : ∀ t ∈ N.transitions, (t.inputs.map (·.place)).Nodup
  output : ∀ t ∈ N.transitions, ∀ a ∈ t.outputs, a.place < N.places.length ∧ ArcTy N.types N.vty (N.place a.place).ty a.expr ∧
    ∀ l ∈ leaves a.expr, PlainConsts N.types l

theorem dims_ne (w : ∀ ty cs, T.parts ty = some cs → cs ≠ []) (ty : Nat) : T.dims ty ≠ [] := by
  unfold Types.dims
  cases h : T.parts ty with
  | none => simp
  | some cs =>
    have := w ty cs h
    simpa using this

theorem trans_mem {N : CNet} {t : Nat} (h : t < N.transitions.length) : N.trans t ∈ N.transitions := by
  unfold CNet.trans
  rw [List.getD_eq_getElem?_getD, List.getElem?_eq_getElem h]
  exact List.getElem_mem h

/-- The boxes of the places lie in the types; places with a subtraction have all values. -/
structure ConsOk (N : CNet) (cons : Nat → IVec) : Prop where
  inn : ∀ p < N.places.length, IVec.In (N.types.dims (N.place p).ty) (cons p)
  full : ∀ p < N.places.length, hasSub N p = true → ∀ x, Fits (N.types.dims (N.place p).ty) x → IVec.Has (cons p) x

def Leq (c d : Nat → IVec) : Prop := ∀ p x, IVec.Has (c p) x → IVec.Has (d p) x

theorem Leq.trans {c d e : Nat → IVec} (h : Leq c d) (g : Leq d e) : Leq c e := fun p x hx => g p x (h p x hx)

theorem upd_same {α : Type} (f : Nat → α) (k : Nat) (a : α) : upd f k a k = a := by unfold upd; rw [if_pos rfl]
theorem upd_ne {α : Type} (f : Nat → α) {k j : Nat} (a : α) (h : j ≠ k) : upd f k a j = f j := by unfold upd; rw [if_neg h]

/-! ### Input arcs -/

theorem takeArcs_cons {k : Nat} : (as : List CArc) → {cons c' : Nat → IVec} → {r : Option (List (Mods × List IVec))} → (as.map (·.place)).Nodup →
    takeArcs T k cons as = some (c', r) → ∀ p, c' p = cons p ∨ (p ∈ as.map (·.place) ∧ c' p = (cons p).restrict k)
  | [], cons, c', r, _, h, p => by rw [takeArcs] at h; cases h; exact Or.inl rfl
  | a :: as, cons, c', r, hn, h, p => by
    rw [List.map_cons, List.nodup_cons] at hn
    rw [takeArcs] at h
    have key : c' = upd cons a.place ((cons a.place).restrict k) ∨ ∃ r', takeArcs T k (upd cons a.place ((cons a.place).restrict k)) as = some (c', r') := by
      cases hf : arcFound T ((cons a.place).restrict k) a.expr with
      | undef => rw [hf] at h; cases h
      | no => rw [hf] at h; cases h; exact Or.inl rfl
      | yes vecs =>
        rw [hf] at h
        simp only at h
        cases ht : takeArcs T k (upd cons a.place ((cons a.place).restrict k)) as with
        | none => rw [ht] at h; cases h
        | some q => rw [ht] at h; cases h; exact Or.inr ⟨q.2, rfl⟩
    have base : upd cons a.place ((cons a.place).restrict k) p = cons p ∨ (p = a.place ∧ upd cons a.place ((cons a.place).restrict k) p = (cons p).restrict k) := by
      by_cases e : p = a.place
      · subst e; exact Or.inr ⟨rfl, upd_same _ _ _⟩
      · exact Or.inl (upd_ne _ _ e)
    rcases key with rfl | ⟨r', h'⟩
    · rcases base with b | ⟨b1, b2⟩
      · exact Or.inl b
      · exact Or.inr ⟨by rw [b1]; exact List.mem_cons_self, b2⟩
    · rcases takeArcs_cons as hn.2 h' p with e | ⟨e1, e2⟩
      · rw [e]
        rcases base with b | ⟨b1, b2⟩
        · exact Or.inl b
        · exact Or.inr ⟨by rw [b1]; exact List.mem_cons_self, b2⟩
      · have hne : p ≠ a.place := fun e => hn.1 (e ▸ e1)
        rw [upd_ne _ _ hne] at e2
        exact Or.inr ⟨List.mem_cons_of_mem _ e1, e2⟩

theorem takeArcs_same {k : Nat} : (as : List CArc) → {cons c' : Nat → IVec} → {r : Option (List (Mods × List IVec))} →
    takeArcs T k cons as = some (c', r) → ∀ p, p ∉ as.map (·.place) → c' p = cons p
  | [], cons, c', r, h, p, _ => by rw [takeArcs] at h; cases h; rfl
  | a :: as, cons, c', r, h, p, hp => by
    rw [takeArcs] at h
    rw [List.map_cons, List.mem_cons, not_or] at hp
    cases hf : arcFound T ((cons a.place).restrict k) a.expr with
    | undef => rw [hf] at h; cases h
    | no => rw [hf] at h; cases h; exact upd_ne _ _ hp.1
    | yes vecs =>
      rw [hf] at h
      simp only at h
      cases ht : takeArcs T k (upd cons a.place ((cons a.place).restrict k)) as with
      | none => rw [ht] at h; cases h
      | some q =>
        rw [ht] at h
        cases h
        rw [takeArcs_same as ht p hp.2]
        exact upd_ne _ _ hp.1

/-- If the terms of all arcs are in the boxes that are left, then all arcs find them. -/
theorem takeArcs_fit {N : CNet} (w : N.types.WF) (wp : ∀ ty cs, N.types.parts ty = some cs → cs ≠ []) {k : Nat} {ρ : Nat → Val} : (as : List CArc) → {cons c' : Nat → IVec} → {r : Option (List (Mods × List IVec))} →
    (as.map (·.place)).Nodup → (∀ a ∈ as, a.place < N.places.length ∧ ArcTy N.types N.vty (N.place a.place).ty a.expr ∧ Flat N.types a.expr ∧
      aligned N.types N.vty a.expr = true ∧ ∀ v ∈ a.expr.vars, Fits (N.types.dims (N.vty v)) (ρ v)) →
    (∀ p < N.places.length, IVec.In (N.types.dims (N.place p).ty) (cons p)) →
    takeArcs N.types k cons as = some (c', r) → (∀ a ∈ as, ∀ l ∈ leaves a.expr, IVec.Has (c' a.place) (den N.types N.vty ρ l)) →
    ∃ l, r = some l ∧ ∀ q ∈ l, ArcFits N.types N.vty ρ q
  | [], cons, c', r, _, _, _, h, _ => by rw [takeArcs] at h; cases h; exact ⟨[], rfl, fun q hq => nomatch hq⟩
  | a :: as, cons, c', r, hn, ha, hi, h, hl => by
    rw [List.map_cons, List.nodup_cons] at hn
    obtain ⟨g1, g2, g3, g4, g5⟩ := ha a List.mem_cons_self
    have hin := (hi a.place g1).restrict k
    rw [takeArcs] at h
    have hat : c' a.place = (cons a.place).restrict k := by
      cases hf : arcFound N.types ((cons a.place).restrict k) a.expr with
      | undef => rw [hf] at h; cases h
      | no => rw [hf] at h; cases h; exact upd_same _ _ _
      | yes vecs =>
        rw [hf] at h
        simp only at h
        cases ht : takeArcs N.types k (upd cons a.place ((cons a.place).restrict k)) as with
        | none => rw [ht] at h; cases h
        | some q => rw [ht] at h; cases h; rw [takeArcs_same as ht _ hn.1]; exact upd_same _ _ _
    obtain ⟨vecs, e1, e2⟩ := arcFits w (dims_ne wp _) hin g2 g3 g4 g5 (fun l hl' => hat ▸ hl a List.mem_cons_self l hl')
    rw [e1] at h
    simp only at h
    cases ht : takeArcs N.types k (upd cons a.place ((cons a.place).restrict k)) as with
    | none => rw [ht] at h; cases h
    | some q =>
      rw [ht] at h
      cases h
      obtain ⟨l, f1, f2⟩ := takeArcs_fit w wp as hn.2 (fun b hb => ha b (List.mem_cons_of_mem _ hb)) (fun p hp => by
        by_cases e : p = a.place
        · subst e; rw [upd_same]; exact hin
        · rw [upd_ne _ _ e]; exact hi p hp) ht (fun b hb => hl b (List.mem_cons_of_mem _ hb))
      refine ⟨(arcMods a.expr, vecs) :: l, by rw [f1]; rfl, ?_⟩
      intro x hx
      rcases List.mem_cons.1 hx with rfl | hx
      · exact e2
      · exact f2 x hx

theorem takeArcs_ne {N : CNet} (w : ∀ ty cs, N.types.parts ty = some cs → cs ≠ []) {k : Nat} : (as : List CArc) → {cons c' : Nat → IVec} → {l : List (Mods × List IVec)} →
    (∀ a ∈ as, ArcTy N.types N.vty (N.place a.place).ty a.expr ∧ Flat N.types a.expr) → takeArcs N.types k cons as = some (c', some l) → ∀ q ∈ l, q.2 ≠ []
  | [], cons, c', l, _, h => by rw [takeArcs] at h; cases h; exact fun q hq => nomatch hq
  | a :: as, cons, c', l, ha, h => by
    rw [takeArcs] at h
    cases hf : arcFound N.types ((cons a.place).restrict k) a.expr with
    | undef => rw [hf] at h; cases h
    | no => rw [hf] at h; cases h
    | yes vecs =>
      rw [hf] at h
      simp only at h
      cases ht : takeArcs N.types k (upd cons a.place ((cons a.place).restrict k)) as with
      | none => rw [ht] at h; cases h
      | some q =>
        obtain ⟨q1, q2⟩ := q
        rw [ht] at h
        cases q2 with
        | none => cases h
        | some l' =>
          cases h
          obtain ⟨g1, g2⟩ := ha a List.mem_cons_self
          intro x hx
          rcases List.mem_cons.1 hx with rfl | hx
          · exact arcFound_ne (w _) a.expr g1 g2 _ hf
          · exact takeArcs_ne w as (fun b hb => ha b (List.mem_cons_of_mem _ hb)) ht x hx

/-! ### Guards -/

theorem guardMaps_sane {N : CNet} (r : Ready N) {t : CTrans} (ht : t ∈ N.transitions) {maps maps' : List VMap} (h : ∀ m ∈ maps, m.Sane N.types N.vty)
    (hne : maps ≠ []) (e : guardMaps N t.guard maps = some maps') : (∀ m ∈ maps', m.Sane N.types N.vty) ∧ maps' ≠ [] := by
  unfold guardMaps at e
  cases hg : t.guard with
  | none => rw [hg] at e; cases e; exact ⟨h, hne⟩
  | some g =>
    rw [hg] at e
    simp only at e
    split at e
    · cases e
    · rename_i hx
      cases e
      obtain ⟨g1, g2⟩ := r.guard t ht g hg
      have hin := (restrictMaps_ok r.types r.vpos (ρ := fun v => (N.types.dims (N.vty v)).map fun _ => 0) g1 g2 (fun v _ => by
        have hp := r.vpos v
        generalize N.types.dims (N.vty v) = ds at hp
        induction ds with
        | nil => trivial
        | cons n ns ih => exact ⟨hp n List.mem_cons_self, ih fun k hk => hp k (List.mem_cons_of_mem _ hk)⟩)
        (maps := maps) fun m hm => (h m hm).1).1
      refine ⟨fun m hm => ⟨hin m hm, ?_⟩, fun e => hx (by rw [e]; rfl)⟩
      unfold restrictMaps removeInvalid at hm
      obtain ⟨m', h', rfl⟩ := List.mem_map.1 hm
      obtain ⟨h1, h2⟩ := List.mem_filter.1 h'
      intro q hq
      obtain ⟨q', hq', rfl⟩ := List.mem_map.1 hq
      have hv := List.all_eq_true.1 h2 q' hq'
      unfold IVec.valid at hv
      obtain ⟨i, hi, hs⟩ := List.any_eq_true.1 hv
      simp only
      have hx : IVec.Has q'.2 (i.map (·.lo)) := ⟨i, hi, by
        clear hi
        induction i with
        | nil => trivial
        | cons r i ih =>
          unfold Interval.sound at hs
          rw [List.all_cons, Bool.and_eq_true] at hs
          exact ⟨⟨Nat.le_refl _, of_decide_eq_true hs.1⟩, ih hs.2⟩⟩
      intro e
      have := IVec.simplify_has hx
      rw [e] at this
      exact IVec.has_nil this

/-- The counts of the guard stay below 2^32. -/
def smallGuard (N : CNet) (g : Option Guard) (maps : List VMap) : Bool :=
  match g with
  | none => true
  | some g => smallG N.types N.vty g (maps.map (addVars N.types N.vty g.vars))

theorem guardMaps_cover {N : CNet} (r : Ready N) {t : CTrans} (ht : t ∈ N.transitions) {ρ : Nat → Val} (hf : ∀ v ∈ t.vars, Fits (N.types.dims (N.vty v)) (ρ v))
    {maps : List VMap} (h : ∀ m ∈ maps, m.Sane N.types N.vty) (hs : smallGuard N t.guard maps = true) (hc : ∃ m ∈ maps, m.Covers ρ)
    (hg : guardHolds N.types N.vty ρ t.guard) : ∃ maps', guardMaps N t.guard maps = some maps' ∧ ∃ m ∈ maps', m.Covers ρ := by
  unfold guardMaps
  cases e : t.guard with
  | none => exact ⟨maps, rfl, hc⟩
  | some g =>
    rw [e] at hs hg
    obtain ⟨g1, g2⟩ := r.guard t ht g e
    have hgv : ∀ v ∈ g.vars, v ∈ t.vars := by
      intro v hv
      unfold CTrans.vars
      rw [mem_dedup]
      exact List.mem_append_left _ (List.mem_append_left _ (by rw [e]; exact hv))
    obtain ⟨m, hm, hcov⟩ := (restrictMaps_ok r.types r.vpos g1 g2 (fun v hv => hf v (hgv v hv)) fun m hm => (h m hm).1).2 hs hc hg
    simp only
    have hne : (restrictMaps N.types N.vty (some g) maps).isEmpty = false := by
      cases hr : restrictMaps N.types N.vty (some g) maps with
      | nil => rw [hr] at hm; cases hm
      | cons => rfl
    rw [hne]
    exact ⟨_, rfl, m, hm, hcov⟩

/-! ### The whole input step -/

/-- The counts of the guard in this step stay below 2^32. -/
def smallStep (N : CNet) (k : Nat) (cons : Nat → IVec) (t : CTrans) : Bool :=
  match takeArcs N.types k cons t.inputs with
  | some (_, some l) =>
    match varIntervals N.types N.vty l with
    | some (maps, true) => smallGuard N t.guard maps
    | _ => true
  | _ => true

theorem inputStep_cons {N : CNet} {k : Nat} {cons c' : Nat → IVec} {t : CTrans} {r : Option (List VMap)} (e : inputStep N k cons t = some (c', r)) :
    ∃ q, takeArcs N.types k cons t.inputs = some (c', q) := by
  unfold inputStep at e
  cases ht : takeArcs N.types k cons t.inputs with
  | none => rw [ht] at e; cases e
  | some q =>
    obtain ⟨c1, q2⟩ := q
    rw [ht] at e
    cases q2 with
    | none => cases e; exact ⟨none, rfl⟩
    | some l =>
      simp only at e
      cases hv : varIntervals N.types N.vty l with
      | none => rw [hv] at e; cases e
      | some mb =>
        obtain ⟨maps, b⟩ := mb
        rw [hv] at e
        cases b <;> cases e <;> exact ⟨some l, rfl⟩

theorem inputStep_ok {N : CNet} (R : Ready N) {k : Nat} {cons c' : Nat → IVec} {t : CTrans} (ht : t ∈ N.transitions) {r : Option (List VMap)} (hc : ConsOk N cons)
    (e : inputStep N k cons t = some (c', r)) :
    (∀ p, c' p = cons p ∨ (p ∈ t.inputs.map (·.place) ∧ c' p = (cons p).restrict k)) ∧ ConsOk N c' ∧ Leq cons c' ∧
    (∀ maps, r = some maps → (∀ m ∈ maps, m.Sane N.types N.vty) ∧ maps ≠ []) ∧
    (∀ ρ, (∀ v ∈ t.vars, ρ v ∈ N.types.values (N.vty v)) → guardHolds N.types N.vty ρ t.guard → smallStep N k cons t = true →
      (∀ a ∈ t.inputs, ∀ l ∈ leaves a.expr, IVec.Has (c' a.place) (den N.types N.vty ρ l)) → ∃ maps, r = some maps ∧ ∃ m ∈ maps, m.Covers ρ) := by
  obtain ⟨q, hq⟩ := inputStep_cons e
  have h1 := takeArcs_cons t.inputs (R.places t ht) hq
  have hpl : ∀ p ∈ t.inputs.map (·.place), p < N.places.length := by
    intro p hp
    obtain ⟨a, ha, rfl⟩ := List.mem_map.1 hp
    exact (R.input t ht a ha).1
  have hleq : Leq cons c' := by
    intro p x hx
    rcases h1 p with e | ⟨e1, e2⟩
    · rw [e]; exact hx
    · rw [e2]; exact IVec.restrict_has k (hc.inn p (hpl p e1)) hx
  have hok : ConsOk N c' := by
    refine ⟨fun p hp => ?_, fun p hp hs x hx => hleq p x (hc.full p hp hs x hx)⟩
    rcases h1 p with e | ⟨_, e2⟩
    · rw [e]; exact hc.inn p hp
    · rw [e2]; exact (hc.inn p hp).restrict k
  refine ⟨h1, hok, hleq, ?_, ?_⟩
  · intro maps hr
    subst hr
    unfold inputStep at e
    rw [hq] at e
    cases q with
    | none => cases e
    | some l =>
      simp only at e
      cases hv : varIntervals N.types N.vty l with
      | none => rw [hv] at e; cases e
      | some mb =>
        obtain ⟨m1, b⟩ := mb
        rw [hv] at e
        cases b with
        | false => cases e
        | true =>
          simp only [Option.some.injEq, Prod.mk.injEq, true_and] at e
          exact guardMaps_sane R ht (varIntervals_sane R.vpos hv)
            (varIntervals_ne hv (takeArcs_ne R.parts t.inputs (fun a ha => ⟨(R.input t ht a ha).2.1, (R.input t ht a ha).2.2.1⟩) hq)) e
  · intro ρ hρ hg hs hl
    have hf : ∀ v ∈ t.vars, Fits (N.types.dims (N.vty v)) (ρ v) := fun v hv => values_fits (hρ v hv)
    have hav : ∀ a ∈ t.inputs, ∀ v ∈ a.expr.vars, v ∈ t.vars := by
      intro a ha v hv
      unfold CTrans.vars
      rw [mem_dedup]
      exact List.mem_append_left _ (List.mem_append_right _ (List.mem_flatten.2 ⟨_, List.mem_map.2 ⟨a, ha, rfl⟩, hv⟩))
    obtain ⟨l, rfl, hfit⟩ := takeArcs_fit R.types R.parts t.inputs (R.places t ht) (fun a ha => by
      obtain ⟨g1, g2, g3, g4, _⟩ := R.input t ht a ha
      exact ⟨g1, g2, g3, g4, fun v hv => hf v (hav a ha v hv)⟩) hc.inn hq hl
    obtain ⟨m1, hv, hm⟩ := varIntervals_ok R.vpos l hfit
    unfold smallStep at hs
    unfold inputStep at e
    rw [hq] at hs e
    simp only at hs e
    rw [hv] at hs e
    simp only at hs e
    obtain ⟨maps', e1, e2⟩ := guardMaps_cover R ht hf (varIntervals_sane R.vpos hv) hs hm.cov hg
    rw [e1] at e
    cases e
    exact ⟨maps', rfl, e2⟩

/-! ### Output arcs -/

theorem addVars_sane (hn : ∀ v, ∀ n ∈ T.dims (vty v), 0 < n) (us : List Nat) {m : VMap} (h : m.Sane T vty) : (addVars T vty us m).Sane T vty := by
  refine ⟨(addVars_ok hn us m).1 h.1, ?_⟩
  unfold addVars
  have : ∀ (us : List Nat) (m : VMap), m.Full → (us.foldl (fun m v => if (m.lookup v).isNone then m ++ [(v, [fullInterval (T.dims (vty v))])] else m) m).Full := by
    intro us
    induction us with
    | nil => intro m h; exact h
    | cons v us ih =>
      intro m h
      rw [List.foldl_cons]
      apply ih
      split
      · intro q hq
        rcases List.mem_append.1 hq with hq | hq
        · exact h q hq
        · rw [List.mem_singleton] at hq; subst hq; simp
      · exact h
  exact this us m h.2

mutual
theorem out_novars {m : VMap} : (t : CExpr) → t.vars = [] → outIntervals T vty m t = outIntervals T vty [] t
  | .dot, _ => by rw [outIntervals, outIntervals]
  | .var v, h => by rw [CExpr.vars] at h; cases h
  | .const c, _ => by rw [outIntervals, outIntervals]
  | .succ e, h => by rw [CExpr.vars] at h; rw [outIntervals, outIntervals, out_novars e h]
  | .pred e, h => by rw [CExpr.vars] at h; rw [outIntervals, outIntervals, out_novars e h]
  | .tuple es, h => by rw [CExpr.vars] at h; rw [outIntervals, outIntervals, outTuple_novars es h]
theorem outTuple_novars {m : VMap} {acc : IVec} : (es : List CExpr) → CExpr.varsL es = [] → outTuple T vty m acc es = outTuple T vty [] acc es
  | [], _ => by rw [outTuple, outTuple]
  | e :: es, h => by
    rw [CExpr.varsL] at h
    obtain ⟨h1, h2⟩ := List.append_eq_nil_iff.1 h
    rw [outTuple, outTuple, out_novars e h1, outTuple_novars es h2]
end

theorem addOut_left {c : IVec} {vecs : List IVec} {x : Val} (h : IVec.Has c x) : IVec.Has (addOut c vecs) x :=
  IVec.simplify_has (IVec.addAll_has_left _ h)

theorem addOut_right {c : IVec} {vecs : List IVec} {v : IVec} (hv : v ∈ vecs) {x : Val} (h : IVec.Has v x) : IVec.Has (addOut c vecs) x := by
  obtain ⟨i, hi, hx⟩ := IVec.simplify_has h
  exact IVec.simplify_has (IVec.addAll_has_right _ ⟨i, List.mem_flatten.2 ⟨_, List.mem_map.2 ⟨v, hv, rfl⟩, hi⟩, hx⟩)

theorem addOut_in {dims : List Nat} {c : IVec} {vecs : List IVec} (hc : IVec.In dims c) (h : ∀ v ∈ vecs, IVec.In dims v) : IVec.In dims (addOut c vecs) := by
  refine IVec.In.simplify (IVec.In.addAll hc ?_)
  intro i hi
  obtain ⟨l, hl, hi⟩ := List.mem_flatten.1 hi
  obtain ⟨v, hv, rfl⟩ := List.mem_map.1 hl
  exact (h v hv).simplify i hi

/-- the maps and the boxes after one output arc -/
def outMaps (N : CNet) (t : Nat) (s : FSt) (a : CArc) : List VMap := (s.maps t).map (addVars N.types N.vty a.expr.vars)
def outCons (N : CNet) (t : Nat) (s : FSt) (a : CArc) : IVec := addOut (s.cons a.place) (outArc N.types N.vty (outMaps N t s a) a.expr)

/-- Growth at this arc is noticed: the place is in the queue, or the counts differ, or the counts are exact. -/
def tidyOut (N : CNet) (t : Nat) (s : FSt) (a : CArc) : Bool :=
  s.inQ a.place || decide ((outCons N t s a).count > (s.cons a.place).count) ||
    ((s.cons a.place).disjointB && decide ((s.cons a.place).total < W32) && decide ((outCons N t s a).total < W32))

/-- What one output arc does. -/
structure Out (N : CNet) (t : Nat) (s s' : FSt) : Prop where
  cons : ConsOk N s'.cons
  leq : Leq s.cons s'.cons
  queue : ∀ p ∈ s.queue, p ∈ s'.queue
  inq : ∀ p, s'.inQ p = true → p ∈ s'.queue
  sane : ∀ m ∈ s'.maps t, m.Sane N.types N.vty
  other : ∀ u, u ≠ t → s'.maps u = s.maps u
  done : s'.done = s.done
  ne : s.maps t ≠ [] → s'.maps t ≠ []
  cover : ∀ ρ, (∀ v ∈ (N.trans t).vars, ρ v ∈ N.types.values (N.vty v)) → (∃ m ∈ s.maps t, m.Covers ρ) → ∃ m ∈ s'.maps t, m.Covers ρ

theorem outStep_cons (N : CNet) (t : Nat) (s : FSt) (a : CArc) : (outStep N t s a).cons = upd s.cons a.place (outCons N t s a) := by
  unfold outStep
  simp only
  split <;> rfl

theorem outStep_maps (N : CNet) (t : Nat) (s : FSt) (a : CArc) : (outStep N t s a).maps = upd s.maps t (outMaps N t s a) := by
  unfold outStep
  simp only
  split <;> rfl

theorem outStep_done (N : CNet) (t : Nat) (s : FSt) (a : CArc) : (outStep N t s a).done = s.done := by
  unfold outStep
  simp only
  split <;> rfl

theorem outStep_queue (N : CNet) (t : Nat) (s : FSt) (a : CArc) :
    (s.inQ a.place = false ∧ (outCons N t s a).count > (s.cons a.place).count ∧ (outStep N t s a).queue = a.place :: s.queue ∧
      (outStep N t s a).inQ = upd s.inQ a.place true) ∨
    (¬ (s.inQ a.place = false ∧ (outCons N t s a).count > (s.cons a.place).count) ∧ (outStep N t s a).queue = s.queue ∧ (outStep N t s a).inQ = s.inQ) := by
  by_cases c : s.inQ a.place = false ∧ (outCons N t s a).count > (s.cons a.place).count
  · left
    refine ⟨c.1, c.2, ?_⟩
    unfold outCons outMaps at c
    unfold outStep
    simp only
    rw [if_pos c]
    exact ⟨rfl, rfl⟩
  · right
    refine ⟨c, ?_⟩
    unfold outCons outMaps at c
    unfold outStep
    simp only
    rw [if_neg c]
    exact ⟨rfl, rfl⟩

theorem out_vars {t : CTrans} {a : CArc} (ha : a ∈ t.outputs) : ∀ v ∈ a.expr.vars, v ∈ t.vars := by
  intro v hv
  unfold CTrans.vars
  rw [mem_dedup]
  exact List.mem_append_right _ (List.mem_flatten.2 ⟨_, List.mem_map.2 ⟨a, ha, rfl⟩, hv⟩)

theorem outStep_ok {N : CNet} (R : Ready N) {t : Nat} (ht : t < N.transitions.length) {s : FSt} {a : CArc} (ha : a ∈ (N.trans t).outputs) (hc : ConsOk N s.cons)
    (hq : ∀ p, s.inQ p = true → p ∈ s.queue) (hm : ∀ m ∈ s.maps t, m.Sane N.types N.vty) :
    Out N t s (outStep N t s a) ∧
    (∀ ρ, (∀ v ∈ (N.trans t).vars, ρ v ∈ N.types.values (N.vty v)) → (∃ m ∈ s.maps t, m.Covers ρ) →
      ∀ l ∈ leaves a.expr, IVec.Has ((outStep N t s a).cons a.place) (den N.types N.vty ρ l)) ∧
    (a.expr.vars = [] → s.maps t ≠ [] → ∀ ρ, ∀ l ∈ leaves a.expr, IVec.Has ((outStep N t s a).cons a.place) (den N.types N.vty ρ l)) := by
  obtain ⟨g1, g2, g3⟩ := R.output _ (trans_mem ht) a ha
  have hsane : ∀ m ∈ outMaps N t s a, m.Sane N.types N.vty := by
    intro m h
    obtain ⟨m', h', rfl⟩ := List.mem_map.1 h
    exact addVars_sane R.vpos _ (hm m' h')
  have hin : IVec.In (N.types.dims (N.place a.place).ty) (outCons N t s a) := by
    refine addOut_in (hc.inn _ g1) fun v hv => ?_
    obtain ⟨m, h1, l, h2, rfl⟩ := outArc_mem a.expr v hv
    exact out_in R.types R.vpos (hsane m h1).1 (hsane m h1).2 (leaves_ty a.expr g2 l h2) (g3 l h2) (dims_ne R.parts _) (R.ppos _ g1)
  have hleq : Leq s.cons (outStep N t s a).cons := by
    intro p x hx
    rw [outStep_cons]
    by_cases e : p = a.place
    · subst e; rw [upd_same]; exact addOut_left hx
    · rw [upd_ne _ _ e]; exact hx
  have hcov : ∀ ρ, (∀ v ∈ (N.trans t).vars, ρ v ∈ N.types.values (N.vty v)) → (∃ m ∈ s.maps t, m.Covers ρ) → ∃ m ∈ outMaps N t s a, m.Covers ρ := by
    intro ρ hρ ⟨m, h1, h2⟩
    exact ⟨_, List.mem_map.2 ⟨m, h1, rfl⟩, (addVars_ok R.vpos _ m).2.2.2 ρ h2 fun v hv => values_fits (hρ v (out_vars ha v hv))⟩
  refine ⟨⟨⟨fun p hp => ?_, fun p hp hs x hx => hleq p x (hc.full p hp hs x hx)⟩, hleq, ?_, ?_, ?_, ?_, outStep_done N t s a, ?_, ?_⟩, ?_, ?_⟩
  · rw [outStep_cons]
    by_cases e : p = a.place
    · subst e; rw [upd_same]; exact hin
    · rw [upd_ne _ _ e]; exact hc.inn p hp
  · intro p hp
    rcases outStep_queue N t s a with ⟨_, _, h, _⟩ | ⟨_, h, _⟩ <;> rw [h]
    · exact List.mem_cons_of_mem _ hp
    · exact hp
  · intro p hp
    rcases outStep_queue N t s a with ⟨_, _, h, h'⟩ | ⟨_, h, h'⟩ <;> rw [h] <;> rw [h'] at hp
    · by_cases e : p = a.place
      · rw [e]; exact List.mem_cons_self
      · rw [upd_ne _ _ e] at hp; exact List.mem_cons_of_mem _ (hq p hp)
    · exact hq p hp
  · rw [outStep_maps, upd_same]; exact hsane
  · intro u hu
    rw [outStep_maps, upd_ne _ _ hu]
  · intro h
    rw [outStep_maps, upd_same]
    unfold outMaps
    intro e
    exact h (List.map_eq_nil_iff.1 e)
  · rw [outStep_maps, upd_same]; exact hcov
  · intro ρ hρ hx l hl
    obtain ⟨m, h1, h2⟩ := hcov ρ hρ hx
    rw [outStep_cons, upd_same]
    exact addOut_right (outArc_ok (ρ := ρ) h1 a.expr l hl) (out_ok R.types h2 (hsane m h1).1 (leaves_ty a.expr g2 l hl) (g3 l hl) (dims_ne R.parts _)
      fun v hv => values_fits (hρ v (out_vars ha v (leaves_vars a.expr l hl v hv)))).1
  · intro hv hne ρ l hl
    have hlv : l.vars = [] := List.eq_nil_iff_forall_not_mem.2 fun v hv' => by
      have := leaves_vars a.expr l hl v hv'
      rw [hv] at this
      cases this
    obtain ⟨m, hm'⟩ := List.exists_mem_of_ne_nil _ hne
    have h1 : addVars N.types N.vty a.expr.vars m ∈ outMaps N t s a := List.mem_map.2 ⟨m, hm', rfl⟩
    rw [outStep_cons, upd_same]
    refine addOut_right (outArc_ok (ρ := ρ) h1 a.expr l hl) ?_
    rw [out_novars l hlv]
    exact (out_ok R.types (m := []) (fun q (hq : q ∈ []) => nomatch hq) (fun q (hq : q ∈ []) => nomatch hq) (leaves_ty a.expr g2 l hl) (g3 l hl) (dims_ne R.parts _)
      fun v hv => by rw [hlv] at hv; cases hv).1

/-- Growth is noticed. -/
theorem outStep_grow {N : CNet} {t : Nat} {s : FSt} {a : CArc} (hq : ∀ p, s.inQ p = true → p ∈ s.queue) (ht : tidyOut N t s a = true) {p : Nat} {x : Val}
    (hx : IVec.Has ((outStep N t s a).cons p) x) : IVec.Has (s.cons p) x ∨ p ∈ (outStep N t s a).queue := by
  rw [outStep_cons] at hx
  by_cases e : p = a.place
  · subst e
    rw [upd_same] at hx
    rcases outStep_queue N t s a with ⟨_, _, h, _⟩ | ⟨h1, h, _⟩
    · right; rw [h]; exact List.mem_cons_self
    · rw [h]
      unfold tidyOut at ht
      cases hi : s.inQ a.place with
      | true => exact Or.inr (hq _ hi)
      | false =>
        have hcnt : ¬ (outCons N t s a).count > (s.cons a.place).count := fun c => h1 ⟨hi, c⟩
        rw [hi, decide_eq_false hcnt, Bool.false_or, Bool.false_or, Bool.and_eq_true, Bool.and_eq_true] at ht
        left
        exact grow_none (IVec.disjointB_spec ht.1.1) (of_decide_eq_true ht.1.2) (of_decide_eq_true ht.2) (fun y hy => addOut_left hy) hcnt hx
  · rw [upd_ne _ _ e] at hx
    exact Or.inl hx

/-- Growth is noticed at all output arcs. -/
def tidyOuts (N : CNet) (t : Nat) : FSt → List CArc → Bool
  | _, [] => true
  | s, a :: as => tidyOut N t s a && tidyOuts N t (outStep N t s a) as

theorem Out.refl {N : CNet} {t : Nat} {s : FSt} (hc : ConsOk N s.cons) (hq : ∀ p, s.inQ p = true → p ∈ s.queue) (hm : ∀ m ∈ s.maps t, m.Sane N.types N.vty) :
    Out N t s s := ⟨hc, fun _ _ h => h, fun _ h => h, hq, hm, fun _ _ => rfl, rfl, id, fun _ _ h => h⟩

theorem Out.trans {N : CNet} {t : Nat} {s s1 s2 : FSt} (h : Out N t s s1) (g : Out N t s1 s2) : Out N t s s2 :=
  ⟨g.cons, h.leq.trans g.leq, fun p hp => g.queue p (h.queue p hp), g.inq, g.sane, fun u hu => (g.other u hu).trans (h.other u hu), g.done.trans h.done,
    fun hh => g.ne (h.ne hh), fun ρ hρ hh => g.cover ρ hρ (h.cover ρ hρ hh)⟩

theorem outFold_ok {N : CNet} (R : Ready N) {t : Nat} (ht : t < N.transitions.length) : (as : List CArc) → (s : FSt) → (∀ a ∈ as, a ∈ (N.trans t).outputs) → ConsOk N s.cons →
    (∀ p, s.inQ p = true → p ∈ s.queue) → (∀ m ∈ s.maps t, m.Sane N.types N.vty) →
    Out N t s (as.foldl (outStep N t) s) ∧
    (∀ ρ, (∀ v ∈ (N.trans t).vars, ρ v ∈ N.types.values (N.vty v)) → (∃ m ∈ s.maps t, m.Covers ρ) →
      ∀ a ∈ as, ∀ l ∈ leaves a.expr, IVec.Has ((as.foldl (outStep N t) s).cons a.place) (den N.types N.vty ρ l)) ∧
    (s.maps t ≠ [] → ∀ a ∈ as, a.expr.vars = [] → ∀ ρ, ∀ l ∈ leaves a.expr, IVec.Has ((as.foldl (outStep N t) s).cons a.place) (den N.types N.vty ρ l)) ∧
    (tidyOuts N t s as = true → ∀ p x, IVec.Has ((as.foldl (outStep N t) s).cons p) x → IVec.Has (s.cons p) x ∨ p ∈ (as.foldl (outStep N t) s).queue)
  | [], s, _, hc, hq, hm => ⟨Out.refl hc hq hm, (fun _ _ _ a h => nomatch h), (fun _ a h => nomatch h), fun _ p x h => Or.inl h⟩
  | a :: as, s, ha, hc, hq, hm => by
    obtain ⟨h1, h2, h3⟩ := outStep_ok R ht (ha a List.mem_cons_self) hc hq hm
    obtain ⟨g1, g2, g3, g4⟩ := outFold_ok R ht as (outStep N t s a) (fun b hb => ha b (List.mem_cons_of_mem _ hb)) h1.cons h1.inq h1.sane
    rw [List.foldl_cons]
    refine ⟨h1.trans g1, ?_, ?_, ?_⟩
    · intro ρ hρ hx b hb l hl
      rcases List.mem_cons.1 hb with rfl | hb
      · exact g1.leq _ _ (h2 ρ hρ hx l hl)
      · exact g2 ρ hρ (h1.cover ρ hρ hx) b hb l hl
    · intro hne b hb hv ρ l hl
      rcases List.mem_cons.1 hb with rfl | hb
      · exact g1.leq _ _ (h3 hv hne ρ l hl)
      · exact g3 (h1.ne hne) b hb hv ρ l hl
    · intro htd p x hx
      rw [tidyOuts, Bool.and_eq_true] at htd
      rcases g4 htd.2 p x hx with h | h
      · rcases outStep_grow hq htd.1 h with h | h
        · exact Or.inl h
        · exact Or.inr (g1.queue p h)
      · exact Or.inr h

end CFP
end Verif
