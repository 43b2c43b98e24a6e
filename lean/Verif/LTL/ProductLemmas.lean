import Verif.LTL.Product
import Verif.CTL.EncodeNet

/-!
# The product generator enumerates the successors of a product state
-/

namespace Verif
namespace LTL
open PQL CTL FlatNet
variable {N : FlatNet} {A : Buchi} {ap : Mark → Nat → Bool}

/-- Counters that occur. -/
def GenOK' (N : FlatNet) (gs : GenState) : Prop := GenOK N gs ∨ gs = (N.nplaces, none)

/-- Markings at which the generator does not throw. -/
structure HOK (N : FlatNet) (l : List Nat) : Prop where
  len : l.length = N.nplaces
  lt : ∀ p, p < N.nplaces → toMark l p < W32
  step : ∀ t m', N.toNet.Step (toMark l) t m' → ∀ p, p < N.nplaces → m' p < W32 - 1

theorem next_spec' (w : N.WF) (m : Nat → Nat) (gs : GenState) (hs : GenOK' N gs) :
    match N.next m (fun _ => true) gs with
    | some (t, s') => ∃ ht : t < N.ntransitions, pos N gs ≤ t ∧ N.toNet.Enabled m ⟨t, ht⟩ ∧
        (∀ v : Fin N.ntransitions, pos N gs ≤ v → v.val < t → ¬ N.toNet.Enabled m v) ∧
        GenOK' N s' ∧ pos N s' = t + 1
    | none => ∀ v : Fin N.ntransitions, pos N gs ≤ v → ¬ N.toNet.Enabled m v := by
  rcases hs with hs | rfl
  · have := next_spec w m (fun _ => true) gs hs
    revert this
    cases N.next m (fun _ => true) gs with
    | none =>
      simp only
      intro h v hv he
      have := h v hv v.2
      rw [Bool.and_true, (checkPreset_iff w m v).2 he] at this
      cases this
    | some x =>
      obtain ⟨t, s'⟩ := x
      simp only
      rintro ⟨h1, h2, h3, h4, h5, h6⟩
      rw [Bool.and_true] at h3
      refine ⟨h2, h1, (checkPreset_iff w m ⟨t, h2⟩).1 h3, ?_, Or.inl h5, h6⟩
      intro v hv hlt he
      have := h4 v hv hlt
      rw [Bool.and_true, (checkPreset_iff w m v).2 he] at this
      cases this
  · have hn : N.next m (fun _ => true) (N.nplaces, none) = none := by
      simp [FlatNet.next, nextAux]
    rw [hn]
    simp only
    intro v hv
    have : pos N (N.nplaces, none) = N.ntransitions := by simp [pos, w.ptr_last]
    rw [this] at hv
    have := v.2
    omega

theorem mnext_spec (w : N.WF) {l : List Nat} (hl : HOK N l) (gs : GenState) (hs : GenOK' N gs) :
    match mnext N l gs with
    | .thrown => False
    | .done => ∀ v : Fin N.ntransitions, pos N gs ≤ v → ¬ N.toNet.Enabled (toMark l) v
    | .ret (l', gs') => ∃ t : Fin N.ntransitions, pos N gs ≤ t ∧ N.toNet.Enabled (toMark l) t ∧
        l'.length = N.nplaces ∧ toMark l' = N.toNet.fire (toMark l) t ∧
        (∀ v : Fin N.ntransitions, pos N gs ≤ v → v.val < t → ¬ N.toNet.Enabled (toMark l) v) ∧
        GenOK' N gs' ∧ pos N gs' = t + 1 := by
  have hn := next_spec' w (toMark l) gs hs
  unfold mnext
  revert hn
  cases N.next (toMark l) (fun _ => true) gs with
  | none => exact fun h => h
  | some x =>
    obtain ⟨t, s'⟩ := x
    simp only
    rintro ⟨ht, h1, h2, h3, h4, h5⟩
    have hf := fire_spec w (toMark l) hl.lt ⟨t, ht⟩ h2
    revert hf
    cases N.fire (toMark l) t with
    | none =>
      simp only
      rintro ⟨p, hp, hx⟩
      have := hl.step ⟨t, ht⟩ _ ⟨h2, rfl⟩ p hp
      omega
    | some m' =>
      simp only
      rintro ⟨rfl, _⟩
      refine ⟨⟨t, ht⟩, h1, h2, by simp [ofMark], toMark_ofMark fun p hp => ?_, h3, h4, h5⟩
      rw [step_tail w (t := ⟨t, ht⟩) ⟨h2, rfl⟩ p hp]
      exact toMark_tail (by rw [hl.len]; exact hp)

theorem pickB_some {ok : Bdd → Bool} {es : List (Nat × Bdd)} {q : Nat} (h : pickB ok es = some q) :
    ∃ pre g post, es = pre ++ (q, g) :: post ∧ ok g = true ∧ ∀ e ∈ pre, ok e.2 = false := by
  induction es with
  | nil => simp [pickB] at h
  | cons e es ih =>
    obtain ⟨q0, g⟩ := e
    simp only [pickB] at h
    split at h
    · rename_i hg
      simp only [Option.some.injEq] at h
      subst h
      exact ⟨[], g, es, rfl, hg, by simp⟩
    · rename_i hg
      obtain ⟨pre, g', post, rfl, h1, h2⟩ := ih h
      refine ⟨(q0, g) :: pre, g', post, rfl, h1, ?_⟩
      intro e he
      rcases List.mem_cons.1 he with rfl | he
      · simpa using hg
      · exact h2 e he

theorem pickB_none {ok : Bdd → Bool} {es : List (Nat × Bdd)} (h : pickB ok es = none) : ∀ e ∈ es, ok e.2 = false := by
  induction es with
  | nil => simp
  | cons e es ih =>
    obtain ⟨q0, g⟩ := e
    simp only [pickB] at h
    split at h
    · cases h
    · rename_i hg
      intro e he
      rcases List.mem_cons.1 he with rfl | he
      · simpa using hg
      · exact ih h e he

theorem spool_append {pre post : List (Nat × Bdd)} {q : Nat} {g : Bdd} (h : q ∉ pre.map (·.1)) :
    spool q (pre ++ (q, g) :: post) = post := by
  induction pre with
  | nil => simp [spool]
  | cons e pre ih =>
    obtain ⟨q0, g0⟩ := e
    simp only [List.map_cons, List.mem_cons, not_or] at h
    simp only [List.cons_append, spool, if_neg (Ne.symm h.1)]
    exact ih h.2

theorem spool_suffix (b : Nat) (es : List (Nat × Bdd)) : ∃ pre, es = pre ++ spool b es := by
  induction es with
  | nil => exact ⟨[], rfl⟩
  | cons e es ih =>
    obtain ⟨q0, g0⟩ := e
    simp only [spool]
    split
    · exact ⟨[(q0, g0)], rfl⟩
    · obtain ⟨pre, hp⟩ := ih
      exact ⟨(q0, g0) :: pre, by rw [List.cons_append, ← hp]⟩

/-- After picking `q` from a tail of the edges, spooling to `q` gives the rest of that tail. -/
theorem spool_pick {es p0 rest : List (Nat × Bdd)} (hn : (es.map (·.1)).Nodup) (he : es = p0 ++ rest)
    {ok : Bdd → Bool} {q : Nat} (h : pickB ok rest = some q) :
    ∃ pre g, rest = pre ++ (q, g) :: spool q es ∧ ok g = true ∧ ∀ e ∈ pre, ok e.2 = false := by
  obtain ⟨pre, g, post, hr, h1, h2⟩ := pickB_some h
  have : spool q es = post := by
    rw [he, hr, ← List.append_assoc]
    apply spool_append
    rw [he, hr, ← List.append_assoc, List.map_append, List.nodup_append] at hn
    intro hm
    exact hn.2.2 q hm q (by simp) rfl
  exact ⟨pre, g, by rw [this]; exact hr, h1, h2⟩

theorem more_spec (w : N.WF) {l : List Nat} (hl : HOK N l) (q : Nat) : ∀ (n : Nat) (gs : GenState), GenOK' N gs →
    N.ntransitions < n + pos N gs →
    match more N A ap l q n gs with
    | .thrown => False
    | .done => ∀ v : Fin N.ntransitions, pos N gs ≤ v → N.toNet.Enabled (toMark l) v →
        ∀ e ∈ A.edges q, e.2.valid (ap (N.toNet.fire (toMark l) v)) = false
    | .ret (x, gs') => ∃ t : Fin N.ntransitions, pos N gs ≤ t ∧ N.toNet.Enabled (toMark l) t ∧
        x.1.length = N.nplaces ∧ toMark x.1 = N.toNet.fire (toMark l) t ∧
        (∀ v : Fin N.ntransitions, pos N gs ≤ v → v.val < t → N.toNet.Enabled (toMark l) v →
          ∀ e ∈ A.edges q, e.2.valid (ap (N.toNet.fire (toMark l) v)) = false) ∧
        pickB (Bdd.valid (ap (toMark x.1))) (A.edges q) = some x.2 ∧
        GenOK' N gs' ∧ pos N gs' = t + 1 := by
  intro n
  induction n with
  | zero =>
    intro gs _ hf
    simp only [more]
    intro v hv
    have := v.2
    omega
  | succ n ih =>
    intro gs hs hf
    have hm := mnext_spec w hl gs hs
    unfold more
    revert hm
    cases mnext N l gs with
    | thrown => exact fun h => h
    | done =>
      simp only
      intro h v hv he
      exact absurd he (h v hv)
    | ret x =>
      obtain ⟨l', gs'⟩ := x
      simp only
      rintro ⟨t, h1, h2, h3, h4, h5, h6, h7⟩
      cases hp : pickB (Bdd.valid (ap (toMark l'))) (A.edges q) with
      | some q' =>
        simp only
        refine ⟨t, h1, h2, h3, h4, fun v hv hlt he => absurd he (h5 v hv hlt), hp, h6, h7⟩
      | none =>
        simp only
        have hno := pickB_none hp
        have := ih gs' h6 (by omega)
        have hskip : ∀ v : Fin N.ntransitions, pos N gs ≤ v → v.val < t.val + 1 → N.toNet.Enabled (toMark l) v →
            ∀ e ∈ A.edges q, e.2.valid (ap (N.toNet.fire (toMark l) v)) = false := by
          intro v hv hlt he e hme
          by_cases hvt : v.val < t.val
          · exact absurd he (h5 v hv hvt)
          · have : v = t := Fin.ext (by omega)
            subst this
            rw [← h4]; exact hno e hme
        revert this
        cases more N A ap l q n gs' with
        | thrown => exact fun h => h
        | done =>
          simp only
          intro h v hv he
          by_cases hvt : v.val < t.val + 1
          · exact hskip v hv hvt he
          · exact h v (by omega) he
        | ret x =>
          simp only
          rintro ⟨t', g1, g2, g3, g4, g5, g6⟩
          refine ⟨t', by omega, g2, g3, g4, ?_, g6⟩
          intro v hv hlt he
          by_cases hvt : v.val < t.val + 1
          · exact hskip v hv hvt he
          · exact g5 v (by omega) hlt he

/-- What a list of successors has to contain from some point of the enumeration on. -/
structure Covers (N : FlatNet) (A : Buchi) (ap : Mark → Nat → Bool) (bnd : List Nat → Bool) (l : List Nat) (q : Nat)
    (cur : List Nat) (rest : List (Nat × Bdd)) (p : Nat) (L : List (List Nat × Nat)) : Prop where
  sound : ∀ x ∈ L, PEdge N A ap (l, q) x
  here : bnd cur = true → ∀ e ∈ rest, e.2.valid (ap (toMark cur)) = true → (cur, e.1) ∈ L
  later : ∀ (v : Fin N.ntransitions) (l' : List Nat), p ≤ v → N.toNet.Enabled (toMark l) v → l'.length = N.nplaces →
    toMark l' = N.toNet.fire (toMark l) v → bnd l' = true →
    ∀ e ∈ A.edges q, e.2.valid (ap (toMark l')) = true → (l', e.1) ∈ L

theorem not_fresh (w : N.WF) {gs : GenState} (h : 0 < pos N gs ∨ gs = (N.nplaces, none)) (b : Nat) (last : Option (List Nat)) :
    Info.fresh ⟨gs, b, last⟩ = false := by
  obtain ⟨p, t⟩ := gs
  simp only [Info.fresh, Bool.and_eq_false_iff]
  rcases h with h | h
  · by_cases hp : p = 0
    · subst hp
      right
      cases t with
      | none => simp [pos, w.ptr_zero] at h
      | some t => rfl
    · left; simpa using hp
  · simp only [Prod.mk.injEq] at h
    left
    have := w.places_pos
    simp; omega

/-- What `enumP` does from a call of `next` on. -/
theorem enumP_succ (bnd : List Nat → Bool) (l : List Nat) (q n : Nat) (gs : GenState) (b : Nat)
    (last : Option (List Nat)) (work : List Nat) (hf : Info.fresh ⟨gs, b, last⟩ = false) :
    enumP N A ap bnd l q (n + 1) ⟨gs, b, last⟩ work =
      match tryHere N A ap l q (last.getD work) (spool b (A.edges q)) gs with
      | .thrown => none
      | .done => some []
      | .ret (x, gs') =>
        (enumP N A ap bnd l q n ⟨gs', x.2, if bnd x.1 then some x.1 else last⟩ x.1).map (x :: ·) := by
  rw [enumP, pnext, hf]
  simp only [Bool.false_eq_true, if_false]
  rfl

/-- The rest of the enumeration. -/
theorem enumP_spec (w : N.WF) (hA : A.Simple) (bnd : List Nat → Bool) {l : List Nat} (hl : HOK N l) (q : Nat) :
    ∀ (n : Nat) (gs : GenState) (cur : List Nat) (rest : List (Nat × Bdd)), GenOK' N gs →
      (0 < pos N gs ∨ gs = (N.nplaces, none)) →
      cur.length = N.nplaces → MStep N (toMark l) (toMark cur) → (∃ p0, A.edges q = p0 ++ rest) →
      (N.ntransitions - pos N gs) * ((A.edges q).length + 1) + rest.length ≤ n →
      ∀ last : Option (List Nat), (∀ x, last = some x → x.length = N.nplaces ∧ MStep N (toMark l) (toMark x)) →
      match tryHere N A ap l q cur rest gs with
      | .thrown => False
      | .done => Covers N A ap bnd l q cur rest (pos N gs) []
      | .ret (x, gs') => ∃ L, enumP N A ap bnd l q n ⟨gs', x.2, if bnd x.1 then some x.1 else last⟩ x.1 = some L ∧
          Covers N A ap bnd l q cur rest (pos N gs) (x :: L) := by
  intro n
  induction n with
  | zero =>
    intro gs cur rest hgs hnf hlen hms hsuf hmu last hlast
    have hr : rest = [] := List.eq_nil_of_length_eq_zero (by omega)
    have hp : N.ntransitions - pos N gs = 0 := by
      rcases Nat.eq_zero_of_add_eq_zero_right (Nat.le_zero.1 hmu) |> Nat.mul_eq_zero.1 with h | h
      · exact h
      · omega
    subst hr
    have hm := more_spec (A := A) (ap := ap) w hl q (N.ntransitions + 1) gs hgs (by omega)
    unfold tryHere
    simp only [pickB]
    revert hm
    cases more N A ap l q (N.ntransitions + 1) gs with
    | thrown => exact fun h => h
    | done =>
      simp only
      intro _
      refine ⟨by simp, by simp, ?_⟩
      intro v l' hv
      have := v.2
      omega
    | ret x =>
      simp only
      rintro ⟨t, h1, _⟩
      have := t.2
      omega
  | succ n ih =>
    intro gs cur rest hgs hnf hlen hms ⟨p0, hsuf⟩ hmu last hlast
    unfold tryHere
    cases hp : pickB (Bdd.valid (ap (toMark cur))) rest with
    | some q' =>
      simp only
      obtain ⟨pre, g, hrest, hg, hpre⟩ := spool_pick (hA q) hsuf hp
      have hin : (q', g) ∈ A.edges q := by rw [hsuf, hrest]; simp
      have hedge : PEdge N A ap (l, q) (cur, q') := ⟨hlen, hms, g, hin, hg⟩
      -- the next call
      have key : ∀ last' : Option (List Nat), (∀ x, last' = some x → x.length = N.nplaces ∧ MStep N (toMark l) (toMark x)) →
          (bnd cur = true → last'.getD cur = cur) →
          ∃ L, enumP N A ap bnd l q (n + 1) ⟨gs, q', last'⟩ cur = some L ∧
            Covers N A ap bnd l q cur rest (pos N gs) ((cur, q') :: L) := by
        intro last' hl' hcur
        have hcur' : (last'.getD cur).length = N.nplaces ∧ MStep N (toMark l) (toMark (last'.getD cur)) := by
          cases last' with
          | none => exact ⟨hlen, hms⟩
          | some x => exact hl' x rfl
        have hrl : (spool q' (A.edges q)).length + 1 ≤ rest.length := by
          rw [hrest, List.length_append, List.length_cons]; omega
        have := ih gs (last'.getD cur) (spool q' (A.edges q)) hgs hnf hcur'.1 hcur'.2 (spool_suffix _ _)
          (by omega) last' hl'
        rw [enumP_succ bnd l q n gs q' last' cur (not_fresh w hnf _ _)]
        have fin : ∀ L, Covers N A ap bnd l q (last'.getD cur) (spool q' (A.edges q)) (pos N gs) L →
            Covers N A ap bnd l q cur rest (pos N gs) ((cur, q') :: L) := by
          intro L hL
          refine ⟨?_, ?_, ?_⟩
          · intro x hx
            rcases List.mem_cons.1 hx with rfl | hx
            · exact hedge
            · exact hL.sound x hx
          · intro hb e he hv
            rw [hrest] at he
            rcases List.mem_append.1 he with he | he
            · rw [hpre e he] at hv; cases hv
            · rcases List.mem_cons.1 he with rfl | he
              · exact List.mem_cons_self ..
              · have := hL.here (by rw [hcur hb]; exact hb) e he (by rw [hcur hb]; exact hv)
                rw [hcur hb] at this
                exact List.mem_cons_of_mem _ this
          · intro v l' h1 h2 h3 h4 h5 e he hv
            exact List.mem_cons_of_mem _ (hL.later v l' h1 h2 h3 h4 h5 e he hv)
        revert this
        cases tryHere N A ap l q (last'.getD cur) (spool q' (A.edges q)) gs with
        | thrown => exact fun h => h.elim
        | done => exact fun h => ⟨[], rfl, fin _ h⟩
        | ret y =>
          obtain ⟨y, gs2⟩ := y
          simp only
          rintro ⟨L, h1, h2⟩
          rw [h1]
          exact ⟨y :: L, rfl, fin _ h2⟩
      cases hb : bnd cur with
      | true =>
        simp only [if_true]
        exact key (some cur) (fun x hx => by cases hx; exact ⟨hlen, hms⟩) (fun _ => rfl)
      | false =>
        simp only [Bool.false_eq_true, if_false]
        exact key last hlast (fun h => by rw [hb] at h; cases h)
    | none =>
      simp only
      have hno := pickB_none hp
      have hm := more_spec (A := A) (ap := ap) w hl q (N.ntransitions + 1) gs hgs (by omega)
      revert hm
      cases more N A ap l q (N.ntransitions + 1) gs with
      | thrown => exact fun h => h
      | done =>
        simp only
        intro h
        refine ⟨by simp, fun _ e he hv => ?_, ?_⟩
        · rw [hno e he] at hv; cases hv
        · intro v l' h1 h2 h3 h4 h5 e he hv
          rw [h4, h v h1 h2 e he] at hv
          cases hv
      | ret y =>
        obtain ⟨⟨c2, q'⟩, gs2⟩ := y
        simp only
        rintro ⟨t, h1, h2, h3, h4, h5, h6, h7, h8⟩
        have ht := t.2
        obtain ⟨pre, g, hrest, hg, hpre⟩ := spool_pick (hA q) (p0 := []) rfl h6
        replace hrest : A.edges q = pre ++ (q', g) :: spool q' (A.edges q) := hrest
        have hin : (q', g) ∈ A.edges q := by rw [hrest]; simp
        have hms2 : MStep N (toMark l) (toMark c2) := Or.inl ⟨t, by rw [h4]; exact ⟨h2, rfl⟩⟩
        have hedge : PEdge N A ap (l, q) (c2, q') := ⟨h3, hms2, g, hin, hg⟩
        have hnf2 : 0 < pos N gs2 ∨ gs2 = (N.nplaces, none) := Or.inl (by omega)
        have key : ∀ last' : Option (List Nat), (∀ x, last' = some x → x.length = N.nplaces ∧ MStep N (toMark l) (toMark x)) →
            (bnd c2 = true → last'.getD c2 = c2) →
            ∃ L, enumP N A ap bnd l q (n + 1) ⟨gs2, q', last'⟩ c2 = some L ∧
              Covers N A ap bnd l q cur rest (pos N gs) ((c2, q') :: L) := by
          intro last' hl' hcur
          have hcur' : (last'.getD c2).length = N.nplaces ∧ MStep N (toMark l) (toMark (last'.getD c2)) := by
            cases last' with
            | none => exact ⟨h3, hms2⟩
            | some x => exact hl' x rfl
          have hrl : (spool q' (A.edges q)).length + 1 ≤ (A.edges q).length := by
            have := congrArg List.length hrest
            rw [List.length_append, List.length_cons] at this
            omega
          have hmu2 : (N.ntransitions - pos N gs2) * ((A.edges q).length + 1) + (spool q' (A.edges q)).length ≤ n := by
            have ha : (N.ntransitions - pos N gs2 + 1) * ((A.edges q).length + 1) ≤
                (N.ntransitions - pos N gs) * ((A.edges q).length + 1) := Nat.mul_le_mul_right _ (by omega)
            rw [Nat.add_mul, Nat.one_mul] at ha
            omega
          have := ih gs2 (last'.getD c2) (spool q' (A.edges q)) h7 hnf2 hcur'.1 hcur'.2 (spool_suffix _ _)
            hmu2 last' hl'
          rw [enumP_succ bnd l q n gs2 q' last' c2 (not_fresh w hnf2 _ _)]
          have fin : ∀ L, Covers N A ap bnd l q (last'.getD c2) (spool q' (A.edges q)) (pos N gs2) L →
              Covers N A ap bnd l q cur rest (pos N gs) ((c2, q') :: L) := by
            intro L hL
            refine ⟨?_, ?_, ?_⟩
            · intro x hx
              rcases List.mem_cons.1 hx with rfl | hx
              · exact hedge
              · exact hL.sound x hx
            · intro hb e he hv
              rw [hno e he] at hv; cases hv
            · intro v l' g1 g2 g3 g4 g5 e he hv
              by_cases hvt : v.val < t.val
              · rw [g4, h5 v g1 hvt g2 e he] at hv; cases hv
              · by_cases hve : v = t
                · subst hve
                  have hl2 : l' = c2 := toMark_inj (by rw [g3, h3]) (by rw [g4, h4])
                  subst hl2
                  rw [hrest] at he
                  rcases List.mem_append.1 he with he | he
                  · rw [hpre e he] at hv; cases hv
                  · rcases List.mem_cons.1 he with rfl | he
                    · exact List.mem_cons_self ..
                    · have := hL.here (by rw [hcur g5]; exact g5) e he (by rw [hcur g5]; exact hv)
                      rw [hcur g5] at this
                      exact List.mem_cons_of_mem _ this
                · refine List.mem_cons_of_mem _ (hL.later v l' ?_ g2 g3 g4 g5 e he hv)
                  have : v.val ≠ t.val := fun h => hve (Fin.ext h)
                  omega
          revert this
          cases tryHere N A ap l q (last'.getD c2) (spool q' (A.edges q)) gs2 with
          | thrown => exact fun h => h.elim
          | done => exact fun h => ⟨[], rfl, fin _ h⟩
          | ret y =>
            obtain ⟨y, gs3⟩ := y
            simp only
            rintro ⟨L, h1, h2⟩
            rw [h1]
            exact ⟨y :: L, rfl, fin _ h2⟩
        cases hb : bnd c2 with
        | true =>
          simp only [if_true]
          exact key (some c2) (fun x hx => by cases hx; exact ⟨h3, hms2⟩) (fun _ => rfl)
        | false =>
          simp only [Bool.false_eq_true, if_false]
          exact key last hlast (fun h => by rw [hb] at h; cases h)

/-- The whole enumeration. -/
theorem psucc_spec (w : N.WF) (hA : A.Simple) (bnd : List Nat → Bool) {l : List Nat} (hl : HOK N l) (q : Nat) :
    ∃ L, psucc N A ap bnd (l, q) = some L ∧ (∀ x ∈ L, PEdge N A ap (l, q) x) ∧
      ∀ x, PEdge N A ap (l, q) x → bnd x.1 = true → x ∈ L := by
  have hpos0 := pos_genInit w
  have hm := mnext_spec w hl genInit (Or.inl (genInit_ok w))
  unfold psucc enumFuel
  rw [enumP, pnext]
  simp only [show Info.fresh {} = true from rfl, if_true]
  -- what remains to be shown once the first marking is known
  have fin : ∀ (cur : List Nat) (gs : GenState), GenOK' N gs → (0 < pos N gs ∨ gs = (N.nplaces, none)) →
      cur.length = N.nplaces → MStep N (toMark l) (toMark cur) →
      (∀ m', MStep N (toMark l) m' → m' = toMark cur ∨
        ∃ v : Fin N.ntransitions, pos N gs ≤ v ∧ N.toNet.Enabled (toMark l) v ∧ m' = N.toNet.fire (toMark l) v) →
      ∃ L, (match tryHere N A ap l q cur (A.edges q) gs with
        | .thrown => none
        | .done => some []
        | .ret (x, gs') => (enumP N A ap bnd l q ((N.ntransitions + 2) * ((A.edges q).length + 1)) ⟨gs', x.2,
            if bnd x.1 then some x.1 else none⟩ x.1).map (x :: ·)) = some L ∧
        (∀ x ∈ L, PEdge N A ap (l, q) x) ∧ ∀ x, PEdge N A ap (l, q) x → bnd x.1 = true → x ∈ L := by
    intro cur gs hgs hnf hlen hms hall
    have hmu : (N.ntransitions - pos N gs) * ((A.edges q).length + 1) + (A.edges q).length ≤
        (N.ntransitions + 2) * ((A.edges q).length + 1) := by
      have ha : (N.ntransitions - pos N gs) * ((A.edges q).length + 1) ≤ N.ntransitions * ((A.edges q).length + 1) :=
        Nat.mul_le_mul_right _ (by omega)
      rw [Nat.add_mul]; omega
    have := enumP_spec (ap := ap) w hA bnd hl q _ gs cur (A.edges q) hgs hnf hlen hms ⟨[], rfl⟩ hmu none
      (fun x hx => by cases hx)
    have cov : ∀ L, Covers N A ap bnd l q cur (A.edges q) (pos N gs) L →
        (∀ x ∈ L, PEdge N A ap (l, q) x) ∧ ∀ x, PEdge N A ap (l, q) x → bnd x.1 = true → x ∈ L := by
      intro L hL
      refine ⟨hL.sound, ?_⟩
      rintro ⟨l', q'⟩ ⟨h1, h2, g, h3, h4⟩ hb
      rcases hall _ h2 with he | ⟨v, h5, h6, h7⟩
      · have : l' = cur := toMark_inj (h1.trans hlen.symm) he
        subst this
        exact hL.here hb (q', g) h3 h4
      · exact hL.later v l' h5 h6 h1 h7 hb (q', g) h3 h4
    revert this
    cases tryHere N A ap l q cur (A.edges q) gs with
    | thrown => exact fun h => h.elim
    | done => exact fun h => ⟨[], rfl, cov _ h⟩
    | ret y =>
      obtain ⟨y, gs2⟩ := y
      simp only
      rintro ⟨L, h1, h2⟩
      rw [h1]
      exact ⟨y :: L, rfl, cov _ h2⟩
  revert hm
  cases mnext N l genInit with
  | thrown => exact fun h => h.elim
  | done =>
    simp only
    intro h
    rw [hpos0] at h
    have hdead : N.ts.Dead (toMark l) := (N.ts_dead _).2 fun t he => h t (Nat.zero_le _) he
    refine fin l (N.nplaces, none) (Or.inr rfl) (Or.inr rfl) hl.len (Or.inr ⟨hdead, rfl⟩) ?_
    rintro m' (⟨t, he, _⟩ | ⟨_, rfl⟩)
    · exact absurd he (h t (Nat.zero_le _))
    · exact Or.inl rfl
  | ret y =>
    obtain ⟨l', gs'⟩ := y
    simp only
    rintro ⟨t, _, h2, h3, h4, h5, h6, h7⟩
    rw [hpos0] at h5
    refine fin l' gs' h6 (Or.inl (by omega)) h3 (Or.inl ⟨t, by rw [h4]; exact ⟨h2, rfl⟩⟩) ?_
    rintro m' (⟨v, he, rfl⟩ | ⟨hd, _⟩)
    · by_cases hvt : v.val < t.val
      · exact absurd he (h5 v (Nat.zero_le _) hvt)
      · by_cases hve : v = t
        · subst hve; exact Or.inl h4.symm
        · have : v.val ≠ t.val := fun h => hve (Fin.ext h)
          exact Or.inr ⟨v, by omega, he, rfl⟩
    · exact absurd ⟨t, h2, rfl⟩ (hd _)

end LTL
end Verif
