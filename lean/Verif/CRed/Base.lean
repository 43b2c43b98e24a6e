import Verif.Spec.ColRed
import Verif.CPN.Sim
import Verif.XCol.MarkLemmas

/-!
# Nets with places and transitions left out
-/

namespace Verif
namespace CRed
open CPN XCol

/-! ### Bisimilar nets give the same answers -/

theorem total_congr {R R' : Red} (ht : R'.net.types = R.net.types) {p : Nat} (hy : (R'.net.place p).ty = (R.net.place p).ty)
    {M M' : CMark} (h : M p = M' p) : R'.net.total M' p = R.net.total M p := by
  unfold CNet.total
  rw [ht, hy, h]

theorem sem_congr {R R' : Red} (ht : R'.net.types = R.net.types) (hy : ∀ p, (R'.net.place p).ty = (R.net.place p).ty)
    {M M' : CMark} (x : QVal) (h : ∀ p ∈ vplaces x, M p = M' p) : x.sem R'.net M' = x.sem R.net M := by
  cases x with
  | lit k => rfl
  | place p =>
    show ((R'.net.total M' p : Nat) : Int) = _
    rw [total_congr ht (hy p) (h p (by simp [vplaces]))]
    rfl

theorem holds_congr' {R R' : Red} (ht : R'.net.types = R.net.types) (hy : ∀ p, (R'.net.place p).ty = (R.net.place p).ty)
    {M M' : CMark} (φ : XQ) (hp : ∀ p ∈ qplaces φ, M p = M' p) (hf : ∀ t ∈ qtrans φ, (R'.CanFire M' t ↔ R.CanFire M t))
    (hd : qdead φ = true → ((∀ t, ¬R'.CanFire M' t) ↔ ∀ t, ¬R.CanFire M t)) : R'.holds M' φ ↔ R.holds M φ := by
  induction φ with
  | and a b iha ihb =>
    rw [Red.holds, Red.holds, iha (fun p h => hp p (List.mem_append_left _ h)) (fun p h => hf p (List.mem_append_left _ h))
      (fun h => hd (by simp [qdead, h])), ihb (fun p h => hp p (List.mem_append_right _ h))
      (fun p h => hf p (List.mem_append_right _ h)) (fun h => hd (by simp [qdead, h]))]
  | or a b iha ihb =>
    rw [Red.holds, Red.holds, iha (fun p h => hp p (List.mem_append_left _ h)) (fun p h => hf p (List.mem_append_left _ h))
      (fun h => hd (by simp [qdead, h])), ihb (fun p h => hp p (List.mem_append_right _ h))
      (fun p h => hf p (List.mem_append_right _ h)) (fun h => hd (by simp [qdead, h]))]
  | not a iha => rw [Red.holds, Red.holds, iha hp hf hd]
  | lt x y =>
    rw [Red.holds, Red.holds, sem_congr ht hy x fun p h => hp p (List.mem_append_left _ h),
      sem_congr ht hy y fun p h => hp p (List.mem_append_right _ h)]
  | le x y =>
    rw [Red.holds, Red.holds, sem_congr ht hy x fun p h => hp p (List.mem_append_left _ h),
      sem_congr ht hy y fun p h => hp p (List.mem_append_right _ h)]
  | eq x y =>
    rw [Red.holds, Red.holds, sem_congr ht hy x fun p h => hp p (List.mem_append_left _ h),
      sem_congr ht hy y fun p h => hp p (List.mem_append_right _ h)]
  | ne x y =>
    rw [Red.holds, Red.holds, sem_congr ht hy x fun p h => hp p (List.mem_append_left _ h),
      sem_congr ht hy y fun p h => hp p (List.mem_append_right _ h)]
  | dead => rw [Red.holds, Red.holds]; exact hd rfl
  | fire t => rw [Red.holds, Red.holds]; exact hf t (by simp [qtrans])

theorem Bisim.reach {R R' : Red} {S : CMark → CMark → Prop} (b : Bisim R R' S) {M : CMark} (h : R.Reach M) :
    ∃ M', R'.Reach M' ∧ S M M' := by
  induction h with
  | init => exact ⟨_, .init, b.init⟩
  | step hr hs ih =>
    obtain ⟨M', h1, h2⟩ := ih
    obtain ⟨ρ', L', h3, h4⟩ := b.fwd _ _ hr h1 h2 _ _ _ hs
    exact ⟨L', h1.step h3, h4⟩

theorem Bisim.back {R R' : Red} {S : CMark → CMark → Prop} (b : Bisim R R' S) {M' : CMark} (h : R'.Reach M') :
    ∃ M, R.Reach M ∧ S M M' := by
  induction h with
  | init => exact ⟨_, .init, b.init⟩
  | step hr hs ih =>
    obtain ⟨M, h1, h2⟩ := ih
    obtain ⟨ρ', L', h3, h4⟩ := b.bwd _ _ h1 hr h2 _ _ _ hs
    exact ⟨L', h1.step h3, h4⟩

theorem Bisim.canFire {R R' : Red} {S : CMark → CMark → Prop} (b : Bisim R R' S) {M M' : CMark} (h : R.Reach M) (h' : R'.Reach M')
    (hs : S M M') (t : Nat) : R'.CanFire M' t ↔ R.CanFire M t := by
  constructor
  · rintro ⟨ρ, L, hl⟩
    obtain ⟨ρ', L', h3, _⟩ := b.bwd _ _ h h' hs _ _ _ hl
    exact ⟨ρ', L', h3⟩
  · rintro ⟨ρ, L, hl⟩
    obtain ⟨ρ', L', h3, _⟩ := b.fwd _ _ h h' hs _ _ _ hl
    exact ⟨ρ', L', h3⟩

theorem Same.keeps {R R' : Red} (s : Same R R') (φ : XQ) (hp : ∀ p ∈ qplaces φ, p ∉ R'.skP) : Keeps R R' φ := by
  obtain ⟨S, b, hS⟩ := s.bisim
  have key : ∀ M M', R.Reach M → R'.Reach M' → S M M' → (R'.holds M' φ ↔ R.holds M φ) := fun M M' h h' hs =>
    holds_congr' s.types s.tys φ (fun p h => hS M M' hs p (hp p h)) (fun t _ => b.canFire h h' hs t)
      (fun _ => forall_congr' fun t => not_congr (b.canFire h h' hs t))
  constructor
  · rintro ⟨M, h1, h2⟩
    obtain ⟨M', h3, h4⟩ := b.reach h1
    exact ⟨M', h3, (key M M' h1 h3 h4).2 h2⟩
  · rintro ⟨M', h1, h2⟩
    obtain ⟨M, h3, h4⟩ := b.back h1
    exact ⟨M, h3, (key M M' h3 h1 h4).1 h2⟩

theorem Same.refl (R : Red) : Same R R where
  bisim := ⟨fun M M' => M = M', ⟨rfl, fun M M' _ _ h t ρ L hl => ⟨ρ, L, h ▸ hl, rfl⟩, fun M M' _ _ h t ρ L hl => ⟨ρ, L, h ▸ hl, rfl⟩⟩,
    fun M M' h p _ => by rw [h]⟩
  types := rfl
  tys := fun _ => rfl
  skP := fun _ h => h

theorem Same.trans {R R' R'' : Red} (s : Same R R') (s' : Same R' R'') : Same R R'' := by
  obtain ⟨S, b, hS⟩ := s.bisim
  obtain ⟨S', b', hS'⟩ := s'.bisim
  refine ⟨⟨fun M M'' => ∃ M', R'.Reach M' ∧ S M M' ∧ S' M' M'', ⟨⟨_, .init, b.init, b'.init⟩, ?_, ?_⟩, ?_⟩, s'.types.trans s.types,
    fun p => (s'.tys p).trans (s.tys p), fun p h => s'.skP p (s.skP p h)⟩
  · rintro M M'' h h'' ⟨M', h', h1, h2⟩ t ρ L hl
    obtain ⟨ρ', L', h3, h4⟩ := b.fwd _ _ h h' h1 _ _ _ hl
    obtain ⟨ρ'', L'', h5, h6⟩ := b'.fwd _ _ h' h'' h2 _ _ _ h3
    exact ⟨ρ'', L'', h5, L', h'.step h3, h4, h6⟩
  · rintro M M'' h h'' ⟨M', h', h1, h2⟩ t ρ L hl
    obtain ⟨ρ', L', h3, h4⟩ := b'.bwd _ _ h' h'' h2 _ _ _ hl
    obtain ⟨ρ'', L'', h5, h6⟩ := b.bwd _ _ h h' h1 _ _ _ h3
    exact ⟨ρ'', L'', h5, L', h'.step h3, h6, h4⟩
  · rintro M M'' ⟨M', _, h1, h2⟩ p hp
    rw [hS M M' h1 p fun h => hp (s'.skP p h), hS' M' M'' h2 p hp]

/-! ### Leaving out a place -/

def stripT (p : Nat) (t : CTrans) : CTrans :=
  { t with inputs := t.inputs.filter (fun a => a.place != p), outputs := t.outputs.filter (fun a => a.place != p) }

theorem trans_skipPlace (R : Red) (p t : Nat) : (R.skipPlace p).net.trans t = stripT p (R.net.trans t) := by
  unfold CNet.trans Red.skipPlace
  rw [List.getD_eq_getElem?_getD, List.getD_eq_getElem?_getD, List.getElem?_map]
  cases R.net.transitions[t]? with
  | none => rfl
  | some x => rfl

theorem arcsTokens_filter (N N' : CNet) (ht : N'.types = N.types) (hv : N'.vty = N.vty) (ρ : Nat → Val) (as : List CArc) (p q : Nat) (x : Val) :
    arcsTokens N' ρ (as.filter fun a => a.place != p) q x = if q = p then 0 else arcsTokens N ρ as q x := by
  unfold arcsTokens
  rw [ht, hv]
  induction as with
  | nil => simp
  | cons a as ih =>
    rw [List.filter_cons]
    by_cases h : a.place = p
    · rw [if_neg (by simp [h]), ih]
      by_cases hq : q = p
      · rw [if_pos hq, if_pos hq]
      · rw [if_neg hq, if_neg hq, List.map_cons, List.sum_cons, if_neg (fun e => hq (e.symm.trans h)), Nat.zero_add]
    · rw [if_pos (by simp [h]), List.map_cons, List.sum_cons, ih, List.map_cons, List.sum_cons]
      by_cases hq : q = p
      · rw [if_pos hq, if_pos hq, if_neg (fun e => h (e.trans hq))]
      · rw [if_neg hq, if_neg hq]

theorem vars_strip {p : Nat} {t : CTrans} {v : Nat} (h : v ∈ (stripT p t).vars) : v ∈ t.vars := by
  unfold CTrans.vars at *
  rw [mem_dedup] at *
  unfold stripT arcsVars at *
  simp only [List.mem_append, List.mem_flatten, List.mem_map] at *
  rcases h with (h | ⟨l, ⟨a, ha, rfl⟩, h⟩) | ⟨l, ⟨a, ha, rfl⟩, h⟩
  · exact Or.inl (Or.inl h)
  · exact Or.inl (Or.inr ⟨_, ⟨a, (List.mem_filter.1 ha).1, rfl⟩, h⟩)
  · exact Or.inr ⟨_, ⟨a, (List.mem_filter.1 ha).1, rfl⟩, h⟩

theorem arcsVars_sub_in (t : CTrans) : ∀ v ∈ arcsVars t.inputs, v ∈ t.vars := by
  intro v hv
  unfold CTrans.vars
  rw [mem_dedup]
  exact List.mem_append_left _ (List.mem_append_right _ hv)

theorem arcsVars_sub_out (t : CTrans) : ∀ v ∈ arcsVars t.outputs, v ∈ t.vars := by
  intro v hv
  unfold CTrans.vars
  rw [mem_dedup]
  exact List.mem_append_right _ hv

/-- an assignment that keeps the values of the variables `vs` and gives all other variables some value -/
noncomputable def fillIn (N : CNet) (vs : List Nat) (ρ : Nat → Val) (v : Nat) : Val :=
  if v ∈ vs then ρ v else N.types.value ⟨N.vty v, 0⟩

theorem fillIn_mem {N : CNet} {vs : List Nat} {ρ : Nat → Val} {v : Nat} (hp : 0 < N.types.size (N.vty v))
    (h : v ∈ vs → ρ v ∈ N.types.values (N.vty v)) : fillIn N vs ρ v ∈ N.types.values (N.vty v) := by
  unfold fillIn
  split
  · exact h (by assumption)
  · exact (mem_values N.types).2 ⟨0, hp, rfl⟩

/-- a place that never keeps a transition from firing that the other places let fire -/
def Harmless (R : Red) (p : Nat) : Prop :=
  ∀ M, R.Reach M → ∀ t ρ, t < R.net.transitions.length → t ∉ R.skT → R.net.Legal t ρ →
    (∀ q, q ≠ p → ∀ x, arcsTokens R.net ρ (R.net.trans t).inputs q x ≤ M q x) →
    ∀ x, arcsTokens R.net ρ (R.net.trans t).inputs p x ≤ M p x

theorem guardHolds_congr {T : Types} {vty : Nat → Nat} {ρ σ : Nat → Val} (g : Option Guard) (h : ∀ v ∈ guardVars g, ρ v = σ v) :
    guardHolds T vty ρ g ↔ guardHolds T vty σ g := by
  cases g with
  | none => exact Iff.rfl
  | some g => exact XCol.holds_congr g h

theorem same_skipPlace {R : Red} (w : R.net.WF) {p : Nat} (hi : R.inhibitor p = 0) (hh : Harmless R p) :
    Same R (R.skipPlace p) := by
  have hinh : ∀ h ∈ R.net.inhibitors, h.place ≠ p := by
    intro h hm he
    unfold Red.inhibitor at hi
    have := List.length_eq_zero_iff.1 hi
    have hx : h ∈ R.net.inhibitors.filter fun h => h.place == p := List.mem_filter.2 ⟨hm, by simp [he]⟩
    rw [this] at hx
    cases hx
  have hin : ∀ ρ t q x, arcsTokens (R.skipPlace p).net ρ ((R.skipPlace p).net.trans t).inputs q x =
      if q = p then 0 else arcsTokens R.net ρ (R.net.trans t).inputs q x := fun ρ t q x => by
    rw [trans_skipPlace]
    exact arcsTokens_filter R.net (R.skipPlace p).net rfl rfl ρ _ p q x
  have hout : ∀ ρ t q x, arcsTokens (R.skipPlace p).net ρ ((R.skipPlace p).net.trans t).outputs q x =
      if q = p then 0 else arcsTokens R.net ρ (R.net.trans t).outputs q x := fun ρ t q x => by
    rw [trans_skipPlace]
    exact arcsTokens_filter R.net (R.skipPlace p).net rfl rfl ρ _ p q x
  have htot : ∀ M M' : CMark, ∀ q, M q = M' q → (R.skipPlace p).net.total M' q = R.net.total M q := fun M M' q h =>
    total_congr rfl rfl h
  refine ⟨⟨fun M M' => ∀ q, q ≠ p → M q = M' q, ⟨fun _ _ => rfl, ?_, ?_⟩, ?_⟩, rfl, fun _ => rfl, fun q h => List.mem_cons_of_mem _ h⟩
  · rintro M M' hr hr' hs t ρ L ⟨hsk, hlt, hleg, hen, rfl⟩
    refine ⟨ρ, (R.skipPlace p).net.fire M' t ρ, ⟨hsk, ?_, ⟨?_, ?_⟩, ⟨?_, ?_⟩, rfl⟩, ?_⟩
    · unfold Red.skipPlace; simpa using hlt
    · intro v hv
      rw [trans_skipPlace] at hv
      exact hleg.1 v (vars_strip hv)
    · rw [trans_skipPlace]; exact hleg.2
    · intro q x
      rw [hin]
      split
      · exact Nat.zero_le _
      · rename_i hq
        rw [← hs q hq]
        exact hen.1 q x
    · intro h hm he
      rw [htot M M' _ (hs _ (hinh h (List.mem_filter.1 hm).1))]
      exact hen.2 h (List.mem_filter.1 hm).1 he
    · intro q hq
      funext x
      unfold CNet.fire
      rw [hin, hout, if_neg hq, if_neg hq, hs q hq]
  · rintro M M' hr hr' hs t ρ L' ⟨hsk, hlt, hleg, hen, rfl⟩
    have hlt' : t < R.net.transitions.length := by unfold Red.skipPlace at hlt; simpa using hlt
    have hvp := w.vpos _ (trans_mem hlt')
    let σ := fillIn R.net ((R.skipPlace p).net.trans t).vars ρ
    have hσ : ∀ v ∈ ((R.skipPlace p).net.trans t).vars, σ v = ρ v := fun v hv => by
      show fillIn _ _ _ _ = _
      unfold fillIn
      rw [if_pos hv]
    have hl : R.net.Legal t σ := by
      refine ⟨fun v hv => fillIn_mem (hvp v hv) fun h => hleg.1 v h, ?_⟩
      have h2 := hleg.2
      rw [trans_skipPlace] at h2
      refine (guardHolds_congr _ fun v hv => ?_).1 h2
      refine (hσ v ?_).symm
      rw [trans_skipPlace]
      exact guardVars_sub (stripT p (R.net.trans t)) v hv
    have hci : ∀ q, q ≠ p → ∀ x, arcsTokens R.net σ (R.net.trans t).inputs q x = arcsTokens R.net ρ (R.net.trans t).inputs q x := by
      intro q hq x
      have h1 := hin σ t q x
      have h2 := hin ρ t q x
      rw [if_neg hq] at h1 h2
      rw [← h1, ← h2, arcsTokens_congr _ fun v hv => hσ v (arcsVars_sub_in _ v hv)]
    have hco : ∀ q, q ≠ p → ∀ x, arcsTokens R.net σ (R.net.trans t).outputs q x = arcsTokens R.net ρ (R.net.trans t).outputs q x := by
      intro q hq x
      have h1 := hout σ t q x
      have h2 := hout ρ t q x
      rw [if_neg hq] at h1 h2
      rw [← h1, ← h2, arcsTokens_congr _ fun v hv => hσ v (arcsVars_sub_out _ v hv)]
    have hne : ∀ q, q ≠ p → ∀ x, arcsTokens R.net σ (R.net.trans t).inputs q x ≤ M q x := by
      intro q hq x
      have := hen.1 q x
      rw [hin, if_neg hq] at this
      rw [hci q hq, hs q hq]
      exact this
    refine ⟨σ, R.net.fire M t σ, ⟨hsk, hlt', hl, ⟨?_, ?_⟩, rfl⟩, ?_⟩
    · intro q x
      by_cases hq : q = p
      · rw [hq]
        exact hh M hr t σ hlt' hsk hl hne x
      · exact hne q hq x
    · intro h hm he
      have hp := hinh h hm
      rw [← htot M M' _ (hs _ hp)]
      exact hen.2 h (List.mem_filter.2 ⟨hm, by simpa using hp⟩) he
    · intro q hq
      funext x
      unfold CNet.fire
      rw [hin, hout, if_neg hq, if_neg hq, hs q hq, hci q hq, hco q hq]
  · intro M M' hs q hq
    exact hs q fun e => hq (by rw [e]; exact List.mem_cons_self)

/-! ### Leaving out a transition -/

theorem trans_skipTrans (R : Red) (t u : Nat) : (R.skipTrans t).net.trans u = if u = t then bare (R.net.trans u) else R.net.trans u := by
  unfold CNet.trans Red.skipTrans
  simp only
  rw [List.getD_eq_getElem?_getD, List.getD_eq_getElem?_getD, List.getElem?_modify]
  by_cases h : u = t
  · subst h
    rw [if_pos rfl]
    cases R.net.transitions[u]? with
    | none => rfl
    | some x => simp
  · rw [if_neg h]
    cases R.net.transitions[u]? with
    | none => rfl
    | some x => simp [Ne.symm h]

theorem step_skipTrans (R : Red) (t : Nat) {M L : CMark} {u : Nat} {ρ : Nat → Val} :
    (R.skipTrans t).Step M u ρ L ↔ u ≠ t ∧ R.Step M u ρ L := by
  have hlen : (R.skipTrans t).net.transitions.length = R.net.transitions.length := by
    unfold Red.skipTrans; simp
  unfold Red.Step
  constructor
  · rintro ⟨h1, h2, h3, h4, h5⟩
    have hu : u ≠ t := fun e => h1 (by rw [e]; exact List.mem_cons_self)
    have htr := trans_skipTrans R t u
    rw [if_neg hu] at htr
    refine ⟨hu, fun h => h1 (List.mem_cons_of_mem _ h), hlen ▸ h2, ?_, ⟨?_, ?_⟩, ?_⟩
    · unfold CNet.Legal at h3; rw [htr] at h3; exact h3
    · have := h4.1; rw [htr] at this; exact this
    · intro h hm he
      exact h4.2 h (List.mem_filter.2 ⟨hm, by simpa using fun e => hu (he ▸ e)⟩) he
    · rw [h5]; unfold CNet.fire; rw [htr]; rfl
  · rintro ⟨hu, h1, h2, h3, h4, h5⟩
    have htr := trans_skipTrans R t u
    rw [if_neg hu] at htr
    refine ⟨fun h => ?_, hlen.symm ▸ h2, ?_, ⟨?_, ?_⟩, ?_⟩
    · rcases List.mem_cons.1 h with h | h
      · exact hu h
      · exact h1 h
    · unfold CNet.Legal; rw [htr]; exact h3
    · rw [htr]; exact h4.1
    · intro h hm he
      exact h4.2 h (List.mem_filter.1 hm).1 he
    · rw [h5]; unfold CNet.fire; rw [htr]; rfl

theorem same_skipTrans {R : Red} {t : Nat} (h : ∀ M, R.Reach M → ¬R.CanFire M t) : Same R (R.skipTrans t) := by
  refine ⟨⟨fun M M' => M = M', ⟨rfl, ?_, ?_⟩, ?_⟩, rfl, fun _ => rfl, fun _ h => h⟩
  · rintro M _ hr _ rfl u ρ L hl
    exact ⟨ρ, L, (step_skipTrans R t).2 ⟨fun e => h M hr ⟨ρ, L, e ▸ hl⟩, hl⟩, rfl⟩
  · rintro M _ hr _ rfl u ρ L hl
    exact ⟨ρ, L, ((step_skipTrans R t).1 hl).2, rfl⟩
  · rintro M _ rfl p _
    rfl

/-! ### Well-formed nets stay well-formed -/

theorem wf_skipPlace {R : Red} (w : R.net.WF) (p : Nat) : (R.skipPlace p).net.WF where
  types := w.types
  pnames := w.pnames
  tnames := by
    unfold Red.skipPlace
    simp only [List.map_map]
    exact w.tnames
  vpos := by
    intro t ht v hv
    obtain ⟨u, hu, rfl⟩ := List.mem_map.1 ht
    exact w.vpos u hu v (vars_strip hv)
  guard := by
    intro t ht g hg
    obtain ⟨u, hu, rfl⟩ := List.mem_map.1 ht
    exact w.guard u hu g hg
  arcs := by
    intro t ht a ha
    obtain ⟨u, hu, rfl⟩ := List.mem_map.1 ht
    refine w.arcs u hu a ?_
    simp only [List.mem_append, List.mem_filter] at *
    tauto
  marking := w.marking
  inhib := by
    intro h hm
    have := w.inhib h (List.mem_filter.1 hm).1
    refine ⟨this.1, ?_, this.2.2⟩
    unfold Red.skipPlace
    simpa using this.2.1

theorem mem_modify {α : Type} {l : List α} {f : α → α} {i : Nat} {x : α} (h : x ∈ l.modify i f) : ∃ y ∈ l, x = y ∨ x = f y := by
  obtain ⟨j, hj, rfl⟩ := List.getElem_of_mem h
  rw [List.length_modify] at hj
  rw [List.getElem_modify]
  refine ⟨l[j], List.getElem_mem hj, ?_⟩
  split <;> simp

theorem bare_vars {t : CTrans} {v : Nat} (h : v ∈ (bare t).vars) : v ∈ t.vars := by
  unfold CTrans.vars at *
  rw [mem_dedup] at *
  unfold bare arcsVars at h
  simp only [List.map_nil, List.flatten_nil, List.append_nil] at h
  exact List.mem_append_left _ (List.mem_append_left _ h)

theorem map_name_modify (l : List CTrans) (i : Nat) : (l.modify i bare).map (·.name) = l.map (·.name) := by
  induction l generalizing i with
  | nil => cases i <;> rfl
  | cons a l ih =>
    cases i with
    | zero => rfl
    | succ i => rw [List.modify_succ_cons, List.map_cons, ih, List.map_cons]

theorem wf_skipTrans {R : Red} (w : R.net.WF) (t : Nat) : (R.skipTrans t).net.WF where
  types := w.types
  pnames := w.pnames
  tnames := by
    unfold Red.skipTrans
    simp only [map_name_modify]
    exact w.tnames
  vpos := by
    intro u hu v hv
    obtain ⟨y, hy, h | h⟩ := mem_modify hu
    · subst h; exact w.vpos u hy v hv
    · subst h; exact w.vpos y hy v (bare_vars hv)
  guard := by
    intro u hu g hg
    obtain ⟨y, hy, h | h⟩ := mem_modify hu
    · subst h; exact w.guard u hy g hg
    · subst h; exact w.guard y hy g hg
  arcs := by
    intro u hu a ha
    obtain ⟨y, hy, h | h⟩ := mem_modify hu
    · subst h; exact w.arcs u hy a ha
    · subst h; simp [bare] at ha
  marking := w.marking
  inhib := by
    intro h hm
    have := w.inhib h (List.mem_filter.1 hm).1
    refine ⟨this.1, ?_, this.2.2⟩
    unfold Red.skipTrans
    simpa using this.2.1

end CRed
end Verif
