import Verif.Reduce.ModelH
import Verif.Reduce.RulesD

/-!
# Rule H
-/

namespace Verif
namespace Reduce

/-- A transition that moves a token from `p` to `q`. -/
structure HEdge (N : RNet) (t p q : Nat) : Prop where
  live : (N.tr t).skip = false
  noInh : (N.tr t).inhib = false
  pre : ∃ i, (N.tr t).pre = [⟨p, 1, i⟩]
  post : ∃ i, (N.tr t).post = [⟨q, 1, i⟩]
  pinh : N.pinhib p = false
  qinh : N.pinhib q = false

/-- `n` tokens move from `p` to `q`. -/
def mv (n p q : Nat) (m : Nat → Nat) : Nat → Nat :=
  fun x => m x - (if x = p then n else 0) + (if x = q then n else 0)

theorem HEdge.eff {N : RNet} (hN : N.WF) {t p q : Nat} (h : HEdge N t p q) :
    (∀ x, (N.tr t).I x = if x = p then 1 else 0) ∧ (∀ x, (N.tr t).O x = if x = q then 1 else 0) := by
  obtain ⟨i, hi⟩ := h.pre
  obtain ⟨j, hj⟩ := h.post
  constructor
  · intro x
    rw [RTr.I_eq_wAt ((hN.tr t).noInh h.noInh), hi, wAt_cons, wAt_nil]
    by_cases hx : x = p
    · simp [hx]
    · have : p ≠ x := fun he => hx he.symm
      simp [hx, this]
  · intro x
    unfold RTr.O
    rw [hj, wAt_cons, wAt_nil]
    by_cases hx : x = q
    · simp [hx]
    · have : q ≠ x := fun he => hx he.symm
      simp [hx, this]

theorem HEdge.move {N : RNet} (hN : N.WF) {t p q : Nat} (h : HEdge N t p q) {n : Nat} {m : Nat → Nat} (hm : n ≤ m p) :
    N.Reach m (mv n p q m) := by
  obtain ⟨e1, e2⟩ := h.eff hN
  have h1 := iter_reach (N := N) (t := t) h.live (fun m a ha hi => by
    rw [(hN.tr t).noInh h.noInh a ha] at hi; cases hi) n m (fun x => by
      rw [e1]; split
      · subst x; omega
      · omega)
  have : (fun x => m x - n * (N.tr t).I x + n * (N.tr t).O x) = mv n p q m := by
    funext x
    unfold mv
    rw [e1, e2]
    split <;> split <;> omega
  rwa [this] at h1

/-- A path whose transitions are not in the list. -/
def HPath (N : RNet) (av : List Nat) : Nat → Nat → Prop := Relation.ReflTransGen fun p q => ∃ t, t ∉ av ∧ HEdge N t p q

theorem HPath.mono {N : RNet} {av av' : List Nat} (h : ∀ t ∈ av', t ∈ av) {p q : Nat} (hp : HPath N av p q) :
    HPath N av' p q := by
  induction hp with
  | refl => exact .refl
  | tail _ hs ih =>
    obtain ⟨t, ht, he⟩ := hs
    exact ih.tail ⟨t, fun hc => ht (h t hc), he⟩

theorem HPath.move {N : RNet} (hN : N.WF) {av : List Nat} {p q : Nat} (h : HPath N av p q) {n : Nat} {m : Nat → Nat}
    (hm : n ≤ m p) : N.Reach m (mv n p q m) := by
  induction h with
  | refl =>
    have : mv n p p m = m := by
      funext x; unfold mv
      split
      · subst x; omega
      · omega
    rw [this]; exact .refl
  | @tail b c _ hs ih =>
    obtain ⟨t, _, he⟩ := hs
    have h1 := he.move hN (n := n) (m := mv n p b m) (by unfold mv; simp)
    have : mv n b c (mv n p b m) = mv n p c m := by
      funext x; unfold mv
      by_cases hb : x = b <;> by_cases hp : x = p <;> by_cases hc : x = c <;> simp only [hb, hp, hc, if_true, if_false] <;> omega
    rw [this] at h1
    exact ih.trans h1

/-! ### Joining two places -/

theorem hMove_sorted {p1 p2 : Nat} {l : List Arc} (hs : Sorted l) : Sorted (hMove p1 p2 l) := by
  unfold hMove
  split
  · exact addArc_sorted hs _
  · exact hs

/-- The arcs of a transition after `p2` became part of `p1`. -/
def hNew (p1 p2 : Nat) (l : List Arc) : List Arc := dropArc p2 (hMove p1 p2 l)

theorem hNew_sorted {p1 p2 : Nat} {l : List Arc} (hs : Sorted l) : Sorted (hNew p1 p2 l) :=
  dropArc_sorted (hMove_sorted hs) _

theorem arcAt_hNew {p1 p2 : Nat} (hne : p1 ≠ p2) {l : List Arc} (hs : Sorted l) (q : Nat) : arcAt (hNew p1 p2 l) q =
    if q = p2 then none
    else if q = p1 then
      (match arcAt l p1, arcAt l p2 with
        | some b, some a => some { b with weight := b.weight + a.weight }
        | some b, none => some b
        | none, some a => some { a with place := p1 }
        | none, none => none)
    else arcAt l q := by
  unfold hNew
  rw [arcAt_dropArc]
  by_cases h2 : q = p2
  · rw [if_pos h2, if_pos h2]
  · rw [if_neg h2, if_neg h2]
    unfold hMove
    cases ha : arcAt l p2 with
    | none =>
      by_cases h1 : q = p1
      · subst h1
        simp only [if_true]
        cases arcAt l q <;> rfl
      · rw [if_neg h1]
    | some a =>
      simp only
      rw [arcAt_addArc hs]
      simp only
      by_cases h1 : q = p1
      · subst h1
        simp only [if_true]
        cases arcAt l q <;> rfl
      · rw [if_neg h1, if_neg (fun h => h1 h.symm)]

theorem wAt_hNew {p1 p2 : Nat} (hne : p1 ≠ p2) {l : List Arc} (hs : Sorted l) (q : Nat) : wAt (hNew p1 p2 l) q =
    if q = p2 then 0 else if q = p1 then wAt l p1 + wAt l p2 else wAt l q := by
  unfold wAt
  rw [arcAt_hNew hne hs]
  by_cases h2 : q = p2
  · simp [h2]
  · rw [if_neg h2, if_neg h2]
    by_cases h1 : q = p1
    · rw [if_pos h1, if_pos h1]
      cases arcAt l p1 <;> cases arcAt l p2 <;> simp
    · rw [if_neg h1, if_neg h1]

theorem hNew_mem {p1 p2 : Nat} (hne : p1 ≠ p2) {l : List Arc} (hs : Sorted l) {b : Arc} (hb : b ∈ hNew p1 p2 l) :
    b.place ≠ p2 ∧ ((b ∈ l ∧ b.place ≠ p1) ∨ (b.place = p1 ∧ ∃ a ∈ l, (a.place = p1 ∨ a.place = p2) ∧ a.inhib = b.inhib ∧
      a.weight ≤ b.weight)) := by
  have h := arcAt_of_mem (hNew_sorted hs) hb
  rw [arcAt_hNew hne hs] at h
  by_cases h2 : b.place = p2
  · rw [if_pos h2] at h; cases h
  · rw [if_neg h2] at h
    refine ⟨h2, ?_⟩
    by_cases h1 : b.place = p1
    · rw [if_pos h1] at h
      refine Or.inr ⟨h1, ?_⟩
      cases ha : arcAt l p1 with
      | none =>
        cases hc : arcAt l p2 with
        | none => rw [ha, hc] at h; cases h
        | some c =>
          rw [ha, hc] at h
          obtain ⟨hm, hp⟩ := arcAt_mem hc
          have := Option.some.inj h
          refine ⟨c, hm, Or.inr hp, ?_, ?_⟩
          · rw [← this]
          · rw [← this]; exact Nat.le_refl _
      | some a =>
        obtain ⟨hm, hp⟩ := arcAt_mem ha
        cases hc : arcAt l p2 with
        | none =>
          rw [ha, hc] at h
          have := Option.some.inj h
          exact ⟨a, hm, Or.inl hp, by rw [this], by rw [this]; exact Nat.le_refl _⟩
        | some c =>
          rw [ha, hc] at h
          have := Option.some.inj h
          refine ⟨a, hm, Or.inl hp, ?_, ?_⟩
          · rw [← this]
          · rw [← this]; exact Nat.le_add_right _ _
    · rw [if_neg h1] at h
      exact Or.inl ⟨(arcAt_mem h).1, h1⟩

theorem hJoin_tr (p1 p2 t : Nat) (N : RNet) (s : Nat) : (hJoin p1 p2 t N).tr s =
    { (N.skipTrans t).tr s with
      pre := hNew p1 p2 ((N.skipTrans t).tr s).pre
      post := hNew p1 p2 ((N.skipTrans t).tr s).post } := rfl

theorem hNew_nil (p1 p2 : Nat) : hNew p1 p2 [] = [] := rfl

theorem hJoin_WF {N : RNet} (hN : N.WF) {p1 p2 t : Nat} (h : HEdge N t p1 p2) (hne : p1 ≠ p2) :
    (hJoin p1 p2 t N).WF := by
  have hlt : t < N.nt := Nat.lt_of_not_le fun hc => by
    have := hN.out t hc
    rw [h.live] at this; cases this
  have hW := skipTrans_WF hN hlt h.live
  have hok1 : N.okP p1 := by
    obtain ⟨i, hi⟩ := h.pre
    exact (hN.tr t).preP ⟨p1, 1, i⟩ (by rw [hi]; simp)
  have hokJ : ∀ q, (hJoin p1 p2 t N).okP q ↔ N.okP q ∧ q ≠ p2 := fun q => by
    exact skipPlace_okP _ p2 q
  refine ⟨fun s => ?_, fun s hs => ?_, fun s hs => ?_, hW.nd⟩
  · rw [hJoin_tr]
    have hx := hW.tr s
    generalize (N.skipTrans t).tr s = x at hx
    have hni : ∀ a ∈ x.pre, a.place = p1 ∨ a.place = p2 → a.inhib = false := by
      intro a ha hp
      cases hi : a.inhib with
      | false => rfl
      | true =>
        have := hx.inhP a ha hi
        rcases hp with hp | hp
        · rw [hp] at this; change N.pinhib p1 = true at this; rw [h.pinh] at this; cases this
        · rw [hp] at this; change N.pinhib p2 = true at this; rw [h.qinh] at this; cases this
    exact {
      preS := hNew_sorted hx.preS
      postS := hNew_sorted hx.postS
      preW := fun b hb => by
        rcases (hNew_mem hne hx.preS hb).2 with ⟨h1, _⟩ | ⟨_, a, ha, _, _, hw⟩
        · exact hx.preW b h1
        · exact Nat.lt_of_lt_of_le (hx.preW a ha) hw
      postW := fun b hb => by
        rcases (hNew_mem hne hx.postS hb).2 with ⟨h1, _⟩ | ⟨_, a, ha, _, _, hw⟩
        · exact hx.postW b h1
        · exact Nat.lt_of_lt_of_le (hx.postW a ha) hw
      postI := fun b hb => by
        rcases (hNew_mem hne hx.postS hb).2 with ⟨h1, _⟩ | ⟨_, a, ha, _, hi, _⟩
        · exact hx.postI b h1
        · rw [← hi]; exact hx.postI a ha
      preP := fun b hb => by
        refine (hokJ _).2 ⟨?_, (hNew_mem hne hx.preS hb).1⟩
        rcases (hNew_mem hne hx.preS hb).2 with ⟨h1, _⟩ | ⟨hp, _⟩
        · exact hx.preP b h1
        · rw [hp]; exact hok1
      postP := fun b hb => by
        refine (hokJ _).2 ⟨?_, (hNew_mem hne hx.postS hb).1⟩
        rcases (hNew_mem hne hx.postS hb).2 with ⟨h1, _⟩ | ⟨hp, _⟩
        · exact hx.postP b h1
        · rw [hp]; exact hok1
      empty := fun hs => by
        obtain ⟨e1, e2⟩ := hx.empty hs
        simp only [e1, e2, hNew_nil, and_self]
      inhT := fun b hb hi => by
        rcases (hNew_mem hne hx.preS hb).2 with ⟨h1, _⟩ | ⟨_, a, ha, hp, hi', _⟩
        · exact hx.inhT b h1 hi
        · rw [← hi', hni a ha hp] at hi; cases hi
      inhP := fun b hb hi => by
        rcases (hNew_mem hne hx.preS hb).2 with ⟨h1, _⟩ | ⟨_, a, ha, hp, hi', _⟩
        · exact hx.inhP b h1 hi
        · rw [← hi', hni a ha hp] at hi; cases hi }
  · rw [hJoin_tr]
    exact hW.out s hs
  · rw [hJoin_tr]
    exact hW.sk s hs

theorem hJoin_fine {Q : Nat → Bool} {N : RNet} (hN : N.WF) {p1 p2 t : Nat} (h : HEdge N t p1 p2) (hne : p1 ≠ p2)
    (hq1 : Q p1 = false) (hq2 : Q p2 = false) {av : List Nat} (hpath : HPath N av p2 p1) :
    Fine Q N (hJoin p1 p2 t N) := by
  have hJ := hJoin_WF hN h hne
  have htr : ∀ s, s ≠ t → (hJoin p1 p2 t N).tr s =
      { N.tr s with pre := hNew p1 p2 (N.tr s).pre, post := hNew p1 p2 (N.tr s).post } := by
    intro s hs
    rw [hJoin_tr, skipTrans_tr, if_neg hs]
  have hdead : ∀ m, ¬ ((hJoin p1 p2 t N).tr t).En m := by
    intro m hen
    have := hen.1
    rw [hJoin_tr, skipTrans_tr, if_pos rfl] at this
    cases this
  have hIp : ∀ s p, N.pinhib p = false → (N.tr s).I p = wAt (N.tr s).pre p := by
    intro s p hp
    unfold RTr.I wAt
    cases ha : arcAt (N.tr s).pre p with
    | none => rfl
    | some a =>
      obtain ⟨hm, hap⟩ := arcAt_mem ha
      cases hi : a.inhib with
      | false => simp [hi]
      | true =>
        have := (hN.tr s).inhP a hm hi
        rw [hap, hp] at this; cases this
  have hI : ∀ s, s ≠ t → ∀ q, ((hJoin p1 p2 t N).tr s).I q =
      if q = p2 then 0 else if q = p1 then (N.tr s).I p1 + (N.tr s).I p2 else (N.tr s).I q := by
    intro s hs q
    by_cases h2 : q = p2
    · rw [if_pos h2]
      apply RTr.I_none
      rw [htr s hs]
      simp only
      rw [arcAt_hNew hne (hN.preS s), if_pos h2]
    · rw [if_neg h2]
      by_cases h1 : q = p1
      · rw [if_pos h1, hIp s p1 h.pinh, hIp s p2 h.qinh]
        have e : ((hJoin p1 p2 t N).tr s).I q = wAt ((hJoin p1 p2 t N).tr s).pre q := by
          unfold RTr.I wAt
          cases ha : arcAt ((hJoin p1 p2 t N).tr s).pre q with
          | none => rfl
          | some a =>
            obtain ⟨hm, hap⟩ := arcAt_mem ha
            cases hi : a.inhib with
            | false => simp [hi]
            | true =>
              have := (hJ.tr s).inhP a hm hi
              rw [hap, h1] at this
              change N.pinhib p1 = true at this
              rw [h.pinh] at this; cases this
        rw [e, htr s hs]
        simp only
        rw [wAt_hNew hne (hN.preS s), if_neg h2, if_pos h1]
      · rw [if_neg h1]
        unfold RTr.I
        rw [htr s hs]
        simp only
        rw [arcAt_hNew hne (hN.preS s), if_neg h2, if_neg h1]
  have hO : ∀ s, s ≠ t → ∀ q, ((hJoin p1 p2 t N).tr s).O q =
      if q = p2 then 0 else if q = p1 then (N.tr s).O p1 + (N.tr s).O p2 else (N.tr s).O q := by
    intro s hs q
    unfold RTr.O
    rw [htr s hs]
    simp only
    rw [wAt_hNew hne (hN.postS s)]
  have hno : ∀ s, s ≠ t → ∀ m m', (∀ q, q ≠ p1 → q ≠ p2 → m' q = m q) →
      (((hJoin p1 p2 t N).tr s).NoInh m' ↔ (N.tr s).NoInh m) := by
    intro s hs m m' hmm
    constructor
    · intro hn a ha hi
      have hp := (hN.tr s).inhP a ha hi
      have h1 : a.place ≠ p1 := fun he => by rw [he, h.pinh] at hp; cases hp
      have h2 : a.place ≠ p2 := fun he => by rw [he, h.qinh] at hp; cases hp
      rw [← hmm _ h1 h2]
      refine hn a ?_ hi
      rw [htr s hs]
      simp only
      have := arcAt_hNew hne (hN.preS s) a.place
      rw [if_neg h2, if_neg h1, arcAt_of_mem (hN.preS s) ha] at this
      exact (arcAt_mem this).1
    · intro hn a ha hi
      have hp := (hJ.tr s).inhP a ha hi
      change N.pinhib a.place = true at hp
      have h1 : a.place ≠ p1 := fun he => by rw [he, h.pinh] at hp; cases hp
      have h2 : a.place ≠ p2 := fun he => by rw [he, h.qinh] at hp; cases hp
      rw [hmm _ h1 h2]
      refine hn a ?_ hi
      rw [htr s hs] at ha
      rcases (hNew_mem hne (hN.preS s) ha).2 with ⟨h3, _⟩ | ⟨h3, _⟩
      · exact h3
      · exact absurd h3 h1
  have hQp : ∀ q, Q q = true → q ≠ p1 ∧ q ≠ p2 := fun q hq =>
    ⟨fun he => (by rw [he, hq1] at hq; cases hq), fun he => (by rw [he, hq2] at hq; cases hq)⟩
  have hinit : (∀ q, q ≠ p1 → q ≠ p2 → (hJoin p1 p2 t N).init q = N.init q) ∧
      (hJoin p1 p2 t N).init p1 = N.init p1 + N.init p2 := by
    refine ⟨fun q h1 _ => ?_, ?_⟩
    · show (if q = p1 then _ else N.init q) = _
      rw [if_neg h1]
    · show (if p1 = p1 then _ else _) = _
      rw [if_pos rfl]; rfl
  refine ⟨hJ, Same.of_sims
    (fun m m' => (∀ q, q ≠ p1 → q ≠ p2 → m' q = m q) ∧ m' p1 = m p1 + m p2)
    (fun m' m => (∀ q, q ≠ p1 → q ≠ p2 → m' q = m q) ∧ m' p1 = m p1 + m p2)
    ⟨_, .refl, hinit⟩ ⟨_, .refl, hinit⟩ ?_ ?_ ?_ ?_⟩
  · rintro m m' m1 ⟨h1, h2⟩ ⟨s, hs, rfl⟩
    by_cases hst : s = t
    · subst hst
      obtain ⟨e1, e2⟩ := h.eff hN
      refine ⟨m', .refl, fun q hq1 hq2 => ?_, ?_⟩
      · unfold RTr.fire
        rw [e1, e2, if_neg hq1, if_neg hq2, h1 q hq1 hq2]; rfl
      · have := hs.2.1 p1
        unfold RTr.fire
        rw [e1] at this
        rw [e1, e2, e1, e2, h2]
        simp only [if_true, if_neg hne, if_neg (Ne.symm hne)] at this ⊢
        omega
    · refine ⟨_, .single ⟨s, ⟨?_, fun q => ?_, (hno s hst m m' h1).2 hs.2.2⟩, rfl⟩, fun q hq1 hq2 => ?_, ?_⟩
      · rw [htr s hst]; exact hs.1
      · rw [hI s hst]
        have a1 := hs.2.1 p1
        have a2 := hs.2.1 p2
        have a3 := hs.2.1 q
        split
        · omega
        · split
          · subst q; omega
          · rename_i x1 x2; rw [h1 q x2 x1]; exact a3
      · unfold RTr.fire
        rw [hI s hst, hO s hst]
        simp only [hq1, hq2, if_false]
        rw [h1 q hq1 hq2]
      · have a1 := hs.2.1 p1
        have a2 := hs.2.1 p2
        unfold RTr.fire
        rw [hI s hst, hO s hst]
        simp only [hne, if_true, if_false]
        rw [h2]; omega
  · rintro m' m m1' ⟨h1, h2⟩ ⟨s, hs, rfl⟩
    have hst : s ≠ t := by rintro rfl; exact hdead _ hs
    have hmove : ∃ n, N.Reach m n ∧ (∀ q, q ≠ p1 → q ≠ p2 → n q = m q) ∧ n p1 + n p2 = m p1 + m p2 ∧
        (N.tr s).I p1 ≤ n p1 ∧ (N.tr s).I p2 ≤ n p2 := by
      have hle := hs.2.1 p1
      rw [hI s hst, if_neg hne, if_pos rfl, h2] at hle
      by_cases hc : (N.tr s).I p1 ≤ m p1
      · by_cases hc2 : (N.tr s).I p2 ≤ m p2
        · exact ⟨m, .refl, fun _ _ _ => rfl, rfl, hc, hc2⟩
        · refine ⟨mv ((N.tr s).I p2 - m p2) p1 p2 m, h.move hN (by omega), fun q a1 a2 => ?_, ?_, ?_, ?_⟩ <;>
            unfold mv
          · simp [a1, a2]
          · simp only [hne, Ne.symm hne, if_true, if_false]; omega
          · simp only [hne, if_true, if_false]; omega
          · simp only [Ne.symm hne, if_true, if_false]; omega
      · refine ⟨mv ((N.tr s).I p1 - m p1) p2 p1 m, hpath.move hN (by omega), fun q a1 a2 => ?_, ?_, ?_, ?_⟩ <;>
            unfold mv
        · simp [a1, a2]
        · simp only [hne, Ne.symm hne, if_true, if_false]; omega
        · simp only [hne, if_true, if_false]; omega
        · simp only [Ne.symm hne, if_true, if_false]; omega
    obtain ⟨n, n1, n2, n3, n4, n5⟩ := hmove
    have hl : (N.tr s).skip = false := by
      have := hs.1
      rw [htr s hst] at this
      exact this
    refine ⟨(N.tr s).fire n, n1.tail ⟨s, ⟨hl, fun q => ?_, ?_⟩, rfl⟩, fun q hq1 hq2 => ?_, ?_⟩
    · by_cases e1 : q = p1
      · rw [e1]; exact n4
      · by_cases e2 : q = p2
        · rw [e2]; exact n5
        · have := hs.2.1 q
          rw [hI s hst, if_neg e2, if_neg e1, h1 q e1 e2] at this
          rw [n2 q e1 e2]; exact this
    · exact (hno s hst n m' (fun q e1 e2 => by rw [h1 q e1 e2, n2 q e1 e2])).1 hs.2.2
    · unfold RTr.fire
      rw [hI s hst, hO s hst]
      simp only [hq1, hq2, if_false]
      rw [h1 q hq1 hq2, n2 q hq1 hq2]
    · unfold RTr.fire
      rw [hI s hst, hO s hst]
      simp only [hne, if_true, if_false]
      rw [h2]; omega
  · rintro m m' ⟨h1, _⟩ q hq
    exact h1 q (hQp q hq).1 (hQp q hq).2
  · rintro m' m ⟨h1, _⟩ q hq
    exact (h1 q (hQp q hq).1 (hQp q hq).2).symm

/-- The name of a place after the join. -/
def rn (p1 p2 p : Nat) : Nat := if p = p2 then p1 else p

theorem hNew_single {p1 p2 : Nat} (hne : p1 ≠ p2) (p w : Nat) (i : Bool) :
    hNew p1 p2 [⟨p, w, i⟩] = [⟨rn p1 p2 p, w, i⟩] := by
  unfold hNew hMove rn
  rw [arcAt_cons, arcAt_nil]
  by_cases h : p = p2
  · subst h
    simp only [if_true, addArc]
    by_cases hlt : p < p1
    · simp [hlt, dropArc, hne]
    · simp [hlt, Ne.symm hne, dropArc, hne]
  · simp [h, dropArc]

theorem HEdge.join {N : RNet} {p1 p2 t : Nat} (hne : p1 ≠ p2) (hi1 : N.pinhib p1 = false) {s p q : Nat} (hst : s ≠ t)
    (h : HEdge N s p q) : HEdge (hJoin p1 p2 t N) s (rn p1 p2 p) (rn p1 p2 q) := by
  have htr : (hJoin p1 p2 t N).tr s =
      { N.tr s with pre := hNew p1 p2 (N.tr s).pre, post := hNew p1 p2 (N.tr s).post } := by
    rw [hJoin_tr, skipTrans_tr, if_neg hst]
  have hpin : ∀ x, N.pinhib x = false → (hJoin p1 p2 t N).pinhib (rn p1 p2 x) = false := by
    intro x hx
    show N.pinhib (rn p1 p2 x) = false
    unfold rn
    split
    · exact hi1
    · exact hx
  obtain ⟨i, hi⟩ := h.pre
  obtain ⟨j, hj⟩ := h.post
  refine ⟨?_, ?_, ⟨i, ?_⟩, ⟨j, ?_⟩, hpin _ h.pinh, hpin _ h.qinh⟩
  · rw [htr]; exact h.live
  · rw [htr]; exact h.noInh
  · rw [htr]; simp only; rw [hi, hNew_single hne]
  · rw [htr]; simp only; rw [hj, hNew_single hne]

/-! ### The loop -/

/-- The transitions lead from `p` to `e`. -/
def HChain (N : RNet) : Nat → List Nat → Nat → Prop
  | p, [], e => p = e
  | p, t :: ts, e => ∃ q, HEdge N t p q ∧ HChain N q ts e

theorem HChain.path {N : RNet} {av : List Nat} : ∀ {ts : List Nat} {p e : Nat}, HChain N p ts e → (∀ t ∈ ts, t ∉ av) →
    HPath N av p e := by
  intro ts
  induction ts with
  | nil => intro p e h _; cases h; exact .refl
  | cons t ts ih =>
    rintro p e ⟨q, h1, h2⟩ hav
    exact Relation.ReflTransGen.head ⟨t, hav t (by simp), h1⟩ (ih h2 fun s hs => hav s (by simp [hs]))

theorem HChain.join {N : RNet} {p1 p2 t : Nat} (hne : p1 ≠ p2) (hi1 : N.pinhib p1 = false) : ∀ {ts : List Nat} {p e : Nat},
    t ∉ ts → HChain N p ts e → HChain (hJoin p1 p2 t N) (rn p1 p2 p) ts (rn p1 p2 e) := by
  intro ts
  induction ts with
  | nil => intro p e _ h; cases h; exact rfl
  | cons s ts ih =>
    rintro p e ht ⟨q, h1, h2⟩
    exact ⟨rn p1 p2 q, h1.join hne hi1 (by rintro rfl; exact ht (by simp)), ih (fun hc => ht (by simp [hc])) h2⟩

theorem HPath.join {N : RNet} {p1 p2 t : Nat} (hne : p1 ≠ p2) (hi1 : N.pinhib p1 = false) {av : List Nat} (hav : t ∈ av)
    {p e : Nat} (h : HPath N av p e) : HPath (hJoin p1 p2 t N) av (rn p1 p2 p) (rn p1 p2 e) := by
  induction h with
  | refl => exact .refl
  | tail _ hs ih =>
    obtain ⟨s, hs1, hs2⟩ := hs
    exact ih.tail ⟨s, hs1, hs2.join hne hi1 (by rintro rfl; exact hs1 hav)⟩

theorem HEdge.place0_pre {N : RNet} {t p q : Nat} (h : HEdge N t p q) : place0 (N.tr t).pre = p := by
  obtain ⟨i, hi⟩ := h.pre; rw [hi]; rfl

theorem HEdge.place0_post {N : RNet} {t p q : Nat} (h : HEdge N t p q) : place0 (N.tr t).post = q := by
  obtain ⟨i, hi⟩ := h.post; rw [hi]; rfl

theorem hMerge_fine {Q : Nat → Bool} {ltl : Bool} : ∀ (ts : List Nat) (p1 prev e : Nat) (N : RNet), N.WF →
    (prev :: ts).Nodup → HChain N p1 (prev :: ts) e → HPath N (prev :: ts) e p1 →
    Fine Q N (hMerge Q ltl p1 prev ts N).1 ∧ (hMerge Q ltl p1 prev ts N).1.bad = N.bad := by
  intro ts
  induction ts with
  | nil => intro p1 prev e N hN _ _ _; exact ⟨Fine.refl hN, rfl⟩
  | cons t ts ih =>
    rintro p1 prev e N hN hnd ⟨p2, h1, q, h2, h3⟩ hpath
    obtain ⟨hn1, hn2⟩ := List.nodup_cons.1 hnd
    have hp2 : place0 (N.tr t).pre = p2 := h2.place0_pre
    have hstep : HPath N (t :: ts) e p2 :=
      (hpath.mono fun s hs => List.mem_cons_of_mem _ hs).tail ⟨prev, hn1, h1⟩
    unfold hMerge
    simp only [hp2]
    split
    · exact ih p2 t e N hN hn2 ⟨q, h2, h3⟩ hstep
    · rename_i hq
      simp only [Bool.or_eq_true, not_or, Bool.not_eq_true] at hq
      split
      · rename_i heq
        subst heq
        exact ih p1 t e N hN hn2 ⟨q, h2, h3⟩ hstep
      · rename_i hne
        split
        · exact ih p2 t e N hN hn2 ⟨q, h2, h3⟩ hstep
        · have hback : HPath N [prev] p2 p1 := by
            have c1 : HPath N [prev] p2 e := HChain.path (ts := t :: ts) ⟨q, h2, h3⟩ fun s hs hc => by
              rw [List.mem_singleton] at hc
              subst hc; exact hn1 hs
            exact c1.trans (hpath.mono fun s hs => by rw [List.mem_singleton] at hs; subst hs; simp)
          have hf := hJoin_fine (Q := Q) hN h1 hne hq.2 hq.1 hback
          have c2 := HChain.join (t := prev) (p1 := p1) (p2 := p2) hne h1.pinh (ts := t :: ts) hn1 ⟨q, h2, h3⟩
          have c3 := HPath.join (t := prev) (p1 := p1) (p2 := p2) hne h1.pinh (by simp) hpath
          have r1 : rn p1 p2 p2 = p1 := by unfold rn; simp
          have r2 : rn p1 p2 p1 = p1 := by unfold rn; simp [hne]
          rw [r1] at c2
          rw [r2] at c3
          obtain ⟨i1, i2⟩ := ih p1 t (rn p1 p2 e) _ hf.1 hn2 c2 (c3.mono fun s hs => List.mem_cons_of_mem _ hs)
          exact ⟨hf.trans i1, i2⟩

theorem hOk_edge {N : RNet} {t : Nat} (hl : (N.tr t).skip = false) (h : hOk N t = true) :
    ∃ p q, HEdge N t p q := by
  unfold hOk at h
  simp only [Bool.and_eq_true, Bool.not_eq_true'] at h
  obtain ⟨hi, h⟩ := h
  split at h
  · rename_i a b ha hb
    simp only [Bool.and_eq_true, beq_iff_eq, bne_iff_ne, ne_eq, Bool.not_eq_true'] at h
    obtain ⟨⟨⟨⟨h1, h2⟩, _⟩, h3⟩, h4⟩ := h
    exact ⟨a.place, b.place, hl, hi, ⟨a.inhib, by rw [ha, ← h1]⟩, ⟨b.inhib, by rw [hb, ← h2]⟩, h3, h4⟩
  · cases h

theorem HChain.append {N : RNet} : ∀ {l1 l2 : List Nat} {p e : Nat}, HChain N p (l1 ++ l2) e →
    ∃ x, HChain N p l1 x ∧ HChain N x l2 e := by
  intro l1
  induction l1 with
  | nil => intro l2 p e h; exact ⟨p, rfl, h⟩
  | cons t l1 ih =>
    rintro l2 p e ⟨q, h1, h2⟩
    obtain ⟨x, h3, h4⟩ := ih h2
    exact ⟨x, ⟨q, h1, h3⟩, h4⟩

theorem HChain.snoc {N : RNet} {t y : Nat} : ∀ {l : List Nat} {p e : Nat}, HChain N p l e → HEdge N t e y →
    HChain N p (l ++ [t]) y := by
  intro l
  induction l with
  | nil => intro p e h ht; cases h; exact ⟨y, ht, rfl⟩
  | cons s l ih =>
    rintro p e ⟨q, h1, h2⟩ ht
    exact ⟨q, h1, ih h2 ht⟩

/-- What the search maintains. -/
structure HInv (N : RNet) (fl : Nat → Nat) (stack : List Nat) : Prop where
  nd : stack.Nodup
  on : ∀ t ∈ stack, fl t = 1
  chain : ∃ p e, HChain N p stack e

theorem hRemove_fine {Q : Nat → Bool} {ltl : Bool} {N : RNet} (hN : N.WF) {stack : List Nat} (hnd : stack.Nodup) {p e nt : Nat}
    (hc : HChain N p stack e) (hnt : nt ∈ N.consumers e) :
    Fine Q N (hRemove Q ltl N stack nt).1 ∧ (hRemove Q ltl N stack nt).1.bad = N.bad := by
  unfold hRemove
  cases hd : stack.dropWhile (fun t => t != nt) with
  | nil => exact ⟨Fine.refl hN, rfl⟩
  | cons t ts =>
    simp only
    have hsplit : stack = stack.takeWhile (fun t => t != nt) ++ t :: ts := by
      rw [← hd, List.takeWhile_append_dropWhile]
    have ht : t = nt := by
      have := List.head?_dropWhile_not (fun t => t != nt) stack
      rw [hd] at this
      simpa using this
    subst ht
    rw [hsplit] at hc hnd
    obtain ⟨x, _, q, h1, h2⟩ := hc.append
    have hx : x = e := by
      obtain ⟨i, hi⟩ := h1.pre
      obtain ⟨a, ha, hap⟩ := (mem_consumers hN).1 hnt
      rw [hi, List.mem_singleton] at ha
      rw [ha] at hap
      exact hap
    subst hx
    rw [h1.place0_pre]
    exact hMerge_fine ts x t x N hN (List.nodup_append.1 hnd).2.1 ⟨q, h1, h2⟩ .refl

/-- What the loop over the consumers achieves. -/
def HRes (Q : Nat → Bool) (N : RNet) (stack : List Nat) : HOut → Prop
  | .removed N' => Fine Q N N' ∧ N'.bad = N.bad
  | .push nt fl' => HInv N fl' (stack ++ [nt])
  | .stuck fl' => ∀ t ∈ stack, fl' t = 1

theorem hScan_spec {Q : Nat → Bool} {ltl : Bool} {N : RNet} (hN : N.WF) {stack : List Nat} {it e : Nat} {p : Nat}
    (hc : HChain N p stack e) : ∀ (nts : List Nat) (fl : Nat → Nat), (∀ t ∈ nts, t ∈ N.consumers e) →
    stack.Nodup → (∀ t ∈ stack, fl t = 1) →
    HRes Q N stack (hScan Q ltl N stack it nts fl) := by
  intro nts
  induction nts with
  | nil => intro fl _ _ hon; exact hon
  | cons nt nts ih =>
    intro fl hcons hnd hon
    have hcons' : ∀ t ∈ nts, t ∈ N.consumers e := fun t ht => hcons t (by simp [ht])
    unfold hScan
    split
    · exact ih fl hcons' hnd hon
    · rename_i hskip
      split
      · have hr := hRemove_fine (Q := Q) (ltl := ltl) hN hnd hc (hcons nt (by simp))
        generalize hRemove Q ltl N stack nt = r at hr
        obtain ⟨N', b⟩ := r
        cases b with
        | true => exact hr
        | false => exact ih fl hcons' hnd hon
      · split
        · rename_i h0
          have hns : nt ∉ stack := fun hm => by
            have := hon nt hm
            omega
          split
          · rename_i hok
            obtain ⟨a, b, hab⟩ := hOk_edge (by
              simp only [not_or, Bool.not_eq_true] at hskip
              exact hskip.2) hok
            have hae : a = e := by
              obtain ⟨i, hi⟩ := hab.pre
              obtain ⟨c, hc1, hcp⟩ := (mem_consumers hN).1 (hcons nt (by simp))
              rw [hi, List.mem_singleton] at hc1
              rw [hc1] at hcp
              exact hcp
            subst hae
            refine ⟨?_, fun t ht => ?_, p, b, hc.snoc hab⟩
            · rw [List.nodup_append]
              refine ⟨hnd, by simp, fun x hx y hy => ?_⟩
              rw [List.mem_singleton] at hy
              rintro rfl
              subst hy
              exact hns hx
            · unfold setFl
              by_cases htn : t = nt
              · rw [if_pos htn]
              · rw [if_neg htn]
                rcases List.mem_append.1 ht with h | h
                · exact hon t h
                · rw [List.mem_singleton] at h; exact absurd h htn
          · refine ih _ hcons' hnd fun t ht => ?_
            unfold setFl
            rw [if_neg (by rintro rfl; exact hns ht)]
            exact hon t ht
        · exact ih fl hcons' hnd hon

theorem hSearch_good {Q : Nat → Bool} {ltl : Bool} {N : RNet} (hN : N.WF) : ∀ (fuel : Nat) (fl : Nat → Nat)
    (stack : List Nat) (N' : RNet), HInv N fl stack → hSearch Q ltl N fuel fl stack = some N' →
    Fine Q N N' ∧ N'.bad = N.bad := by
  intro fuel
  induction fuel with
  | zero => intro fl stack N' _ h; cases h
  | succ fuel ih =>
    intro fl stack N' hinv h
    unfold hSearch at h
    cases hl : stack.getLast? with
    | none => rw [hl] at h; cases h
    | some it =>
      rw [hl] at h
      simp only at h
      obtain ⟨ys, rfl⟩ := List.getLast?_eq_some_iff.1 hl
      obtain ⟨p, e, hc⟩ := hinv.chain
      obtain ⟨x, hx, y, hit, rfl⟩ := hc.append
      rw [hit.place0_post] at h
      have hs := hScan_spec (Q := Q) (ltl := ltl) (it := it) hN hc (N.consumers y) fl (fun _ h => h) hinv.nd hinv.on
      generalize hScan Q ltl N (ys ++ [it]) it (N.consumers y) fl = r at h hs
      cases r with
      | removed N1 =>
        simp only [HRes] at h hs
        cases h
        exact hs
      | push nt fl' =>
        simp only [HRes] at h hs
        exact ih fl' _ N' hs h
      | stuck fl' =>
        simp only [HRes, List.dropLast_concat] at h hs
        obtain ⟨n1, _, n3⟩ := List.nodup_append.1 hinv.nd
        refine ih _ ys N' ⟨n1, fun t ht => ?_, p, x, hx⟩ h
        unfold setFl
        rw [if_neg (n3 t ht it (by simp))]
        exact hs t (by simp [ht])

theorem ruleHStep_good {Q : Nat → Bool} {ltl : Bool} {fuel : Nat} {N N' : RNet} {t : Nat}
    (h : ruleHStep Q ltl fuel N t = some N') (hN : N.WF) : Fine Q N N' ∧ N'.bad = N.bad := by
  unfold ruleHStep at h
  split at h
  · cases h
  rename_i hl
  split at h
  · rename_i hok
    obtain ⟨p, q, he⟩ := hOk_edge (by simpa using hl) hok
    exact hSearch_good hN fuel _ [t] N' ⟨by simp, fun s hs => by
      rw [List.mem_singleton] at hs; subst hs; unfold setFl; simp, p, q, q, he, rfl⟩ h
  · cases h

theorem hMerge_bad {Q : Nat → Bool} {ltl : Bool} : ∀ (ts : List Nat) (p1 prev : Nat) (N : RNet),
    (hMerge Q ltl p1 prev ts N).1.bad = N.bad := by
  intro ts
  induction ts with
  | nil => intros; rfl
  | cons t ts ih =>
    intro p1 prev N
    unfold hMerge
    simp only
    split
    · exact ih _ _ _
    · split
      · exact ih _ _ _
      · split
        · exact ih _ _ _
        · exact ih _ _ _

theorem hScan_bad {Q : Nat → Bool} {ltl : Bool} {N : RNet} {stack : List Nat} {it : Nat} {N' : RNet} :
    ∀ (nts : List Nat) (fl : Nat → Nat), hScan Q ltl N stack it nts fl = .removed N' → N'.bad = N.bad := by
  intro nts
  induction nts with
  | nil => intro fl h; cases h
  | cons nt nts ih =>
    intro fl h
    unfold hScan at h
    split at h
    · exact ih fl h
    · split at h
      · have hr : (hRemove Q ltl N stack nt).1.bad = N.bad := by
          unfold hRemove
          split
          · rfl
          · exact hMerge_bad _ _ _ _
        generalize hRemove Q ltl N stack nt = r at h hr
        obtain ⟨M, b⟩ := r
        cases b with
        | true => simp only [HOut.removed.injEq] at h; rw [← h]; exact hr
        | false => exact ih fl h
      · split at h
        · split at h
          · cases h
          · exact ih _ h
        · exact ih fl h

theorem hSearch_bad {Q : Nat → Bool} {ltl : Bool} {N N' : RNet} : ∀ (fuel : Nat) (fl : Nat → Nat)
    (stack : List Nat), hSearch Q ltl N fuel fl stack = some N' → N'.bad = N.bad := by
  intro fuel
  induction fuel with
  | zero => intro fl stack h; cases h
  | succ fuel ih =>
    intro fl stack h
    unfold hSearch at h
    split at h
    · cases h
    · split at h
      · rename_i hs
        cases h
        exact hScan_bad _ _ hs
      · exact ih _ _ h
      · exact ih _ _ h

theorem ruleH_good {Q : Nat → Bool} {ltl : Bool} {N : RNet} (lim : Nat) : Good Q N (ruleH Q ltl lim N).1 := by
  refine sweep_good (fun M t M' h => ?_) _ _
  refine Good.of ?_ fun hM => (ruleHStep_good h hM).1
  unfold ruleHStep at h
  split at h
  · cases h
  · split at h
    · exact hSearch_bad _ _ _ h
    · cases h

end Reduce
end Verif
