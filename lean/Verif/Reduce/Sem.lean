import Verif.Reduce.Model
import Verif.Spec.PetriNet
import Mathlib.Logic.Relation

/-!
# What the nets inside the reducer mean, and lemmas about lists of arcs
-/

namespace Verif
namespace Reduce

/-! ### Lists of arcs -/

/-- Sorted by place. -/
def Sorted (l : List Arc) : Prop := l.Pairwise fun a b => a.place < b.place

theorem arcAt_nil (p : Nat) : arcAt [] p = none := rfl

theorem arcAt_cons (a : Arc) (l : List Arc) (p : Nat) :
    arcAt (a :: l) p = if a.place = p then some a else arcAt l p := by
  unfold arcAt
  by_cases h : a.place = p
  · simp [List.find?, h]
  · have : (a.place == p) = false := by simpa using h
    simp [List.find?, this, h]

theorem arcAt_mem {l : List Arc} {p : Nat} {a : Arc} (h : arcAt l p = some a) : a ∈ l ∧ a.place = p := by
  unfold arcAt at h
  exact ⟨List.mem_of_find?_eq_some h, by simpa using List.find?_some h⟩

theorem arcAt_none {l : List Arc} {p : Nat} : arcAt l p = none ↔ ∀ a ∈ l, a.place ≠ p := by
  unfold arcAt
  simp

theorem arcAt_of_mem {l : List Arc} (hs : Sorted l) {a : Arc} (h : a ∈ l) : arcAt l a.place = some a := by
  induction l with
  | nil => cases h
  | cons b l ih =>
    rw [arcAt_cons]
    obtain ⟨h1, h2⟩ := List.pairwise_cons.1 hs
    rcases List.mem_cons.1 h with rfl | h
    · simp
    · have : b.place ≠ a.place := Nat.ne_of_lt (h1 a h)
      rw [if_neg this]
      exact ih h2 h

theorem arcAt_lt {b : Arc} {l : List Arc} (hs : Sorted (b :: l)) {p : Nat} (hp : p ≤ b.place) : arcAt l p = none := by
  rw [arcAt_none]
  intro a ha he
  have := (List.pairwise_cons.1 hs).1 a ha
  omega

theorem wAt_nil (p : Nat) : wAt [] p = 0 := rfl

theorem wAt_cons (a : Arc) (l : List Arc) (p : Nat) :
    wAt (a :: l) p = if a.place = p then a.weight else wAt l p := by
  unfold wAt
  rw [arcAt_cons]
  split <;> rfl

theorem wAt_of_arcAt {l : List Arc} {p : Nat} {a : Arc} (h : arcAt l p = some a) : wAt l p = a.weight := by
  unfold wAt; rw [h]; rfl

theorem wAt_none {l : List Arc} {p : Nat} (h : arcAt l p = none) : wAt l p = 0 := by
  unfold wAt; rw [h]; rfl

theorem wAt_of_mem {l : List Arc} (hs : Sorted l) {a : Arc} (h : a ∈ l) : wAt l a.place = a.weight :=
  wAt_of_arcAt (arcAt_of_mem hs h)

theorem mem_of_wAt_pos {l : List Arc} {p : Nat} (h : 0 < wAt l p) : ∃ a ∈ l, a.place = p ∧ a.weight = wAt l p := by
  cases he : arcAt l p with
  | none => rw [wAt_none he] at h; omega
  | some a =>
    obtain ⟨h1, h2⟩ := arcAt_mem he
    exact ⟨a, h1, h2, (wAt_of_arcAt he).symm⟩

/-- The arc of the place after `addArc`. -/
theorem arcAt_addArc {l : List Arc} (hs : Sorted l) (a : Arc) (p : Nat) :
    arcAt (addArc a l) p =
      if a.place = p then
        some (match arcAt l p with
          | some b => { b with weight := b.weight + a.weight }
          | none => a)
      else arcAt l p := by
  induction l with
  | nil => simp [addArc, arcAt_cons, arcAt_nil]
  | cons b l ih =>
    have hs' := (List.pairwise_cons.1 hs).2
    unfold addArc
    by_cases h1 : b.place < a.place
    · rw [if_pos h1, arcAt_cons, arcAt_cons, ih hs']
      by_cases h2 : b.place = p
      · have : a.place ≠ p := by omega
        simp [h2, this]
      · simp [h2]
    · rw [if_neg h1]
      by_cases h2 : b.place = a.place
      · rw [if_pos h2, arcAt_cons, arcAt_cons]
        by_cases h3 : a.place = p
        · simp [h2, h3]
        · simp [h2, h3]
      · rw [if_neg h2, arcAt_cons, arcAt_cons]
        by_cases h3 : a.place = p
        · have h4 : b.place ≠ p := by omega
          have h5 : arcAt l p = none := arcAt_lt hs (by omega)
          simp [h3, h4, h5]
        · simp [h3]

theorem addArc_place (a : Arc) (l : List Arc) : ∀ b ∈ addArc a l, b.place = a.place ∨ ∃ c ∈ l, c.place = b.place := by
  induction l with
  | nil =>
    intro b hb
    simp only [addArc, List.mem_singleton] at hb
    exact Or.inl (by rw [hb])
  | cons c l ih =>
    intro b hb
    unfold addArc at hb
    split at hb
    · rcases List.mem_cons.1 hb with rfl | hb
      · exact Or.inr ⟨b, by simp, rfl⟩
      · rcases ih b hb with h | ⟨d, hd, he⟩
        · exact Or.inl h
        · exact Or.inr ⟨d, by simp [hd], he⟩
    · split at hb
      · rename_i h
        rcases List.mem_cons.1 hb with rfl | hb
        · exact Or.inl h
        · exact Or.inr ⟨b, by simp [hb], rfl⟩
      · rcases List.mem_cons.1 hb with rfl | hb
        · exact Or.inl rfl
        · exact Or.inr ⟨b, hb, rfl⟩

theorem addArc_sorted {l : List Arc} (hs : Sorted l) (a : Arc) : Sorted (addArc a l) := by
  induction l with
  | nil => simp [addArc, Sorted]
  | cons b l ih =>
    obtain ⟨h1, h2⟩ := List.pairwise_cons.1 hs
    unfold addArc
    by_cases hlt : b.place < a.place
    · rw [if_pos hlt]
      refine List.pairwise_cons.2 ⟨?_, ih h2⟩
      intro c hc
      rcases addArc_place a l c hc with h | ⟨d, hd, he⟩
      · omega
      · have := h1 d hd; omega
    · rw [if_neg hlt]
      by_cases heq : b.place = a.place
      · rw [if_pos heq]
        exact List.pairwise_cons.2 ⟨h1, h2⟩
      · rw [if_neg heq]
        refine List.pairwise_cons.2 ⟨?_, hs⟩
        intro c hc
        rcases List.mem_cons.1 hc with rfl | hc
        · omega
        · have := h1 c hc; omega

theorem wAt_addArc {l : List Arc} (hs : Sorted l) (a : Arc) (p : Nat) :
    wAt (addArc a l) p = wAt l p + if a.place = p then a.weight else 0 := by
  unfold wAt
  rw [arcAt_addArc hs]
  by_cases h : a.place = p
  · rw [if_pos h, if_pos h]
    cases arcAt l p <;> simp
  · rw [if_neg h, if_neg h]; simp

theorem arcAt_dropArc (p : Nat) (l : List Arc) (q : Nat) :
    arcAt (dropArc p l) q = if q = p then none else arcAt l q := by
  induction l with
  | nil => simp [dropArc, arcAt_nil]
  | cons a l ih =>
    unfold dropArc at ih ⊢
    rw [List.filter_cons]
    by_cases h : a.place = p
    · have : (a.place != p) = false := by simp [h]
      rw [this, if_neg (by simp), ih, arcAt_cons]
      by_cases hq : q = p
      · simp [hq]
      · have : a.place ≠ q := by omega
        simp [hq, this]
    · have : (a.place != p) = true := by simp [h]
      rw [this, if_pos rfl, arcAt_cons, arcAt_cons, ih]
      by_cases hq : q = p
      · have : a.place ≠ q := by omega
        simp [hq, h]
      · simp [hq]

theorem wAt_dropArc (p : Nat) (l : List Arc) (q : Nat) : wAt (dropArc p l) q = if q = p then 0 else wAt l q := by
  unfold wAt
  rw [arcAt_dropArc]
  split <;> rfl

theorem mem_dropArc {p : Nat} {l : List Arc} {a : Arc} : a ∈ dropArc p l ↔ a ∈ l ∧ a.place ≠ p := by
  unfold dropArc; simp

theorem dropArc_sorted {l : List Arc} (hs : Sorted l) (p : Nat) : Sorted (dropArc p l) :=
  List.Pairwise.filter _ hs

theorem dropArc_self {p : Nat} {l : List Arc} (h : ∀ a ∈ l, a.place ≠ p) : dropArc p l = l := by
  unfold dropArc
  rw [List.filter_eq_self]
  intro a ha
  simpa using h a ha

/-- The effect of adding a list of arcs (`k` times). -/
theorem foldl_addArc (f : Arc → Arc) (hf : ∀ a, (f a).place = a.place) (post : List Arc) (hp : Sorted post) :
    ∀ l, Sorted l → Sorted (post.foldl (fun l a => addArc (f a) l) l) ∧
      ∀ p, wAt (post.foldl (fun l a => addArc (f a) l) l) p =
        wAt l p + ((arcAt post p).map fun a => (f a).weight).getD 0 := by
  induction post with
  | nil => intro l hl; exact ⟨hl, fun p => by simp [arcAt_nil]⟩
  | cons a post ih =>
    intro l hl
    have hp' := (List.pairwise_cons.1 hp).2
    obtain ⟨h1, h2⟩ := ih hp' (addArc (f a) l) (addArc_sorted hl _)
    refine ⟨h1, fun p => ?_⟩
    rw [List.foldl_cons, h2 p, wAt_addArc hl, hf, arcAt_cons]
    by_cases h : a.place = p
    · have : arcAt post p = none := arcAt_lt hp (by omega)
      simp [h, this]
    · simp [h]

theorem foldl_addArc_mem (f : Arc → Arc) (P : Arc → Prop)
    (hP : ∀ b w, P b → P { b with weight := b.weight + w }) (post : List Arc) (hf : ∀ a ∈ post, P (f a)) :
    ∀ l, (∀ a ∈ l, P a) → ∀ a ∈ post.foldl (fun l a => addArc (f a) l) l, P a := by
  have key : ∀ (a : Arc) (l : List Arc), P a → (∀ b ∈ l, P b) → ∀ b ∈ addArc a l, P b := by
    intro a l ha
    induction l with
    | nil => intro _ b hb; simp only [addArc, List.mem_singleton] at hb; rw [hb]; exact ha
    | cons c l ih =>
      intro hl b hb
      unfold addArc at hb
      split at hb
      · rcases List.mem_cons.1 hb with rfl | hb
        · exact hl _ (by simp)
        · exact ih (fun b hb => hl b (by simp [hb])) b hb
      · split at hb
        · rcases List.mem_cons.1 hb with rfl | hb
          · exact hP _ _ (hl c (by simp))
          · exact hl b (by simp [hb])
        · rcases List.mem_cons.1 hb with rfl | hb
          · exact ha
          · exact hl b hb
  induction post with
  | nil => intro l hl; exact hl
  | cons a post ih =>
    intro l hl
    rw [List.foldl_cons]
    exact ih (fun b hb => hf b (by simp [hb])) _ (key _ _ (hf a (by simp)) hl)

/-! ### Two lists side by side -/

/-- What the list of pairs contains. -/
theorem mergeArcs_mem {pre : List Arc} (hpre : Sorted pre) : ∀ {post : List Arc}, Sorted post →
    (∀ x ∈ mergeArcs pre post, ∃ p, x = (arcAt pre p, arcAt post p) ∧ x ≠ (none, none)) ∧
    (∀ p, (arcAt pre p, arcAt post p) ≠ (none, none) → (arcAt pre p, arcAt post p) ∈ mergeArcs pre post) := by
  induction pre with
  | nil =>
    intro post hpost
    constructor
    · intro x hx
      obtain ⟨b, hb, rfl⟩ := List.mem_map.1 hx
      exact ⟨b.place, by rw [arcAt_nil, arcAt_of_mem hpost hb], by simp⟩
    · intro p hp
      rw [arcAt_nil] at hp ⊢
      cases he : arcAt post p with
      | none => rw [he] at hp; exact absurd rfl hp
      | some b => exact List.mem_map.2 ⟨b, (arcAt_mem he).1, rfl⟩
  | cons a pre ih =>
    intro post
    have hpre' := (List.pairwise_cons.1 hpre).2
    induction post with
    | nil =>
      intro hpost
      obtain ⟨i1, i2⟩ := ih hpre' (post := []) hpost
      constructor
      · intro x hx
        change x ∈ (some a, none) :: mergeArcs pre [] at hx
        rcases List.mem_cons.1 hx with rfl | hx
        · exact ⟨a.place, by simp [arcAt_cons, arcAt_nil], by simp⟩
        · obtain ⟨p, h1, h2⟩ := i1 x hx
          refine ⟨p, ?_, h2⟩
          rw [h1, arcAt_cons]
          have : a.place ≠ p := by
            rintro rfl
            rw [arcAt_lt hpre (Nat.le_refl _), arcAt_nil] at h1
            exact h2 h1
          rw [if_neg this]
      · intro p hp
        change _ ∈ (some a, none) :: mergeArcs pre []
        rw [arcAt_cons] at hp ⊢
        by_cases h : a.place = p
        · rw [if_pos h, arcAt_nil]; simp
        · rw [if_neg h] at hp ⊢
          exact List.mem_cons_of_mem _ (i2 p hp)
    | cons b post ihp =>
      intro hpost
      have hpost' := (List.pairwise_cons.1 hpost).2
      have hdef : mergeArcs (a :: pre) (b :: post) =
          if a.place < b.place then (some a, none) :: mergeArcs pre (b :: post)
          else if b.place < a.place then (none, some b) :: mergeArcs (a :: pre) post
          else (some a, some b) :: mergeArcs pre post := rfl
      by_cases h1 : a.place < b.place
      · rw [hdef, if_pos h1]
        obtain ⟨i1, i2⟩ := ih hpre' (post := b :: post) hpost
        constructor
        · intro x hx
          rcases List.mem_cons.1 hx with rfl | hx
          · refine ⟨a.place, ?_, by simp⟩
            rw [arcAt_cons, if_pos rfl, arcAt_cons, if_neg (by omega), arcAt_lt hpost (by omega)]
          · obtain ⟨p, h2, h3⟩ := i1 x hx
            refine ⟨p, ?_, h3⟩
            rw [h2]
            have : a.place ≠ p := by
              rintro rfl
              rw [arcAt_lt hpre (Nat.le_refl _), arcAt_cons, if_neg (by omega), arcAt_lt hpost (by omega)] at h2
              exact h3 h2
            rw [arcAt_cons a, if_neg this]
        · intro p hp
          by_cases h : a.place = p
          · have e2 : arcAt (b :: post) p = none := by
              rw [arcAt_cons, if_neg (by omega), arcAt_lt hpost (by omega)]
            rw [e2, arcAt_cons, if_pos h]; simp
          · rw [arcAt_cons (a := a), if_neg h] at hp ⊢
            exact List.mem_cons_of_mem _ (i2 p hp)
      · rw [hdef, if_neg h1]
        by_cases h2 : b.place < a.place
        · rw [if_pos h2]
          obtain ⟨i1, i2⟩ := ihp hpost'
          constructor
          · intro x hx
            rcases List.mem_cons.1 hx with rfl | hx
            · refine ⟨b.place, ?_, by simp⟩
              rw [arcAt_cons, if_neg (by omega), arcAt_lt hpre (by omega), arcAt_cons, if_pos rfl]
            · obtain ⟨p, h3, h4⟩ := i1 x hx
              refine ⟨p, ?_, h4⟩
              rw [h3]
              have : b.place ≠ p := by
                rintro rfl
                rw [arcAt_lt hpost (Nat.le_refl _), arcAt_cons, if_neg (by omega), arcAt_lt hpre (by omega)] at h3
                exact h4 h3
              rw [arcAt_cons b, if_neg this]
          · intro p hp
            by_cases h : b.place = p
            · have e2 : arcAt (a :: pre) p = none := by
                rw [arcAt_cons, if_neg (by omega), arcAt_lt hpre (by omega)]
              rw [e2, arcAt_cons, if_pos h]; simp
            · rw [arcAt_cons b, if_neg h] at hp ⊢
              exact List.mem_cons_of_mem _ (i2 p hp)
        · rw [if_neg h2]
          have heq : a.place = b.place := by omega
          obtain ⟨i1, i2⟩ := ih hpre' (post := post) hpost'
          constructor
          · intro x hx
            rcases List.mem_cons.1 hx with rfl | hx
            · refine ⟨a.place, ?_, by simp⟩
              rw [arcAt_cons, if_pos rfl, arcAt_cons, if_pos heq.symm]
            · obtain ⟨p, h3, h4⟩ := i1 x hx
              refine ⟨p, ?_, h4⟩
              rw [h3]
              have : a.place ≠ p := by
                rintro rfl
                rw [arcAt_lt hpre (Nat.le_refl _), arcAt_lt hpost (by omega)] at h3
                exact h4 h3
              rw [arcAt_cons a, if_neg this, arcAt_cons b, if_neg (by omega)]
          · intro p hp
            by_cases h : a.place = p
            · rw [arcAt_cons, if_pos h, arcAt_cons, if_pos (by omega)]; simp
            · rw [arcAt_cons a, if_neg h, arcAt_cons b, if_neg (by omega)] at hp ⊢
              exact List.mem_cons_of_mem _ (i2 p hp)

/-! ### Meaning -/

/-- The tokens a transition consumes. -/
def RTr.I (x : RTr) (p : Nat) : Nat :=
  match arcAt x.pre p with
  | some a => if a.inhib then 0 else a.weight
  | none => 0

/-- The tokens a transition produces. -/
def RTr.O (x : RTr) (p : Nat) : Nat := wAt x.post p

/-- No inhibitor arc stops the transition. -/
def RTr.NoInh (x : RTr) (m : Nat → Nat) : Prop := ∀ a ∈ x.pre, a.inhib = true → m a.place < a.weight

/-- The transition is there and enabled. -/
def RTr.En (x : RTr) (m : Nat → Nat) : Prop := x.skip = false ∧ (∀ p, x.I p ≤ m p) ∧ x.NoInh m

def RTr.fire (x : RTr) (m : Nat → Nat) : Nat → Nat := fun p => m p - x.I p + x.O p

/-- One firing in a net inside the reducer. -/
def RNet.Step (N : RNet) (m m' : Nat → Nat) : Prop := ∃ t, (N.tr t).En m ∧ m' = (N.tr t).fire m

def RNet.Reach (N : RNet) : (Nat → Nat) → (Nat → Nat) → Prop := Relation.ReflTransGen N.Step

/-- The reachable markings of the net, as the query sees them, are the same. -/
def Same (Q : Nat → Bool) (N N' : RNet) : Prop :=
  (∀ m, N.Reach N.init m → ∃ m', N'.Reach N'.init m' ∧ ∀ p, Q p = true → m' p = m p) ∧
  (∀ m', N'.Reach N'.init m' → ∃ m, N.Reach N.init m ∧ ∀ p, Q p = true → m p = m' p)

theorem Same.refl (Q : Nat → Bool) (N : RNet) : Same Q N N :=
  ⟨fun m h => ⟨m, h, fun _ _ => rfl⟩, fun m h => ⟨m, h, fun _ _ => rfl⟩⟩

theorem Same.trans {Q : Nat → Bool} {N N' N'' : RNet} (h : Same Q N N') (h' : Same Q N' N'') : Same Q N N'' := by
  constructor
  · intro m hm
    obtain ⟨m', h1, h2⟩ := h.1 m hm
    obtain ⟨m'', h3, h4⟩ := h'.1 m' h1
    exact ⟨m'', h3, fun p hp => (h4 p hp).trans (h2 p hp)⟩
  · intro m hm
    obtain ⟨m', h1, h2⟩ := h'.2 m hm
    obtain ⟨m'', h3, h4⟩ := h.2 m' h1
    exact ⟨m'', h3, fun p hp => (h4 p hp).trans (h2 p hp)⟩

/-- What the code maintains about one transition. -/
structure RTr.WF (okP : Nat → Prop) (pinhib : Nat → Bool) (x : RTr) : Prop where
  preS : Sorted x.pre
  postS : Sorted x.post
  preW : ∀ a ∈ x.pre, 0 < a.weight
  postW : ∀ a ∈ x.post, 0 < a.weight
  postI : ∀ a ∈ x.post, a.inhib = false
  preP : ∀ a ∈ x.pre, okP a.place
  postP : ∀ a ∈ x.post, okP a.place
  empty : x.skip = true → x.pre = [] ∧ x.post = []
  inhT : ∀ a ∈ x.pre, a.inhib = true → x.inhib = true
  inhP : ∀ a ∈ x.pre, a.inhib = true → pinhib a.place = true

/-- The places that are still there. -/
def RNet.okP (N : RNet) (p : Nat) : Prop := p < N.np ∧ N.pskip p = false

/-- What the code maintains about the net. -/
structure RNet.WF (N : RNet) : Prop where
  tr : ∀ t, (N.tr t).WF N.okP N.pinhib
  out : ∀ t, N.nt ≤ t → (N.tr t).skip = true
  sk : ∀ t ∈ N.skipped, (N.tr t).skip = true ∧ t < N.nt
  nd : N.skipped.Nodup

theorem RTr.I_mem {x : RTr} {p : Nat} (h : 0 < x.I p) :
    ∃ a ∈ x.pre, a.place = p ∧ a.inhib = false ∧ a.weight = x.I p := by
  unfold RTr.I at h ⊢
  cases he : arcAt x.pre p with
  | none => rw [he] at h; simp at h
  | some a =>
    rw [he] at h
    obtain ⟨h1, h2⟩ := arcAt_mem he
    cases hi : a.inhib with
    | true => simp [hi] at h
    | false => exact ⟨a, h1, h2, hi, by simp [hi]⟩

theorem RTr.I_none {x : RTr} {p : Nat} (h : arcAt x.pre p = none) : x.I p = 0 := by
  unfold RTr.I; rw [h]

theorem RTr.I_of_mem {x : RTr} (hs : Sorted x.pre) {a : Arc} (ha : a ∈ x.pre) (hi : a.inhib = false) :
    x.I a.place = a.weight := by
  unfold RTr.I; rw [arcAt_of_mem hs ha]; simp [hi]

theorem RTr.I_inh {x : RTr} (hs : Sorted x.pre) {a : Arc} (ha : a ∈ x.pre) (hi : a.inhib = true) :
    x.I a.place = 0 := by
  unfold RTr.I; rw [arcAt_of_mem hs ha]; simp [hi]

theorem RTr.I_le_wAt (x : RTr) (p : Nat) : x.I p ≤ wAt x.pre p := by
  unfold RTr.I wAt
  cases arcAt x.pre p with
  | none => simp
  | some a => cases h : a.inhib <;> simp [h]

/-- Without inhibitor arcs. -/
theorem RTr.I_eq_wAt {x : RTr} (h : ∀ a ∈ x.pre, a.inhib = false) (p : Nat) : x.I p = wAt x.pre p := by
  unfold RTr.I wAt
  cases he : arcAt x.pre p with
  | none => rfl
  | some a => simp [h a (arcAt_mem he).1]

theorem RTr.WF.noInh {okP : Nat → Prop} {pinhib : Nat → Bool} {x : RTr} (h : x.WF okP pinhib) (hi : x.inhib = false) :
    ∀ a ∈ x.pre, a.inhib = false := by
  intro a ha
  cases he : a.inhib with
  | false => rfl
  | true => rw [h.inhT a ha he] at hi; cases hi

/-- Agreement on the places with inhibitor arcs. -/
theorem RTr.WF.noInh_congr {okP : Nat → Prop} {pinhib : Nat → Bool} {x : RTr} (h : x.WF okP pinhib) {m m' : Nat → Nat}
    (he : ∀ p, pinhib p = true → m' p = m p) (hm : x.NoInh m) : x.NoInh m' := by
  intro a ha hi
  rw [he _ (h.inhP a ha hi)]
  exact hm a ha hi

theorem RNet.Step.of {N : RNet} {t : Nat} {m m' : Nat → Nat} (h : (N.tr t).En m) (he : m' = (N.tr t).fire m) :
    N.Step m m' := ⟨t, h, he⟩

theorem RTr.En.lt {N : RNet} (hN : N.WF) {t : Nat} {m : Nat → Nat} (h : (N.tr t).En m) : t < N.nt := by
  refine Nat.lt_of_not_le fun hc => ?_
  have := hN.out t hc
  rw [h.1] at this; cases this

/-- Forward simulation. -/
theorem reach_sim {N N' : RNet} (R : (Nat → Nat) → (Nat → Nat) → Prop) {m0 m0' : Nat → Nat} (h0 : R m0 m0')
    (hs : ∀ m m' m1, R m m' → N.Step m m1 → ∃ m1', N'.Reach m' m1' ∧ R m1 m1') :
    ∀ m, N.Reach m0 m → ∃ m', N'.Reach m0' m' ∧ R m m' := by
  intro m h
  induction h with
  | refl => exact ⟨m0', .refl, h0⟩
  | tail _ hst ih =>
    obtain ⟨m', h1, h2⟩ := ih
    obtain ⟨m1', h3, h4⟩ := hs _ _ _ h2 hst
    exact ⟨m1', h1.trans h3, h4⟩

/-- Two simulations. -/
theorem Same.of_sims {Q : Nat → Bool} {N N' : RNet} (R R' : (Nat → Nat) → (Nat → Nat) → Prop)
    (h0 : ∃ m0', N'.Reach N'.init m0' ∧ R N.init m0') (h0' : ∃ m0, N.Reach N.init m0 ∧ R' N'.init m0)
    (hs : ∀ m m' m1, R m m' → N.Step m m1 → ∃ m1', N'.Reach m' m1' ∧ R m1 m1')
    (hs' : ∀ m' m m1', R' m' m → N'.Step m' m1' → ∃ m1, N.Reach m m1 ∧ R' m1' m1)
    (hQ : ∀ m m', R m m' → ∀ p, Q p = true → m' p = m p)
    (hQ' : ∀ m' m, R' m' m → ∀ p, Q p = true → m p = m' p) : Same Q N N' := by
  obtain ⟨a', ha1, ha2⟩ := h0
  obtain ⟨a, hb1, hb2⟩ := h0'
  constructor
  · intro m hm
    obtain ⟨m', h1, h2⟩ := reach_sim R ha2 hs m hm
    exact ⟨m', ha1.trans h1, hQ m m' h2⟩
  · intro m hm
    obtain ⟨m', h1, h2⟩ := reach_sim R' hb2 hs' m hm
    exact ⟨m', hb1.trans h1, hQ' m m' h2⟩

/-- As `x` in the markings with `Inv`, for the places `K`. -/
def TrSim (Inv : (Nat → Nat) → Prop) (K : Nat → Prop) (x x' : RTr) : Prop :=
  ∀ m m', Inv m → (∀ p, K p → m' p = m p) →
    (x'.En m' ↔ x.En m) ∧ (x.En m → ∀ p, K p → x'.fire m' p = x.fire m p)

theorem TrSim.refl_of {Inv : (Nat → Nat) → Prop} {K : Nat → Prop} {x : RTr}
    (hI : ∀ a ∈ x.pre, K a.place) : TrSim Inv K x x := by
  intro m m' _ hK
  have hle : ∀ n n' : Nat → Nat, (∀ p, K p → n' p = n p) → (∀ p, x.I p ≤ n p) → ∀ p, x.I p ≤ n' p := by
    intro n n' he h p
    by_cases hp : x.I p = 0
    · omega
    · obtain ⟨a, ha, hap, _, _⟩ := RTr.I_mem (x := x) (p := p) (by omega)
      rw [he p (hap ▸ hI a ha)]; exact h p
  have hno : ∀ n n' : Nat → Nat, (∀ p, K p → n' p = n p) → x.NoInh n → x.NoInh n' := by
    intro n n' he h a ha hi
    rw [he _ (hI a ha)]; exact h a ha hi
  refine ⟨⟨fun h => ⟨h.1, hle _ _ (fun p hp => (hK p hp).symm) h.2.1, hno _ _ (fun p hp => (hK p hp).symm) h.2.2⟩,
    fun h => ⟨h.1, hle _ _ hK h.2.1, hno _ _ hK h.2.2⟩⟩, fun _ p hp => ?_⟩
  unfold RTr.fire
  rw [hK p hp]

theorem TrSim.trans {Inv : (Nat → Nat) → Prop} {K K' : Nat → Prop} {x x' x'' : RTr}
    (h : TrSim Inv K x x') (hKK : ∀ p, K' p → K p) (h' : TrSim Inv K' x' x'') : TrSim Inv K' x x'' := by
  intro m m' hm hK
  obtain ⟨a1, a2⟩ := h m m hm (fun _ _ => rfl)
  obtain ⟨b1, b2⟩ := h' m m' hm hK
  refine ⟨b1.trans a1, fun hen p hp => ?_⟩
  rw [b2 (a1.2 hen) p hp, a2 hen p (hKK p hp)]

/-- The net with transitions that behave alike in the markings with the invariant. -/
theorem Same.of_trSim {Q : Nat → Bool} {N N' : RNet} (Inv : (Nat → Nat) → Prop) (K : Nat → Prop)
    (hQ : ∀ p, Q p = true → K p) (hinit : ∀ p, K p → N'.init p = N.init p) (h0 : Inv N.init)
    (hstep : ∀ m t, Inv m → (N.tr t).En m → Inv ((N.tr t).fire m))
    (htr : ∀ t, TrSim Inv K (N.tr t) (N'.tr t)) : Same Q N N' := by
  refine Same.of_sims (fun m m' => Inv m ∧ ∀ p, K p → m' p = m p) (fun m' m => Inv m ∧ ∀ p, K p → m' p = m p)
    ⟨N'.init, .refl, h0, hinit⟩ ⟨N.init, .refl, h0, hinit⟩ ?_ ?_ ?_ ?_
  · rintro m m' m1 ⟨h1, h2⟩ ⟨t, ht, rfl⟩
    obtain ⟨a, b⟩ := htr t m m' h1 h2
    exact ⟨(N'.tr t).fire m', .single ⟨t, a.2 ht, rfl⟩, hstep m t h1 ht, fun p hp => b ht p hp⟩
  · rintro m' m m1' ⟨h1, h2⟩ ⟨t, ht, rfl⟩
    obtain ⟨a, b⟩ := htr t m m' h1 h2
    have ht' := a.1 ht
    exact ⟨(N.tr t).fire m, .single ⟨t, ht', rfl⟩, hstep m t h1 ht', fun p hp => b ht' p hp⟩
  · rintro m m' ⟨_, h2⟩ p hp
    exact h2 p (hQ p hp)
  · rintro m m' ⟨_, h2⟩ p hp
    exact (h2 p (hQ p hp)).symm

end Reduce
end Verif
