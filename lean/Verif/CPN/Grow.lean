import Verif.CPN.BindingLemmas
import Verif.CPN.Names

/-!
# What the unfolder tells the builder
-/

namespace Verif
namespace CPN

open Builder (Op specPre specPost specInh specInit)

/-! ### Histories of calls -/

theorem specPre_append (a b : List Op) (t p : String) : specPre (a ++ b) t p = specPre a t p + specPre b t p := by
  unfold specPre; rw [List.map_append, List.sum_append]

theorem specPost_append (a b : List Op) (t p : String) : specPost (a ++ b) t p = specPost a t p + specPost b t p := by
  unfold specPost; rw [List.map_append, List.sum_append]

theorem specPre_ne {ops : List Op} {t p : String} (h : specPre ops t p ≠ 0) : ∃ k, Op.input p t false k ∈ ops := by
  induction ops with
  | nil => exact absurd rfl h
  | cons o ops ih =>
    have hs : specPre (o :: ops) t p = specPre [o] t p + specPre ops t p := specPre_append [o] ops t p
    by_cases h0 : specPre ops t p = 0
    · have h1 : specPre [o] t p ≠ 0 := by omega
      cases o with
      | input q u i k =>
        cases i with
        | true => exact absurd rfl h1
        | false =>
          simp only [specPre, List.map_cons, List.map_nil, List.sum_cons, List.sum_nil] at h1
          by_cases hc : q = p ∧ u = t
          · obtain ⟨rfl, rfl⟩ := hc
            exact ⟨k, List.mem_cons_self⟩
          · rw [if_neg hc] at h1; exact absurd rfl h1
      | place => exact absurd rfl h1
      | trans => exact absurd rfl h1
      | output => exact absurd rfl h1
    · obtain ⟨k, hk⟩ := ih h0
      exact ⟨k, List.mem_cons_of_mem _ hk⟩

theorem specPost_ne {ops : List Op} {t p : String} (h : specPost ops t p ≠ 0) : ∃ k, Op.output t p k ∈ ops := by
  induction ops with
  | nil => exact absurd rfl h
  | cons o ops ih =>
    have hs : specPost (o :: ops) t p = specPost [o] t p + specPost ops t p := specPost_append [o] ops t p
    by_cases h0 : specPost ops t p = 0
    · have h1 : specPost [o] t p ≠ 0 := by omega
      cases o with
      | output u q k =>
        simp only [specPost, List.map_cons, List.map_nil, List.sum_cons, List.sum_nil] at h1
        by_cases hc : q = p ∧ u = t
        · obtain ⟨rfl, rfl⟩ := hc
          exact ⟨k, List.mem_cons_self⟩
        · rw [if_neg hc] at h1; exact absurd rfl h1
      | place => exact absurd rfl h1
      | trans => exact absurd rfl h1
      | input => exact absurd rfl h1
    · obtain ⟨k, hk⟩ := ih h0
      exact ⟨k, List.mem_cons_of_mem _ hk⟩

def inhStep (t p : String) (acc : Option Nat) (o : Op) : Option Nat :=
  match o with
  | .input p' t' true k => if p' = p ∧ t' = t then
        (match acc with | some j => some (min j k) | none => some k) else acc
  | _ => acc

theorem specInh_fold (ops : List Op) (t p : String) : specInh ops t p = ops.foldl (inhStep t p) none := rfl

theorem inh_fold (ops : List Op) (t p : String) (x : Nat) (acc : Option Nat) :
    (∀ w, ops.foldl (inhStep t p) acc = some w → x < w) ↔
      (∀ w, acc = some w → x < w) ∧ ∀ k, Op.input p t true k ∈ ops → x < k := by
  induction ops generalizing acc with
  | nil => simp
  | cons o ops ih =>
    rw [List.foldl_cons, ih]
    have key : (∀ w, inhStep t p acc o = some w → x < w) ↔ (∀ w, acc = some w → x < w) ∧ ∀ k, o = Op.input p t true k → x < k := by
      cases o with
      | input q u i k =>
        cases i with
        | false => simp [inhStep]
        | true =>
          unfold inhStep
          simp only
          by_cases hc : q = p ∧ u = t
          · obtain ⟨rfl, rfl⟩ := hc
            rw [if_pos ⟨rfl, rfl⟩]
            cases acc with
            | none => simp
            | some j => simp only [Option.some.injEq, forall_eq', Op.input.injEq, true_and]; omega
          · rw [if_neg hc]
            constructor
            · intro h
              refine ⟨h, fun k' hk => ?_⟩
              cases hk
              exact absurd ⟨rfl, rfl⟩ hc
            · exact fun h => h.1
      | place => simp [inhStep]
      | trans => simp [inhStep]
      | output => simp [inhStep]
    rw [key]
    constructor
    · rintro ⟨⟨h1, h2⟩, h3⟩
      refine ⟨h1, fun k hk => ?_⟩
      rcases List.mem_cons.1 hk with hk | hk
      · exact h2 k hk.symm
      · exact h3 k hk
    · rintro ⟨h1, h2⟩
      exact ⟨⟨h1, fun k hk => h2 k (by rw [hk]; exact List.mem_cons_self)⟩, fun k hk => h2 k (List.mem_cons_of_mem _ hk)⟩

theorem specInh_iff (ops : List Op) (t p : String) (x : Nat) :
    (∀ w, specInh ops t p = some w → x < w) ↔ ∀ k, Op.input p t true k ∈ ops → x < k := by
  rw [specInh_fold, inh_fold]; simp

def initStep (p : String) (acc : Nat) (o : Op) : Nat :=
  match o with
  | .place p' k => if p' = p then k else acc
  | _ => acc

theorem specInit_fold (ops : List Op) (p : String) : specInit ops p = ops.foldl (initStep p) 0 := rfl

theorem init_fold (ops : List Op) (p : String) (c acc : Nat) (h : ∀ k, Op.place p k ∈ ops → k = c)
    (he : acc = c ∨ ∃ k, Op.place p k ∈ ops) : ops.foldl (initStep p) acc = c := by
  induction ops generalizing acc with
  | nil =>
    rcases he with rfl | ⟨k, hk⟩
    · rfl
    · cases hk
  | cons o ops ih =>
    rw [List.foldl_cons]
    apply ih
    · exact fun k hk => h k (List.mem_cons_of_mem _ hk)
    · by_cases ho : ∃ k, o = Op.place p k
      · obtain ⟨k, rfl⟩ := ho
        left
        unfold initStep
        simp only [if_true]
        exact h k List.mem_cons_self
      · have hs : initStep p acc o = acc := by
          cases o with
          | place q k =>
            unfold initStep
            simp only
            rw [if_neg]
            rintro rfl
            exact ho ⟨k, rfl⟩
          | trans => rfl
          | input => rfl
          | output => rfl
        rw [hs]
        rcases he with he | ⟨k, hk⟩
        · exact Or.inl he
        · rcases List.mem_cons.1 hk with hk | hk
          · exact absurd ⟨k, hk.symm⟩ ho
          · exact Or.inr ⟨k, hk⟩

theorem specInit_of {ops : List Op} {p : String} {c : Nat} (h : ∀ k, Op.place p k ∈ ops → k = c)
    (he : ∃ k, Op.place p k ∈ ops) : specInit ops p = c := by
  rw [specInit_fold]
  exact init_fold ops p c 0 h (Or.inr he)

/-! ### The state of the unfolder -/

/-- the place of the colour exists -/
def U.Made (N : CNet) (s : U) (p i : Nat) : Prop := (p, i, cname (N.place p).name i) ∈ s.names

/-- `n` is the name of the place of a colour, or of a sum -/
def U.Named (N : CNet) (s : U) (n : String) : Prop :=
  (∃ p i, s.Made N p i ∧ n = cname (N.place p).name i) ∨ ∃ p ∈ s.sums, n = sumName (N.place p).name

structure U.Inv (N : CNet) (s : U) : Prop where
  names : ∀ p k n, (p, k, n) ∈ s.names → p < N.places.length ∧
    ((n = cname (N.place p).name k ∧ k < N.types.size (N.place p).ty) ∨
      (n = sumName (N.place p).name ∧ k = N.types.size (N.place p).ty ∧ p ∈ s.sums))
  keys : (s.names.map fun q => (q.1, q.2.1)).Nodup
  sums : ∀ p ∈ s.sums, p < N.places.length ∧ N.inhibited p = true
  place : ∀ n k, Op.place n k ∈ s.ops →
    (∃ p i, s.Made N p i ∧ n = cname (N.place p).name i ∧ k = (N.place p).ms.get ⟨(N.place p).ty, i⟩) ∨
    (∃ p ∈ s.sums, n = sumName (N.place p).name ∧ k = (N.place p).tokens % W32)
  made : ∀ p i, s.Made N p i → ∃ k, Op.place (cname (N.place p).name i) k ∈ s.ops
  summed : ∀ p ∈ s.sums, ∃ k, Op.place (sumName (N.place p).name) k ∈ s.ops
  input : ∀ n t i k, Op.input n t i k ∈ s.ops → s.Named N n
  output : ∀ t n k, Op.output t n k ∈ s.ops → s.Named N n
  weight : (∀ n t i k, Op.input n t i k ∈ s.ops → 0 < k ∧ k < W32) ∧ ∀ t n k, Op.output t n k ∈ s.ops → 0 < k ∧ k < W32

/-- more names -/
structure U.Le (s s' : U) : Prop where
  names : ∀ q ∈ s.names, q ∈ s'.names
  sums : ∀ p ∈ s.sums, p ∈ s'.sums

theorem U.Le.refl (s : U) : s.Le s := ⟨fun _ h => h, fun _ h => h⟩
theorem U.Le.trans {s t u : U} (h : s.Le t) (h' : t.Le u) : s.Le u :=
  ⟨fun q hq => h'.names q (h.names q hq), fun p hp => h'.sums p (h.sums p hp)⟩
theorem U.Le.made {N : CNet} {s s' : U} (h : s.Le s') {p i : Nat} (hm : s.Made N p i) : s'.Made N p i := h.names _ hm
theorem U.Le.named {N : CNet} {s s' : U} (h : s.Le s') {n : String} (hm : s.Named N n) : s'.Named N n := by
  rcases hm with ⟨p, i, h1, h2⟩ | ⟨p, h1, h2⟩
  · exact Or.inl ⟨p, i, h.made h1, h2⟩
  · exact Or.inr ⟨p, h.sums p h1, h2⟩

/-- a call that adds an arc between named things -/
theorem U.Inv.addOp {N : CNet} {s : U} (h : s.Inv N) (o : Op) (ho : ∀ n k, o ≠ .place n k)
    (hi : ∀ n t i k, o = .input n t i k → s.Named N n ∧ 0 < k ∧ k < W32) (hp : ∀ t n k, o = .output t n k → s.Named N n ∧ 0 < k ∧ k < W32) :
    U.Inv N { s with ops := s.ops ++ [o] } where
  names := h.names
  keys := h.keys
  sums := h.sums
  place := by
    intro n k hm
    rcases List.mem_append.1 hm with hm | hm
    · exact h.place n k hm
    · exact absurd (List.mem_singleton.1 hm).symm (ho n k)
  made := by
    intro p i hm
    obtain ⟨k, hk⟩ := h.made p i hm
    exact ⟨k, List.mem_append_left _ hk⟩
  summed := by
    intro p hm
    obtain ⟨k, hk⟩ := h.summed p hm
    exact ⟨k, List.mem_append_left _ hk⟩
  input := by
    intro n t i k hm
    rcases List.mem_append.1 hm with hm | hm
    · exact h.input n t i k hm
    · exact (hi n t i k (List.mem_singleton.1 hm).symm).1
  output := by
    intro t n k hm
    rcases List.mem_append.1 hm with hm | hm
    · exact h.output t n k hm
    · exact (hp t n k (List.mem_singleton.1 hm).symm).1
  weight := by
    refine ⟨fun n t i k hm => ?_, fun t n k hm => ?_⟩
    · rcases List.mem_append.1 hm with hm | hm
      · exact h.weight.1 n t i k hm
      · exact (hi n t i k (List.mem_singleton.1 hm).symm).2
    · rcases List.mem_append.1 hm with hm | hm
      · exact h.weight.2 t n k hm
      · exact (hp t n k (List.mem_singleton.1 hm).symm).2

/-- a step of the unfolder that adds arcs to `tn` only -/
structure U.Step (N : CNet) (s s' : U) (pre post : String → String → Nat) (inh : String → String → Nat → Prop) (tr : String → Prop) : Prop where
  pre_eq : ∀ t q, specPre s'.ops t q = specPre s.ops t q + pre t q
  post_eq : ∀ t q, specPost s'.ops t q = specPost s.ops t q + post t q
  inh_eq : ∀ t q k, Op.input q t true k ∈ s'.ops ↔ Op.input q t true k ∈ s.ops ∨ inh t q k
  trans_eq : ∀ n pl, Op.trans n pl ∈ s'.ops ↔ Op.trans n pl ∈ s.ops ∨ (pl = 0 ∧ tr n)
  le : s.Le s'
  inv : s.Inv N → s'.Inv N

abbrev no2 : String → String → Nat := fun _ _ => 0
abbrev no3 : String → String → Nat → Prop := fun _ _ _ => False
abbrev no1 : String → Prop := fun _ => False

theorem U.Step.refl (N : CNet) (s : U) : U.Step N s s no2 no2 no3 no1 :=
  ⟨fun _ _ => rfl, fun _ _ => rfl, fun _ _ _ => by simp, fun _ _ => by simp, .refl s, id⟩

theorem U.Step.trans {N : CNet} {s s' s'' : U} {a a' b b' : String → String → Nat} {c c' : String → String → Nat → Prop}
    {d d' : String → Prop} (h : U.Step N s s' a b c d) (h' : U.Step N s' s'' a' b' c' d') :
    U.Step N s s'' (fun t q => a t q + a' t q) (fun t q => b t q + b' t q) (fun t q k => c t q k ∨ c' t q k)
      (fun n => d n ∨ d' n) where
  pre_eq t q := by rw [h'.pre_eq, h.pre_eq, Nat.add_assoc]
  post_eq t q := by rw [h'.post_eq, h.post_eq, Nat.add_assoc]
  inh_eq t q k := by rw [h'.inh_eq, h.inh_eq, or_assoc]
  trans_eq n pl := by
    rw [h'.trans_eq, h.trans_eq]
    constructor
    · rintro ((h | h) | h)
      · exact Or.inl h
      · exact Or.inr ⟨h.1, Or.inl h.2⟩
      · exact Or.inr ⟨h.1, Or.inr h.2⟩
    · rintro (h | ⟨h, h1 | h1⟩)
      · exact Or.inl (Or.inl h)
      · exact Or.inl (Or.inr ⟨h, h1⟩)
      · exact Or.inr ⟨h, h1⟩
  le := h.le.trans h'.le
  inv hi := h'.inv (h.inv hi)

theorem U.Step.congr {N : CNet} {s s' : U} {a a' b b' : String → String → Nat} {c c' : String → String → Nat → Prop}
    {d d' : String → Prop} (h : U.Step N s s' a b c d) (ha : ∀ t q, a t q = a' t q) (hb : ∀ t q, b t q = b' t q)
    (hc : ∀ t q k, c t q k ↔ c' t q k) (hd : ∀ n, d n ↔ d' n) : U.Step N s s' a' b' c' d' where
  pre_eq t q := by rw [h.pre_eq, ha]
  post_eq t q := by rw [h.post_eq, hb]
  inh_eq t q k := by rw [h.inh_eq, hc]
  trans_eq n pl := by rw [h.trans_eq, hd]
  le := h.le
  inv := h.inv

/-- declaring a place changes no arcs -/
theorem step_place {N : CNet} (s : U) (n : String) (k : Nat) (names : List (Nat × Nat × String)) (sums : List Nat)
    (h1 : ∀ q ∈ s.names, q ∈ names) (h2 : ∀ p ∈ s.sums, p ∈ sums)
    (hinv : s.Inv N → U.Inv N ⟨s.ops ++ [.place n k], names, sums⟩) :
    U.Step N s ⟨s.ops ++ [.place n k], names, sums⟩ no2 no2 no3 no1 where
  pre_eq t q := by rw [specPre_append]; rfl
  post_eq t q := by rw [specPost_append]; rfl
  inh_eq t q k := by simp
  trans_eq n pl := by simp
  le := ⟨h1, h2⟩
  inv := hinv

theorem has_iff {s : U} {p k : Nat} : s.has p k = true ↔ (p, k) ∈ s.names.map fun q => (q.1, q.2.1) := by
  unfold U.has
  rw [List.any_eq_true, List.mem_map]
  constructor
  · rintro ⟨q, h1, h2⟩
    rw [Bool.and_eq_true, beq_iff_eq, beq_iff_eq] at h2
    exact ⟨q, h1, by rw [h2.1, h2.2]⟩
  · rintro ⟨q, h1, h2⟩
    cases h2
    exact ⟨q, h1, by simp⟩

theorem made_of_has {N : CNet} {s : U} (hi : s.Inv N) {p k : Nat} (h : s.has p k = true) (hk : k < N.types.size (N.place p).ty) :
    s.Made N p k := by
  rw [has_iff, List.mem_map] at h
  obtain ⟨⟨p', k', n⟩, h1, h2⟩ := h
  simp only [Prod.mk.injEq] at h2
  obtain ⟨rfl, rfl⟩ := h2
  rcases (hi.names _ _ _ h1).2 with ⟨h3, _⟩ | ⟨_, h3, _⟩
  · rw [h3] at h1; exact h1
  · omega

theorem step_needColor {N : CNet} (s : U) (hs : s.Inv N) {p i : Nat} (hp : p < N.places.length) (hi : i < N.types.size (N.place p).ty) :
    U.Step N s (s.needColor N p ⟨(N.place p).ty, i⟩) no2 no2 no3 no1 ∧ (s.needColor N p ⟨(N.place p).ty, i⟩).Made N p i := by
  unfold U.needColor
  simp only
  by_cases hh : s.has p i = true
  · rw [if_pos hh]
    exact ⟨.refl N s, made_of_has hs hh hi⟩
  · rw [if_neg hh]
    refine ⟨step_place s _ _ _ _ (fun q hq => List.mem_append_left _ hq) (fun p hp => hp) fun h => ?_, ?_⟩
    · have hle : s.Le ⟨s.ops ++ [.place (cname (N.place p).name i) ((N.place p).ms.get ⟨(N.place p).ty, i⟩)],
          s.names ++ [(p, i, cname (N.place p).name i)], s.sums⟩ := ⟨fun q hq => List.mem_append_left _ hq, fun p hp => hp⟩
      constructor
      · intro p' k n hm
        rcases List.mem_append.1 hm with hm | hm
        · exact h.names p' k n hm
        · cases List.mem_singleton.1 hm
          exact ⟨hp, Or.inl ⟨rfl, hi⟩⟩
      · simp only [List.map_append, List.map_cons, List.map_nil]
        rw [List.nodup_append]
        refine ⟨h.keys, by simp, ?_⟩
        intro a ha b hb hab
        rw [List.mem_singleton] at hb
        rw [hab, hb] at ha
        exact hh (has_iff.2 ha)
      · exact h.sums
      · intro n k hm
        rcases List.mem_append.1 hm with hm | hm
        · rcases h.place n k hm with ⟨p', j, h1, h2⟩ | h1
          · exact Or.inl ⟨p', j, hle.made h1, h2⟩
          · exact Or.inr h1
        · cases List.mem_singleton.1 hm
          exact Or.inl ⟨p, i, List.mem_append_right _ List.mem_cons_self, rfl, rfl⟩
      · intro p' j hm
        rcases List.mem_append.1 hm with hm | hm
        · obtain ⟨k, hk⟩ := h.made p' j hm
          exact ⟨k, List.mem_append_left _ hk⟩
        · cases List.mem_singleton.1 hm
          exact ⟨_, List.mem_append_right _ List.mem_cons_self⟩
      · intro p' hm
        obtain ⟨k, hk⟩ := h.summed p' hm
        exact ⟨k, List.mem_append_left _ hk⟩
      · intro n t b k hm
        rcases List.mem_append.1 hm with hm | hm
        · exact hle.named (h.input n t b k hm)
        · cases List.mem_singleton.1 hm
      · intro t n k hm
        rcases List.mem_append.1 hm with hm | hm
        · exact hle.named (h.output t n k hm)
        · cases List.mem_singleton.1 hm
      · refine ⟨fun n t i k hm => ?_, fun t n k hm => ?_⟩
        · rcases List.mem_append.1 hm with hm | hm
          · exact h.weight.1 n t i k hm
          · cases List.mem_singleton.1 hm
        · rcases List.mem_append.1 hm with hm | hm
          · exact h.weight.2 t n k hm
          · cases List.mem_singleton.1 hm
    · exact List.mem_append_right _ List.mem_cons_self

theorem step_needSum {N : CNet} (s : U) {p : Nat} (hp : p < N.places.length) (hi : N.inhibited p = true) :
    U.Step N s (s.needSum N p) no2 no2 no3 no1 ∧ p ∈ (s.needSum N p).sums := by
  unfold U.needSum
  by_cases hh : s.sums.contains p = true
  · rw [if_pos hh]
    exact ⟨.refl N s, by simpa using hh⟩
  · rw [if_neg hh]
    refine ⟨step_place s _ _ _ _ (fun q hq => hq) (fun p hp => List.mem_append_left _ hp) fun h => ?_, ?_⟩
    · have hle : s.Le ⟨s.ops ++ [.place (sumName (N.place p).name) ((N.place p).tokens % W32)], s.names, s.sums ++ [p]⟩ :=
        ⟨fun q hq => hq, fun p hp => List.mem_append_left _ hp⟩
      constructor
      · intro p' k n hm
        obtain ⟨h1, h2 | ⟨h2, h3, h4⟩⟩ := h.names p' k n hm
        · exact ⟨h1, Or.inl h2⟩
        · exact ⟨h1, Or.inr ⟨h2, h3, List.mem_append_left _ h4⟩⟩
      · exact h.keys
      · intro p' hm
        rcases List.mem_append.1 hm with hm | hm
        · exact h.sums p' hm
        · cases List.mem_singleton.1 hm
          exact ⟨hp, hi⟩
      · intro n k hm
        rcases List.mem_append.1 hm with hm | hm
        · rcases h.place n k hm with h1 | ⟨p', h1, h2⟩
          · exact Or.inl h1
          · exact Or.inr ⟨p', List.mem_append_left _ h1, h2⟩
        · cases List.mem_singleton.1 hm
          exact Or.inr ⟨p, List.mem_append_right _ List.mem_cons_self, rfl, rfl⟩
      · intro p' j hm
        obtain ⟨k, hk⟩ := h.made p' j hm
        exact ⟨k, List.mem_append_left _ hk⟩
      · intro p' hm
        rcases List.mem_append.1 hm with hm | hm
        · obtain ⟨k, hk⟩ := h.summed p' hm
          exact ⟨k, List.mem_append_left _ hk⟩
        · cases List.mem_singleton.1 hm
          exact ⟨_, List.mem_append_right _ List.mem_cons_self⟩
      · intro n t b k hm
        rcases List.mem_append.1 hm with hm | hm
        · exact hle.named (h.input n t b k hm)
        · cases List.mem_singleton.1 hm
      · intro t n k hm
        rcases List.mem_append.1 hm with hm | hm
        · exact hle.named (h.output t n k hm)
        · cases List.mem_singleton.1 hm
      · refine ⟨fun n t i k hm => ?_, fun t n k hm => ?_⟩
        · rcases List.mem_append.1 hm with hm | hm
          · exact h.weight.1 n t i k hm
          · cases List.mem_singleton.1 hm
        · rcases List.mem_append.1 hm with hm | hm
          · exact h.weight.2 t n k hm
          · cases List.mem_singleton.1 hm
    · exact List.mem_append_right _ List.mem_cons_self

/-- the arcs of one call -/
def one (b : Bool) (tn pn : String) (k : Nat) : String → String → Nat := fun t q => if b = true ∧ t = tn ∧ q = pn then k else 0

theorem step_arcOp {N : CNet} (s : U) (input : Bool) (tn pn : String) (k : Nat) (hn : s.Named N pn) (hk : 0 < k ∧ k < W32) :
    U.Step N s { s with ops := s.ops ++ [arcOp input tn pn k] } (one input tn pn k) (one (!input) tn pn k) no3 no1 where
  pre_eq t q := by
    rw [specPre_append]
    congr 1
    cases input with
    | true =>
      simp only [arcOp, if_true, specPre, List.map_cons, List.map_nil, List.sum_cons, List.sum_nil, one]
      by_cases h : t = tn ∧ q = pn
      · rw [if_pos ⟨h.2.symm, h.1.symm⟩, if_pos ⟨trivial, h⟩]; rfl
      · rw [if_neg (fun hc => h ⟨hc.2.symm, hc.1.symm⟩), if_neg (fun hc => h hc.2)]; rfl
    | false => simp [arcOp, specPre, one]
  post_eq t q := by
    rw [specPost_append]
    congr 1
    cases input with
    | true => simp [arcOp, specPost, one]
    | false =>
      simp only [arcOp, Bool.false_eq_true, if_false, specPost, List.map_cons, List.map_nil, List.sum_cons, List.sum_nil, one, Bool.not_false]
      by_cases h : t = tn ∧ q = pn
      · rw [if_pos ⟨h.2.symm, h.1.symm⟩, if_pos ⟨trivial, h⟩]; rfl
      · rw [if_neg (fun hc => h ⟨hc.2.symm, hc.1.symm⟩), if_neg (fun hc => h hc.2)]; rfl
  inh_eq t q k := by cases input <;> simp [arcOp]
  trans_eq n pl := by cases input <;> simp [arcOp]
  le := ⟨fun q hq => hq, fun p hp => hp⟩
  inv h := by
    apply h.addOp
    · intro n k; cases input <;> simp [arcOp]
    · intro n t i k' ho
      cases input with
      | true =>
        simp only [arcOp, if_true, Op.input.injEq] at ho
        obtain ⟨rfl, rfl, rfl, rfl⟩ := ho
        exact ⟨hn, hk⟩
      | false => simp [arcOp] at ho
    · intro t n k' ho
      cases input with
      | true => simp [arcOp] at ho
      | false =>
        simp only [arcOp, Bool.false_eq_true, if_false, Op.output.injEq] at ho
        obtain ⟨rfl, rfl, rfl⟩ := ho
        exact ⟨hn, hk⟩

/-- the tokens of a multiset that go to the place of a name -/
def shareC (N : CNet) (p : Nat) (l : List (Nat × Nat)) (q : String) : Nat :=
  (l.map fun x => if q = cname (N.place p).name x.1 then x.2 else 0).sum

def shareS (N : CNet) (p : Nat) (l : List (Nat × Nat)) (q : String) : Nat :=
  if N.inhibited p = true ∧ (0 < shadow l ∧ shadow l < 2 ^ 31) ∧ q = sumName (N.place p).name then shadow l else 0

/-- contributions of arcs of `tn`, of one kind -/
def only (b : Bool) (tn : String) (f : String → Nat) : String → String → Nat := fun t q => if b = true ∧ t = tn then f q else 0

theorem step_colors {N : CNet} (input : Bool) (tn : String) {p : Nat} (hp : p < N.places.length) (l : List (Nat × Nat))
    (hl : ∀ i ∈ l.map (·.1), i < N.types.size (N.place p).ty) (hw : ∀ x ∈ l, x.2 < W32) (s : U) (hs : s.Inv N) :
    U.Step N s (U.colors N input tn p (N.place p).ty s l) (only input tn (shareC N p l)) (only (!input) tn (shareC N p l)) no3 no1 := by
  induction l generalizing s with
  | nil => exact (U.Step.refl N s).congr (fun t q => by simp [only, shareC]) (fun t q => by simp [only, shareC]) (fun _ _ _ => Iff.rfl) (fun _ => Iff.rfl)
  | cons x l ih =>
    obtain ⟨i, k⟩ := x
    have hl' : ∀ i ∈ l.map (·.1), i < N.types.size (N.place p).ty := fun j hj => hl j (by rw [List.map_cons]; exact List.mem_cons_of_mem _ hj)
    have hw' : ∀ x ∈ l, x.2 < W32 := fun x hx => hw x (List.mem_cons_of_mem _ hx)
    rw [U.colors]
    by_cases hk : k = 0
    · rw [if_pos hk]
      have hsh : ∀ q, shareC N p ((i, k) :: l) q = shareC N p l q := by
        intro q; subst hk; simp [shareC]
      exact (ih hl' hw' s hs).congr (fun t q => by simp [only, hsh]) (fun t q => by simp [only, hsh]) (fun _ _ _ => Iff.rfl) (fun _ => Iff.rfl)
    · rw [if_neg hk]
      simp only
      obtain ⟨h1, hm⟩ := step_needColor s hs hp (hl i (by simp))
      have hn : (s.needColor N p ⟨(N.place p).ty, i⟩).Named N (cname (N.place p).name i) := Or.inl ⟨p, i, hm, rfl⟩
      have h2 := step_arcOp (N := N) (s.needColor N p ⟨(N.place p).ty, i⟩) input tn _ k hn
        ⟨Nat.pos_of_ne_zero hk, hw (i, k) List.mem_cons_self⟩
      have h3 := ih hl' hw' _ (h2.inv (h1.inv hs))
      have hsh : ∀ q, shareC N p ((i, k) :: l) q = (if q = cname (N.place p).name i then k else 0) + shareC N p l q := by
        intro q; simp [shareC]
      refine ((h1.trans h2).trans h3).congr ?_ ?_ ?_ ?_
      · intro t q
        simp only [only, one, hsh]
        by_cases hc : input = true ∧ t = tn
        · rw [if_pos hc, if_pos hc]
          congr 1
          rw [Nat.zero_add]
          by_cases hq : q = cname (N.place p).name i
          · rw [if_pos ⟨hc.1, hc.2, hq⟩, if_pos hq]
          · rw [if_neg (fun h => hq h.2.2), if_neg hq]
        · rw [if_neg hc, if_neg hc, if_neg (fun h => hc ⟨h.1, h.2.1⟩)]
      · intro t q
        simp only [only, one, hsh]
        by_cases hc : (!input) = true ∧ t = tn
        · rw [if_pos hc, if_pos hc]
          congr 1
          rw [Nat.zero_add]
          by_cases hq : q = cname (N.place p).name i
          · rw [if_pos ⟨hc.1, hc.2, hq⟩, if_pos hq]
          · rw [if_neg (fun h => hq h.2.2), if_neg hq]
        · rw [if_neg hc, if_neg hc, if_neg (fun h => hc ⟨h.1, h.2.1⟩)]
      · intro t q k'; simp
      · intro n; simp

/-- the tokens of an arc that go to the place of a name -/
def share (N : CNet) (b : Binding) (a : CArc) (q : String) : Nat :=
  match a.expr.evaluate N.types N.vty b with
  | none => 0
  | some m => shareC N a.place m.set q + shareS N a.place m.set q

def shares (N : CNet) (b : Binding) (as : List CArc) (q : String) : Nat := (as.map fun a => share N b a q).sum

/-- the arc expression can be evaluated and has the type of its place -/
def Fine (N : CNet) (b : Binding) (a : CArc) : Prop :=
  a.place < N.places.length ∧ ∃ m f, a.expr.evaluate N.types N.vty b = some m ∧ Holds N.types m (N.place a.place).ty f ∧ ∀ x ∈ m.set, x.2 < W32

theorem step_arc {N : CNet} (input : Bool) (tn : String) {b : Binding} {a : CArc} (ha : Fine N b a) (s : U) (hs : s.Inv N) :
    ∃ s', U.arc N input tn b a s = some s' ∧ U.Step N s s' (only input tn (share N b a)) (only (!input) tn (share N b a)) no3 no1 := by
  obtain ⟨hp, m, f, he, hh, hw⟩ := ha
  unfold U.arc
  rw [he]
  simp only
  have hcol : U.colors N input tn a.place (m.ty.getD dotTy) s m.set = U.colors N input tn a.place (N.place a.place).ty s m.set := by
    rcases hh.ty_ok with h | ⟨_, h⟩
    · rw [h]; rfl
    · rw [h]; rfl
  rw [hcol]
  have h1 := step_colors input tn hp m.set hh.lt hw s hs
  have hshare : ∀ q, share N b a q = shareC N a.place m.set q + shareS N a.place m.set q := by
    intro q; unfold share; rw [he]
  by_cases hi : N.inhibited a.place = true
  · rw [if_pos hi]
    obtain ⟨h2, hm⟩ := step_needSum (N := N) (U.colors N input tn a.place (N.place a.place).ty s m.set) hp hi
    by_cases hsh : 0 < shadow m.set ∧ shadow m.set < 2 ^ 31
    · rw [if_pos hsh]
      refine ⟨_, rfl, ?_⟩
      have h3 := step_arcOp (N := N) _ input tn (sumName (N.place a.place).name) (shadow m.set) (Or.inr ⟨a.place, hm, rfl⟩)
        ⟨hsh.1, Nat.mod_lt _ (by decide)⟩
      refine ((h1.trans h2).trans h3).congr ?_ ?_ ?_ ?_
      · intro t q
        simp only [only, one, hshare]
        by_cases hc : input = true ∧ t = tn
        · rw [if_pos hc, if_pos hc]
          congr 1
          unfold shareS
          by_cases hq : q = sumName (N.place a.place).name
          · rw [if_pos ⟨hc.1, hc.2, hq⟩, if_pos ⟨hi, hsh, hq⟩]
          · rw [if_neg (fun h => hq h.2.2), if_neg (fun h => hq h.2.2)]
        · rw [if_neg hc, if_neg hc, if_neg (fun h => hc ⟨h.1, h.2.1⟩)]; rfl
      · intro t q
        simp only [only, one, hshare]
        by_cases hc : (!input) = true ∧ t = tn
        · rw [if_pos hc, if_pos hc]
          congr 1
          unfold shareS
          by_cases hq : q = sumName (N.place a.place).name
          · rw [if_pos ⟨hc.1, hc.2, hq⟩, if_pos ⟨hi, hsh, hq⟩]
          · rw [if_neg (fun h => hq h.2.2), if_neg (fun h => hq h.2.2)]
        · rw [if_neg hc, if_neg hc, if_neg (fun h => hc ⟨h.1, h.2.1⟩)]; rfl
      · intro t q k; simp
      · intro n; simp
    · rw [if_neg hsh]
      refine ⟨_, rfl, (h1.trans h2).congr ?_ ?_ ?_ ?_⟩
      · intro t q; simp only [only, hshare, shareS, hsh, false_and, and_false, if_false, Nat.add_zero]
      · intro t q; simp only [only, hshare, shareS, hsh, false_and, and_false, if_false, Nat.add_zero]
      · intro t q k; simp
      · intro n; simp
  · rw [if_neg hi]
    refine ⟨_, rfl, h1.congr ?_ ?_ (fun _ _ _ => Iff.rfl) (fun _ => Iff.rfl)⟩
    · intro t q; simp only [only, hshare, shareS, hi, Bool.false_eq_true, false_and, if_false, Nat.add_zero]
    · intro t q; simp only [only, hshare, shareS, hi, Bool.false_eq_true, false_and, if_false, Nat.add_zero]

theorem step_arcs {N : CNet} (input : Bool) (tn : String) {b : Binding} (as : List CArc) (ha : ∀ a ∈ as, Fine N b a) (s : U) (hs : s.Inv N) :
    ∃ s', U.arcs N input tn b as s = some s' ∧ U.Step N s s' (only input tn (shares N b as)) (only (!input) tn (shares N b as)) no3 no1 := by
  induction as generalizing s with
  | nil => exact ⟨s, rfl, (U.Step.refl N s).congr (fun t q => by simp [only, shares]) (fun t q => by simp [only, shares]) (fun _ _ _ => Iff.rfl) (fun _ => Iff.rfl)⟩
  | cons a as ih =>
    obtain ⟨s1, h1, h2⟩ := step_arc input tn (ha a List.mem_cons_self) s hs
    obtain ⟨s2, h3, h4⟩ := ih (fun x hx => ha x (List.mem_cons_of_mem _ hx)) s1 (h2.inv hs)
    have hsh : ∀ q, shares N b (a :: as) q = share N b a q + shares N b as q := fun q => by simp [shares]
    refine ⟨s2, ?_, (h2.trans h4).congr ?_ ?_ ?_ ?_⟩
    · rw [U.arcs, h1, Option.bind_some, h3]
    · intro t q; simp only [only, hsh]; split <;> simp
    · intro t q; simp only [only, hsh]; split <;> simp
    · intro t q k; simp
    · intro n; simp

/-- the inhibitor arcs of one unfolded transition -/
def inhOf (N : CNet) (t tn : String) (hs : List CInhib) : String → String → Nat → Prop :=
  fun t' q k => t' = tn ∧ ∃ h ∈ hs, (N.trans h.trans).name = t ∧ q = sumName (N.place h.place).name ∧ k = h.weight

theorem step_inhOp {N : CNet} (s : U) (tn : String) {p : Nat} (hp : p ∈ s.sums) (k : Nat) (hk : 0 < k ∧ k < W32) :
    U.Step N s { s with ops := s.ops ++ [.input (sumName (N.place p).name) tn true k] } no2 no2
      (fun t q k' => t = tn ∧ q = sumName (N.place p).name ∧ k' = k) no1 where
  pre_eq t q := by rw [specPre_append]; rfl
  post_eq t q := by rw [specPost_append]; rfl
  inh_eq t q k' := by
    rw [List.mem_append, List.mem_singleton]
    constructor
    · rintro (h | h)
      · exact Or.inl h
      · cases h; exact Or.inr ⟨rfl, rfl, rfl⟩
    · rintro (h | ⟨rfl, rfl, rfl⟩)
      · exact Or.inl h
      · exact Or.inr rfl
  trans_eq n pl := by simp
  le := ⟨fun q hq => hq, fun p hp => hp⟩
  inv h := by
    apply h.addOp
    · intro n k; simp
    · intro n t i k' ho
      simp only [Op.input.injEq] at ho
      obtain ⟨rfl, rfl, rfl, rfl⟩ := ho
      exact ⟨Or.inr ⟨p, hp, rfl⟩, hk⟩
    · intro t n k' ho; simp at ho

theorem step_sumKey {N : CNet} (s : U) {p : Nat} (hp : p < N.places.length) (hm : p ∈ s.sums) (hno : s.hasPlace p = false) :
    U.Step N s { s with names := s.names ++ [(p, N.types.size (N.place p).ty, sumName (N.place p).name)] } no2 no2 no3 no1 where
  pre_eq t q := rfl
  post_eq t q := rfl
  inh_eq t q k := by simp
  trans_eq n pl := by simp
  le := ⟨fun q hq => List.mem_append_left _ hq, fun p hp => hp⟩
  inv h := by
    have hle : s.Le { s with names := s.names ++ [(p, N.types.size (N.place p).ty, sumName (N.place p).name)] } :=
      ⟨fun q hq => List.mem_append_left _ hq, fun p hp => hp⟩
    have hmade : ∀ p' i, U.Made N { s with names := s.names ++ [(p, N.types.size (N.place p).ty, sumName (N.place p).name)] } p' i → s.Made N p' i := by
      intro p' i hm
      rcases List.mem_append.1 hm with hm | hm
      · exact hm
      · have := List.mem_singleton.1 hm
        simp only [Prod.mk.injEq] at this
        exact absurd this.2.2 (cname_ne_sum _ _ _)
    constructor
    · intro p' k n hm'
      rcases List.mem_append.1 hm' with hm' | hm'
      · exact h.names p' k n hm'
      · cases List.mem_singleton.1 hm'
        exact ⟨hp, Or.inr ⟨rfl, rfl, hm⟩⟩
    · simp only [List.map_append, List.map_cons, List.map_nil]
      rw [List.nodup_append]
      refine ⟨h.keys, by simp, ?_⟩
      intro a ha b hb hab
      rw [List.mem_singleton] at hb
      rw [hab, hb, List.mem_map] at ha
      obtain ⟨q, hq, he⟩ := ha
      simp only [Prod.mk.injEq] at he
      unfold U.hasPlace at hno
      rw [List.any_eq_false] at hno
      exact hno q hq (by simp [he.1])
    · exact h.sums
    · intro n k hm'
      rcases h.place n k hm' with ⟨p', j, h1, h2⟩ | h1
      · exact Or.inl ⟨p', j, hle.made h1, h2⟩
      · exact Or.inr h1
    · intro p' i hm'
      exact h.made p' i (hmade p' i hm')
    · exact h.summed
    · intro n t b k hm'
      exact hle.named (h.input n t b k hm')
    · intro t n k hm'
      exact hle.named (h.output t n k hm')
    · exact h.weight

theorem step_inhibs {N : CNet} (t tn : String) (hs : List CInhib) (hh : ∀ h ∈ hs, h.place < N.places.length ∧ N.inhibited h.place = true ∧ 0 < h.weight ∧ h.weight < W32)
    (s : U) : U.Step N s (U.inhibs N t tn hs s) no2 no2 (inhOf N t tn hs) no1 := by
  induction hs generalizing s with
  | nil =>
    refine (U.Step.refl N s).congr (fun _ _ => rfl) (fun _ _ => rfl) (fun t q k => ?_) (fun _ => Iff.rfl)
    simp [inhOf]
  | cons h hs ih =>
    have ih' := fun s => ih (fun x hx => hh x (List.mem_cons_of_mem _ hx)) s
    obtain ⟨hp, hinh, hw⟩ := hh h List.mem_cons_self
    rw [U.inhibs]
    by_cases hn : (N.trans h.trans).name = t
    · rw [if_pos hn]
      simp only
      have key : ∃ s1, (if s.sums.contains h.place = true then s else
          if (s.needSum N h.place).hasPlace h.place = true then s.needSum N h.place else
          { (s.needSum N h.place) with names := (s.needSum N h.place).names ++
            [(h.place, N.types.size (N.place h.place).ty, sumName (N.place h.place).name)] }) = s1 ∧
          U.Step N s s1 no2 no2 no3 no1 ∧ h.place ∈ s1.sums := by
        by_cases hc : s.sums.contains h.place = true
        · rw [if_pos hc]
          exact ⟨s, rfl, .refl N s, by simpa using hc⟩
        · rw [if_neg hc]
          obtain ⟨h1, h2⟩ := step_needSum (N := N) s hp hinh
          by_cases hb : (s.needSum N h.place).hasPlace h.place = true
          · rw [if_pos hb]
            exact ⟨_, rfl, h1, h2⟩
          · rw [if_neg hb]
            have hb' : (s.needSum N h.place).hasPlace h.place = false := by simpa using hb
            exact ⟨_, rfl, (h1.trans (step_sumKey _ hp h2 hb')).congr (fun _ _ => rfl) (fun _ _ => rfl) (fun _ _ _ => by simp) (fun _ => by simp), h2⟩
      obtain ⟨s1, he, h1, h2⟩ := key
      rw [he]
      have h3 := step_inhOp (N := N) s1 tn h2 h.weight hw
      refine ((h1.trans h3).trans (ih' _)).congr (fun _ _ => rfl) (fun _ _ => rfl) (fun t' q k => ?_) (fun _ => by simp)
      unfold inhOf
      constructor
      · rintro ((h | ⟨h4, h5, h6⟩) | ⟨h4, x, hx, h5⟩)
        · exact h.elim
        · exact ⟨h4, h, List.mem_cons_self, hn, h5, h6⟩
        · exact ⟨h4, x, List.mem_cons_of_mem _ hx, h5⟩
      · rintro ⟨h4, x, hx, h5, h6, h7⟩
        rcases List.mem_cons.1 hx with rfl | hx
        · exact Or.inl (Or.inr ⟨h4, h6, h7⟩)
        · exact Or.inr ⟨h4, x, hx, h5, h6, h7⟩
    · rw [if_neg hn]
      refine (ih' s).congr (fun _ _ => rfl) (fun _ _ => rfl) (fun t' q k => ?_) (fun _ => Iff.rfl)
      unfold inhOf
      constructor
      · rintro ⟨h4, x, hx, h5⟩
        exact ⟨h4, x, List.mem_cons_of_mem _ hx, h5⟩
      · rintro ⟨h4, x, hx, h5, h6⟩
        rcases List.mem_cons.1 hx with rfl | hx
        · exact absurd h5 hn
        · exact ⟨h4, x, hx, h5, h6⟩

theorem step_trans {N : CNet} (s : U) (n : String) : U.Step N s { s with ops := s.ops ++ [.trans n 0] } no2 no2 no3 (· = n) where
  pre_eq t q := by rw [specPre_append]; rfl
  post_eq t q := by rw [specPost_append]; rfl
  inh_eq t q k := by simp
  trans_eq m pl := by
    rw [List.mem_append, List.mem_singleton]
    constructor
    · rintro (h | h)
      · exact Or.inl h
      · cases h; exact Or.inr ⟨rfl, rfl⟩
    · rintro (h | ⟨rfl, rfl⟩)
      · exact Or.inl h
      · exact Or.inr rfl
  le := ⟨fun q hq => hq, fun p hp => hp⟩
  inv h := h.addOp _ (by simp) (by simp) (by simp)

/-- an unfolded transition: name, coloured transition, binding -/
structure Emit where
  name : String
  t : CTrans
  b : Binding

def sumIf (es : List Emit) (f : Emit → String → Nat) : String → String → Nat :=
  fun t q => (es.map fun e => if e.name = t then f e q else 0).sum

def inS (N : CNet) (e : Emit) (q : String) : Nat := shares N e.b e.t.inputs q
def outS (N : CNet) (e : Emit) (q : String) : Nat := shares N e.b e.t.outputs q

/-- a step that adds the given transitions -/
def U.Grow (N : CNet) (s s' : U) (es : List Emit) : Prop :=
  U.Step N s s' (sumIf es (inS N)) (sumIf es (outS N))
    (fun t q k => ∃ e ∈ es, inhOf N e.t.name e.name N.inhibitors t q k) (fun n => ∃ e ∈ es, e.name = n)

theorem U.Grow.nil (N : CNet) (s : U) : U.Grow N s s [] :=
  (U.Step.refl N s).congr (fun _ _ => rfl) (fun _ _ => rfl) (fun _ _ _ => by simp) (fun _ => by simp)

theorem U.Grow.append {N : CNet} {s s' s'' : U} {es fs : List Emit} (h : U.Grow N s s' es) (h' : U.Grow N s' s'' fs) : U.Grow N s s'' (es ++ fs) := by
  refine (U.Step.trans h h').congr ?_ ?_ ?_ ?_
  · intro t q; simp [sumIf]
  · intro t q; simp [sumIf]
  · intro t q k
    constructor
    · rintro (⟨e, he, hh⟩ | ⟨e, he, hh⟩)
      · exact ⟨e, List.mem_append_left _ he, hh⟩
      · exact ⟨e, List.mem_append_right _ he, hh⟩
    · rintro ⟨e, he, hh⟩
      rcases List.mem_append.1 he with he | he
      · exact Or.inl ⟨e, he, hh⟩
      · exact Or.inr ⟨e, he, hh⟩
  · intro n
    constructor
    · rintro (⟨e, he, hh⟩ | ⟨e, he, hh⟩)
      · exact ⟨e, List.mem_append_left _ he, hh⟩
      · exact ⟨e, List.mem_append_right _ he, hh⟩
    · rintro ⟨e, he, hh⟩
      rcases List.mem_append.1 he with he | he
      · exact Or.inl ⟨e, he, hh⟩
      · exact Or.inr ⟨e, he, hh⟩

/-- everything the inhibitor arcs need -/
def InhOK (N : CNet) : Prop := ∀ h ∈ N.inhibitors, h.place < N.places.length ∧ 0 < h.weight ∧ h.weight < W32

theorem inhibited_of {N : CNet} {h : CInhib} (hh : h ∈ N.inhibitors) : N.inhibited h.place = true := by
  unfold CNet.inhibited
  rw [List.any_eq_true]
  exact ⟨h, hh, by simp⟩

theorem grow_binding {N : CNet} (hI : InhOK N) {t : CTrans} {i : Nat} {b : Binding} (ha : ∀ a ∈ t.inputs ++ t.outputs, Fine N b a) (s : U) (hs : s.Inv N) :
    ∃ s', U.binding N t i b s = some s' ∧ U.Grow N s s' [⟨bname t.name i, t, b⟩] := by
  have h0 := step_trans (N := N) s (bname t.name i)
  obtain ⟨s1, h1, h2⟩ := step_arcs true (bname t.name i) t.inputs (fun a h => ha a (List.mem_append_left _ h)) _ (h0.inv hs)
  obtain ⟨s2, h3, h4⟩ := step_arcs false (bname t.name i) t.outputs (fun a h => ha a (List.mem_append_right _ h)) s1 (h2.inv (h0.inv hs))
  have h5 := step_inhibs (N := N) t.name (bname t.name i) N.inhibitors (fun h hh => ⟨(hI h hh).1, inhibited_of hh, (hI h hh).2⟩) s2
  refine ⟨U.inhibs N t.name (bname t.name i) N.inhibitors s2, ?_, (((h0.trans h2).trans h4).trans h5).congr ?_ ?_ ?_ ?_⟩
  · unfold U.binding
    simp only
    rw [h1, Option.bind_some, h3]
    rfl
  · intro t' q
    simp only [only, sumIf, inS, List.map_cons, List.map_nil, List.sum_cons, List.sum_nil, Bool.false_eq_true, false_and, if_false, true_and,
      Nat.zero_add, Nat.add_zero]
    by_cases hc : t' = bname t.name i
    · rw [if_pos hc, if_pos hc.symm]
    · rw [if_neg hc, if_neg (fun h => hc h.symm)]
  · intro t' q
    simp only [only, sumIf, outS, List.map_cons, List.map_nil, List.sum_cons, List.sum_nil, Bool.not_true, Bool.not_false, Bool.false_eq_true, false_and,
      if_false, true_and, Nat.zero_add, Nat.add_zero]
    by_cases hc : t' = bname t.name i
    · rw [if_pos hc, if_pos hc.symm]
    · rw [if_neg hc, if_neg (fun h => hc h.symm)]
  · intro t' q k; simp
  · intro n
    simp only [or_false, List.mem_singleton, exists_eq_left]
    exact eq_comm

def emitB (t : CTrans) : Nat → List Binding → List Emit
  | _, [] => []
  | i, b :: bs => ⟨bname t.name i, t, b⟩ :: emitB t (i + 1) bs

def emitT (gen : CTrans → Option (List Binding)) : List CTrans → List Emit
  | [] => []
  | t :: ts => emitB t 0 ((gen t).getD []) ++ emitT gen ts

theorem grow_bindings {N : CNet} (hI : InhOK N) {t : CTrans} (bs : List Binding) (ha : ∀ b ∈ bs, ∀ a ∈ t.inputs ++ t.outputs, Fine N b a) (i : Nat) (s : U) (hs : s.Inv N) :
    ∃ s', U.bindings N t i bs s = some s' ∧ U.Grow N s s' (emitB t i bs) := by
  induction bs generalizing i s with
  | nil => exact ⟨s, rfl, .nil N s⟩
  | cons b bs ih =>
    obtain ⟨s1, h1, h2⟩ := grow_binding hI (i := i) (ha b List.mem_cons_self) s hs
    obtain ⟨s2, h3, h4⟩ := ih (fun x hx => ha x (List.mem_cons_of_mem _ hx)) (i + 1) s1 (h2.inv hs)
    exact ⟨s2, by rw [U.bindings, h1, Option.bind_some, h3], h2.append h4⟩

theorem grow_transitions {N : CNet} (hI : InhOK N) {gen : CTrans → Option (List Binding)} (ts : List CTrans)
    (ha : ∀ t ∈ ts, ∃ bs, gen t = some bs ∧ ∀ b ∈ bs, ∀ a ∈ t.inputs ++ t.outputs, Fine N b a) (s : U) (hs : s.Inv N) :
    ∃ s', U.transitions N gen ts s = some s' ∧ U.Grow N s s' (emitT gen ts) := by
  induction ts generalizing s with
  | nil => exact ⟨s, rfl, .nil N s⟩
  | cons t ts ih =>
    obtain ⟨bs, hb, hf⟩ := ha t List.mem_cons_self
    obtain ⟨s1, h1, h2⟩ := grow_bindings hI bs hf 0 s hs
    obtain ⟨s2, h3, h4⟩ := ih (fun x hx => ha x (List.mem_cons_of_mem _ hx)) s1 (h2.inv hs)
    refine ⟨s2, ?_, ?_⟩
    · rw [U.transitions, hb, Option.bind_some, h1, Option.bind_some, h3]
    · rw [emitT, hb]
      exact h2.append h4

theorem inv_empty (N : CNet) : U.Inv N {} where
  names := by intro p k n h; cases h
  keys := List.nodup_nil
  sums := by intro p h; cases h
  place := by intro n k h; cases h
  made := by intro p i h; cases h
  summed := by intro p h; cases h
  input := by intro n t i k h; cases h
  output := by intro t n k h; cases h
  weight := ⟨fun n t i k h => (by cases h), fun t n k h => (by cases h)⟩

end CPN
end Verif
