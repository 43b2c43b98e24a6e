import Verif.XCol.IgnorantCheckLemmas
import Verif.Props.ColorIgnorant
import Verif.Props.Simplify
import Verif.Props.Shorthand
import Verif.Props.Eval

/-!
# C70, C71: what the net without colours tells about the coloured one
-/

namespace Verif
namespace ColorIgnorantCheckProps
open XCol CPN PQL Search ColorIgnorantProps
open Builder (Op run Sane specPre specInh specPost)

/-! ## The search -/

/-- The results of the search, query by query. -/
theorem feSearch_spec (timeout : Nat → Bool) (ms : List Mark) : ∀ (k : Nat) (qs : List (Cond × Answer)) (i : Nat) (q : Cond) (r a : Answer),
    qs[i]? = some (q, r) → (feSearch timeout k ms qs)[i]? = some a →
    (a = .satisfied → r = .satisfied ∨ r = .unknown ∧ ∃ l1 m l2, ms = l1 ++ m :: l2 ∧ fe m q = .rTrue ∧ ∀ m' ∈ l1, fe m' q = .rFalse) ∧
    (a = .notSatisfied → r = .notSatisfied ∨ r = .unknown ∧ (∀ m ∈ ms, fe m q = .rFalse) ∧ ∀ j < ms.length, timeout (k + j) = false) := by
  induction ms with
  | nil =>
    intro k qs i q r a h h'
    unfold feSearch at h'
    rw [List.getElem?_map, h, Option.map_some, Option.some.injEq] at h'
    subst h'
    by_cases hr : r = .unknown
    · subst hr
      rw [if_pos rfl]
      exact ⟨(fun h => nomatch h), fun _ => .inr ⟨rfl, (fun _ h => nomatch h), (fun _ h => nomatch h)⟩⟩
    · rw [if_neg hr]
      exact ⟨.inl, .inl⟩
  | cons m ms ih =>
    intro k qs i q r a h h'
    unfold feSearch at h'
    by_cases ht : timeout k = true
    · rw [if_pos ht, List.getElem?_map, h, Option.map_some, Option.some.injEq] at h'
      subst h'
      exact ⟨(fun h => nomatch h), (fun h => nomatch h)⟩
    · rw [if_neg ht] at h'
      dsimp only at h'
      have ht : timeout k = false := by simpa using ht
      have hq : (qs.map fun q => (q.1, feStep m q.1 q.2))[i]? = some (q, feStep m q r) := by rw [List.getElem?_map, h]; rfl
      -- the step
      have hstep : (feStep m q r = .satisfied → r = .satisfied ∨ r = .unknown ∧ fe m q = .rTrue) ∧
          (feStep m q r = .notSatisfied → r = .notSatisfied) ∧ (feStep m q r = .unknown → r = .unknown ∧ fe m q = .rFalse) := by
        unfold feStep
        by_cases hr : r = .unknown
        · rw [if_pos hr]
          cases hf : fe m q <;> simp [hr]
        · rw [if_neg hr]
          exact ⟨.inl, id, fun h => absurd h hr⟩
      have key : ∀ s, s = feStep m q r →
          ((a = .satisfied → s = .satisfied ∨ s = .unknown ∧ ∃ l1 m' l2, ms = l1 ++ m' :: l2 ∧ fe m' q = .rTrue ∧ ∀ m'' ∈ l1, fe m'' q = .rFalse) ∧
          (a = .notSatisfied → s = .notSatisfied ∨ s = .unknown ∧ (∀ m ∈ ms, fe m q = .rFalse) ∧ ∀ j < ms.length, timeout (k + 1 + j) = false)) →
          (a = .satisfied → r = .satisfied ∨ r = .unknown ∧ ∃ l1 m' l2, m :: ms = l1 ++ m' :: l2 ∧ fe m' q = .rTrue ∧ ∀ m'' ∈ l1, fe m'' q = .rFalse) ∧
          (a = .notSatisfied → r = .notSatisfied ∨ r = .unknown ∧ (∀ m' ∈ m :: ms, fe m' q = .rFalse) ∧ ∀ j < (m :: ms).length, timeout (k + j) = false) := by
        rintro s rfl ⟨h1, h2⟩
        refine ⟨fun ha => ?_, fun ha => ?_⟩
        · rcases h1 ha with h3 | ⟨h3, l1, m', l2, h4, h5, h6⟩
          · rcases hstep.1 h3 with h4 | ⟨h4, h5⟩
            · exact .inl h4
            · exact .inr ⟨h4, [], m, ms, rfl, h5, (fun _ h => nomatch h)⟩
          · obtain ⟨h7, h8⟩ := hstep.2.2 h3
            refine .inr ⟨h7, m :: l1, m', l2, by rw [h4]; rfl, h5, fun m'' hm => ?_⟩
            rcases List.mem_cons.1 hm with rfl | hm
            · exact h8
            · exact h6 m'' hm
        · rcases h2 ha with h3 | ⟨h3, h4, h5⟩
          · exact .inl (hstep.2.1 h3)
          · obtain ⟨h7, h8⟩ := hstep.2.2 h3
            refine .inr ⟨h7, fun m' hm => ?_, fun j hj => ?_⟩
            · rcases List.mem_cons.1 hm with rfl | hm
              · exact h8
              · exact h4 m' hm
            · match j with
              | 0 => exact ht
              | j + 1 =>
                have := h5 j (by simpa using hj)
                rw [← this]
                congr 1
                omega
      split at h'
      · exact key _ rfl (ih (k + 1) _ i q _ a hq h')
      · rename_i hany
        rw [List.getElem?_map, hq, Option.map_some, Option.some.injEq] at h'
        refine key _ rfl ⟨fun ha => .inl (h'.trans ha), fun ha => .inl (h'.trans ha)⟩

theorem feSearch_length (timeout : Nat → Bool) (ms : List Mark) : ∀ (k : Nat) (qs : List (Cond × Answer)), (feSearch timeout k ms qs).length = qs.length := by
  induction ms with
  | nil => intro k qs; unfold feSearch; rw [List.length_map]
  | cons m ms ih =>
    intro k qs
    unfold feSearch
    split
    · rw [List.length_map]
    · dsimp only
      split
      · rw [ih, List.length_map]
      · rw [List.length_map, List.length_map]

/-! ## C71: fireability -/

/-- The markings that the search meets: the initial one first, and all reachable ones unless the time is up before. -/
structure Visits (F : FlatNet) (init : Mark) (timeout : Nat → Bool) (l : List Mark) : Prop where
  first : l.head? = some init
  all : (∃ j < l.length, timeout j = true) ∨ ∀ m, F.toNet.Reach init m → m ∈ l

/-- The transition of the net without colours takes a token from some place. -/
def Takes (F : FlatNet) (k : Nat) : Prop := ∃ hk : k < F.ntransitions, ∃ p, 0 < F.toNet.pre ⟨k, hk⟩ p

/-- The coloured transition can fire in every reachable marking. -/
def Always (N : CNet) (t : Nat) : Prop := ∀ M, N.Reach M → ∃ ρ, N.Legal t ρ ∧ N.Enabled M t ρ

theorem push_ef {m : Mark} {K : RwCtx} (hK : K.initrw = false) (f : Nat) {neg : Bool} {a r : Cond} {x : Prop} (hs : Src m a x)
    (h : pushNegation K f false neg (.EF a) = some r) : ∃ b, r = negIf neg (.EF b) ∧ pushNegation K (f - 1) true false a = some b ∧ Snd m b x := by
  match f with
  | 0 => cases h
  | f + 1 =>
    unfold pushNegation pushStep at h
    obtain ⟨r', h1, h2⟩ := Option.map_eq_some_iff.1 h
    rw [rw_id hK] at h2
    subst h2
    unfold pushEF at h1
    cases hb : pushNegation K f true false a with
    | none => rw [hb] at h1; cases h1
    | some b =>
      rw [hb] at h1
      have hsnd := pushNegation_snd hK f _ _ _ _ _ hb hs
      have hsnd : Snd m b x := hsnd.congr (by simp [xneg])
      refine ⟨b, ?_, hb, hsnd⟩
      have hl := Snd.leafy _ _ hsnd
      cases b with
      | bool b => exact (Option.some.inj h1).symm
      | cc l n => exact (Option.some.inj h1).symm
      | and cs => exact (Option.some.inj h1).symm
      | or cs =>
        have ht : anyTemporal cs = false := by have := Leafy.notTemporal _ hl; unfold Cond.isTemporal at this; exact this
        simp only [Option.bind_eq_bind, Option.bind_some, ht] at h1
        exact (Option.some.inj h1).symm
      | _ => unfold Leafy at hl; cases hl

/-- `AG` is turned into `¬ EF ¬`. -/
theorem push_ag {m : Mark} {K : RwCtx} (hK : K.initrw = false) (f : Nat) {a r : Cond} {x : Prop} (hs : Src m a x)
    (h : pushNegation K f false false (.AG a) = some r) : ∃ b, r = .not (.EF b) ∧ pushNegation K (f - 2) true false (.not a) = some b ∧ Snd m b (¬ x) := by
  match f with
  | 0 => cases h
  | f + 1 =>
    have h' : pushNegation K f false true (.EF (.not a)) = some r := h
    obtain ⟨b, h1, h2, h3⟩ := push_ef hK f (x := ¬ x) (by unfold Src; exact ⟨x, hs, Iff.rfl⟩) h'
    exact ⟨b, h1, h2, h3⟩

/-- The verdict is right about any formula whose truth in the coloured markings the compiled formula says enough about. -/
theorem fireCheck_sound {N : CNet} {F : FlatNet} {init : Mark} (hold : CMark → Prop) {a : Cond}
    (hinit : Src init a (hold N.init)) (hsim : ∀ M, N.Reach M → ∃ m, F.toNet.Reach init m ∧ Src m a (hold M))
    {K : RwCtx} (hK : K.initrw = false) {fuel : Nat} {timeout : Nat → Bool} {l : List Mark} (hv : Visits F init timeout l)
    {isEf : Bool} {q : Cond} {v : Verdict3} (hq : q = negIf (!isEf) (.EF a)) (h : fireCheck K fuel timeout l q = some v) :
    (v = .satisfied → ((∃ M, N.Reach M ∧ hold M) ↔ isEf = true)) ∧ (v = .notSatisfied → ((∃ M, N.Reach M ∧ hold M) ↔ isEf = false)) := by
  obtain ⟨qs, hqs, h⟩ : ∃ qs, fireQueries K fuel a = some qs ∧
      (match feSearch timeout 0 l [(qs.1, .unknown), (qs.2, .unknown), (q, .unknown)] with
        | r0 :: r1 :: _ => fireVerdict isEf r0 r1
        | _ => .unknown) = v := by
    cases isEf with
    | true =>
      subst hq
      obtain ⟨qs, h1, h2⟩ := Option.map_eq_some_iff.1 (show (fireQueries K fuel a).map _ = some v from h)
      exact ⟨qs, h1, h2⟩
    | false =>
      subst hq
      obtain ⟨qs, h1, h2⟩ := Option.map_eq_some_iff.1 (show (fireQueries K fuel a).map _ = some v from h)
      exact ⟨qs, h1, h2⟩
  obtain ⟨q0, q1⟩ := qs
  obtain ⟨h0, h1⟩ : pushNegation K fuel false false (.AG a) = some q0 ∧ pushNegation K fuel false false (.EF a) = some q1 := by
    unfold fireQueries at hqs
    split at hqs
    · rename_i e0 e1
      obtain ⟨rfl, rfl⟩ := Prod.mk.inj (Option.some.inj hqs)
      exact ⟨e0, e1⟩
    · cases hqs
  have hlen := feSearch_length timeout l 0 [(q0, .unknown), (q1, .unknown), (q, .unknown)]
  cases hres : feSearch timeout 0 l [(q0, .unknown), (q1, .unknown), (q, .unknown)] with
  | nil => rw [hres] at hlen; cases hlen
  | cons r0 rest =>
    cases rest with
    | nil => rw [hres] at hlen; cases hlen
    | cons r1 rest =>
      rw [hres] at h
      dsimp only at h
      have hsp0 := feSearch_spec timeout l 0 [(q0, .unknown), (q1, .unknown), (q, .unknown)] 0 q0 .unknown r0 rfl (by rw [hres]; rfl)
      have hsp1 := feSearch_spec timeout l 0 [(q0, .unknown), (q1, .unknown), (q, .unknown)] 1 q1 .unknown r1 rfl (by rw [hres]; rfl)
      -- the first query
      have hfirst : r0 = .satisfied → ∃ M, N.Reach M ∧ hold M := fun hr => by
        obtain ⟨b, rfl, hb, hsnd⟩ := push_ag hK fuel hinit h0
        obtain ⟨l1, m, l2, hl, h2, h3⟩ := ((hsp0.1 hr).resolve_left (by decide)).2
        have h2' : fe m b = .rFalse := by
          unfold fe at h2
          unfold fe at h2
          unfold flipEF at h2
          rw [show (Cond.EF b).isEF = true from rfl, if_pos rfl] at h2
          cases hf : fe m b <;> rw [hf] at h2 <;> first | rfl | (cases h2)
        have hm : m = init := by
          cases l1 with
          | nil =>
            have := hv.first
            rw [hl] at this
            exact Option.some.inj this
          | cons m1 l1 =>
            have hm1 : m1 = init := by
              have := hv.first
              rw [hl] at this
              exact Option.some.inj this
            have h4 := h3 m1 List.mem_cons_self
            unfold fe at h4
            unfold fe at h4
            unfold flipEF at h4
            rw [show (Cond.EF b).isEF = true from rfl, if_pos rfl] at h4
            have h4' : fe m1 b = .rTrue := by cases hf : fe m1 b <;> rw [hf] at h4 <;> first | rfl | (cases h4)
            exact (fe_one_way m1 m b (Snd.leafy _ _ hsnd) h4' h2').elim
        subst hm
        exact ⟨N.init, .init, not_not.1 ((fe_sound b _ hsnd).2 h2')⟩
      -- the second query
      have hsecond : r1 = .notSatisfied → ¬ ∃ M, N.Reach M ∧ hold M := fun hr => by
        rintro ⟨M, hM, hh⟩
        obtain ⟨m, hm, hsrc⟩ := hsim M hM
        obtain ⟨_, h2, h3⟩ := (hsp1.2 hr).resolve_left (by decide)
        have hml : m ∈ l := by
          rcases hv.all with ⟨j, hj, ht⟩ | hall
          · have := h3 j hj
            rw [Nat.zero_add, ht] at this
            cases this
          · exact hall m hm
        obtain ⟨b, rfl, hb, hsnd⟩ := push_ef hK fuel hsrc h1
        have h4 := h2 m hml
        unfold negIf at h4
        rw [if_neg (by decide)] at h4
        unfold fe at h4
        exact (fe_sound b _ hsnd).2 h4 hh
      subst h
      unfold fireVerdict
      by_cases hr0 : r0 = .satisfied
      · have := hfirst hr0
        rw [if_pos hr0]
        cases isEf <;> simp [this]
      · rw [if_neg hr0]
        by_cases hr1 : r1 = .notSatisfied
        · have := hsecond hr1
          rw [if_pos hr1]
          cases isEf <;> simp only [Bool.false_eq_true, if_false, if_true, reduceCtorEq, forall_const, iff_false, iff_true, false_imp_iff, true_and, and_true] <;> tauto
        · rw [if_neg hr1]
          exact ⟨(fun h => nomatch h), (fun h => nomatch h)⟩

/-- What the fireability of a transition is compiled to says enough. -/
theorem fireable_ls {F : FlatNet} (w : F.WF) {k : Nat} (hk : k < F.ntransitions) {p : Nat} (hp : 0 < F.toNet.pre ⟨k, hk⟩ p) (m : Mark) {x : Prop}
    (hx : x → F.toNet.Enabled m ⟨k, hk⟩) : Src m (Shorthand.fireable F k) x := by
  obtain ⟨i, hi, hinh⟩ : ∃ i ∈ F.preset k, i.inhibitor = false := by
    unfold FlatNet.toNet at hp
    dsimp only at hp
    split at hp
    · rename_i i hf
      have h1 := List.mem_of_find?_eq_some hf
      have h2 := List.find?_some hf
      simp only [Bool.and_eq_true, Bool.not_eq_true'] at h2
      exact ⟨i, h1, h2.2⟩
    · omega
  have hmem : ∀ j ∈ F.preset k, j ∈ F.invariants := fun j hj => List.mem_of_mem_drop (List.mem_of_mem_take hj)
  have hne : ((F.preset k).map Shorthand.arcCons).isEmpty = false := by
    cases h : F.preset k with
    | nil => rw [h] at hi; cases hi
    | cons => rfl
  unfold Shorthand.fireable
  dsimp only
  rw [hne, if_neg (by decide)]
  unfold Src
  refine LS.congr (x := x) ⟨?_, fun hx' c hc => ?_, fun h0 _ => ?_⟩ (by simp [xneg])
  · rw [List.all_eq_true]
    intro c hc
    obtain ⟨j, hj, rfl⟩ := List.mem_map.1 hc
    have h1 := w.tokens_pos j (hmem j hj)
    have h2 := w.tokens_lt j (hmem j hj)
    unfold W32 at h2
    rw [Cons.ok_iff]
    unfold Shorthand.arcCons
    cases hin : j.inhibitor
    · simp only [Bool.not_false, if_true, umax]
      omega
    · simp only [Bool.not_true, Bool.false_eq_true, if_false, h1, if_true, umax]
      omega
  · obtain ⟨j, hj, rfl⟩ := List.mem_map.1 hc
    have h1 := (FlatNet.checkPreset_iff w m ⟨k, hk⟩).2 (hx hx')
    unfold FlatNet.checkPreset at h1
    have h2 := (FlatNet.checkInvs_iff m _).1 h1 j hj
    unfold Shorthand.arcCons
    cases hin : j.inhibitor
    · exact h2.1 hin
    · simp only [Bool.not_true, Bool.false_eq_true, if_false]
      split <;> exact Nat.zero_le _
  · have h1 := h0 _ (List.mem_map.2 ⟨i, hi, rfl⟩)
    unfold Shorthand.arcCons at h1
    rw [hinh] at h1
    have := w.tokens_pos i (hmem i hi)
    simp only [Bool.not_false, if_true] at h1
    omega

theorem src_compile {N : CNet} {F : FlatNet} (w : F.WF) {M : CMark} (hM : N.Reach M) {m : Mark} {tr pl : Nat → Nat} (φ : FQ) (hno : φ.noCmp = true)
    (hen : ∀ t ∈ φ.fires, ∀ ρ, N.Legal t ρ → N.Enabled M t ρ → ∃ hk : tr t < F.ntransitions, F.toNet.Enabled m ⟨tr t, hk⟩)
    (hok : ∀ t ∈ φ.fires, Takes F (tr t) ∨ F.preset (tr t) = [] ∧ Always N t) : Src m (φ.compile F tr pl) (φ.holds N M) := by
  induction φ with
  | const b => unfold FQ.compile FQ.holds Src; exact Iff.rfl
  | fire t =>
    unfold FQ.compile FQ.holds
    rcases hok t (List.mem_singleton.2 rfl) with ⟨hk, p, hp⟩ | ⟨h1, h2⟩
    · exact fireable_ls w hk hp m fun ⟨ρ, h1, h2⟩ => (hen t (List.mem_singleton.2 rfl) ρ h1 h2).2
    · unfold Shorthand.fireable
      rw [h1]
      show Src m (.bool true) _
      unfold Src
      exact iff_of_true rfl (h2 M hM)
  | cmp op a b => cases hno
  | not q ih =>
    unfold FQ.compile FQ.holds Src
    exact ⟨_, ih hno hen hok, Iff.rfl⟩
  | and q r ihq ihr =>
    unfold FQ.noCmp at hno
    rw [Bool.and_eq_true] at hno
    unfold FQ.fires at hen hok
    unfold FQ.compile FQ.holds Src SrcL SrcL SrcL
    refine ⟨_, _, ihq hno.1 (fun t ht => hen t (List.mem_append_left _ ht)) (fun t ht => hok t (List.mem_append_left _ ht)),
      ⟨_, _, ihr hno.2 (fun t ht => hen t (List.mem_append_right _ ht)) (fun t ht => hok t (List.mem_append_right _ ht)), Iff.rfl, Iff.rfl⟩, ?_⟩
    simp [J]
  | or q r ihq ihr =>
    unfold FQ.noCmp at hno
    rw [Bool.and_eq_true] at hno
    unfold FQ.fires at hen hok
    unfold FQ.compile FQ.holds Src SrcL SrcL SrcL
    refine ⟨_, _, ihq hno.1 (fun t ht => hen t (List.mem_append_left _ ht)) (fun t ht => hok t (List.mem_append_left _ ht)),
      ⟨_, _, ihr hno.2 (fun t ht => hen t (List.mem_append_right _ ht)) (fun t ht => hok t (List.mem_append_right _ ht)), Iff.rfl, Iff.rfl⟩, ?_⟩
    simp [J]

/-- The query, for `EF φ` (`isEf`) or `¬ EF φ`, that is `AG ¬ φ`. -/
def Query (isEf : Bool) (a : Cond) : Cond := if isEf then .EF a else .not (.EF a)

/-- The verdict about the query is right about the coloured net. -/
def Right (N : CNet) (φ : FQ) (isEf : Bool) (v : Verdict3) : Prop :=
  (v = .satisfied → ((∃ M, N.Reach M ∧ φ.holds N M) ↔ isEf = true)) ∧ (v = .notSatisfied → ((∃ M, N.Reach M ∧ φ.holds N M) ↔ isEf = false))

/-- The net without colours, compiled. -/
structure Compiled (N : CNet) (ops : List Op) (B : Builder) (c : Builder.Compiled) : Prop where
  sim : Simulates N ops
  run : run ops = some B
  size : B.transitions.length < W32 - 1
  comp : B.makePetriNet false = some c

theorem Compiled.spec {N : CNet} {ops : List Op} {B : Builder} {c : Builder.Compiled} (h : Compiled N ops B c) :
    c.net.WF ∧ Totals N B c N.init c.init ∧ Allows N B c N.init c.init ∧
      ∀ M, N.Reach M → ∃ m, c.net.toNet.Reach c.init m ∧ Totals N B c M m ∧ Allows N B c M m := by
  obtain ⟨B', h1, h2⟩ := h.sim
  rw [h.run] at h1
  obtain rfl := Option.some.inj h1
  obtain ⟨c', h3, h4⟩ := h2 h.size false
  rw [h.comp] at h3
  obtain rfl := Option.some.inj h3
  exact h4

/-- The full claim of C71: about every fireability query. -/
def C71_full : Prop := ∀ (N : CNet) (ops : List Op) (B : Builder) (c : Builder.Compiled), Compiled N ops B c →
  ∀ (φ : FQ) (tr pl : Nat → Nat), φ.noCmp = true → (∀ t ∈ φ.fires, t < N.transitions.length ∧ B.transIdx c (N.trans t).name = some (tr t)) →
  ∀ (K : RwCtx) (fuel : Nat) (timeout : Nat → Bool) (l : List Mark), K.initrw = false → Visits c.net c.init timeout l →
  ∀ (isEf : Bool) (v : Verdict3), fireCheck K fuel timeout l (Query isEf (φ.compile c.net tr pl)) = some v → Right N φ isEf v

/-- **C71**.  The verdict that is drawn from the net without colours about a fireability query is right about the coloured net, whenever the
search ends or the time runs out: if each transition asked about takes a token in the net without colours, or has no arcs there and can
always fire in the coloured one. -/
theorem C71_fireability_verdict_partial {N : CNet} {ops : List Op} {B : Builder} {c : Builder.Compiled} (h : Compiled N ops B c)
    (φ : FQ) (tr pl : Nat → Nat) (hno : φ.noCmp = true)
    (htr : ∀ t ∈ φ.fires, t < N.transitions.length ∧ B.transIdx c (N.trans t).name = some (tr t))
    (hok : ∀ t ∈ φ.fires, Takes c.net (tr t) ∨ c.net.preset (tr t) = [] ∧ Always N t)
    (K : RwCtx) (fuel : Nat) (timeout : Nat → Bool) (l : List Mark) (hK : K.initrw = false) (hv : Visits c.net c.init timeout l)
    (isEf : Bool) (v : Verdict3) (hc : fireCheck K fuel timeout l (Query isEf (φ.compile c.net tr pl)) = some v) : Right N φ isEf v := by
  obtain ⟨hw, _, hinit, hsim⟩ := h.spec
  have hidx : ∀ {m : Mark} t, t ∈ φ.fires → (∃ k, ∃ hk : k < c.net.ntransitions, B.transIdx c (N.trans t).name = some k ∧ c.net.toNet.Enabled m ⟨k, hk⟩) →
      ∃ hk : tr t < c.net.ntransitions, c.net.toNet.Enabled m ⟨tr t, hk⟩ := fun t ht ⟨k, hk, h1, h2⟩ => by
    rw [(htr t ht).2] at h1
    obtain rfl := Option.some.inj h1
    exact ⟨hk, h2⟩
  refine fireCheck_sound (F := c.net) (init := c.init) (fun M => φ.holds N M) (a := φ.compile c.net tr pl) ?_ (fun M hM => ?_) hK hv (isEf := isEf) ?_ hc
  · exact src_compile hw .init φ hno (fun t ht ρ h1 h2 => hidx t ht (hinit t (htr t ht).1 ρ h1 h2)) hok
  · obtain ⟨m, h1, _, h2⟩ := hsim M hM
    exact ⟨m, h1, src_compile hw hM φ hno (fun t ht ρ h3 h4 => hidx t ht (h2 t (htr t ht).1 ρ h3 h4)) hok⟩
  · unfold Query negIf
    cases isEf <;> rfl

/-! ## C70: cardinality -/

theorem val_compile {N : CNet} {M : CMark} {m : Mark} {pl : Nat → Nat} (e : CE) (h : ∀ p ∈ e.places, m (pl p) = N.total M p) :
    (e.compile pl).val m = e.val N M := by
  induction e with
  | lit k => rfl
  | tok p => unfold CE.compile CE.val Expr.val; rw [h p (List.mem_singleton.2 rfl)]
  | add a b iha ihb =>
    unfold CE.compile CE.val
    rw [← iha fun p hp => h p (List.mem_append_left _ hp), ← ihb fun p hp => h p (List.mem_append_right _ hp)]
    simp [Expr.val, vals]
  | sub a b iha ihb =>
    unfold CE.compile CE.val
    rw [← iha fun p hp => h p (List.mem_append_left _ hp), ← ihb fun p hp => h p (List.mem_append_right _ hp)]
    simp [Expr.val, vals]
  | mul a b iha ihb =>
    unfold CE.compile CE.val
    rw [← iha fun p hp => h p (List.mem_append_left _ hp), ← ihb fun p hp => h p (List.mem_append_right _ hp)]
    simp [Expr.val, vals]

/-- The compiled formula says of the numbers of tokens what the query says of the coloured marking. -/
theorem sat_compile {N : CNet} {M : CMark} {F : FlatNet} {π : Nat → Mark} {tr pl : Nat → Nat} (φ : FQ) (hf : φ.fires = [])
    (h : ∀ p ∈ φ.places, π 0 (pl p) = N.total M p) : (φ.compile F tr pl).sat F.ts π ↔ φ.holds N M := by
  induction φ with
  | const b => unfold FQ.compile FQ.holds Cond.sat; exact Iff.rfl
  | fire t => cases hf
  | cmp op a b =>
    unfold FQ.compile FQ.holds Cond.sat
    rw [val_compile a fun p hp => h p (List.mem_append_left _ hp), val_compile b fun p hp => h p (List.mem_append_right _ hp)]
  | not q ih => unfold FQ.compile FQ.holds Cond.sat; rw [ih hf h]
  | and q r ihq ihr =>
    obtain ⟨h1, h2⟩ := List.append_eq_nil_iff.1 (show q.fires ++ r.fires = [] from hf)
    unfold FQ.compile FQ.holds Cond.sat satAll satAll satAll
    rw [ihq h1 fun p hp => h p (List.mem_append_left _ hp), ihr h2 fun p hp => h p (List.mem_append_right _ hp), and_true]
  | or q r ihq ihr =>
    obtain ⟨h1, h2⟩ := List.append_eq_nil_iff.1 (show q.fires ++ r.fires = [] from hf)
    unfold FQ.compile FQ.holds Cond.sat satAny satAny satAny
    rw [ihq h1 fun p hp => h p (List.mem_append_left _ hp), ihr h2 fun p hp => h p (List.mem_append_right _ hp), or_false]

/-- What becomes of the query means the same on the paths from the initial marking. -/
def Keeps (F : FlatNet) (m0 : Mark) (S : Cond → Option Cond) (q : Cond) : Prop :=
  ∀ r, S q = some r → ∀ π, F.ts.IsPath π → π 0 = m0 → (r.sat F.ts π ↔ q.sat F.ts π)

theorem isConst_eq {b : Bool} {c : Cond} (h : isConst b c = true) : c = .bool b := by
  cases c with
  | bool b' => unfold isConst at h; rw [beq_iff_eq.1 h]
  | _ => cases h

/-- The verdict is right if the simplification keeps the meaning of the two queries. -/
theorem cardCheck_sound {N : CNet} {F : FlatNet} {init : Mark} {φ : FQ} {tr pl : Nat → Nat} (hf : φ.fires = [])
    (hinit : ∀ p ∈ φ.places, init (pl p) = N.total N.init p)
    (hsim : ∀ M, N.Reach M → ∃ m, F.toNet.Reach init m ∧ ∀ p ∈ φ.places, m (pl p) = N.total M p)
    {S : Cond → Option Cond} {K : RwCtx} {fuel : Nat} {isEf : Bool}
    (hk0 : Keeps F init S (Query isEf (φ.compile F tr pl)))
    (hk1 : ∀ q1, pushNegation K fuel false false (.AG (φ.compile F tr pl)) = some q1 →
      Keeps F init S q1 ∧ ∀ π, F.ts.IsPath π → π 0 = init → (q1.sat F.ts π ↔ (Cond.AG (φ.compile F tr pl)).sat F.ts π))
    {v : Verdict3} (h : cardCheck S K fuel (Query isEf (φ.compile F tr pl)) = some v) : Right N φ isEf v := by
  generalize ha : φ.compile F tr pl = a at *
  obtain ⟨q1, r0, r1, h1, h2, h3, rfl⟩ : ∃ q1 r0 r1, pushNegation K fuel false false (.AG a) = some q1 ∧
      S (Query isEf a) = some r0 ∧ S q1 = some r1 ∧ cardVerdict isEf r0 r1 = v := by
    cases isEf with
    | true =>
      obtain ⟨q1, h1, h2⟩ := Option.bind_eq_some_iff.1 (show (pushNegation K fuel false false (.AG a)).bind _ = some v from h)
      dsimp only at h2
      split at h2
      · rename_i r0 r1 h3 h4
        exact ⟨q1, r0, r1, h1, h3, h4, Option.some.inj h2⟩
      · cases h2
    | false =>
      obtain ⟨q1, h1, h2⟩ := Option.bind_eq_some_iff.1 (show (pushNegation K fuel false false (.AG a)).bind _ = some v from h)
      dsimp only at h2
      split at h2
      · rename_i r0 r1 h3 h4
        exact ⟨q1, r0, r1, h1, h3, h4, Option.some.inj h2⟩
      · cases h2
  obtain ⟨π, hπ, h0⟩ := F.ts.exists_path init
  obtain ⟨hkq, hpush⟩ := hk1 q1 h1
  have hq0 := hk0 r0 h2 π hπ h0
  have hq1 := (hkq r1 h3 π hπ h0).trans (hpush π hπ h0)
  -- a reachable coloured marking gives a reachable marking
  have hup : (∃ M, N.Reach M ∧ φ.holds N M) → (Cond.EF a).sat F.ts π := by
    rintro ⟨M, hM, hh⟩
    obtain ⟨m, hr, hm⟩ := hsim M hM
    obtain ⟨ρ, i, h4, h5, h6⟩ := ShorthandProps.reach_path hr
    unfold Cond.sat
    refine ⟨ρ, h4, h5.trans h0.symm, i, ?_⟩
    rw [← ha]
    refine (sat_compile φ hf fun p hp => ?_).2 hh
    show ρ (i + 0) (pl p) = _
    rw [Nat.add_zero, h6]
    exact hm p hp
  -- the initial marking
  have hdown : (Cond.AG a).sat F.ts π → ∃ M, N.Reach M ∧ φ.holds N M := fun hs => by
    unfold Cond.sat at hs
    have h4 := hs π hπ rfl 0
    rw [← ha] at h4
    refine ⟨N.init, .init, (sat_compile φ hf fun p hp => ?_).1 h4⟩
    show π (0 + 0) (pl p) = _
    rw [h0]
    exact hinit p hp
  have hneg : ∀ b, r0 = .bool b → ((if isEf then (Cond.EF a).sat F.ts π else ¬ (Cond.EF a).sat F.ts π) ↔ b = true) := fun b hb => by
    rw [hb] at hq0
    have : (Cond.bool b).sat F.ts π ↔ b = true := by unfold Cond.sat; exact Iff.rfl
    rw [← this, hq0]
    unfold Query
    cases isEf with
    | true => exact Iff.rfl
    | false =>
      rw [if_neg (by decide), if_neg (by decide)]
      conv_rhs => unfold Cond.sat
  have hag : r1 = .bool true → ∃ M, N.Reach M ∧ φ.holds N M := fun hb => by
    rw [hb] at hq1
    exact hdown (hq1.1 (by unfold Cond.sat; rfl))
  unfold cardVerdict
  split
  · rename_i hc
    obtain ⟨hc, rfl⟩ := hc
    have := (hneg true (isConst_eq hc)).2 rfl
    rw [if_neg (by decide)] at this
    exact ⟨fun _ => ⟨fun h => absurd (hup h) this, (fun h => nomatch h)⟩, (fun h => nomatch h)⟩
  · split
    · rename_i hc
      obtain ⟨hc, rfl⟩ := hc
      have := hneg false (isConst_eq hc)
      rw [if_pos rfl] at this
      exact ⟨(fun h => nomatch h), fun _ => ⟨fun h => absurd (this.1 (hup h)) (by decide), (fun h => nomatch h)⟩⟩
    · split
      · rename_i hc
        obtain ⟨hc, rfl⟩ := hc
        exact ⟨(fun h => nomatch h), fun _ => iff_of_true (hag (isConst_eq hc)) rfl⟩
      · split
        · rename_i hc
          obtain ⟨hc, rfl⟩ := hc
          exact ⟨fun _ => iff_of_true (hag (isConst_eq hc)) rfl, (fun h => nomatch h)⟩
        · exact ⟨(fun h => nomatch h), (fun h => nomatch h)⟩

theorem atInit_keeps {F : FlatNet} (w : F.WF) (m0 : Mark) (q : Cond) {π : Nat → Mark} (hπ : F.ts.IsPath π) (h0 : π 0 = m0) :
    (atInit F m0 q).sat F.ts π ↔ q.sat F.ts π := by
  obtain ⟨h1, h2⟩ := EvalProps.C16_early_evaluation_sound F w m0 q π hπ h0
  unfold atInit
  split
  · rename_i h; exact iff_of_true (by unfold Cond.sat; rfl) (h1 h)
  · rename_i h; exact iff_of_false (by unfold Cond.sat; decide) (h2 h)
  · exact Iff.rfl

theorem atInit_wf (F : FlatNet) (m0 : Mark) {q : Cond} (hq : q.wf = true) : (atInit F m0 q).wf = true := by
  unfold atInit
  split
  · rfl
  · rfl
  · exact hq

/-- The evaluation, the rewriting and the linear programs keep the meaning of a query: if the solver is right when it says that there is no
solution, no number of tokens reaches 2³², and the constants are small enough for the linear programs (C22). -/
theorem cardSimp_keeps {F : FlatNet} (w : F.WF) {m0 : Mark} (hm : RewriteProps.Within32 F m0) {o : Simp.Oracle} (ho : SimplifyProps.SoundSolver F m0 o)
    (fuel : Nat) (lp : Bool) {q : Cond} (hq : q.wf = true)
    (hex : lp = true → ∀ q1, pushNegation ⟨F.deadlocked m0, m0, true⟩ fuel false false (atInit F m0 q) = some q1 → Simp.exactC m0 q1 = true) :
    Keeps F m0 (cardSimp o fuel F m0 lp) q := by
  intro r hr π hπ h0
  have hd : F.deadlocked m0 = true ↔ F.ts.Dead m0 := (C02_deadlock_exact F w m0).trans (F.ts_dead m0).symm
  unfold cardSimp at hr
  dsimp only at hr
  obtain ⟨q1, h1, h2⟩ := Option.bind_eq_some_iff.1 hr
  have hg := pushNegation_good (K := ⟨F.deadlocked m0, m0, true⟩) (RewriteProps.within32_inv F) hd fuel false false _ q1 h1 (atInit_wf F m0 hq)
  have hs1 := (RewriteProps.C17_rewriting_initially_partial F w m0 fuel false true _ q1 (atInit_wf F m0 hq) h1 hm π hπ h0).trans (atInit_keeps w m0 q hπ h0)
  cases lp with
  | false => obtain rfl := Option.some.inj (show some q1 = some r from h2); exact hs1
  | true =>
    rw [if_pos rfl] at h2
    obtain ⟨s, h3, h4⟩ := Option.bind_eq_some_iff.1 h2
    have hsg := Simp.simplify_good (SimplifyProps.setting w hm ho) (fun _ _ h => h) fuel [] false q1 s h3 hg.wf (hex rfl q1 h1)
    have hs2 := SimplifyProps.C22_simplification_partial F w m0 hm o ho fuel fuel [] false q1 hg.wf (hex rfl q1 h1) s h3 π hπ (by rw [h0]; exact .refl _ _)
    have hs3 := RewriteProps.C17_rewriting_initially_partial F w m0 fuel false true _ r hsg.wf h4 hm π hπ h0
    exact hs3.trans (hs2.trans hs1)

/-- **C70**.  The verdict that is drawn from the net without colours about a cardinality query is right about the coloured net, for any solver
that is right when it says that there is no solution.  Partial: the query contains no vacuous comparison and no constant that the linear
programs round (C17 and C22 are refuted for them), and the numbers of tokens stay below 2³². -/
theorem C70_cardinality_verdict_partial {N : CNet} {ops : List Op} {B : Builder} {c : Builder.Compiled} (h : Compiled N ops B c)
    (φ : FQ) (tr pl : Nat → Nat) (hf : φ.fires = []) (hpl : ∀ p ∈ φ.places, p < N.places.length ∧ B.placeIdx c (N.place p).name = some (pl p))
    (hm : RewriteProps.Within32 c.net c.init) {o : Simp.Oracle} (ho : SimplifyProps.SoundSolver c.net c.init o)
    (fuel : Nat) (initrw lp : Bool) (isEf : Bool) (hwf : (Cond.AG (φ.compile c.net tr pl)).wf = true)
    (hex : lp = true → ∀ q q1, (q = Query isEf (φ.compile c.net tr pl) ∨
        pushNegation ⟨c.net.deadlocked c.init, c.init, initrw⟩ fuel false false (.AG (φ.compile c.net tr pl)) = some q) →
      pushNegation ⟨c.net.deadlocked c.init, c.init, true⟩ fuel false false (atInit c.net c.init q) = some q1 → Simp.exactC c.init q1 = true)
    (v : Verdict3) (hc : cardCheck (cardSimp o fuel c.net c.init lp) ⟨c.net.deadlocked c.init, c.init, initrw⟩ fuel
      (Query isEf (φ.compile c.net tr pl)) = some v) : Right N φ isEf v := by
  obtain ⟨hw, hinit, _, hsim⟩ := h.spec
  have htot : ∀ {M m}, Totals N B c M m → ∀ p ∈ φ.places, m (pl p) = N.total M p := fun ht p hp => by
    obtain ⟨h1, h2⟩ := hpl p hp
    obtain ⟨i, h3, h4⟩ := ht p h1
    rw [h2] at h3
    obtain rfl := Option.some.inj h3
    exact h4
  have hd : c.net.deadlocked c.init = true ↔ c.net.ts.Dead c.init := (C02_deadlock_exact c.net hw c.init).trans (c.net.ts_dead c.init).symm
  have hq : (Query isEf (φ.compile c.net tr pl)).wf = true := by
    unfold Query
    unfold Cond.wf at hwf
    split <;> simpa [Cond.wf] using hwf
  refine cardCheck_sound hf (htot hinit) (fun M hM => ?_) (cardSimp_keeps hw hm ho fuel lp hq fun hlp q1 h1 => hex hlp _ q1 (.inl rfl) h1) (fun q1 h1 => ?_) hc
  · obtain ⟨m, h1, h2, _⟩ := hsim M hM
    exact ⟨m, h1, htot h2⟩
  · have hg := pushNegation_good (K := ⟨c.net.deadlocked c.init, c.init, initrw⟩) (RewriteProps.within32_inv c.net) hd fuel false false _ q1 h1 hwf
    exact ⟨cardSimp_keeps hw hm ho fuel lp hg.wf fun hlp q2 h2 => hex hlp _ q2 (.inr h1) h2,
      fun π hπ h0 => RewriteProps.C17_rewriting_initially_partial c.net hw c.init fuel false initrw _ q1 hwf h1 hm π hπ h0⟩

/-- Verdicts of all three kinds, with a solver that never finds anything: never five tokens; always at most five tokens, hence now; not decided. -/
example : cardCheck (cardSimp SimplifyProps.lazyOracle 50 SimplifyProps.exNet SimplifyProps.exM true) ⟨false, SimplifyProps.exM, false⟩ 50
      (Query true (.cmp .le (.lit 5) (.id 0))) = some .notSatisfied ∧
    cardCheck (cardSimp SimplifyProps.lazyOracle 50 SimplifyProps.exNet SimplifyProps.exM true) ⟨false, SimplifyProps.exM, false⟩ 50
      (Query false (.cmp .le (.id 0) (.lit 5))) = some .notSatisfied ∧
    cardCheck (cardSimp SimplifyProps.lazyOracle 50 SimplifyProps.exNet SimplifyProps.exM true) ⟨false, SimplifyProps.exM, false⟩ 50
      (Query true (.cmp .le (.id 1) (.lit 5))) = some .unknown := ⟨rfl, rfl, rfl⟩

/-! ## Transitions that take nothing -/

/-- **Finding** (Analyze.cpp:187-191 with ExplicitColoredModelChecker.cpp:149-176).  In the net without colours the guard is gone.  A transition
that has no arcs there is taken for fireable always, so the engine says that it can fire. -/
theorem C71_finding_no_arcs {F : FlatNet} {k : Nat} (hk : F.preset k = []) {K : RwCtx} (hK : K.initrw = false) (fuel : Nat) {timeout : Nat → Bool}
    (ht : timeout 0 = false) (m : Mark) (l : List Mark) :
    fireCheck K (fuel + 4) timeout (m :: l) (.EF (Shorthand.fireable F k)) = some .satisfied := by
  have h1 : Shorthand.fireable F k = .bool true := by unfold Shorthand.fireable; rw [hk]; rfl
  obtain ⟨dl, m0, rw⟩ := K
  dsimp only at hK
  subst hK
  rw [h1]
  have h2 : fireQueries ⟨dl, m0, false⟩ (fuel + 4) (.bool true) = some (.not (.EF (.bool false)), .EF (.bool true)) := rfl
  have h3 : fireCheck ⟨dl, m0, false⟩ (fuel + 4) timeout (m :: l) (.EF (.bool true)) =
      some (match feSearch timeout 0 (m :: l) [(.not (.EF (.bool false)), .unknown), (.EF (.bool true), .unknown), (.EF (.bool true), .unknown)] with
        | r0 :: r1 :: _ => fireVerdict true r0 r1
        | _ => .unknown) := by
    unfold fireCheck
    dsimp only
    rw [h2]
    rfl
  rw [h3]
  unfold feSearch
  rw [if_neg (by rw [ht]; decide)]
  rfl

/-- **Finding** (IgnorantFireabilityVisitor.cpp:67-81 with Expressions.cpp, the merging of comparisons).  A transition that has inhibitor arcs only is
compiled to upper bounds.  The evaluation looks at lower bounds only, but `¬ t ∧ ¬ t` merges the two negated comparisons into one that
is not negated, and the upper bound becomes a lower one: if the place stays below the weight, the engine says that `t` can fire in all
reachable markings, whatever its guard is. -/
theorem C71_finding_inhibitors_only {F : FlatNet} {k p : Nat} {d : Int} (hk : F.preset k = [⟨p, 1, true, d⟩])
    {K : RwCtx} (hK : K.initrw = false) (fuel : Nat) (ms : List Mark) (hne : ms ≠ []) (hms : ∀ m ∈ ms, m p = 0) :
    fireCheck K (fuel + 6) (fun _ => false) ms (.EF (.and [.not (Shorthand.fireable F k), .not (Shorthand.fireable F k)])) = some .notSatisfied := by
  have h1 : Shorthand.fireable F k = .cc [⟨p, 0, 0⟩] false := by unfold Shorthand.fireable; rw [hk]; rfl
  obtain ⟨dl, m0, rw⟩ := K
  dsimp only at hK
  subst hK
  rw [h1]
  have h2 : fireQueries ⟨dl, m0, false⟩ (fuel + 6) (.and [.not (.cc [⟨p, 0, 0⟩] false), .not (.cc [⟨p, 0, 0⟩] false)]) =
      some (.not (.EF (.or [.cc [⟨p, 0, 0⟩] false, .cc [⟨p, 0, 0⟩] false])),
        .EF (.and [.cc [⟨p, 1, umax⟩] false, .cc [⟨p, 0, 0⟩] true])) := rfl
  have hm : ∀ m ∈ ms, fe m (.EF (.and [.cc [⟨p, 1, umax⟩] false, .cc [⟨p, 0, 0⟩] true])) = .rFalse := fun m hm => by
    have : lowerFails m [⟨p, 1, umax⟩] = true := by simp [lowerFails, hms m hm]
    simp [fe, feAnd, this, Res.ofBool]
  have key : ∀ (ms : List Mark) (j : Nat) (qs : List (Cond × Answer)) (r0 : Answer) (c0 c1 : Cond),
      (∀ m ∈ ms, fe m c1 = .rFalse) → (feSearch (fun _ => false) j ms ((c0, .ignore) :: (c1, .unknown) :: qs)).take 2 = [.ignore, .notSatisfied] := by
    intro ms
    induction ms with
    | nil => intro j qs r0 c0 c1 _; rfl
    | cons m ms ih =>
      intro j qs r0 c0 c1 h
      unfold feSearch
      rw [if_neg (by decide)]
      have h3 : feStep m c1 .unknown = .unknown := by unfold feStep; rw [if_pos rfl, h m List.mem_cons_self]
      have h4 : feStep m c0 .ignore = .ignore := rfl
      simp only [List.map_cons, h3, h4, List.any_cons, decide_true, Bool.true_or, Bool.or_true, if_true]
      exact ih _ _ r0 c0 c1 fun m' hm' => h m' (List.mem_cons_of_mem _ hm')
  unfold fireCheck
  dsimp only
  rw [h2]
  cases ms with
  | nil => exact absurd rfl hne
  | cons m ms =>
    have h3 : ∀ qs c1, fe m c1 = .rFalse → (∀ m ∈ ms, fe m c1 = .rFalse) →
        (feSearch (fun _ => false) 0 (m :: ms) ((.not (.EF (.or [.cc [⟨p, 0, 0⟩] false, .cc [⟨p, 0, 0⟩] false])), .unknown) :: (c1, .unknown) :: qs)).take 2 =
          [.ignore, .notSatisfied] := fun qs c1 h5 h6 => by
      unfold feSearch
      rw [if_neg (by decide)]
      have h3 : feStep m c1 .unknown = .unknown := by unfold feStep; rw [if_pos rfl, h5]
      have h4 : feStep m (.not (.EF (.or [.cc [⟨p, 0, 0⟩] false, .cc [⟨p, 0, 0⟩] false]))) .unknown = .ignore := rfl
      simp only [List.map_cons, h3, h4, List.any_cons, decide_true, Bool.true_or, Bool.or_true, if_true]
      exact key ms _ _ .ignore _ _ h6
    have h4 := h3 [(.EF (.and [.not (.cc [⟨p, 0, 0⟩] false), .not (.cc [⟨p, 0, 0⟩] false)]), .unknown)] _ (hm m List.mem_cons_self)
      fun m' hm' => hm m' (List.mem_cons_of_mem _ hm')
    rw [Option.map_some]
    generalize feSearch _ _ _ _ = r at h4 ⊢
    match r, h4 with
    | r0 :: r1 :: _, h4 =>
      simp only [List.take_succ_cons, List.take_zero, List.cons.injEq, and_true] at h4
      obtain ⟨rfl, rfl⟩ := h4
      rfl

namespace Example

/-- one place, and one transition without arcs whose guard `x ≠ x` never holds -/
def net : CNet where
  types := ColorIgnorantProps.Example.T
  vty := fun _ => 1
  places := [⟨"P", 0, []⟩]
  transitions := [⟨"s", some (.ne (.var 0) (.var 0)), [], []⟩]
  inhibitors := []

theorem mem_trans {t : CTrans} (h : t ∈ net.transitions) : t = ⟨"s", some (.ne (.var 0) (.var 0)), [], []⟩ := List.mem_singleton.1 h

theorem net_wf : net.WF where
  types := ColorIgnorantProps.Example.twf
  pnames := by decide
  tnames := by decide
  vpos := by intro t _ v _; show 0 < 3; decide
  guard := by
    intro t ht g hg
    obtain rfl := mem_trans ht
    obtain rfl := Option.some.inj hg
    exact ⟨1, rfl, rfl⟩
  arcs := by
    intro t ht a ha
    obtain rfl := mem_trans ht
    cases ha
  marking := by
    intro p hp
    obtain rfl := List.mem_singleton.1 hp
    exact ⟨by simp, by simp, by decide⟩
  inhib := (fun h hh => nomatch hh)

theorem net_xok : XOK net where
  types := ColorIgnorantProps.Example.tfit
  guard := by
    intro t ht g hg
    refine ⟨net_wf.guard t ht g hg, ?_⟩
    obtain rfl := mem_trans ht
    obtain rfl := Option.some.inj hg
    exact ⟨trivial, trivial⟩
  arcs := by
    intro t ht a ha
    obtain rfl := mem_trans ht
    cases ha
  marking := by
    intro p hp
    obtain rfl := List.mem_singleton.1 hp
    exact ⟨by simp, by simp⟩

def ops : List Op := (stripOps net).getD []

theorem ops_eq : ops = [.place "P" 0, .trans "s" 0, .trans "s" 0] := by decide +kernel

theorem simulates : Simulates net ops := by
  have h1 : stores net net.transitions = some ((stores net net.transitions).getD []) := rfl
  refine C69_color_ignorant_partial net_wf net_xok (by unfold CNet.NoMix; decide) ?_ (by decide) h1 ?_ (by decide +kernel)
  · intro t ht
    obtain rfl := mem_trans ht
    refine ⟨?_, ?_⟩ <;>
    · intro cs hc
      obtain rfl := Option.some.inj (show some [] = some cs from hc)
      decide
  · rw [if_neg (by decide +kernel)]
    intro t ht cs hc a ha
    obtain rfl := mem_trans ht
    have : cs = [] := by rcases hc with h | h <;> exact (Option.some.inj (show some [] = some cs from h)).symm
    rw [this] at ha
    cases ha

theorem sane : Sane ops := by
  rw [ops_eq]
  refine ⟨?_, ?_, ?_, ?_⟩
  · intro p t i k h
    simp at h
  · intro t p k h
    simp at h
  · intro t p
    simp [specPre, W32]
  · intro t p
    simp [specPost, W32]

theorem never (M : CMark) : ¬ (FQ.fire 0).holds net M := by
  rintro ⟨ρ, ⟨_, h⟩, _⟩
  exact h rfl

/-- All hypotheses of the claim hold for the net, and the verdict is wrong: the transition never fires. -/
theorem wrong : ∃ B c k, Compiled net ops B c ∧ B.transIdx c "s" = some k ∧ Visits c.net c.init (fun _ => false) [c.init] ∧
    fireCheck ⟨false, c.init, false⟩ 4 (fun _ => false) [c.init] (Query true ((FQ.fire 0).compile c.net (fun _ => k) id)) = some .satisfied := by
  obtain ⟨B, hB, hS⟩ := simulates
  have hsize : (run ops).map (fun B => B.transitions.length) = some 1 := by decide +kernel
  rw [hB, Option.map_some, Option.some.injEq] at hsize
  have hlt : B.transitions.length < W32 - 1 := by rw [hsize]; decide
  obtain ⟨c, hc, hw, hf⟩ := C03_makePetriNet_faithful ops sane B hB (by decide +kernel) hlt false
  obtain ⟨k, hk⟩ := (hf.trans_idx "s").1 (by decide +kernel)
  have hkl := hf.trans_lt _ _ hk
  have hzero : ∀ k i, c.net.toNet.pre k i = 0 ∧ c.net.toNet.inh k i = none ∧ c.net.toNet.post k i = 0 := fun k i => by
    by_cases hi : i < c.net.nplaces
    · obtain ⟨p, hp⟩ := hf.place_surj i hi
      obtain ⟨t, ht⟩ := hf.trans_surj k.1 k.2
      obtain ⟨h1, h2, h3⟩ := hf.arcs t p k i k.2 ht hp
      rw [h1, h2, h3]
      refine ⟨?_, ?_, ?_⟩
      · show specPre ops t p = 0
        rw [ops_eq]; simp [specPre]
      · show specInh ops t p = none
        rw [ops_eq]; simp [specInh]
      · show specPost ops t p = 0
        rw [ops_eq]; simp [specPost]
    · exact hf.arcs_none k i (by omega)
  have hpre : c.net.preset k = [] := by
    cases hps : c.net.preset k with
    | nil => rfl
    | cons i l =>
      obtain ⟨h1, h2, _⟩ := hzero ⟨k, hkl⟩ i.place
      unfold FlatNet.toNet at h1 h2
      simp only [hps] at h1 h2
      have hmem : i ∈ c.net.invariants := by
        have : i ∈ c.net.preset k := by rw [hps]; exact List.mem_cons_self
        exact List.mem_of_mem_drop (List.mem_of_mem_take this)
      have hpos := hw.tokens_pos i hmem
      cases hin : i.inhibitor with
      | true => simp [hin] at h2
      | false => simp [hin] at h1; omega
  refine ⟨B, c, k, ⟨⟨B, hB, hS⟩, hB, hlt, hc⟩, hk, ⟨rfl, .inr ?_⟩, C71_finding_no_arcs hpre rfl 0 rfl c.init []⟩
  rintro m ⟨ts, hr⟩
  rw [List.mem_singleton]
  generalize c.init = m0 at hr
  induction hr with
  | nil m => rfl
  | cons hs _ ih =>
    rw [ih, hs.2]
    funext i
    obtain ⟨h1, _, h3⟩ := hzero _ i
    show _ - c.net.toNet.pre _ i + c.net.toNet.post _ i = _
    rw [h1, h3]
    rfl

end Example

/-- so the full claim is false -/
theorem C71_full_fails : ¬ C71_full := fun h => by
  obtain ⟨B, c, k, h1, h2, h3, h4⟩ := Example.wrong
  have h5 := h _ _ _ _ h1 (.fire 0) (fun _ => k) id rfl (fun t ht => by obtain rfl := List.mem_singleton.1 ht; exact ⟨by decide, h2⟩)
    _ _ _ _ rfl h3 true _ h4
  obtain ⟨M, _, h6⟩ := (h5.1 rfl).2 rfl
  exact Example.never M h6

namespace Example

def ops2 : List Op := (stripOps (ColorIgnorantProps.Example.net "u" [])).getD []

theorem ops2_eq : ops2 = [.place "P" 1, .place "Q" 1, .place "R" 0, .trans "t" 0, .trans "u" 0, .trans "t" 0, .input "P" "t" false 1,
    .trans "t___2" 0, .input "P" "t___2" false 2, .trans "u" 0, .input "Q" "u" false 1, .output "u" "R" 1] := by decide +kernel

theorem ops2_sane : Sane ops2 := by
  rw [ops2_eq]
  refine ⟨?_, ?_, ?_, ?_⟩
  · intro p t i k h
    simp only [List.mem_cons, Op.input.injEq, reduceCtorEq, List.not_mem_nil, or_false, false_or] at h
    rcases h with ⟨_, _, _, rfl⟩ | ⟨_, _, _, rfl⟩ | ⟨_, _, _, rfl⟩ <;> decide
  · intro t p k h
    simp only [List.mem_cons, Op.output.injEq, reduceCtorEq, List.not_mem_nil, or_false, false_or] at h
    obtain ⟨_, _, rfl⟩ := h
    decide
  · intro t p
    simp only [specPre, List.map_cons, List.map_nil, List.sum_cons, List.sum_nil, W32]
    split <;> split <;> split <;> omega
  · intro t p
    simp only [specPost, List.map_cons, List.map_nil, List.sum_cons, List.sum_nil, W32]
    split <;> omega

/-- The theorems apply to the net of C69 with a subtraction: its transition `u` takes a token. -/
example : ∃ B c k, Compiled (ColorIgnorantProps.Example.net "u" []) ops2 B c ∧ B.transIdx c "u" = some k ∧ Takes c.net k := by
  obtain ⟨h1, h2⟩ := ColorIgnorantProps.Example.stores_eq "u" []
  have hsim : Simulates (ColorIgnorantProps.Example.net "u" []) ops2 :=
    C69_color_ignorant_partial (ColorIgnorantProps.Example.net_wf _ _ (by decide) (by decide)) (ColorIgnorantProps.Example.net_xok _ _)
      (by unfold CNet.NoMix; decide) (ColorIgnorantProps.Example.net_small _ _) (by decide)
      h1 (by rw [h2, if_pos rfl]; exact ⟨ColorIgnorantProps.Example.fresh, rfl⟩) (by unfold ops2; decide +kernel)
  obtain ⟨B, hB, hS⟩ := hsim
  have hsize : (run ops2).map (fun B => B.transitions.length) = some 3 := by decide +kernel
  rw [hB, Option.map_some, Option.some.injEq] at hsize
  have hlt : B.transitions.length < W32 - 1 := by rw [hsize]; decide
  obtain ⟨c, hc, hw, hf⟩ := C03_makePetriNet_faithful ops2 ops2_sane B hB (by decide +kernel) hlt false
  obtain ⟨k, hk⟩ := (hf.trans_idx "u").1 (by decide +kernel)
  obtain ⟨i, hi⟩ := (hf.place_idx "Q").1 (by decide +kernel)
  have hkl := hf.trans_lt _ _ hk
  refine ⟨B, c, k, ⟨⟨B, hB, hS⟩, hB, hlt, hc⟩, hk, hkl, i, ?_⟩
  rw [(hf.arcs _ _ k i hkl hk hi).1]
  have : (Builder.specNet ops2).pre "u" "Q" = 1 := by decide +kernel
  rw [this]
  decide

end Example

end ColorIgnorantCheckProps
end Verif
