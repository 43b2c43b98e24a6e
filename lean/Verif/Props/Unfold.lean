import Verif.CPN.Compile
import Verif.Props.Builder

/-!
# C34: unfolding a coloured net preserves its behaviour

The coloured semantics is `Verif/Spec/Coloured.lean`: a marking gives each place a multiset of values, a binding gives
the variables values of their types, a transition fires under a binding that satisfies its guard.
-/

namespace Verif
namespace CPN

open Builder (Op specPre specPost specInh specInit specNet Sane run)

/-- The full statement: for every well-formed coloured net with a place the unfolder returns, the builder accepts and
compiles the unfolded net, the reachable markings of that net, read through the names of the places, are those of the
coloured net, and a query finds all tokens of a coloured place under its name. -/
def C34_full : Prop := ∀ (N : CNet), N.WF → N.SmallSums → 0 < N.places.length →
  ∃ fuel s B, unfold N fuel = some s ∧ run s.ops = some B ∧ (B.transitions.length < W32 - 1 → ∀ reorder,
  ∃ c, B.makePetriNet reorder = some c ∧
  (∀ M, N.Reach M → ∃ m u, c.net.toNet.Reach c.init m ∧ Rel N s M u ∧ ∀ p i, B.placeIdx c p = some i → m i = u p) ∧
  (∀ m, c.net.toNet.Reach c.init m → ∃ M u, N.Reach M ∧ Rel N s M u ∧ ∀ p i, B.placeIdx c p = some i → m i = u p) ∧
  ∀ M u, Rel N s M u → ∀ p < N.places.length, ∀ order : List (Nat × Nat × String),
    order.Perm (s.names.filter fun q => q.1 == p) → ((resolve order).map u).sum = N.total M p)

/-- the unfolded transition `n` stands for transition `t` under the assignments that agree with the binding `b` -/
structure Inst where
  name : String
  t : Nat
  b : Binding

/-- **C34** (firings).  For a well-formed coloured net (different names, well-typed expressions, numbers that fit), if
the unfolder returns, then: its transitions are named differently and correspond one to one to the pairs of a
transition and a legal binding; the initial markings correspond; and when markings correspond, an unfolded transition
can fire exactly when its coloured transition can fire under its binding, and the markings reached correspond. -/
theorem C34_unfolding_same_firings_partial (N : CNet) (w : N.WF) (fuel : Nat) (s : U) (hu : unfold N fuel = some s) :
    ∃ is : List Inst, (is.map (·.name)).Nodup ∧
      (∀ n, (∃ pl, Op.trans n pl ∈ s.ops) ↔ n ∈ is.map (·.name)) ∧
      (∀ i ∈ is, i.t < N.transitions.length ∧ ∃ ρ, Agree N.types N.vty i.b ρ (N.trans i.t).vars) ∧
      (∀ i ∈ is, ∀ ρ, Agree N.types N.vty i.b ρ (N.trans i.t).vars → N.Legal i.t ρ) ∧
      (∀ t < N.transitions.length, ∀ ρ, N.Legal t ρ → ∃ i ∈ is, i.t = t ∧ Agree N.types N.vty i.b ρ (N.trans t).vars) ∧
      (∀ i ∈ is, ∀ j ∈ is, ∀ ρ, i.t = j.t → Agree N.types N.vty i.b ρ (N.trans i.t).vars →
        Agree N.types N.vty j.b ρ (N.trans j.t).vars → i = j) ∧
      Rel N s N.init (specInit s.ops) ∧
      ∀ i ∈ is, ∀ ρ, Agree N.types N.vty i.b ρ (N.trans i.t).vars → ∀ M u, Rel N s M u →
        ((specNet s.ops).Enabled u i.name ↔ N.Enabled M i.t ρ) ∧
        (N.Enabled M i.t ρ → Rel N s (N.fire M i.t ρ) ((specNet s.ops).fire u i.name)) := by
  have hg := genOK_of_unfold w hu
  obtain ⟨s', h1, r, _⟩ := result_of w hg.legal
  have hss : s' = s := by
    unfold unfold at hu
    rw [hu] at h1
    exact (Option.some.inj h1).symm
  subst hss
  have hn := emitT_nodup (gen := naiveBindings N.types N.vty fuel) N.transitions w.tnames
  -- the index of the transition of an emitted transition
  have hidx : ∀ e ∈ emitT (naiveBindings N.types N.vty fuel) N.transitions,
      N.transitions.findIdx (fun x => x.name == e.t.name) < N.transitions.length ∧
      e.t = N.trans (N.transitions.findIdx fun x => x.name == e.t.name) := by
    intro e he
    obtain ⟨t, ht, het, _⟩ := emit_index hg.legal he
    have hlt : N.transitions.findIdx (fun x => x.name == e.t.name) < N.transitions.length :=
      List.findIdx_lt_length_of_exists ⟨e.t, by rw [het]; exact trans_mem ht, by simp⟩
    refine ⟨hlt, ?_⟩
    have h2 : (N.trans (N.transitions.findIdx fun x => x.name == e.t.name)).name = e.t.name := by
      have h3 := List.findIdx_getElem (w := hlt)
      unfold CNet.trans
      rw [List.getD_eq_getElem?_getD, List.getElem?_eq_getElem hlt]
      simpa using h3
    have h4 := w.trans_inj hlt ht (by rw [h2, het])
    rw [h4, het]
  let f : Emit → Inst := fun e => ⟨e.name, N.transitions.findIdx (fun x => x.name == e.t.name), e.b⟩
  have hnames : ((emitT (naiveBindings N.types N.vty fuel) N.transitions).map f).map (·.name) =
      (emitT (naiveBindings N.types N.vty fuel) N.transitions).map (·.name) := by rw [List.map_map]; rfl
  refine ⟨(emitT (naiveBindings N.types N.vty fuel) N.transitions).map f, by rw [hnames]; exact hn, ?_, ?_, ?_, ?_, ?_, rel_init w r, ?_⟩
  · intro n
    rw [hnames, List.mem_map]
    constructor
    · rintro ⟨pl, hpl⟩
      exact ((r.trans n pl).1 hpl).2
    · intro h
      exact ⟨0, (r.trans n 0).2 ⟨rfl, h⟩⟩
  · intro i hi
    obtain ⟨e, he, rfl⟩ := List.mem_map.1 hi
    obtain ⟨h2, h3⟩ := hidx e he
    obtain ⟨_, _, _, ⟨ρ, ha⟩, _⟩ := emit_index hg.legal he
    refine ⟨h2, ρ, ?_⟩
    change Agree N.types N.vty e.b ρ (N.trans (N.transitions.findIdx _)).vars
    rw [← h3]
    exact ha
  · intro i hi ρ ha
    obtain ⟨e, he, rfl⟩ := List.mem_map.1 hi
    obtain ⟨h2, h3⟩ := hidx e he
    obtain ⟨t, ht, het, _, hl⟩ := emit_index hg.legal he
    have h4 : N.transitions.findIdx (fun x => x.name == e.t.name) = t := w.trans_inj h2 ht (by rw [← h3, het])
    change Agree N.types N.vty e.b ρ (N.trans (N.transitions.findIdx _)).vars at ha
    rw [← h3] at ha
    have := hl ρ ha
    change N.Legal (N.transitions.findIdx _) ρ
    rw [h4]
    exact this
  · intro t ht ρ hl
    obtain ⟨bs, h2, _, _, h5, _⟩ := hg _ (trans_mem ht)
    obtain ⟨j, b, h6, h7⟩ := h5 ρ hl.1 hl.2
    have he : (⟨bname (N.trans t).name j, N.trans t, b⟩ : Emit) ∈ emitT (naiveBindings N.types N.vty fuel) N.transitions :=
      (mem_emitT _).2 ⟨N.trans t, trans_mem ht, j, b, by rw [h2]; exact h6, rfl⟩
    refine ⟨_, List.mem_map.2 ⟨_, he, rfl⟩, ?_, h7⟩
    obtain ⟨h8, h9⟩ := hidx _ he
    exact w.trans_inj h8 ht (by rw [← h9])
  · intro i hi j hj ρ hij hai haj
    obtain ⟨e, he, rfl⟩ := List.mem_map.1 hi
    obtain ⟨e', he', rfl⟩ := List.mem_map.1 hj
    have h2 := (hidx e he).2
    have h3 := (hidx e' he').2
    change N.transitions.findIdx _ = N.transitions.findIdx _ at hij
    change Agree N.types N.vty e.b ρ (N.trans (N.transitions.findIdx _)).vars at hai
    change Agree N.types N.vty e'.b ρ (N.trans (N.transitions.findIdx _)).vars at haj
    rw [← h2] at hai
    rw [← h3] at haj
    have htt : e.t = e'.t := by rw [h2, h3, hij]
    obtain ⟨t, ht, k, b, hb, rfl⟩ := (mem_emitT _).1 he
    obtain ⟨t', ht', k', b', hb', rfl⟩ := (mem_emitT _).1 he'
    simp only at htt hai haj
    subst htt
    obtain ⟨bs, h4, _, _, _, h5⟩ := hg _ ht
    rw [h4] at hb hb'
    have := h5 ρ k k' b b' hb hb' hai haj
    subst this
    rw [Option.some.inj (hb.symm.trans hb')]
  · intro i hi ρ ha M u hr
    obtain ⟨e, he, rfl⟩ := List.mem_map.1 hi
    obtain ⟨h2, h3⟩ := hidx e he
    have ha' : Agree N.types N.vty e.b ρ e.t.vars := by rw [h3]; exact ha
    exact ⟨rel_enabled w r hn he h2 h3 ha' hr, fun hen => rel_fire w r hn he h2 h3 ha' hr hen⟩

/-- **C34** (termination).  The unfolder returns on a well-formed net: with the naive generator of bindings, after as
many steps as there are bindings. -/
theorem C34_unfolding_returns (N : CNet) (w : N.WF) :
    ∃ fuel0, ∀ fuel, fuel0 ≤ fuel → ∃ s, unfold N fuel = some s := by
  refine ⟨(N.transitions.map fun t => (vsizes N.types N.vty t.vars).prod).sum, fun fuel hf => ?_⟩
  have hle : ∀ t ∈ N.transitions, (vsizes N.types N.vty t.vars).prod ≤ fuel := by
    intro t ht
    refine Nat.le_trans ?_ hf
    clear hf
    generalize N.transitions = l at *
    induction l with
    | nil => cases ht
    | cons a l ih =>
      rw [List.map_cons, List.sum_cons]
      rcases List.mem_cons.1 ht with rfl | ht
      · omega
      · have := ih ht; omega
  obtain ⟨s, h1, _⟩ := result_of w (genOK_naive w hle).legal
  exact ⟨s, h1⟩

/-- markings of the compiled net that stand for markings of the coloured net -/
def Reads (N : CNet) (s : U) (B : Builder) (c : Builder.Compiled) (M : CMark) (m : Nat → Nat) : Prop :=
  ∃ u, Rel N s M u ∧ ∀ p i, B.placeIdx c p = some i → m i = u p

/-- **C34** (reachability).  For a well-formed coloured net with a place, in which no transition takes tokens from a
place that inhibits it: the builder accepts the unfolded net and compiles it, and the reachable markings of the compiled
net stand for exactly the reachable markings of the coloured net; a marking is dead in one if and only if it is dead in
the other. -/
theorem C34_unfolding_same_reachability_partial (N : CNet) (w : N.WF) (hsm : N.SmallSums) (hmix : N.NoMix) (hpl : 0 < N.places.length)
    (fuel : Nat) (s : U) (hu : unfold N fuel = some s) :
    ∃ B, run s.ops = some B ∧ (B.transitions.length < W32 - 1 → ∀ reorder, ∃ c, B.makePetriNet reorder = some c ∧ c.net.WF ∧
      Reads N s B c N.init c.init ∧
      (∀ M, N.Reach M → ∃ m, c.net.toNet.Reach c.init m ∧ Reads N s B c M m) ∧
      (∀ m, c.net.toNet.Reach c.init m → ∃ M, N.Reach M ∧ Reads N s B c M m) ∧
      ∀ M m, Reads N s B c M m →
        (c.net.toNet.Dead m ↔ ∀ t < N.transitions.length, ∀ ρ, N.Legal t ρ → ¬ N.Enabled M t ρ)) := by
  have hg := genOK_of_unfold w hu
  obtain ⟨s', h1, r, s0, hinv, hs0⟩ := result_of w hg.legal
  have hss : s' = s := by
    unfold unfold at hu
    rw [hu] at h1
    exact (Option.some.inj h1).symm
  subst hss
  have hsane := sane_of w hsm hg.legal r
  have hdecl := decl_unfold h1
  obtain ⟨B, hB⟩ := run_some _ hsane hdecl (noMix_of w hmix hg.legal r)
  refine ⟨B, hB, fun hsize reorder => ?_⟩
  have hp : ∃ o ∈ s'.ops, o.placeName ≠ none := by rw [hs0]; exact place_op hinv hpl
  obtain ⟨c, hc, hwf, hf⟩ := C03_makePetriNet_faithful s'.ops hsane B hB hp hsize reorder
  obtain ⟨is, _, hnames, hlt, hlegal, hcomplete, _, hrel0, hsim⟩ := C34_unfolding_same_firings_partial N w fuel s' hu
  -- one transition of the compiled net
  have hone : ∀ i ∈ is, ∃ k, ∃ hk : k < c.net.ntransitions, B.transIdx c i.name = some k ∧
      ∀ ρ, Agree N.types N.vty i.b ρ (N.trans i.t).vars → ∀ M m, Reads N s' B c M m →
        (c.net.toNet.Enabled m ⟨k, hk⟩ ↔ N.Enabled M i.t ρ) ∧
        (N.Enabled M i.t ρ → Reads N s' B c (N.fire M i.t ρ) (c.net.toNet.fire m ⟨k, hk⟩)) := by
    intro i hi
    obtain ⟨pl, hpl'⟩ := (hnames i.name).2 (List.mem_map.2 ⟨i, hi, rfl⟩)
    obtain ⟨k, hk⟩ := (hf.trans_idx i.name).1 ⟨_, hpl', rfl⟩
    have hklt := hf.trans_lt _ _ hk
    refine ⟨k, hklt, hk, fun ρ ha M m ⟨u, hru, hm⟩ => ?_⟩
    obtain ⟨h2, h3⟩ := hsim i hi ρ ha M u hru
    obtain ⟨h4, h5⟩ := C03_compiled_net_bisimilar hf u m hm i.name k hklt hk
      (fun p hp => C03_no_arcs_to_unmentioned hf hsane hB i.name p hp)
    exact ⟨h4.trans h2, fun hen => ⟨_, h3 hen, h5⟩⟩
  have hall : ∀ k (hk : k < c.net.ntransitions), ∃ i ∈ is, B.transIdx c i.name = some k := by
    intro k hk
    obtain ⟨t, ht⟩ := hf.trans_surj k hk
    obtain ⟨o, ho, hot⟩ := (hf.trans_idx t).2 ⟨k, ht⟩
    have hm : t ∈ is.map (·.name) := by
      apply (hnames t).1
      cases o with
      | trans n pl => cases hot; exact ⟨pl, ho⟩
      | place => cases hot
      | input => cases hot
      | output => cases hot
    obtain ⟨i, hi, rfl⟩ := List.mem_map.1 hm
    exact ⟨i, hi, ht⟩
  have hinit : Reads N s' B c N.init c.init := ⟨_, hrel0, fun p i hpi => hf.init p i hpi⟩
  refine ⟨c, hc, hwf, hinit, ?_, ?_, ?_⟩
  · intro M hM
    induction hM with
    | init => exact ⟨c.init, Net.Reach.refl _ _, hinit⟩
    | @step M M' t ρ hr hstep ih =>
      obtain ⟨m, h2, h3⟩ := ih
      obtain ⟨ht, hl, hen, rfl⟩ := hstep
      obtain ⟨i, hi, rfl, ha⟩ := hcomplete t ht ρ hl
      obtain ⟨k, hk, _, h4⟩ := hone i hi
      obtain ⟨h5, h6⟩ := h4 ρ ha M m h3
      exact ⟨_, h2.step _ ⟨h5.2 hen, rfl⟩, h6 hen⟩
  · rintro m ⟨ts, hrun⟩
    have key : ∀ ts m0 m, c.net.toNet.Run m0 ts m → ∀ M0, N.Reach M0 → Reads N s' B c M0 m0 → ∃ M, N.Reach M ∧ Reads N s' B c M m := by
      intro ts
      induction ts with
      | nil => intro m0 m h M0 h2 h3; cases h; exact ⟨M0, h2, h3⟩
      | cons k ts ih =>
        intro m0 m h M0 h2 h3
        cases h with
        | cons hs hr =>
          obtain ⟨hen, rfl⟩ := hs
          obtain ⟨i, hi, hik⟩ := hall k.1 k.2
          obtain ⟨k', hk', hik', h4⟩ := hone i hi
          have : k' = k.1 := by rw [hik] at hik'; exact (Option.some.inj hik').symm
          subst this
          obtain ⟨hil, ρ, ha⟩ := hlt i hi
          obtain ⟨h5, h6⟩ := h4 ρ ha M0 m0 h3
          have hen' := h5.1 hen
          exact ih _ m hr _ (.step h2 ⟨hil, hlegal i hi ρ ha, hen', rfl⟩) (h6 hen')
    exact key ts c.init m hrun N.init .init hinit
  · intro M m hr
    constructor
    · intro hd t ht ρ hl hen
      obtain ⟨i, hi, rfl, ha⟩ := hcomplete t ht ρ hl
      obtain ⟨k, hk, _, h4⟩ := hone i hi
      exact hd ⟨k, hk⟩ ((h4 ρ ha M m hr).1.2 hen)
    · intro hd k hen
      obtain ⟨i, hi, hik⟩ := hall k.1 k.2
      obtain ⟨k', hk', hik', h4⟩ := hone i hi
      have : k' = k.1 := by rw [hik] at hik'; exact (Option.some.inj hik').symm
      subst this
      obtain ⟨hil, ρ, ha⟩ := hlt i hi
      exact hd i.t hil ρ (hlegal i hi ρ ha) ((h4 ρ ha M m hr).1.1 hen)

/-- **C34** (queries).  When markings correspond and the sum place is not among the names of a place, the tokens that
a query finds under the name of a coloured place are all its tokens, of whatever colours, in whatever order the map of
names is traversed. -/
theorem C34_query_counts_all_tokens_partial (N : CNet) (w : N.WF) (fuel : Nat) (s : U) (hu : unfold N fuel = some s)
    (p : Nat) (hp : p < N.places.length) (hns : ∀ k, (p, k, sumName (N.place p).name) ∉ s.names)
    (order : List (Nat × Nat × String)) (ho : order.Perm (s.names.filter fun q => q.1 == p))
    (M : CMark) (u : String → Nat) (hr : Rel N s M u) :
    ((resolve order).map u).sum = N.total M p := by
  have hg := genOK_of_unfold w hu
  obtain ⟨s', h1, r, s0, hinv, hs0⟩ := result_of w hg.legal
  have hss : s' = s := by
    unfold unfold at hu
    rw [hu] at h1
    exact (Option.some.inj h1).symm
  subst hss
  have h2 := count_names w hinv (hs0 ▸ r) hp (hs0 ▸ hns) (hs0 ▸ hr)
  rw [← hs0] at h2
  have hm := more_orphans (N := N) (List.range N.places.length) (fun q hq => List.mem_range.1 hq) s0
  rw [resolve_all, List.map_map]
  · rw [← h2]
    exact (ho.map _).sum_nat
  · intro q hq m hc
    obtain ⟨h3, h4⟩ := List.mem_filter.1 (ho.mem_iff.1 hq)
    obtain ⟨a, k, n⟩ := q
    have hap : a = p := by simpa using h4
    subst hap
    simp only at hc
    rw [hs0] at h3
    rcases hm.names _ h3 with h5 | ⟨_, _, _, h5⟩
    · rcases (hinv.names _ _ _ h5).2 with ⟨h6, _⟩ | ⟨h6, _⟩
      · rw [h6] at hc; exact cname_ne_sum _ _ _ hc
      · rw [h6] at h3
        exact hns k (hs0 ▸ h3)
    · simp only at h5
      rw [h5] at hc
      exact sum_ne_orphan _ _ hc.symm

/-! ### A net meeting the hypotheses -/

namespace C34Example

/-- three colours; transition `t` joins different colours into pairs, `v` is inhibited by the pairs -/
def net : CNet where
  types := ⟨fun ty => if ty = 0 then 1 else 3, [(2, [1, 1])]⟩
  vty := fun _ => 1
  places := [⟨"P", 1, [(0, 2), (2, 1)]⟩, ⟨"Q", 2, []⟩, ⟨"R", 0, []⟩]
  transitions := [⟨"t", some (.ne (.var 0) (.var 1)), [⟨0, .add [.num 1 [.var 0], .num 1 [.var 1]]⟩],
      [⟨1, .num 1 [.tuple [.var 0, .succ (.var 1)]]⟩]⟩,
    ⟨"v", none, [⟨0, .num 1 [.const ⟨1, 0⟩]⟩], [⟨2, .num 1 [.dot]⟩]⟩]
  inhibitors := [⟨1, 1, 1⟩]

theorem net_wf : net.WF where
  types := ⟨by decide, by decide, by decide⟩
  pnames := by decide
  tnames := by decide
  vpos := by decide
  guard := by
    intro t ht g hg
    simp only [net, List.mem_cons, List.not_mem_nil, or_false] at ht
    rcases ht with rfl | rfl
    · cases hg
      exact ⟨1, by simp [HasTy, net], by simp [HasTy, net]⟩
    · cases hg
  arcs := by
    intro t ht a ha
    simp only [net, List.mem_cons, List.not_mem_nil, or_false] at ht
    rcases ht with rfl | rfl
    · simp only [List.cons_append, List.nil_append, List.mem_cons, List.not_mem_nil, or_false] at ha
      rcases ha with rfl | rfl
      · exact ⟨by decide, by simp [ArcTy, ArcTys, HasTy, net, CNet.place], by simp [ArcE.Small, ArcE.SmallL, ArcE.bound, ArcE.boundL, W32], by decide⟩
      · refine ⟨by decide, ?_, by simp [ArcE.Small, W32], by decide⟩
        simp [ArcTy, HasTy, HasTys, net, CNet.place, Types.parts]
    · simp only [List.cons_append, List.nil_append, List.mem_cons, List.not_mem_nil, or_false] at ha
      rcases ha with rfl | rfl
      · exact ⟨by decide, by simp [ArcTy, HasTy, net, CNet.place]; decide, by simp [ArcE.Small, W32], by decide⟩
      · exact ⟨by decide, by simp [ArcTy, HasTy, net, CNet.place, dotTy], by simp [ArcE.Small, W32], by decide⟩
  marking := by decide
  inhib := by decide

example : net.WF ∧ net.SmallSums ∧ net.NoMix ∧ 0 < net.places.length ∧ (unfold net 20).isSome = true :=
  ⟨net_wf, by unfold CNet.SmallSums; decide, by unfold CNet.NoMix; decide, by decide, by decide +kernel⟩

/-- six of the nine bindings of `t` are legal, `v` has one binding -/
example : (unfold net 20).map (fun s => (s.ops.filter fun o => o.transName.isSome).map fun o => o.transName.getD "") =
    some ["t_0", "t_1", "t_2", "t_3", "t_4", "t_5", "v_0"] := by decide +kernel

/-- the sum place is not among the names of `Q`; colour 1 of `P` has a place without tokens -/
example : (unfold net 20).map (fun s => (s.names.all fun q => q.2.2 != "QSum" && q.2.2 != "PSum", specInit s.ops "P_1", specInit s.ops "P_0")) =
    some (true, 0, 2) := by decide +kernel

end C34Example

/-! ### Nets on which the unfolder goes wrong -/

namespace C34Findings

/-- `a` is inhibited by `P`, and comes before `b`, which takes colour 0 from `P` -/
def sumNet : CNet where
  types := ⟨fun ty => if ty = 0 then 1 else 3, []⟩
  vty := fun _ => 1
  places := [⟨"P", 1, [(0, 1), (1, 1)]⟩, ⟨"R", 0, []⟩]
  transitions := [⟨"a", none, [], [⟨1, .num 1 [.dot]⟩]⟩, ⟨"b", none, [⟨0, .num 1 [.const ⟨1, 0⟩]⟩], []⟩]
  inhibitors := [⟨0, 0, 1⟩]

theorem sumNet_wf : sumNet.WF where
  types := ⟨by decide, by decide, by decide⟩
  pnames := by decide
  tnames := by decide
  vpos := by decide
  guard := by
    intro t ht g hg
    simp only [sumNet, List.mem_cons, List.not_mem_nil, or_false] at ht
    rcases ht with rfl | rfl <;> cases hg
  arcs := by
    intro t ht a ha
    simp only [sumNet, List.mem_cons, List.not_mem_nil, or_false] at ht
    rcases ht with rfl | rfl
    · simp only [List.nil_append, List.mem_cons, List.not_mem_nil, or_false] at ha
      subst ha
      exact ⟨by decide, by simp [ArcTy, HasTy, sumNet, CNet.place, dotTy], by simp [ArcE.Small, W32], by decide⟩
    · simp only [List.append_nil, List.mem_cons, List.not_mem_nil, or_false] at ha
      subst ha
      exact ⟨by decide, by simp [ArcTy, HasTy, sumNet, CNet.place, Types.size, Types.parts], by simp [ArcE.Small, W32], by decide⟩
  marking := by decide
  inhib := by decide

/-- **Finding** (Unfolder.cpp:193-206, 83-104, Analyze.cpp:114-143).  When an inhibitor arc is unfolded before any arc of
its place, the sum place is registered among the places of the colours.  The tokens of the colours that get no place are
then not kept on an orphan place, and a query about the place with two tokens counts one token or three, depending on the
order of the map of names. -/
theorem C34_finding_sum_place_counted :
    sumNet.WF ∧ sumNet.NoMix ∧ sumNet.total sumNet.init 0 = 2 ∧
    (unfold sumNet 5).map (fun s => s.names.filter fun q => q.1 == 0) = some [(0, 3, "PSum"), (0, 0, "P_0")] ∧
    (unfold sumNet 5).map (fun s => ((resolve [(0, 3, "PSum"), (0, 0, "P_0")]).map (specInit s.ops)).sum) = some 3 ∧
    (unfold sumNet 5).map (fun s => ((resolve [(0, 0, "P_0"), (0, 3, "PSum")]).map (specInit s.ops)).sum) = some 1 :=
  ⟨sumNet_wf, by unfold CNet.NoMix; decide, by decide +kernel, by decide +kernel, by decide +kernel, by decide +kernel⟩

/-- `a` takes a token from `P` if `P` has fewer than two tokens -/
def mixNet : CNet where
  types := ⟨fun _ => 1, []⟩
  vty := fun _ => 0
  places := [⟨"P", 0, [(0, 1)]⟩]
  transitions := [⟨"a", none, [⟨0, .num 1 [.dot]⟩], []⟩]
  inhibitors := [⟨0, 0, 2⟩]

theorem mixNet_wf : mixNet.WF where
  types := ⟨by decide, by decide, by decide⟩
  pnames := by decide
  tnames := by decide
  vpos := by decide
  guard := by
    intro t ht g hg
    simp only [mixNet, List.mem_cons, List.not_mem_nil, or_false] at ht
    subst ht
    cases hg
  arcs := by
    intro t ht a ha
    simp only [mixNet, List.mem_cons, List.not_mem_nil, or_false] at ht
    subst ht
    simp only [List.append_nil, List.mem_cons, List.not_mem_nil, or_false] at ha
    subst ha
    exact ⟨by decide, by simp [ArcTy, HasTy, mixNet, CNet.place, dotTy], by simp [ArcE.Small, W32], by decide⟩
  marking := by decide
  inhib := by decide

/-- **Finding** (Unfolder.cpp:208-211 with PetriNetBuilder.cpp:115-128).  The coloured builder accepts a transition that
takes tokens from a place and is inhibited by it; the normal arc and the inhibitor arc then meet on the sum place and the
builder of the unfolded net throws. -/
theorem C34_finding_inhibited_input_throws :
    mixNet.WF ∧ mixNet.Enabled mixNet.init 0 (fun _ => []) ∧ ∀ fuel s, unfold mixNet fuel = some s → run s.ops = none := by
  have hen : mixNet.Enabled mixNet.init 0 (fun _ => []) := by
    refine ⟨?_, ?_⟩
    · intro p x
      rcases Nat.eq_zero_or_pos p with rfl | hp
      · have h1 : arcsTokens mixNet (fun _ => []) (mixNet.trans 0).inputs 0 x = if x = [0] then 1 else 0 := by
          change (if (0 : Nat) = 0 then tokens mixNet.types mixNet.vty _ (.num 1 [.dot]) x else 0) + 0 = _
          rw [if_pos rfl, tokens]
          simp only [List.map_cons, List.map_nil, den, List.count_cons, List.count_nil]
          by_cases hx : x = [0]
          · subst hx; rfl
          · rw [if_neg hx, if_neg (by simpa using fun e => hx e.symm)]
        have h2 : mixNet.init 0 x = if x = [0] then 1 else 0 := by
          change (if mixNet.types.value ⟨0, 0⟩ = x then 1 else 0) + 0 = _
          have : mixNet.types.value ⟨0, 0⟩ = [0] := by decide
          rw [this]
          by_cases hx : x = [0]
          · rw [if_pos hx.symm, if_pos hx, Nat.add_zero]
          · rw [if_neg (fun e => hx e.symm), if_neg hx, Nat.add_zero]
        rw [h1, h2]
      · have h1 : arcsTokens mixNet (fun _ => []) (mixNet.trans 0).inputs p x = 0 := by
          change (if (0 : Nat) = p then _ else 0) + 0 = 0
          rw [if_neg (by omega), Nat.add_zero]
        omega
    · intro h hh _
      simp only [mixNet, List.mem_cons, List.not_mem_nil, or_false] at hh
      subst hh
      decide
  refine ⟨mixNet_wf, hen, fun fuel s hs => ?_⟩
  cases fuel with
  | zero => exact absurd hs (by rw [show unfold mixNet 0 = none from rfl]; exact fun h => (by cases h))
  | succ n =>
    have h1 : unfold mixNet (n + 1) = unfold mixNet 1 := rfl
    rw [h1] at hs
    have h2 : ((unfold mixNet 1).bind fun s => run s.ops).isNone = true := by decide +kernel
    rw [hs, Option.bind_some, Option.isNone_iff_eq_none] at h2
    exact h2

/-- so the full statement is false -/
theorem C34_not_full : ¬ C34_full := by
  intro h
  obtain ⟨fuel, s, B, h1, h2, _⟩ := h mixNet mixNet_wf (by unfold CNet.SmallSums; decide) (by decide)
  rw [C34_finding_inhibited_input_throws.2.2 fuel s h1] at h2
  cases h2

/-- two product types with the same constituents; `Q` has the second one -/
def twinNet : CNet where
  types := ⟨fun ty => if ty = 0 then 1 else 2, [(2, [1, 1]), (3, [1, 1])]⟩
  vty := fun _ => 1
  places := [⟨"Q", 3, [(0, 1)]⟩]
  transitions := [⟨"a", none, [⟨0, .num 1 [.tuple [.var 0, .var 0]]⟩], []⟩]
  inhibitors := []

/-- **Finding** (EvaluationVisitor.h:51-60 (`findProductColorType`), Multiset.cpp:93-107).  With two product types of the
same constituents a tuple gets the first type that the map of types yields; the tokens of a place of the other type are
not found: the unfolded place starts empty, and the transition, which can fire in the coloured net, cannot fire in the
unfolded one. -/
theorem C34_finding_twin_products_lose_tokens :
    twinNet.init 0 [0, 0] = 1 ∧ twinNet.Enabled twinNet.init 0 (fun _ => [0]) ∧
    (unfold twinNet 5).map (fun s => (specInit s.ops "Q_0", specPre s.ops "a_0" "Q_0", specInit s.ops "Q_orphan")) = some (0, 1, 1) := by
  refine ⟨by decide, ⟨?_, fun h hh => (by cases hh)⟩, by decide +kernel⟩
  intro p x
  rcases Nat.eq_zero_or_pos p with rfl | hp
  · have h1 : arcsTokens twinNet (fun _ => [0]) (twinNet.trans 0).inputs 0 x = if x = [0, 0] then 1 else 0 := by
      change (if (0 : Nat) = 0 then tokens twinNet.types twinNet.vty _ (.num 1 [.tuple [.var 0, .var 0]]) x else 0) + 0 = _
      rw [if_pos rfl, tokens]
      simp only [List.map_cons, List.map_nil, den, denL, List.count_cons, List.count_nil, List.cons_append, List.nil_append]
      by_cases hx : x = [0, 0]
      · subst hx; rfl
      · rw [if_neg hx, if_neg (by simpa using fun e => hx e.symm)]
    have h2 : twinNet.init 0 x = if x = [0, 0] then 1 else 0 := by
      change (if twinNet.types.value ⟨3, 0⟩ = x then 1 else 0) + 0 = _
      have : twinNet.types.value ⟨3, 0⟩ = [0, 0] := by decide
      rw [this]
      by_cases hx : x = [0, 0]
      · rw [if_pos hx.symm, if_pos hx, Nat.add_zero]
      · rw [if_neg (fun e => hx e.symm), if_neg hx, Nat.add_zero]
    rw [h1, h2]
  · have h1 : arcsTokens twinNet (fun _ => [0]) (twinNet.trans 0).inputs p x = 0 := by
      change (if (0 : Nat) = p then _ else 0) + 0 = 0
      rw [if_neg (by omega), Nat.add_zero]
    omega

/-- `a` takes `2^31` tokens from `P`, which inhibits `b` -/
def bigNet : CNet where
  types := ⟨fun _ => 1, []⟩
  vty := fun _ => 0
  places := [⟨"P", 0, [(0, 2147483648)]⟩]
  transitions := [⟨"a", none, [⟨0, .num 2147483648 [.dot]⟩], []⟩, ⟨"b", none, [], []⟩]
  inhibitors := [⟨0, 1, 1⟩]

/-- **Finding** (Unfolder.cpp:224, 243, 265, `int shadowWeight`).  An arc of `2^31` tokens or more takes nothing from the
sum place: after `a` has emptied the place, `b` stays inhibited. -/
theorem C34_finding_heavy_arc_no_sum :
    (unfold bigNet 5).map (fun s => (specPre s.ops "a_0" "P_0", specPre s.ops "a_0" "PSum", specInit s.ops "PSum", specInh s.ops "b_0" "PSum")) =
      some (2147483648, 0, 2147483648, some 1) := by decide +kernel

end C34Findings

end CPN
end Verif
