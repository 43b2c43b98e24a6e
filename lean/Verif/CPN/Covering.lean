import Verif.Props.Unfold

/-!
# Unfolding with a generator that leaves out bindings

The unfolder is right with any generator of bindings that gives only legal ones, and all those enabled in some reachable marking.
-/

namespace Verif
namespace CPN

open Builder (Op specPre specPost specInh specInit specNet Sane run)

theorem firings_of {N : CNet} (w : N.WF) {gen : CTrans → Option (List Binding)} (hg : GenLegal N gen) {s : U} (hu : unfoldWith N gen = some s) :
    ∃ is : List Inst, (is.map (·.name)).Nodup ∧
      (∀ n, (∃ pl, Op.trans n pl ∈ s.ops) ↔ n ∈ is.map (·.name)) ∧
      (∀ i ∈ is, i.t < N.transitions.length ∧ ∃ ρ, Agree N.types N.vty i.b ρ (N.trans i.t).vars) ∧
      (∀ i ∈ is, ∀ ρ, Agree N.types N.vty i.b ρ (N.trans i.t).vars → N.Legal i.t ρ) ∧
      (∀ t < N.transitions.length, ∀ ρ, (∃ bs, gen (N.trans t) = some bs ∧ ∃ b ∈ bs, Agree N.types N.vty b ρ (N.trans t).vars) →
        ∃ i ∈ is, i.t = t ∧ Agree N.types N.vty i.b ρ (N.trans t).vars) ∧
      (∀ i ∈ is, ∃ bs, gen (N.trans i.t) = some bs ∧ i.b ∈ bs) ∧
      Rel N s N.init (specInit s.ops) ∧
      ∀ i ∈ is, ∀ ρ, Agree N.types N.vty i.b ρ (N.trans i.t).vars → ∀ M u, Rel N s M u →
        ((specNet s.ops).Enabled u i.name ↔ N.Enabled M i.t ρ) ∧
        (N.Enabled M i.t ρ → Rel N s (N.fire M i.t ρ) ((specNet s.ops).fire u i.name)) := by
  obtain ⟨s', h1, r, _⟩ := result_of w hg
  have hss : s' = s := by
    rw [hu] at h1
    exact (Option.some.inj h1).symm
  subst hss
  have hn := emitT_nodup (gen := gen) N.transitions w.tnames
  -- the index of the transition of an emitted transition
  have hidx : ∀ e ∈ emitT gen N.transitions,
      N.transitions.findIdx (fun x => x.name == e.t.name) < N.transitions.length ∧
      e.t = N.trans (N.transitions.findIdx fun x => x.name == e.t.name) := by
    intro e he
    obtain ⟨t, ht, het, _⟩ := emit_index hg he
    have hlt : N.transitions.findIdx (fun x => x.name == e.t.name) < N.transitions.length :=
      List.findIdx_lt_length_of_exists ⟨e.t, by rw [het]; exact trans_mem ht, by simp⟩
    refine ⟨hlt, ?_⟩
    have h2 : (N.trans (N.transitions.findIdx fun x => x.name == e.t.name)).name = e.t.name := by
      have h3 := List.findIdx_getElem (w := hlt)
      unfold CNet.trans
      rw [List.getD_eq_getElem?_getD, List.getElem?_eq_getElem hlt]
      simpa using h3
    have h4 := w.trans_inj hlt ht (by rw [h2, het])
    rw [h4, het]
  let f : Emit → Inst := fun e => ⟨e.name, N.transitions.findIdx (fun x => x.name == e.t.name), e.b⟩
  have hnames : ((emitT gen N.transitions).map f).map (·.name) =
      (emitT gen N.transitions).map (·.name) := by rw [List.map_map]; rfl
  refine ⟨(emitT gen N.transitions).map f, by rw [hnames]; exact hn, ?_, ?_, ?_, ?_, ?_, rel_init w r, ?_⟩
  · intro n
    rw [hnames, List.mem_map]
    constructor
    · rintro ⟨pl, hpl⟩
      exact ((r.trans n pl).1 hpl).2
    · intro h
      exact ⟨0, (r.trans n 0).2 ⟨rfl, h⟩⟩
  · intro i hi
    obtain ⟨e, he, rfl⟩ := List.mem_map.1 hi
    obtain ⟨h2, h3⟩ := hidx e he
    obtain ⟨_, _, _, ⟨ρ, ha⟩, _⟩ := emit_index hg he
    refine ⟨h2, ρ, ?_⟩
    change Agree N.types N.vty e.b ρ (N.trans (N.transitions.findIdx _)).vars
    rw [← h3]
    exact ha
  · intro i hi ρ ha
    obtain ⟨e, he, rfl⟩ := List.mem_map.1 hi
    obtain ⟨h2, h3⟩ := hidx e he
    obtain ⟨t, ht, het, _, hl⟩ := emit_index hg he
    have h4 : N.transitions.findIdx (fun x => x.name == e.t.name) = t := w.trans_inj h2 ht (by rw [← h3, het])
    change Agree N.types N.vty e.b ρ (N.trans (N.transitions.findIdx _)).vars at ha
    rw [← h3] at ha
    have := hl ρ ha
    change N.Legal (N.transitions.findIdx _) ρ
    rw [h4]
    exact this
  · rintro t ht ρ ⟨bs, h2, b, hb, h7⟩
    obtain ⟨j, hj, he⟩ := List.mem_iff_getElem.1 hb
    have h6 : bs[j]? = some b := by rw [List.getElem?_eq_getElem hj, he]
    have he : (⟨bname (N.trans t).name j, N.trans t, b⟩ : Emit) ∈ emitT gen N.transitions :=
      (mem_emitT _).2 ⟨N.trans t, trans_mem ht, j, b, by rw [h2]; exact h6, rfl⟩
    refine ⟨_, List.mem_map.2 ⟨_, he, rfl⟩, ?_, h7⟩
    obtain ⟨h8, h9⟩ := hidx _ he
    exact w.trans_inj h8 ht (by rw [← h9])
  · intro i hi
    obtain ⟨e, he, rfl⟩ := List.mem_map.1 hi
    have h3 := (hidx e he).2
    obtain ⟨t, ht, k, b, hb, rfl⟩ := (mem_emitT _).1 he
    obtain ⟨bs, h4, _⟩ := hg _ ht
    rw [h4] at hb
    refine ⟨bs, ?_, List.mem_of_getElem? hb⟩
    change gen (N.trans (N.transitions.findIdx _)) = some bs
    rw [← h3]
    exact h4
  · intro i hi ρ ha M u hr
    obtain ⟨e, he, rfl⟩ := List.mem_map.1 hi
    obtain ⟨h2, h3⟩ := hidx e he
    have ha' : Agree N.types N.vty e.b ρ e.t.vars := by rw [h3]; exact ha
    exact ⟨rel_enabled w r hn he h2 h3 ha' hr, fun hen => rel_fire w r hn he h2 h3 ha' hr hen⟩

/-- What is reachable with the generated bindings only. -/
inductive Via (N : CNet) (gen : CTrans → Option (List Binding)) : CMark → Prop
  | init : Via N gen N.init
  | step {M : CMark} {t : Nat} {bs : List Binding} {b : Binding} {ρ : Nat → Val} : Via N gen M → t < N.transitions.length → gen (N.trans t) = some bs → b ∈ bs →
      Agree N.types N.vty b ρ (N.trans t).vars → N.Enabled M t ρ → Via N gen (N.fire M t ρ)

theorem legal_of {N : CNet} {gen : CTrans → Option (List Binding)} (hg : GenLegal N gen) {t : Nat} (ht : t < N.transitions.length) {bs : List Binding}
    (hbs : gen (N.trans t) = some bs) {b : Binding} (hb : b ∈ bs) {ρ : Nat → Val} (ha : Agree N.types N.vty b ρ (N.trans t).vars) : N.Legal t ρ := by
  obtain ⟨bs', hbs', _, h7⟩ := hg _ (trans_mem ht)
  rw [hbs] at hbs'
  cases hbs'
  exact ⟨fun v hv => (ha v hv).elim fun i h => (mem_values N.types).2 ⟨i, h.1, h.2.2.symm⟩, h7 b hb ρ ha⟩

theorem Via.reach {N : CNet} {gen : CTrans → Option (List Binding)} (hg : GenLegal N gen) {M : CMark} (h : Via N gen M) : N.Reach M := by
  induction h with
  | init => exact .init
  | step _ ht hbs hb ha hen ih => exact .step ih ⟨ht, legal_of hg ht hbs hb ha, hen, rfl⟩

/-- For every legal assignment that is enabled in a reachable marking there is a generated one that is enabled too and does the same. -/
def Covers (N : CNet) (gen : CTrans → Option (List Binding)) : Prop :=
  ∀ M, N.Reach M → ∀ t < N.transitions.length, ∀ ρ, N.Legal t ρ → N.Enabled M t ρ →
    ∃ bs, gen (N.trans t) = some bs ∧ ∃ b ∈ bs, ∃ ρ', Agree N.types N.vty b ρ' (N.trans t).vars ∧ N.Enabled M t ρ' ∧ N.fire M t ρ' = N.fire M t ρ

/-- The compiled net with any legal generator: it does only what the coloured net does, it is dead when no generated binding is enabled,
and it does all of it if the generator gives the bindings enabled in reachable markings. -/
theorem compiled_of {N : CNet} (w : N.WF) (hsm : N.SmallSums) (hmix : N.NoMix) (hpl : 0 < N.places.length)
    {gen : CTrans → Option (List Binding)} (hg : GenLegal N gen) {s : U} (hu : unfoldWith N gen = some s) :
    ∃ B, run s.ops = some B ∧ (B.transitions.length < W32 - 1 → ∀ reorder, ∃ c, B.makePetriNet reorder = some c ∧ c.net.WF ∧
      Reads N s B c N.init c.init ∧
      (Covers N gen → ∀ M, N.Reach M → ∃ m, c.net.toNet.Reach c.init m ∧ Reads N s B c M m) ∧
      (∀ m, c.net.toNet.Reach c.init m → ∃ M, Via N gen M ∧ Reads N s B c M m) ∧
      ∀ M m, Reads N s B c M m →
        (c.net.toNet.Dead m ↔ ∀ t < N.transitions.length, ∀ bs, gen (N.trans t) = some bs → ∀ b ∈ bs, ∀ ρ, Agree N.types N.vty b ρ (N.trans t).vars →
          ¬ N.Enabled M t ρ)) := by
  obtain ⟨s', h1, r, s0, hinv, hs0⟩ := result_of w hg
  have hss : s' = s := by
    rw [hu] at h1
    exact (Option.some.inj h1).symm
  subst hss
  have hsane := sane_of w hsm hg r
  have hdecl := decl_unfold h1
  obtain ⟨B, hB⟩ := run_some _ hsane hdecl (noMix_of w hmix hg r)
  refine ⟨B, hB, fun hsize reorder => ?_⟩
  have hp : ∃ o ∈ s'.ops, o.placeName ≠ none := by rw [hs0]; exact place_op hinv hpl
  obtain ⟨c, hc, hwf, hf⟩ := C03_makePetriNet_faithful s'.ops hsane B hB hp hsize reorder
  obtain ⟨is, _, hnames, hlt, _, hcomplete, hbind, hrel0, hsim⟩ := firings_of w hg hu
  -- one transition of the compiled net
  have hone : ∀ i ∈ is, ∃ k, ∃ hk : k < c.net.ntransitions, B.transIdx c i.name = some k ∧
      ∀ ρ, Agree N.types N.vty i.b ρ (N.trans i.t).vars → ∀ M m, Reads N s' B c M m →
        (c.net.toNet.Enabled m ⟨k, hk⟩ ↔ N.Enabled M i.t ρ) ∧
        (N.Enabled M i.t ρ → Reads N s' B c (N.fire M i.t ρ) (c.net.toNet.fire m ⟨k, hk⟩)) := by
    intro i hi
    obtain ⟨pl, hpl'⟩ := (hnames i.name).2 (List.mem_map.2 ⟨i, hi, rfl⟩)
    obtain ⟨k, hk⟩ := (hf.trans_idx i.name).1 ⟨_, hpl', rfl⟩
    have hklt := hf.trans_lt _ _ hk
    refine ⟨k, hklt, hk, fun ρ ha M m ⟨u, hru, hm⟩ => ?_⟩
    obtain ⟨h2, h3⟩ := hsim i hi ρ ha M u hru
    obtain ⟨h4, h5⟩ := C03_compiled_net_bisimilar hf u m hm i.name k hklt hk
      (fun p hp => C03_no_arcs_to_unmentioned hf hsane hB i.name p hp)
    exact ⟨h4.trans h2, fun hen => ⟨_, h3 hen, h5⟩⟩
  have hall : ∀ k (hk : k < c.net.ntransitions), ∃ i ∈ is, B.transIdx c i.name = some k := by
    intro k hk
    obtain ⟨t, ht⟩ := hf.trans_surj k hk
    obtain ⟨o, ho, hot⟩ := (hf.trans_idx t).2 ⟨k, ht⟩
    have hm : t ∈ is.map (·.name) := by
      apply (hnames t).1
      cases o with
      | trans n pl => cases hot; exact ⟨pl, ho⟩
      | place => cases hot
      | input => cases hot
      | output => cases hot
    obtain ⟨i, hi, rfl⟩ := List.mem_map.1 hm
    exact ⟨i, hi, ht⟩
  have hinit : Reads N s' B c N.init c.init := ⟨_, hrel0, fun p i hpi => hf.init p i hpi⟩
  refine ⟨c, hc, hwf, hinit, ?_, ?_, ?_⟩
  · intro hcov M hM
    induction hM with
    | init => exact ⟨c.init, Net.Reach.refl _ _, hinit⟩
    | @step M M' t ρ hr hstep ih =>
      obtain ⟨m, h2, h3⟩ := ih
      obtain ⟨ht, hl, hen, rfl⟩ := hstep
      obtain ⟨bs, hbs, b, hb, ρ', ha', hen', hf'⟩ := hcov M hr t ht ρ hl hen
      obtain ⟨i, hi, rfl, ha⟩ := hcomplete t ht ρ' ⟨bs, hbs, b, hb, ha'⟩
      obtain ⟨k, hk, _, h4⟩ := hone i hi
      obtain ⟨h5, h6⟩ := h4 ρ' ha M m h3
      rw [← hf']
      exact ⟨_, h2.step _ ⟨h5.2 hen', rfl⟩, h6 hen'⟩
  · rintro m ⟨ts, hrun⟩
    have key : ∀ ts m0 m, c.net.toNet.Run m0 ts m → ∀ M0, Via N gen M0 → Reads N s' B c M0 m0 → ∃ M, Via N gen M ∧ Reads N s' B c M m := by
      intro ts
      induction ts with
      | nil => intro m0 m h M0 h2 h3; cases h; exact ⟨M0, h2, h3⟩
      | cons k ts ih =>
        intro m0 m h M0 h2 h3
        cases h with
        | cons hs hr =>
          obtain ⟨hen, rfl⟩ := hs
          obtain ⟨i, hi, hik⟩ := hall k.1 k.2
          obtain ⟨k', hk', hik', h4⟩ := hone i hi
          have : k' = k.1 := by rw [hik] at hik'; exact (Option.some.inj hik').symm
          subst this
          obtain ⟨hil, ρ, ha⟩ := hlt i hi
          obtain ⟨h5, h6⟩ := h4 ρ ha M0 m0 h3
          have hen' := h5.1 hen
          obtain ⟨bs, hbs, hb⟩ := hbind i hi
          exact ih _ m hr _ (.step h2 hil hbs hb ha hen') (h6 hen')
    exact key ts c.init m hrun N.init .init hinit
  · intro M m hr
    constructor
    · intro hd t ht bs hbs b hb ρ ha hen
      obtain ⟨i, hi, rfl, ha⟩ := hcomplete t ht ρ ⟨bs, hbs, b, hb, ha⟩
      obtain ⟨k, hk, _, h4⟩ := hone i hi
      exact hd ⟨k, hk⟩ ((h4 ρ ha M m hr).1.2 hen)
    · intro hd k hen
      obtain ⟨i, hi, hik⟩ := hall k.1 k.2
      obtain ⟨k', hk', hik', h4⟩ := hone i hi
      have : k' = k.1 := by rw [hik] at hik'; exact (Option.some.inj hik').symm
      subst this
      obtain ⟨hil, ρ, ha⟩ := hlt i hi
      obtain ⟨bs, hbs, hb⟩ := hbind i hi
      exact hd i.t hil bs hbs i.b hb ρ ha ((h4 ρ ha M m hr).1.1 hen)

theorem reachability_like {N : CNet} (w : N.WF) (hsm : N.SmallSums) (hmix : N.NoMix) (hpl : 0 < N.places.length)
    {gen : CTrans → Option (List Binding)} (hg : GenLegal N gen) {s : U} (hu : unfoldWith N gen = some s) (hcov : Covers N gen) :
    ∃ B, run s.ops = some B ∧ (B.transitions.length < W32 - 1 → ∀ reorder, ∃ c, B.makePetriNet reorder = some c ∧ c.net.WF ∧
      Reads N s B c N.init c.init ∧
      (∀ M, N.Reach M → ∃ m, c.net.toNet.Reach c.init m ∧ Reads N s B c M m) ∧
      (∀ m, c.net.toNet.Reach c.init m → ∃ M, N.Reach M ∧ Reads N s B c M m) ∧
      ∀ M m, N.Reach M → Reads N s B c M m →
        (c.net.toNet.Dead m ↔ ∀ t < N.transitions.length, ∀ ρ, N.Legal t ρ → ¬ N.Enabled M t ρ)) := by
  obtain ⟨B, hB, h⟩ := compiled_of w hsm hmix hpl hg hu
  refine ⟨B, hB, fun hsize reorder => ?_⟩
  obtain ⟨c, h1, h2, h3, h4, h5, h6⟩ := h hsize reorder
  refine ⟨c, h1, h2, h3, h4 hcov, fun m hm => (h5 m hm).imp fun M h => ⟨h.1.reach hg, h.2⟩,
    fun M m hM hr => (h6 M m hr).trans ⟨fun hd t ht ρ hl hen => ?_, fun hd t ht bs hbs b hb ρ ha => hd t ht ρ (legal_of hg ht hbs hb ha)⟩⟩
  obtain ⟨bs, hbs, b, hb, ρ', ha, hen', _⟩ := hcov M hM t ht ρ hl hen
  exact hd t ht bs hbs b hb ρ' ha hen'

theorem reachability_of {N : CNet} (w : N.WF) (hsm : N.SmallSums) (hmix : N.NoMix) (hpl : 0 < N.places.length)
    {gen : CTrans → Option (List Binding)} (hg : GenLegal N gen) {s : U} (hu : unfoldWith N gen = some s)
    (hcov : ∀ M, N.Reach M → ∀ t < N.transitions.length, ∀ ρ, N.Legal t ρ → N.Enabled M t ρ →
      ∃ bs, gen (N.trans t) = some bs ∧ ∃ b ∈ bs, Agree N.types N.vty b ρ (N.trans t).vars) :
    ∃ B, run s.ops = some B ∧ (B.transitions.length < W32 - 1 → ∀ reorder, ∃ c, B.makePetriNet reorder = some c ∧ c.net.WF ∧
      Reads N s B c N.init c.init ∧
      (∀ M, N.Reach M → ∃ m, c.net.toNet.Reach c.init m ∧ Reads N s B c M m) ∧
      (∀ m, c.net.toNet.Reach c.init m → ∃ M, N.Reach M ∧ Reads N s B c M m) ∧
      ∀ M m, N.Reach M → Reads N s B c M m →
        (c.net.toNet.Dead m ↔ ∀ t < N.transitions.length, ∀ ρ, N.Legal t ρ → ¬ N.Enabled M t ρ)) :=
  reachability_like w hsm hmix hpl hg hu fun M hM t ht ρ hl hen => by
    obtain ⟨bs, hbs, b, hb, ha⟩ := hcov M hM t ht ρ hl hen
    exact ⟨bs, hbs, b, hb, ρ, ha, hen, rfl⟩

end CPN
end Verif
