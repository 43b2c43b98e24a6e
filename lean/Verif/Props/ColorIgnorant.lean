import Verif.XCol.IgnorantCover
import Verif.CPN.Covering

/-!
# C69: the net without colours can do all that the coloured net can do
-/

namespace Verif
namespace ColorIgnorantProps
open XCol CPN Colored
open Builder (Op specPre specPost specInh specInit specNet Sane run)

/-- A marking of the compiled net has, on each place, as many tokens as the coloured marking, whatever their colours. -/
def Totals (N : CNet) (B : Builder) (c : Builder.Compiled) (M : CMark) (m : Marking Nat) : Prop :=
  ∀ p < N.places.length, ∃ i, B.placeIdx c (N.place p).name = some i ∧ m i = N.total M p

/-- Whenever a coloured transition can fire, the transition of its name can. -/
def Allows (N : CNet) (B : Builder) (c : Builder.Compiled) (M : CMark) (m : Marking Nat) : Prop :=
  ∀ t < N.transitions.length, ∀ ρ, N.Legal t ρ → N.Enabled M t ρ →
    ∃ k, ∃ hk : k < c.net.ntransitions, B.transIdx c (N.trans t).name = some k ∧ c.net.toNet.Enabled m ⟨k, hk⟩

/-- The calls compile, and the compiled net simulates the coloured one: it begins with the same numbers of tokens, every reachable coloured
marking has a reachable marking with the same numbers of tokens, and whenever a coloured transition can fire, the transition of its name
can. -/
def Simulates (N : CNet) (ops : List Op) : Prop :=
  ∃ B, run ops = some B ∧ (B.transitions.length < W32 - 1 → ∀ reorder, ∃ c, B.makePetriNet reorder = some c ∧ c.net.WF ∧
    Totals N B c N.init c.init ∧ Allows N B c N.init c.init ∧
    ∀ M, N.Reach M → ∃ m, c.net.toNet.Reach c.init m ∧ Totals N B c M m ∧ Allows N B c M m)

/-- The full claim: for every coloured net. -/
def C69_full : Prop := ∀ (N : CNet), N.WF → XOK N → N.NoMix → SmallArcs N → 0 < N.places.length → ∀ ops,
  (stripOps N = some ops ∨ stripColors N = some ops) → Simulates N ops

theorem simulates {N : CNet} (w : N.WF) (x : XOK N) (hmix : N.NoMix) (hsm : SmallArcs N) (hpl : 0 < N.places.length)
    {E : List (String × List XCol.Range)} {ops : List Op} (cv : Covers N E) (ld : Laid N E ops) {ss : List Store} (hss : stores N N.transitions = some ss) :
    Simulates N ops := by
  have hsane := sane_laid w hsm cv ld
  obtain ⟨B, hB⟩ := run_some _ hsane ld.decl (noMix_laid w x hmix cv ld)
  refine ⟨B, hB, fun hsize reorder => ?_⟩
  have hp : ∃ o ∈ ops, o.placeName ≠ none := by
    obtain ⟨k, hk⟩ := ld.place 0 hpl
    exact ⟨_, hk, (fun h => by cases h)⟩
  obtain ⟨c, hc, hwf, hf⟩ := C03_makePetriNet_faithful ops hsane B hB hp hsize reorder
  have hidx : ∀ p < N.places.length, ∃ i, B.placeIdx c (N.place p).name = some i := fun p hp => by
    obtain ⟨k, hk⟩ := ld.place p hp
    exact (hf.place_idx _).1 ⟨_, hk, rfl⟩
  have htot : ∀ M m u, ByName N M u → (∀ p i, B.placeIdx c p = some i → m i = u p) → Totals N B c M m := fun M m u hu hm p hp => by
    obtain ⟨i, hi⟩ := hidx p hp
    exact ⟨i, hi, by rw [hm _ _ hi, hu p hp]⟩
  -- one transition of the compiled net
  have hone : ∀ e ∈ E, ∃ k, ∃ hk : k < c.net.ntransitions, B.transIdx c e.1 = some k ∧
      ∀ m u, (∀ p i, B.placeIdx c p = some i → m i = u p) → (specNet ops).Enabled u e.1 →
        c.net.toNet.Enabled m ⟨k, hk⟩ ∧ ∀ p i, B.placeIdx c p = some i → c.net.toNet.fire m ⟨k, hk⟩ i = (specNet ops).fire u e.1 p := by
    intro e he
    obtain ⟨pl, hpl'⟩ := ld.trans e he
    obtain ⟨k, hk⟩ := (hf.trans_idx e.1).1 ⟨_, hpl', rfl⟩
    have hklt := hf.trans_lt _ _ hk
    refine ⟨k, hklt, hk, fun m u hm hen => ?_⟩
    obtain ⟨h4, h5⟩ := C03_compiled_net_bisimilar hf u m hm e.1 k hklt hk
      (fun p hp => C03_no_arcs_to_unmentioned hf hsane hB e.1 p hp)
    exact ⟨h4.2 hen, h5⟩
  have hinit : ByName N N.init (specInit ops) := fun p hp => by rw [ld.init p hp, total_init w hp]
  have hall : ∀ {M m u}, ByName N M u → (∀ p i, B.placeIdx c p = some i → m i = u p) → Allows N B c M m := fun h3 h4 t ht ρ hl hen => by
    obtain ⟨_, e, he, h5, h6⟩ := fires w x cv ld hss h3 ht hl hen
    obtain ⟨k, hk, h7, h8⟩ := hone e he
    exact ⟨k, hk, h5 ▸ h7, (h8 _ _ h4 h6).1⟩
  refine ⟨c, hc, hwf, htot _ _ _ hinit fun p i hpi => hf.init p i hpi, hall hinit fun p i hpi => hf.init p i hpi, fun M hM => ?_⟩
  have key : ∃ m u, c.net.toNet.Reach c.init m ∧ ByName N M u ∧ ∀ p i, B.placeIdx c p = some i → m i = u p := by
    induction hM with
    | init => exact ⟨c.init, _, Net.Reach.refl _ _, hinit, fun p i hpi => hf.init p i hpi⟩
    | @step M M' t ρ hr hstep ih =>
      obtain ⟨m, u, h2, h3, h4⟩ := ih
      obtain ⟨ht, hl, hen, rfl⟩ := hstep
      obtain ⟨⟨e, he, h5, h6⟩, _⟩ := fires w x cv ld hss h3 ht hl hen
      obtain ⟨k, hk, _, h7⟩ := hone e he
      obtain ⟨h8, h9⟩ := h7 m u h4 h5
      exact ⟨_, _, h2.step _ ⟨h8, rfl⟩, h6, h9⟩
  obtain ⟨m, u, h2, h3, h4⟩ := key
  exact ⟨m, h2, htot M m u h3 h4, hall h3 h4⟩

theorem copies_ops {N : CNet} {ss : List Store} {cs : List (String × List (String × List XCol.Range))}
    (h : cs = ss.map fun s => (s.name, named s.name 0 (allR (mkRanges N s.ins s.outs)))) :
    (cs.map fun c => (c.2.map copyOps).flatten).flatten = ((allE N ss).map copyOps).flatten := by
  subst h
  unfold allE
  induction ss with
  | nil => rfl
  | cons s ss ih =>
    rw [List.map_cons, List.map_cons, List.flatten_cons, ih, List.map_cons, List.flatten_cons, List.map_append, List.flatten_append]

theorem plain_ops {N : CNet} {ss : List Store} (h : ∀ s ∈ ss, ∀ a ∈ s.ins ++ s.outs, 0 < a.2.minCount) :
    (ss.map fun s => plainOps N s.name s.ins s.outs).flatten = ((plainE N ss).map copyOps).flatten := by
  unfold plainE
  rw [List.map_map]
  congr 1
  exact List.map_congr_left fun s hs => plain_eq (h s hs)

/-- No arc is empty of tokens for certain. -/
def NoZero (N : CNet) : Prop := ∀ t ∈ N.transitions, ∀ cs, (compArcList N.types N.vty t.inputs = some cs ∨ compArcList N.types N.vty t.outputs = some cs) →
  ∀ a ∈ cs, 0 < a.2.minCount

theorem noZero_store {N : CNet} (h : NoZero N) {ss : List Store} (hs : stores N N.transitions = some ss) : ∀ s ∈ ss, ∀ a ∈ s.ins ++ s.outs, 0 < a.2.minCount := by
  intro s hs' a ha
  obtain ⟨t, ht, h1⟩ := (stores_ok hs).2.2 s hs'
  rcases List.mem_append.1 ha with ha | ha
  · exact h t ht _ (.inl h1.ins) a ha
  · exact h t ht _ (.inr h1.outs) a ha

theorem all_stores {N : CNet} (x : XOK N) {ss : List Store} (hs : stores N N.transitions = some ss) :
    allCopies N ss = some (ss.map fun s => (s.name, named s.name 0 (allR (mkRanges N s.ins s.outs)))) :=
  allCopies_eq ss fun s hs' => by
    obtain ⟨t, ht, h1⟩ := (stores_ok hs).2.2 s hs'
    exact ⟨(h1.range x ht).1, (h1.range x ht).2.1⟩

/-- C69: the net that `strip_colors` builds (option `--cpn-overapproximation`) simulates the coloured net: if no transition has the name
of a copy when copies are made, and no arc is empty otherwise. -/
theorem C69_strip_colors_partial {N : CNet} (w : N.WF) (x : XOK N) (hmix : N.NoMix) (hsm : SmallArcs N) (hpl : 0 < N.places.length)
    {ss : List Store} (hss : stores N N.transitions = some ss) (hcase : if foundNegative ss = true then FreshNames N else NoZero N)
    {ops : List Op} (h : stripColors N = some ops) : Simulates N ops := by
  unfold stripColors at h
  rw [hss, Option.bind_some] at h
  have hin := part_inhibs (N := N) N.inhibitors fun i hi => ⟨hi, (w.inhib i hi).2.1⟩
  cases hn : foundNegative ss with
  | true =>
    rw [hn, if_pos rfl] at h hcase
    rw [all_stores x hss, Option.map_some, Option.some.injEq] at h
    subst h
    rw [copies_ops rfl]
    exact simulates w x hmix hsm hpl (covers_all w x hcase hss) (laid_of w (hin.append (part_copies N _))) hss
  | false =>
    rw [hn, if_neg (by decide)] at h hcase
    rw [Option.some.injEq] at h
    subst h
    rw [plain_ops (noZero_store hcase hss)]
    exact simulates w x hmix hsm hpl (covers_plain w x hss hn) (laid_of w (hin.append (part_copies N _))) hss

/-- C69: the net that `ColorIgnorantPetriNetBuilder` builds (the explicit coloured engine) simulates the coloured net: if no transition has
the name of a copy and there is no inhibitor arc when copies are made, and no arc is empty otherwise. -/
theorem C69_color_ignorant_partial {N : CNet} (w : N.WF) (x : XOK N) (hmix : N.NoMix) (hsm : SmallArcs N) (hpl : 0 < N.places.length)
    {ss : List Store} (hss : stores N N.transitions = some ss)
    (hcase : if foundNegative ss = true then FreshNames N ∧ N.inhibitors = [] else NoZero N)
    {ops : List Op} (h : stripOps N = some ops) : Simulates N ops := by
  unfold stripOps at h
  rw [hss, Option.bind_some] at h
  cases hn : foundNegative ss with
  | true =>
    rw [hn, if_pos rfl] at h hcase
    rw [all_stores x hss, Option.map_some, Option.some.injEq] at h
    subst h
    rw [copies_ops rfl, hcase.2, List.map_nil, List.flatten_nil]
    exact simulates w x hmix hsm hpl (covers_all w x hcase.1 hss) (laid_of w (by rw [List.append_nil]; exact part_copies N _)) hss
  | false =>
    rw [hn, if_neg (by decide)] at h hcase
    rw [Option.some.injEq] at h
    subst h
    rw [plain_ops (noZero_store hcase hss)]
    have hin := part_inhibs (N := N) N.inhibitors fun i hi => ⟨hi, (w.inhib i hi).2.1⟩
    have := (part_copies N (plainE N ss)).append hin
    rw [List.append_nil] at this
    exact simulates w x hmix hsm hpl (covers_plain w x hss hn) (laid_of w this) hss

/-- C69: the calls are made for every net whose arcs compile; the loop that counts through the weights ends. -/
theorem C69_returns {N : CNet} (x : XOK N) {ss : List Store} (hss : stores N N.transitions = some ss) :
    (stripOps N).isSome = true ∧ (stripColors N).isSome = true := by
  unfold stripOps stripColors
  rw [hss, Option.bind_some, Option.bind_some, all_stores x hss]
  cases foundNegative ss <;> exact ⟨rfl, rfl⟩

/-! ### A subtraction and an inhibitor arc -/

theorem run_prefix {a b : List Op} {B : Builder} (h : run (a ++ b) = some B) : ∃ B', run a = some B' := by
  induction b using List.reverseRecOn generalizing B with
  | nil => rw [List.append_nil] at h; exact ⟨B, h⟩
  | append_singleton b o ih =>
    rw [← List.append_assoc, Builder.run_snoc] at h
    cases hr : run (a ++ b) with
    | none => rw [hr] at h; cases h
    | some B1 => exact ih hr

/-- an arc of a transition that is not declared is an exception -/
theorem run_undeclared {ops : List Op} {p t : String} {b : Bool} {k : Nat} (h : Op.input p t b k ∈ ops) (hd : ∀ pl, Op.trans t pl ∉ ops) : run ops = none := by
  cases hr : run ops with
  | none => rfl
  | some B =>
    obtain ⟨l, r, rfl⟩ := List.append_of_mem h
    rw [← List.singleton_append, ← List.append_assoc] at hr
    obtain ⟨B', hB'⟩ := run_prefix hr
    rw [Builder.run_snoc] at hB'
    cases hl : run l with
    | none => rw [hl] at hB'; cases hB'
    | some B1 =>
      have hn : t ∉ B1.tnames := fun hm => by
        obtain ⟨o, h1, h2⟩ := ((Builder.run_names l B1 hl).2 t).1 hm
        cases o with
        | trans n pl => cases h2; exact hd pl (List.mem_append_left _ h1)
        | place => cases h2
        | input => cases h2
        | output => cases h2
      rw [hl, Option.bind_some] at hB'
      simp only [Builder.apply, Builder.addInputArc, List.idxOf?_eq_none_iff.2 hn] at hB'
      cases hB'

/-- **Finding** (ColorIgnorantPetriNetBuilder.cpp:120-123, 159-168).  The copies are called `t`, `t___2`, `t___3`, …, but the inhibitor arcs
are added to `t___0`, `t___1`, ….  In every net with a subtraction on an arc and with an inhibitor arc, the first such call throws, unless
some transition happens to have the name. -/
theorem C69_finding_inhibitor_throws {N : CNet} (x : XOK N) {ss : List Store} (hss : stores N N.transitions = some ss)
    (hn : foundNegative ss = true) {h : CInhib} (hh : h ∈ N.inhibitors) (ht : h.trans < N.transitions.length)
    (hname : ∀ t ∈ N.transitions, t.name ≠ (N.trans h.trans).name ++ "___" ++ toString 0)
    {ops : List Op} (ho : stripOps N = some ops) : run ops = none := by
  have hfresh : ∀ t ∈ N.transitions, ∀ k, copyName t.name k ≠ (N.trans h.trans).name ++ "___" ++ toString 0 := fun t ht k he => by
    by_cases hk : k = 0
    · subst hk
      exact hname t ht he
    · rw [copyName_pos hk] at he
      have h0 : (N.trans h.trans).name ++ "___" ++ toString 0 = bname ((N.trans h.trans).name ++ "__") 0 := by
        unfold bname
        have : "___" = "__" ++ "_" := by decide
        rw [this]
        simp only [String.append_assoc]
      rw [h0] at he
      have := (bname_inj he).2
      omega
  unfold stripOps at ho
  rw [hss, Option.bind_some, hn, if_pos rfl, all_stores x hss, Option.map_some, Option.some.injEq] at ho
  subst ho
  obtain ⟨h1, h2, h3⟩ := stores_ok hss
  obtain ⟨s, hs, hsok⟩ := h2 _ (trans_mem ht)
  have hlook : ∃ n, 0 < n ∧ List.lookup (N.trans h.trans).name ((ss.map fun s => (s.name, named s.name 0 (allR (mkRanges N s.ins s.outs)))).map
      fun c => (c.1, c.2.length)) = some n := by
    rw [List.map_map]
    have key : ∀ l : List Store, (∀ s ∈ l, s ∈ ss) → (∃ s ∈ l, s.name = (N.trans h.trans).name) →
        ∃ n, 0 < n ∧ List.lookup (N.trans h.trans).name (l.map ((fun c : String × List (String × List XCol.Range) => (c.1, c.2.length)) ∘
          fun s => (s.name, named s.name 0 (allR (mkRanges N s.ins s.outs))))) = some n := by
      intro l
      induction l with
      | nil => rintro _ ⟨s, hs, _⟩; cases hs
      | cons a l ih =>
        intro hl hex
        rw [List.map_cons]
        simp only [Function.comp, List.lookup_cons]
        by_cases he : (N.trans h.trans).name = a.name
        · refine ⟨_, ?_, by rw [beq_iff_eq.2 he]⟩
          obtain ⟨t, ht', hok⟩ := h3 a (hl a List.mem_cons_self)
          obtain ⟨h4, h5, _⟩ := hok.range x ht'
          obtain ⟨h6, _⟩ := fits_lower _ h4 h5
          obtain ⟨j, hj⟩ := List.getElem?_of_mem (allR_has _ _ h6)
          obtain ⟨e, he⟩ : ∃ e, e ∈ named a.name 0 (allR (mkRanges N a.ins a.outs)) := 
            ⟨(copyName a.name (0 + j), _), (mem_named (t := a.name) _ 0).2 ⟨j, hj, rfl⟩⟩
          exact List.length_pos_of_mem he
        · rw [show ((N.trans h.trans).name == a.name) = false by simpa using he]
          obtain ⟨s, hs, he'⟩ := hex
          rcases List.mem_cons.1 hs with rfl | hs
          · exact absurd he'.symm he
          · exact ih (fun s hs => hl s (List.mem_cons_of_mem _ hs)) ⟨s, hs, he'⟩
    exact key ss (fun _ h => h) ⟨s, hs, hsok.name⟩
  obtain ⟨n, hpos, hlook⟩ := hlook
  refine run_undeclared (p := (N.place h.place).name) (t := (N.trans h.trans).name ++ "___" ++ toString 0) (b := true) (k := h.weight) ?_ fun pl hd => ?_
  · refine List.mem_append_right _ (List.mem_append_right _ (List.mem_flatten.2 ⟨_, List.mem_map.2 ⟨h, hh, rfl⟩, ?_⟩))
    unfold inhibOps
    rw [hlook]
    exact List.mem_map.2 ⟨0, List.mem_range.2 hpos, rfl⟩
  · rcases List.mem_append.1 hd with hd | hd
    · rcases mem_declOps hd with ⟨p, _, he⟩ | ⟨t, ht', he⟩
      · cases he
      · exact hfresh t ht' 0 (by unfold copyName; rw [if_pos rfl]; exact (Op.trans.inj he).1.symm)
    rcases List.mem_append.1 hd with hd | hd
    · rw [copies_ops rfl] at hd
      obtain ⟨l, hl, hd⟩ := List.mem_flatten.1 hd
      obtain ⟨e, he, rfl⟩ := List.mem_map.1 hl
      obtain ⟨s', hs', j, _, hj⟩ := mem_allE.1 he
      obtain ⟨t, ht', hok⟩ := h3 s' hs'
      have hne : (N.trans h.trans).name ++ "___" ++ toString 0 = e.1 := by
        unfold copyOps at hd
        rcases List.mem_cons.1 hd with hd | hd
        · exact (Op.trans.inj hd).1
        · obtain ⟨l', hl', hd⟩ := List.mem_flatten.1 hd
          obtain ⟨r, _, rfl⟩ := List.mem_map.1 hl'
          unfold Range.ops at hd
          split at hd
          · split at hd <;> simp at hd
          · cases hd
      exact hfresh t ht' j (by rw [hne, hj, hok.name])
    · obtain ⟨l, hl, hd⟩ := List.mem_flatten.1 hd
      obtain ⟨i, hi, rfl⟩ := List.mem_map.1 hl
      unfold inhibOps at hd
      split at hd
      · simp at hd
      · obtain ⟨j, _, hj⟩ := List.mem_map.1 hd
        cases hj

/-! ### Nets for the theorems -/

namespace Example

def T : Types := ⟨fun ty => if ty = 0 then 1 else 3, []⟩

theorem tfit : TFit T where
  dot_plain := rfl
  dot_one := rfl
  pos := by
    intro ty s hs
    unfold Types.dims Types.parts at hs
    simp only [T, List.lookup_nil, List.mem_singleton] at hs
    subst hs
    split <;> omega
  small := by
    intro ty
    unfold Types.size Types.parts
    simp only [T, List.lookup_nil]
    split <;> omega

theorem twf : T.WF := ⟨by decide, by decide, by decide⟩

/-- `2'x - 1'x`: between one and two tokens, as far as the bounds of the arc tell -/
def diff : ArcE := .sub (.num 2 [.var 0]) (.num 1 [.var 0])

/-- a transition `t` with a subtraction and one with a name of choice -/
def net (name : String) (inh : List CInhib) : CNet where
  types := T
  vty := fun _ => 1
  places := [⟨"P", 1, [(0, 1)]⟩, ⟨"Q", 0, [(0, 1)]⟩, ⟨"R", 0, []⟩]
  transitions := [⟨"t", none, [⟨0, diff⟩], []⟩, ⟨name, none, [⟨1, .num 1 [.dot]⟩], [⟨2, .num 1 [.dot]⟩]⟩]
  inhibitors := inh

theorem net_wf (name : String) (inh : List CInhib) (h : name ≠ "t") (hi : ∀ h ∈ inh, h.place < 3 ∧ h.trans < 2 ∧ 0 < h.weight ∧ h.weight < W32) : (net name inh).WF where
  types := twf
  pnames := by show ["P", "Q", "R"].Nodup; decide
  tnames := by
    show ["t", name].Nodup
    simp [Ne.symm h]
  vpos := by intro t _ v _; show 0 < 3; decide
  guard := by
    intro t ht g hg
    simp only [net, List.mem_cons, List.not_mem_nil, or_false] at ht
    rcases ht with rfl | rfl <;> cases hg
  arcs := by
    intro t ht a ha
    simp only [net, List.mem_cons, List.not_mem_nil, or_false] at ht
    rcases ht with rfl | rfl
    · simp only [List.append_nil, List.mem_cons, List.not_mem_nil, or_false] at ha
      subst ha
      exact ⟨by show 0 < 3; decide, by simp [ArcTy, HasTy, net, CNet.place, diff], by simp [ArcE.Small, W32, diff], by decide⟩
    · simp only [List.cons_append, List.nil_append, List.mem_cons, List.not_mem_nil, or_false] at ha
      rcases ha with rfl | rfl
      · exact ⟨by show 1 < 3; decide, by simp [ArcTy, HasTy, net, CNet.place, dotTy], by simp [ArcE.Small, W32], by decide⟩
      · exact ⟨by show 2 < 3; decide, by simp [ArcTy, HasTy, net, CNet.place, dotTy], by simp [ArcE.Small, W32], by decide⟩
  marking := by
    intro p hp
    simp only [net, List.mem_cons, List.not_mem_nil, or_false] at hp
    rcases hp with rfl | rfl | rfl
    · exact ⟨by simp, by simp [net, T, Types.size, Types.parts], by decide⟩
    · exact ⟨by simp, by simp [net, T, Types.size, Types.parts], by decide⟩
    · exact ⟨by simp, by simp, by decide⟩
  inhib := hi

theorem one : ∀ s ∈ T.dims 0, s = (T.dims 0).getD 0 0 := by decide

theorem net_xok (name : String) (inh : List CInhib) : XOK (net name inh) where
  types := tfit
  guard := by
    intro t ht g hg
    simp only [net, List.mem_cons, List.not_mem_nil, or_false] at ht
    rcases ht with rfl | rfl <;> cases hg
  arcs := by
    intro t ht a ha
    simp only [net, List.mem_cons, List.not_mem_nil, or_false] at ht
    rcases ht with rfl | rfl
    · simp only [List.append_nil, List.mem_cons, List.not_mem_nil, or_false] at ha
      subst ha
      refine ⟨by simp [ArcTy, HasTy, net, CNet.place, diff], ?_, by trivial⟩
      refine ⟨fun e he => ?_, fun e he => ?_⟩
      · obtain rfl := List.mem_singleton.1 he; trivial
      · obtain rfl := List.mem_singleton.1 he; trivial
    · simp only [List.cons_append, List.nil_append, List.mem_cons, List.not_mem_nil, or_false] at ha
      rcases ha with rfl | rfl
      · refine ⟨by simp [ArcTy, HasTy, net, CNet.place, dotTy], fun e he => ?_, fun _ => one⟩
        obtain rfl := List.mem_singleton.1 he; trivial
      · refine ⟨by simp [ArcTy, HasTy, net, CNet.place, dotTy], fun e he => ?_, fun _ => one⟩
        obtain rfl := List.mem_singleton.1 he; trivial
  marking := by
    intro p hp
    simp only [net, List.mem_cons, List.not_mem_nil, or_false] at hp
    rcases hp with rfl | rfl | rfl
    · exact ⟨by simp, by simp [net, T, Types.size, Types.parts]⟩
    · exact ⟨by simp, by simp [net, T, Types.size, Types.parts]⟩
    · exact ⟨by simp, by simp⟩

theorem net_small (name : String) (inh : List CInhib) : SmallArcs (net name inh) := by
  intro t ht
  simp only [net, List.mem_cons, List.not_mem_nil, or_false] at ht
  have key : ∀ as : List CArc, ((compArcList T (fun _ => 1) as).all fun cs => decide ((cs.map fun a => a.2.upper).sum < W32)) = true →
      ∀ cs, compArcList T (fun _ => 1) as = some cs → (cs.map fun a => a.2.upper).sum < W32 := by
    intro as h cs hc
    rw [hc] at h
    exact of_decide_eq_true h
  rcases ht with rfl | rfl
  · exact ⟨key [⟨0, diff⟩] (by decide +kernel), key [] (by decide +kernel)⟩
  · exact ⟨key [⟨1, .num 1 [.dot]⟩] (by decide +kernel), key [⟨2, .num 1 [.dot]⟩] (by decide +kernel)⟩

def theStores (name : String) (inh : List CInhib) : List Store := (stores (net name inh) (net name inh).transitions).getD []

theorem stores_eq (name : String) (inh : List CInhib) : stores (net name inh) (net name inh).transitions = some (theStores name inh) ∧
    foundNegative (theStores name inh) = true := by
  constructor <;> rfl

theorem fresh : FreshNames (net "u" []) := by
  intro s hs t ht k hk he
  have hl : ∀ x : String, ("t" ++ "___" ++ x).toList.length = 4 + x.toList.length ∧ ("u" ++ "___" ++ x).toList.length = 4 + x.toList.length := fun x => by
    simp only [String.toList_append, List.length_append]
    exact ⟨rfl, rfl⟩
  unfold copyName at he
  rw [if_neg hk] at he
  have h1 := congrArg (fun s => s.toList.length) he
  simp only [net, List.mem_cons, List.not_mem_nil, or_false] at hs ht
  rcases hs with rfl | rfl <;> rcases ht with rfl | rfl
  · simp only [(hl _).1] at h1; have h2 : "t".toList.length = 1 := rfl; rw [h2] at h1; omega
  · simp only [(hl _).2] at h1; have h2 : "t".toList.length = 1 := rfl; rw [h2] at h1; omega
  · simp only [(hl _).1] at h1; have h2 : "u".toList.length = 1 := rfl; rw [h2] at h1; omega
  · simp only [(hl _).2] at h1; have h2 : "u".toList.length = 1 := rfl; rw [h2] at h1; omega

/-- The theorems apply to a net with a subtraction: `t` is there twice, with the weights 1 and 2. -/
example : (net "u" []).WF ∧ XOK (net "u" []) ∧ (net "u" []).NoMix ∧ SmallArcs (net "u" []) ∧ FreshNames (net "u" []) ∧
    (∃ ops, stripOps (net "u" []) = some ops ∧ Simulates (net "u" []) ops ∧
      ops.filter (fun o => o.placeName == some "P") = [.place "P" 1, .input "P" "t" false 1, .input "P" "t___2" false 2]) := by
  refine ⟨net_wf _ _ (by decide) (by decide), net_xok _ _, by unfold CNet.NoMix; decide, net_small _ _, fresh, ?_⟩
  obtain ⟨h1, h2⟩ := stores_eq "u" []
  have hops : stripOps (net "u" []) = some ((stripOps (net "u" [])).getD []) := by decide +kernel
  refine ⟨_, hops, ?_, by decide +kernel⟩
  exact C69_color_ignorant_partial (net_wf _ _ (by decide) (by decide)) (net_xok _ _) (by unfold CNet.NoMix; decide) (net_small _ _) (by decide)
    h1 (by rw [h2, if_pos rfl]; exact ⟨fresh, rfl⟩) hops

/-- With an inhibitor arc at `t` the explicit engine's builder throws, that of `strip_colors` does not. -/
example : (∀ ops, stripOps (net "u" [⟨1, 0, 1⟩]) = some ops → run ops = none) ∧
    ∃ ops, stripColors (net "u" [⟨1, 0, 1⟩]) = some ops ∧ Simulates (net "u" [⟨1, 0, 1⟩]) ops := by
  have hw : (net "u" [⟨1, 0, 1⟩]).WF := net_wf _ _ (by decide) (by decide)
  obtain ⟨h1, h2⟩ := stores_eq "u" [⟨1, 0, 1⟩]
  refine ⟨fun ops ho => C69_finding_inhibitor_throws (net_xok _ _) h1 h2 (List.mem_singleton.2 rfl) (by decide) ?_ ho, ?_⟩
  · decide
  · have hops : stripColors (net "u" [⟨1, 0, 1⟩]) = some ((stripColors (net "u" [⟨1, 0, 1⟩])).getD []) := by decide +kernel
    exact ⟨_, hops, C69_strip_colors_partial hw (net_xok _ _) (by unfold CNet.NoMix; decide) (net_small _ _) (by decide)
      h1 (by rw [h2, if_pos rfl]; exact fresh) hops⟩

def clash : List Op := (stripOps (net "t___2" [])).getD []

theorem clash_eq : clash = [.place "P" 1, .place "Q" 1, .place "R" 0, .trans "t" 0, .trans "t___2" 0, .trans "t" 0, .input "P" "t" false 1,
    .trans "t___2" 0, .input "P" "t___2" false 2, .trans "t___2" 0, .input "Q" "t___2" false 1, .output "t___2" "R" 1] := by decide +kernel

theorem clash_sane : Sane clash := by
  rw [clash_eq]
  refine ⟨?_, ?_, ?_, ?_⟩
  · intro p t i k h
    simp only [List.mem_cons, Op.input.injEq, reduceCtorEq, List.not_mem_nil, or_false, false_or] at h
    rcases h with ⟨_, _, _, rfl⟩ | ⟨_, _, _, rfl⟩ | ⟨_, _, _, rfl⟩ <;> decide
  · intro t p k h
    simp only [List.mem_cons, Op.output.injEq, reduceCtorEq, List.not_mem_nil, or_false, false_or] at h
    obtain ⟨_, _, rfl⟩ := h
    decide
  · intro t p
    simp only [specPre, List.map_cons, List.map_nil, List.sum_cons, List.sum_nil, W32]
    split <;> split <;> split <;> omega
  · intro t p
    simp only [specPost, List.map_cons, List.map_nil, List.sum_cons, List.sum_nil, W32]
    split <;> omega

/-- **Finding** (ColorIgnorantPetriNetBuilder.cpp:120-134, PetriNetBuilder.cpp:83-94, 115-121).  A transition of the net that has the name of
a copy gets the arcs of the copy on top of its own: here `t___2` needs two tokens on `P` and one on `Q`, although in the coloured net it
needs only the one on `Q`.  The net without colours does not simulate the coloured one any more. -/
theorem C69_finding_name_of_copy :
    stripOps (net "t___2" []) = some clash ∧ stripColors (net "t___2" []) = some clash ∧
    specPre clash "t___2" "P" = 2 ∧ specPre clash "t___2" "Q" = 1 ∧
    (net "t___2" []).Enabled (net "t___2" []).init 1 (fun _ => [0]) ∧ ¬ Simulates (net "t___2" []) clash := by
  have hen : (net "t___2" []).Legal 1 (fun _ => [0]) ∧ (net "t___2" []).Enabled (net "t___2" []).init 1 (fun _ => [0]) := by
    refine ⟨⟨fun v hv => ?_, by trivial⟩, fun p x => ?_, (fun h hh => nomatch hh)⟩
    · have h0 : ((net "t___2" []).trans 1).vars = [] := by decide
      rw [h0] at hv
      cases hv
    · match p with
      | 1 =>
        have h1 : arcsTokens (net "t___2" []) (fun _ => [0]) ((net "t___2" []).trans 1).inputs 1 x = [[0]].count x := by
          simp [arcsTokens, net, CNet.trans, tokens, den]
        have h2 : (net "t___2" []).init 1 x = if T.value ⟨0, 0⟩ = x then 1 else 0 := by
          simp [CNet.init, net, CNet.place]
        have h3 : T.value ⟨0, 0⟩ = [0] := by decide
        rw [h1, h2, h3, List.count_singleton]
        by_cases hx : [0] = x <;> simp [hx]
      | 0 => simp [arcsTokens, net, CNet.trans]
      | p + 2 => simp [arcsTokens, net, CNet.trans]
  refine ⟨by decide +kernel, by decide +kernel, by decide +kernel, by decide +kernel, hen.2, ?_⟩
  rintro ⟨B, hB, h⟩
  have hsize : (run clash).map (fun B => B.transitions.length) = some 2 := by decide +kernel
  rw [hB, Option.map_some, Option.some.injEq] at hsize
  have hlt : B.transitions.length < W32 - 1 := by rw [hsize]; decide
  obtain ⟨c, hc, _, hf⟩ := C03_makePetriNet_faithful clash clash_sane B hB (by decide +kernel) hlt false
  obtain ⟨c', hc', _, _, _, h6⟩ := h hlt false
  rw [hc] at hc'
  obtain rfl := Option.some.inj hc'
  obtain ⟨m, _, h7, h8⟩ := h6 _ .init
  obtain ⟨k, hk, h9, h10⟩ := h8 1 (by decide) _ hen.1 hen.2
  obtain ⟨i, h11, h12⟩ := h7 0 (by decide)
  have h13 := h10.1 i
  rw [(hf.arcs _ _ k i hk h9 h11).1, h12] at h13
  have h14 : (specNet clash).pre ((net "t___2" []).trans 1).name ((net "t___2" []).place 0).name = 2 := by decide +kernel
  rw [h14] at h13
  exact absurd h13 (by decide +kernel)

end Example

/-- so the full claim is false, twice over -/
theorem C69_full_fails : ¬ C69_full := fun h =>
  Example.C69_finding_name_of_copy.2.2.2.2.2 (h (Example.net "t___2" []) (Example.net_wf _ _ (by decide) (by decide)) (Example.net_xok _ _)
    (by unfold CNet.NoMix; decide) (Example.net_small _ _) (by decide) _ (.inl Example.C69_finding_name_of_copy.1))

end ColorIgnorantProps
end Verif
