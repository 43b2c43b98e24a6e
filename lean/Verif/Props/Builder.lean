import Verif.Net.BuilderOps
import Verif.Net.Directions

/-!
# C03: compiling a net preserves it

`Builder.run ops` replays a history of the calls made by the parsers (`addPlace`, `addTransition`,
`addInputArc`, `addOutputArc`), `makePetriNet` compiles the result to the flat arrays.
`Builder.specNet ops`/`specInit ops` (in `Verif/Net/BuilderSpec.lean`) say what net the calls
describe, over names.
-/

namespace Verif
open Builder

/-- The index given to the place with this name in the compiled net. -/
def Builder.placeIdx (B : Builder) (c : Compiled) (name : String) : Option Nat :=
  (B.pnames.idxOf? name).bind c.idmap

/-- The index given to the transition with this name in the compiled net. -/
def Builder.transIdx (B : Builder) (c : Compiled) (name : String) : Option Nat :=
  (B.tnames.idxOf? name).bind c.tmap

/-- What "the compiled net is the described net" means. -/
structure Builder.Faithful (ops : List Op) (B : Builder) (c : Compiled) : Prop where
  /-- every mentioned place has an index, and only those -/
  place_idx : ∀ p, (∃ o ∈ ops, o.placeName = some p) ↔ ∃ i, B.placeIdx c p = some i
  place_lt : ∀ p i, B.placeIdx c p = some i → i < c.net.nplaces
  place_inj : ∀ p q i, B.placeIdx c p = some i → B.placeIdx c q = some i → p = q
  place_surj : ∀ i, i < c.net.nplaces → ∃ p, B.placeIdx c p = some i
  trans_idx : ∀ t, (∃ o ∈ ops, o.transName = some t) ↔ ∃ k, B.transIdx c t = some k
  trans_lt : ∀ t k, B.transIdx c t = some k → k < c.net.ntransitions
  trans_inj : ∀ t u k, B.transIdx c t = some k → B.transIdx c u = some k → t = u
  trans_surj : ∀ k, k < c.net.ntransitions → ∃ t, B.transIdx c t = some k
  /-- the arcs are the described ones -/
  arcs : ∀ t p k i (hk : k < c.net.ntransitions), B.transIdx c t = some k → B.placeIdx c p = some i →
    c.net.toNet.pre ⟨k, hk⟩ i = (specNet ops).pre t p ∧
    c.net.toNet.inh ⟨k, hk⟩ i = (specNet ops).inh t p ∧
    c.net.toNet.post ⟨k, hk⟩ i = (specNet ops).post t p
  /-- no arcs to anything else -/
  arcs_none : ∀ k p, c.net.nplaces ≤ p → c.net.toNet.pre k p = 0 ∧ c.net.toNet.inh k p = none ∧
    c.net.toNet.post k p = 0
  init : ∀ p i, B.placeIdx c p = some i → c.init i = specInit ops p

/-- **C03** (structure).  Whatever calls built the net (arc weights positive and their sums below
`2^32`, at least one place), compilation succeeds for both orderings, produces a net
satisfying the layout invariant, and numbering is a bijection on the mentioned places / declared
transitions which preserves all arcs and the initial marking. -/
theorem C03_makePetriNet_faithful (ops : List Op) (hs : Sane ops) (B : Builder)
    (hB : run ops = some B) (hp : ∃ o ∈ ops, o.placeName ≠ none)
    (hsize : B.transitions.length < W32 - 1) (reorder : Bool) :
    ∃ c, B.makePetriNet reorder = some c ∧ c.net.WF ∧ Faithful ops B c := by
  have hi := run_inv ops B hs hB
  have w := hi.wf hsize
  obtain ⟨hnp, hnt⟩ := run_names ops B hB
  have hne : ∃ p, p < B.places.length ∧ (B.place p).skip = false := by
    obtain ⟨o, ho, hon⟩ := hp
    obtain ⟨x, hx⟩ := Option.ne_none_iff_exists'.1 hon
    have : x ∈ B.pnames := (hnp x).2 ⟨o, ho, hx⟩
    refine ⟨0, ?_, hi.noskipP 0⟩
    rw [← hi.plen]
    exact List.length_pos_of_mem this
  obtain ⟨c, order, em, blocks, hmk, hf⟩ := make_facts w reorder hne
  have hwf := hf.wf w
  have pix : ∀ p i, B.placeIdx c p = some i ↔ ∃ j, B.pnames[j]? = some p ∧ c.idmap j = some i := by
    intro p i
    unfold placeIdx
    rw [Option.bind_eq_some_iff]
    constructor
    · rintro ⟨j, hj, h⟩; exact ⟨j, idxOf?_some' hj, h⟩
    · rintro ⟨j, hj, h⟩
      cases hx : B.pnames.idxOf? p with
      | none => exact absurd (getElem?_mem' hj) (idxOf?_none' hx)
      | some j' => rw [getElem?_inj_of_nodup hi.pn (idxOf?_some' hx) hj]; exact ⟨j, rfl, h⟩
  have tix : ∀ t k, B.transIdx c t = some k ↔ ∃ j, B.tnames[j]? = some t ∧ c.tmap j = some k := by
    intro p i
    unfold transIdx
    rw [Option.bind_eq_some_iff]
    constructor
    · rintro ⟨j, hj, h⟩; exact ⟨j, idxOf?_some' hj, h⟩
    · rintro ⟨j, hj, h⟩
      cases hx : B.tnames.idxOf? p with
      | none => exact absurd (getElem?_mem' hj) (idxOf?_none' hx)
      | some j' => rw [getElem?_inj_of_nodup hi.tn (idxOf?_some' hx) hj]; exact ⟨j, rfl, h⟩
  have nt : c.net.ntransitions = em.length := hf.lay.nt
  have plt : ∀ {j : Nat} {p : String}, B.pnames[j]? = some p → j < B.places.length := by
    intro j p h
    rw [← hi.plen]; by_contra hc
    rw [List.getElem?_eq_none (by omega)] at h; simp at h
  have tlt : ∀ {j : Nat} {p : String}, B.tnames[j]? = some p → j < B.transitions.length := by
    intro j p h
    rw [← hi.tlen]; by_contra hc
    rw [List.getElem?_eq_none (by omega)] at h; simp at h
  refine ⟨c, hmk, hwf, ?_⟩
  constructor
  · intro p
    rw [← hnp]
    constructor
    · intro h
      obtain ⟨j, hj, hje⟩ := List.getElem_of_mem h
      have hj' : B.pnames[j]? = some p := by rw [List.getElem?_eq_getElem hj, hje]
      obtain ⟨k, hk, _⟩ := hf.idmap_some (plt hj') (hi.noskipP j)
      exact ⟨k, (pix p k).2 ⟨j, hj', hk⟩⟩
    · rintro ⟨i, h⟩
      obtain ⟨j, hj, _⟩ := (pix p i).1 h
      exact getElem?_mem' hj
  · intro p i h
    obtain ⟨j, _, hji⟩ := (pix p i).1 h
    rw [hf.np]; exact hf.idmap_lt hji
  · intro p q i h1 h2
    obtain ⟨j, hj, hji⟩ := (pix p i).1 h1
    obtain ⟨j', hj', hji'⟩ := (pix q i).1 h2
    have := hf.idmap_inj hji hji'
    subst this
    rw [hj] at hj'; simpa using hj'
  · intro i h
    rw [hf.np] at h
    have h1 : order[i]? = some order[i] := List.getElem?_eq_getElem h
    have h2 := (hf.idmap _ _).2 h1
    have h3 := (hf.order_ok order[i]).1 (by simp)
    have h4 : order[i] < B.pnames.length := by rw [hi.plen]; exact h3.1
    exact ⟨B.pnames[order[i]], (pix _ i).2 ⟨order[i], List.getElem?_eq_getElem h4, h2⟩⟩
  · intro t
    rw [← hnt]
    constructor
    · intro h
      obtain ⟨j, hj, hje⟩ := List.getElem_of_mem h
      have hj' : B.tnames[j]? = some t := by rw [List.getElem?_eq_getElem hj, hje]
      have hm : j ∈ em := (hf.em_ok j).2 ⟨tlt hj', hi.noskipT j⟩
      obtain ⟨k, hk, hke⟩ := List.getElem_of_mem hm
      exact ⟨k, (tix t k).2 ⟨j, hj', (hf.tmap _ _).2 (by rw [List.getElem?_eq_getElem hk, hke])⟩⟩
    · rintro ⟨i, h⟩
      obtain ⟨j, hj, _⟩ := (tix t i).1 h
      exact getElem?_mem' hj
  · intro t k h
    obtain ⟨j, _, hjk⟩ := (tix t k).1 h
    have := (hf.tmap j k).1 hjk
    rw [nt]; by_contra hc
    rw [List.getElem?_eq_none (by omega)] at this; simp at this
  · intro t u k h1 h2
    obtain ⟨j, hj, hjk⟩ := (tix t k).1 h1
    obtain ⟨j', hj', hjk'⟩ := (tix u k).1 h2
    have e1 := (hf.tmap j k).1 hjk
    have e2 := (hf.tmap j' k).1 hjk'
    rw [e1] at e2
    simp at e2
    subst e2
    rw [hj] at hj'; simpa using hj'
  · intro k h
    rw [nt] at h
    have h1 : em[k]? = some em[k] := List.getElem?_eq_getElem h
    have h2 := (hf.tmap _ _).2 h1
    have h3 := (hf.em_ok em[k]).1 (by simp)
    have h4 : em[k] < B.tnames.length := by rw [hi.tlen]; exact h3.1
    exact ⟨B.tnames[em[k]], (tix _ k).2 ⟨em[k], List.getElem?_eq_getElem h4, h2⟩⟩
  · intro t p k i hk ht hpi
    obtain ⟨jt, hjt, hjk⟩ := (tix t k).1 ht
    obtain ⟨jp, hjp, hji⟩ := (pix p i).1 hpi
    obtain ⟨e1, e2, e3⟩ := hf.pre_eq w ((hf.tmap jt k).1 hjk) hk hji
    refine ⟨e1.trans ?_, e2.trans ?_, e3.trans ?_⟩
    · exact hi.pre_spec jt jp t p hjt hjp
    · exact hi.inh_spec jt jp t p hjt hjp
    · exact hi.post_spec jt jp t p hjt hjp
  · intro k p hge
    have hin : ∀ (l : List Invariant) (q : Invariant → Bool), (∀ i ∈ l, i ∈ c.net.invariants) →
        l.find? (fun i => i.place == p && q i) = none := by
      intro l q hl
      rw [List.find?_eq_none]
      intro i him hc
      have := hwf.place_lt i (hl i him)
      simp at hc
      omega
    have hpre : ∀ i ∈ c.net.preset k, i ∈ c.net.invariants :=
      fun i h => List.mem_of_mem_drop (List.mem_of_mem_take h)
    have hpost : ∀ i ∈ c.net.postset k, i ∈ c.net.invariants :=
      fun i h => List.mem_of_mem_drop (List.mem_of_mem_take h)
    refine ⟨?_, ?_, ?_⟩
    · simp only [FlatNet.toNet]
      rw [hin _ (fun i => !i.inhibitor) hpre]
    · simp only [FlatNet.toNet]
      rw [hin _ (fun i => i.inhibitor) hpre]
    · simp only [FlatNet.toNet]
      have := hin _ (fun _ => true) hpost
      simp only [Bool.and_true] at this
      rw [this]
  · intro p i h
    obtain ⟨j, hj, hji⟩ := (pix p i).1 h
    rw [hf.init_eq hji]; exact hi.init_spec j p hj

/-- **C03** (behaviour).  Firing agrees: for corresponding markings (`m` over names, `m'` over
indices) and a transition named `t` with index `k`, enabledness agrees and firing gives
corresponding markings again. -/
theorem C03_compiled_net_bisimilar {ops : List Op} {B : Builder} {c : Compiled}
    (h : Faithful ops B c) (m : Marking String) (m' : Marking Nat)
    (hm : ∀ p i, B.placeIdx c p = some i → m' i = m p)
    (t : String) (k : Nat) (hk : k < c.net.ntransitions) (ht : B.transIdx c t = some k)
    (hops : ∀ p, B.placeIdx c p = none →
      specPre ops t p = 0 ∧ specInh ops t p = none ∧ specPost ops t p = 0) :
    (c.net.toNet.Enabled m' ⟨k, hk⟩ ↔ (specNet ops).Enabled m t) ∧
    (∀ p i, B.placeIdx c p = some i →
      c.net.toNet.fire m' ⟨k, hk⟩ i = (specNet ops).fire m t p) := by
  constructor
  · constructor
    · rintro ⟨h1, h2⟩
      refine ⟨fun p => ?_, fun p w hw => ?_⟩
      · cases hp : B.placeIdx c p with
        | none => have := (hops p hp).1; simp only [specNet]; omega
        | some i => rw [← (h.arcs t p k i hk ht hp).1, ← hm p i hp]; exact h1 i
      · cases hp : B.placeIdx c p with
        | none => have := (hops p hp).2.1; simp only [specNet] at hw; rw [hw] at this; simp at this
        | some i => rw [← hm p i hp]; exact h2 i w (by rw [(h.arcs t p k i hk ht hp).2.1]; exact hw)
    · rintro ⟨h1, h2⟩
      refine ⟨fun i => ?_, fun i w hw => ?_⟩
      · by_cases hi : i < c.net.nplaces
        · obtain ⟨p, hp⟩ := h.place_surj i hi
          rw [(h.arcs t p k i hk ht hp).1, hm p i hp]; exact h1 p
        · rw [(h.arcs_none ⟨k, hk⟩ i (by omega)).1]; omega
      · by_cases hi : i < c.net.nplaces
        · obtain ⟨p, hp⟩ := h.place_surj i hi
          rw [hm p i hp]; exact h2 p w (by rw [← (h.arcs t p k i hk ht hp).2.1]; exact hw)
        · rw [(h.arcs_none ⟨k, hk⟩ i (by omega)).2.1] at hw; simp at hw
  · intro p i hp
    obtain ⟨e1, _, e3⟩ := h.arcs t p k i hk ht hp
    unfold Net.fire
    rw [e1, e3, hm p i hp]

/-- The side condition of `C03_compiled_net_bisimilar` always holds. -/
theorem C03_no_arcs_to_unmentioned {ops : List Op} {B : Builder} {c : Compiled}
    (h : Faithful ops B c) (hs : Sane ops) (hB : run ops = some B) (t p : String)
    (hp : B.placeIdx c p = none) :
    specPre ops t p = 0 ∧ specInh ops t p = none ∧ specPost ops t p = 0 := by
  have hi := run_inv ops B hs hB
  obtain ⟨hnp, _⟩ := run_names ops B hB
  have : p ∉ B.pnames := by
    rw [hnp, h.place_idx]; rintro ⟨i, hi⟩; rw [hp] at hi; simp at hi
  exact (hi.fresh_p p this).1 t

/-! ### A concrete history meeting the hypotheses -/

namespace C03Example
/-- Two places, three transitions, merged arcs, an inhibitor arc and a transition without inputs. -/
def ops : List Op :=
  [.place "p" 2, .place "q" 0, .trans "t" 0, .trans "u" 0, .trans "src" 0,
   .input "p" "t" false 1, .output "t" "q" 1, .input "p" "t" false 1, .input "q" "u" true 3,
   .input "q" "u" true 2, .input "p" "u" false 1, .output "src" "p" 1]

example : (run ops).isSome = true := by decide
example : specPre ops "t" "p" = 2 := by decide
example : specInh ops "u" "q" = some 2 := by decide
example : ((run ops).bind (·.makePetriNet true)).isSome = true := by decide +kernel
end C03Example

/-- A net with a transition declared for the environment player that has no input arcs. -/
def orphanEnvOps : List Op := [.place "p" 0, .trans "e" 1, .output "e" "p" 1]

/-- **Finding.**  `makePetriNet` never stores the player of a transition without (non-inhibitor)
input arcs: a source transition declared for the environment (`player = 1`) is compiled to a
controllable one. -/
theorem C03_finding_orphan_player_lost :
    ∃ B c, run orphanEnvOps = some B ∧ B.makePetriNet false = some c ∧
      (B.trans 0).player = 1 ∧ c.tmap 0 = some 0 ∧ c.net.controllable[0]? = some true := by
  refine ⟨(run orphanEnvOps).get (by decide), (((run orphanEnvOps).get (by decide)).makePetriNet false).get
    (by decide +kernel), by simp, by simp, by decide, by decide +kernel, by decide +kernel⟩

/-- Players of transitions with a consuming input arc are preserved. -/
theorem C03_players_preserved (B : Builder) (w : B.WF) (reorder : Bool)
    (hne : ∃ p, p < B.places.length ∧ (B.place p).skip = false) :
    ∃ c, B.makePetriNet reorder = some c ∧ ∀ t k, c.tmap t = some k →
      c.net.controllable.getD k true =
        (if (B.trans t).pre.all (·.inhib) then true else decide ((B.trans t).player = 0)) := by
  obtain ⟨c, order, em, blocks, hmk, hf⟩ := make_facts w reorder hne
  refine ⟨c, hmk, fun t k h => ?_⟩
  exact hf.ctrl k t ((hf.tmap t k).1 h)

/-- **C03** (annotations): the direction stored with every input and output arc is the sign of the
transition's effect on the place (used by partial order reduction). -/
theorem C03_directions (B : Builder) (w : B.WF) (reorder : Bool)
    (hne : ∃ p, p < B.places.length ∧ (B.place p).skip = false) :
    ∃ c, B.makePetriNet reorder = some c ∧ ∀ (t : Fin c.net.ntransitions) (i : Invariant),
      (i ∈ c.net.preset t ∨ i ∈ c.net.postset t) →
      i.direction = Int.sign ((c.net.toNet.post t i.place : Int) - (c.net.toNet.pre t i.place : Int)) := by
  obtain ⟨c, order, em, blocks, hmk, hf⟩ := make_facts w reorder hne
  exact ⟨c, hmk, hf.dirOK w⟩

end Verif
