import Verif.CRed.PreemptLemmas
import Verif.Props.ColorReduce

/-!
# Preemptive firing: what the rule does
-/

namespace Verif
namespace CRed
open CPN XCol

/-! ### Multisets -/

theorem bump_sum (l : List (Nat × Nat)) (i k : Nat) (h : (l.map (·.2)).sum + k < W32) : ((CPN.bump l i k).map (·.2)).sum = (l.map (·.2)).sum + k := by
  induction l with
  | nil => simp [CPN.bump] at *; exact Nat.mod_eq_of_lt h
  | cons a l ih =>
    obtain ⟨j, n⟩ := a
    simp only [List.map_cons, List.sum_cons] at h
    rw [CPN.bump]
    by_cases e : j = i
    · rw [if_pos e]
      simp only [List.map_cons, List.sum_cons]
      rw [Nat.mod_eq_of_lt (by omega)]
      omega
    · rw [if_neg e]
      simp only [List.map_cons, List.sum_cons]
      rw [ih (by omega)]
      omega

theorem addAll_sum (ty : Nat) (l : List (Nat × Nat)) : ∀ m m' : CPN.MS, MS.addAll ty l m = some m' →
    (m.set.map (·.2)).sum + (l.map (·.2)).sum < W32 → (m'.set.map (·.2)).sum = (m.set.map (·.2)).sum + (l.map (·.2)).sum := by
  induction l with
  | nil => intro m m' h _; rw [MS.addAll] at h; injection h with h; subst h; rfl
  | cons a l ih =>
    intro m m' h hb
    obtain ⟨i, k⟩ := a
    simp only [List.map_cons, List.sum_cons] at hb ⊢
    rw [MS.addAll] at h
    cases hm : m.addAt ⟨ty, i⟩ k with
    | none => rw [hm] at h; cases h
    | some s =>
      rw [hm] at h
      have hs : s.set = CPN.bump m.set i k := by
        unfold MS.addAt at hm
        split at hm
        · injection hm with hm; rw [← hm]
        · split at hm
          · injection hm with hm; rw [← hm]
          · cases hm
      have e := bump_sum m.set i k (by omega)
      rw [← hs] at e
      rw [ih s m' h (by omega)]
      omega

theorem add_sum {m o m' : CPN.MS} (h : m.add o = some m') (hb : (m.set.map (·.2)).sum + (o.set.map (·.2)).sum < W32) :
    (m'.set.map (·.2)).sum = (m.set.map (·.2)).sum + (o.set.map (·.2)).sum := by
  unfold MS.add at h
  split at h
  · cases h
  · have := addAll_sum _ _ _ _ h hb
    exact this

theorem entry_le (l : List (Nat × Nat)) (i : Nat) : entry l i ≤ (l.map (·.2)).sum := by
  induction l with
  | nil => simp [entry]
  | cons a l ih =>
    obtain ⟨j, n⟩ := a
    simp only [List.map_cons, List.sum_cons]
    unfold entry at *
    rw [List.lookup_cons]
    split
    · simp
    · omega

/-! ### Other tokens at the start -/

theorem place_setMark (R : Red) {p : Nat} (hp : p < R.net.places.length) (l : List (Nat × Nat)) (q : Nat) :
    (R.setMark p l).net.place q = if q = p then { R.net.place q with marking := l } else R.net.place q := by
  unfold CNet.place Red.setMark
  simp only
  rw [List.getD_eq_getElem?_getD, List.getD_eq_getElem?_getD, List.getElem?_modify]
  by_cases h : q = p
  · subst h
    simp [List.getElem?_eq_getElem hp]
  · simp [h, Ne.symm h]

theorem remark_setMark (R : Red) (p : Nat) (l : List (Nat × Nat)) : Remark R (R.setMark p l) := by
  refine ⟨rfl, rfl, rfl, rfl, fun q => ?_, rfl, rfl⟩
  by_cases hp : p < R.net.places.length
  · rw [place_setMark R hp]; split <;> rfl
  · unfold CNet.place Red.setMark
    simp only
    rw [List.getD_eq_getElem?_getD, List.getD_eq_getElem?_getD, List.getElem?_modify]
    by_cases h : p = q
    · subst h
      simp [List.getElem?_eq_none (by omega : R.net.places.length ≤ p)]
    · simp [h]

theorem length_setMark (R : Red) (p : Nat) (l : List (Nat × Nat)) : (R.setMark p l).net.places.length = R.net.places.length := by
  unfold Red.setMark; simp

theorem names_setMark (R : Red) (p : Nat) (l : List (Nat × Nat)) : (R.setMark p l).net.places.map (·.name) = R.net.places.map (·.name) := by
  unfold Red.setMark
  simp only
  generalize R.net.places = ps
  induction ps generalizing p with
  | nil => cases p <;> rfl
  | cons a ps ih =>
    cases p with
    | zero => simp
    | succ n => simp [ih n]

theorem wf_setMark {R : Red} (w : R.net.WF) {p : Nat} {l : List (Nat × Nat)} (hn : (l.map (·.1)).Nodup)
    (hl : ∀ i ∈ l.map (·.1), i < R.net.types.size (R.net.place p).ty) (hs : (l.map (·.2)).sum < W32) : (R.setMark p l).net.WF where
  types := w.types
  pnames := by rw [names_setMark]; exact w.pnames
  tnames := w.tnames
  vpos := w.vpos
  guard := w.guard
  arcs := by
    intro t ht a ha
    have := w.arcs t ht a ha
    rw [length_setMark, (remark_setMark R p l).tys]
    exact this
  marking := by
    intro pl hpl
    obtain ⟨i, hi, rfl⟩ := List.getElem_of_mem hpl
    have hi' : i < R.net.places.length := by rwa [length_setMark] at hi
    have e : (R.setMark p l).net.places[i] = (R.setMark p l).net.place i := by
      unfold CNet.place
      rw [List.getD_eq_getElem?_getD, List.getElem?_eq_getElem hi]
      rfl
    rw [e]
    by_cases hp : p < R.net.places.length
    · rw [place_setMark R hp]
      by_cases h : i = p
      · subst h
        rw [if_pos rfl]
        exact ⟨hn, hl, hs⟩
      · rw [if_neg h]
        exact w.marking _ (place_mem hi')
    · have : (R.setMark p l).net.place i = R.net.place i := by
        unfold CNet.place Red.setMark
        simp only
        rw [List.getD_eq_getElem?_getD, List.getD_eq_getElem?_getD, List.getElem?_modify]
        have hne : p ≠ i := by omega
        simp only [if_neg hne]
        simp
      rw [this]
      exact w.marking _ (place_mem hi')
  inhib := by
    intro h hh
    have := w.inhib h hh
    rw [length_setMark]
    exact this

theorem init_congr {N N' : CNet} (ht : N'.types = N.types) {q : Nat} (h : N'.place q = N.place q) : N'.init q = N.init q := by
  funext x
  unfold CNet.init
  rw [ht, h]

theorem init_setMark {R : Red} {p : Nat} (hp : p < R.net.places.length) (l : List (Nat × Nat)) {q : Nat} (h : q ≠ p) :
    (R.setMark p l).net.init q = R.net.init q := by
  have e : (R.setMark p l).net.place q = R.net.place q := by rw [place_setMark R hp, if_neg h]
  exact init_congr (N := R.net) (N' := (R.setMark p l).net) rfl e

theorem pour_ok {tok : CPN.MS} {ty : Nat} {f : Nat → Nat} (as : List CArc) : ∀ R R' : Red, R.net.WF → (as.map (·.place)).Nodup →
    (∀ a ∈ as, a.place < R.net.places.length ∧ (R.net.place a.place).ty = ty ∧
      (R.net.place a.place).tokens + (tok.set.map (·.2)).sum < W32) →
    Holds R.net.types tok ty f → Red.pour tok as R = some R' →
    Remark R R' ∧ R'.net.WF ∧ R'.net.places.length = R.net.places.length ∧ (∀ q, q ∉ as.map (·.place) → R'.net.place q = R.net.place q) ∧
    ∀ q ∈ as.map (·.place), ∀ i, i < R.net.types.size ty →
      R'.net.init q (R.net.types.value ⟨ty, i⟩) = R.net.init q (R.net.types.value ⟨ty, i⟩) + f i := by
  induction as with
  | nil =>
    intro R R' w _ _ _ h
    rw [Red.pour] at h
    injection h with h
    subst h
    exact ⟨.refl R, w, rfl, fun _ _ => rfl, (fun q hq => nomatch hq)⟩
  | cons a as ih =>
    intro R R' w hnd ha ht h
    rw [List.map_cons, List.nodup_cons] at hnd
    obtain ⟨a1, a2, a3⟩ := ha a List.mem_cons_self
    have hm := holds_mark w a1
    rw [a2] at hm
    have hval := hm.val
    obtain ⟨m, hadd, hh⟩ := holds_add hm ht (fun i hi => by
      have e1 := hm.val i hi
      have e2 := ht.val i hi
      have l1 := entry_le (markMS (R.net.place a.place)).set i
      have l2 := entry_le tok.set i
      have : ((markMS (R.net.place a.place)).set.map (·.2)).sum = (R.net.place a.place).tokens := rfl
      omega)
    rw [Red.pour, hadd] at h
    replace h : Red.pour tok as (R.setMark a.place m.set) = some R' := h
    have hsum := add_sum hadd a3
    have w1 : (R.setMark a.place m.set).net.WF := wf_setMark w hh.nodup (by rw [a2]; exact hh.lt) (by rw [hsum]; exact a3)
    have hne : ∀ b ∈ as, b.place ≠ a.place := fun b hb e => hnd.1 (e ▸ List.mem_map_of_mem hb)
    obtain ⟨g1, g2, g3, g4, g5⟩ := ih (R.setMark a.place m.set) R' w1 hnd.2 (fun b hb => by
      obtain ⟨b1, b2, b3⟩ := ha b (List.mem_cons_of_mem _ hb)
      rw [length_setMark, place_setMark R a1, if_neg (hne b hb)]
      exact ⟨b1, b2, b3⟩) ht h
    refine ⟨(remark_setMark R _ _).trans g1, g2, by rw [g3, length_setMark], fun q hq => ?_, fun q hq i hi => ?_⟩
    · rw [List.map_cons, List.mem_cons, not_or] at hq
      rw [g4 q hq.2, place_setMark R a1, if_neg hq.1]
    · rw [List.map_cons, List.mem_cons] at hq
      by_cases hqa : q ∈ as.map (·.place)
      · have hqn : q ≠ a.place := fun e => hnd.1 (e ▸ hqa)
        have := g5 q hqa i hi
        rw [init_setMark a1 m.set hqn] at this
        exact this
      · have e : q = a.place := hq.resolve_right hqa
        subst e
        have e1 := g4 a.place hqa
        have hty : (R'.net.place a.place).ty = ty := by rw [e1, place_setMark R a1, if_pos rfl]; exact a2
        have hv := init_value g2 (p := a.place) (i := i) (by rw [g3, length_setMark]; exact a1) (by rw [hty, g1.types]; exact hi)
        have hT : R'.net.types = R.net.types := g1.types
        rw [hty, hT] at hv
        rw [hv, e1, place_setMark R a1, if_pos rfl]
        exact hh.val i hi

/-! ### The transition that is fired -/

/-- What the rule is right about: each arc of the transition carries tokens of one variable, the transition does not put tokens back, and
the tokens that are moved fit into 32 bits. -/
def Red.Suits (R : Red) (p t : Nat) : Prop :=
  (∀ a ∈ (R.net.trans t).inputs ++ (R.net.trans t).outputs, ∃ k v, 0 < k ∧ a.expr = .num k [.var v]) ∧
  ∀ a ∈ (R.net.trans t).outputs, a.place ≠ p ∧ (R.net.place a.place).tokens + (R.net.place p).tokens < W32

theorem var_tokens (T : Types) (vty : Nat → Nat) (ρ : Nat → Val) (k v : Nat) (x : Val) :
    tokens T vty ρ (.num k [.var v]) x = if x = ρ v then k else 0 := by
  rw [tokens]
  simp only [List.map_cons, List.map_nil, den]
  by_cases h : x = ρ v
  · simp [h]
  · simp [h, Ne.symm h]

/-- what the checks of the rule say -/
structure Chosen (R : Red) (nm : Names) (q : Uses) (p t : Nat) (i : CArc) : Prop where
  skP : p ∉ R.skP
  calm : R.inhibitor p = 0
  unused : q.place p = false
  post : R.post p = [t]
  asked : q.trans t = false
  guard : (R.net.trans t).guard = none
  free : R.inhibited t = 0
  one : (R.net.trans t).inputs.length ≤ 1
  arc : R.inArc p t = some i
  made : R.pre p ≠ [] → arcWeight i.expr = 1
  mixed : (R.net.place p).marking.length > 1 → arcWeight i.expr = 1
  whole : (R.net.place p).tokens % arcWeight i.expr = 0
  outs : ∀ o ∈ (R.net.trans t).outputs, q.place o.place = false ∧ R.inhibitor o.place = 0 ∧ (∀ u ∈ R.post o.place, q.trans u = false) ∧
    arcText nm o.expr = arcText nm i.expr

theorem chosen_of {R : Red} {nm : Names} {q : Uses} {fired : List Nat} {p t : Nat} (h : R.preemptable nm q fired p = some (some t)) :
    ∃ i, Chosen R nm q p t i := by
  unfold Red.preemptable at h
  split at h
  · cases h
  rename_i hc
  push Not at hc
  split at h
  · rename_i t' hpost
    cases hv : R.viable nm q fired t' p with
    | none => rw [hv] at h; cases h
    | some b =>
      rw [hv] at h
      cases b with
      | false => cases h
      | true =>
        have e : t' = t := by simpa using h
        subst e
        unfold Red.viable at hv
        split at hv
        · cases hv
        rename_i hd
        push Not at hd
        split at hv
        · cases hv
        rename_i i hi
        split at hv
        · cases hv
        rename_i h1
        split at hv
        · cases hv
        rename_i h2
        split at hv
        · cases hv
        split at hv
        · cases hv
        rename_i h3
        have hall := List.all_eq_true.1 (Option.some.inj hv)
        refine ⟨i, hc.1, by omega, by simpa using hc.2.2.2, hpost, by simpa using hd.1, ?_, by omega, by omega, hi, fun hp => ?_, fun hl => ?_,
          by omega, fun o ho => ?_⟩
        · simpa using hd.2.2.1
        · by_contra hne; exact h1 ⟨hp, hne⟩
        · by_contra hne; exact h2 ⟨hl, hne⟩
        · have := hall o ho
          unfold Red.outFine at this
          simp only [Bool.and_eq_true, Bool.not_eq_true', beq_iff_eq, List.any_eq_false] at this
          exact ⟨this.1.1.1, this.1.1.2, fun u hu => by simpa using this.1.2 u hu, by simpa using this.2⟩
  · cases h

/-- arcs with the same text carry the same tokens -/
theorem alike_arcs {R : Red} {nm : Names} (hr : Readable nm R.net) {q : Uses} {p t : Nat} {i : CArc} (h : Chosen R nm q p t i) (hs : R.Suits p t) :
    ∃ k v, 0 < k ∧ ∀ a ∈ (R.net.trans t).inputs ++ (R.net.trans t).outputs, a.expr = .num k [.var v] := by
  have ht : t ∈ R.post p := by rw [h.post]; exact List.mem_cons_self
  have hlt := (mem_post.1 ht).1
  have hi1 := (arcAt_some h.arc).1
  obtain ⟨k, v, hk, he⟩ := hs.1 i (List.mem_append_left _ hi1)
  refine ⟨k, v, hk, fun a ha => ?_⟩
  rcases List.mem_append.1 ha with hin | hout
  · have hl := h.one
    cases hc : (R.net.trans t).inputs with
    | nil => rw [hc] at hin; cases hin
    | cons b l =>
      rw [hc, List.length_cons] at hl
      have : l = [] := List.length_eq_zero_iff.1 (by omega)
      subst this
      rw [hc, List.mem_singleton] at hin hi1
      rw [hin, ← hi1, he]
  · obtain ⟨k', v', hk', he'⟩ := hs.1 a ha
    have hx := hr _ (trans_mem hlt) a ha i (List.mem_append_left _ hi1) (h.outs a hout).2.2.2
    have e : v' = v := by
      by_contra hne
      have := hx (fun u => if u = v then [] else [0]) []
      rw [he, he', var_tokens, var_tokens] at this
      simp [hne] at this
      omega
    subst e
    have := hx (fun _ => []) []
    rw [he, he', var_tokens, var_tokens] at this
    simp at this
    rw [he', this]

theorem chosen_mover {R : Red} (w : R.net.WF) (hs : Sorted R.net) {nm : Names} {q : Uses} {p t : Nat} {i : CArc} (hsk : t ∉ R.skT)
    (h : Chosen R nm q p t i) {k v : Nat} (hk : 0 < k) (he : ∀ a ∈ (R.net.trans t).inputs ++ (R.net.trans t).outputs, a.expr = .num k [.var v])
    (ho : ∀ a ∈ (R.net.trans t).outputs, a.place ≠ p) : Mover R p t k ((R.net.trans t).outputs.map (·.place)) := by
  have ht : t ∈ R.post p := by rw [h.post]; exact List.mem_cons_self
  have hlt := (mem_post.1 ht).1
  obtain ⟨hi1, hi2⟩ := arcAt_some h.arc
  have hin : (R.net.trans t).inputs = [i] := by
    cases hl : (R.net.trans t).inputs with
    | nil => rw [hl] at hi1; cases hi1
    | cons a l =>
      have := h.one
      rw [hl, List.length_cons] at this
      have : l = [] := List.length_eq_zero_iff.1 (by omega)
      subst this
      rw [hl] at hi1
      simp at hi1
      rw [hi1]
  have hexp : i.expr = .num k [.var v] := he i (List.mem_append_left _ hi1)
  have hpty : (R.net.place p).ty = R.net.vty v := by
    have := (inArc_wf w hlt h.arc).2.1
    rw [hexp, ArcTy] at this
    exact this.2 (.var v) (by simp)
  have acts : ∀ ρ : Nat → Val, ∀ q x, arcsTokens R.net ρ (R.net.trans t).inputs q x = (if q = p ∧ x = ρ v then k else 0) ∧
      arcsTokens R.net ρ (R.net.trans t).outputs q x = (if q ∈ (R.net.trans t).outputs.map (·.place) ∧ x = ρ v then k else 0) := by
    intro ρ q x
    constructor
    · rw [hin]
      unfold arcsTokens
      simp only [List.map_cons, List.map_nil, List.sum_cons, List.sum_nil, Nat.add_zero]
      rw [hi2, hexp, var_tokens]
      by_cases e : p = q
      · simp [e]
      · simp [e, Ne.symm e]
    · by_cases hq : q ∈ (R.net.trans t).outputs.map (·.place)
      · obtain ⟨a, ha, rfl⟩ := List.mem_map.1 hq
        rw [arcsTokens_at (hs _ (trans_mem hlt)).2 ha rfl, he a (List.mem_append_right _ ha), var_tokens]
        simp only [hq, true_and]
      · rw [arcsTokens_zero (fun a ha e => hq (List.mem_map.2 ⟨a, ha, e⟩))]
        simp only [hq, false_and, if_false]
  have vars : ∀ u ∈ (R.net.trans t).vars, u = v := by
    intro u hu
    unfold CTrans.vars at hu
    rw [mem_dedup, h.guard] at hu
    simp only [guardVars, List.nil_append, List.mem_append] at hu
    have key : ∀ as : List CArc, (∀ a ∈ as, a.expr = .num k [.var v]) → u ∈ arcsVars as → u = v := by
      intro as has hm
      unfold arcsVars at hm
      rw [List.mem_flatten] at hm
      obtain ⟨l, hl, hv⟩ := hm
      obtain ⟨a, ha, rfl⟩ := List.mem_map.1 hl
      rw [has a ha] at hv
      simpa [ArcE.vars, CExpr.varsL, CExpr.vars] using hv
    rcases hu with hu | hu
    · exact key _ (fun a ha => he a (List.mem_append_left _ ha)) hu
    · exact key _ (fun a ha => he a (List.mem_append_right _ ha)) hu
  refine ⟨hlt, hsk, fun u hu hne hm => ?_, fun j hj => ⟨fun e => ?_, fun hm => ?_, fun e => ?_⟩, fun hm => ?_, hk, fun ρ _ => ⟨ρ v, acts ρ⟩, fun x hx => ?_⟩
  · rw [h.post] at hm
    simp at hm
    exact hne hm
  · have := h.calm
    unfold Red.inhibitor at this
    have hj' : j ∈ R.net.inhibitors.filter fun h => h.place == p := List.mem_filter.2 ⟨hj, by simpa using e⟩
    rw [List.length_eq_zero_iff.1 this] at hj'
    cases hj'
  · obtain ⟨o, hmo, e⟩ := List.mem_map.1 hm
    have := (h.outs o hmo).2.1
    unfold Red.inhibitor at this
    have hj' : j ∈ R.net.inhibitors.filter fun h => h.place == o.place := List.mem_filter.2 ⟨hj, by simpa using e.symm⟩
    rw [List.length_eq_zero_iff.1 this] at hj'
    cases hj'
  · have := h.free
    unfold Red.inhibited at this
    have hj' : j ∈ R.net.inhibitors.filter fun h => h.trans == t := List.mem_filter.2 ⟨hj, by simpa using e⟩
    rw [List.length_eq_zero_iff.1 this] at hj'
    cases hj'
  · obtain ⟨o, hmo, e⟩ := List.mem_map.1 hm
    exact ho o hmo e
  · refine ⟨fun _ => x, ⟨fun u hu => ?_, ?_⟩, acts fun _ => x⟩
    · rw [vars u hu, ← hpty]
      exact hx
    · rw [h.guard]
      trivial

/-! ### The tokens that are moved -/

/-- the values of the tokens, in groups of `k` -/
def groups (T : Types) (ty k : Nat) (l : List (Nat × Nat)) : List Val := l.flatMap fun q => List.replicate (q.2 / k) (T.value ⟨ty, q.1⟩)

theorem groups_count (T : Types) (ty k : Nat) (l : List (Nat × Nat)) (h : ∀ q ∈ l, k ∣ q.2) (x : Val) :
    k * (groups T ty k l).count x = (l.map fun q => if T.value ⟨ty, q.1⟩ = x then q.2 else 0).sum := by
  unfold groups
  induction l with
  | nil => simp
  | cons a l ih =>
    rw [List.flatMap_cons, List.count_append, Nat.mul_add, ih fun q hq => h q (List.mem_cons_of_mem _ hq), List.map_cons, List.sum_cons,
      List.count_replicate]
    congr 1
    by_cases e : T.value ⟨ty, a.1⟩ = x
    · rw [if_pos e, if_pos (by simpa using e)]
      exact Nat.mul_div_cancel' (h a List.mem_cons_self)
    · rw [if_neg e, if_neg (by simpa using e)]
      simp

theorem divides_all {l : List (Nat × Nat)} {k : Nat} (h1 : l.length > 1 → k = 1) (h2 : (l.map (·.2)).sum % k = 0) : ∀ q ∈ l, k ∣ q.2 := by
  intro q hq
  by_cases h : l.length > 1
  · rw [h1 h]; exact Nat.one_dvd _
  · cases l with
    | nil => cases hq
    | cons a l =>
      have : l = [] := List.length_eq_zero_iff.1 (by rw [List.length_cons] at h; omega)
      subst this
      simp at hq h2
      subst hq
      exact Nat.dvd_of_mod_eq_zero h2

/-- the net with the tokens moved, and none left on the place -/
theorem poured {R P : Red} (w : R.net.WF) (hs : Sorted R.net) {nm : Names} {q : Uses} {p t : Nat} {i : CArc}
    (h : Chosen R nm q p t i) {k v : Nat} (he : ∀ a ∈ (R.net.trans t).inputs ++ (R.net.trans t).outputs, a.expr = .num k [.var v])
    (ho : ∀ a ∈ (R.net.trans t).outputs, a.place ≠ p ∧ (R.net.place a.place).tokens + (R.net.place p).tokens < W32)
    (hp : Red.pour (markMS (R.net.place p)) (R.net.trans t).outputs R = some P) :
    Remark R P ∧ P.net.WF ∧ P.net.place p = R.net.place p ∧ p < P.net.places.length ∧
      Ahead R p ((R.net.trans t).outputs.map (·.place)) k R.net.init (P.setMark p []).net.init := by
  have ht : t ∈ R.post p := by rw [h.post]; exact List.mem_cons_self
  have hlt := (mem_post.1 ht).1
  have hexp : i.expr = .num k [.var v] := he i (List.mem_append_left _ (arcAt_some h.arc).1)
  have hwi := inArc_wf w hlt h.arc
  have hpl := hwi.1
  have hpty : (R.net.place p).ty = R.net.vty v := by
    have := hwi.2.1
    rw [hexp, ArcTy] at this
    exact this.2 (.var v) (by simp)
  have hwt : arcWeight i.expr = k := by
    have := (arc_lt w hlt (List.mem_append_left _ (arcAt_some h.arc).1)).2.1
    rw [hexp, ArcE.Small] at this
    rw [hexp, arcWeight]
    simp only [List.length_cons, List.length_nil, Nat.zero_add, Nat.mul_one] at this ⊢
    exact Nat.mod_eq_of_lt this
  have hnd : ((R.net.trans t).outputs.map (·.place)).Nodup := (hs _ (trans_mem hlt)).2.imp (fun h => Nat.ne_of_lt h)
  obtain ⟨g1, g2, g3, g4, g5⟩ := pour_ok (R.net.trans t).outputs R P w hnd (fun a ha => by
    have := w.arcs _ (trans_mem hlt) a (List.mem_append_right _ ha)
    have hty := this.2.1
    rw [he a (List.mem_append_right _ ha), ArcTy] at hty
    exact ⟨this.1, (hty.2 (.var v) (by simp)).trans hpty.symm, (ho a ha).2⟩) (holds_mark w hpl) hp
  have hpo : p ∉ (R.net.trans t).outputs.map (·.place) := fun hm => by
    obtain ⟨o, hmo, e⟩ := List.mem_map.1 hm
    exact (ho o hmo).1 e
  have hpp := g4 p hpo
  refine ⟨g1, g2, hpp, by rw [g3]; exact hpl, groups R.net.types (R.net.place p).ty k (R.net.place p).marking, fun x hx => ?_, fun x => ?_, ?_⟩
  · unfold groups at hx
    rw [List.mem_flatMap] at hx
    obtain ⟨e, he, hx⟩ := hx
    rw [(List.mem_replicate.1 hx).2]
    exact (mem_values _).2 ⟨e.1, (w.marking _ (place_mem hpl)).2.1 e.1 (List.mem_map_of_mem he), rfl⟩
  · have hdv : ∀ e ∈ (R.net.place p).marking, k ∣ e.2 :=
      divides_all (fun hl => by rw [← hwt]; exact h.mixed hl) (by have := h.whole; rw [hwt] at this; exact this)
    rw [groups_count _ _ _ _ hdv]
    exact Nat.le_refl _
  · have hdv : ∀ e ∈ (R.net.place p).marking, k ∣ e.2 :=
      divides_all (fun hl => by rw [← hwt]; exact h.mixed hl) (by have := h.whole; rw [hwt] at this; exact this)
    have hgc : ∀ x, k * (groups R.net.types (R.net.place p).ty k (R.net.place p).marking).count x = R.net.init p x :=
      fun x => groups_count _ _ _ _ hdv x
    have hplP : p < P.net.places.length := by rw [g3]; exact hpl
    funext r x
    unfold moved
    rw [hgc]
    by_cases e : r = p
    · subst e
      rw [if_pos rfl, Nat.sub_self]
      unfold CNet.init
      rw [place_setMark P hplP, if_pos rfl]
      rfl
    · rw [if_neg e, init_setMark hplP [] e]
      by_cases hm : r ∈ (R.net.trans t).outputs.map (·.place)
      · rw [if_pos hm]
        obtain ⟨a, ha, rfl⟩ := List.mem_map.1 hm
        have hw := w.arcs _ (trans_mem hlt) a (List.mem_append_right _ ha)
        have hty := hw.2.1
        rw [he a (List.mem_append_right _ ha), ArcTy] at hty
        have hty : (R.net.place a.place).ty = (R.net.place p).ty := (hty.2 (.var v) (by simp)).trans hpty.symm
        by_cases hx : ∃ j, j < R.net.types.size (R.net.place p).ty ∧ x = R.net.types.value ⟨(R.net.place p).ty, j⟩
        · obtain ⟨j, hj, rfl⟩ := hx
          exact g5 a.place hm j hj
        · have z1 : R.net.init p x = 0 := by
            by_contra hne
            exact hx (init_mem w hpl hne)
          have z2 : R.net.init a.place x = 0 := by
            by_contra hne
            obtain ⟨j, hj, e⟩ := init_mem w hw.1 hne
            rw [hty] at hj e
            exact hx ⟨j, hj, e⟩
          have z3 : P.net.init a.place x = 0 := by
            by_contra hne
            obtain ⟨j, hj, e⟩ := init_mem g2 (by rw [g3]; exact hw.1) hne
            rw [g1.tys, g1.types, hty] at hj e
            exact hx ⟨j, hj, e⟩
          rw [z1, z2, z3]
      · rw [if_neg hm, init_congr g1.types (g4 r hm)]

/-! ### A place that is emptied for good -/

theorem same_emptied {R R' : Red} {p t : Nat} (hty : R'.net.types = R.net.types) (htys : ∀ q, (R'.net.place q).ty = (R.net.place q).ty)
    (hsk : R'.skP = p :: R.skP) (hst : ∀ M u ρ L, R'.Step M u ρ L ↔ u ≠ t ∧ R.Step M u ρ L)
    (hin : ∀ u, u < R.net.transitions.length → u ≠ t → ∀ ρ x, arcsTokens R.net ρ (R.net.trans u).inputs p x = 0)
    (hout : ∀ u, u < R.net.transitions.length → ∀ ρ x, arcsTokens R.net ρ (R.net.trans u).outputs p x = 0)
    (hinh : ∀ h ∈ R.net.inhibitors, h.place ≠ p) (h0 : ∀ x, R.net.init p x = 0) (hi : ∀ q, q ≠ p → R.net.init q = R'.net.init q)
    (hd : ∀ M : CMark, (∀ x, M p x = 0) → ¬R.CanFire M t) : Same R R' := by
  have key : ∀ M M' : CMark, (∀ q, q ≠ p → M q = M' q) → ∀ u, u ≠ t → ∀ ρ L, R.Step M u ρ L →
      R.Step M' u ρ (R.net.fire M' u ρ) ∧ ∀ q, q ≠ p → L q = R.net.fire M' u ρ q := by
    rintro M M' hq u hu ρ L ⟨h1, h2, h3, h4, rfl⟩
    refine ⟨⟨h1, h2, h3, ⟨fun q x => ?_, fun j hj he => ?_⟩, rfl⟩, fun q hne => ?_⟩
    · by_cases e : q = p
      · rw [e, hin u h2 hu]; exact Nat.zero_le _
      · rw [← hq q e]; exact h4.1 q x
    · have := h4.2 j hj he
      rw [total_congr (R := R) (R' := R) rfl rfl (hq _ (hinh j hj))]
      exact this
    · funext x
      unfold CNet.fire
      rw [hq q hne]
  have keep : ∀ M : CMark, (∀ x, M p x = 0) → ∀ u ρ L, R.Step M u ρ L → ∀ x, L p x = 0 := by
    rintro M hM u ρ L ⟨h1, h2, h3, h4, rfl⟩ x
    unfold CNet.fire
    rw [hM, hout u h2]
    omega
  refine ⟨⟨fun M M' => (∀ x, M p x = 0) ∧ ∀ q, q ≠ p → M q = M' q, ⟨⟨h0, hi⟩, ?_, ?_⟩, ?_⟩, hty, htys, fun q h => by
    rw [hsk]; exact List.mem_cons_of_mem _ h⟩
  · rintro M M' _ _ ⟨hM, hq⟩ u ρ L hl
    have hu : u ≠ t := fun e => hd M hM ⟨ρ, L, e ▸ hl⟩
    obtain ⟨k1, k2⟩ := key M M' hq u hu ρ L hl
    exact ⟨ρ, _, (hst _ _ _ _).2 ⟨hu, k1⟩, keep M hM u ρ L hl, k2⟩
  · rintro M M' _ _ ⟨hM, hq⟩ u ρ L hl
    obtain ⟨hu, hl⟩ := (hst _ _ _ _).1 hl
    obtain ⟨k1, k2⟩ := key M' M (fun q h => (hq q h).symm) u hu ρ L hl
    exact ⟨ρ, _, k1, keep M hM u ρ _ k1, fun q h => (k2 q h).symm⟩
  · rintro M M' ⟨_, hq⟩ r hr
    exact hq r fun e => hr (by rw [hsk, e]; exact List.mem_cons_self)

theorem step_strip {R : Red} {p u : Nat} (hi : ∀ a ∈ (R.net.trans u).inputs, a.place ≠ p) (ho : ∀ a ∈ (R.net.trans u).outputs, a.place ≠ p)
    (hinh : ∀ h ∈ R.net.inhibitors, h.place ≠ p) {M L : CMark} {ρ : Nat → Val} : (R.skipPlace p).Step M u ρ L ↔ R.Step M u ρ L := by
  have htr : (R.skipPlace p).net.trans u = R.net.trans u := by
    rw [trans_skipPlace]
    unfold stripT
    rw [List.filter_eq_self.2 fun a ha => by simpa using hi a ha, List.filter_eq_self.2 fun a ha => by simpa using ho a ha]
  have hinh' : (R.skipPlace p).net.inhibitors = R.net.inhibitors := List.filter_eq_self.2 fun a ha => by simpa using hinh a ha
  have hlen : (R.skipPlace p).net.transitions.length = R.net.transitions.length := by unfold Red.skipPlace; simp
  have harc : ∀ as q x, arcsTokens (R.skipPlace p).net ρ as q x = arcsTokens R.net ρ as q x := fun _ _ _ => rfl
  have htot : ∀ q, (R.skipPlace p).net.total M q = R.net.total M q := fun _ => rfl
  have hf : (R.skipPlace p).net.fire M u ρ = R.net.fire M u ρ := by
    funext q x
    unfold CNet.fire
    rw [htr, harc, harc]
  unfold Red.Step CNet.Step CNet.Legal CNet.Enabled
  rw [htr, hinh', hlen, hf]
  exact Iff.rfl

/-! ### The rule -/

/-- The transitions left out have no arcs (src/PetriEngine/Colored/Reduction/ColoredReducer.cpp:135-168). -/
def Red.Bare (R : Red) : Prop := ∀ t ∈ R.skT, (R.net.trans t).inputs = []

/-- what the rule keeps of a net -/
structure Neat (nm : Names) (R : Red) : Prop where
  wf : R.net.WF
  sorted : Sorted R.net
  readable : Readable nm R.net
  bare : R.Bare

theorem Neat.remark {nm : Names} {R R' : Red} (h : Neat nm R) (hr : Remark R R') (w : R'.net.WF) : Neat nm R' := by
  refine ⟨w, ?_, ?_, ?_⟩
  · unfold Sorted; rw [hr.trs]; exact h.sorted
  · unfold Readable; rw [hr.trs, hr.types, hr.vty]; exact h.readable
  · intro t ht
    rw [hr.skT] at ht
    rw [hr.tran]
    exact h.bare t ht

theorem Neat.skipPlace {nm : Names} {R : Red} (h : Neat nm R) (p : Nat) : Neat nm (R.skipPlace p) :=
  ⟨wf_skipPlace h.wf p, sorted_skipPlace h.sorted p, readable_skipPlace h.readable p, fun t ht => by
    rw [trans_skipPlace]
    unfold stripT
    simp only
    rw [h.bare t ht]
    rfl⟩

theorem Neat.skipTrans {nm : Names} {R : Red} (h : Neat nm R) (t : Nat) : Neat nm (R.skipTrans t) :=
  ⟨wf_skipTrans h.wf t, sorted_skipTrans h.sorted t, readable_skipTrans h.readable t, fun u hu => by
    rw [trans_skipTrans]
    by_cases e : u = t
    · rw [if_pos e]; rfl
    · rw [if_neg e]
      exact h.bare u ((List.mem_cons.1 hu).resolve_left e)⟩

theorem Bare.live {R : Red} (h : R.Bare) {p t : Nat} (ht : t ∈ R.post p) : t ∉ R.skT := fun hs => by
  obtain ⟨_, a, ha, _⟩ := mem_post.1 ht
  rw [h t hs] at ha
  cases ha

theorem fireAll_ok {R R' : Red} {nm : Names} (hn : Neat nm R) {q : Uses} {fired : List Nat} {stale : Bool} {p t : Nat}
    (hc : R.preemptable nm q fired p = some (some t)) (hs : R.Suits p t) (h : R.fireAll stale p t = some R') :
    Neat nm R' ∧ (∀ r ∈ R'.skP, r ∈ R.skP ∨ q.place r = false) ∧
      ∀ φ, Known q φ → Speaks R φ → qneg φ = false → Keeps R R' φ := by
  obtain ⟨i, hch⟩ := chosen_of hc
  obtain ⟨k, v, hk, he⟩ := alike_arcs hn.readable hch hs
  have htp : t ∈ R.post p := by rw [hch.post]; exact List.mem_cons_self
  have hlt := (mem_post.1 htp).1
  have hm := chosen_mover hn.wf hn.sorted (Bare.live hn.bare htp) hch hk he fun a ha => (hs.2 a ha).1
  unfold Red.fireAll at h
  cases hP : Red.pour (markMS (R.net.place p)) (R.net.trans t).outputs R with
  | none => rw [hP] at h; cases h
  | some P =>
    rw [hP] at h
    replace h : (if R.pre p = [] then (if stale then some ((P.skipPlace p).skipTrans t) else none) else some (P.setMark p [])) = some R' := h
    obtain ⟨g1, g2, g3, g4, g5⟩ := poured hn.wf hn.sorted hch he hs.2 hP
    have hr1 : Remark R (P.setMark p []) := g1.trans (remark_setMark P p [])
    have w1 : (P.setMark p []).net.WF := wf_setMark g2 (by simp) (by simp) (by simp [W32])
    have kept : ∀ φ, Known q φ → qneg φ = false → Keeps R (P.setMark p []) φ := by
      intro φ hkn hq
      refine mover_keeps hm hr1 g5 hq (fun r hr => ⟨fun e => ?_, fun hmo => ?_⟩) (fun u hu => ⟨fun e => ?_, fun o ho hmem => ?_⟩)
      · have := hkn.1 r hr
        rw [e, hch.unused] at this
        cases this
      · obtain ⟨o, ho, e⟩ := List.mem_map.1 hmo
        have := hkn.1 r hr
        rw [← e, (hch.outs o ho).1] at this
        cases this
      · have := hkn.2 u hu
        rw [e, hch.asked] at this
        cases this
      · obtain ⟨a, ha, e⟩ := List.mem_map.1 ho
        have := hkn.2 u hu
        rw [(hch.outs a ha).2.2.1 u (by rw [e]; exact hmem)] at this
        cases this
    by_cases hpre : R.pre p = []
    · rw [if_pos hpre] at h
      cases stale with
      | false => cases h
      | true =>
        replace h : some ((P.skipPlace p).skipTrans t) = some R' := h
        injection h with h
        subst h
        have hsame : Same (P.setMark p []) ((P.skipPlace p).skipTrans t) := by
          have hnoin : ∀ u, u < R.net.transitions.length → u ≠ t → ∀ a ∈ (R.net.trans u).inputs, a.place ≠ p := fun u hu hne a ha e =>
            hm.only u hu hne (mem_post.2 ⟨hu, a, ha, e⟩)
          have hnoout : ∀ u, u < R.net.transitions.length → ∀ a ∈ (R.net.trans u).outputs, a.place ≠ p := fun u hu a ha e => by
            have : u ∈ R.pre p := mem_pre.2 ⟨hu, a, ha, e⟩
            rw [hpre] at this
            cases this
          have hPl : P.net.transitions.length = R.net.transitions.length := by rw [g1.trs]
          refine same_emptied (p := p) (t := t) rfl (fun r => ?_) rfl (fun M u ρ L => ?_) (fun u hu hne ρ x => ?_) (fun u hu ρ x => ?_)
            (fun j hj => ?_) (fun x => ?_) (fun r hne => ?_) (fun M hM => ?_)
          · exact ((remark_setMark P p []).tys r).symm
          · rw [step_skipTrans, (remark_setMark P p []).step]
            constructor
            · rintro ⟨hne, hst⟩
              have hu : u < R.net.transitions.length := by
                have := hst.2.1
                unfold Red.skipPlace at this
                simpa [hPl] using this
              refine ⟨hne, (step_strip ?_ ?_ ?_).1 hst⟩
              · rw [g1.tran]; exact hnoin u hu hne
              · rw [g1.tran]; exact hnoout u hu
              · rw [g1.inh]; exact fun j hj => (hm.calm j hj).1
            · rintro ⟨hne, hst⟩
              have hu : u < R.net.transitions.length := by rw [← hPl]; exact hst.2.1
              refine ⟨hne, (step_strip ?_ ?_ ?_).2 hst⟩
              · rw [g1.tran]; exact hnoin u hu hne
              · rw [g1.tran]; exact hnoout u hu
              · rw [g1.inh]; exact fun j hj => (hm.calm j hj).1
          · rw [hr1.trs] at hu
            rw [hr1.tran]
            exact arcsTokens_zero (hnoin u hu hne) x
          · rw [hr1.trs] at hu
            rw [hr1.tran]
            exact arcsTokens_zero (hnoout u hu) x
          · rw [hr1.inh] at hj
            exact (hm.calm j hj).1
          · unfold CNet.init
            rw [place_setMark P g4, if_pos rfl]
            rfl
          · exact init_setMark g4 [] hne
          · rintro ⟨ρ, L, hl⟩
            rw [hr1.step] at hl
            obtain ⟨_, _, h3, h4, _⟩ := hl
            obtain ⟨x, hx⟩ := hm.acts ρ h3
            have := h4.1 p x
            rw [(hx p x).1, if_pos ⟨rfl, rfl⟩, hM x] at this
            omega
        refine ⟨((hn.remark g1 g2).skipPlace p).skipTrans t, fun r hr => ?_, fun φ hkn hsp hq => ?_⟩
        · have hr : r ∈ p :: P.skP := hr
          rw [g1.skP] at hr
          rcases List.mem_cons.1 hr with e | hr
          · exact Or.inr (e ▸ hch.unused)
          · exact Or.inl hr
        · refine (kept φ hkn hq).trans (hsame.keeps φ fun r hr hmem => ?_)
          have hmem : r ∈ p :: P.skP := hmem
          rw [g1.skP] at hmem
          rcases List.mem_cons.1 hmem with e | hmem
          · have := hkn.1 r hr
            rw [e, hch.unused] at this
            cases this
          · exact hsp r hr hmem
    · rw [if_neg hpre] at h
      injection h with h
      subst h
      refine ⟨hn.remark hr1 w1, fun r hr => Or.inl (by rwa [hr1.skP] at hr), fun φ hkn _ hq => kept φ hkn hq⟩

/-- All transitions that the rule fires are suitable. -/
def Red.Suited (nm : Names) (q : Uses) (stale : Bool) (late : Nat → Bool) : List Nat → List Nat → Red → Prop
  | [], _, _ => True
  | p :: ps, fired, R => late p = false →
    (R.preemptable nm q fired p = some none → Red.Suited nm q stale late ps fired R) ∧
    ∀ t, R.preemptable nm q fired p = some (some t) →
      R.Suits p t ∧ ∀ R', R.fireAll stale p t = some R' → Red.Suited nm q stale late ps (t :: fired) R'

theorem preempt_ok {nm : Names} {q : Uses} {stale : Bool} {late : Nat → Bool} (ps : List Nat) : ∀ (fired : List Nat) (R : Red) (r : List Nat × Red),
    Neat nm R → Red.Suited nm q stale late ps fired R → Red.preempt nm q stale late ps fired R = some r →
    Neat nm r.2 ∧ (∀ p ∈ r.2.skP, p ∈ R.skP ∨ q.place p = false) ∧ ∀ φ, Known q φ → Speaks R φ → qneg φ = false → Keeps R r.2 φ := by
  induction ps with
  | nil =>
    intro fired R r hn _ h
    rw [Red.preempt] at h
    injection h with h
    subst h
    exact ⟨hn, fun _ h => Or.inl h, fun _ _ _ _ => Iff.rfl⟩
  | cons p ps ih =>
    intro fired R r hn hs h
    rw [Red.preempt] at h
    cases hl : late p with
    | true =>
      rw [hl] at h
      have h : some (fired, R) = some r := h
      injection h with h
      subst h
      exact ⟨hn, fun _ h => Or.inl h, fun _ _ _ _ => Iff.rfl⟩
    | false =>
      rw [hl, if_neg (by simp)] at h
      rw [Red.Suited] at hs
      obtain ⟨s1, s2⟩ := hs hl
      cases hc : R.preemptable nm q fired p with
      | none => rw [hc] at h; cases h
      | some o =>
        rw [hc] at h
        cases o with
        | none => exact ih fired R r hn (s1 hc) h
        | some t =>
          replace h : ((R.fireAll stale p t).bind fun R' => Red.preempt nm q stale late ps (t :: fired) R') = some r := h
          obtain ⟨hsu, hnext⟩ := s2 t hc
          cases hf : R.fireAll stale p t with
          | none => rw [hf] at h; cases h
          | some R1 =>
            rw [hf] at h
            obtain ⟨a1, a2, a3⟩ := fireAll_ok hn hc hsu hf
            obtain ⟨b1, b2, b3⟩ := ih (t :: fired) R1 r a1 (hnext R1 hf) h
            refine ⟨b1, fun p' hp' => ?_, fun φ hk hsp hq => (a3 φ hk hsp hq).trans (b3 φ hk (fun p' hp' hm => ?_) hq)⟩
            · rcases b2 p' hp' with h | h
              · exact a2 p' h
              · exact Or.inr h
            · rcases a2 p' hm with h | h
              · exact hsp p' hp' h
              · rw [hk.1 p' hp'] at h
                cases h

end CRed
end Verif
