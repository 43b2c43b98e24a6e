import Verif.CRed.Base

/-!
# Nets with tokens of one colour, for examples and counterexamples
-/

namespace Verif
namespace CRed
open CPN XCol

def dotTypes : Types := ⟨fun _ => 1, []⟩

def dotArc (a : Nat × Nat) : CArc := ⟨a.1, .num a.2 [.dot]⟩

def dotPlace (i k : Nat) : CPlace := ⟨"p" ++ toString i, 0, if k = 0 then [] else [(0, k)]⟩

def dotTrans (i : Nat) (t : List (Nat × Nat) × List (Nat × Nat)) : CTrans :=
  ⟨"t" ++ toString i, none, t.1.map dotArc, t.2.map dotArc⟩

/-- the net with the given initial tokens, arcs of the transitions and inhibitor arcs -/
def dnet (ms : List Nat) (ts : List (List (Nat × Nat) × List (Nat × Nat))) (hs : List CInhib := []) : CNet where
  types := dotTypes
  vty := fun _ => 0
  places := ms.mapIdx dotPlace
  transitions := ts.mapIdx dotTrans
  inhibitors := hs

/-- the weight of the arcs at a place -/
def wt (as : List (Nat × Nat)) (p : Nat) : Nat := (as.map fun a => if a.1 = p then a.2 else 0).sum

/-- one firing, on numbers of tokens -/
def DStep (ts : List (List (Nat × Nat) × List (Nat × Nat))) (hs : List CInhib) (sk : List Nat) (m : Nat → Nat) (t : Nat) (m' : Nat → Nat) : Prop :=
  ∃ τ, ts[t]? = some τ ∧ t ∉ sk ∧ (∀ p, wt τ.1 p ≤ m p) ∧ (∀ h ∈ hs, h.trans = t → m h.place < h.weight) ∧
    m' = fun p => m p - wt τ.1 p + wt τ.2 p

inductive DReach (ms : List Nat) (ts : List (List (Nat × Nat) × List (Nat × Nat))) (hs : List CInhib) (sk : List Nat) : (Nat → Nat) → Prop
  | init : DReach ms ts hs sk fun p => ms.getD p 0
  | step {m m' : Nat → Nat} {t : Nat} : DReach ms ts hs sk m → DStep ts hs sk m t m' → DReach ms ts hs sk m'

theorem dot_tokens (T : Types) (vty : Nat → Nat) (ρ : Nat → Val) (k : Nat) (x : Val) :
    tokens T vty ρ (.num k [.dot]) x = if x = [0] then k else 0 := by
  rw [tokens]
  simp only [List.map_cons, List.map_nil, den]
  by_cases h : x = [0]
  · simp [h]
  · simp [h, Ne.symm h]

theorem dot_arcs (N : CNet) (ρ : Nat → Val) (as : List (Nat × Nat)) (p : Nat) (x : Val) :
    arcsTokens N ρ (as.map dotArc) p x = if x = [0] then wt as p else 0 := by
  unfold arcsTokens wt
  induction as with
  | nil => simp
  | cons a as ih =>
    simp only [List.map_cons, List.sum_cons]
    rw [ih]
    show (if a.1 = p then tokens N.types N.vty ρ (.num a.2 [.dot]) x else 0) + _ = _
    rw [dot_tokens]
    by_cases h : x = [0]
    · simp [h]
    · simp [h]

theorem dot_total {ms ts hs} (M : CMark) {p : Nat} : (dnet ms ts hs).total M p = M p [0] := by
  unfold CNet.total
  have hty : ((dnet ms ts hs).place p).ty = 0 := by
    unfold CNet.place dnet
    simp only [List.getD_eq_getElem?_getD, List.getElem?_mapIdx]
    cases ms[p]? <;> rfl
  rw [hty]
  show ((dotTypes.values 0).map (M p)).sum = _
  have : dotTypes.values 0 = [[0]] := by decide
  rw [this]
  simp

theorem dot_init {ms ts hs} (p : Nat) : (dnet ms ts hs).init p [0] = ms.getD p 0 := by
  have hpl : (dnet ms ts hs).place p = match ms[p]? with | none => ⟨"", 0, []⟩ | some k => dotPlace p k := by
    unfold CNet.place dnet
    simp only [List.getD_eq_getElem?_getD, List.getElem?_mapIdx]
    cases ms[p]? <;> rfl
  unfold CNet.init
  rw [hpl, List.getD_eq_getElem?_getD]
  cases h : ms[p]? with
  | none => simp
  | some k =>
    simp only [dotPlace, Option.getD_some]
    by_cases hk : k = 0
    · simp [hk]
    · have hv : (dnet ms ts hs).types.value ⟨0, 0⟩ = [0] := by show dotTypes.value ⟨0, 0⟩ = [0]; decide
      simp [hk, hv]

theorem dot_trans {ms ts hs} {t : Nat} {τ : List (Nat × Nat) × List (Nat × Nat)} (h : ts[t]? = some τ) :
    (dnet ms ts hs).trans t = dotTrans t τ := by
  unfold CNet.trans dnet
  simp [List.getD_eq_getElem?_getD, List.getElem?_mapIdx, h]

theorem dots_vars (as : List (Nat × Nat)) : arcsVars (as.map dotArc) = [] := by
  unfold arcsVars
  induction as with
  | nil => rfl
  | cons a as ih =>
    simp only [List.map_cons, List.flatten_cons]
    rw [ih]
    simp [dotArc, ArcE.vars, CExpr.varsL, CExpr.vars]

theorem dot_legal {ms ts hs} {t : Nat} {τ : List (Nat × Nat) × List (Nat × Nat)} (h : ts[t]? = some τ) (ρ : Nat → Val) :
    (dnet ms ts hs).Legal t ρ := by
  unfold CNet.Legal
  rw [dot_trans h]
  refine ⟨fun v hv => ?_, trivial⟩
  unfold CTrans.vars dotTrans at hv
  rw [mem_dedup] at hv
  simp only [dots_vars, guardVars] at hv
  cases hv

theorem dstep_of {R : Red} {ms ts hs} (hN : R.net = dnet ms ts hs) {M M' : CMark} {t : Nat} {ρ : Nat → Val} (h : R.Step M t ρ M') :
    DStep ts hs R.skT (fun p => M p [0]) t (fun p => M' p [0]) := by
  obtain ⟨h1, h2, h3, ⟨h4, h5⟩, h6⟩ := h
  rw [hN] at h2 h4 h5 h6
  have hlt : t < ts.length := by simpa [dnet] using h2
  have ht : ts[t]? = some ts[t] := List.getElem?_eq_getElem hlt
  refine ⟨ts[t], ht, h1, fun p => ?_, fun h hm he => ?_, ?_⟩
  · have := h4 p [0]
    rw [dot_trans ht] at this
    unfold dotTrans at this
    rw [dot_arcs, if_pos rfl] at this
    exact this
  · have := h5 h hm he
    rw [dot_total] at this
    exact this
  · funext p
    rw [h6]
    unfold CNet.fire
    rw [dot_trans ht]
    unfold dotTrans
    rw [dot_arcs, dot_arcs, if_pos rfl, if_pos rfl]

theorem step_of_d {R : Red} {ms ts hs} (hN : R.net = dnet ms ts hs) {M : CMark} {t : Nat} {m' : Nat → Nat}
    (h : DStep ts hs R.skT (fun p => M p [0]) t m') : ∃ M', R.Step M t (fun _ => []) M' ∧ m' = fun p => M' p [0] := by
  obtain ⟨τ, ht, h1, h2, h3, h4⟩ := h
  have hlt : t < ts.length := by
    by_contra hc
    rw [List.getElem?_eq_none (by omega)] at ht
    cases ht
  refine ⟨R.net.fire M t fun _ => [], ⟨h1, ?_, ?_, ⟨?_, ?_⟩, rfl⟩, ?_⟩
  · rw [hN]; simpa [dnet] using hlt
  · rw [hN]; exact dot_legal ht _
  · rw [hN]
    intro p x
    rw [dot_trans ht]
    unfold dotTrans
    rw [dot_arcs]
    split
    · rename_i e; rw [e]; exact h2 p
    · exact Nat.zero_le _
  · rw [hN]
    intro h hm he
    rw [dot_total]
    exact h3 h hm he
  · funext p
    rw [h4, hN]
    unfold CNet.fire
    rw [dot_trans ht]
    unfold dotTrans
    rw [dot_arcs, dot_arcs, if_pos rfl, if_pos rfl]

theorem dreach_of {R : Red} {ms ts hs} (hN : R.net = dnet ms ts hs) {M : CMark} (h : R.Reach M) :
    DReach ms ts hs R.skT fun p => M p [0] := by
  induction h with
  | init =>
    have : (fun p => R.net.init p [0]) = fun p => ms.getD p 0 := by funext p; rw [hN, dot_init]
    rw [this]
    exact .init
  | step hr hs ih => exact ih.step (dstep_of hN hs)

theorem reach_of_d {R : Red} {ms ts hs} (hN : R.net = dnet ms ts hs) {m : Nat → Nat} (h : DReach ms ts hs R.skT m) :
    ∃ M, R.Reach M ∧ m = fun p => M p [0] := by
  induction h with
  | init => exact ⟨_, .init, by funext p; rw [hN, dot_init]⟩
  | step hr hs ih =>
    obtain ⟨M, h1, rfl⟩ := ih
    obtain ⟨M', h2, h3⟩ := step_of_d hN hs
    exact ⟨M', h1.step h2, h3⟩

/-- the truth of a proposition, on numbers of tokens -/
def DHolds (ts : List (List (Nat × Nat) × List (Nat × Nat))) (hs : List CInhib) (sk : List Nat) (m : Nat → Nat) : XQ → Prop
  | .and a b => DHolds ts hs sk m a ∧ DHolds ts hs sk m b
  | .or a b => DHolds ts hs sk m a ∨ DHolds ts hs sk m b
  | .not a => ¬DHolds ts hs sk m a
  | .lt x y => dval m x < dval m y
  | .le x y => dval m x ≤ dval m y
  | .eq x y => dval m x = dval m y
  | .ne x y => dval m x ≠ dval m y
  | .dead => ∀ t m', ¬DStep ts hs sk m t m'
  | .fire t => ∃ m', DStep ts hs sk m t m'
where dval (m : Nat → Nat) : QVal → Int
  | .place p => m p
  | .lit k => k

theorem canFire_dot {R : Red} {ms ts hs} (hN : R.net = dnet ms ts hs) (M : CMark) (t : Nat) :
    R.CanFire M t ↔ ∃ m', DStep ts hs R.skT (fun p => M p [0]) t m' := by
  constructor
  · rintro ⟨ρ, M', h⟩
    exact ⟨_, dstep_of hN h⟩
  · rintro ⟨m', h⟩
    obtain ⟨M', h1, _⟩ := step_of_d hN h
    exact ⟨_, M', h1⟩

theorem sem_dot {R : Red} {ms ts hs} (hN : R.net = dnet ms ts hs) (M : CMark) (x : QVal) :
    x.sem R.net M = DHolds.dval (fun p => M p [0]) x := by
  cases x with
  | lit k => rfl
  | place p =>
    rw [hN]
    show (((dnet ms ts hs).total M p : Nat) : Int) = _
    rw [dot_total]
    rfl

theorem holds_dot {R : Red} {ms ts hs} (hN : R.net = dnet ms ts hs) (M : CMark) (φ : XQ) :
    R.holds M φ ↔ DHolds ts hs R.skT (fun p => M p [0]) φ := by
  induction φ with
  | and a b iha ihb => rw [Red.holds, DHolds, iha, ihb]
  | or a b iha ihb => rw [Red.holds, DHolds, iha, ihb]
  | not a iha => rw [Red.holds, DHolds, iha]
  | lt x y => rw [Red.holds, DHolds, sem_dot hN, sem_dot hN]
  | le x y => rw [Red.holds, DHolds, sem_dot hN, sem_dot hN]
  | eq x y => rw [Red.holds, DHolds, sem_dot hN, sem_dot hN]
  | ne x y => rw [Red.holds, DHolds, sem_dot hN, sem_dot hN]
  | dead =>
    rw [Red.holds, DHolds]
    refine forall_congr' fun t => ?_
    rw [canFire_dot hN]
    simp
  | fire t => rw [Red.holds, DHolds, canFire_dot hN]

theorem ef_dot {R : Red} {ms ts hs} (hN : R.net = dnet ms ts hs) (φ : XQ) :
    R.EF φ ↔ ∃ m, DReach ms ts hs R.skT m ∧ DHolds ts hs R.skT m φ := by
  constructor
  · rintro ⟨M, h1, h2⟩
    exact ⟨_, dreach_of hN h1, (holds_dot hN M φ).1 h2⟩
  · rintro ⟨m, h1, h2⟩
    obtain ⟨M, h3, rfl⟩ := reach_of_d hN h1
    exact ⟨M, h3, (holds_dot hN M φ).2 h2⟩

theorem mem_dtrans {ms ts hs} {t : CTrans} (h : t ∈ (dnet ms ts hs).transitions) : ∃ i τ, τ ∈ ts ∧ t = dotTrans i τ := by
  obtain ⟨i, hi, rfl⟩ := List.getElem_of_mem h
  have hl : i < ts.length := by simpa [dnet] using hi
  exact ⟨i, ts[i], List.getElem_mem hl, by simp [dnet]⟩

theorem mem_dplace {ms ts hs} {t : CPlace} (h : t ∈ (dnet ms ts hs).places) : ∃ i k, k ∈ ms ∧ t = dotPlace i k := by
  obtain ⟨i, hi, rfl⟩ := List.getElem_of_mem h
  have hl : i < ms.length := by simpa [dnet] using hi
  exact ⟨i, ms[i], List.getElem_mem hl, by simp [dnet]⟩

theorem dnet_wf {ms ts hs} (hp : ((dnet ms ts hs).places.map (·.name)).Nodup) (ht : ((dnet ms ts hs).transitions.map (·.name)).Nodup)
    (ha : ∀ τ ∈ ts, ∀ a ∈ τ.1 ++ τ.2, a.1 < ms.length ∧ a.2 < 2 ^ 31) (hm : ∀ k ∈ ms, k < W32)
    (hi : ∀ h ∈ hs, h.place < ms.length ∧ h.trans < ts.length ∧ 0 < h.weight ∧ h.weight < W32) : (dnet ms ts hs).WF where
  types := ⟨rfl, rfl, by show ([] : List (List Nat)).Nodup; exact List.nodup_nil⟩
  pnames := hp
  tnames := ht
  vpos := by
    intro t _ v _
    show 0 < dotTypes.size 0
    decide
  guard := by
    intro t h g hg
    obtain ⟨i, τ, _, rfl⟩ := mem_dtrans h
    cases hg
  arcs := by
    intro t h a haa
    obtain ⟨i, τ, hτ, rfl⟩ := mem_dtrans h
    obtain ⟨b, hb, rfl⟩ : ∃ b ∈ τ.1 ++ τ.2, a = dotArc b := by
      unfold dotTrans at haa
      simp only at haa
      rw [← List.map_append] at haa
      obtain ⟨b, hb, e⟩ := List.mem_map.1 haa
      exact ⟨b, hb, e.symm⟩
    have := ha τ hτ b hb
    have hty : ∀ p, ((dnet ms ts hs).place p).ty = 0 := by
      intro p
      unfold CNet.place dnet
      simp only [List.getD_eq_getElem?_getD, List.getElem?_mapIdx]
      cases ms[p]? <;> rfl
    refine ⟨by simpa [dnet, dotArc] using this.1, ?_, ?_, ?_⟩
    · rw [hty]
      unfold dotArc
      rw [ArcTy]
      refine ⟨by simp, fun e he => ?_⟩
      simp only [List.mem_singleton] at he
      subst he
      rw [HasTy]
      rfl
    · unfold dotArc
      rw [ArcE.Small]
      have : W32 = 2 ^ 32 := rfl
      simp only [List.length_cons, List.length_nil]
      omega
    · unfold dotArc
      rw [ArcE.bound]
      simp only [List.length_cons, List.length_nil]
      omega
  marking := by
    intro pl h
    obtain ⟨i, k, hk, rfl⟩ := mem_dplace h
    have := hm k hk
    have hsz : (dnet ms ts hs).types.size 0 = 1 := by show dotTypes.size 0 = 1; decide
    unfold dotPlace CPlace.tokens
    by_cases h0 : k = 0
    · simp [h0, W32]
    · simp [h0, hsz, this]
  inhib := by
    intro h hm
    have := hi h hm
    simpa [dnet] using this

theorem dnet_sorted {ms ts hs} (h : ∀ τ ∈ ts, (τ.1.map (·.1)).Pairwise (· < ·) ∧ (τ.2.map (·.1)).Pairwise (· < ·)) : Sorted (dnet ms ts hs) := by
  intro t ht
  obtain ⟨i, τ, hτ, rfl⟩ := mem_dtrans ht
  have e : ∀ as : List (Nat × Nat), (as.map dotArc).map (·.place) = as.map (·.1) := fun as => by rw [List.map_map]; rfl
  unfold dotTrans
  simp only
  rw [e, e]
  exact h τ hτ

theorem dnet_readable (nm : Names) {ms ts hs} : Readable nm (dnet ms ts hs) := by
  intro t ht a ha b hb he ρ x
  obtain ⟨i, τ, hτ, rfl⟩ := mem_dtrans ht
  have e : ∀ a ∈ (dotTrans i τ).inputs ++ (dotTrans i τ).outputs, ∃ c, a = dotArc c := by
    intro a ha
    unfold dotTrans at ha
    simp only at ha
    rw [← List.map_append] at ha
    obtain ⟨c, _, e⟩ := List.mem_map.1 ha
    exact ⟨c, e.symm⟩
  obtain ⟨c, rfl⟩ := e a ha
  obtain ⟨d, rfl⟩ := e b hb
  unfold dotArc at *
  simp only [arcText, List.cons_append, List.cons.injEq, Tok.num.injEq] at he
  simp only
  rw [he.1]

/-- an invariant of the net -/
theorem dinv {ms ts hs sk} (I : (Nat → Nat) → Prop) (h0 : I fun p => ms.getD p 0)
    (hst : ∀ m t m', I m → DStep ts hs sk m t m' → I m') {m : Nat → Nat} (h : DReach ms ts hs sk m) : I m := by
  induction h with
  | init => exact h0
  | step _ h ih => exact hst _ _ _ ih h

end CRed
end Verif
