import Verif.CRed.Dots
import Verif.CRed.ParLemmas

/-!
# Nets with tokens of one colour, moved by a variable
-/

namespace Verif
namespace CRed
open CPN XCol

def vArc (a : Nat × Nat) : CArc := ⟨a.1, .num a.2 [.var 0]⟩

def vTrans (i : Nat) (t : List (Nat × Nat) × List (Nat × Nat)) : CTrans :=
  ⟨"t" ++ toString i, none, t.1.map vArc, t.2.map vArc⟩

/-- the net of `dnet` with the variable 0 on all arcs -/
def vnet (ms : List Nat) (ts : List (List (Nat × Nat) × List (Nat × Nat))) (hs : List CInhib := []) : CNet where
  types := dotTypes
  vty := fun _ => 0
  places := ms.mapIdx dotPlace
  transitions := ts.mapIdx vTrans
  inhibitors := hs

theorem v_tokens (T : Types) (vty : Nat → Nat) (ρ : Nat → Val) (k : Nat) (x : Val) :
    tokens T vty ρ (.num k [.var 0]) x = if x = ρ 0 then k else 0 := by
  rw [tokens]
  simp only [List.map_cons, List.map_nil, den]
  by_cases h : x = ρ 0
  · simp [h]
  · simp [h, Ne.symm h]

theorem v_arcs (N : CNet) (ρ : Nat → Val) (as : List (Nat × Nat)) (h : as = [] ∨ ρ 0 = [0]) (p : Nat) (x : Val) :
    arcsTokens N ρ (as.map vArc) p x = if x = [0] then wt as p else 0 := by
  rcases h with rfl | h
  · simp [arcsTokens, wt]
  · unfold arcsTokens wt
    induction as with
    | nil => simp
    | cons a as ih =>
      simp only [List.map_cons, List.sum_cons]
      rw [ih]
      show (if a.1 = p then tokens N.types N.vty ρ (.num a.2 [.var 0]) x else 0) + _ = _
      rw [v_tokens, h]
      by_cases h : x = [0]
      · simp [h]
      · simp [h]

theorem v_trans {ms ts hs} {t : Nat} {τ : List (Nat × Nat) × List (Nat × Nat)} (h : ts[t]? = some τ) :
    (vnet ms ts hs).trans t = vTrans t τ := by
  unfold CNet.trans vnet
  simp [List.getD_eq_getElem?_getD, List.getElem?_mapIdx, h]

theorem v_vars (as : List (Nat × Nat)) : ∀ v ∈ arcsVars (as.map vArc), v = 0 := by
  intro v hv
  unfold arcsVars at hv
  rw [List.mem_flatten] at hv
  obtain ⟨l, hl, hv⟩ := hv
  obtain ⟨a, ha, rfl⟩ := List.mem_map.1 hl
  obtain ⟨b, hb, rfl⟩ := List.mem_map.1 ha
  simpa [vArc, ArcE.vars, CExpr.varsL, CExpr.vars] using hv

theorem v_mem {as : List (Nat × Nat)} (h : as ≠ []) : 0 ∈ arcsVars (as.map vArc) := by
  cases as with
  | nil => exact absurd rfl h
  | cons a as =>
    unfold arcsVars
    simp [vArc, ArcE.vars, CExpr.varsL, CExpr.vars]

theorem v_legal {ms ts hs} {t : Nat} {τ : List (Nat × Nat) × List (Nat × Nat)} (h : ts[t]? = some τ) :
    (vnet ms ts hs).Legal t fun _ => [0] := by
  unfold CNet.Legal
  rw [v_trans h]
  refine ⟨fun v hv => ?_, trivial⟩
  show [0] ∈ dotTypes.values 0
  decide

theorem v_zero {ms ts hs} {t : Nat} {τ : List (Nat × Nat) × List (Nat × Nat)} (h : ts[t]? = some τ) {ρ : Nat → Val}
    (hl : (vnet ms ts hs).Legal t ρ) : (τ.1 = [] ∨ ρ 0 = [0]) ∧ (τ.2 = [] ∨ ρ 0 = [0]) := by
  unfold CNet.Legal at hl
  rw [v_trans h] at hl
  have key : 0 ∈ (vTrans t τ).vars → ρ 0 = [0] := by
    intro hv
    have : ρ 0 ∈ dotTypes.values 0 := hl.1 0 hv
    have e : dotTypes.values 0 = [[0]] := by decide
    rw [e] at this
    simpa using this
  constructor
  · by_cases h1 : τ.1 = []
    · exact Or.inl h1
    · exact Or.inr (key (arcsVars_sub_in (vTrans t τ) 0 (v_mem h1)))
  · by_cases h1 : τ.2 = []
    · exact Or.inl h1
    · exact Or.inr (key (arcsVars_sub_out (vTrans t τ) 0 (v_mem h1)))

theorem vstep_d {ms ts hs} {P T : List Nat} {M L : CMark} {t : Nat} {ρ : Nat → Val} (h : (⟨vnet ms ts hs, P, T⟩ : Red).Step M t ρ L) :
    (⟨dnet ms ts hs, P, T⟩ : Red).Step M t ρ L := by
  obtain ⟨h1, h2, h3, ⟨h4, h5⟩, h6⟩ := h
  have hlt : t < ts.length := by simpa [vnet] using h2
  have ht : ts[t]? = some ts[t] := List.getElem?_eq_getElem hlt
  obtain ⟨z1, z2⟩ := v_zero ht h3
  refine ⟨h1, by simpa [dnet] using hlt, dot_legal ht ρ, ⟨fun p x => ?_, h5⟩, ?_⟩
  · have := h4 p x
    dsimp only at this ⊢
    rw [v_trans ht] at this
    unfold vTrans at this
    rw [v_arcs _ _ _ z1] at this
    rw [dot_trans ht]
    unfold dotTrans
    rw [dot_arcs]
    exact this
  · rw [h6]
    funext p x
    unfold CNet.fire
    dsimp only
    rw [dot_trans ht, v_trans ht]
    unfold dotTrans vTrans
    rw [v_arcs _ _ _ z1, v_arcs _ _ _ z2, dot_arcs, dot_arcs]

theorem dstep_v {ms ts hs} {P T : List Nat} {M L : CMark} {t : Nat} {ρ : Nat → Val} (h : (⟨dnet ms ts hs, P, T⟩ : Red).Step M t ρ L) :
    (⟨vnet ms ts hs, P, T⟩ : Red).Step M t (fun _ => [0]) L := by
  obtain ⟨h1, h2, h3, ⟨h4, h5⟩, h6⟩ := h
  have hlt : t < ts.length := by simpa [dnet] using h2
  have ht : ts[t]? = some ts[t] := List.getElem?_eq_getElem hlt
  refine ⟨h1, by simpa [vnet] using hlt, v_legal ht, ⟨fun p x => ?_, h5⟩, ?_⟩
  · have := h4 p x
    dsimp only at this ⊢
    rw [dot_trans ht] at this
    unfold dotTrans at this
    rw [dot_arcs] at this
    rw [v_trans ht]
    unfold vTrans
    rw [v_arcs _ _ _ (Or.inr rfl)]
    exact this
  · rw [h6]
    funext p x
    unfold CNet.fire
    dsimp only
    rw [dot_trans ht, v_trans ht]
    unfold dotTrans vTrans
    rw [v_arcs _ _ _ (Or.inr rfl), v_arcs _ _ _ (Or.inr rfl), dot_arcs, dot_arcs]

theorem v_reach {ms ts hs} {P T : List Nat} {M : CMark} :
    (⟨vnet ms ts hs, P, T⟩ : Red).Reach M ↔ (⟨dnet ms ts hs, P, T⟩ : Red).Reach M := by
  constructor
  · intro h
    induction h with
    | init => exact .init
    | step _ hs ih => exact ih.step (vstep_d hs)
  · intro h
    induction h with
    | init => exact .init
    | step _ hs ih => exact ih.step (dstep_v hs)

theorem v_canFire {ms ts hs} {P T : List Nat} {M : CMark} {t : Nat} :
    (⟨vnet ms ts hs, P, T⟩ : Red).CanFire M t ↔ (⟨dnet ms ts hs, P, T⟩ : Red).CanFire M t := by
  constructor
  · rintro ⟨ρ, L, h⟩; exact ⟨ρ, L, vstep_d h⟩
  · rintro ⟨ρ, L, h⟩; exact ⟨_, L, dstep_v h⟩

theorem ef_v {R : Red} {ms ts hs} (hN : R.net = vnet ms ts hs) (φ : XQ) :
    R.EF φ ↔ ∃ m, DReach ms ts hs R.skT m ∧ DHolds ts hs R.skT m φ := by
  obtain ⟨N, P, T⟩ := R
  dsimp only at hN
  subst hN
  rw [← ef_dot (R := ⟨dnet ms ts hs, P, T⟩) rfl]
  have key : ∀ M, (⟨vnet ms ts hs, P, T⟩ : Red).holds M φ ↔ (⟨dnet ms ts hs, P, T⟩ : Red).holds M φ := fun M =>
    holds_congr' (R := ⟨dnet ms ts hs, P, T⟩) (R' := ⟨vnet ms ts hs, P, T⟩) rfl (fun _ => rfl) φ (fun _ _ => rfl) (fun _ _ => v_canFire) (fun _ => forall_congr' fun _ => not_congr v_canFire)
  unfold Red.EF
  exact exists_congr fun M => and_congr v_reach (key M)

theorem mem_vtrans {ms ts hs} {t : CTrans} (h : t ∈ (vnet ms ts hs).transitions) : ∃ i τ, τ ∈ ts ∧ t = vTrans i τ := by
  obtain ⟨i, hi, rfl⟩ := List.getElem_of_mem h
  have hl : i < ts.length := by simpa [vnet] using hi
  exact ⟨i, ts[i], List.getElem_mem hl, by simp [vnet]⟩

theorem mem_varc {i : Nat} {τ : List (Nat × Nat) × List (Nat × Nat)} {a : CArc} (h : a ∈ (vTrans i τ).inputs ++ (vTrans i τ).outputs) :
    ∃ b ∈ τ.1 ++ τ.2, a = vArc b := by
  unfold vTrans at h
  simp only at h
  rw [← List.map_append] at h
  obtain ⟨b, hb, e⟩ := List.mem_map.1 h
  exact ⟨b, hb, e.symm⟩

theorem vnet_wf {ms ts hs} (hp : ((vnet ms ts hs).places.map (·.name)).Nodup) (ht : ((vnet ms ts hs).transitions.map (·.name)).Nodup)
    (ha : ∀ τ ∈ ts, ∀ a ∈ τ.1 ++ τ.2, a.1 < ms.length ∧ a.2 < 2 ^ 31) (hm : ∀ k ∈ ms, k < W32)
    (hi : ∀ h ∈ hs, h.place < ms.length ∧ h.trans < ts.length ∧ 0 < h.weight ∧ h.weight < W32) : (vnet ms ts hs).WF where
  types := ⟨rfl, rfl, by show ([] : List (List Nat)).Nodup; exact List.nodup_nil⟩
  pnames := hp
  tnames := ht
  vpos := by
    intro t _ v _
    show 0 < dotTypes.size 0
    decide
  guard := by
    intro t h g hg
    obtain ⟨i, τ, _, rfl⟩ := mem_vtrans h
    cases hg
  arcs := by
    intro t h a haa
    obtain ⟨i, τ, hτ, rfl⟩ := mem_vtrans h
    obtain ⟨b, hb, rfl⟩ := mem_varc haa
    have := ha τ hτ b hb
    have hty : ∀ p, ((vnet ms ts hs).place p).ty = 0 := by
      intro p
      unfold CNet.place vnet
      simp only [List.getD_eq_getElem?_getD, List.getElem?_mapIdx]
      cases ms[p]? <;> rfl
    refine ⟨by simpa [vnet, vArc] using this.1, ?_, ?_, ?_⟩
    · rw [hty]
      unfold vArc
      rw [ArcTy]
      refine ⟨by simp, fun e he => ?_⟩
      simp only [List.mem_singleton] at he
      subst he
      rw [HasTy]
      rfl
    · unfold vArc
      rw [ArcE.Small]
      have : W32 = 2 ^ 32 := rfl
      simp only [List.length_cons, List.length_nil]
      omega
    · unfold vArc
      rw [ArcE.bound]
      simp only [List.length_cons, List.length_nil]
      omega
  marking := by
    intro pl h
    obtain ⟨i, k, hk, rfl⟩ := mem_dplace (ts := ts) (hs := hs) (show pl ∈ (dnet ms ts hs).places from h)
    have := hm k hk
    have hsz : (vnet ms ts hs).types.size 0 = 1 := by show dotTypes.size 0 = 1; decide
    unfold dotPlace CPlace.tokens
    by_cases h0 : k = 0
    · simp [h0, W32]
    · simp [h0, hsz, this]
  inhib := by
    intro h hm
    have := hi h hm
    simpa [vnet] using this

theorem vnet_sorted {ms ts hs} (h : ∀ τ ∈ ts, (τ.1.map (·.1)).Pairwise (· < ·) ∧ (τ.2.map (·.1)).Pairwise (· < ·)) : Sorted (vnet ms ts hs) := by
  intro t ht
  obtain ⟨i, τ, hτ, rfl⟩ := mem_vtrans ht
  have e : ∀ as : List (Nat × Nat), (as.map vArc).map (·.place) = as.map (·.1) := fun as => by rw [List.map_map]; rfl
  unfold vTrans
  simp only
  rw [e, e]
  exact h τ hτ

theorem vArc_text {nm : Names} {c d : Nat × Nat} (h : arcText nm (vArc c).expr = arcText nm (vArc d).expr) : c.2 = d.2 := by
  unfold vArc at h
  simp only [arcText, List.cons_append, List.cons.injEq, Tok.num.injEq] at h
  exact h.1

theorem vnet_readable (nm : Names) {ms ts hs} : Readable nm (vnet ms ts hs) := by
  intro t ht a ha b hb he ρ x
  obtain ⟨i, τ, hτ, rfl⟩ := mem_vtrans ht
  obtain ⟨c, _, rfl⟩ := mem_varc ha
  obtain ⟨d, _, rfl⟩ := mem_varc hb
  have := vArc_text he
  unfold vArc
  rw [this]

theorem dot_prods : NoEmptyProd dotTypes := by
  intro ty h
  simp [dotTypes, Types.parts] at h

theorem vnet_tidy (nm : Names) {ms ts hs} (w : (vnet ms ts hs).WF) (s : Sorted (vnet ms ts hs))
    (h : ∀ τ ∈ ts, ∀ a ∈ τ.1 ++ τ.2, a.2 < 2 ^ 16) : Tidy nm (vnet ms ts hs) where
  wf := w
  sorted := s
  prods := dot_prods
  small := by
    intro t ht a ha
    obtain ⟨i, τ, hτ, rfl⟩ := mem_vtrans ht
    obtain ⟨c, hc, rfl⟩ := mem_varc ha
    unfold vArc
    rw [ArcE.bound]
    have := h τ hτ c hc
    simp only [List.length_cons, List.length_nil]
    omega
  texts := by
    intro t ht u hu a ha b hb _ he ρ x
    obtain ⟨i, τ, hτ, rfl⟩ := mem_vtrans ht
    obtain ⟨j, σ, hσ, rfl⟩ := mem_vtrans hu
    obtain ⟨c, _, rfl⟩ := mem_varc ha
    obtain ⟨d, _, rfl⟩ := mem_varc hb
    have := vArc_text he
    unfold vArc
    rw [this]
  guards := by
    intro t ht u hu g hg
    obtain ⟨i, τ, hτ, rfl⟩ := mem_vtrans ht
    cases hg

end CRed
end Verif
