import Verif.CFP.Align
import Verif.CFP.GuardMain

/-!
# Expressions for which what the visitors find is right

The conditions `aligned` and `sideOk` are checked by computation.  Here they are proved for the usual expressions: sums of
multiples of single terms whose first term has a variable, and sides of comparisons that are terms of plain types.
-/

namespace Verif
namespace CFP

open CPN

variable {T : Types} {vty : Nat → Nat}

theorem modLast_append {α : Type} (f : α → α) (pre : List α) (m : α) : modLast f (pre ++ [m]) = pre ++ [f m] := by
  induction pre with
  | nil => rfl
  | cons a pre ih =>
    cases pre with
    | nil => rfl
    | cons b pre =>
      show a :: modLast f ((b :: pre) ++ [m]) = a :: ((b :: pre) ++ [f m])
      rw [ih]

theorem modLast_comp {α : Type} (f g : α → α) (l : List α) : modLast f (modLast g l) = modLast (fun a => f (g a)) l := by
  rcases List.eq_nil_or_concat l with rfl | ⟨pre, m, rfl⟩
  · rfl
  · rw [List.concat_eq_append, modLast_append, modLast_append, modLast_append]

theorem modLast_id {α : Type} {f : α → α} (h : ∀ a, f a = a) (l : List α) : modLast f l = l := by
  rcases List.eq_nil_or_concat l with rfl | ⟨pre, m, rfl⟩
  · rfl
  · rw [List.concat_eq_append, modLast_append, h]

/-- a term that is not a tuple under its successors -/
def simple (t : CExpr) : Bool :=
  match base t with
  | .tuple _ => false
  | _ => true

theorem simple_plain {t : CExpr} {c : Nat} (h : HasTy T vty t c) (hp : T.parts c = none) : simple t = true := by
  unfold simple
  rcases base_cases h hp with e | ⟨v, e, _⟩ | ⟨d, e, _⟩ <;> rw [e]

theorem shift_idx (s : VSt) (b : Nat) (d : Int) : (s.shift b d).idx = s.idx := rfl

theorem shift_zero (s : VSt) (b : Nat) : s.shift b 0 = s := by
  unfold VSt.shift
  have : (s.mods.map fun q => (q.1, modLast (fun m => m.map fun e => if e.1 ≤ s.idx ∧ b ≤ e.1 then (e.1, e.2 + 0) else e) q.2)) = s.mods := by
    conv_rhs => rw [← List.map_id s.mods]
    refine List.map_congr_left fun q _ => ?_
    rw [modLast_id]
    · rfl
    · intro m
      conv_rhs => rw [← List.map_id m]
      refine List.map_congr_left fun e _ => ?_
      split
      · rw [Int.add_zero]; rfl
      · rfl
  rw [this]

theorem shift_shift (s : VSt) (b : Nat) (d e : Int) : (s.shift b d).shift b e = s.shift b (d + e) := by
  unfold VSt.shift
  simp only [List.map_map]
  congr 1
  refine List.map_congr_left fun q _ => ?_
  simp only [Function.comp_apply]
  rw [modLast_comp]
  congr 2
  funext m
  rw [List.map_map]
  refine List.map_congr_left fun x _ => ?_
  simp only [Function.comp_apply]
  by_cases h : x.1 ≤ s.idx ∧ b ≤ x.1
  · rw [if_pos h, if_pos h, if_pos h, Int.add_assoc]
  · rw [if_neg h, if_neg h, if_neg h]

theorem visitC_idx (s : VSt) : (t : CExpr) → simple t = true → (s.visitC t).idx = s.idx
  | .dot, _ => by rw [VSt.visitC]
  | .var v, _ => by rw [VSt.visitC]; unfold VSt.var; split <;> rfl
  | .const c, _ => by rw [VSt.visitC]
  | .succ e, h => by rw [VSt.visitC, shift_idx]; exact visitC_idx s e h
  | .pred e, h => by rw [VSt.visitC, shift_idx]; exact visitC_idx s e h
  | .tuple es, h => by cases h

/-- The successors of a term change the entries of its position. -/
theorem visitC_shift (s : VSt) : (t : CExpr) → simple t = true → s.visitC t = (s.visitC (base t)).shift s.idx (-(off t))
  | .dot, _ => by rw [base, off, Int.neg_zero, shift_zero]
  | .var v, _ => by rw [base, off, Int.neg_zero, shift_zero]
  | .const c, _ => by rw [base, off, Int.neg_zero, shift_zero]
  | .succ e, h => by
    rw [VSt.visitC, visitC_shift s e h, base, off, shift_shift]
    congr 1
    omega
  | .pred e, h => by
    rw [VSt.visitC, visitC_shift s e h, base, off, shift_shift]
    congr 1
    omega
  | .tuple es, h => by cases h

/-! ### The entries of the leaves -/

/-- what is known of the entries after some leaves and a part of the next one -/
structure VInv (vs : List Nat) (ts : List CExpr) (k : Nat) (O : List (Nat × Nat × Int)) (s : VSt) : Prop where
  idx : s.idx = k
  mods : ∀ q ∈ s.mods, q.1 ∈ vs ∧ ∃ pre m, q.2 = pre ++ [m] ∧ pre.length = ts.length ∧
    (∀ i, i < ts.length → ∀ en ∈ pre.getD i [], (q.1, en.1, -en.2) ∈ occs (ts.getD i .dot)) ∧
    (∀ en ∈ m, en.1 < k ∧ (q.1, en.1, -en.2) ∈ O) ∧ (ts = [] → m ≠ [])

theorem setKey_ne {α : Type} (l : List (Nat × α)) (k : Nat) (a : α) : setKey l k a ≠ [] := by
  cases l with
  | nil => simp [setKey]
  | cons q l => obtain ⟨j, b⟩ := q; unfold setKey; split <;> simp

/-- One component of a term. -/
theorem comp_inv {vs : List Nat} {ts : List CExpr} {k : Nat} {O : List (Nat × Nat × Int)} {s : VSt} (h : VInv vs ts k O s)
    {t : CExpr} (hs : simple t = true) (hv : ∀ v ∈ t.vars, v ∈ vs) (hm : t.vars ≠ [] → s.mods ≠ [] ∨ ts = []) :
    VInv vs ts (k + 1) (O ++ occ1 k t) { s.visitC t with idx := (s.visitC t).idx + 1 } ∧
    (s.mods ≠ [] ∨ t.vars ≠ [] → (s.visitC t).mods ≠ []) := by
  have hi : (s.visitC t).idx = k := by rw [visitC_idx s t hs, h.idx]
  have hvars : ∀ t : CExpr, (base t).vars = t.vars := by
    intro t
    induction t using base.induct with
    | case1 e ih => rw [base, ih, CExpr.vars]
    | case2 e ih => rw [base, ih, CExpr.vars]
    | case3 => rfl
    | case4 => rfl
    | case5 => rfl
    | case6 => rfl
  have hb := visitC_shift s t hs
  -- states whose entries all lie before the position are not changed
  have quiet : base t = .dot ∨ (∃ c, base t = .const c) → s.visitC (base t) = s ∧ occ1 k t = [] := by
    rintro (e | ⟨c, e⟩) <;> (refine ⟨by rw [e, VSt.visitC], ?_⟩; unfold occ1; rw [e])
  by_cases hq : base t = .dot ∨ (∃ c, base t = .const c)
  · obtain ⟨e1, e2⟩ := quiet hq
    have hno : t.vars = [] := by
      rw [← hvars]
      rcases hq with e | ⟨c, e⟩ <;> rw [e] <;> rfl
    rw [e1] at hb
    rw [e2, List.append_nil]
    constructor
    · refine ⟨by rw [hi], ?_⟩
      intro q hq
      rw [hb] at hq
      obtain ⟨q', hq', rfl⟩ := List.mem_map.1 hq
      obtain ⟨g0, pre, m, g1, g2, g3, g4, g5⟩ := h.mods q' hq'
      refine ⟨g0, pre, m, ?_, g2, g3, fun en hen => ⟨by have := (g4 en hen).1; omega, (g4 en hen).2⟩, g5⟩
      show modLast _ q'.2 = _
      rw [g1, modLast_append]
      congr 2
      conv_rhs => rw [← List.map_id m]
      refine List.map_congr_left fun en hen => ?_
      have := (g4 en hen).1
      rw [h.idx, if_neg (by omega)]
      rfl
    · rintro (hh | hh)
      · rw [hb]
        unfold VSt.shift
        simpa using hh
      · exact absurd hno hh
  · have : ∃ v, base t = .var v := by
      unfold simple at hs
      cases e : base t with
      | dot => exact absurd (Or.inl e) hq
      | const c => exact absurd (Or.inr ⟨c, e⟩) hq
      | var v => exact ⟨v, rfl⟩
      | tuple es => rw [e] at hs; cases hs
      | succ e' =>
        exfalso
        have : ∀ t e', base t ≠ .succ e' := by
          intro t
          induction t using base.induct <;> intro e' he <;> rw [base] at he
          · rename_i ih; exact ih _ he
          · rename_i ih; exact ih _ he
          all_goals cases he
        exact this _ _ e
      | pred e' =>
        exfalso
        have : ∀ t e', base t ≠ .pred e' := by
          intro t
          induction t using base.induct <;> intro e' he <;> rw [base] at he
          · rename_i ih; exact ih _ he
          · rename_i ih; exact ih _ he
          all_goals cases he
        exact this _ _ e
    obtain ⟨v, e⟩ := this
    have hvv : t.vars = [v] := by rw [← hvars, e]; rfl
    have hm' := hm (by rw [hvv]; simp)
    have hocc : occ1 k t = [(v, k, off t)] := by unfold occ1; rw [e]
    rw [e, VSt.visitC] at hb
    -- the state with the new entry
    have key : (s.var v).idx = k ∧ (s.var v).mods ≠ [] ∧ ∀ q ∈ (s.var v).mods, q.1 ∈ vs ∧ ∃ pre m, q.2 = pre ++ [m] ∧ pre.length = ts.length ∧
        (∀ i, i < ts.length → ∀ en ∈ pre.getD i [], (q.1, en.1, -en.2) ∈ occs (ts.getD i .dot)) ∧
        (∀ en ∈ m, (en.1 < k ∧ (q.1, en.1, -en.2) ∈ O) ∨ (q.1 = v ∧ en = (k, 0))) ∧ (ts = [] → m ≠ []) := by
      have old : ∀ q ∈ s.mods, q.1 ∈ vs ∧ ∃ pre m, q.2 = pre ++ [m] ∧ pre.length = ts.length ∧
          (∀ i, i < ts.length → ∀ en ∈ pre.getD i [], (q.1, en.1, -en.2) ∈ occs (ts.getD i .dot)) ∧
          (∀ en ∈ m, (en.1 < k ∧ (q.1, en.1, -en.2) ∈ O) ∨ (q.1 = v ∧ en = (k, 0))) ∧ (ts = [] → m ≠ []) := by
        intro q hq
        obtain ⟨g0, pre, m, g1, g2, g3, g4, g5⟩ := h.mods q hq
        exact ⟨g0, pre, m, g1, g2, g3, fun en hen => Or.inl (g4 en hen), g5⟩
      have hvs : v ∈ vs := hv v (by rw [hvv]; exact List.mem_singleton.2 rfl)
      unfold VSt.var
      cases hl : s.mods.lookup v with
      | none =>
        refine ⟨h.idx, setKey_ne _ _ _, ?_⟩
        intro q hq
        rcases mem_setKey hq with rfl | hq
        · refine ⟨hvs, List.replicate _ [], [(s.idx, 0)], rfl, ?_, ?_, ?_, by intro _; simp⟩
          · rw [List.length_replicate]
            cases hmm : s.mods with
            | nil =>
              rcases hm' with hm' | hm'
              · exact absurd hmm hm'
              · rw [hm']; rfl
            | cons q l =>
              obtain ⟨_, pre, m, g1, g2, _⟩ := h.mods q (by rw [hmm]; exact List.mem_cons_self)
              show q.2.length - 1 = _
              rw [g1, ← g2]
              simp
          · intro i _ en hen
            have key : ∀ n, (List.replicate n ([] : List (Nat × Int))).getD i [] = [] := by
              intro n
              rw [List.getD_eq_getElem?_getD, List.getElem?_replicate]
              by_cases hc : i < n
              · rw [if_pos hc]; rfl
              · rw [if_neg hc]; rfl
            rw [key] at hen
            cases hen
          · intro en hen
            rw [List.mem_singleton] at hen
            exact Or.inr ⟨rfl, by rw [hen, h.idx]⟩
        · exact old q hq
      | some vec =>
        refine ⟨h.idx, setKey_ne _ _ _, ?_⟩
        intro q hq
        rcases mem_setKey hq with rfl | hq
        · obtain ⟨g0, pre, m, g1, g2, g3, g4, g5⟩ := h.mods (v, vec) (lookup_mem' hl)
          refine ⟨hvs, pre, setKey m s.idx 0, ?_, g2, g3, ?_, fun _ => setKey_ne _ _ _⟩
          · show modLast _ vec = _
            have g1' : vec = pre ++ [m] := g1
            rw [g1', modLast_append]
          · intro en hen
            rcases mem_setKey hen with rfl | hen
            · exact Or.inr ⟨rfl, by rw [h.idx]⟩
            · exact Or.inl (g4 en hen)
        · exact old q hq
    obtain ⟨k1, k2, k3⟩ := key
    constructor
    · refine ⟨by rw [hi], ?_⟩
      intro q hq
      rw [hb] at hq
      obtain ⟨q', hq', rfl⟩ := List.mem_map.1 hq
      obtain ⟨g0, pre, m, g1, g2, g3, g4, g5⟩ := k3 q' hq'
      refine ⟨g0, pre, m.map fun en => if en.1 ≤ (s.var v).idx ∧ s.idx ≤ en.1 then (en.1, en.2 + -(off t)) else en, ?_, g2, g3, ?_, ?_⟩
      · show modLast _ q'.2 = _
        rw [g1, modLast_append]
      · intro en hen
        obtain ⟨en', hen', rfl⟩ := List.mem_map.1 hen
        rw [k1, h.idx]
        rcases g4 en' hen' with ⟨h1, h2⟩ | ⟨h1, h2⟩
        · rw [if_neg (by omega)]
          exact ⟨by omega, List.mem_append_left _ h2⟩
        · rw [h2, if_pos ⟨Nat.le_refl _, Nat.le_refl _⟩]
          refine ⟨by show k < k + 1; omega, List.mem_append_right _ ?_⟩
          rw [hocc, List.mem_singleton]
          show (q'.1, k, -(0 + -off t)) = _
          rw [h1]
          congr 2
          omega
      · intro hh hmm
        exact g5 hh (List.map_eq_nil_iff.1 hmm)
    · intro _
      rw [hb]
      unfold VSt.shift
      simpa using k2

theorem occsL_append (k : Nat) (es fs : List CExpr) : occsL k (es ++ fs) = occsL k es ++ occsL (k + es.length) fs := by
  induction es generalizing k with
  | nil => simp [occsL]
  | cons e es ih =>
    rw [List.cons_append, occsL, occsL, ih, List.append_assoc, List.length_cons]
    congr 3
    omega

/-- The components of a tuple. -/
theorem comps_inv {vs : List Nat} {ts : List CExpr} : (es : List CExpr) → {k : Nat} → {O : List (Nat × Nat × Int)} → {s : VSt} →
    VInv vs ts k O s → (∀ t ∈ es, simple t = true) → (∀ v ∈ CExpr.varsL es, v ∈ vs) → (CExpr.varsL es ≠ [] → s.mods ≠ [] ∨ ts = []) →
    VInv vs ts (k + es.length) (O ++ occsL k es) (s.visitCs es) ∧ (s.mods ≠ [] ∨ CExpr.varsL es ≠ [] → (s.visitCs es).mods ≠ [])
  | [], k, O, s, h, _, _, _ => by
    rw [VSt.visitCs, occsL, List.append_nil]
    exact ⟨h, fun hh => hh.elim id fun hh => absurd rfl hh⟩
  | e :: es, k, O, s, h, hs, hv, hm => by
    rw [CExpr.varsL] at hv hm
    have h1 := comp_inv h (hs e List.mem_cons_self) (fun v hh => hv v (List.mem_append_left _ hh)) (fun hh => hm fun hh' => hh (List.append_eq_nil_iff.1 hh').1)
    have h2 := comps_inv es h1.1 (fun t ht => hs t (List.mem_cons_of_mem _ ht)) (fun v hh => hv v (List.mem_append_right _ hh)) (fun hh => by
      rcases hm (fun hh' => hh (List.append_eq_nil_iff.1 hh').2) with h | h
      · exact Or.inl (h1.2 (Or.inl h))
      · exact Or.inr h)
    rw [VSt.visitCs, occsL, List.length_cons]
    rw [List.append_assoc, show k + 1 + es.length = k + (es.length + 1) by omega] at h2
    refine ⟨h2.1, fun hh => h2.2 ?_⟩
    rcases hh with hh | hh
    · exact Or.inl (h1.2 (Or.inl hh))
    · by_cases he : e.vars = []
      · right
        intro e'
        rw [CExpr.varsL, he, e'] at hh
        exact hh rfl
      · exact Or.inl (h1.2 (Or.inr he))

theorem tuple_simple : (es : List CExpr) → (cs : List Nat) → HasTys T vty es cs → ∀ t ∈ es, simple t = true
  | [], _, _ => fun t h => by cases h
  | e :: es, cs, h => fun t ht => by
    rw [HasTys] at h
    obtain ⟨c, cs', _, hp, h1, h2⟩ := h
    rcases List.mem_cons.1 ht with rfl | ht
    · exact simple_plain h1 hp
    · exact tuple_simple es cs' h2 t ht

/-- a term that is not a tuple is a simple one -/
theorem simple_or_tuple {t : CExpr} {ty : Nat} (h : HasTy T vty t ty) : simple t = true ∧ occs t = occ1 0 t ∨
    ∃ es, t = .tuple es ∧ ∀ u ∈ es, simple u = true := by
  cases t with
  | dot => exact Or.inl ⟨rfl, rfl⟩
  | var v => exact Or.inl ⟨rfl, rfl⟩
  | const c => exact Or.inl ⟨rfl, rfl⟩
  | succ e => exact Or.inl ⟨simple_plain h (by rw [HasTy] at h; exact h.2), rfl⟩
  | pred e => exact Or.inl ⟨simple_plain h (by rw [HasTy] at h; exact h.2), rfl⟩
  | tuple es =>
    rw [HasTy] at h
    obtain ⟨cs, _, h⟩ := h
    exact Or.inr ⟨es, rfl, tuple_simple es cs h⟩

/-- One leaf. -/
theorem leaf_inv {vs : List Nat} {ts : List CExpr} {s : VSt} (h : VInv vs ts 0 [] s)
    {t : CExpr} {ty : Nat} (ht : HasTy T vty t ty) (hv : ∀ v ∈ t.vars, v ∈ vs) (hm : t.vars ≠ [] → s.mods ≠ [] ∨ ts = []) :
    (∃ k, VInv vs ts k (occs t) { s.visitC t with idx := k }) ∧ (s.mods ≠ [] ∨ t.vars ≠ [] → (s.visitC t).mods ≠ []) := by
  rcases simple_or_tuple ht with ⟨h1, h2⟩ | ⟨es, rfl, h1⟩
  · have := comp_inv h h1 hv hm
    rw [List.nil_append] at this
    exact ⟨⟨1, ⟨rfl, by rw [h2]; exact this.1.mods⟩⟩, this.2⟩
  · rw [CExpr.vars] at hv hm ⊢
    have := comps_inv es h h1 hv hm
    rw [List.nil_append, Nat.zero_add] at this
    rw [VSt.visitC]
    exact ⟨⟨es.length, ⟨rfl, this.1.mods⟩⟩, this.2⟩

/-- The next leaf begins. -/
theorem next_inv {vs : List Nat} {ts : List CExpr} {t : CExpr} {k : Nat} {s : VSt} (h : VInv vs ts k (occs t) s) :
    VInv vs (ts ++ [t]) 0 [] { s.leaf with idx := 0 } := by
  refine ⟨rfl, ?_⟩
  intro q hq
  obtain ⟨q', hq', rfl⟩ := List.mem_map.1 hq
  obtain ⟨g0, pre, m, g1, g2, g3, g4, g5⟩ := h.mods q' hq'
  refine ⟨g0, pre ++ [m], [], ?_, by rw [List.length_append, List.length_append, g2]; rfl, ?_, (fun en hen => by cases hen), (fun hh => by simp at hh)⟩
  · show q'.2 ++ [[]] = _
    rw [g1]
  · intro i hi en hen
    rw [List.length_append] at hi
    simp only [List.length_singleton] at hi
    by_cases he : i < ts.length
    · rw [List.getD_eq_getElem?_getD, List.getElem?_append_left (by omega)] at hen
      have := g3 i he en (by rw [List.getD_eq_getElem?_getD]; exact hen)
      rw [List.getD_eq_getElem?_getD, List.getElem?_append_left he, ← List.getD_eq_getElem?_getD]
      exact this
    · have e1 : i = ts.length := by omega
      subst e1
      rw [List.getD_eq_getElem?_getD, ← g2, List.getElem?_append_right (Nat.le_refl _), Nat.sub_self] at hen
      rw [List.getD_eq_getElem?_getD, List.getElem?_append_right (Nat.le_refl _), Nat.sub_self]
      exact (g4 en hen).2

/-- multiples of single terms -/
def ones : List ArcE → Option (List CExpr)
  | [] => some []
  | .num _ [t] :: as => (ones as).map (t :: ·)
  | _ => none

/-- An arc `n1't1 + … + nk'tk`, or one multiple of a term, with a variable in its first term (if there is a variable). -/
def sumOfTerms : ArcE → Option (List CExpr)
  | .num _ [t] => some [t]
  | .add as => match ones as with
    | some (t :: ts) => if t.vars ≠ [] ∨ CExpr.varsL ts = [] then some (t :: ts) else none
    | _ => none
  | _ => none

theorem ones_eq : (as : List ArcE) → (ts : List CExpr) → ones as = some ts → leavesL as = ts ∧ ArcE.varsL as = CExpr.varsL ts
  | [], ts, h => by rw [ones] at h; cases h; exact ⟨rfl, rfl⟩
  | .num n [t] :: as, ts, h => by
    rw [ones] at h
    cases e : ones as with
    | none => rw [e] at h; cases h
    | some us =>
      rw [e] at h
      cases h
      obtain ⟨h1, h2⟩ := ones_eq as us e
      constructor
      · rw [leavesL, leaves, h1]; rfl
      · rw [ArcE.varsL, ArcE.vars, CExpr.varsL, CExpr.varsL, h2, CExpr.varsL, List.append_nil]
  | .num n [] :: as, ts, h => by cases h
  | .num n (_ :: _ :: _) :: as, ts, h => by cases h
  | .add _ :: as, ts, h => by cases h
  | .sub _ _ :: as, ts, h => by cases h
  | .scal _ _ :: as, ts, h => by cases h

/-- what is known when all leaves are visited -/
def VEnd (vs : List Nat) (ts : List CExpr) (mods : Mods) : Prop := ∀ q ∈ mods, q.1 ∈ vs ∧ ts.length ≤ q.2.length ∧
  (∀ i, i < ts.length → ∀ en ∈ q.2.getD i [], (q.1, en.1, -en.2) ∈ occs (ts.getD i .dot)) ∧ (ts.length = 1 → q.2.getD 0 [] ≠ [])

theorem VInv.vend {vs : List Nat} {ts : List CExpr} {t : CExpr} {k : Nat} {s : VSt} (h : VInv vs ts k (occs t) s) : VEnd vs (ts ++ [t]) s.mods := by
  intro q hq
  obtain ⟨g0, pre, m, g1, g2, g3, g4, g5⟩ := h.mods q hq
  rw [g1]
  refine ⟨g0, by simp [g2], ?_, ?_⟩
  · intro i hi en hen
    rw [List.length_append] at hi
    simp only [List.length_singleton] at hi
    by_cases he : i < ts.length
    · rw [List.getD_eq_getElem?_getD, List.getElem?_append_left (by omega)] at hen
      rw [List.getD_eq_getElem?_getD, List.getElem?_append_left he, ← List.getD_eq_getElem?_getD]
      exact g3 i he en (by rw [List.getD_eq_getElem?_getD]; exact hen)
    · have e1 : i = ts.length := by omega
      subst e1
      rw [List.getD_eq_getElem?_getD, ← g2, List.getElem?_append_right (Nat.le_refl _), Nat.sub_self] at hen
      rw [List.getD_eq_getElem?_getD, List.getElem?_append_right (Nat.le_refl _), Nat.sub_self]
      exact (g4 en hen).2
  · intro hl
    rw [List.length_append] at hl
    simp only [List.length_singleton] at hl
    have e : ts = [] := List.eq_nil_of_length_eq_zero (by omega)
    have e2 : pre = [] := List.eq_nil_of_length_eq_zero (by rw [g2, e]; rfl)
    rw [e2]
    exact g5 e

theorem VEnd.leaf {vs : List Nat} {ts : List CExpr} {s : VSt} (h : VEnd vs ts s.mods) : VEnd vs ts s.leaf.mods := by
  intro q hq
  obtain ⟨q', hq', rfl⟩ := List.mem_map.1 hq
  obtain ⟨g0, g1, g2, g3⟩ := h q' hq'
  have ge : ∀ i, i < ts.length → (q'.2 ++ [[]]).getD i [] = q'.2.getD i [] := by
    intro i hi
    rw [List.getD_eq_getElem?_getD, List.getElem?_append_left (by omega), ← List.getD_eq_getElem?_getD]
  refine ⟨g0, by simp; omega, ?_, ?_⟩
  · intro i hi
    show ∀ en ∈ (q'.2 ++ [[]]).getD i [], _
    rw [ge i hi]
    exact g2 i hi
  · intro hl
    show (q'.2 ++ [[]]).getD 0 [] ≠ []
    rw [ge 0 (by omega)]
    exact g3 hl

theorem visitA_one (s : VSt) (n : Nat) (t : CExpr) : s.visitA (.num n [t]) = VSt.visitC { s with idx := 0 } t := by
  rw [VSt.visitA]
  rfl

/-- All leaves after the first ones. -/
theorem visitAs_end {ty : Nat} {vs : List Nat} : (as : List ArcE) → (us : List CExpr) → ones as = some us → {ts : List CExpr} → {t : CExpr} → {s : VSt} →
    {k : Nat} → VInv vs ts k (occs t) { s with idx := k } → ArcTys T vty ty as → (∀ v ∈ CExpr.varsL us, v ∈ vs) → s.mods ≠ [] ∨ CExpr.varsL us = [] →
    VEnd vs (ts ++ t :: us) (s.visitAs as).mods
  | [], us, ho, ts, t, s, k, h, _, _, _ => by
    rw [ones] at ho
    cases ho
    rw [VSt.visitAs]
    exact h.vend
  | .num n [u] :: as, us, ho, ts, t, s, k, h, ht, hv, hm => by
    rw [ones] at ho
    cases e : ones as with
    | none => rw [e] at ho; cases ho
    | some us' =>
      rw [e] at ho
      cases ho
      rw [ArcTys, ArcTy] at ht
      rw [CExpr.varsL] at hv hm
      have h0 := next_inv h
      have hl : s.mods ≠ [] → (s.leaf).mods ≠ [] := by
        intro hh
        unfold VSt.leaf
        simpa using hh
      have h1 := leaf_inv h0 (ht.1.2 u List.mem_cons_self) (fun v hh => hv v (List.mem_append_left _ hh)) (fun hh => by
        left
        rcases hm with hm | hm
        · exact hl hm
        · exact absurd (List.append_eq_nil_iff.1 hm).1 hh)
      obtain ⟨k', h1'⟩ := h1.1
      rw [VSt.visitAs, visitA_one]
      have h2 := visitAs_end as us' e (s := VSt.visitC { s.leaf with idx := 0 } u) h1' ht.2 (fun v hh => hv v (List.mem_append_right _ hh)) (by
        rcases hm with hm | hm
        · exact Or.inl (h1.2 (Or.inl (hl hm)))
        · exact Or.inr (List.append_eq_nil_iff.1 hm).2)
      rw [List.append_assoc] at h2
      exact h2
  | .num n [] :: as, ts, h, _, _, _, _, _, _, _, _ => by cases h
  | .num n (_ :: _ :: _) :: as, ts, h, _, _, _, _, _, _, _, _ => by cases h
  | .add _ :: as, ts, h, _, _, _, _, _, _, _, _ => by cases h
  | .sub _ _ :: as, ts, h, _, _, _, _, _, _, _, _ => by cases h
  | .scal _ _ :: as, ts, h, _, _, _, _, _, _, _, _ => by cases h

theorem alignedFrom_end {vs : List Nat} {ts : List CExpr} {mods : Mods} (h : VEnd vs ts mods)
    (hsm : ∀ t ∈ ts, ∀ o ∈ occs t, ∀ n ∈ T.dims (vty o.1), o.2.2 ≤ n) :
    (us : List CExpr) → (j : Nat) → ts.drop j = us → j ≤ ts.length → alignedFrom T vty mods ts.length j us = true
  | [], _, _, _ => rfl
  | t :: us, j, he, hj => by
    have hlt : j < ts.length := by
      by_contra hc
      have : j = ts.length := by omega
      rw [this, List.drop_length] at he
      cases he
    have ht : ts[j]? = some t := by
      have := congrArg (fun l => l[0]?) he
      simpa using this
    have htd : ts.getD j .dot = t := by rw [List.getD_eq_getElem?_getD, ht]; rfl
    have hmem : t ∈ ts := List.mem_of_getElem? ht
    rw [alignedFrom, Bool.and_eq_true]
    refine ⟨?_, alignedFrom_end h hsm us (j + 1) (by rw [← List.drop_drop, he]; rfl) hlt⟩
    unfold alignedLeaf
    rw [List.all_eq_true]
    intro q hq
    obtain ⟨_, g1, g2, g3⟩ := h q hq
    rw [Bool.and_eq_true, Bool.and_eq_true]
    refine ⟨⟨decide_eq_true (by omega), ?_⟩, ?_⟩
    · rw [List.all_eq_true]
      intro en hen
      have := g2 j hlt en hen
      rw [htd] at this
      rw [Bool.and_eq_true]
      refine ⟨by simpa using this, ?_⟩
      rw [List.all_eq_true]
      intro n hn
      have := hsm t hmem _ this n hn
      simp only at this
      exact decide_eq_true (by omega)
    · by_cases hk : 1 < ts.length
      · rw [decide_eq_true hk, Bool.or_true]
      · have hj0 : j = 0 := by omega
        have := g3 (by omega)
        subst hj0
        cases hh : q.2.getD 0 [] with
        | nil => exact absurd hh this
        | cons a l => rfl

/-- The modifiers of sums of single terms belong to their leaves. -/
theorem aligned_sum {ty : Nat} {e : ArcE} {ts : List CExpr} (he : sumOfTerms e = some ts) (ht : ArcTy T vty ty e)
    (hsm : ∀ t ∈ ts, ∀ o ∈ occs t, ∀ n ∈ T.dims (vty o.1), o.2.2 ≤ n) : aligned T vty e = true ∧ leaves e = ts := by
  have h0 : ∀ vs, VInv vs [] 0 [] ({} : VSt) := fun vs => ⟨rfl, fun q hq => by cases hq⟩
  have fin : ∀ vs, leaves e = ts → (∀ v ∈ vs, v ∈ e.vars) → VEnd vs ts (arcMods e) → aligned T vty e = true := by
    intro vs hl hvs h
    unfold aligned
    rw [Bool.and_eq_true]
    refine ⟨?_, by rw [hl]; exact alignedFrom_end h hsm ts 0 rfl (Nat.zero_le _)⟩
    rw [List.all_eq_true]
    intro q hq
    have := hvs _ (h q hq).1
    simpa using this
  cases e with
  | num n es =>
    match es, he, ht, fin with
    | [t], he, ht, fin =>
      rw [sumOfTerms] at he
      cases he
      rw [ArcTy] at ht
      have hl : leaves (.num n [t]) = [t] := rfl
      refine ⟨fin t.vars hl (fun v hv => by rw [ArcE.vars, CExpr.varsL]; exact List.mem_append_left _ hv) ?_, hl⟩
      have := leaf_inv (h0 t.vars) (ht.2 t List.mem_cons_self) (fun v h => h) (fun _ => Or.inr rfl)
      obtain ⟨k, h1⟩ := this.1
      unfold arcMods
      rw [visitA_one]
      exact h1.vend
    | [], he, _, _ => cases he
    | _ :: _ :: _, he, _, _ => cases he
  | add as =>
    rw [sumOfTerms] at he
    cases ho : ones as with
    | none => rw [ho] at he; cases he
    | some l =>
      rw [ho] at he
      cases l with
      | nil => cases he
      | cons t us =>
        simp only at he
        split at he
        · rename_i hfirst
          cases he
          obtain ⟨hl, hvs⟩ := ones_eq as _ ho
          have hl' : leaves (.add as) = t :: us := by rw [leaves, hl]
          refine ⟨fin (CExpr.varsL (t :: us)) hl' (fun v hv => by rw [ArcE.vars, hvs]; exact hv) ?_, hl'⟩
          have key : VEnd (CExpr.varsL (t :: us)) (t :: us) (VSt.visitAs {} as).mods := by
            cases as with
            | nil => cases ho
            | cons a as =>
              match a, ho, ht with
              | .num n [u], ho, ht =>
                rw [ones] at ho
                cases e : ones as with
                | none => rw [e] at ho; cases ho
                | some us' =>
                  rw [e] at ho
                  cases ho
                  rw [ArcTy, ArcTys, ArcTy] at ht
                  have h1 := leaf_inv (h0 (CExpr.varsL (t :: us))) (ht.1.2 t List.mem_cons_self)
                    (fun v h => by rw [CExpr.varsL]; exact List.mem_append_left _ h) (fun _ => Or.inr rfl)
                  obtain ⟨k, h1'⟩ := h1.1
                  rw [VSt.visitAs, visitA_one]
                  exact visitAs_end as us e (ts := []) (s := VSt.visitC {} t) h1' ht.2 (fun v h => by rw [CExpr.varsL]; exact List.mem_append_right _ h)
                    (hfirst.imp (fun h => h1.2 (Or.inr h)) id)
              | .num n [], ho, _ => cases ho
              | .num n (_ :: _ :: _), ho, _ => cases ho
              | .add _, ho, _ => cases ho
              | .sub _ _, ho, _ => cases ho
              | .scal _ _, ho, _ => cases ho
          unfold arcMods
          rw [VSt.visitA]
          split
          · split
            · exact key.leaf
            · exact key
          · exact key
        · cases he
  | sub a b => cases he
  | scal k a => cases he

/-! ### The sides of comparisons -/

theorem consts_base (T : Types) (s : Nat × List (Nat × Color)) : (t : CExpr) → ∀ {d : Color}, base t = .const d → T.parts d.ty = none → d.id < T.basic d.ty →
    s.2 = [] → constsC T s t = (s.1, [(s.1, ⟨d.ty, constId (T.basic d.ty) d.id (off t)⟩)])
  | .dot, d, h, _, _, _ => by cases h
  | .var v, d, h, _, _, _ => by cases h
  | .const c, d, h, _, hd, hs => by
    cases h
    rw [constsC, hs, off]
    unfold constId
    rw [Int.add_zero, Int.emod_eq_of_lt (by omega) (by omega)]
    rfl
  | .succ e, d, h, hp, hd, hs => by
    rw [base] at h
    rw [constsC, consts_base T s e h hp hd hs, off]
    simp only [List.map_cons, List.map_nil]
    congr 3
    unfold succC constId
    rw [size_plain hp]
    have := succ_eq (T.basic d.ty) (by omega) d.id (off e)
    rw [← this]
    have h0 := Int.emod_nonneg ((d.id : Int) + off e) (show (T.basic d.ty : Int) ≠ 0 by omega)
    have h1 := Int.emod_lt_of_pos ((d.id : Int) + off e) (show (0 : Int) < T.basic d.ty by omega)
    generalize hx : (((d.id : Int) + off e) % T.basic d.ty).toNat = x
    have hxl : x < T.basic d.ty := by omega
    by_cases hc : x ≥ T.basic d.ty - 1
    · rw [if_pos hc, show x + 1 = T.basic d.ty by omega, Nat.mod_self]
    · rw [if_neg hc, Nat.mod_eq_of_lt (by omega)]
  | .pred e, d, h, hp, hd, hs => by
    rw [base] at h
    rw [constsC, consts_base T s e h hp hd hs, off]
    simp only [List.map_cons, List.map_nil]
    congr 3
    unfold predC constId
    rw [size_plain hp]
    have := pred_eq (T.basic d.ty) (by omega) d.id (off e)
    rw [← this]
    have h0 := Int.emod_nonneg ((d.id : Int) + off e) (show (T.basic d.ty : Int) ≠ 0 by omega)
    have h1 := Int.emod_lt_of_pos ((d.id : Int) + off e) (show (0 : Int) < T.basic d.ty by omega)
    generalize hx : (((d.id : Int) + off e) % T.basic d.ty).toNat = x
    have hxl : x < T.basic d.ty := by omega
    by_cases hc : x ≤ 0
    · have : x = 0 := by omega
      subst this
      rw [if_pos (Nat.le_refl 0), Nat.zero_add, Nat.mod_eq_of_lt (by omega)]
    · rw [if_neg hc, show x + (T.basic d.ty - 1) = (x - 1) + T.basic d.ty by omega, Nat.add_mod_right, Nat.mod_eq_of_lt (by omega)]
  | .tuple es, d, h, _, _, _ => by cases h

theorem consts_var (T : Types) (s : Nat × List (Nat × Color)) : (t : CExpr) → ∀ {v : Nat}, base t = .var v → s.2 = [] → constsC T s t = s
  | .dot, v, h, _ => by cases h
  | .var _, v, h, _ => by rw [constsC]
  | .const c, v, h, _ => by cases h
  | .succ e, v, h, hs => by
    rw [base] at h
    rw [constsC, consts_var T s e h hs, hs]
    obtain ⟨a, b⟩ := s
    simp only at hs
    subst hs
    rfl
  | .pred e, v, h, hs => by
    rw [base] at h
    rw [constsC, consts_var T s e h hs, hs]
    obtain ⟨a, b⟩ := s
    simp only at hs
    subst hs
    rfl
  | .tuple es, v, h, _ => by cases h

theorem consts_dot (w : T.WF) (s : Nat × List (Nat × Color)) : (t : CExpr) → base t = .dot → s.2 = [] → constsC T s t = (s.1, [(s.1, ⟨dotTy, 0⟩)])
  | .dot, h, hs => by rw [constsC, hs]; rfl
  | .var _, h, _ => by cases h
  | .const c, h, _ => by cases h
  | .succ e, h, hs => by
    rw [base] at h
    rw [constsC, consts_dot w s e h hs]
    simp only [List.map_cons, List.map_nil]
    unfold succC
    simp only
    rw [size_plain w.dot_plain, w.dot_one, if_pos (by omega)]
  | .pred e, h, hs => by
    rw [base] at h
    rw [constsC, consts_dot w s e h hs]
    simp only [List.map_cons, List.map_nil]
    unfold predC
    simp only
    rw [size_plain w.dot_plain, w.dot_one, if_pos (by omega)]
  | .tuple es, h, _ => by cases h

theorem compAt_zero {t : CExpr} (h : simple t = true) (k : Nat) (hk : k = 0) : compAt t k = some t := by
  subst hk
  cases t with
  | tuple es => cases h
  | _ => rfl

/-- What the visitors find of a term of a plain type. -/
theorem plain_side (w : T.WF) {t : CExpr} {c : Nat} (ht : HasTy T vty t c) (hp : T.parts c = none)
    (h1 : -(T.basic c : Int) ≤ off t) (h2 : off t ≤ T.basic c) : sideOk T vty t = true ∧
    (∀ v, base t = .var v → (side T t).pos = [(0, v)] ∧ (side T t).consts = [] ∧ (side T t).modOf v 0 = - off t) ∧
    ((∀ v, base t ≠ .var v) → (side T t).pos = [] ∧ ∃ d, (side T t).consts = [(0, d)]) := by
  have hs := simple_plain ht hp
  have hvis := visitC_shift {} t hs
  rcases base_cases ht hp with e | ⟨v, e, hvt⟩ | ⟨d, e, hd, hdl⟩
  · have hc := consts_dot w (0, []) t e rfl
    rw [e, VSt.visitC] at hvis
    have hside : side T t = ⟨[], [], [(0, ⟨dotTy, 0⟩)]⟩ := by
      unfold side constants
      simp only
      rw [hc, hvis]
      rfl
    refine ⟨?_, (fun v h => by rw [e] at h; cases h), fun _ => by rw [hside]; exact ⟨rfl, _, rfl⟩⟩
    unfold sideOk
    rw [hside]
    simp only [List.all_nil, List.all_cons, Bool.and_true, Bool.true_and]
    unfold constOk
    rw [compAt_zero hs 0 rfl, Option.map_some, e]
    rfl
  · have hc := consts_var T (0, []) t e rfl
    rw [e, VSt.visitC] at hvis
    have hside : side T t = ⟨[(0, v)], [(v, [[(0, 0 + -(off t))]])], []⟩ := by
      unfold side constants
      simp only
      rw [hc, hvis]
      rfl
    have hmod : (side T t).modOf v 0 = - off t := by
      rw [hside]
      unfold Side.modOf
      simp
    refine ⟨?_, (fun u h => by rw [e] at h; cases h; exact ⟨by rw [hside], by rw [hside], hmod⟩), (fun h => absurd e (h v))⟩
    unfold sideOk
    rw [show (side T t).consts = [] by rw [hside], show (side T t).pos = [(0, v)] by rw [hside]]
    simp only [List.all_nil, List.all_cons, Bool.and_true]
    unfold posOk
    rw [compAt_zero hs 0 rfl, Option.map_some, e]
    simp only
    rw [hmod, hvt, hp]
    simp only [decide_true, Option.isNone_none, Bool.and_true, Bool.true_and, Bool.and_eq_true, decide_eq_true_eq]
    exact ⟨⟨by omega, h1⟩, h2⟩
  · have hc := consts_base T (0, []) t e (by rw [hd]; exact hp) (by rw [hd]; exact hdl) rfl
    rw [e, VSt.visitC] at hvis
    have hside : side T t = ⟨[], [], [(0, ⟨d.ty, constId (T.basic d.ty) d.id (off t)⟩)]⟩ := by
      unfold side constants
      simp only
      rw [hc, hvis]
      rfl
    refine ⟨?_, (fun v h => by rw [e] at h; cases h), fun _ => by rw [hside]; exact ⟨rfl, _, rfl⟩⟩
    unfold sideOk
    rw [hside]
    simp only [List.all_nil, List.all_cons, Bool.and_true, Bool.true_and]
    unfold constOk
    rw [compAt_zero hs 0 rfl, Option.map_some, e]
    simp only
    rw [hd, hp]
    simp

/-- the variable of a term under its successors -/
def varOf (t : CExpr) : Option Nat :=
  match base t with
  | .var v => some v
  | _ => none

/-- terms of one plain type, under no more successors than the type has colours -/
def PlainPair (T : Types) (vty : Nat → Nat) (a b : CExpr) : Prop := ∃ c, T.parts c = none ∧ HasTy T vty a c ∧ HasTy T vty b c ∧
  (-(T.basic c : Int) ≤ off a ∧ off a ≤ T.basic c) ∧ -(T.basic c : Int) ≤ off b ∧ off b ≤ T.basic c

/-- Guards over plain types without the comparisons the code gets wrong: a variable under successors with itself, a variable
under successors ordered with a constant, and two variables that shall differ. -/
def PlainGuard (T : Types) (vty : Nat → Nat) : Guard → Prop
  | .lt a b => PlainPair T vty a b ∧ (varOf a = none → off b = 0 ∨ varOf b = none) ∧ (varOf b = none → off a = 0 ∨ varOf a = none)
  | .le a b => PlainPair T vty a b ∧ (varOf a = none → off b = 0 ∨ varOf b = none) ∧ (varOf b = none → off a = 0 ∨ varOf a = none)
  | .eq a b => PlainPair T vty a b ∧ (varOf a = varOf b → varOf a = none ∨ off a = 0 ∧ off b = 0)
  | .ne a b => PlainPair T vty a b ∧ (varOf a = none ∨ varOf b = none)
  | .and g h => PlainGuard T vty g ∧ PlainGuard T vty h
  | .or g h => PlainGuard T vty g ∧ PlainGuard T vty h

theorem varOf_some {t : CExpr} {v : Nat} (h : varOf t = some v) : base t = .var v := by
  unfold varOf at h
  split at h
  · rename_i u e; cases h; exact e
  · cases h

theorem varOf_none {t : CExpr} (h : varOf t = none) (v : Nat) : base t ≠ .var v := by
  intro e
  unfold varOf at h
  rw [e] at h
  cases h

/-- The sides of a comparison of plain terms. -/
theorem pair_sides (w : T.WF) {a b : CExpr} (h : PlainPair T vty a b) :
    sideOk T vty a = true ∧ sideOk T vty b = true ∧
    (∀ v, varOf a = some v → (side T a).pos = [(0, v)] ∧ (side T a).consts = [] ∧ (side T a).modOf v 0 = - off a) ∧
    (varOf a = none → (side T a).pos = [] ∧ ∃ d, (side T a).consts = [(0, d)]) ∧
    (∀ v, varOf b = some v → (side T b).pos = [(0, v)] ∧ (side T b).consts = [] ∧ (side T b).modOf v 0 = - off b) ∧
    (varOf b = none → (side T b).pos = [] ∧ ∃ d, (side T b).consts = [(0, d)]) ∧
    (∀ u v, varOf a = some u → varOf b = some v → T.basic (vty u) = T.basic (vty v)) := by
  obtain ⟨c, hp, h1, h2, ⟨h3, h4⟩, h5, h6⟩ := h
  obtain ⟨a1, a2, a3⟩ := plain_side w h1 hp h3 h4
  obtain ⟨b1, b2, b3⟩ := plain_side w h2 hp h5 h6
  refine ⟨a1, b1, fun v hv => a2 v (varOf_some hv), fun hv => a3 (varOf_none hv), fun v hv => b2 v (varOf_some hv), fun hv => b3 (varOf_none hv), ?_⟩
  intro u v hu hv
  rw [← base_ty_var h1 (varOf_some hu), ← base_ty_var h2 (varOf_some hv)]

theorem term_plain {t : CExpr} {c : Nat} (h : HasTy T vty t c) (hp : T.parts c = none) : isTerm t = true := by
  cases t with
  | tuple es => rw [HasTy, hp] at h; obtain ⟨cs, h, _⟩ := h; cases h
  | _ => rfl

theorem lessShape_plain (w : T.WF) {a b : CExpr} (hk : PlainPair T vty a b) (g1 : varOf a = none → off b = 0 ∨ varOf b = none)
    (g2 : varOf b = none → off a = 0 ∨ varOf a = none) : lessShape (side T a) (side T b) = true := by
  obtain ⟨_, _, c1, c2, d1, d2, _⟩ := pair_sides w hk
  unfold lessShape
  rw [Bool.and_eq_true]
  constructor
  · cases ha : varOf a with
    | none => rw [(c2 ha).1]; rfl
    | some u =>
      obtain ⟨e1, e2, e3⟩ := c1 u ha
      cases hb : varOf b with
      | some v => rw [e1, (d1 v hb).1]; simp
      | none =>
        have : off a = 0 := by
          rcases g2 hb with h | h
          · exact h
          · rw [ha] at h; cases h
        rw [e1]
        simp only [List.all_cons, List.all_nil, Bool.and_true, e3, this]
        simp
  · cases hb : varOf b with
    | none => rw [(d2 hb).1]; rfl
    | some v =>
      obtain ⟨e1, e2, e3⟩ := d1 v hb
      cases ha : varOf a with
      | some u => rw [e1, (c1 u ha).2.1]; simp
      | none =>
        have : off b = 0 := by
          rcases g1 ha with h | h
          · exact h
          · rw [hb] at h; cases h
        rw [e1]
        simp only [List.all_cons, List.all_nil, Bool.and_true, e3, this]
        simp

theorem eqShape_plain (w : T.WF) {a b : CExpr} (hk : PlainPair T vty a b) (g : varOf a = varOf b → varOf a = none ∨ off a = 0 ∧ off b = 0) :
    eqShape (side T a) (side T b) = true ∧ sameSizes T vty (side T a) (side T b) = true := by
  obtain ⟨_, _, c1, c2, d1, d2, hsz⟩ := pair_sides w hk
  unfold eqShape sameSizes
  cases ha : varOf a with
  | none => rw [(c2 ha).1]; exact ⟨rfl, rfl⟩
  | some u =>
    obtain ⟨e1, _, e3⟩ := c1 u ha
    cases hb : varOf b with
    | none => rw [e1, (d2 hb).1]; exact ⟨rfl, rfl⟩
    | some v =>
      obtain ⟨f1, _, f3⟩ := d1 v hb
      rw [e1, f1]
      have hl : List.lookup 0 [(0, v)] = some v := by simp
      constructor
      · simp only [List.all_cons, List.all_nil, Bool.and_true, hl]
        by_cases huv : u = v
        · subst huv
          rcases g (by rw [ha, hb]) with h | ⟨h, h'⟩
          · rw [ha] at h; cases h
          · rw [e3, f3, h, h']; simp
        · simp [huv]
      · simp only [List.all_cons, List.all_nil, Bool.and_true, hl]
        exact decide_eq_true (hsz u v ha hb)

theorem neShape_plain (w : T.WF) {a b : CExpr} (hk : PlainPair T vty a b) (g : varOf a = none ∨ varOf b = none) :
    neShape (side T a) (side T b) = true := by
  obtain ⟨_, _, c1, c2, d1, d2, _⟩ := pair_sides w hk
  unfold neShape
  cases ha : varOf a with
  | none =>
    obtain ⟨e1, d, e2⟩ := c2 ha
    cases hb : varOf b with
    | none => rw [e1, (d2 hb).1]
    | some v => rw [e1, (d1 v hb).1, e2]; simp
  | some u =>
    obtain ⟨e1, _, _⟩ := c1 u ha
    cases hb : varOf b with
    | none =>
      obtain ⟨f1, d, f2⟩ := d2 hb
      rw [e1, f1, f2]; simp
    | some v => rcases g with h | h
                · rw [ha] at h; cases h
                · rw [hb] at h; cases h

/-- Guards of this class are typed, and the restriction is right for them. -/
theorem plainGuard_ok (w : T.WF) : (g : Guard) → PlainGuard T vty g → GuardTy T vty g ∧ guardOk T vty g = true
  | .lt a b, h => by
    rw [PlainGuard] at h
    have hs := pair_sides w h.1
    refine ⟨by rw [GuardTy]; obtain ⟨c, hp, h1, h2, _⟩ := h.1; exact ⟨c, hp, h1, h2⟩, ?_⟩
    rw [guardOk, hs.1, hs.2.1, lessShape_plain w h.1 h.2.1 h.2.2]
    rfl
  | .le a b, h => by
    rw [PlainGuard] at h
    have hs := pair_sides w h.1
    refine ⟨by rw [GuardTy]; obtain ⟨c, hp, h1, h2, _⟩ := h.1; exact ⟨c, hp, h1, h2⟩, ?_⟩
    rw [guardOk, hs.1, hs.2.1, lessShape_plain w h.1 h.2.1 h.2.2]
    rfl
  | .eq a b, h => by
    rw [PlainGuard] at h
    have hs := pair_sides w h.1
    refine ⟨by rw [GuardTy]; obtain ⟨c, hp, h1, h2, _⟩ := h.1; exact ⟨c, h1, h2⟩, ?_⟩
    rw [guardOk, hs.1, hs.2.1, (eqShape_plain w h.1 h.2).1, (eqShape_plain w h.1 h.2).2]
    rfl
  | .ne a b, h => by
    rw [PlainGuard] at h
    have hs := pair_sides w h.1
    refine ⟨by rw [GuardTy]; obtain ⟨c, hp, h1, h2, _⟩ := h.1; exact ⟨c, h1, h2⟩, ?_⟩
    rw [guardOk, hs.1, hs.2.1, neShape_plain w h.1 h.2]
    obtain ⟨c, hp, h1, h2, _⟩ := h.1
    rw [term_plain h1 hp, term_plain h2 hp]
    rfl
  | .and g h, hh => by
    rw [PlainGuard] at hh
    have h1 := plainGuard_ok w g hh.1
    have h2 := plainGuard_ok w h hh.2
    rw [GuardTy, guardOk, h1.2, h2.2]
    exact ⟨⟨h1.1, h2.1⟩, rfl⟩
  | .or g h, hh => by
    rw [PlainGuard] at hh
    have h1 := plainGuard_ok w g hh.1
    have h2 := plainGuard_ok w h hh.2
    rw [GuardTy, guardOk, h1.2, h2.2]
    exact ⟨⟨h1.1, h2.1⟩, rfl⟩

end CFP
end Verif
