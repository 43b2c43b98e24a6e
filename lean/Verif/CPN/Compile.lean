import Verif.CPN.Count
import Verif.Net.BuilderOps

/-!
# The builder accepts the calls of the unfolder
-/

namespace Verif
namespace CPN

open Builder (Op specPre specPost specInh specInit specNet Sane run OpInv)

def arcTrans : Op → Option String
  | .input _ t _ _ => some t
  | .output t _ _ => some t
  | _ => none

/-- arcs come after the declarations of their transitions -/
def Declared (ops : List Op) : Prop := ∀ l o r, ops = l ++ o :: r → ∀ t, arcTrans o = some t → ∃ pl, Op.trans t pl ∈ l

/-- no transition has an inhibitor arc and a normal arc from one place -/
def NoMix (ops : List Op) : Prop := ∀ p t j k, Op.input p t true j ∈ ops → Op.input p t false k ∉ ops

theorem Declared.snoc {ops : List Op} (h : Declared ops) {o : Op} (ho : ∀ t, arcTrans o = some t → ∃ pl, Op.trans t pl ∈ ops) : Declared (ops ++ [o]) := by
  intro l o' r he t ht
  rcases List.eq_nil_or_concat r with rfl | ⟨r', x, rfl⟩
  · have h1 := List.append_inj' he rfl
    obtain ⟨rfl, h2⟩ := h1
    cases h2
    exact ho t ht
  · have h1 : ops ++ [o] = (l ++ o' :: r') ++ [x] := by rw [he]; simp
    exact h l o' r' (List.append_inj' h1 rfl).1 t ht

theorem Declared.init {ops : List Op} {o : Op} (h : Declared (ops ++ [o])) : Declared ops ∧ ∀ t, arcTrans o = some t → ∃ pl, Op.trans t pl ∈ ops := by
  refine ⟨fun l o' r he t ht => ?_, fun t ht => h ops o [] rfl t ht⟩
  obtain ⟨pl, hp⟩ := h l o' (r ++ [o]) (by rw [he]; simp) t ht
  exact ⟨pl, hp⟩

theorem mergePre_fail {p : Nat} {i : Bool} {k : Nat} {l : List Arc} (h : Builder.mergePre p i k l = none) :
    ∃ a ∈ l, a.place = p ∧ a.inhib ≠ i := by
  induction l with
  | nil => simp [Builder.mergePre] at h
  | cons a l ih =>
    rw [Builder.mergePre] at h
    by_cases hp : a.place = p
    · rw [if_pos hp] at h
      by_cases hi : i = a.inhib
      · rw [if_pos hi] at h
        split at h <;> cases h
      · exact ⟨a, List.mem_cons_self, hp, fun e => hi e.symm⟩
    · rw [if_neg hp] at h
      cases hm : Builder.mergePre p i k l with
      | none =>
        obtain ⟨b, hb, h1⟩ := ih hm
        exact ⟨b, List.mem_cons_of_mem _ hb, h1⟩
      | some x => rw [hm] at h; cases x <;> cases h

theorem specInh_ne {ops : List Op} {t p : String} {w : Nat} (h : specInh ops t p = some w) : ∃ k, Op.input p t true k ∈ ops := by
  apply Classical.byContradiction
  intro hc
  have := (specInh_iff ops t p w).2 (fun k hk => absurd ⟨k, hk⟩ hc) w h
  omega

theorem run_some (ops : List Op) (hs : Sane ops) (hd : Declared ops) (hm : NoMix ops) : ∃ B, run ops = some B := by
  induction ops using List.reverseRecOn with
  | nil => exact ⟨_, rfl⟩
  | append_singleton ops o ih =>
    obtain ⟨hd1, hd2⟩ := hd.init
    have hm1 : NoMix ops := fun p t j k h1 h2 => hm p t j k (List.mem_append_left _ h1) (List.mem_append_left _ h2)
    obtain ⟨B, hB⟩ := ih hs.prefix hd1 hm1
    have hi := Builder.run_inv ops B hs.prefix hB
    rw [Builder.run_snoc, hB, Option.bind_some]
    have hix : ∀ t, arcTrans o = some t → ∃ i, B.tnames.idxOf? t = some i := by
      intro t ht
      obtain ⟨pl, hpl⟩ := hd2 t ht
      have : t ∈ B.tnames := ((Builder.run_names ops B hB).2 t).2 ⟨_, hpl, rfl⟩
      cases hx : B.tnames.idxOf? t with
      | none => exact absurd this (Builder.idxOf?_none' hx)
      | some i => exact ⟨i, rfl⟩
    cases o with
    | place n k => exact ⟨_, rfl⟩
    | trans n pl => exact ⟨_, rfl⟩
    | output t p k =>
      obtain ⟨i, hti⟩ := hix t rfl
      rw [Builder.apply, Builder.addOutputArc, hti]
      simp only
      split
      · exact ⟨_, rfl⟩
      · exact ⟨_, rfl⟩
    | input p t inh k =>
      obtain ⟨i, hti⟩ := hix t rfl
      rw [Builder.apply, Builder.addInputArc, hti]
      simp only
      have hens := hi.ensure p
      have hsp := Builder.ensure_spec hi p
      generalize (if p ∈ B.pnames then B else B.addPlace p 0) = B1 at *
      have hj : B1.pnames[B1.pnames.idxOf p]? = some p := by
        have hlt : B1.pnames.idxOf p < B1.pnames.length := List.idxOf_lt_length_iff.2 hsp.2
        rw [List.getElem?_eq_getElem hlt, List.getElem_idxOf hlt]
      have htn : B1.tnames[i]? = some t := by rw [hsp.1]; exact Builder.idxOf?_some' hti
      split
      · rename_i hnone
        exfalso
        obtain ⟨a, ha, hap, hai⟩ := mergePre_fail hnone
        cases hinh : a.inhib with
        | true =>
          have h1 := Builder.lookInh_mem (hens.pre_nodup i) ha hinh
          rw [hap, hens.inh_spec i _ t p htn hj] at h1
          obtain ⟨k', hk'⟩ := specInh_ne h1
          have : inh = false := by
            cases inh with
            | false => rfl
            | true => exact absurd hinh hai
          subst this
          exact hm p t k' k (List.mem_append_left _ hk') (List.mem_append_right _ List.mem_cons_self)
        | false =>
          have h1 := Builder.lookPre_mem (hens.pre_nodup i) ha hinh
          rw [hap, hens.pre_spec i _ t p htn hj] at h1
          have h2 := hens.arc_pos i a (List.mem_append_left _ ha)
          obtain ⟨k', hk'⟩ := specPre_ne (t := t) (p := p) (ops := ops) (by omega)
          have : inh = true := by
            cases inh with
            | true => rfl
            | false => exact absurd hinh hai
          subst this
          exact hm p t k k' (List.mem_append_right _ List.mem_cons_self) (List.mem_append_left _ hk')
      · exact ⟨_, rfl⟩
      · exact ⟨_, rfl⟩

/-! ### The unfolder declares its transitions first -/

/-- declarations precede arcs, and `tn` is declared -/
def Ok (tn : String) (s : U) : Prop := Declared s.ops ∧ ∃ pl, Op.trans tn pl ∈ s.ops

theorem Ok.snoc {tn : String} {s s' : U} (h : Ok tn s) {o : Op} (ho : arcTrans o = none ∨ arcTrans o = some tn)
    (he : s'.ops = s.ops ++ [o]) : Ok tn s' := by
  refine ⟨?_, ?_⟩
  · rw [he]
    refine h.1.snoc fun t ht => ?_
    rcases ho with ho | ho
    · rw [ho] at ht; cases ht
    · rw [ho] at ht; cases ht; exact h.2
  · obtain ⟨pl, hp⟩ := h.2
    rw [he]
    exact ⟨pl, List.mem_append_left _ hp⟩

theorem ok_needColor {tn : String} {N : CNet} {s : U} (h : Ok tn s) (p : Nat) (c : Color) : Ok tn (s.needColor N p c) := by
  unfold U.needColor
  split
  · exact h
  · exact h.snoc (Or.inl rfl) rfl

theorem ok_needSum {tn : String} {N : CNet} {s : U} (h : Ok tn s) (p : Nat) : Ok tn (s.needSum N p) := by
  unfold U.needSum
  split
  · exact h
  · exact h.snoc (Or.inl rfl) rfl

theorem arcTrans_arcOp (i : Bool) (tn pn : String) (k : Nat) : arcTrans (arcOp i tn pn k) = some tn := by cases i <;> rfl

theorem ok_colors {tn : String} {N : CNet} (i : Bool) (p ty : Nat) (l : List (Nat × Nat)) {s : U} (h : Ok tn s) : Ok tn (U.colors N i tn p ty s l) := by
  induction l generalizing s with
  | nil => exact h
  | cons q l ih =>
    obtain ⟨j, k⟩ := q
    rw [U.colors]
    split
    · exact ih h
    · exact ih ((ok_needColor h p ⟨ty, j⟩).snoc (Or.inr (arcTrans_arcOp _ _ _ _)) rfl)

theorem ok_arc {tn : String} {N : CNet} {i : Bool} {b : Binding} {a : CArc} {s s' : U} (h : Ok tn s) (hs : U.arc N i tn b a s = some s') : Ok tn s' := by
  unfold U.arc at hs
  split at hs
  · cases hs
  · rename_i m hm
    simp only at hs
    have h1 := ok_colors (N := N) i a.place (m.ty.getD dotTy) m.set h
    split at hs
    · split at hs
      · cases hs
        exact (ok_needSum h1 _).snoc (Or.inr (arcTrans_arcOp _ _ _ _)) rfl
      · cases hs
        exact ok_needSum h1 _
    · cases hs
      exact h1

theorem ok_arcs {tn : String} {N : CNet} {i : Bool} {b : Binding} (as : List CArc) {s s' : U} (h : Ok tn s) (hs : U.arcs N i tn b as s = some s') : Ok tn s' := by
  induction as generalizing s with
  | nil => cases hs; exact h
  | cons a as ih =>
    rw [U.arcs] at hs
    obtain ⟨s1, h1, h2⟩ := Option.bind_eq_some_iff.1 hs
    exact ih (ok_arc h h1) h2

theorem ok_inhibs {t tn : String} {N : CNet} (hs : List CInhib) {s : U} (h : Ok tn s) : Ok tn (U.inhibs N t tn hs s) := by
  induction hs generalizing s with
  | nil => exact h
  | cons x hs ih =>
    rw [U.inhibs]
    split
    · apply ih
      simp only
      refine Ok.snoc (s := if s.sums.contains x.place = true then s else
          if (s.needSum N x.place).hasPlace x.place = true then s.needSum N x.place else
          { (s.needSum N x.place) with names := (s.needSum N x.place).names ++
            [(x.place, N.types.size (N.place x.place).ty, sumName (N.place x.place).name)] }) ?_ (Or.inr rfl) rfl
      split
      · exact h
      · split
        · exact ok_needSum h _
        · exact ok_needSum h _
    · exact ih h

theorem decl_binding {N : CNet} {t : CTrans} {i : Nat} {b : Binding} {s s' : U} (h : Declared s.ops) (hs : U.binding N t i b s = some s') : Declared s'.ops := by
  unfold U.binding at hs
  simp only at hs
  obtain ⟨s1, h1, h2⟩ := Option.bind_eq_some_iff.1 hs
  obtain ⟨s2, h3, h4⟩ := Option.map_eq_some_iff.1 h2
  subst h4
  have h0 : Ok (bname t.name i) { s with ops := s.ops ++ [.trans (bname t.name i) 0] } :=
    ⟨h.snoc (fun t ht => (by cases ht)), 0, List.mem_append_right _ List.mem_cons_self⟩
  exact (ok_inhibs _ (ok_arcs _ (ok_arcs _ h0 h1) h3)).1

theorem decl_bindings {N : CNet} {t : CTrans} (bs : List Binding) {i : Nat} {s s' : U} (h : Declared s.ops) (hs : U.bindings N t i bs s = some s') : Declared s'.ops := by
  induction bs generalizing s i with
  | nil => cases hs; exact h
  | cons b bs ih =>
    rw [U.bindings] at hs
    obtain ⟨s1, h1, h2⟩ := Option.bind_eq_some_iff.1 hs
    exact ih (decl_binding h h1) h2

theorem decl_transitions {N : CNet} {gen : CTrans → Option (List Binding)} (ts : List CTrans) {s s' : U} (h : Declared s.ops) (hs : U.transitions N gen ts s = some s') :
    Declared s'.ops := by
  induction ts generalizing s with
  | nil => cases hs; exact h
  | cons t ts ih =>
    rw [U.transitions] at hs
    obtain ⟨bs, _, h1⟩ := Option.bind_eq_some_iff.1 hs
    obtain ⟨s1, h2, h3⟩ := Option.bind_eq_some_iff.1 h1
    exact ih (decl_bindings bs h h2) h3

theorem decl_unfold {N : CNet} {gen : CTrans → Option (List Binding)} {s : U} (h : unfoldWith N gen = some s) : Declared s.ops := by
  unfold unfoldWith at h
  obtain ⟨s0, h0, rfl⟩ := Option.map_eq_some_iff.1 h
  have h1 : Declared s0.ops := decl_transitions N.transitions (s := {}) (fun l o r he => (by
    cases l <;> cases he)) h0
  obtain ⟨l, hl⟩ := (more_orphans (List.range N.places.length) (fun q hq => List.mem_range.1 hq) s0).ops
  rw [hl]
  clear hl
  generalize s0.ops = ops at *
  induction l generalizing ops with
  | nil => simpa using h1
  | cons q l ih =>
    have := ih (ops ++ [Op.place (orphanName q.1) q.2]) (h1.snoc (fun t ht => (by cases ht)))
    simpa using this

/-! ### Sums of weights -/

theorem pre_of_mem {ops : List Op} {t p : String} {k : Nat} (h : Op.input p t false k ∈ ops) : k ≤ specPre ops t p := by
  induction ops with
  | nil => cases h
  | cons o ops ih =>
    have hs : specPre (o :: ops) t p = specPre [o] t p + specPre ops t p := specPre_append [o] ops t p
    rcases List.mem_cons.1 h with rfl | h
    · have h1 : specPre [Op.input p t false k] t p = k := by simp [specPre]
      omega
    · have := ih h; omega

/-- the weights of the arcs of each transition fit together in 32 bits -/
def CNet.SmallSums (N : CNet) : Prop := ∀ t ∈ N.transitions,
  (t.inputs.map fun a => a.expr.bound).sum < W32 ∧ (t.outputs.map fun a => a.expr.bound).sum < W32

/-- no transition both takes tokens from a place and is inhibited by it -/
def CNet.NoMix (N : CNet) : Prop := ∀ h ∈ N.inhibitors, ∀ a ∈ (N.trans h.trans).inputs, a.place ≠ h.place

theorem arcs_le {N : CNet} (ρ : Nat → Val) (as : List CArc) (p : Nat) (x : Val) : arcsTokens N ρ as p x ≤ (as.map fun a => a.expr.bound).sum := by
  unfold arcsTokens
  refine sum_le _ fun a _ => ?_
  split
  · exact tokens_le ρ a.expr x
  · exact Nat.zero_le _

theorem arcs_sum_le {N : CNet} (ρ : Nat → Val) (as : List CArc) (p ty : Nat) :
    ((N.types.values ty).map (arcsTokens N ρ as p)).sum ≤ (as.map fun a => a.expr.bound).sum := by
  have h1 : ((N.types.values ty).map (arcsTokens N ρ as p)).sum =
      ((N.types.values ty).map fun x => (as.map fun a => if a.place = p then tokens N.types N.vty ρ a.expr x else 0).sum).sum := rfl
  rw [h1, sum_swap]
  refine sum_le _ fun a _ => ?_
  by_cases h : a.place = p
  · simp only [if_pos h]
    exact tokens_sum_le ρ a.expr _ (values_nodup N.types ty)
  · simp only [if_neg h]
    rw [sum_zero _ fun _ _ => rfl]
    exact Nat.zero_le _

/-- what the names of emitted transitions stand for -/
theorem emit_index {N : CNet} {gen : CTrans → Option (List Binding)} (hg : GenLegal N gen) {e : Emit} (he : e ∈ emitT gen N.transitions) :
    ∃ t < N.transitions.length, e.t = N.trans t ∧ (∃ ρ, Agree N.types N.vty e.b ρ e.t.vars) ∧
      ∀ ρ, Agree N.types N.vty e.b ρ e.t.vars → N.Legal t ρ := by
  obtain ⟨t, ht, j, b, hb, rfl⟩ := (mem_emitT _).1 he
  obtain ⟨i, hi, rfl⟩ := List.mem_iff_getElem.1 ht
  have hti : N.transitions[i] = N.trans i := by
    unfold CNet.trans
    rw [List.getD_eq_getElem?_getD, List.getElem?_eq_getElem hi]
    rfl
  obtain ⟨bs, h1, h2, h3⟩ := hg _ ht
  rw [h1] at hb
  have hm := List.mem_of_getElem? hb
  refine ⟨i, hi, hti, h2 b hm, fun ρ ha => ⟨?_, ?_⟩⟩
  · rw [← hti]; exact ha.legal
  · rw [← hti]; exact h3 b hm ρ ha

theorem sane_of {N : CNet} (w : N.WF) (hsm : N.SmallSums) {gen : CTrans → Option (List Binding)} (hg : GenLegal N gen) {s : U}
    (r : Result N s (emitT gen N.transitions)) : Sane s.ops := by
  have hn := emitT_nodup (gen := gen) N.transitions w.tnames
  refine ⟨r.weight.1, r.weight.2, fun t q => ?_, fun t q => ?_⟩
  · rcases Nat.eq_zero_or_pos (specPre s.ops t q) with h0 | h0
    · rw [h0]; decide
    · have hin : t ∈ (emitT gen N.transitions).map (·.name) := by
        apply Decidable.byContradiction
        intro hc
        rw [r.pre, sumIf_notMem hc] at h0
        omega
      obtain ⟨e, he, rfl⟩ := List.mem_map.1 hin
      obtain ⟨i, hi, het, ⟨ρ, ha⟩, _⟩ := emit_index hg he
      have hb := (hsm _ (trans_mem hi)).1
      obtain ⟨k, hk⟩ := specPre_ne (Nat.pos_iff_ne_zero.1 h0)
      rcases r.input _ _ _ _ hk with ⟨p, j, h1, rfl⟩ | ⟨p, h1, rfl⟩
      · rw [pre_color w r hn he hi het ha (r.made p j h1).1 (r.made p j h1).2]
        exact Nat.lt_of_le_of_lt (arcs_le _ _ _ _) hb
      · rw [pre_sum w r hn he hi het ha (r.sums p h1).1 (r.sums p h1).2]
        exact Nat.lt_of_le_of_lt (arcs_sum_le _ _ _ _) hb
  · rcases Nat.eq_zero_or_pos (specPost s.ops t q) with h0 | h0
    · rw [h0]; decide
    · have hin : t ∈ (emitT gen N.transitions).map (·.name) := by
        apply Decidable.byContradiction
        intro hc
        rw [r.post, sumIf_notMem hc] at h0
        omega
      obtain ⟨e, he, rfl⟩ := List.mem_map.1 hin
      obtain ⟨i, hi, het, ⟨ρ, ha⟩, _⟩ := emit_index hg he
      have hb := (hsm _ (trans_mem hi)).2
      obtain ⟨k, hk⟩ := specPost_ne (Nat.pos_iff_ne_zero.1 h0)
      rcases r.output _ _ _ hk with ⟨p, j, h1, rfl⟩ | ⟨p, h1, rfl⟩
      · rw [post_color w r hn he hi het ha (r.made p j h1).1 (r.made p j h1).2]
        exact Nat.lt_of_le_of_lt (arcs_le _ _ _ _) hb
      · rw [post_sum w r hn he hi het ha (r.sums p h1).1 (r.sums p h1).2]
        exact Nat.lt_of_le_of_lt (arcs_sum_le _ _ _ _) hb

theorem noMix_of {N : CNet} (w : N.WF) (hm : N.NoMix) {gen : CTrans → Option (List Binding)} (hg : GenLegal N gen) {s : U}
    (r : Result N s (emitT gen N.transitions)) : NoMix s.ops := by
  have hn := emitT_nodup (gen := gen) N.transitions w.tnames
  intro q t j k h1 h2
  obtain ⟨e, he, rfl, g, hgm, h3, rfl, rfl⟩ := (r.inh _ _ _).1 h1
  obtain ⟨i, hi, het, ⟨ρ, ha⟩, _⟩ := emit_index hg he
  have hgi : g.trans = i := w.trans_inj (w.inhib g hgm).2.1 hi (by rw [h3, het])
  have h4 := pre_sum w r hn he hi het ha (w.inhib g hgm).1 (inhibited_of hgm)
  have h5 := pre_of_mem h2
  have h6 := (r.weight.1 _ _ _ _ h2).1
  have h7 : ((N.types.values (N.place g.place).ty).map (arcsTokens N ρ (N.trans i).inputs g.place)).sum = 0 := by
    refine sum_zero _ fun x _ => sum_zero _ fun a hma => if_neg ?_
    rw [← hgi] at hma
    exact hm g hgm a hma
  omega

/-- some place is declared -/
theorem place_op {N : CNet} {s0 : U} (hi : s0.Inv N) (h : 0 < N.places.length) :
    ∃ o ∈ (U.orphans N (List.range N.places.length) s0).ops, o.placeName ≠ none := by
  obtain ⟨n, hn⟩ : ∃ n, N.places.length = n + 1 := ⟨N.places.length - 1, by omega⟩
  have hstep : U.orphans N (List.range N.places.length) s0 =
      U.orphans N ((List.range n).map Nat.succ) (s0.putOrphan N 0 (s0.orphanOf N 0)) := by
    rw [hn, List.range_succ_eq_map, U.orphans, orphan_eq]
  obtain ⟨l, hl⟩ := (more_orphans (N := N) ((List.range n).map Nat.succ) (fun q hq => by
    obtain ⟨x, hx, rfl⟩ := List.mem_map.1 hq
    have := List.mem_range.1 hx
    omega) (s0.putOrphan N 0 (s0.orphanOf N 0))).ops
  rw [hstep, hl]
  cases ho : s0.orphanOf N 0 with
  | some x => exact ⟨_, List.mem_append_left _ (List.mem_append_right _ List.mem_cons_self), Option.some_ne_none _⟩
  | none =>
    have hb : s0.hasPlace 0 = true := by
      unfold U.orphanOf at ho
      cases hb : s0.hasPlace 0 with
      | true => rfl
      | false =>
        rw [hb] at ho
        simp only [Bool.not_false, Bool.true_and, or_true, if_true] at ho
        split at ho <;> cases ho
    unfold U.hasPlace at hb
    obtain ⟨⟨p, k, m⟩, hq, hq2⟩ := List.any_eq_true.1 hb
    rcases (hi.names p k m hq).2 with ⟨h1, _⟩ | ⟨_, _, h1⟩
    · rw [h1] at hq
      obtain ⟨c, hc⟩ := hi.made p k hq
      exact ⟨_, List.mem_append_left _ hc, Option.some_ne_none _⟩
    · obtain ⟨c, hc⟩ := hi.summed p h1
      exact ⟨_, List.mem_append_left _ hc, Option.some_ne_none _⟩

end CPN
end Verif
