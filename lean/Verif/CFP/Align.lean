import Verif.CFP.GenLemmas

/-!
# When the modifiers of an arc belong to its leaves

The visitor of the variables keeps for every variable a list with one entry for each leaf of the arc.  `aligned` says that
the entries are those of the leaves; the intervals of the variables are right then.
-/

namespace Verif
namespace CFP

open CPN

variable {T : Types} {vty : Nat → Nat}

/-- the variable of a plain term, at position `k` -/
def occ1 (k : Nat) (t : CExpr) : List (Nat × Nat × Int) :=
  match base t with
  | .var v => [(v, k, off t)]
  | _ => []

def occsL (k : Nat) : List CExpr → List (Nat × Nat × Int)
  | [] => []
  | e :: es => occ1 k e ++ occsL (k + 1) es

/-- The occurrences of variables in a term: the variable, the position and the number of successors. -/
def occs : CExpr → List (Nat × Nat × Int)
  | .tuple es => occsL 0 es
  | t => occ1 0 t

/-- The entries of leaf `j` are occurrences of the variables in the term, no variable is without an entry if there is only
one leaf, and no variable is preceded by more successors than its type has colours. -/
def alignedLeaf (T : Types) (vty : Nat → Nat) (mods : Mods) (k j : Nat) (t : CExpr) : Bool :=
  mods.all fun q => decide (j < q.2.length) &&
    ((q.2.getD j []).all fun en => (occs t).contains (q.1, en.1, -en.2) && (T.dims (vty q.1)).all fun n => decide (-(n : Int) ≤ en.2)) &&
    (!(q.2.getD j []).isEmpty || decide (1 < k))

def alignedFrom (T : Types) (vty : Nat → Nat) (mods : Mods) (k : Nat) : Nat → List CExpr → Bool
  | _, [] => true
  | j, t :: ts => alignedLeaf T vty mods k j t && alignedFrom T vty mods k (j + 1) ts

/-- The modifiers of the arc belong to its leaves. -/
def aligned (T : Types) (vty : Nat → Nat) (e : ArcE) : Bool :=
  ((arcMods e).all fun q => e.vars.contains q.1) && alignedFrom T vty (arcMods e) (leaves e).length 0 (leaves e)

theorem shift_back {n : Nat} {o : Int} {a : Nat} (ha : a < n) (ho : -(n : Int) ≤ -o) : shiftN 64 n (-o) ((((a : Int) + o) % n).toNat) = a := by
  rw [shiftN_eq ho, mod_step n (by omega)]
  have : (a : Int) + (o + -o) = a := by omega
  rw [this, Int.emod_eq_of_lt (by omega) (by omega)]
  rfl

theorem unshift_zero : (ns : List Nat) → (x : Val) → Fits ns x → unshift 0 ns x = x
  | [], [], _ => rfl
  | n :: ns, a :: x, h => by
    have h1 : shiftN 64 n 0 a = a := by
      have := shift_back (o := 0) h.1 (by omega)
      simpa [Int.emod_eq_of_lt (show (0 : Int) ≤ a by omega) (show (a : Int) < n by exact_mod_cast h.1)] using this
    show shiftN 64 n 0 a :: unshift 0 ns x = a :: x
    rw [h1, unshift_zero ns x h.2]
  | [], _ :: _, h => h.elim
  | _ :: _, [], h => h.elim

/-- An occurrence in a plain term. -/
theorem occ1_ok (w : T.WF) {ρ : Nat → Val} {t : CExpr} {c : Nat} (ht : HasTy T vty t c) (hp : T.parts c = none)
    (hv : ∀ v ∈ t.vars, Fits (T.dims (vty v)) (ρ v)) {k : Nat} {q : Nat × Nat × Int} (hq : q ∈ occ1 k t)
    (hsm : ∀ n ∈ T.dims (vty q.1), -(n : Int) ≤ -q.2.2) (pd : List Nat) (rest : Val) :
    q.2.1 = k ∧ T.dims (vty q.1) = (T.basic c :: pd).take (T.dims (vty q.1)).length ∧
      unshift (-q.2.2) (T.dims (vty q.1)) (den T vty ρ t ++ rest) = ρ q.1 := by
  unfold occ1 at hq
  obtain ⟨i, h1, h2, h3⟩ := den_base w t ht hp hv
  rcases base_cases ht hp with e | ⟨v, e, hc⟩ | ⟨d, e, _, _⟩
  · rw [e] at hq; cases hq
  · rw [e] at hq h1
    simp only [List.mem_singleton] at hq
    subst hq
    rw [den] at h1
    have hd : T.dims (vty v) = [T.basic c] := by rw [hc, dims_plain hp]
    simp only at hsm ⊢
    rw [hd] at hsm ⊢
    refine ⟨trivial, rfl, ?_⟩
    rw [h3, h1]
    show [shiftN 64 (T.basic c) (-off t) _] = [i]
    rw [shift_back h2 (hsm _ (List.mem_singleton.2 rfl))]
  · rw [e] at hq; cases hq

theorem drop_at {α : Type} (pre l : List α) : (pre ++ l).drop pre.length = l := by simp

theorem occsL_ok (w : T.WF) {ρ : Nat → Val} (es : List CExpr) (cs : List Nat) (hes : HasTys T vty es cs)
    (hv : ∀ v ∈ CExpr.varsL es, Fits (T.dims (vty v)) (ρ v)) (pre : Val) (pd : List Nat) (hl : pd.length = pre.length)
    {q : Nat × Nat × Int} (hq : q ∈ occsL pre.length es) (hsm : ∀ n ∈ T.dims (vty q.1), -(n : Int) ≤ -q.2.2) :
    EntryOk (pd ++ cs.map T.basic) (T.dims (vty q.1)) (pre ++ denL T vty ρ es) (ρ q.1) (q.2.1, -q.2.2) := by
  induction es generalizing cs pre pd with
  | nil => cases hq
  | cons e es ih =>
    rw [HasTys] at hes
    obtain ⟨c, cs', rfl, hp, h1, h2⟩ := hes
    rw [CExpr.varsL] at hv
    rw [occsL] at hq
    have hv1 : ∀ v ∈ e.vars, Fits (T.dims (vty v)) (ρ v) := fun v hh => hv v (List.mem_append_left _ hh)
    rw [denL]
    rcases List.mem_append.1 hq with hq | hq
    · obtain ⟨g1, g2, g3⟩ := occ1_ok w h1 hp hv1 hq hsm (cs'.map T.basic) (denL T vty ρ es)
      refine ⟨?_, hsm, ?_⟩
      · simp only; rw [g1, ← hl, drop_at]; exact g2
      · simp only; rw [g1, drop_at]; exact g3
    · obtain ⟨i, _, _, hd⟩ := den_base w e h1 hp hv1
      have hle : (pre ++ den T vty ρ e).length = pre.length + 1 := by rw [List.length_append, hd]; rfl
      have := ih cs' h2 (fun v hh => hv v (List.mem_append_right _ hh)) (pre ++ den T vty ρ e) (pd ++ [T.basic c])
        (by rw [hle, List.length_append, hl]; rfl) (by rw [hle]; exact hq)
      rw [List.append_assoc, List.append_assoc] at this
      exact this

/-- An occurrence in a term of the type of the place. -/
theorem occs_ok (w : T.WF) {ρ : Nat → Val} {t : CExpr} {ty : Nat} (ht : HasTy T vty t ty)
    (hv : ∀ v ∈ t.vars, Fits (T.dims (vty v)) (ρ v))
    {q : Nat × Nat × Int} (hq : q ∈ occs t) (hsm : ∀ n ∈ T.dims (vty q.1), -(n : Int) ≤ -q.2.2) :
    EntryOk (T.dims ty) (T.dims (vty q.1)) (den T vty ρ t) (ρ q.1) (q.2.1, -q.2.2) := by
  by_cases hp : T.parts ty = none
  · have hq' : q ∈ occ1 0 t := by
      match t, ht with
      | .dot, _ => exact hq
      | .var v, _ => exact hq
      | .const c, _ => exact hq
      | .succ e, _ => exact hq
      | .pred e, _ => exact hq
      | .tuple es, ht => rw [HasTy] at ht; obtain ⟨cs, h1, _⟩ := ht; rw [hp] at h1; cases h1
    obtain ⟨g1, g2, g3⟩ := occ1_ok w ht hp hv hq' hsm [] []
    refine ⟨?_, hsm, ?_⟩
    · simp only; rw [g1, dims_plain hp]; exact g2
    · simp only; rw [g1]; rw [List.append_nil] at g3; exact g3
  · match t, ht with
    | .dot, ht => rw [HasTy] at ht; subst ht; exact absurd w.dot_plain hp
    | .var v, ht =>
      rw [HasTy] at ht
      rw [occs] at hq
      · unfold occ1 at hq
        rw [base] at hq
        simp only [List.mem_singleton] at hq
        subst hq
        subst ht
        refine ⟨by simp, by simpa [off] using hsm, ?_⟩
        simp only [off, den, List.drop_zero]
        exact unshift_zero _ _ (hv v (by rw [CExpr.vars]; exact List.mem_singleton.2 rfl))
      · exact fun es h => by cases h
    | .const c, ht => rw [occs] at hq; unfold occ1 at hq; rw [base] at hq; cases hq; exact fun es h => by cases h
    | .succ e, ht => rw [HasTy] at ht; exact absurd ht.2 hp
    | .pred e, ht => rw [HasTy] at ht; exact absurd ht.2 hp
    | .tuple es, ht =>
      rw [HasTy] at ht
      obtain ⟨cs, h1, h2⟩ := ht
      rw [occs] at hq
      rw [CExpr.vars] at hv
      have := occsL_ok w es cs h2 hv [] [] rfl hq hsm
      rw [den]
      unfold Types.dims at this ⊢
      rw [h1]
      exact this

theorem arcOk_of_aligned (w : T.WF) {ρ : Nat → Val} {ty : Nat} {mods : Mods} {k : Nat} (hmv : ∀ q ∈ mods, Fits (T.dims (vty q.1)) (ρ q.1)) :
    (ts : List CExpr) → (j : Nat) → (∀ t ∈ ts, HasTy T vty t ty) → (∀ t ∈ ts, ∀ v ∈ t.vars, Fits (T.dims (vty v)) (ρ v)) →
    alignedFrom T vty mods k j ts = true → ArcOk T vty ρ (T.dims ty) mods k j ts
  | [], _, _, _, _ => trivial
  | t :: ts, j, ht, hv, h => by
    rw [alignedFrom, Bool.and_eq_true] at h
    refine ⟨⟨?_, ?_⟩, arcOk_of_aligned w hmv ts (j + 1) (fun u hu => ht u (List.mem_cons_of_mem _ hu)) (fun u hu => hv u (List.mem_cons_of_mem _ hu)) h.2⟩
    · intro q hq
      have hh := List.all_eq_true.1 h.1 q hq
      rw [Bool.and_eq_true, Bool.and_eq_true] at hh
      obtain ⟨⟨h1, h2⟩, h3⟩ := hh
      refine ⟨⟨?_, ?_⟩, hmv q hq⟩
      · intro en hen
        have h4 := List.all_eq_true.1 h2 en hen
        rw [Bool.and_eq_true] at h4
        have h5 : (q.1, en.1, -en.2) ∈ occs t := by simpa using h4.1
        have h6 : ∀ n ∈ T.dims (vty q.1), -(n : Int) ≤ en.2 := fun n hn => of_decide_eq_true (List.all_eq_true.1 h4.2 n hn)
        have := occs_ok w (ht t List.mem_cons_self) (hv t List.mem_cons_self) h5 (by simpa using h6)
        simpa using this
      · rw [Bool.or_eq_true] at h3
        rcases h3 with h3 | h3
        · left
          intro e
          rw [e] at h3
          cases h3
        · exact Or.inr (of_decide_eq_true h3)
    · unfold entriesExist
      rw [List.all_eq_true]
      intro q hq
      have hh := List.all_eq_true.1 h.1 q hq
      rw [Bool.and_eq_true, Bool.and_eq_true] at hh
      exact hh.1.1

mutual
theorem leaves_ty {ty : Nat} : (e : ArcE) → ArcTy T vty ty e → ∀ t ∈ leaves e, HasTy T vty t ty
  | .num n es, h => by rw [ArcTy] at h; rw [leaves]; exact h.2
  | .add as, h => by rw [ArcTy] at h; rw [leaves]; exact leavesL_ty as h
  | .sub a b, h => by rw [ArcTy] at h; rw [leaves]; exact leaves_ty a h.1
  | .scal k a, h => by rw [ArcTy] at h; rw [leaves]; exact leaves_ty a h
theorem leavesL_ty {ty : Nat} : (as : List ArcE) → ArcTys T vty ty as → ∀ t ∈ leavesL as, HasTy T vty t ty
  | [], _ => fun t h => by rw [leavesL] at h; cases h
  | a :: as, h => fun t ht => by
    rw [ArcTys] at h
    rw [leavesL] at ht
    rcases List.mem_append.1 ht with ht | ht
    · exact leaves_ty a h.1 t ht
    · exact leavesL_ty as h.2 t ht
end

theorem mem_varsL {es : List CExpr} {t : CExpr} (h : t ∈ es) {v : Nat} (hv : v ∈ t.vars) : v ∈ CExpr.varsL es := by
  induction es with
  | nil => cases h
  | cons e es ih =>
    rw [CExpr.varsL]
    rcases List.mem_cons.1 h with rfl | h
    · exact List.mem_append_left _ hv
    · exact List.mem_append_right _ (ih h)

mutual
theorem leaves_vars : (e : ArcE) → ∀ t ∈ leaves e, ∀ v ∈ t.vars, v ∈ e.vars
  | .num n es => fun t ht v hv => by rw [leaves] at ht; rw [ArcE.vars]; exact mem_varsL ht hv
  | .add as => fun t ht v hv => by rw [leaves] at ht; rw [ArcE.vars]; exact leavesL_vars as t ht v hv
  | .sub a b => fun t ht v hv => by rw [leaves] at ht; rw [ArcE.vars]; exact List.mem_append_left _ (leaves_vars a t ht v hv)
  | .scal k a => fun t ht v hv => by rw [leaves] at ht; rw [ArcE.vars]; exact leaves_vars a t ht v hv
theorem leavesL_vars : (as : List ArcE) → ∀ t ∈ leavesL as, ∀ v ∈ t.vars, v ∈ ArcE.varsL as
  | [] => fun t h => by rw [leavesL] at h; cases h
  | a :: as => fun t ht v hv => by
    rw [leavesL] at ht
    rw [ArcE.varsL]
    rcases List.mem_append.1 ht with ht | ht
    · exact List.mem_append_left _ (leaves_vars a t ht v hv)
    · exact List.mem_append_right _ (leavesL_vars as t ht v hv)
end

/-- An input arc whose terms denote tokens in the intervals of its place. -/
theorem arcFits (w : T.WF) {ρ : Nat → Val} {ty : Nat} (hne : T.dims ty ≠ []) {cfp : IVec} (hi : IVec.In (T.dims ty) cfp) {e : ArcE}
    (ht : ArcTy T vty ty e) (hf : Flat T e) (ha : aligned T vty e = true) (hv : ∀ v ∈ e.vars, Fits (T.dims (vty v)) (ρ v))
    (hc : ∀ t ∈ leaves e, IVec.Has cfp (den T vty ρ t)) :
    ∃ vecs, arcFound T cfp e = .yes vecs ∧ ArcFits T vty ρ (arcMods e, vecs) := by
  unfold aligned at ha
  rw [Bool.and_eq_true] at ha
  have hv' : ∀ t ∈ leaves e, ∀ v ∈ t.vars, Fits (T.dims (vty v)) (ρ v) := fun t h v hh => hv v (leaves_vars e t h v hh)
  obtain ⟨vecs, h1, h2⟩ := arcFound_ok w hne hi e ht hf hc hv'
  refine ⟨vecs, h1, ⟨T.dims ty, leaves e, h2, leaves_ne e hf, ?_⟩⟩
  refine arcOk_of_aligned w (fun q hq => hv q.1 ?_) (leaves e) 0 (leaves_ty e ht) hv' ha.2
  have := List.all_eq_true.1 ha.1 q hq
  simpa using this

end CFP
end Verif
