import Verif.CRed.VarMs
import Verif.CPN.EvalLemmas
import Mathlib.Data.List.Nodup

/-!
# Variable multisets mean what the arc expressions mean
-/

namespace Verif
namespace CRed
open CPN

/-- the value of a tuple of variables -/
def tupV (ρ : Nat → Val) (vs : List Nat) : Val := (vs.map ρ).flatten

/-- sums over the entries, with a weight for each tuple -/
def wsum (f : List Nat → Nat) (l : List (List Nat × Nat)) : Nat := (l.map fun q => f q.1 * q.2).sum

/-- the multiset of values -/
def vden (ρ : Nat → Val) (m : VMS) (x : Val) : Nat := wsum (fun vs => if tupV ρ vs = x then 1 else 0) m.set

def vtot (l : List (List Nat × Nat)) : Nat := (l.map (·.2)).sum

theorem vbump_keys (l : List (List Nat × Nat)) (vs : List Nat) (k : Nat) :
    ∀ q ∈ (vbump l vs k).map (·.1), q ∈ l.map (·.1) ∨ q = vs := by
  induction l with
  | nil => intro q hq; right; simpa [vbump] using hq
  | cons a l ih =>
    intro q hq
    rw [vbump] at hq
    split at hq
    · rw [List.map_cons, List.mem_cons] at hq
      rcases hq with h | h
      · exact Or.inr h
      · exact Or.inl (by rw [List.map_cons]; exact List.mem_cons_of_mem _ h)
    · rw [List.map_cons, List.mem_cons] at hq
      rcases hq with h | h
      · exact Or.inl (by rw [h, List.map_cons]; exact List.mem_cons_self)
      · rcases ih q h with h | h
        · exact Or.inl (by rw [List.map_cons]; exact List.mem_cons_of_mem _ h)
        · exact Or.inr h

theorem vbump_nodup {l : List (List Nat × Nat)} (h : (l.map (·.1)).Nodup) (vs : List Nat) (k : Nat) :
    ((vbump l vs k).map (·.1)).Nodup := by
  induction l with
  | nil => simp [vbump]
  | cons a l ih =>
    rw [List.map_cons, List.nodup_cons] at h
    rw [vbump]
    split
    · rename_i e
      rw [List.map_cons, List.nodup_cons]
      exact ⟨e ▸ h.1, h.2⟩
    · rename_i e
      rw [List.map_cons, List.nodup_cons]
      refine ⟨fun hm => ?_, ih h.2⟩
      rcases vbump_keys l vs k _ hm with hm | hm
      · exact h.1 hm
      · exact e hm

theorem vbump_wsum (f : List Nat → Nat) (l : List (List Nat × Nat)) (vs : List Nat) (k : Nat) (h : vtot l + k < W32) :
    wsum f (vbump l vs k) = wsum f l + f vs * k ∧ vtot (vbump l vs k) = vtot l + k := by
  induction l with
  | nil =>
    have hk : k < W32 := by simpa [vtot] using h
    simp [vbump, wsum, vtot, Nat.mod_eq_of_lt hk]
  | cons a l ih =>
    have e1 : vtot (a :: l) = a.2 + vtot l := rfl
    rw [vbump]
    by_cases e : a.1 = vs
    · rw [if_pos e, Nat.mod_eq_of_lt (by omega)]
      have e2 : wsum f (a :: l) = f a.1 * a.2 + wsum f l := rfl
      have e3 : wsum f ((vs, a.2 + k) :: l) = f vs * (a.2 + k) + wsum f l := rfl
      have e4 : vtot ((vs, a.2 + k) :: l) = a.2 + k + vtot l := rfl
      rw [e1, e2, e3, e4, e, Nat.mul_add]
      omega
    · rw [if_neg e]
      have ⟨h1, h2⟩ := ih (by omega)
      have e2 : wsum f (a :: l) = f a.1 * a.2 + wsum f l := rfl
      have e3 : wsum f (a :: vbump l vs k) = f a.1 * a.2 + wsum f (vbump l vs k) := rfl
      have e4 : vtot (a :: vbump l vs k) = a.2 + vtot (vbump l vs k) := rfl
      rw [e1, e2, e3, e4, h1, h2]
      omega

theorem vaddAll_ok (f : List Nat → Nat) (r : List (List Nat × Nat)) : ∀ (l : List (List Nat × Nat)), (l.map (·.1)).Nodup →
    vtot l + vtot r < W32 → ((vaddAll l r).map (·.1)).Nodup ∧ wsum f (vaddAll l r) = wsum f l + wsum f r ∧
      vtot (vaddAll l r) = vtot l + vtot r := by
  induction r with
  | nil => intro l h _; exact ⟨h, rfl, rfl⟩
  | cons a r ih =>
    intro l h hb
    have e1 : vtot (a :: r) = a.2 + vtot r := rfl
    have e2 : wsum f (a :: r) = f a.1 * a.2 + wsum f r := rfl
    obtain ⟨h1, h2⟩ := vbump_wsum f l a.1 a.2 (by omega)
    obtain ⟨h3, h4, h5⟩ := ih (vbump l a.1 a.2) (vbump_nodup h _ _) (by omega)
    rw [vaddAll]
    exact ⟨h3, by omega, by omega⟩

/-- the multiset with all entries below `2^32` in sum and different tuples, standing for the tokens `g` -/
structure Means (m : VMS) (b : Nat) (ρ : Nat → Val) (g : Val → Nat) : Prop where
  nodup : (m.set.map (·.1)).Nodup
  tot : vtot m.set = b
  val : ∀ x, vden ρ m x = g x

theorem Means.congr {m : VMS} {b : Nat} {ρ : Nat → Val} {g g' : Val → Nat} (h : Means m b ρ g) (e : ∀ x, g x = g' x) :
    Means m b ρ g' := ⟨h.nodup, h.tot, fun x => (h.val x).trans (e x)⟩

theorem means_empty (ρ : Nat → Val) : Means {} 0 ρ fun _ => 0 := ⟨by simp, rfl, fun _ => rfl⟩

theorem means_add {m o m' : VMS} {b c : Nat} {ρ : Nat → Val} {f g : Val → Nat} (h : Means m b ρ f) (ho : Means o c ρ g)
    (hb : b + c < W32) (e : m.add o = some m') : Means m' (b + c) ρ fun x => f x + g x := by
  unfold VMS.add at e
  simp only at e
  generalize (if m.types = [] then o.types else m.types) = ts at e
  split at e
  · cases e
  · injection e with e
    subst e
    have hh := fun x => vaddAll_ok (fun vs => if tupV ρ vs = x then 1 else 0) o.set m.set h.nodup (by rw [h.tot, ho.tot]; exact hb)
    refine ⟨(hh []).1, (hh []).2.2.trans (by rw [h.tot, ho.tot]), fun x => ?_⟩
    rw [← h.val, ← ho.val]
    exact (hh x).2.1

theorem means_single (vty : Nat → Nat) (vs : List Nat) (n : Nat) (hn : n < W32) (ρ : Nat → Val) :
    Means (.single vty vs n) n ρ fun x => if tupV ρ vs = x then n else 0 := by
  refine ⟨by simp [VMS.single], by simp [VMS.single, vtot, Nat.mod_eq_of_lt hn], fun x => ?_⟩
  unfold vden wsum VMS.single
  by_cases h : tupV ρ vs = x
  · simp [Nat.mod_eq_of_lt hn, h]
  · simp [h]

theorem wsum_scale (f : List Nat → Nat) (k : Nat) (l : List (List Nat × Nat)) (h : k * vtot l < W32) :
    wsum f (l.map fun q => (q.1, (q.2 * k) % W32)) = k * wsum f l ∧ vtot (l.map fun q => (q.1, (q.2 * k) % W32)) = k * vtot l := by
  induction l with
  | nil => simp [wsum, vtot]
  | cons a l ih =>
    have e1 : vtot (a :: l) = a.2 + vtot l := rfl
    rw [e1, Nat.mul_add] at h
    obtain ⟨h1, h2⟩ := ih (by omega)
    have hm : a.2 * k < W32 := by rw [Nat.mul_comm]; omega
    unfold wsum vtot at *
    simp only [List.map_cons, List.sum_cons]
    rw [h1, h2, Nat.mod_eq_of_lt hm]
    refine ⟨?_, ?_⟩
    · rw [Nat.mul_add, ← Nat.mul_assoc, ← Nat.mul_assoc, Nat.mul_comm _ k, ← Nat.mul_assoc]
    · rw [Nat.mul_add, Nat.mul_comm]

theorem means_scale {m : VMS} {b : Nat} {ρ : Nat → Val} {f : Val → Nat} (h : Means m b ρ f) (k : Nat) (hb : k * b < W32) :
    Means (m.scale k) (k * b) ρ fun x => k * f x := by
  have hh := fun x => wsum_scale (fun vs => if tupV ρ vs = x then 1 else 0) k m.set (by rw [h.tot]; exact hb)
  refine ⟨?_, ?_, fun x => ?_⟩
  · unfold VMS.scale
    rw [List.map_map]
    exact h.nodup
  · exact (hh []).2.trans (by rw [h.tot])
  · rw [← h.val]
    exact (hh x).1

theorem tupleVars_ok {T : Types} {vty : Nat → Nat} (ρ : Nat → Val) (es : List CExpr) : ∀ vs, tupleVars es = some (some vs) →
    denL T vty ρ es = tupV ρ vs := by
  induction es with
  | nil => intro vs h; rw [tupleVars] at h; injection h with h; injection h with h; subst h; rw [denL]; rfl
  | cons e es ih =>
    intro vs h
    cases e with
    | var v =>
      rw [tupleVars] at h
      cases ht : tupleVars es with
      | none => rw [ht] at h; cases h
      | some r =>
        rw [ht] at h
        cases r with
        | none => simp at h
        | some ws =>
          simp at h
          subst h
          rw [denL, den, ih ws ht]
          rfl
    | _ => simp [tupleVars] at h

theorem exprVars_ok {T : Types} {vty : Nat → Nat} (ρ : Nat → Val) (e : CExpr) (vs : List Nat) (h : exprVars e = some (some vs)) :
    den T vty ρ e = tupV ρ vs := by
  cases e with
  | var v => simp [exprVars] at h; subst h; simp [den, tupV]
  | tuple es => rw [exprVars] at h; rw [den]; exact tupleVars_ok ρ es vs h
  | _ => simp [exprVars] at h

theorem numLoop_ok {T : Types} {vty : Nat → Nat} (ρ : Nat → Val) (n : Nat) (es : List CExpr) :
    ∀ (m m' : VMS) (b : Nat) (f : Val → Nat), Means m b ρ f → b + n * es.length < W32 → numLoop vty n es m = some (some m') →
    Means m' (b + n * es.length) ρ fun x => f x + n * (es.map fun e => den T vty ρ e).count x := by
  induction es with
  | nil =>
    intro m m' b f h _ e
    rw [numLoop] at e
    injection e with e
    injection e with e
    subst e
    simpa using h
  | cons e es ih =>
    intro m m' b f h hb he
    rw [numLoop] at he
    have hl : n * (e :: es).length = n + n * es.length := by rw [List.length_cons, Nat.mul_add]; omega
    rw [hl] at hb ⊢
    cases hv : exprVars e with
    | none => rw [hv] at he; cases he
    | some r =>
      rw [hv] at he
      cases r with
      | none => cases he
      | some vs =>
        simp only at he
        cases ha : m.add (.single vty vs n) with
        | none => rw [ha] at he; cases he
        | some m1 =>
          rw [ha] at he
          have h1 := means_add h (means_single vty vs n (by omega) ρ) (by omega) ha
          have h2 := ih m1 m' _ _ h1 (by omega) he
          rw [Nat.add_assoc] at h2
          refine h2.congr fun x => ?_
          rw [List.map_cons, List.count_cons, exprVars_ok ρ e vs hv, Nat.mul_add]
          by_cases hx : tupV ρ vs = x
          · simp [hx]; omega
          · simp [hx]

mutual
/-- The variable multiset of an arc expression means the tokens of the expression. -/
theorem extract_ok {T : Types} {vty : Nat → Nat} (ρ : Nat → Val) : (e : ArcE) → (m : VMS) → e.Small →
    extract vty e = some (some m) → Means m e.bound ρ (tokens T vty ρ e)
  | .num n es, m, hs, h => by
    rw [extract] at h
    rw [ArcE.Small] at hs
    have := numLoop_ok (T := T) ρ n es {} m 0 _ (means_empty ρ) (by omega) h
    rw [Nat.zero_add] at this
    rw [ArcE.bound]
    refine this.congr fun x => ?_
    rw [tokens, Nat.zero_add]
  | .add as, m, hs, h => by
    rw [extract] at h
    rw [ArcE.Small] at hs
    have := extractL_ok (T := T) ρ as {} m 0 _ (means_empty ρ) (by omega) hs.2 h
    rw [Nat.zero_add] at this
    rw [ArcE.bound]
    refine this.congr fun x => ?_
    rw [tokens, Nat.zero_add]
  | .sub a b, m, hs, h => by rw [extract] at h; cases h
  | .scal k a, m, hs, h => by
    rw [extract] at h
    rw [ArcE.Small] at hs
    cases ha : extract vty a with
    | none => rw [ha] at h; cases h
    | some r =>
      rw [ha] at h
      cases r with
      | none => simp at h
      | some m1 =>
        simp at h
        subst h
        rw [ArcE.bound]
        refine (means_scale (extract_ok (T := T) ρ a m1 hs.2 ha) k hs.1).congr fun x => ?_
        rw [tokens]
theorem extractL_ok {T : Types} {vty : Nat → Nat} (ρ : Nat → Val) : (as : List ArcE) → (m m' : VMS) → (b : Nat) → (f : Val → Nat) →
    Means m b ρ f → b + ArcE.boundL as < W32 → ArcE.SmallL as → extractL vty as m = some (some m') →
    Means m' (b + ArcE.boundL as) ρ fun x => f x + tokensL T vty ρ as x
  | [], m, m', b, f, hm, hb, hs, h => by
    rw [extractL] at h
    injection h with h
    injection h with h
    subst h
    rw [ArcE.boundL]
    refine hm.congr fun x => ?_
    rw [tokensL]
    rfl
  | a :: as, m, m', b, f, hm, hb, hs, h => by
    rw [extractL] at h
    rw [ArcE.SmallL] at hs
    rw [ArcE.boundL] at hb ⊢
    cases ha : extract vty a with
    | none => rw [ha] at h; cases h
    | some r =>
      rw [ha] at h
      cases r with
      | none => cases h
      | some m1 =>
        simp only at h
        cases hd : m.add m1 with
        | none => rw [hd] at h; cases h
        | some m2 =>
          rw [hd] at h
          have h1 := extract_ok (T := T) ρ a m1 hs.1 ha
          have h2 := means_add hm h1 (by omega) hd
          have h3 := extractL_ok (T := T) ρ as m2 m' _ _ h2 (by omega) hs.2 h
          rw [Nat.add_assoc] at h3
          refine h3.congr fun x => ?_
          rw [tokensL, Nat.add_assoc]
end

/-! ### Comparisons -/

/-- the sum over different tuples of the numbers stored for them -/
theorem wsum_look (f : List Nat → Nat) (l : List (List Nat × Nat)) : ∀ K : List (List Nat), K.Nodup →
    (K.map fun vs => f vs * vlook l vs).sum ≤ wsum f l := by
  induction l with
  | nil =>
    intro K _
    have : (K.map fun vs => f vs * vlook [] vs) = K.map fun _ => 0 := by simp [vlook]
    rw [this]
    simp [wsum]
  | cons a l ih =>
    intro K hK
    have e2 : wsum f (a :: l) = f a.1 * a.2 + wsum f l := rfl
    rw [e2]
    have key : ∀ K : List (List Nat), K.Nodup → (K.map fun vs => f vs * vlook (a :: l) vs).sum ≤
        (if a.1 ∈ K then f a.1 * a.2 else 0) + (K.map fun vs => f vs * vlook l vs).sum := by
      intro K
      induction K with
      | nil => intro _; simp
      | cons v K ihK =>
        intro hn
        rw [List.nodup_cons] at hn
        have := ihK hn.2
        rw [List.map_cons, List.sum_cons, List.map_cons, List.sum_cons, vlook]
        by_cases e : a.1 = v
        · subst e
          rw [if_pos rfl, if_pos (by simp)]
          rw [if_neg hn.1] at this
          omega
        · rw [if_neg e]
          by_cases hm : a.1 ∈ K
          · rw [if_pos (List.mem_cons_of_mem _ hm)]
            rw [if_pos hm] at this
            omega
          · rw [if_neg (fun h => by rcases List.mem_cons.1 h with h | h; exact e h; exact hm h)]
            rw [if_neg hm] at this
            omega
    refine Nat.le_trans (key K hK) ?_
    have := ih K hK
    split <;> omega

theorem sum_map_le_map {l r : List (List Nat × Nat)} (h : ∀ q ∈ l, q.2 ≤ vlook r q.1) (f : List Nat → Nat) :
    (l.map fun q => f q.1 * q.2).sum ≤ (l.map ((fun vs => f vs * vlook r vs) ∘ fun q => q.1)).sum := by
  induction l with
  | nil => exact Nat.le_refl _
  | cons a l ih =>
    rw [List.map_cons, List.sum_cons, List.map_cons, List.sum_cons]
    exact Nat.add_le_add (Nat.mul_le_mul_left _ (h a List.mem_cons_self)) (ih fun q hq => h q (List.mem_cons_of_mem _ hq))

/-- entries not above the numbers stored in another multiset -/
theorem wsum_le (f : List Nat → Nat) {l r : List (List Nat × Nat)} (h : (l.map (·.1)).Nodup) (hle : ∀ q ∈ l, q.2 ≤ vlook r q.1) :
    wsum f l ≤ wsum f r := by
  refine Nat.le_trans ?_ (wsum_look f r (l.map (·.1)) h)
  unfold wsum
  rw [List.map_map]
  exact sum_map_le_map hle f

theorem get_le (m : VMS) (vs : List Nat) : m.get vs ≤ vlook m.set vs := by
  unfold VMS.get
  split
  · exact Nat.zero_le _
  · exact Nat.le_refl _

theorem size_zero {m : VMS} (h : m.empty = true) : ∀ q ∈ m.set, q.2 = 0 := by
  intro q hq
  unfold VMS.empty VMS.size at h
  exact List.sum_eq_zero_iff_forall_eq_nat.1 (beq_iff_eq.1 h) _ (List.mem_map_of_mem hq)

theorem sub_empty {m o d : VMS} (h : m.sub o = some d) (he : d.empty = true) : ∀ q ∈ m.set, q.2 ≤ o.get q.1 := by
  intro q hq
  unfold VMS.sub at h
  simp only at h
  generalize (if m.types = [] then o.types else m.types) = ts at h
  split at h
  · cases h
  · injection h with h
    subst h
    have := size_zero he (q.1, if q.2 < o.get q.1 then 0 else q.2 - o.get q.1) (List.mem_map.2 ⟨q, hq, rfl⟩)
    simp only at this
    split at this <;> omega

theorem vden_le {m o : VMS} (h : (m.set.map (·.1)).Nodup) (hle : ∀ q ∈ m.set, q.2 ≤ o.get q.1) (ρ : Nat → Val) (x : Val) :
    vden ρ m x ≤ vden ρ o x := wsum_le _ h fun q hq => Nat.le_trans (hle q hq) (get_le o q.1)

theorem subEq_le {m o : VMS} {b c : Nat} {ρ : Nat → Val} {f g : Val → Nat} (h : Means m b ρ f) (ho : Means o c ρ g)
    (e : m.subEq o = some true) (x : Val) : f x ≤ g x := by
  unfold VMS.subEq at e
  cases hd : m.sub o with
  | none => rw [hd] at e; cases e
  | some d =>
    rw [hd] at e
    simp at e
    rw [← h.val, ← ho.val]
    exact vden_le h.nodup (sub_empty hd e) ρ x

end CRed
end Verif
