import Verif.CRed.ParPlaces
import Verif.CRed.ParLemmas
import Mathlib.Data.List.Perm.Subperm

/-!
# Parallel places
-/

namespace Verif
namespace CRed
open CPN XCol

/-! ### Ratios -/

def RLe (a b : Nat × Nat) : Prop := a.1 * b.2 ≤ b.1 * a.2

theorem RLe.trans {a b c : Nat × Nat} (h : RLe a b) (h' : RLe b c) (hb : 0 < b.2) : RLe a c := by
  unfold RLe at *
  refine Nat.le_of_mul_le_mul_right ?_ hb
  calc a.1 * c.2 * b.2 = a.1 * b.2 * c.2 := by rw [Nat.mul_right_comm]
    _ ≤ b.1 * a.2 * c.2 := Nat.mul_le_mul_right _ h
    _ = b.1 * c.2 * a.2 := by rw [Nat.mul_right_comm]
    _ ≤ c.1 * b.2 * a.2 := Nat.mul_le_mul_right _ h'
    _ = c.1 * a.2 * b.2 := by rw [Nat.mul_right_comm]

theorem RLe.refl (a : Nat × Nat) : RLe a a := Nat.le_refl _

theorem ratioMax_ok {r b : Nat × Nat} (h : 0 < (ratioMax r b).2) : 0 < r.2 ∧ RLe r (ratioMax r b) ∧ RLe b (ratioMax r b) := by
  unfold ratioMax at *
  by_cases hl : ratioLt r b = true
  · rw [if_pos hl] at *
    unfold ratioLt at hl
    have hl := of_decide_eq_true hl
    refine ⟨?_, Nat.le_of_lt hl, RLe.refl b⟩
    by_contra h0
    have : r.2 = 0 := by omega
    rw [this] at hl
    simp at hl
  · rw [if_neg hl] at *
    refine ⟨h, RLe.refl r, ?_⟩
    unfold ratioLt at hl
    have : ¬(r.1 * b.2 < b.1 * r.2) := fun h => hl (decide_eq_true h)
    unfold RLe
    omega

theorem drainMax_ok (o : VMS) (l : List (List Nat × Nat)) : ∀ r, 0 < (drainMax o l r).2 →
    0 < r.2 ∧ RLe r (drainMax o l r) ∧ ∀ q ∈ l, RLe (o.get q.1, q.2) (drainMax o l r) := by
  induction l with
  | nil => intro r h; exact ⟨h, RLe.refl r, (fun q hq => nomatch hq)⟩
  | cons a l ih =>
    intro r h
    rw [drainMax] at h ⊢
    obtain ⟨h1, h2, h3⟩ := ih _ h
    obtain ⟨g1, g2, g3⟩ := ratioMax_ok h1
    refine ⟨g1, g2.trans h2 h1, fun q hq => ?_⟩
    rcases List.mem_cons.1 hq with rfl | hq
    · exact g3.trans h2 h1
    · exact h3 q hq

/-! ### Supports -/

def supp (l : List (List Nat × Nat)) : List (List Nat) := (l.filter fun q => decide (q.2 > 0)).map (·.1)

theorem mem_supp {l : List (List Nat × Nat)} {vs : List Nat} : vs ∈ supp l ↔ ∃ q ∈ l, q.1 = vs ∧ 0 < q.2 := by
  unfold supp
  simp only [List.mem_map, List.mem_filter]
  constructor
  · rintro ⟨q, ⟨h1, h2⟩, h3⟩; exact ⟨q, h1, h3, of_decide_eq_true h2⟩
  · rintro ⟨q, h1, h3, h2⟩; exact ⟨q, ⟨h1, decide_eq_true h2⟩, h3⟩

theorem supp_nodup {l : List (List Nat × Nat)} (h : (l.map (·.1)).Nodup) : (supp l).Nodup :=
  (List.Sublist.map _ (List.filter_sublist)).nodup h

theorem supp_length (m : VMS) : (supp m.set).length = m.distinct := by
  unfold supp VMS.distinct
  rw [List.length_map]

/-- weights that look at one tuple only -/
theorem wsum_pos {l : List (List Nat × Nat)} {vs : List Nat} : 0 < wsum (fun v => if v = vs then 1 else 0) l ↔ vs ∈ supp l := by
  rw [mem_supp]
  unfold wsum
  rw [Nat.pos_iff_ne_zero, ne_eq, List.sum_eq_zero_iff_forall_eq_nat]
  push Not
  constructor
  · rintro ⟨k, hk, hne⟩
    obtain ⟨q, hq, rfl⟩ := List.mem_map.1 hk
    by_cases h : q.1 = vs
    · rw [if_pos h] at hne
      exact ⟨q, hq, h, by omega⟩
    · rw [if_neg h] at hne
      simp at hne
  · rintro ⟨q, hq, h, hp⟩
    exact ⟨_, List.mem_map_of_mem hq, by rw [if_pos h]; omega⟩

theorem sameSupport_ok {m o : VMS} (hm : (m.set.map (·.1)).Nodup) (hb : vtot m.set + vtot o.set < W32)
    (h : m.sameSupport o = some true) : ∀ q ∈ o.set, 0 < q.2 → ∃ r ∈ m.set, r.1 = q.1 := by
  unfold VMS.sameSupport at h
  split at h
  · cases h
  · cases hs : m.add o with
    | none => rw [hs] at h; cases h
    | some s =>
      rw [hs] at h
      have hd : s.distinct = m.distinct := of_decide_eq_true (Option.some.inj h)
      unfold VMS.add at hs
      simp only at hs
      generalize (if m.types = [] then o.types else m.types) = ts at hs
      split at hs
      · cases hs
      · injection hs with hs
        have hset : s.set = vaddAll m.set o.set := by rw [← hs]
        have hk := fun f => vaddAll_ok f o.set m.set hm hb
        have hsub : ∀ vs, vs ∈ supp s.set ↔ vs ∈ supp m.set ∨ vs ∈ supp o.set := by
          intro vs
          rw [← wsum_pos, hset, (hk _).2.1, ← wsum_pos, ← wsum_pos]
          omega
        have hperm : (supp m.set).Perm (supp s.set) := by
          refine (List.subperm_of_subset (supp_nodup hm) fun v hv => (hsub v).2 (Or.inl hv)).perm_of_length_le ?_
          rw [supp_length, supp_length, hd]
        intro q hq hp
        have h1 : q.1 ∈ supp o.set := mem_supp.2 ⟨q, hq, rfl, hp⟩
        have h2 : q.1 ∈ supp m.set := hperm.mem_iff.2 ((hsub _).2 (Or.inr h1))
        obtain ⟨r, hr, he, _⟩ := mem_supp.1 h2
        exact ⟨r, hr, he⟩

theorem vlook_uscale (m : VMS) (k : Nat) (vs : List Nat) : vlook (uscale m k).set vs = vlook m.set vs * k := by
  unfold uscale
  generalize m.set = l
  induction l with
  | nil => simp [vlook]
  | cons a l ih =>
    rw [List.map_cons, vlook, vlook, ih]
    split <;> rfl

theorem uscale_nodup {m : VMS} (h : (m.set.map (·.1)).Nodup) (k : Nat) : ((uscale m k).set.map (·.1)).Nodup := by
  unfold uscale
  rw [List.map_map]
  exact h

/-- entries in a ratio -/
theorem wsum_ratio (f : List Nat → Nat) {m o : VMS} (h : (m.set.map (·.1)).Nodup) {a b : Nat}
    (hle : ∀ q ∈ m.set, q.2 * a ≤ vlook o.set q.1 * b) : a * wsum f m.set ≤ b * wsum f o.set := by
  rw [← wsum_uscale, ← wsum_uscale]
  refine wsum_le f (uscale_nodup h a) fun q hq => ?_
  obtain ⟨u, hu, rfl⟩ := List.mem_map.1 hq
  rw [vlook_uscale]
  exact hle u hu

/-! ### The consumers -/

/-- what the rule knows of nets: arcs to one place come once, texts have a meaning, no empty products -/
structure Fine (nm : Names) (N : CNet) : Prop where
  wf : N.WF
  sorted : Sorted N
  texts : Readable nm N
  prods : NoEmptyProd N.types

theorem Fine.skipPlace {nm : Names} {R : Red} (h : Fine nm R.net) (p : Nat) : Fine nm (R.skipPlace p).net :=
  ⟨wf_skipPlace h.wf p, sorted_skipPlace h.sorted p, readable_skipPlace h.texts p, h.prods⟩

theorem arc_lt {N : CNet} (w : N.WF) {t : Nat} (ht : t < N.transitions.length) {a : CArc} (h : a ∈ (N.trans t).inputs ++ (N.trans t).outputs) :
    a.expr.bound < 2 ^ 31 ∧ a.expr.Small ∧ ArcTy N.types N.vty (N.place a.place).ty a.expr :=
  have := w.arcs _ (trans_mem ht) a h
  ⟨this.2.2.2, this.2.2.1, this.2.1⟩

theorem drainAt_ok {R : Red} {nm : Names} (hn : Fine nm R.net) {p1 p2 t : Nat} (ht : t < R.net.transitions.length) {r r' : Nat × Nat}
    (h : R.drainAt nm p1 p2 t r = some (some r')) (hp : 0 < r'.2) : 0 < r.2 ∧ RLe r r' ∧
      ∀ ρ x, RLe (arcsTokens R.net ρ (R.net.trans t).inputs p2 x, arcsTokens R.net ρ (R.net.trans t).inputs p1 x) r' := by
  unfold Red.drainAt at h
  split at h
  · rename_i a b ha hb
    have ha' := (arcAt_some ha).1
    have hb' := (arcAt_some hb).1
    split at h
    · rename_i he
      injection h with h
      injection h with h
      subst h
      obtain ⟨h1, h2, h3⟩ := ratioMax_ok hp
      refine ⟨h1, h2, fun ρ x => ?_⟩
      rw [in_of_arc hn.sorted ht ha, in_of_arc hn.sorted ht hb,
        hn.texts _ (trans_mem ht) a (List.mem_append_left _ ha') b (List.mem_append_left _ hb') he ρ x]
      unfold RLe at *
      dsimp only at *
      rw [Nat.mul_comm]
      exact Nat.mul_le_mul_right _ (by omega)
    · split at h
      · rename_i m o hm ho
        obtain ⟨b1, s1, y1⟩ := arc_lt hn.wf ht (List.mem_append_left _ ha')
        obtain ⟨b2, s2, y2⟩ := arc_lt hn.wf ht (List.mem_append_left _ hb')
        cases hss : m.sameSupport o with
        | none => rw [hss] at h; cases h
        | some s =>
          rw [hss] at h
          cases s with
          | false => cases h
          | true =>
            have e : drainMax o m.set r = r' := by simpa using h
            subst e
            obtain ⟨h1, h2, h3⟩ := drainMax_ok o m.set r hp
            refine ⟨h1, h2, fun ρ x => ?_⟩
            have mm := extract_ok (T := R.net.types) ρ a.expr m s1 hm
            have mo := extract_ok (T := R.net.types) ρ b.expr o s2 ho
            have tp := typed_extract hn.prods b.expr o y2 ho
            have hsp := sameSupport_ok mm.nodup (by rw [mm.tot, mo.tot]; unfold W32; omega) hss
            rw [in_of_arc hn.sorted ht ha, in_of_arc hn.sorted ht hb, ← mm.val, ← mo.val]
            generalize drainMax o m.set r = k at *
            unfold RLe
            dsimp only
            rw [Nat.mul_comm]
            unfold vden
            refine wsum_ratio _ mo.nodup fun q hq => ?_
            rcases Nat.eq_zero_or_pos q.2 with h0 | h0
            · rw [h0, Nat.zero_mul]; exact Nat.zero_le _
            · obtain ⟨u, hu, hue⟩ := hsp q hq h0
              have := h3 u hu
              unfold RLe at this
              dsimp only at this
              have hne : o.types ≠ [] := fun e => by rw [tp e] at hq; cases hq
              unfold VMS.get at this
              rw [if_neg hne, hue, vlook_mem mo.nodup hq] at this
              rw [← hue, vlook_mem mm.nodup hu, Nat.mul_comm u.2]
              exact this
      · cases h
      · cases h
  · cases h

theorem drain_ok {R : Red} {nm : Names} (hn : Fine nm R.net) {p1 p2 : Nat} (l1 : List Nat) : ∀ (l2 : List Nat) (r k : Nat × Nat),
    (∀ t ∈ l2, t < R.net.transitions.length) → R.drain nm p1 p2 l1 l2 r = some (some k) → 0 < k.2 → 0 < r.2 ∧ RLe r k ∧
      ∀ t ∈ l2, ∀ ρ x, RLe (arcsTokens R.net ρ (R.net.trans t).inputs p2 x, arcsTokens R.net ρ (R.net.trans t).inputs p1 x) k := by
  induction l1 with
  | nil =>
    intro l2 r k _ h hk
    cases l2 with
    | nil =>
      rw [Red.drain] at h
      injection h with h
      injection h with h
      subst h
      exact ⟨hk, RLe.refl r, (fun t ht => nomatch ht)⟩
    | cons t2 l2 => rw [Red.drain] at h; cases h
  | cons t1 l1 ih =>
    intro l2 r k hl h hk
    cases l2 with
    | nil =>
      rw [Red.drain] at h
      · injection h with h
        injection h with h
        subst h
        exact ⟨hk, RLe.refl r, (fun t ht => nomatch ht)⟩
    | cons t2 l2 =>
      rw [Red.drain] at h
      split at h
      · cases h
      split at h
      · exact ih _ r k hl h hk
      · have e : t1 = t2 := by omega
        subst e
        split at h
        · cases h
        · cases h
        · rename_i r' hr
          obtain ⟨g1, g2, g3⟩ := ih l2 r' k (fun t ht => hl t (List.mem_cons_of_mem _ ht)) h hk
          obtain ⟨f1, f2, f3⟩ := drainAt_ok hn (hl t1 List.mem_cons_self) hr g1
          refine ⟨f1, f2.trans g2 g1, fun t ht ρ x => ?_⟩
          rcases List.mem_cons.1 ht with rfl | ht
          · exact (f3 ρ x).trans g2 g1
          · exact g3 t ht ρ x

/-! ### The producers -/

theorem fillAt_ok {R : Red} {nm : Names} (hn : Fine nm R.net) {p1 p2 t : Nat} (ht : t < R.net.transitions.length) {r : Nat × Nat}
    (h : R.fillAt nm p1 p2 t r = some true) (ρ : Nat → Val) (x : Val) :
    r.1 * arcsTokens R.net ρ (R.net.trans t).outputs p1 x ≤ r.2 * arcsTokens R.net ρ (R.net.trans t).outputs p2 x := by
  unfold Red.fillAt at h
  split at h
  · rename_i a b ha hb
    split at h
    · cases h
    · split at h
      · rename_i m o hm ho
        obtain ⟨_, s1, _⟩ := arc_lt hn.wf ht (List.mem_append_right _ (arcAt_some ha).1)
        obtain ⟨_, s2, _⟩ := arc_lt hn.wf ht (List.mem_append_right _ (arcAt_some hb).1)
        have mm := extract_ok (T := R.net.types) ρ a.expr m s1 hm
        have mo := extract_ok (T := R.net.types) ρ b.expr o s2 ho
        rw [out_of_arc hn.sorted ht ha, out_of_arc hn.sorted ht hb, ← mm.val, ← mo.val]
        unfold vden
        refine wsum_ratio _ mm.nodup fun q hq => ?_
        cases hss : m.sameSupport o with
        | none => rw [hss] at h; cases h
        | some s =>
          rw [hss] at h
          have h := Option.some.inj h
          rw [Bool.and_eq_true, List.all_eq_true] at h
          have hq := h.2 q hq
          have : ¬(o.get q.1 * r.2 < r.1 * q.2) := by
            unfold ratioLt at hq
            simpa using hq
          have hg := Nat.mul_le_mul_right r.2 (get_le o q.1)
          rw [Nat.mul_comm q.2]
          omega
      · cases h
      · cases h
  · cases h

theorem fill_ok {R : Red} {nm : Names} (hn : Fine nm R.net) {p1 p2 : Nat} {r : Nat × Nat} (l2 : List Nat) : ∀ (l1 : List Nat),
    (∀ t ∈ l1, t < R.net.transitions.length) → R.fill nm p1 p2 r l1 l2 = some true →
      ∀ t ∈ l1, ∀ ρ x, r.1 * arcsTokens R.net ρ (R.net.trans t).outputs p1 x ≤ r.2 * arcsTokens R.net ρ (R.net.trans t).outputs p2 x := by
  induction l2 with
  | nil =>
    intro l1 _ h t ht
    cases l1 with
    | nil => cases ht
    | cons t1 l1 => rw [Red.fill] at h; cases h
  | cons t2 l2 ih =>
    intro l1 hl h t ht ρ x
    cases l1 with
    | nil => cases ht
    | cons t1 l1 =>
      rw [Red.fill] at h
      split at h
      · cases h
      split at h
      · exact ih _ hl h t ht ρ x
      · split at h
        · cases h
        · cases h
        · rename_i hf
          rcases List.mem_cons.1 ht with rfl | ht
          · exact fillAt_ok hn (hl t List.mem_cons_self) hf ρ x
          · exact ih l1 (fun u hu => hl u (List.mem_cons_of_mem _ hu)) h t ht ρ x

/-! ### The pair -/

/-- the tokens at the start are in the ratio -/
def Red.InRatio (R : Red) (r : Nat × Nat) (p1 p2 : Nat) : Prop := ∀ x, r.1 * R.net.init p1 x ≤ r.2 * R.net.init p2 x

/-- what the pair check finds out -/
structure Parallel (R : Red) (nm : Names) (q : Uses) (p1 p2 : Nat) (r : Nat × Nat) : Prop where
  unused : q.place p2 = false
  calm : R.inhibitor p2 = 0
  made : R.pre p2 ≠ []
  taken : R.post p1 ≠ []
  drain : R.drain nm p1 p2 (R.post p1) (R.post p2) (0, 1) = some (some r)
  fits : drainFits (markMS (R.net.place p1)) (markMS (R.net.place p2)) r = some true
  fill : R.fill nm p1 p2 r (R.pre p1) (R.pre p2) = some true

theorem parPlace_parallel {R : Red} {nm : Names} {q : Uses} {p1 p2 : Nat} {r : Nat × Nat} (h : R.parPlace nm q p1 p2 = some (some r)) :
    Parallel R nm q p1 p2 r := by
  unfold Red.parPlace at h
  split at h
  · cases h
  rename_i hc
  have hc : R.comparable q p1 p2 = true := by simpa using hc
  have hc := of_decide_eq_true hc
  split at h
  · cases h
  · cases h
  split at h
  · cases h
  · cases h
  rename_i k hd
  split at h
  · cases h
  · cases h
  rename_i hf
  cases hfl : R.fill nm p1 p2 k (R.pre p1) (R.pre p2) with
  | none => rw [hfl] at h; cases h
  | some b =>
    rw [hfl] at h
    cases b with
    | false => cases h
    | true =>
      have e : k = r := by simpa using h
      subst e
      exact ⟨hc.1, hc.2.1, hc.2.2.1, hc.2.2.2.1, hd, hf, hfl⟩

theorem Parallel.pos {R : Red} {nm : Names} {q : Uses} {p1 p2 : Nat} {r : Nat × Nat} (h : Parallel R nm q p1 p2 r) : 0 < r.2 := by
  have := h.fits
  unfold drainFits at this
  split at this
  · cases this
  · omega

theorem parallel_harmless {R : Red} {nm : Names} (hn : Fine nm R.net) {q : Uses} {p1 p2 : Nat} {r : Nat × Nat} (hne : p1 ≠ p2)
    (h : Parallel R nm q p1 p2 r) (hi : R.InRatio r p1 p2) : Harmless R p2 := by
  have hr := h.pos
  obtain ⟨_, _, hd⟩ := drain_ok hn _ _ _ _ (fun t ht => (mem_post.1 ht).1) h.drain hr
  have hf := fill_ok hn _ _ (fun t ht => (mem_pre.1 ht).1) h.fill
  have hin : ∀ t ρ, t < R.net.transitions.length → ∀ x,
      r.2 * arcsTokens R.net ρ (R.net.trans t).inputs p2 x ≤ r.1 * arcsTokens R.net ρ (R.net.trans t).inputs p1 x := by
    intro t ρ ht x
    by_cases hm : t ∈ R.post p2
    · have := hd t hm ρ x
      unfold RLe at this
      dsimp only at this
      rwa [Nat.mul_comm] at this
    · rw [in_zero ht hm]; exact Nat.zero_le _
  have hout : ∀ t ρ, t < R.net.transitions.length → ∀ x,
      r.1 * arcsTokens R.net ρ (R.net.trans t).outputs p1 x ≤ r.2 * arcsTokens R.net ρ (R.net.trans t).outputs p2 x := by
    intro t ρ ht x
    by_cases hm : t ∈ R.pre p1
    · exact hf t hm ρ x
    · rw [out_zero ht hm]; exact Nat.zero_le _
  have hinv : ∀ M, R.Reach M → ∀ x, r.1 * M p1 x ≤ r.2 * M p2 x := by
    intro M hM
    induction hM with
    | init => exact hi
    | @step M M' t ρ hr hst ih =>
      intro x
      obtain ⟨_, ht, hl, hen, rfl⟩ := hst
      unfold CNet.fire
      have e1 := hen.1 p1 x
      have e2 := hen.1 p2 x
      have a1 := hin t ρ ht x
      have a2 := hout t ρ ht x
      have a3 := ih x
      rw [Nat.mul_add, Nat.mul_add, Nat.mul_sub, Nat.mul_sub]
      have := Nat.mul_le_mul_left r.1 e1
      have := Nat.mul_le_mul_left r.2 e2
      omega
  intro M hM t ρ ht _ hl hen x
  have h1 := Nat.mul_le_mul_left r.1 (hen p1 hne x)
  have := hin t ρ ht x
  have := hinv M hM x
  exact Nat.le_of_mul_le_mul_left (by omega : r.2 * _ ≤ r.2 * _) hr

/-! ### When the tokens are in the ratio -/

theorem init_lt {N : CNet} (w : N.WF) {p : Nat} (hp : p < N.places.length) (x : Val) : N.init p x < W32 := by
  have h := (w.marking _ (place_mem hp)).2.2
  refine Nat.lt_of_le_of_lt ?_ h
  unfold CNet.init CPlace.tokens
  generalize (N.place p).marking = l
  induction l with
  | nil => exact Nat.le_refl _
  | cons a l ih =>
    simp only [List.map_cons, List.sum_cons]
    split <;> omega

theorem init_mem {N : CNet} (w : N.WF) {p : Nat} (hp : p < N.places.length) {x : Val} (h : N.init p x ≠ 0) :
    ∃ i, i < N.types.size (N.place p).ty ∧ x = N.types.value ⟨(N.place p).ty, i⟩ := by
  unfold CNet.init at h
  rw [ne_eq, List.sum_eq_zero_iff_forall_eq_nat] at h
  push Not at h
  obtain ⟨k, hk, hne⟩ := h
  obtain ⟨q, hq, rfl⟩ := List.mem_map.1 hk
  by_cases he : N.types.value ⟨(N.place p).ty, q.1⟩ = x
  · exact ⟨q.1, (w.marking _ (place_mem hp)).2.1 q.1 (List.mem_map_of_mem hq), he.symm⟩
  · rw [if_neg he] at hne
    exact absurd rfl hne

theorem post_range {R : Red} (w : R.net.WF) {p : Nat} (h : R.post p ≠ []) : p < R.net.places.length := by
  obtain ⟨t, ht⟩ := List.exists_mem_of_ne_nil _ h
  obtain ⟨h1, a, ha, rfl⟩ := mem_post.1 ht
  exact (w.arcs _ (trans_mem h1) a (List.mem_append_left _ ha)).1

theorem pre_range {R : Red} (w : R.net.WF) {p : Nat} (h : R.pre p ≠ []) : p < R.net.places.length := by
  obtain ⟨t, ht⟩ := List.exists_mem_of_ne_nil _ h
  obtain ⟨h1, a, ha, rfl⟩ := mem_pre.1 ht
  exact (w.arcs _ (trans_mem h1) a (List.mem_append_right _ ha)).1

/-- A ratio that is a whole number, and tokens that can be multiplied by it in 32 bits. -/
theorem inRatio_of {R : Red} (w : R.net.WF) {nm : Names} {q : Uses} {p1 p2 : Nat} {r : Nat × Nat} (hy : (R.net.place p1).ty = (R.net.place p2).ty)
    (h : Parallel R nm q p1 p2 r) (hd : r.2 ∣ r.1) (hb : ∀ x, r.1 / r.2 * R.net.init p1 x < W32) : R.InRatio r p1 p2 := by
  have h1 := post_range w h.taken
  have h2 := pre_range w h.made
  obtain ⟨k, hk⟩ := hd
  have hpos := h.pos
  have hdiv : r.1 / r.2 = k := by rw [hk, Nat.mul_div_cancel_left _ hpos]
  have hf := h.fits
  unfold drainFits at hf
  rw [if_neg (by omega), hdiv] at hf
  rw [hdiv] at hb
  have hs := holds_scale (holds_mark w h1) (k := k) fun i _ => hb _
  have hm := holds_mark w h2
  rw [← hy] at hm
  obtain ⟨d, hd, hh⟩ := holds_sub hs hm
  unfold msSubEq at hf
  rw [hd] at hf
  have hz : ∀ q ∈ d.set, q.2 = 0 := by
    have := Option.some.inj hf
    rw [List.all_eq_true] at this
    exact fun q hq => beq_iff_eq.1 (this q hq)
  intro x
  rcases Nat.eq_zero_or_pos (R.net.init p1 x) with h0 | h0
  · rw [h0, Nat.mul_zero]; exact Nat.zero_le _
  · obtain ⟨i, hi, rfl⟩ := init_mem w h1 (Nat.pos_iff_ne_zero.1 h0)
    have hv := hh.val i hi
    have : entry d.set i = 0 := by
      by_cases hmem : i ∈ d.set.map (·.1)
      · obtain ⟨q, hq, rfl⟩ := List.mem_map.1 hmem
        rw [mem_entry hh.nodup hq]
        exact hz q hq
      · exact entry_notMem hmem
    rw [hk, Nat.mul_assoc]
    exact Nat.mul_le_mul_left _ (by omega)

/-! ### Nets whose transitions take as much from one place as from another -/

/-- what a transition takes of a tuple it takes from all places alike -/
def Even (N : CNet) : Prop := ∀ t ∈ N.transitions, ∀ a ∈ t.inputs, ∀ b ∈ t.inputs, ∀ m o, extract N.vty a.expr = some (some m) →
  extract N.vty b.expr = some (some o) → ∀ q ∈ m.set, q.2 = o.get q.1

theorem even_skipPlace {R : Red} (h : Even R.net) (p : Nat) : Even (R.skipPlace p).net := by
  intro t ht a ha b hb
  obtain ⟨u, hu, rfl⟩ := List.mem_map.1 ht
  exact h u hu a (List.mem_of_mem_filter ha) b (List.mem_of_mem_filter hb)

def Half (r : Nat × Nat) : Prop := r = (0, 1) ∨ r.1 = r.2

theorem half_max {r b : Nat × Nat} (h : Half r) (hb : b.1 = b.2) : Half (ratioMax r b) := by
  unfold ratioMax
  split
  · exact Or.inr hb
  · exact h

theorem half_drainMax {o : VMS} (l : List (List Nat × Nat)) : ∀ r, Half r → (∀ q ∈ l, q.2 = o.get q.1) → Half (drainMax o l r) := by
  induction l with
  | nil => intro r h _; exact h
  | cons a l ih =>
    intro r h hl
    exact ih _ (half_max h (hl a List.mem_cons_self).symm) fun q hq => hl q (List.mem_cons_of_mem _ hq)

theorem half_drainAt {R : Red} {nm : Names} (he : Even R.net) {p1 p2 t : Nat} (ht : t < R.net.transitions.length) {r r' : Nat × Nat}
    (h : R.drainAt nm p1 p2 t r = some (some r')) (hr : Half r) : Half r' := by
  unfold Red.drainAt at h
  split at h
  · rename_i a b ha hb
    split at h
    · injection h with h
      injection h with h
      subst h
      exact half_max hr rfl
    · split at h
      · rename_i m o hm ho
        cases hss : m.sameSupport o with
        | none => rw [hss] at h; cases h
        | some s =>
          rw [hss] at h
          cases s with
          | false => cases h
          | true =>
            have e : drainMax o m.set r = r' := by simpa using h
            subst e
            exact half_drainMax _ _ hr (he _ (trans_mem ht) a (arcAt_some ha).1 b (arcAt_some hb).1 m o hm ho)
      · cases h
      · cases h
  · cases h

theorem half_drain {R : Red} {nm : Names} (he : Even R.net) {p1 p2 : Nat} (l1 : List Nat) : ∀ (l2 : List Nat) (r k : Nat × Nat),
    (∀ t ∈ l2, t < R.net.transitions.length) → R.drain nm p1 p2 l1 l2 r = some (some k) → Half r → Half k := by
  induction l1 with
  | nil =>
    intro l2 r k _ h hr
    cases l2 with
    | nil =>
      rw [Red.drain] at h
      injection h with h
      injection h with h
      exact h ▸ hr
    | cons t2 l2 => rw [Red.drain] at h; cases h
  | cons t1 l1 ih =>
    intro l2 r k hl h hr
    cases l2 with
    | nil =>
      rw [Red.drain] at h
      · injection h with h
        injection h with h
        exact h ▸ hr
    | cons t2 l2 =>
      rw [Red.drain] at h
      split at h
      · cases h
      split at h
      · exact ih _ r k hl h hr
      · have e : t1 = t2 := by omega
        subst e
        split at h
        · cases h
        · cases h
        · rename_i r' hr'
          exact ih l2 r' k (fun t ht => hl t (List.mem_cons_of_mem _ ht)) h (half_drainAt he (hl t1 List.mem_cons_self) hr' hr)

theorem even_inRatio {R : Red} (w : R.net.WF) (he : Even R.net) {nm : Names} {q : Uses} {p1 p2 : Nat} {r : Nat × Nat}
    (hy : (R.net.place p1).ty = (R.net.place p2).ty) (h : Parallel R nm q p1 p2 r) : R.InRatio r p1 p2 := by
  have hpos := h.pos
  have h1 := post_range w h.taken
  rcases half_drain he _ _ _ _ (fun t ht => (mem_post.1 ht).1) h.drain (Or.inl rfl) with e | e
  · subst e
    intro x
    simp
  · refine inRatio_of w hy h ⟨1, by omega⟩ fun x => ?_
    rw [e, Nat.div_self hpos, Nat.one_mul]
    exact init_lt w h1 x

/-! ### The loop -/

/-- For each pair that the rule takes for parallel, the tokens at the start are in the ratio that it has found. -/
def Red.Fair (nm : Names) (q : Uses) : List (Nat × Nat) → Red → Prop
  | [], _ => True
  | (p1, p2) :: ps, R =>
    (∀ r, p1 ≠ p2 → p1 ∉ R.skP → p2 ∉ R.skP → (R.net.place p1).ty = (R.net.place p2).ty → R.parPlace nm q p1 p2 = some (some r) →
      R.InRatio r p1 p2 ∧ Red.Fair nm q ps (R.skipPlace p2)) ∧
    (R.parPlace nm q p1 p2 = some none ∨ p1 = p2 ∨ p1 ∈ R.skP ∨ p2 ∈ R.skP ∨ (R.net.place p1).ty ≠ (R.net.place p2).ty → Red.Fair nm q ps R)

theorem parPlaces_same {nm : Names} {q : Uses} (ps : List (Nat × Nat)) : ∀ (R R' : Red), Fine nm R.net → Red.Fair nm q ps R →
    Red.parPlaces nm q ps R = some R' → Same R R' ∧ ∀ p ∈ R'.skP, p ∈ R.skP ∨ q.place p = false := by
  induction ps with
  | nil =>
    intro R R' _ _ h
    rw [Red.parPlaces] at h
    injection h with h
    subst h
    exact ⟨Same.refl R, fun p hp => Or.inl hp⟩
  | cons a ps ih =>
    intro R R' hn hf h
    obtain ⟨p1, p2⟩ := a
    rw [Red.parPlaces] at h
    rw [Red.Fair] at hf
    split at h
    · rename_i hc
      exact ih R R' hn (hf.2 (Or.inr hc)) h
    · rename_i hc
      push Not at hc
      split at h
      · cases h
      · rename_i hp
        exact ih R R' hn (hf.2 (Or.inl hp)) h
      · rename_i r hp
        obtain ⟨h1, h2⟩ := hf.1 r hc.1 hc.2.1 hc.2.2.1 hc.2.2.2 hp
        have hpp := parPlace_parallel hp
        have hs := same_skipPlace hn.wf hpp.calm (parallel_harmless hn hc.1 hpp h1)
        obtain ⟨g1, g2⟩ := ih _ R' (hn.skipPlace p2) h2 h
        refine ⟨hs.trans g1, fun p hp => ?_⟩
        rcases g2 p hp with h | h
        · rcases List.mem_cons.1 h with h | h
          · exact Or.inr (h ▸ hpp.unused)
          · exact Or.inl h
        · exact Or.inr h

theorem even_fair {nm : Names} {q : Uses} (ps : List (Nat × Nat)) : ∀ (R : Red), R.net.WF → Even R.net → Red.Fair nm q ps R := by
  induction ps with
  | nil => intro R _ _; trivial
  | cons a ps ih =>
    intro R w he
    obtain ⟨p1, p2⟩ := a
    rw [Red.Fair]
    exact ⟨fun r _ _ _ hy hp => ⟨even_inRatio w he hy (parPlace_parallel hp), ih _ (wf_skipPlace w p2) (even_skipPlace he p2)⟩,
      fun _ => ih R w he⟩

end CRed
end Verif
