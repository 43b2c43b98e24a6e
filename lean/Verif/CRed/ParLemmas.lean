import Verif.CRed.MultLemmas
import Verif.CRed.PlaceLemmas

/-!
# Parallel transitions
-/

namespace Verif
namespace CRed
open CPN XCol

/-- The nets that the rule for parallel transitions is right about: weights below `2^16`, and expressions that are printed alike
mean the same. -/
structure Tidy (nm : Names) (N : CNet) : Prop where
  wf : N.WF
  sorted : Sorted N
  prods : NoEmptyProd N.types
  small : ∀ t ∈ N.transitions, ∀ a ∈ t.inputs ++ t.outputs, a.expr.bound < 2 ^ 16
  texts : ∀ t ∈ N.transitions, ∀ u ∈ N.transitions, ∀ a ∈ t.inputs ++ t.outputs, ∀ b ∈ u.inputs ++ u.outputs, a.place = b.place →
    arcText nm a.expr = arcText nm b.expr → ∀ ρ x, tokens N.types N.vty ρ a.expr x = tokens N.types N.vty ρ b.expr x
  guards : ∀ t ∈ N.transitions, ∀ u ∈ N.transitions, ∀ g ∈ t.guard, ∀ h ∈ u.guard, guardText nm g = guardText nm h →
    ∀ ρ, guardHolds N.types N.vty ρ (some g) ↔ guardHolds N.types N.vty ρ (some h)

theorem Tidy.skipTrans {nm : Names} {R : Red} (h : Tidy nm R.net) (t : Nat) : Tidy nm (R.skipTrans t).net where
  wf := wf_skipTrans h.wf t
  sorted := sorted_skipTrans h.sorted t
  prods := h.prods
  small := by
    intro u hu a ha
    obtain ⟨y, hy, e | e⟩ := mem_modify hu
    · subst e; exact h.small u hy a ha
    · subst e; simp [bare] at ha
  texts := by
    intro u hu v hv a ha b hb
    obtain ⟨y, hy, e | e⟩ := mem_modify hu
    · obtain ⟨z, hz, e' | e'⟩ := mem_modify hv
      · subst e; subst e'; exact h.texts u hy v hz a ha b hb
      · subst e'; simp [bare] at hb
    · subst e; simp [bare] at ha
  guards := by
    intro u hu v hv g hg k hk
    obtain ⟨y, hy, e⟩ := mem_modify hu
    obtain ⟨z, hz, e'⟩ := mem_modify hv
    have h1 : y.guard = u.guard := by rcases e with e | e <;> subst e <;> rfl
    have h2 : z.guard = v.guard := by rcases e' with e | e <;> subst e <;> rfl
    exact h.guards y hy z hz g (h1 ▸ hg) k (h2 ▸ hk)

/-! ### What the pair check finds out -/

/-- what is known of the pairs of arcs that have been looked at -/
def Sofar (T : Types) (vty : Nat → Nat) (k : Nat) (l : List (CArc × CArc)) : Prop :=
  (k = umax ∧ ∀ q ∈ l, ∀ ρ x, tokens T vty ρ q.1.expr x = 0 ∧ tokens T vty ρ q.2.expr x = 0) ∨
  (k < 2 ^ 16 ∧ (k = 0 → ∃ q ∈ l, q.2.expr.bound = 0) ∧ ∀ q ∈ l, ∀ ρ x, tokens T vty ρ q.2.expr x = k * tokens T vty ρ q.1.expr x)

theorem tokens_zero {T : Types} {vty : Nat → Nat} {e : ArcE} {m : VMS} (hs : e.Small) (h : extract vty e = some (some m)) (hb : e.bound = 0)
    (ρ : Nat → Val) (x : Val) : tokens T vty ρ e x = 0 := by
  have hm := extract_ok (T := T) ρ e m hs h
  rw [← hm.val]
  exact vtot_zero _ (by rw [hm.tot, hb])

/-- what is asked of a pair of arcs -/
structure ArcsOK (nm : Names) (N : CNet) (a b : CArc) : Prop where
  small : a.expr.Small ∧ b.expr.Small
  bound : a.expr.bound < 2 ^ 16 ∧ b.expr.bound < 2 ^ 16
  ty : ∃ ty, ArcTy N.types N.vty ty a.expr
  text : a.place = b.place → arcText nm a.expr = arcText nm b.expr → ∀ ρ x, tokens N.types N.vty ρ a.expr x = tokens N.types N.vty ρ b.expr x

theorem checkMult_ok {nm : Names} {N : CNet} (hT : NoEmptyProd N.types) {a b : CArc} (hok : ArcsOK nm N a b) (hp : a.place = b.place)
    {k k' : Nat} {l : List (CArc × CArc)} (hl : Sofar N.types N.vty k l) (h : checkMult nm N.vty k a.expr b.expr = some (some k')) :
    Sofar N.types N.vty k' ((a, b) :: l) := by
  have hu : ∀ j, j < 2 ^ 16 → j ≠ umax := fun j hj => by unfold umax W32; omega
  unfold checkMult at h
  by_cases hk : k = umax
  · rw [if_pos hk] at h
    have hz : ∀ q ∈ l, ∀ ρ x, tokens N.types N.vty ρ q.1.expr x = 0 ∧ tokens N.types N.vty ρ q.2.expr x = 0 := by
      rcases hl with hl | hl
      · exact hl.2
      · exact absurd hk (hu k hl.1)
    by_cases ht : arcText nm a.expr = arcText nm b.expr
    · rw [if_pos ht] at h
      simp only [Option.some.injEq] at h
      subst h
      refine Or.inr ⟨by decide, fun h => by omega, fun q hq ρ x => ?_⟩
      rcases List.mem_cons.1 hq with rfl | hq
      · rw [Nat.one_mul, hok.text hp ht]
      · rw [(hz q hq ρ x).1, (hz q hq ρ x).2, Nat.mul_zero]
    · rw [if_neg ht] at h
      cases ha : extract N.vty a.expr with
      | none => rw [ha] at h; cases h
      | some sa =>
        rw [ha] at h
        cases hb : extract N.vty b.expr with
        | none => rw [hb] at h; cases h
        | some sb =>
          rw [hb] at h
          cases sa with
          | none => cases h
          | some s =>
            cases sb with
            | none => cases h
            | some t =>
              obtain ⟨ty, hty⟩ := hok.ty
              have := multOf_ok (typed_extract hT _ _ hty ha) (by have := hok.bound.2; omega) h
                (fun ρ => extract_ok (T := N.types) ρ a.expr s hok.small.1 ha) (fun ρ => extract_ok (T := N.types) ρ b.expr t hok.small.2 hb)
              rcases this with ⟨h1, h2, h3⟩ | ⟨h1, h2, h3, h4⟩
              · refine Or.inl ⟨h1, fun q hq ρ x => ?_⟩
                rcases List.mem_cons.1 hq with rfl | hq
                · exact ⟨tokens_zero hok.small.1 ha h2 ρ x, tokens_zero hok.small.2 hb h3 ρ x⟩
                · exact hz q hq ρ x
              · refine Or.inr ⟨?_, fun h0 => ⟨(a, b), List.mem_cons_self, ?_⟩, fun q hq ρ x => ?_⟩
                · have := hok.bound.2
                  have : k' ≤ k' * a.expr.bound := Nat.le_mul_of_pos_right _ h3
                  omega
                · show b.expr.bound = 0
                  rw [h2, h0, Nat.zero_mul]
                · rcases List.mem_cons.1 hq with rfl | hq
                  · exact h4 ρ x
                  · rw [(hz q hq ρ x).1, (hz q hq ρ x).2, Nat.mul_zero]
  · rw [if_neg hk] at h
    have hz : k < 2 ^ 16 ∧ (k = 0 → ∃ q ∈ l, q.2.expr.bound = 0) ∧
        ∀ q ∈ l, ∀ ρ x, tokens N.types N.vty ρ q.2.expr x = k * tokens N.types N.vty ρ q.1.expr x := by
      rcases hl with hl | hl
      · exact absurd hl.1 hk
      · exact hl
    have fin : k' = k → (∀ ρ x, tokens N.types N.vty ρ b.expr x = k * tokens N.types N.vty ρ a.expr x) → Sofar N.types N.vty k' ((a, b) :: l) := by
      rintro rfl hx
      refine Or.inr ⟨hz.1, fun h0 => ?_, fun q hq ρ x => ?_⟩
      · obtain ⟨q, hq, e⟩ := hz.2.1 h0
        exact ⟨q, List.mem_cons_of_mem _ hq, e⟩
      · rcases List.mem_cons.1 hq with rfl | hq
        · exact hx ρ x
        · exact hz.2.2 q hq ρ x
    by_cases ht : k = 1 ∧ arcText nm a.expr = arcText nm b.expr
    · rw [if_pos ht] at h
      simp only [Option.some.injEq] at h
      exact fin h.symm fun ρ x => by rw [ht.1, Nat.one_mul, hok.text hp ht.2]
    · rw [if_neg ht] at h
      cases ha : extract N.vty a.expr with
      | none => rw [ha] at h; cases h
      | some sa =>
        rw [ha] at h
        cases hb : extract N.vty b.expr with
        | none => rw [hb] at h; cases h
        | some sb =>
          rw [hb] at h
          have h : (isMult k sa sb).map (fun r => if r then some k else none) = some (some k') := h
          cases sa with
          | none => simp [isMult] at h
          | some s =>
            cases sb with
            | none => simp [isMult] at h
            | some t =>
              cases hm : isMult k (some s) (some t) with
              | none => rw [hm] at h; cases h
              | some r =>
                rw [hm] at h
                cases r with
                | false => simp at h
                | true =>
                  simp only [Option.map_some, if_true, Option.some.injEq] at h
                  have hw : k * a.expr.bound < W32 := by
                    have h1 := hz.1
                    have h2 := hok.bound.1
                    have h3 : k * a.expr.bound ≤ 65535 * 65535 := Nat.mul_le_mul (by omega) (by omega)
                    unfold W32
                    omega
                  exact fin h.symm (isMult_ok hm hw (fun ρ => extract_ok (T := N.types) ρ a.expr s hok.small.1 ha)
                    (fun ρ => extract_ok (T := N.types) ρ b.expr t hok.small.2 hb)).2

theorem Sofar.perm {T : Types} {vty : Nat → Nat} {k : Nat} {l l' : List (CArc × CArc)} (h : Sofar T vty k l) (e : ∀ q, q ∈ l' ↔ q ∈ l) :
    Sofar T vty k l' := by
  rcases h with ⟨h1, h2⟩ | ⟨h1, h2, h3⟩
  · exact Or.inl ⟨h1, fun q hq => h2 q ((e q).1 hq)⟩
  · refine Or.inr ⟨h1, fun h0 => ?_, fun q hq => h3 q ((e q).1 hq)⟩
    obtain ⟨q, hq, hb⟩ := h2 h0
    exact ⟨q, (e q).2 hq, hb⟩

theorem arcsMult_ok {nm : Names} {N : CNet} (hT : NoEmptyProd N.types) {reach : Bool} {q : Uses} (l : List (CArc × CArc)) :
    ∀ (k k' : Nat) (done : List (CArc × CArc)), (∀ p ∈ l, ArcsOK nm N p.1 p.2) → Sofar N.types N.vty k done →
    arcsMult nm N.vty reach q l k = some (some k') → Sofar N.types N.vty k' (l ++ done) ∧ (∀ p ∈ l, p.1.place = p.2.place) ∧
      (k = 1 → k' = 1) := by
  induction l with
  | nil =>
    intro k k' done _ hd h
    rw [arcsMult] at h
    simp only [Option.some.injEq] at h
    subst h
    exact ⟨hd, (fun p hp => nomatch hp), id⟩
  | cons ab l ih =>
    intro k k' done hok hd h
    obtain ⟨a, b⟩ := ab
    rw [arcsMult] at h
    by_cases hp : a.place ≠ b.place
    · rw [if_pos hp] at h; simp at h
    · rw [if_neg hp] at h
      have hp : a.place = b.place := by simpa using hp
      by_cases hq : (!reach && q.place a.place) = true
      · rw [if_pos hq] at h; simp at h
      · rw [if_neg hq] at h
        cases hc : checkMult nm N.vty k a.expr b.expr with
        | none => rw [hc] at h; cases h
        | some r =>
          rw [hc] at h
          cases r with
          | none => simp at h
          | some j =>
            simp only at h
            have h1 := checkMult_ok hT (hok _ List.mem_cons_self) hp hd hc
            obtain ⟨h2, h3, h4⟩ := ih j k' ((a, b) :: done) (fun p hp => hok p (List.mem_cons_of_mem _ hp)) h1 h
            refine ⟨h2.perm fun q => by simp only [List.cons_append, List.mem_cons, List.mem_append]; tauto, fun p hm => ?_, fun hk => h4 ?_⟩
            · rcases List.mem_cons.1 hm with rfl | hm
              · exact hp
              · exact h3 p hm
            · subst hk
              unfold checkMult at hc
              rw [if_neg (by decide)] at hc
              split at hc
              · simp only [Option.some.injEq] at hc; exact hc.symm
              · split at hc
                · rename_i s t _ _
                  cases hm : isMult 1 s t with
                  | none => rw [hm] at hc; cases hc
                  | some r =>
                    rw [hm] at hc
                    cases r with
                    | false => simp at hc
                    | true => simp at hc; exact hc.symm
                · cases hc

theorem arcs_mult {N : CNet} {k : Nat} (as : List CArc) : ∀ (bs : List CArc), as.length = bs.length →
    (∀ q ∈ as.zip bs, q.1.place = q.2.place ∧ ∀ ρ x, tokens N.types N.vty ρ q.2.expr x = k * tokens N.types N.vty ρ q.1.expr x) →
    ∀ ρ p x, arcsTokens N ρ bs p x = k * arcsTokens N ρ as p x := by
  induction as with
  | nil =>
    intro bs hl _ ρ p x
    have : bs = [] := List.length_eq_zero_iff.1 hl.symm
    subst this
    simp [arcsTokens]
  | cons a as ih =>
    intro bs hl h ρ p x
    cases bs with
    | nil => cases hl
    | cons b bs =>
      rw [List.length_cons, List.length_cons] at hl
      have h1 := ih bs (by omega) (fun q hq => h q (by rw [List.zip_cons_cons]; exact List.mem_cons_of_mem _ hq)) ρ p x
      have h2 := h (a, b) (by rw [List.zip_cons_cons]; exact List.mem_cons_self)
      unfold arcsTokens at *
      simp only [List.map_cons, List.sum_cons]
      rw [h1, Nat.mul_add, ← h2.1]
      split
      · rw [h2.2]
      · rw [Nat.mul_zero]

/-- The second transition does what the first does, `k` times. -/
structure Par (N : CNet) (t1 t2 k : Nat) : Prop where
  ins : ∀ ρ p x, arcsTokens N ρ (N.trans t2).inputs p x = k * arcsTokens N ρ (N.trans t1).inputs p x
  outs : ∀ ρ p x, arcsTokens N ρ (N.trans t2).outputs p x = k * arcsTokens N ρ (N.trans t1).outputs p x
  guard : ∀ ρ, guardHolds N.types N.vty ρ (N.trans t2).guard ↔ guardHolds N.types N.vty ρ (N.trans t1).guard
  free : ∀ h ∈ N.inhibitors, h.trans ≠ t1

theorem inhibited_free {R : Red} {t : Nat} (h : R.inhibited t = 0) : ∀ i ∈ R.net.inhibitors, i.trans ≠ t := by
  intro i hm he
  unfold Red.inhibited at h
  have hx : i ∈ R.net.inhibitors.filter fun h => h.trans == t := List.mem_filter.2 ⟨hm, by simp [he]⟩
  rw [List.length_eq_zero_iff.1 h] at hx
  cases hx

theorem parPair_ok {nm : Names} {R : Red} (hn : Tidy nm R.net) {q : Uses} {f : Flags} {t1 t2 : Nat}
    (h1 : t1 < R.net.transitions.length) (h2 : t2 < R.net.transitions.length) (h : R.parPair nm q f t1 t2 = some true) :
    q.trans t2 = false ∧ ∃ k, Par R.net t1 t2 k ∧ (f.stutter = true ∨ f.ctl = true → k = 1) ∧
      (k = 0 → ∃ a ∈ (R.net.trans t2).inputs ++ (R.net.trans t2).outputs, a.expr.bound = 0) := by
  have m1 := trans_mem h1
  have m2 := trans_mem h2
  unfold Red.parPair at h
  by_cases c1 : q.trans t2 = true
  · rw [if_pos c1] at h; simp at h
  rw [if_neg c1] at h
  by_cases c2 : (R.net.trans t1).outputs.length ≠ (R.net.trans t2).outputs.length
  · rw [if_pos c2] at h; simp at h
  rw [if_neg c2] at h
  by_cases c3 : (R.net.trans t1).inputs.length ≠ (R.net.trans t2).inputs.length
  · rw [if_pos c3] at h; simp at h
  rw [if_neg c3] at h
  by_cases c4 : (!guardSame nm (R.net.trans t1).guard (R.net.trans t2).guard) = true
  · rw [if_pos c4] at h; simp at h
  rw [if_neg c4] at h
  by_cases c5 : R.inhibited t1 > 0
  · rw [if_pos c5] at h; simp at h
  rw [if_neg c5] at h
  have c2 : (R.net.trans t1).outputs.length = (R.net.trans t2).outputs.length := by simpa using c2
  have c3 : (R.net.trans t1).inputs.length = (R.net.trans t2).inputs.length := by simpa using c3
  have hok : ∀ a ∈ (R.net.trans t1).inputs ++ (R.net.trans t1).outputs, ∀ b ∈ (R.net.trans t2).inputs ++ (R.net.trans t2).outputs,
      ArcsOK nm R.net a b := fun a ha b hb =>
    ⟨⟨(hn.wf.arcs _ m1 a ha).2.2.1, (hn.wf.arcs _ m2 b hb).2.2.1⟩, ⟨hn.small _ m1 a ha, hn.small _ m2 b hb⟩,
      ⟨_, (hn.wf.arcs _ m1 a ha).2.1⟩, hn.texts _ m1 _ m2 a ha b hb⟩
  cases ho : arcsMult nm R.net.vty f.reach q ((R.net.trans t1).outputs.zip (R.net.trans t2).outputs).reverse umax with
  | none => rw [ho] at h; cases h
  | some r =>
    rw [ho] at h
    cases r with
    | none => simp at h
    | some ko =>
      simp only at h
      by_cases c6 : ko ≠ 1 ∧ (f.stutter = true ∨ f.ctl = true)
      · rw [if_pos c6] at h; simp at h
      rw [if_neg c6] at h
      cases hi : arcsMult nm R.net.vty f.reach q ((R.net.trans t1).inputs.zip (R.net.trans t2).inputs).reverse ko with
      | none => rw [hi] at h; cases h
      | some r =>
        rw [hi] at h
        cases r with
        | none => simp at h
        | some ki =>
          obtain ⟨o1, o2, _⟩ := arcsMult_ok hn.prods _ _ _ [] (fun p hp => by
            have := List.mem_reverse.1 hp
            exact hok _ (List.mem_append_right _ (List.of_mem_zip this).1) _ (List.mem_append_right _ (List.of_mem_zip this).2))
            (Or.inl ⟨rfl, (fun q hq => nomatch hq)⟩) ho
          obtain ⟨i1, i2, i3⟩ := arcsMult_ok hn.prods _ _ _ _ (fun p hp => by
            have := List.mem_reverse.1 hp
            exact hok _ (List.mem_append_left _ (List.of_mem_zip this).1) _ (List.mem_append_left _ (List.of_mem_zip this).2))
            o1 hi
          have hg : ∀ ρ, guardHolds R.net.types R.net.vty ρ (R.net.trans t2).guard ↔ guardHolds R.net.types R.net.vty ρ (R.net.trans t1).guard := by
            intro ρ
            have c4 : guardSame nm (R.net.trans t1).guard (R.net.trans t2).guard = true := by simpa using c4
            cases e1 : (R.net.trans t1).guard with
            | none =>
              cases e2 : (R.net.trans t2).guard with
              | none => exact Iff.rfl
              | some g => rw [e1, e2] at c4; cases c4
            | some g =>
              cases e2 : (R.net.trans t2).guard with
              | none => rw [e1, e2] at c4; cases c4
              | some g' =>
                rw [e1, e2] at c4
                exact (hn.guards _ m1 _ m2 g (by rw [e1]; rfl) g' (by rw [e2]; rfl) (of_decide_eq_true c4) ρ).symm
          have build : ∀ k, (∀ p ∈ ((R.net.trans t1).inputs.zip (R.net.trans t2).inputs).reverse ++
              (((R.net.trans t1).outputs.zip (R.net.trans t2).outputs).reverse ++ []), ∀ ρ x,
              tokens R.net.types R.net.vty ρ p.2.expr x = k * tokens R.net.types R.net.vty ρ p.1.expr x) → Par R.net t1 t2 k := by
            intro k hk
            refine ⟨?_, ?_, hg, inhibited_free (by omega)⟩
            · refine arcs_mult _ _ c3 fun p hp => ⟨i2 p (List.mem_reverse.2 hp), hk p ?_⟩
              exact List.mem_append_left _ (List.mem_reverse.2 hp)
            · refine arcs_mult _ _ c2 fun p hp => ⟨o2 p (List.mem_reverse.2 hp), hk p ?_⟩
              exact List.mem_append_right _ (List.mem_append_left _ (List.mem_reverse.2 hp))
          refine ⟨by simpa using c1, ?_⟩
          rcases i1 with ⟨hk, hz⟩ | ⟨hk, h0, hz⟩
          · refine ⟨1, build 1 fun p hp ρ x => by rw [(hz p hp ρ x).1, (hz p hp ρ x).2], fun _ => rfl, fun h => by omega⟩
          · refine ⟨ki, build ki hz, fun hc => i3 ?_, fun hk0 => ?_⟩
            · by_contra hne
              exact c6 ⟨hne, hc⟩
            · obtain ⟨p, hp, hb⟩ := h0 hk0
              refine ⟨p.2, ?_, hb⟩
              rcases List.mem_append.1 hp with hp | hp
              · exact List.mem_append_left _ (List.of_mem_zip (List.mem_reverse.1 hp)).2
              · rcases List.mem_append.1 hp with hp | hp
                · exact List.mem_append_right _ (List.of_mem_zip (List.mem_reverse.1 hp)).2
                · cases hp

/-! ### Leaving out a transition whose work another one does -/

/-- some firing leads from the first marking to the second -/
def Red.Moves (R : Red) (M L : CMark) : Prop := ∃ t ρ, R.Step M t ρ L

/-- The nets reach the same markings, in which the transitions that are left can fire or not as before. -/
structure Alike (R R' : Red) : Prop where
  types : R'.net.types = R.net.types
  tys : ∀ p, (R'.net.place p).ty = (R.net.place p).ty
  skP : R'.skP = R.skP
  skT : ∀ t ∈ R.skT, t ∈ R'.skT
  reach : ∀ M, R.Reach M ↔ R'.Reach M
  fire : ∀ M t, t ∉ R'.skT → (R'.CanFire M t ↔ R.CanFire M t)

theorem Alike.refl (R : Red) : Alike R R := ⟨rfl, fun _ => rfl, rfl, fun _ h => h, fun _ => Iff.rfl, fun _ _ _ => Iff.rfl⟩

theorem Alike.trans {R R' R'' : Red} (h : Alike R R') (h' : Alike R' R'') : Alike R R'' where
  types := h'.types.trans h.types
  tys := fun p => (h'.tys p).trans (h.tys p)
  skP := h'.skP.trans h.skP
  skT := fun t ht => h'.skT t (h.skT t ht)
  reach := fun M => (h.reach M).trans (h'.reach M)
  fire := fun M t ht => (h'.fire M t ht).trans (h.fire M t fun hm => ht (h'.skT t hm))

/-- the nets have the same deadlocks -/
def SameDead (R R' : Red) : Prop := ∀ M, (∀ t, ¬R'.CanFire M t) ↔ ∀ t, ¬R.CanFire M t

theorem Alike.keeps {R R' : Red} (h : Alike R R') {φ : XQ} (ht : ∀ t ∈ qtrans φ, t ∈ R'.skT → t ∈ R.skT)
    (hd : qdead φ = true → SameDead R R') : Keeps R R' φ := by
  have key : ∀ M, R'.holds M φ ↔ R.holds M φ := fun M => by
    refine holds_congr' h.types h.tys φ (fun _ _ => rfl) (fun t hm => ?_) fun hq => hd hq M
    by_cases hs : t ∈ R'.skT
    · constructor
      · rintro ⟨ρ, L, hl⟩; exact absurd hs hl.1
      · rintro ⟨ρ, L, hl⟩; exact absurd (ht t hm hs) hl.1
    · exact h.fire M t hs
  constructor
  · rintro ⟨M, h1, h2⟩
    exact ⟨M, (h.reach M).1 h1, (key M).2 h2⟩
  · rintro ⟨M, h1, h2⟩
    exact ⟨M, (h.reach M).2 h1, (key M).1 h2⟩

/-- leaving out a transition whose firings the reduced net can imitate -/
theorem alike_skip {R : Red} {t : Nat} (h : ∀ M ρ L, R.Step M t ρ L → (R.skipTrans t).Reach M → (R.skipTrans t).Reach L) :
    Alike R (R.skipTrans t) where
  types := rfl
  tys := fun _ => rfl
  skP := rfl
  skT := fun _ h => List.mem_cons_of_mem _ h
  reach := by
    intro M
    constructor
    · intro hr
      induction hr with
      | init => exact .init
      | @step M L u ρ hr hs ih =>
        by_cases hu : u = t
        · subst hu; exact h M ρ L hs ih
        · exact ih.step ((step_skipTrans R t).2 ⟨hu, hs⟩)
    · intro hr
      induction hr with
      | init => exact .init
      | @step M L u ρ hr hs ih => exact ih.step ((step_skipTrans R t).1 hs).2
  fire := by
    intro M u hu
    have hne : u ≠ t := fun e => hu (by rw [e]; exact List.mem_cons_self)
    constructor
    · rintro ⟨ρ, L, hs⟩; exact ⟨ρ, L, ((step_skipTrans R t).1 hs).2⟩
    · rintro ⟨ρ, L, hs⟩; exact ⟨ρ, L, (step_skipTrans R t).2 ⟨hne, hs⟩⟩

theorem sameDead_skip {R : Red} {t : Nat} (h : ∀ M, R.CanFire M t → ∃ u, u ≠ t ∧ R.CanFire M u) : SameDead R (R.skipTrans t) := by
  intro M
  constructor
  · intro hd u hu
    have : ∃ u, u ≠ t ∧ R.CanFire M u := by
      by_cases e : u = t
      · exact h M (e ▸ hu)
      · exact ⟨u, e, hu⟩
    obtain ⟨v, hv, ρ, L, hs⟩ := this
    exact hd v ⟨ρ, L, (step_skipTrans R t).2 ⟨hv, hs⟩⟩
  · rintro hd u ⟨ρ, L, hs⟩
    exact hd u ⟨ρ, L, ((step_skipTrans R t).1 hs).2⟩

theorem moves_skip {R : Red} {t : Nat} (h : ∀ M ρ L, R.Step M t ρ L → ∃ u ρ', u ≠ t ∧ R.Step M u ρ' L) (M L : CMark) :
    (R.skipTrans t).Moves M L ↔ R.Moves M L := by
  constructor
  · rintro ⟨u, ρ, hs⟩; exact ⟨u, ρ, ((step_skipTrans R t).1 hs).2⟩
  · rintro ⟨u, ρ, hs⟩
    by_cases e : u = t
    · obtain ⟨v, ρ', hv, hs'⟩ := h M ρ L (e ▸ hs)
      exact ⟨v, ρ', (step_skipTrans R t).2 ⟨hv, hs'⟩⟩
    · exact ⟨u, ρ, (step_skipTrans R t).2 ⟨e, hs⟩⟩

/-- a legal binding of the second transition gives one of the first, with the same tokens of the second -/
theorem par_binding {R : Red} (w : R.net.WF) {t1 t2 k : Nat} (hp : Par R.net t1 t2 k) (h1 : t1 < R.net.transitions.length)
    {ρ : Nat → Val} (hl : R.net.Legal t2 ρ) : ∃ σ, R.net.Legal t1 σ ∧
      (∀ p x, arcsTokens R.net ρ (R.net.trans t2).inputs p x = k * arcsTokens R.net σ (R.net.trans t1).inputs p x) ∧
      ∀ p x, arcsTokens R.net ρ (R.net.trans t2).outputs p x = k * arcsTokens R.net σ (R.net.trans t1).outputs p x := by
  have hσ : ∀ v ∈ (R.net.trans t2).vars, fillIn R.net (R.net.trans t2).vars ρ v = ρ v := fun v hv => by
    unfold fillIn
    rw [if_pos hv]
  refine ⟨fillIn R.net (R.net.trans t2).vars ρ, ⟨fun v hv => fillIn_mem (w.vpos _ (trans_mem h1) v hv) fun h => hl.1 v h, ?_⟩, ?_, ?_⟩
  · rw [← hp.guard]
    exact (guardHolds_congr _ fun v hv => (hσ v (guardVars_sub _ v hv)).symm).1 hl.2
  · intro p x
    rw [← hp.ins]
    rw [arcsTokens_congr _ fun v hv => (hσ v (arcsVars_sub_in _ v hv)).symm]
  · intro p x
    rw [← hp.outs]
    rw [arcsTokens_congr _ fun v hv => (hσ v (arcsVars_sub_out _ v hv)).symm]

theorem par_reach {R : Red} (w : R.net.WF) {t1 t2 k : Nat} (hp : Par R.net t1 t2 k) (h1 : t1 < R.net.transitions.length)
    (hs1 : t1 ∉ R.skT) (hne : t1 ≠ t2) {M L : CMark} {ρ : Nat → Val} (h : R.Step M t2 ρ L) (hr : (R.skipTrans t2).Reach M) :
    (R.skipTrans t2).Reach L := by
  obtain ⟨_, _, hl, hen, rfl⟩ := h
  obtain ⟨σ, hσ, hi, ho⟩ := par_binding w hp h1 hl
  have key : ∀ j, j ≤ k → (R.skipTrans t2).Reach fun p x =>
      M p x - j * arcsTokens R.net σ (R.net.trans t1).inputs p x + j * arcsTokens R.net σ (R.net.trans t1).outputs p x := by
    intro j
    induction j with
    | zero => intro _; simpa using hr
    | succ j ih =>
      intro hj
      refine (ih (by omega)).step (t := t1) (ρ := σ) ((step_skipTrans R t2).2 ⟨hne, hs1, h1, hσ, ⟨?_, ?_⟩, ?_⟩)
      · intro p x
        have e1 := hen.1 p x
        rw [hi] at e1
        have e2 : (j + 1) * arcsTokens R.net σ (R.net.trans t1).inputs p x ≤ k * arcsTokens R.net σ (R.net.trans t1).inputs p x :=
          Nat.mul_le_mul_right _ hj
        rw [Nat.succ_mul] at e2
        dsimp only
        omega
      · intro i hm he
        exact absurd he (hp.free i hm)
      · funext p x
        unfold CNet.fire
        have e1 := hen.1 p x
        rw [hi] at e1
        have e2 : (j + 1) * arcsTokens R.net σ (R.net.trans t1).inputs p x ≤ k * arcsTokens R.net σ (R.net.trans t1).inputs p x :=
          Nat.mul_le_mul_right _ hj
        rw [Nat.succ_mul] at e2
        rw [Nat.succ_mul, Nat.succ_mul]
        dsimp only
        omega
  have := key k (Nat.le_refl _)
  have e : R.net.fire M t2 ρ = fun p x =>
      M p x - k * arcsTokens R.net σ (R.net.trans t1).inputs p x + k * arcsTokens R.net σ (R.net.trans t1).outputs p x := by
    funext p x
    unfold CNet.fire
    rw [hi, ho]
  rw [e]
  exact this

theorem par_fire {R : Red} (w : R.net.WF) {t1 t2 k : Nat} (hp : Par R.net t1 t2 k) (h1 : t1 < R.net.transitions.length)
    (hs1 : t1 ∉ R.skT) (hk : k ≠ 0) {M : CMark} (h : R.CanFire M t2) : R.CanFire M t1 := by
  obtain ⟨ρ, L, _, _, hl, hen, rfl⟩ := h
  obtain ⟨σ, hσ, hi, ho⟩ := par_binding w hp h1 hl
  refine ⟨σ, _, hs1, h1, hσ, ⟨fun p x => ?_, fun i hm he => absurd he (hp.free i hm)⟩, rfl⟩
  have e1 := hen.1 p x
  rw [hi] at e1
  exact Nat.le_trans (Nat.le_mul_of_pos_left _ (by omega)) e1

theorem par_move {R : Red} (w : R.net.WF) {t1 t2 : Nat} (hp : Par R.net t1 t2 1) (h1 : t1 < R.net.transitions.length)
    (hs1 : t1 ∉ R.skT) {M L : CMark} {ρ : Nat → Val} (h : R.Step M t2 ρ L) : ∃ σ, R.Step M t1 σ L := by
  obtain ⟨_, _, hl, hen, rfl⟩ := h
  obtain ⟨σ, hσ, hi, ho⟩ := par_binding w hp h1 hl
  simp only [Nat.one_mul] at hi ho
  refine ⟨σ, hs1, h1, hσ, ⟨fun p x => ?_, fun i hm he => absurd he (hp.free i hm)⟩, ?_⟩
  · rw [← hi]; exact hen.1 p x
  · funext p x
    unfold CNet.fire
    rw [hi, ho]

/-! ### Transitions without arcs -/

theorem empty_step {R : Red} {t : Nat} (hi : (R.net.trans t).inputs = []) (ho : (R.net.trans t).outputs = []) {M L : CMark} {ρ : Nat → Val}
    (h : R.Step M t ρ L) : L = M := by
  obtain ⟨_, _, _, _, rfl⟩ := h
  funext p x
  unfold CNet.fire
  rw [hi, ho]
  simp [arcsTokens]

/-- a transition that can always fire, and changes nothing -/
def Idle (R : Red) (t : Nat) : Prop := ∀ M, ∃ ρ, R.Step M t ρ M

theorem idle_of {R : Red} (w : R.net.WF) {t : Nat} (h : t < R.net.transitions.length) (hs : t ∉ R.skT) (hi : (R.net.trans t).inputs = [])
    (ho : (R.net.trans t).outputs = []) (hg : (R.net.trans t).guard = none) (hf : R.inhibited t = 0) : Idle R t := by
  intro M
  refine ⟨fillIn R.net [] fun _ => [], hs, h, ⟨fun v hv => fillIn_mem (w.vpos _ (trans_mem h) v hv) (fun h => nomatch h), ?_⟩,
    ⟨fun p x => ?_, fun i hm he => absurd he (inhibited_free hf i hm)⟩, ?_⟩
  · rw [hg]; trivial
  · rw [hi]; simp [arcsTokens]
  · funext p x
    unfold CNet.fire
    rw [hi, ho]
    simp [arcsTokens]

theorem Idle.skip {R : Red} {t u : Nat} (h : Idle R t) (hne : t ≠ u) : Idle (R.skipTrans u) t := fun M => by
  obtain ⟨ρ, hs⟩ := h M
  exact ⟨ρ, (step_skipTrans R u).2 ⟨hne, hs⟩⟩

/-- transitions that are left, without arcs, have no guard -/
def EmptyFree (R : Red) : Prop := ∀ t < R.net.transitions.length, t ∉ R.skT → (R.net.trans t).inputs = [] → (R.net.trans t).outputs = [] →
  (R.net.trans t).guard = none

theorem EmptyFree.skip {R : Red} (h : EmptyFree R) (u : Nat) : EmptyFree (R.skipTrans u) := by
  intro t ht hs hi ho
  have hne : t ≠ u := fun e => hs (by rw [e]; exact List.mem_cons_self)
  rw [trans_skipTrans, if_neg hne] at hi ho ⊢
  exact h t (by unfold Red.skipTrans at ht; simpa using ht) (fun hm => hs (List.mem_cons_of_mem _ hm)) hi ho

/-- what becomes of a net -/
structure Became (q : Uses) (P : Prop) (Q : Prop) (R R' : Red) : Prop where
  alike : Alike R R'
  dead : P → SameDead R R'
  moves : Q → ∀ M L, R'.Moves M L ↔ R.Moves M L
  asked : ∀ t ∈ R'.skT, t ∈ R.skT ∨ q.trans t = false

theorem Became.refl (q : Uses) (P Q : Prop) (R : Red) : Became q P Q R R :=
  ⟨.refl R, fun _ _ => Iff.rfl, fun _ _ _ => Iff.rfl, fun _ h => Or.inl h⟩

theorem Became.trans {q : Uses} {P Q : Prop} {R R' R'' : Red} (h : Became q P Q R R') (h' : Became q P Q R' R'') : Became q P Q R R'' where
  alike := h.alike.trans h'.alike
  dead := fun p M => (h'.dead p M).trans (h.dead p M)
  moves := fun p M L => (h'.moves p M L).trans (h.moves p M L)
  asked := fun t ht => by
    rcases h'.asked t ht with h1 | h1
    · exact h.asked t h1
    · exact Or.inr h1

theorem emptyLoop_ok {nm : Names} {q : Uses} {P : Prop} (ts : List Nat) : ∀ (has : Bool) (R : Red), (∀ t ∈ ts, t < R.net.transitions.length) →
    ts.Nodup → Tidy nm R.net → (P → EmptyFree R) → (P → has = true → ∃ t, t ∉ ts ∧ Idle R t) →
    Became q P P R (Red.emptyLoop q ts has R) ∧ Tidy nm (Red.emptyLoop q ts has R).net ∧ 
      (Red.emptyLoop q ts has R).net.transitions.length = R.net.transitions.length := by
  induction ts with
  | nil => intro has R _ _ hn _ _; exact ⟨.refl q P P R, hn, rfl⟩
  | cons t ts ih =>
    intro has R hlt hnd hn he hh
    rw [List.nodup_cons] at hnd
    have hlt' : ∀ u ∈ ts, u < R.net.transitions.length := fun u hu => hlt u (List.mem_cons_of_mem _ hu)
    have hsub : P → has = true → ∃ t, t ∉ ts ∧ Idle R t := fun p h => by
      obtain ⟨u, hu, hi⟩ := hh p h
      exact ⟨u, fun hm => hu (List.mem_cons_of_mem _ hm), hi⟩
    rw [Red.emptyLoop]
    by_cases hc : t ∉ R.skT ∧ (R.net.trans t).inputs.isEmpty ∧ (R.net.trans t).outputs.isEmpty ∧ (R.inhibited t = 0 ∨ has = true)
    · rw [if_pos hc]
      obtain ⟨c1, c2, c3, c4⟩ := hc
      have hi := List.isEmpty_iff.1 c2
      have ho := List.isEmpty_iff.1 c3
      by_cases hq : (has && !q.trans t) = true
      · rw [if_pos hq]
        rw [Bool.and_eq_true] at hq
        have hlen : (R.skipTrans t).net.transitions.length = R.net.transitions.length := by unfold Red.skipTrans; simp
        have b1 : Became q P P R (R.skipTrans t) := by
          refine ⟨alike_skip fun M ρ L hs hr => ?_, fun p => sameDead_skip fun M _ => ?_, fun p => moves_skip fun M ρ L hs => ?_, fun u hu => ?_⟩
          · rw [empty_step hi ho hs]; exact hr
          · obtain ⟨u, hu, hid⟩ := hh p hq.1
            obtain ⟨ρ, hs⟩ := hid M
            exact ⟨u, fun e => hu (by rw [e]; exact List.mem_cons_self), ρ, M, hs⟩
          · obtain ⟨u, hu, hid⟩ := hh p hq.1
            obtain ⟨ρ', hs'⟩ := hid M
            refine ⟨u, ρ', fun e => hu (by rw [e]; exact List.mem_cons_self), ?_⟩
            rw [empty_step hi ho hs]; exact hs'
          · rcases List.mem_cons.1 hu with rfl | hu
            · right; simpa using hq.2
            · exact Or.inl hu
        obtain ⟨b2, n2, l2⟩ := ih true (R.skipTrans t) (fun u hu => hlen.symm ▸ hlt' u hu) hnd.2 (hn.skipTrans t) (fun p => (he p).skip t) (fun p _ => by
          obtain ⟨u, hu, hid⟩ := hh p hq.1
          exact ⟨u, fun hm => hu (List.mem_cons_of_mem _ hm), hid.skip fun e => hu (by rw [e]; exact List.mem_cons_self)⟩)
        exact ⟨b1.trans b2, n2, l2.trans hlen⟩
      · rw [if_neg hq]
        refine ih true R hlt' hnd.2 hn he fun p _ => ?_
        by_cases hb : has = true
        · exact hsub p hb
        · have hf : R.inhibited t = 0 := by
            rcases c4 with h | h
            · exact h
            · exact absurd h hb
          exact ⟨t, hnd.1, idle_of hn.wf (hlt t List.mem_cons_self) c1 hi ho (he p t (hlt t List.mem_cons_self) c1 hi ho) hf⟩
    · rw [if_neg hc]
      exact ih has R hlt' hnd.2 hn he hsub

/-- all arcs carry tokens -/
def Pos (N : CNet) : Prop := ∀ t ∈ N.transitions, ∀ a ∈ t.inputs ++ t.outputs, a.expr.bound ≠ 0

theorem Pos.skip {R : Red} (h : Pos R.net) (t : Nat) : Pos (R.skipTrans t).net := by
  intro u hu a ha
  obtain ⟨y, hy, e | e⟩ := mem_modify hu
  · subst e; exact h u hy a ha
  · subst e; simp [bare] at ha

theorem parTrans_ok {nm : Names} {q : Uses} {f : Flags} (ps : List (Nat × Nat)) : ∀ (R R' : Red), Tidy nm R.net →
    Red.parTrans nm q f ps R = some R' → Became q (Pos R.net) (f.stutter = true ∨ f.ctl = true) R R' ∧ Tidy nm R'.net := by
  induction ps with
  | nil =>
    intro R R' hn h
    rw [Red.parTrans] at h
    injection h with h
    subst h
    exact ⟨.refl q _ _ R, hn⟩
  | cons tt ps ih =>
    obtain ⟨t1, t2⟩ := tt
    intro R R' hn h
    rw [Red.parTrans] at h
    by_cases hc : t1 = t2 ∨ t1 ∈ R.skT ∨ t2 ∈ R.skT ∨ ¬(∃ p ∈ List.range R.net.places.length, t1 ∈ R.post p ∧ t2 ∈ R.post p)
    · rw [if_pos hc] at h; exact ih R R' hn h
    · rw [if_neg hc] at h
      simp only [not_or, not_not] at hc
      obtain ⟨c1, c2, c3, p, _, c4, c5⟩ := hc
      have h1 := (mem_post.1 c4).1
      have h2 := (mem_post.1 c5).1
      cases hp : R.parPair nm q f t1 t2 with
      | none => rw [hp] at h; cases h
      | some r =>
        rw [hp] at h
        cases r with
        | false => exact ih R R' hn h
        | true =>
          obtain ⟨hq, k, hk, k1, k0⟩ := parPair_ok hn h1 h2 hp
          obtain ⟨b, n⟩ := ih (R.skipTrans t2) R' (hn.skipTrans t2) h
          refine ⟨Became.trans (R' := R.skipTrans t2) ⟨?_, ?_, ?_, ?_⟩ ⟨b.alike, fun hP => b.dead (hP.skip t2), b.moves, b.asked⟩, n⟩
          · exact alike_skip fun M ρ L hs hr => par_reach hn.wf hk h1 c2 c1 hs hr
          · intro hP
            refine sameDead_skip fun M hf => ⟨t1, c1, par_fire hn.wf hk h1 c2 (fun e => ?_) hf⟩
            obtain ⟨a, ha, hb⟩ := k0 e
            exact hP _ (trans_mem h2) a ha hb
          · intro hf
            obtain rfl := k1 hf
            refine moves_skip fun M ρ L hs => ?_
            obtain ⟨σ, hs'⟩ := par_move hn.wf hk h1 c2 hs
            exact ⟨t1, σ, c1, hs'⟩
          · intro u hu
            rcases List.mem_cons.1 hu with rfl | hu
            · exact Or.inr hq
            · exact Or.inl hu

theorem pos_emptyLoop {q : Uses} (ts : List Nat) : ∀ (has : Bool) (R : Red), Pos R.net → Pos (Red.emptyLoop q ts has R).net := by
  induction ts with
  | nil => intro has R h; exact h
  | cons t ts ih =>
    intro has R h
    rw [Red.emptyLoop]
    split
    · split
      · exact ih _ _ (h.skip t)
      · exact ih _ _ h
    · exact ih _ _ h

theorem applyParTrans_ok {nm : Names} {q : Uses} {f : Flags} {pairs : List (Nat × Nat)} {R R' : Red} (hn : Tidy nm R.net)
    (h : Red.applyParTrans nm q f pairs R = some R') :
    Became q ((f.loops = true ∨ f.stutter = true) ∧ EmptyFree R ∧ Pos R.net)
      ((f.stutter = true ∨ f.ctl = true ∧ f.loops = true) ∧ EmptyFree R) R R' := by
  unfold Red.applyParTrans at h
  obtain ⟨b1, n1, _⟩ := emptyLoop_ok (nm := nm) (q := q) (P := (f.loops = true ∨ f.stutter = true) ∧ EmptyFree R) (List.range R.net.transitions.length)
    (!f.loops && !f.stutter) R (fun t ht => List.mem_range.1 ht) List.nodup_range hn (fun p => p.2) (fun p hh => by
      simp at hh
      rcases p.1 with h | h
      · rw [h] at hh; simp at hh
      · rw [h] at hh; simp at hh)
  obtain ⟨b2, _⟩ := parTrans_ok pairs _ R' n1 h
  have e1 : Became q ((f.loops = true ∨ f.stutter = true) ∧ EmptyFree R ∧ Pos R.net)
      ((f.stutter = true ∨ f.ctl = true ∧ f.loops = true) ∧ EmptyFree R) R _ :=
    ⟨b1.alike, fun p => b1.dead ⟨p.1, p.2.1⟩, fun p => b1.moves ⟨by tauto, p.2⟩, b1.asked⟩
  refine e1.trans ⟨b2.alike, fun p => b2.dead (pos_emptyLoop _ _ _ p.2.2), fun p => b2.moves (by tauto), b2.asked⟩

end CRed
end Verif
