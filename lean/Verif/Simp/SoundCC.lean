import Verif.Simp.Sound2

/-!
# The simplifier: conjunctions of place constraints
-/

namespace Verif
namespace Simp
open PQL Coll

variable {T : TS} {I : Mark → Prop} {Ct : Mark → (Nat → Int) → Prop} {o : Oracle} {Fs : Pred} {r r' : Ret}
  {P Q : (Nat → Mark) → Prop} {st st' : Prop} {n : Nat} {π : List Nat}

/-- The bounds are `int`s (or absent). -/
def ExC (c : Cons) : Prop := c.lower < 2147483648 ∧ (c.upper < 2147483648 ∨ c.upper = umax)

theorem umax_val : umax = 4294967295 := rfl

theorem fits2_of {a b : Nat} {m1 m2 : Member} (h1 : m1.const = a) (h2 : m2.const = b) (ha : a < 2147483648)
    (hb : b < 2147483648) : fits2 m1 m2 = true := by
  simp only [fits2, fits, h1, h2, Bool.and_eq_true, decide_eq_true_eq]
  omega

theorem lit_const {k : Nat} (h : k < 2147483648) : (Member.lit k).const = k := by
  simp only [Member.lit]
  refine toI32_fits ?_
  simp only [fits, Bool.and_eq_true, decide_eq_true_eq]
  omega

theorem fits_nat {k : Nat} (h : k < 2147483648) : fits (k : Int) = true := by
  simp only [fits, Bool.and_eq_true, decide_eq_true_eq]; omega

/-- A bound: trivial verdicts are right, the programs cover. -/
theorem bound_spec {m1 m2 : Member} (hf : fits2 m1 m2 = true) :
    (∀ b, bound m1 m2 = .inl b → ∀ x : Nat → Int, (∀ i, 0 ≤ x i) → (b = true ↔ m1.at x ≤ m2.at x)) ∧
    (∀ l k, bound m1 m2 = .inr (l, k) → InvR Fs l ∧ InvR Fs k ∧
      ∀ x, (m1.at x ≤ m2.at x → Sat l x) ∧ (m2.at x < m1.at x → Sat k x)) := by
  have hf' := hf
  simp only [fits2, Bool.and_eq_true] at hf'
  unfold bound
  cases hg : Member.trivialLess false m1 m2 with
  | some b' =>
    refine ⟨fun b h x hx => ?_, fun l k h => (by cases h)⟩
    simp only [Sum.inl.injEq] at h
    subst h
    have := trivialLess_at hf'.1.1 hf'.1.2 hg hx
    simpa [lessP] using this
  | none =>
    refine ⟨fun b h => (by cases h), fun l k h => ?_⟩
    simp only [Sum.inr.injEq, Prod.mk.injEq] at h
    obtain ⟨rfl, rfl⟩ := h
    refine ⟨inv_mkSingle _ _ _, inv_mkSingle _ _ _, fun x => ?_⟩
    rw [single_sub hf, single_sub hf]
    simp only [OpT.holds]
    omega

/-- The program covers the states that violate the lower bound. -/
def LoOK (I : Mark → Prop) (Ct : Mark → (Nat → Int) → Prop) (Fs : Pred) (c : Cons) (s : List Coll) : Prop :=
  if c.lower = 0 then s = []
  else ∃ k, s = [k] ∧ InvR Fs k ∧ ∀ m x, I m → Ct m x → m c.place < c.lower → Sat k x

/-- The program covers the states that violate the upper bound. -/
def UpOK (I : Mark → Prop) (Ct : Mark → (Nat → Int) → Prop) (Fs : Pred) (c : Cons) (s : List Coll) : Prop :=
  if c.upper = umax then s = []
  else ∃ k, s = [k] ∧ InvR Fs k ∧ ∀ m x, I m → Ct m x → c.upper < m c.place → Sat k x

/-- the programs belong to the bounds of the constraints, in order -/
def AlF (I : Mark → Prop) (Ct : Mark → (Nat → Int) → Prop) (Fs : Pred) : List Cons → List Coll → Prop
  | [], ns => ns = []
  | c :: cs, ns => ∃ sl su ns', ns = sl ++ su ++ ns' ∧ LoOK I Ct Fs c sl ∧ UpOK I Ct Fs c su ∧ AlF I Ct Fs cs ns'

/-- the same for the reversed lists -/
def AlR (I : Mark → Prop) (Ct : Mark → (Nat → Int) → Prop) (Fs : Pred) : List Cons → List Coll → Prop
  | [], ns => ns = []
  | c :: cs, ns => ∃ sl su ns', ns = su ++ sl ++ ns' ∧ LoOK I Ct Fs c sl ∧ UpOK I Ct Fs c su ∧ AlR I Ct Fs cs ns'

theorem LoOK.rev {c : Cons} {s : List Coll} (h : LoOK I Ct Fs c s) : s.reverse = s := by
  unfold LoOK at h
  split at h
  · rw [h]; rfl
  · obtain ⟨k, rfl, _⟩ := h; rfl

theorem UpOK.rev {c : Cons} {s : List Coll} (h : UpOK I Ct Fs c s) : s.reverse = s := by
  unfold UpOK at h
  split at h
  · rw [h]; rfl
  · obtain ⟨k, rfl, _⟩ := h; rfl

theorem AlR_append {a a' : List Cons} {b b' : List Coll} (h : AlR I Ct Fs a b) (h' : AlR I Ct Fs a' b') :
    AlR I Ct Fs (a ++ a') (b ++ b') := by
  induction a generalizing b with
  | nil => rw [AlR] at h; subst h; exact h'
  | cons c a ih =>
    obtain ⟨sl, su, ns, rfl, h1, h2, h3⟩ := h
    exact ⟨sl, su, ns ++ b', by simp, h1, h2, ih h3⟩

theorem AlF_rev {ks : List Cons} {ns : List Coll} (h : AlF I Ct Fs ks ns) : AlR I Ct Fs ks.reverse ns.reverse := by
  induction ks generalizing ns with
  | nil => rw [AlF] at h; subst h; rfl
  | cons c ks ih =>
    obtain ⟨sl, su, ns', rfl, h1, h2, h3⟩ := h
    rw [List.reverse_cons]
    simp only [List.reverse_append, h1.rev, h2.rev]
    exact AlR_append (ih h3) ⟨sl, su, [], by simp, h1, h2, rfl⟩

/-- Programs of all bounds: all coherent, and a violated constraint is covered. -/
theorem AlR_cover {cs : List Cons} {ns : List Coll} (h : AlR I Ct Fs cs ns) :
    (∀ k ∈ ns, InvR Fs k) ∧
    ∀ m x, I m → Mark32 m → Ct m x → (∃ c ∈ cs, ¬ c.holds m) → ∃ k ∈ ns, Sat k x := by
  induction cs generalizing ns with
  | nil => rw [AlR] at h; subst h; simp
  | cons c cs ih =>
    obtain ⟨sl, su, ns', rfl, h1, h2, h3⟩ := h
    obtain ⟨i1, i2⟩ := ih h3
    refine ⟨fun k hk => ?_, fun m x hI hm hx => ?_⟩
    · simp only [List.mem_append] at hk
      rcases hk with (hk | hk) | hk
      · unfold UpOK at h2
        split at h2
        · rw [h2] at hk; cases hk
        · obtain ⟨q, rfl, hq, _⟩ := h2
          rw [List.mem_singleton] at hk; subst hk; exact hq
      · unfold LoOK at h1
        split at h1
        · rw [h1] at hk; cases hk
        · obtain ⟨q, rfl, hq, _⟩ := h1
          rw [List.mem_singleton] at hk; subst hk; exact hq
      · exact i1 k hk
    · rintro ⟨d, hd, hv⟩
      rcases List.mem_cons.1 hd with rfl | hd
      · simp only [Cons.holds, not_and_or, not_le] at hv
        have hmp := hm d.place
        rcases hv with hv | hv
        · unfold LoOK at h1
          rw [if_neg (by omega)] at h1
          obtain ⟨q, rfl, _, hq⟩ := h1
          exact ⟨q, by simp, hq m x hI hx hv⟩
        · unfold UpOK at h2
          rw [if_neg (by omega)] at h2
          obtain ⟨q, rfl, _, hq⟩ := h2
          exact ⟨q, by simp, hq m x hI hx hv⟩
      · obtain ⟨q, hq, hqx⟩ := i2 m x hI hm hx ⟨d, hd, hv⟩
        exact ⟨q, by simp [hq], hqx⟩

/-- The result of the scan. -/
structure ScanOK (I : Mark → Prop) (Ct : Mark → (Nat → Int) → Prop) (Fs : Pred) (cs ks : List Cons)
    (ls ns : List Coll) : Prop where
  al : AlF I Ct Fs ks ns
  inv : ∀ l ∈ ls, InvR Fs l
  ex : ∀ k ∈ ks, ExC k ∧ k.ok = true
  same : ∀ m, I m → ((∀ c ∈ cs, c.holds m) ↔ ∀ k ∈ ks, k.holds m)
  pos : ∀ m x, I m → Ct m x → (∀ c ∈ cs, c.holds m) → ∀ l ∈ ls, Sat l x
  nil : ls = [] → ks = []

/-- what one bound delivers: `p` is the bound -/
structure BoundOK (I : Mark → Prop) (Ct : Mark → (Nat → Int) → Prop) (Fs : Pred) (b : Bool ⊕ (Coll × Coll))
    (p : Mark → Prop) : Prop where
  bad : isBad b = true → ∀ m, I m → ¬ p m
  triv : isBad b = false → isInl b = true → ∀ m, I m → p m
  invL : ∀ l ∈ boundLps b, InvR Fs l
  pos : ∀ m x, I m → Ct m x → p m → ∀ l ∈ boundLps b, Sat l x
  one : isInl b = false → ∃ k, boundNeg b = [k] ∧ InvR Fs k ∧ (∀ m x, I m → Ct m x → ¬ p m → Sat k x) ∧
    boundLps b ≠ []
  none : isInl b = true → boundNeg b = []

theorem boundOK_of (hS : Setting T I Ct o Fs) {N : FlatNet} {m0 : Mark} (hCt : ∀ m x, Ct m x → Counts N m0 m x)
    {m1 m2 : Member} (hf : fits2 m1 m2 = true) {p : Mark → Prop}
    (hp : ∀ m x, Ct m x → (p m ↔ m1.at x ≤ m2.at x)) : BoundOK I Ct Fs (bound m1 m2) p := by
  obtain ⟨h1, h2⟩ := bound_spec (Fs := Fs) hf
  cases hb : bound m1 m2 with
  | inl b =>
    have key : ∀ m, I m → (b = true ↔ p m) := by
      intro m hm
      obtain ⟨x, hx⟩ := hS.ex m hm
      rw [hp m x hx]
      exact h1 b hb x (hCt m x hx).1
    refine ⟨fun h m hm => ?_, fun h _ m hm => ?_, by simp [boundLps], by simp [boundLps], fun h => ?_, fun _ => rfl⟩
    · rw [← key m hm]; simpa [isBad] using h
    · rw [← key m hm]; simpa [isBad] using h
    · simp [isInl] at h
  | inr q =>
    obtain ⟨l, k⟩ := q
    obtain ⟨i1, i2, i3⟩ := h2 l k hb
    refine ⟨fun h => ?_, fun _ h => ?_, ?_, ?_, fun _ => ⟨k, rfl, i2, ?_, by simp [boundLps]⟩, fun h => ?_⟩
    · simp [isBad] at h
    · simp [isInl] at h
    · simpa [boundLps] using i1
    · intro m x hm hx hpm
      simpa [boundLps] using (i3 x).1 ((hp m x hx).1 hpm)
    · intro m x hm hx hpm
      refine (i3 x).2 ?_
      rw [hp m x hx] at hpm
      omega
    · simp [isInl] at h

theorem boundOK_true {p : Mark → Prop} (h : ∀ m, I m → p m) : BoundOK I Ct Fs (.inl true) p :=
  ⟨fun h => (by simp [isBad] at h), fun _ _ => h, by simp [boundLps], by simp [boundLps],
    fun h => (by simp [isInl] at h), fun _ => rfl⟩

theorem ccScan_spec (hS : Setting T I Ct o Fs) {N : FlatNet} {m0 : Mark} (hCt : ∀ m x, Ct m x → Counts N m0 m x)
    {cs : List Cons} (hex : ∀ c ∈ cs, ExC c ∧ m0 c.place < 2147483648) :
    (ccScan N m0 cs = none → ∀ m, I m → ¬ ∀ c ∈ cs, c.holds m) ∧
    (∀ ks ls ns, ccScan N m0 cs = some (ks, ls, ns) → ScanOK I Ct Fs cs ks ls ns) := by
  induction cs with
  | nil =>
    refine ⟨fun h => (by simp [ccScan] at h), fun ks ls ns h => ?_⟩
    simp only [ccScan, Option.some.injEq, Prod.mk.injEq] at h
    obtain ⟨rfl, rfl, rfl⟩ := h
    exact ⟨rfl, by simp, by simp, by simp, by simp, by simp⟩
  | cons c cs ih =>
    obtain ⟨ih1, ih2⟩ := ih fun d hd => hex d (List.mem_cons_of_mem _ hd)
    obtain ⟨⟨hl, hu⟩, h0⟩ := hex c (List.mem_cons_self ..)
    have hat : ∀ m x, Ct m x → (memberForPlace N m0 c.place).at x = m c.place :=
      fun m x hx => memberForPlace_at (hCt m x hx) c.place
    have bl : BoundOK I Ct Fs (lowerBound N m0 c) fun m => c.lower ≤ m c.place := by
      unfold lowerBound
      split
      · exact boundOK_true fun m _ => by omega
      · refine boundOK_of hS hCt (fits2_of (lit_const hl) rfl hl h0) fun m x hx => ?_
        rw [lit_at (fits_nat hl), hat m x hx]
        omega
    have bu : BoundOK I Ct Fs (upperBound N m0 c) fun m => m c.place ≤ c.upper := by
      unfold upperBound
      split
      · rename_i he
        exact boundOK_true fun m hm => by rw [he]; exact hS.inv.m32 m hm _
      · have hu' : c.upper < 2147483648 := by omega
        refine boundOK_of hS hCt (fits2_of rfl (lit_const hu') h0 hu') fun m x hx => ?_
        rw [lit_at (fits_nat hu'), hat m x hx]
        omega
    have hcons : ∀ m, (∀ d ∈ c :: cs, d.holds m) ↔
        (c.lower ≤ m c.place ∧ m c.place ≤ c.upper) ∧ ∀ d ∈ cs, d.holds m := by
      intro m; simp [Cons.holds]
    have e0 : (isInl (lowerBound N m0 c) = false → c.lower ≠ 0) ∧ (isInl (upperBound N m0 c) = false → c.upper ≠ umax) := by
      constructor <;> intro h h' <;> simp [lowerBound, upperBound, h', isInl] at h
    rw [ccScan]
    revert bl bu e0
    generalize lowerBound N m0 c = lo
    generalize upperBound N m0 c = up
    intro bl bu e0
    simp only
    split
    · rename_i hbad
      refine ⟨fun _ m hm h => ?_, fun ks ls ns h => (by cases h)⟩
      rw [hcons] at h
      rw [Bool.or_eq_true] at hbad
      rcases hbad with hbad | hbad
      · exact bl.bad hbad m hm h.1.1
      · exact bu.bad hbad m hm h.1.2
    · rename_i hbad
      simp only [Bool.or_eq_true, not_or, Bool.not_eq_true] at hbad
      cases hrec : ccScan N m0 cs with
      | none =>
        refine ⟨fun _ m hm h => ?_, fun ks ls ns h => (by cases h)⟩
        rw [hcons] at h
        exact ih1 hrec m hm h.2
      | some q =>
        obtain ⟨ks', ls', ns'⟩ := q
        refine ⟨fun h => (by cases h), fun ks ls ns h => ?_⟩
        have hi := ih2 ks' ls' ns' hrec
        simp only [Option.some.injEq, Prod.mk.injEq] at h
        obtain ⟨rfl, rfl, rfl⟩ := h
        have hL : LoOK I Ct Fs ⟨c.place, if isInl lo = true then 0 else c.lower, if isInl up = true then umax else c.upper⟩
            (boundNeg lo) := by
          unfold LoOK
          by_cases hi : isInl lo = true
          · simp [hi, bl.none hi]
          · simp only [Bool.not_eq_true] at hi
            obtain ⟨k, k1, k2, k3, _⟩ := bl.one hi
            simp only [hi, Bool.false_eq_true, if_false]
            rw [if_neg (e0.1 hi)]
            exact ⟨k, k1, k2, fun m x hm hx h => k3 m x hm hx (by omega)⟩
        have hU : UpOK I Ct Fs ⟨c.place, if isInl lo = true then 0 else c.lower, if isInl up = true then umax else c.upper⟩
            (boundNeg up) := by
          unfold UpOK
          by_cases hi : isInl up = true
          · simp [hi, bu.none hi]
          · simp only [Bool.not_eq_true] at hi
            obtain ⟨k, k1, k2, k3, _⟩ := bu.one hi
            simp only [hi, Bool.false_eq_true, if_false]
            rw [if_neg (e0.2 hi)]
            exact ⟨k, k1, k2, fun m x hm hx h => k3 m x hm hx (by omega)⟩
        have hsame : ∀ m, I m → ((⟨c.place, if isInl lo = true then 0 else c.lower,
            if isInl up = true then umax else c.upper⟩ : Cons).holds m ↔ c.holds m) := by
          intro m hm
          have h32 := hS.inv.m32 m hm c.place
          simp only [Cons.holds]
          have a1 := fun h => bl.triv hbad.1 h m hm
          have a2 := fun h => bu.triv hbad.2 h m hm
          by_cases i1 : isInl lo = true <;> by_cases i2 : isInl up = true <;> simp only [i1, i2, if_true, Bool.false_eq_true, if_false] <;>
            simp only [i1, i2, true_implies] at a1 a2 <;> omega
        have hexc : ExC ⟨c.place, if isInl lo = true then 0 else c.lower, if isInl up = true then umax else c.upper⟩ := by
          refine ⟨?_, ?_⟩
          · simp only; split <;> omega
          · simp only; split
            · exact .inr rfl
            · exact hu
        revert hL hU hsame hexc
        generalize hc' : (⟨c.place, if isInl lo = true then 0 else c.lower,
            if isInl up = true then umax else c.upper⟩ : Cons) = c'
        intro hL hU hsame hexc
        have hnil : c'.trivial = false → boundLps lo ++ boundLps up ≠ [] := by
          intro ht hnil
          rw [List.append_eq_nil_iff] at hnil
          have i1 : isInl lo = true := by
            cases hi : isInl lo with
            | true => rfl
            | false => obtain ⟨_, _, _, _, hne⟩ := bl.one hi; exact absurd hnil.1 hne
          have i2 : isInl up = true := by
            cases hi : isInl up with
            | true => rfl
            | false => obtain ⟨_, _, _, _, hne⟩ := bu.one hi; exact absurd hnil.2 hne
          rw [← hc'] at ht
          simp [Cons.trivial, i1, i2] at ht
        refine ⟨?_, ?_, ?_, ?_, ?_, ?_⟩
        · by_cases ht : c'.trivial = true
          · rw [if_pos ht]
            rw [Cons.trivial_iff] at ht
            unfold LoOK at hL; unfold UpOK at hU
            rw [if_pos ht.1] at hL; rw [if_pos ht.2] at hU
            rw [hL, hU]
            exact hi.al
          · rw [if_neg ht]
            exact ⟨_, _, _, rfl, hL, hU, hi.al⟩
        · intro l hl
          simp only [List.mem_append] at hl
          rcases hl with (hl | hl) | hl
          · exact bl.invL l hl
          · exact bu.invL l hl
          · exact hi.inv l hl
        · intro k hk
          split at hk
          · exact hi.ex k hk
          · rename_i ht
            rcases List.mem_cons.1 hk with rfl | hk
            · refine ⟨hexc, ?_⟩
              rw [Cons.ok_iff]
              rw [Cons.trivial_iff] at ht
              exact ⟨by have := hexc.1; rw [umax_val]; omega, by
                rcases hexc.2 with h | h
                · rw [umax_val]; omega
                · omega, ht⟩
            · exact hi.ex k hk
        · intro m hm
          rw [hcons]
          have hs := hsame m hm
          have hh : (c.lower ≤ m c.place ∧ m c.place ≤ c.upper) ↔ c.holds m := Iff.rfl
          rw [hh, ← hs, hi.same m hm]
          split
          · rename_i ht
            simp [Cons.holds_trivial (hS.inv.m32 m hm) ht]
          · simp
        · intro m x hm hx h l hl
          rw [hcons] at h
          simp only [List.mem_append] at hl
          rcases hl with (hl | hl) | hl
          · exact bl.pos m x hm hx h.1.1 l hl
          · exact bu.pos m x hm hx h.1.2 l hl
          · exact hi.pos m x hm hx h.2 l hl
        · intro hn
          rw [List.append_eq_nil_iff] at hn
          split
          · exact hi.nil hn.2
          · rename_i ht
            exact absurd hn.1 (hnil (by simpa using ht))

/-! ### Removing bounds that cannot be violated -/

theorem trimBound_spec (hS : Setting T I Ct o Fs) {k : Coll} {ns : List Coll} (hk : InvR Fs k) {b : Bool}
    {ns1 kept : List Coll} (h : trimBound o n π (k :: ns) = some (b, ns1, kept)) :
    ns1 = ns ∧ (b = true → kept = [] ∧ ∀ x, Fs x → ¬ Sat k x) ∧
    (b = false → ∃ k', kept = [k'] ∧ InvR Fs k' ∧ ∀ x, Fs x → Sat k x → Sat k' x) := by
  rw [trimBound] at h
  cases hs : satC o n π k with
  | none => rw [hs] at h; simp at h
  | some q =>
    obtain ⟨s, k'⟩ := q
    rw [hs] at h
    have hso := satC_spec hS.sound n hk hs
    cases s with
    | false =>
      simp only [Option.some.injEq, Prod.mk.injEq] at h
      obtain ⟨rfl, rfl, rfl⟩ := h
      exact ⟨rfl, fun _ => ⟨rfl, hso.no rfl⟩, fun h => (by cases h)⟩
    | true =>
      simp only [Option.some.injEq, Prod.mk.injEq] at h
      obtain ⟨rfl, rfl, rfl⟩ := h
      exact ⟨rfl, fun h => (by cases h), fun _ => ⟨k', rfl, hso.inv, hso.keep⟩⟩

/-- what is kept of one bound -/
structure KeptOK (I : Mark → Prop) (Ct : Mark → (Nat → Int) → Prop) (Fs : Pred) (b : Bool) (kept : List Coll)
    (absent : Prop) (p : Mark → Prop) : Prop where
  gone : b = true → ∀ m, I m → p m
  inv : ∀ k ∈ kept, InvR Fs k
  cover : b = false → ¬ absent → ∀ m x, I m → Ct m x → ¬ p m → ∃ k ∈ kept, Sat k x

theorem trimUp (hS : Setting T I Ct o Fs) {c : Cons} {su rest : List Coll} (h : UpOK I Ct Fs c su) {b : Bool}
    {ns1 kept : List Coll}
    (ht : (if c.upper = umax then some (false, su ++ rest, []) else trimBound o n π (su ++ rest)) = some (b, ns1, kept)) :
    ns1 = rest ∧ KeptOK I Ct Fs b kept (c.upper = umax) fun m => m c.place ≤ c.upper := by
  unfold UpOK at h
  split at h
  · rename_i he
    rw [if_pos he] at ht
    subst h
    simp only [Option.some.injEq, Prod.mk.injEq] at ht
    obtain ⟨rfl, rfl, rfl⟩ := ht
    exact ⟨rfl, fun h => (by cases h), by simp, fun _ h => absurd he h⟩
  · rename_i he
    rw [if_neg he] at ht
    obtain ⟨k, rfl, k1, k2⟩ := h
    obtain ⟨h1, h2, h3⟩ := trimBound_spec hS k1 ht
    refine ⟨h1, fun hb m hm => ?_, fun q hq => ?_, fun hb _ m x hm hx hp => ?_⟩
    · obtain ⟨x, hx⟩ := hS.ex m hm
      by_cases hp : m c.place ≤ c.upper
      · exact hp
      · exact absurd (k2 m x hm hx (by omega)) ((h2 hb).2 x (hS.fs _ _ hx))
    · cases b with
      | true => rw [(h2 rfl).1] at hq; cases hq
      | false =>
        obtain ⟨k', rfl, i1, _⟩ := h3 rfl
        rw [List.mem_singleton] at hq; subst hq; exact i1
    · obtain ⟨k', rfl, _, i2⟩ := h3 hb
      exact ⟨k', by simp, i2 x (hS.fs _ _ hx) (k2 m x hm hx (by omega))⟩

theorem trimLo (hS : Setting T I Ct o Fs) {c : Cons} {sl rest : List Coll} (h : LoOK I Ct Fs c sl) {b : Bool}
    {ns1 kept : List Coll}
    (ht : (if c.lower = 0 then some (false, sl ++ rest, []) else trimBound o n π (sl ++ rest)) = some (b, ns1, kept)) :
    ns1 = rest ∧ KeptOK I Ct Fs b kept (c.lower = 0) fun m => c.lower ≤ m c.place := by
  unfold LoOK at h
  split at h
  · rename_i he
    rw [if_pos he] at ht
    subst h
    simp only [Option.some.injEq, Prod.mk.injEq] at ht
    obtain ⟨rfl, rfl, rfl⟩ := ht
    exact ⟨rfl, fun h => (by cases h), by simp, fun _ h => absurd he h⟩
  · rename_i he
    rw [if_neg he] at ht
    obtain ⟨k, rfl, k1, k2⟩ := h
    obtain ⟨h1, h2, h3⟩ := trimBound_spec hS k1 ht
    refine ⟨h1, fun hb m hm => ?_, fun q hq => ?_, fun hb _ m x hm hx hp => ?_⟩
    · obtain ⟨x, hx⟩ := hS.ex m hm
      by_cases hp : c.lower ≤ m c.place
      · exact hp
      · exact absurd (k2 m x hm hx (by omega)) ((h2 hb).2 x (hS.fs _ _ hx))
    · cases b with
      | true => rw [(h2 rfl).1] at hq; cases hq
      | false =>
        obtain ⟨k', rfl, i1, _⟩ := h3 rfl
        rw [List.mem_singleton] at hq; subst hq; exact i1
    · obtain ⟨k', rfl, _, i2⟩ := h3 hb
      exact ⟨k', by simp, i2 x (hS.fs _ _ hx) (k2 m x hm hx (by omega))⟩

/-- what has been kept so far -/
structure TrimOK (I : Mark → Prop) (Ct : Mark → (Nat → Int) → Prop) (Fs : Pred) (cs kc : List Cons)
    (kn : List Coll) : Prop where
  ex : ∀ k ∈ kc, ExC k ∧ k.ok = true
  inv : ∀ k ∈ kn, InvR Fs k
  same : ∀ m, I m → ((∀ k ∈ kc, k.holds m) ↔ ∀ c ∈ cs, c.holds m)
  cover : ∀ m x, I m → Ct m x → (∃ k ∈ kc, ¬ k.holds m) → ∃ k ∈ kn, Sat k x

theorem ccTrim_spec (hS : Setting T I Ct o Fs) {cs done kc kc' : List Cons} {ns kn kn' : List Coll}
    (hex : ∀ c ∈ cs, ExC c ∧ c.ok = true) (hal : AlR I Ct Fs cs ns) (hk : TrimOK I Ct Fs done kc kn)
    (h : ccTrim o n π cs ns kc kn = some (kc', kn')) : TrimOK I Ct Fs (cs ++ done) kc' kn' := by
  induction cs generalizing ns kc kn done with
  | nil =>
    rw [AlR] at hal
    subst hal
    simp only [ccTrim, List.reverse_nil, List.nil_append, Option.some.injEq, Prod.mk.injEq] at h
    obtain ⟨rfl, rfl⟩ := h
    exact hk
  | cons c cs ih =>
    have hal' := hal
    obtain ⟨sl, su, ns', rfl, h1, h2, h3⟩ := hal
    rw [ccTrim] at h
    split at h
    · simp only [Option.some.injEq, Prod.mk.injEq] at h
      obtain ⟨rfl, rfl⟩ := h
      obtain ⟨a1, a2⟩ := AlR_cover hal'
      refine ⟨fun k hkm => ?_, fun k hkm => ?_, fun m hm => ?_, fun m x hm hx => ?_⟩
      · simp only [List.mem_append, List.mem_reverse, List.mem_cons] at hkm
        rcases hkm with hkm | rfl | hkm
        · exact hex k (List.mem_cons_of_mem _ hkm)
        · exact hex k (List.mem_cons_self ..)
        · exact hk.ex k hkm
      · rw [List.mem_append, List.mem_reverse] at hkm
        rcases hkm with hkm | hkm
        · exact a1 k hkm
        · exact hk.inv k hkm
      · have := hk.same m hm
        simp only [List.mem_append, List.mem_reverse, List.mem_cons] 
        constructor
        · intro hh d hd
          rcases hd with (rfl | hd) | hd
          · exact hh d (.inr (.inl rfl))
          · exact hh d (.inl hd)
          · exact this.1 (fun k hk => hh k (.inr (.inr hk))) d hd
        · intro hh k hkm
          rcases hkm with hkm | rfl | hkm
          · exact hh k (.inl (.inr hkm))
          · exact hh k (.inl (.inl rfl))
          · exact this.2 (fun d hd => hh d (.inr hd)) k hkm
      · rintro ⟨k, hkm, hv⟩
        simp only [List.mem_append, List.mem_reverse, List.mem_cons] at hkm
        have : (k ∈ c :: cs) ∨ k ∈ kc := by rw [List.mem_cons]; tauto
        rcases this with hkm | hkm
        · obtain ⟨q, hq, hqx⟩ := a2 m x hm (hS.inv.m32 m hm) hx ⟨k, hkm, hv⟩
          exact ⟨q, List.mem_append_left _ (List.mem_reverse.2 hq), hqx⟩
        · obtain ⟨q, hq, hqx⟩ := hk.cover m x hm hx ⟨k, hkm, hv⟩
          exact ⟨q, List.mem_append_right _ hq, hqx⟩
    · rw [List.append_assoc] at h
      generalize hg1 : (if c.upper = umax then some (false, su ++ (sl ++ ns'), [])
        else trimBound o n (cs.length :: 1 :: π) (su ++ (sl ++ ns'))) = g1 at h
      cases g1 with
      | none => simp at h
      | some q =>
      obtain ⟨ru, ns1, k1⟩ := q
      obtain ⟨rfl, u⟩ := trimUp hS h2 hg1
      simp only at h
      generalize hg2 : (if c.lower = 0 then some (false, sl ++ ns', [])
        else trimBound o n (cs.length :: 2 :: π) (sl ++ ns')) = g2 at h
      cases g2 with
      | none => simp at h
      | some q =>
      obtain ⟨rl, ns2, k2⟩ := q
      obtain ⟨rfl, l⟩ := trimLo hS h1 hg2
      simp only at h
      have hexc := (hex c (List.mem_cons_self ..)).1
      have hsame : ∀ m, I m → ((⟨c.place, if rl = true then 0 else c.lower,
          if ru = true then umax else c.upper⟩ : Cons).holds m ↔ c.holds m) := by
        intro m hm
        have h32 := hS.inv.m32 m hm c.place
        have a1 := fun h => l.gone h m hm
        have a2 := fun h => u.gone h m hm
        simp only [Cons.holds]
        cases rl <;> cases ru <;> simp only [if_true, Bool.false_eq_true, if_false, true_implies] at * <;> omega
      have hexc' : ExC ⟨c.place, if rl = true then 0 else c.lower, if ru = true then umax else c.upper⟩ := by
        refine ⟨?_, ?_⟩
        · simp only; split
          · omega
          · exact hexc.1
        · simp only; split
          · exact .inr rfl
          · exact hexc.2
      have hcov : ∀ m x, I m → Ct m x → ¬ (⟨c.place, if rl = true then 0 else c.lower,
          if ru = true then umax else c.upper⟩ : Cons).holds m → ∃ k ∈ k2 ++ k1, Sat k x := by
        intro m x hm hx hv
        have h32 := hS.inv.m32 m hm c.place
        have b1 := l.gone
        have b2 := u.gone
        simp only [Cons.holds, not_and_or] at hv
        rcases hv with hv | hv
        · cases rl with
          | true => simp at hv
          | false =>
            simp only [Bool.false_eq_true, if_false] at hv
            obtain ⟨k, q1, q2⟩ := l.cover rfl (by omega) m x hm hx hv
            exact ⟨k, List.mem_append_left _ q1, q2⟩
        · cases ru with
          | true => simp only [if_true] at hv; omega
          | false =>
            simp only [Bool.false_eq_true, if_false] at hv
            obtain ⟨k, q1, q2⟩ := u.cover rfl (by omega) m x hm hx hv
            exact ⟨k, List.mem_append_right _ q1, q2⟩
      revert hsame hexc' hcov h
      generalize (⟨c.place, if rl = true then 0 else c.lower, if ru = true then umax else c.upper⟩ : Cons) = c'
      intro h hsame hexc' hcov
      have := ih (done := c :: done) (fun d hd => hex d (List.mem_cons_of_mem _ hd)) h3 ?_ h
      · refine ⟨this.ex, this.inv, fun m hm => ?_, this.cover⟩
        rw [this.same m hm]
        simp only [List.mem_append, List.mem_cons]
        constructor <;> intro hh d hd <;> exact hh d (by tauto)
      · refine ⟨fun k hkm => ?_, fun k hkm => ?_, fun m hm => ?_, fun m x hm hx => ?_⟩
        · split at hkm
          · exact hk.ex k hkm
          · rename_i ht
            rcases List.mem_cons.1 hkm with rfl | hkm
            · refine ⟨hexc', ?_⟩
              rw [Cons.ok_iff]
              rw [Cons.trivial_iff] at ht
              exact ⟨by have := hexc'.1; rw [umax_val]; omega, by
                rcases hexc'.2 with h | h
                · rw [umax_val]; omega
                · omega, ht⟩
            · exact hk.ex k hkm
        · simp only [List.mem_append] at hkm
          rcases hkm with (hkm | hkm) | hkm
          · exact l.inv k hkm
          · exact u.inv k hkm
          · exact hk.inv k hkm
        · have h1 := hk.same m hm
          have h2 := hsame m hm
          simp only [List.mem_cons, forall_eq_or_imp]
          rw [← h1, ← h2]
          split
          · rename_i ht
            simp [Cons.holds_trivial (hS.inv.m32 m hm) ht]
          · simp
        · rintro ⟨k, hkm, hv⟩
          have hor : k = c' ∨ k ∈ kc := by
            split at hkm
            · exact .inr hkm
            · exact List.mem_cons.1 hkm
          rcases hor with rfl | hkm
          · obtain ⟨q, hq, hqx⟩ := hcov m x hm hx hv
            exact ⟨q, List.mem_append_left _ hq, hqx⟩
          · obtain ⟨q, hq, hqx⟩ := hk.cover m x hm hx ⟨k, hkm, hv⟩
            exact ⟨q, List.mem_append_right _ hq, hqx⟩

/-! ### The formula -/

theorem litExpr_val {v : Nat} (h : v < 2147483648) : litExpr v = .lit v := by
  rw [litExpr, toI32_fits (fits_nat h)]

theorem ccOut_spec {ks : List Cons} (neg : Bool) (hex : ∀ k ∈ ks, ExC k ∧ k.ok = true) :
    (ccOut ks neg).wf = true ∧ (ccOut ks neg).isState = true ∧
    ∀ π : Nat → Mark, Mark32 (π 0) → ((ccOut ks neg).sat T π ↔ ccHolds (π 0) ks neg) := by
  unfold ccOut
  split
  · rename_i c
    obtain ⟨⟨hl, hu⟩, hok⟩ := hex c (List.mem_singleton_self c)
    rw [Cons.ok_iff] at hok
    rw [umax_val] at *
    simp only
    have cc1 : ∀ m : Mark, ccHolds m [c] neg ↔ xneg neg (c.lower ≤ m c.place ∧ m c.place ≤ c.upper) := by
      intro m
      cases neg <;> simp [ccHolds, xneg, Cons.holds]
    simp only [cc1]
    have l1 := litExpr_val hl
    split
    · rename_i he
      have l2 : litExpr c.upper = .lit c.upper := litExpr_val (by omega)
      rw [l2]
      split
      · cases neg
        · refine ⟨?_, rfl, fun π hm => ?_⟩
          · simp [Cond.wf, cmpOK, mulOK, atomOKl, atomOKr, Expr.isId, Expr.placeFree, Expr.val]; omega
          · simp only [Cond.sat, Bool.false_eq_true, if_false, xneg, Cmp.holds, Expr.val]; omega
        · refine ⟨?_, rfl, fun π hm => ?_⟩
          · simp [Cond.wf, cmpOK, mulOK, atomOKl, atomOKr, Expr.isId, Expr.placeFree, Expr.val]; omega
          · simp only [Cond.sat, if_true, xneg, Cmp.holds, Expr.val]; omega
      · cases neg
        · refine ⟨?_, rfl, fun π hm => ?_⟩
          · simp [Cond.wf, cmpOK, mulOK, atomOKl, atomOKr, Expr.isId, Expr.placeFree, Expr.val]; omega
          · simp only [Cond.sat, Bool.false_eq_true, if_false, xneg, Cmp.holds, Expr.val]; omega
        · refine ⟨?_, rfl, fun π hm => ?_⟩
          · simp [Cond.wf, cmpOK, mulOK, atomOKl, atomOKr, Expr.isId, Expr.placeFree, Expr.val]; omega
          · simp only [Cond.sat, if_true, xneg, Cmp.holds, Expr.val]; omega
    · split
      · have l2 : litExpr c.upper = .lit c.upper := litExpr_val (by omega)
        rw [l1, l2]
        cases neg
        · have hwf : ∀ d ∈ [Cond.cmp .le (.lit c.lower) (.id c.place), Cond.cmp .le (.id c.place) (.lit c.upper)],
              d.wf = true := by
            intro d hd
            simp only [List.mem_cons, List.not_mem_nil, or_false] at hd
            rcases hd with rfl | rfl <;>
              simp [Cond.wf, cmpOK, mulOK, atomOKl, atomOKr, Expr.isId, Expr.placeFree, Expr.val] <;> omega
          refine ⟨makeAnd_wf _ hwf, makeAnd_state _ hwf (by simp [Cond.isState]), fun π hm => ?_⟩
          simp only [Bool.false_eq_true, if_false]
          rw [makeAnd_spec hm _ hwf]
          simp [Cond.sat, xneg, Cmp.holds, Expr.val]
        · have hwf : ∀ d ∈ [Cond.cmp .lt (.id c.place) (.lit c.lower), Cond.cmp .lt (.lit c.upper) (.id c.place)],
              d.wf = true := by
            intro d hd
            simp only [List.mem_cons, List.not_mem_nil, or_false] at hd
            rcases hd with rfl | rfl <;>
              simp [Cond.wf, cmpOK, mulOK, atomOKl, atomOKr, Expr.isId, Expr.placeFree, Expr.val] <;> omega
          refine ⟨makeOr_wf _ hwf, makeOr_state _ hwf (by simp [Cond.isState]), fun π hm => ?_⟩
          simp only [if_true]
          rw [makeOr_spec hm _ hwf]
          simp [Cond.sat, xneg, Cmp.holds, Expr.val]
          omega
      · split
        · rw [l1]
          have : c.upper = 4294967295 := by omega
          cases neg
          · refine ⟨?_, rfl, fun π hm => ?_⟩
            · simp [Cond.wf, cmpOK, mulOK, atomOKl, atomOKr, Expr.isId, Expr.placeFree, Expr.val]; omega
            · have := hm c.place
              rw [umax_val] at this
              simp only [Cond.sat, Bool.false_eq_true, if_false, xneg, Cmp.holds, Expr.val]; omega
          · refine ⟨?_, rfl, fun π hm => ?_⟩
            · simp [Cond.wf, cmpOK, mulOK, atomOKl, atomOKr, Expr.isId, Expr.placeFree, Expr.val]; omega
            · have := hm c.place
              rw [umax_val] at this
              simp only [Cond.sat, if_true, xneg, Cmp.holds, Expr.val]; omega
        · have l2 : litExpr c.upper = .lit c.upper := litExpr_val (by omega)
          rw [l2]
          cases neg
          · refine ⟨?_, rfl, fun π hm => ?_⟩
            · simp [Cond.wf, cmpOK, mulOK, atomOKl, atomOKr, Expr.isId, Expr.placeFree, Expr.val]; omega
            · simp only [Cond.sat, Bool.false_eq_true, if_false, xneg, Cmp.holds, Expr.val]; omega
          · refine ⟨?_, rfl, fun π hm => ?_⟩
            · simp [Cond.wf, cmpOK, mulOK, atomOKl, atomOKr, Expr.isId, Expr.placeFree, Expr.val]; omega
            · simp only [Cond.sat, if_true, xneg, Cmp.holds, Expr.val]; omega
  · refine ⟨?_, rfl, fun π _ => Iff.rfl⟩
    simp only [Cond.wf, List.all_eq_true]
    exact fun k hk => (hex k hk).2

theorem ccHolds_iff (m : Mark) (l : List Cons) (neg : Bool) : ccHolds m l neg ↔ xneg neg (∀ c ∈ l, c.holds m) := by
  cases neg <;> simp [ccHolds, xneg]

theorem ccEnd_spec (hS : Setting T I Ct o Fs) {neg : Bool} {cs ks : List Cons} {ls ns : List Coll} {lps : Coll}
    (hsc : ScanOK I Ct Fs cs ks ls ns) (hinv : InvR Fs lps)
    (hpos : ∀ m x, I m → Ct m x → (∀ c ∈ cs, c.holds m) → Sat lps x)
    (h : ccEnd o n π neg ks ns lps = some r) :
    RetOK T I Ct Fs r (fun π => xneg neg (∀ c ∈ cs, c.holds (π 0))) st := by
  unfold ccEnd at h
  cases h1 : testC o n (0 :: π) lps with
  | none => rw [h1] at h; simp at h
  | some q =>
  obtain ⟨b, lps'⟩ := q
  rw [h1] at h
  have s1 := testC_spec hS hinv h1
  cases b with
  | false =>
    simp only at h
    obtain rfl := Option.some.inj h
    refine RetOK.bool fun ρ hp hi => ?_
    have : ¬ ∀ c ∈ cs, c.holds (ρ 0) := by
      intro hall
      obtain ⟨x, hx⟩ := hS.ex _ hi
      exact s1.no rfl x (hS.fs _ _ hx) (hpos _ x hi hx hall)
    cases neg <;> simp only [xneg, this] <;> simp
  | true =>
  simp only at h
  cases h2 : ccTrim o n (1 :: π) ks.reverse ns.reverse [] [] with
  | none => rw [h2] at h; simp at h
  | some q =>
  obtain ⟨ks', ns'⟩ := q
  rw [h2] at h
  simp only at h
  have ht := ccTrim_spec (I := I) (Ct := Ct) hS (done := []) (fun c hc => hsc.ex c (List.mem_reverse.1 hc))
    (AlF_rev hsc.al) ⟨by simp, by simp, by simp, by simp⟩ h2
  have hall : ∀ m, I m → ((∀ k ∈ ks', k.holds m) ↔ ∀ c ∈ cs, c.holds m) := by
    intro m hm
    rw [ht.same m hm, hsc.same m hm]
    simp
  split at h
  · rename_i hnil
    obtain rfl := Option.some.inj h
    subst hnil
    refine RetOK.bool fun ρ hp hi => ?_
    have := (hall _ hi).1 (by simp)
    cases neg <;> simp only [xneg] <;> simp <;> exact this
  · obtain ⟨w1, w2, w3⟩ := ccOut_spec (T := T) neg ht.ex
    have hP : ∀ ρ, T.IsPath ρ → I (ρ 0) → ((ccOut ks' neg).sat T ρ ↔ xneg neg (∀ c ∈ cs, c.holds (ρ 0))) := by
      intro ρ hp hi
      rw [w3 ρ (hS.inv.m32 _ hi), ccHolds_iff]
      exact xneg_congr neg (hall _ hi)
    have p1 : ∀ (ρ : Nat → Mark) x, I (ρ 0) → Ct (ρ 0) x → (∀ c ∈ cs, c.holds (ρ 0)) → Sat lps' x := fun ρ x hi hx hc =>
      s1.keep x (hS.fs _ _ hx) (hpos _ x hi hx hc)
    have p2 : ∀ (ρ : Nat → Mark) x, I (ρ 0) → Ct (ρ 0) x → ¬ (∀ c ∈ cs, c.holds (ρ 0)) → Sat (mkUnion ns') x := by
      intro ρ x hi hx hc
      rw [← hall _ hi] at hc
      push Not at hc
      obtain ⟨k, hk, hks⟩ := ht.cover _ x hi hx hc
      exact sat_mkUnion hk hks
    split at h
    · rename_i hn
      obtain rfl := Option.some.inj h
      subst hn
      refine ⟨w1, fun _ => w2, hP, inv_mkUnion ht.inv, s1.inv, fun ρ x hp hi hx hc => ?_, fun ρ x hp hi hx hc => ?_⟩
      · exact p2 ρ x hi hx (by simpa [xneg] using hc)
      · exact p1 ρ x hi hx (by simpa [xneg] using hc)
    · rename_i hn
      obtain rfl := Option.some.inj h
      simp only [Bool.not_eq_true] at hn
      subst hn
      refine ⟨w1, fun _ => w2, hP, s1.inv, inv_mkUnion ht.inv, fun ρ x hp hi hx hc => ?_, fun ρ x hp hi hx hc => ?_⟩
      · exact p1 ρ x hi hx (by simpa [xneg] using hc)
      · exact p2 ρ x hi hx (by simpa [xneg] using hc)

theorem simpCC_spec (hS : Setting T I Ct o Fs) {N : FlatNet} {m0 : Mark} (hCt : ∀ m x, Ct m x → Counts N m0 m x)
    {cs : List Cons} {ctxNeg elNeg : Bool} (hwf : (Cond.cc cs elNeg).wf = true)
    (hex : ∀ c ∈ cs, ExC c ∧ m0 c.place < 2147483648) (h : simpCC o n N m0 π ctxNeg cs elNeg = some r) :
    RetOK T I Ct Fs r (fun π => xneg ctxNeg ((Cond.cc cs elNeg).sat T π)) st := by
  have hgoal : ∀ ρ : Nat → Mark, xneg (ctxNeg != elNeg) (∀ c ∈ cs, c.holds (ρ 0)) ↔
      xneg ctxNeg ((Cond.cc cs elNeg).sat T ρ) := by
    intro ρ
    simp only [Cond.sat, ccHolds_iff]
    cases ctxNeg <;> cases elNeg <;> simp [xneg]
  unfold simpCC at h
  split at h
  · obtain rfl := Option.some.inj h
    refine RetOK.of ?_ (fun _ => rfl) fun ρ hp hi => ?_
    · simpa [Cond.wf] using hwf
    · rw [← hgoal]
      simp only [Cond.sat, ccHolds_iff]
      cases elNeg <;> cases ctxNeg <;> rfl
  · simp only at h
    obtain ⟨s1, s2⟩ := ccScan_spec (Fs := Fs) hS hCt hex
    cases hsc : ccScan N m0 cs with
    | none =>
      rw [hsc] at h
      simp only at h
      obtain rfl := Option.some.inj h
      refine RetOK.bool fun ρ hp hi => ?_
      rw [← hgoal]
      have := s1 hsc _ hi
      revert this
      cases (ctxNeg != elNeg) <;> intro this <;> simp only [xneg, this] <;> simp
    | some q =>
      obtain ⟨ks, ls, ns⟩ := q
      rw [hsc] at h
      simp only at h
      have ok := s2 ks ls ns hsc
      split at h
      · rename_i hnil
        obtain rfl := Option.some.inj h
        refine RetOK.bool fun ρ hp hi => ?_
        rw [← hgoal]
        have := (ok.same _ hi).2 (by rw [ok.nil hnil]; simp)
        revert this
        cases (ctxNeg != elNeg) <;> intro this <;> simp only [xneg] <;> simp <;> exact this
      · cases hm : mergeLps (2 * ls.length + 1) 0 ls with
        | none => rw [hm] at h; simp at h
        | some lps =>
          rw [hm] at h
          simp only at h
          obtain ⟨m1, m2⟩ := mergeLps_spec (Fs := Fs) _ hm ok.inv
          exact (ccEnd_spec hS ok m1 (fun m x hm hx hc => m2 x (ok.pos m x hm hx hc)) h).change id
            fun ρ _ _ => hgoal ρ

end Simp
end Verif
