import Verif.PQL.PushNegLemmas

namespace Verif
namespace PQL

/-- The states considered: closed under steps, 32-bit. -/
structure StateInv (T : TS) (I : Mark → Prop) : Prop where
  closed : ∀ m m', I m → T.step m m' → I m'
  m32 : ∀ m, I m → Mark32 m

theorem StateInv.path {T : TS} {I : Mark → Prop} (h : StateInv T I) {π : Nat → Mark} (hπ : T.IsPath π)
    (h0 : I (π 0)) (i : Nat) : I (π i) := by
  induction i with
  | zero => exact h0
  | succ i ih =>
    rcases hπ i with hs | ⟨_, he⟩
    · exact h.closed _ _ ih hs
    · rw [he]; exact ih

section
variable (T : TS) (I : Mark → Prop) (K : RwCtx)

/-- The paths on which the result of a visit must be right. -/
structure OnPath (nested : Bool) (π : Nat → Mark) : Prop where
  path : T.IsPath π
  inv : I (π 0)
  init : nested = false → K.initrw = true → π 0 = K.m0

/-- `r` is an admissible formula that means `P`. -/
structure Rel (nested : Bool) (r : Cond) (P : (Nat → Mark) → Prop) (st : Prop) : Prop where
  wf : r.wf = true
  state : st → r.isState = true
  sat : ∀ π, OnPath T I K nested π → (r.sat T π ↔ P π)

/-- The visitor is right. -/
def Good (v : Visit) : Prop :=
  ∀ nested neg c r, v nested neg c = some r → c.wf = true →
    Rel T I K nested r (fun π => xneg neg (c.sat T π)) (c.isState = true)

end

variable {T : TS} {I : Mark → Prop} {K : RwCtx} {nested neg : Bool} {v : Visit} {c d r : Cond}

theorem xneg_congr (neg : Bool) {P Q : Prop} (h : P ↔ Q) : xneg neg P ↔ xneg neg Q := by
  cases neg <;> simp [xneg, h]

theorem Rel.change {P Q : (Nat → Mark) → Prop} {st st' : Prop} (h : Rel T I K nested r P st) (hst : st' → st)
    (hPQ : ∀ π, OnPath T I K nested π → (P π ↔ Q π)) : Rel T I K nested r Q st' :=
  ⟨h.wf, fun hs => h.state (hst hs), fun π hπ => (h.sat π hπ).trans (hPQ π hπ)⟩

/-- Visiting `x` when `x` is equivalent to `y`. -/
theorem Good.via (hv : Good T I K v) {x y : Cond} (h : v nested neg x = some r) (hx : x.wf = true)
    (hst : y.isState = true → x.isState = true)
    (hxy : ∀ π, OnPath T I K nested π → (x.sat T π ↔ y.sat T π)) :
    Rel T I K nested r (fun π => xneg neg (y.sat T π)) (y.isState = true) :=
  (hv nested neg x r h hx).change hst fun π hπ => xneg_congr neg (hxy π hπ)

theorem rel_negIf {x y : Cond} (hx : x.wf = true) (hst : y.isState = true → x.isState = true)
    (hxy : ∀ π, OnPath T I K nested π → (x.sat T π ↔ y.sat T π)) :
    Rel T I K nested (negIf neg x) (fun π => xneg neg (y.sat T π)) (y.isState = true) := by
  cases neg
  · exact ⟨hx, hst, hxy⟩
  · exact ⟨hx, hst, fun π hπ => by simp only [negIf, if_true, Cond.sat, xneg]; rw [hxy π hπ]⟩

theorem Rel.rw (hd : K.dl = true ↔ T.Dead K.m0) {P : (Nat → Mark) → Prop} {st : Prop}
    (h : Rel T I K nested r P st) : Rel T I K nested (K.rw nested r) P st := by
  unfold RwCtx.rw
  split
  · rename_i hn
    have hs : ∀ π, OnPath T I K nested π → (evaluate K.dl K.m0 r).Sound (r.sat T π) :=
      fun π hπ => evaluate_sound hd r π hπ.path (hπ.init hn.1 hn.2)
    split
    · exact h
    · rename_i he
      exact ⟨rfl, fun _ => rfl, fun π hπ => by
        simp only [Cond.sat, true_iff]
        exact (h.sat π hπ).1 ((hs π hπ).1 he)⟩
    · rename_i he
      exact ⟨rfl, fun _ => rfl, fun π hπ => by
        simp only [Cond.sat, Bool.false_eq_true, false_iff]
        exact fun hp => (hs π hπ).2 he ((h.sat π hπ).2 hp)⟩
  · exact h

/-! ### Congruence of the operators -/

/-- equivalence of formulas on the states considered -/
def Eqv (T : TS) (I : Mark → Prop) (c d : Cond) : Prop :=
  ∀ π, T.IsPath π → I (π 0) → (c.sat T π ↔ d.sat T π)

theorem Good.eqv (hv : Good T I K v) {a : Cond} (h : v true false c = some a) (hc : c.wf = true) :
    a.wf = true ∧ (c.isState = true → a.isState = true) ∧ Eqv T I a c := by
  have := hv true false c a h hc
  exact ⟨this.wf, this.state, fun π hp hi => this.sat π ⟨hp, hi, by simp⟩⟩

theorem Good.eqv' (hv : Good T I K v) {a : Cond} (h : v true neg c = some a) (hc : c.wf = true) :
    a.wf = true ∧ (c.isState = true → a.isState = true) ∧
    ∀ π, T.IsPath π → I (π 0) → (a.sat T π ↔ xneg neg (c.sat T π)) := by
  have := hv true neg c a h hc
  exact ⟨this.wf, this.state, fun π hp hi => this.sat π ⟨hp, hi, by simp⟩⟩

section
variable (hI : StateInv T I) {π : Nat → Mark}
include hI

theorem Eqv.later (h : Eqv T I c d) {ρ : Nat → Mark} (hρ : T.IsPath ρ) (h0 : I (ρ 0)) (i : Nat) :
    c.sat T (suffix ρ i) ↔ d.sat T (suffix ρ i) :=
  h _ (suffix_path hρ i) (hI.path hρ h0 i)

theorem Eqv.EF (h : Eqv T I c d) (h0 : I (π 0)) : (Cond.EF c).sat T π ↔ (Cond.EF d).sat T π := by
  simp only [Cond.sat]
  refine exists_congr fun ρ => and_congr_right fun hρ => and_congr_right fun he => exists_congr fun i => ?_
  exact h.later hI hρ (by rw [he]; exact h0) i

theorem Eqv.AF (h : Eqv T I c d) (h0 : I (π 0)) : (Cond.AF c).sat T π ↔ (Cond.AF d).sat T π := by
  simp only [Cond.sat]
  refine forall_congr' fun ρ => forall_congr' fun hρ => forall_congr' fun he => exists_congr fun i => ?_
  exact h.later hI hρ (by rw [he]; exact h0) i

theorem Eqv.F (h : Eqv T I c d) (hπ : T.IsPath π) (h0 : I (π 0)) : (Cond.F c).sat T π ↔ (Cond.F d).sat T π := by
  simp only [Cond.sat]
  exact exists_congr fun i => h.later hI hπ h0 i

theorem Eqv.until {c' d' : Cond} (h : Eqv T I c d) (h' : Eqv T I c' d') {ρ : Nat → Mark} (hρ : T.IsPath ρ)
    (h0 : I (ρ 0)) :
    (∃ i, c'.sat T (suffix ρ i) ∧ ∀ j, j < i → c.sat T (suffix ρ j)) ↔
    (∃ i, d'.sat T (suffix ρ i) ∧ ∀ j, j < i → d.sat T (suffix ρ j)) :=
  exists_congr fun i => and_congr (h'.later hI hρ h0 i)
    (forall_congr' fun j => forall_congr' fun _ => h.later hI hρ h0 j)

theorem Eqv.EU {c' d' : Cond} (h : Eqv T I c d) (h' : Eqv T I c' d') (h0 : I (π 0)) :
    (Cond.EU c c').sat T π ↔ (Cond.EU d d').sat T π := by
  simp only [Cond.sat]
  exact exists_congr fun ρ => and_congr_right fun hρ => and_congr_right fun he =>
    Eqv.until hI h h' hρ (by rw [he]; exact h0)

theorem Eqv.AU {c' d' : Cond} (h : Eqv T I c d) (h' : Eqv T I c' d') (h0 : I (π 0)) :
    (Cond.AU c c').sat T π ↔ (Cond.AU d d').sat T π := by
  simp only [Cond.sat]
  exact forall_congr' fun ρ => forall_congr' fun hρ => forall_congr' fun he =>
    Eqv.until hI h h' hρ (by rw [he]; exact h0)

theorem Eqv.U {c' d' : Cond} (h : Eqv T I c d) (h' : Eqv T I c' d') (hπ : T.IsPath π) (h0 : I (π 0)) :
    (Cond.U c c').sat T π ↔ (Cond.U d d').sat T π :=
  Eqv.until hI h h' hπ h0

theorem Eqv.makeOr (cs : List Cond) (hwf : ∀ c ∈ cs, c.wf = true) : Eqv T I (makeOr cs) (.or cs) := by
  intro π _ h0
  rw [makeOr_spec (hI.m32 _ h0) cs hwf]
  simp [Cond.sat, satAny_iff]

end

theorem makeOr_wf (cs : List Cond) (hwf : ∀ c ∈ cs, c.wf = true) : (makeOr cs).wf = true :=
  (makeLog_spec (T := ⟨fun _ _ => False⟩) (π := fun _ _ => 0) (fun _ => Nat.zero_le _) true cs hwf).2.1

theorem makeAnd_wf (cs : List Cond) (hwf : ∀ c ∈ cs, c.wf = true) : (makeAnd cs).wf = true :=
  (makeLog_spec (T := ⟨fun _ _ => False⟩) (π := fun _ _ => 0) (fun _ => Nat.zero_le _) false cs hwf).2.1

theorem makeOr_state (cs : List Cond) (hwf : ∀ c ∈ cs, c.wf = true) (h : ∀ c ∈ cs, c.isState = true) :
    (makeOr cs).isState = true :=
  (makeLog_spec (T := ⟨fun _ _ => False⟩) (π := fun _ _ => 0) (fun _ => Nat.zero_le _) true cs hwf).2.2 h

theorem makeAnd_state (cs : List Cond) (hwf : ∀ c ∈ cs, c.wf = true) (h : ∀ c ∈ cs, c.isState = true) :
    (makeAnd cs).isState = true :=
  (makeLog_spec (T := ⟨fun _ _ => False⟩) (π := fun _ _ => 0) (fun _ => Nat.zero_le _) false cs hwf).2.2 h

/-! ### Connectives -/

/-- The operands, negated or not, combined by the connective. -/
def opsHold (orp neg : Bool) (T : TS) (π : Nat → Mark) (cs : List Cond) : Prop :=
  if orp then ∃ c ∈ cs, xneg neg (c.sat T π) else ∀ c ∈ cs, xneg neg (c.sat T π)

theorem opsHold_cons (orp neg : Bool) (π : Nat → Mark) (c : Cond) (cs : List Cond) :
    opsHold orp neg T π (c :: cs) ↔ J orp (xneg neg (c.sat T π)) (opsHold orp neg T π cs) := by
  cases orp <;> simp [opsHold, J]

/-- What the loop over the operands must deliver. -/
def OpsOut (T : TS) (I : Mark → Prop) (K : RwCtx) (nested neg stop : Bool) (cs : List Cond) :
    Sum Unit (List Cond) → Prop
  | .inl _ => ∀ π, OnPath T I K nested π → (stop = true ↔ opsHold stop neg T π cs)
  | .inr ns => (∀ n ∈ ns, n.wf = true) ∧ ((∀ c ∈ cs, c.isState = true) → ∀ n ∈ ns, n.isState = true) ∧
      ∀ π, OnPath T I K nested π → (logHolds stop T π ns ↔ opsHold stop neg T π cs)

theorem visitOps_spec (hv : Good T I K v) (stop : Bool) (cs : List Cond) (hwf : ∀ c ∈ cs, c.wf = true)
    (x : Sum Unit (List Cond)) (h : visitOps v nested neg stop cs = some x) :
    OpsOut T I K nested neg stop cs x := by
  induction cs generalizing x with
  | nil =>
    simp only [visitOps, Option.some.injEq] at h
    subst h
    refine ⟨by simp, by simp, fun π _ => ?_⟩
    cases stop <;> simp [logHolds, opsHold]
  | cons c cs ih =>
    have ih := ih fun c hc => hwf c (List.mem_cons_of_mem _ hc)
    rw [visitOps] at h
    cases hn : v nested neg c with
    | none => rw [hn] at h; simp at h
    | some n =>
      rw [hn] at h
      have hr := hv nested neg c n hn (hwf c (List.mem_cons_self ..))
      have general : (match visitOps v nested neg stop cs with
          | none => none
          | some (.inl ()) => some (.inl ())
          | some (.inr ns) => some (.inr (n :: ns))) = some x →
          OpsOut T I K nested neg stop (c :: cs) x := by
        intro h
        cases hrec : visitOps v nested neg stop cs with
        | none => rw [hrec] at h; simp at h
        | some y =>
          rw [hrec] at h
          have hy := ih y hrec
          cases y with
          | inl u =>
            simp only [Option.some.injEq] at h
            subst h
            intro π hπ
            have := hy π hπ
            rw [opsHold_cons]
            cases stop
            · simp only [J, Bool.false_eq_true, if_false, false_iff, not_and] at this ⊢
              exact fun _ => this
            · simp only [J, if_true, true_iff] at this ⊢
              exact .inr this
          | inr ns =>
            simp only [Option.some.injEq] at h
            subst h
            obtain ⟨h1, h2, h3⟩ := hy
            refine ⟨fun z hz => ?_, fun hst z hz => ?_, fun π hπ => ?_⟩
            · rcases List.mem_cons.1 hz with rfl | hz
              · exact hr.wf
              · exact h1 z hz
            · rcases List.mem_cons.1 hz with rfl | hz
              · exact hr.state (hst c (List.mem_cons_self ..))
              · exact h2 (fun c' hc' => hst c' (List.mem_cons_of_mem _ hc')) z hz
            · rw [logHolds_cons, opsHold_cons]
              exact J_congr stop (hr.sat π hπ) (h3 π hπ)
      cases n with
      | bool b =>
        simp only at h
        by_cases hb : b = stop
        · rw [if_pos hb] at h
          simp only [Option.some.injEq] at h
          subst h
          intro π hπ
          have := hr.sat π hπ
          simp only [Cond.sat] at this
          rw [opsHold_cons, ← hb]
          cases b
          · simp only [Bool.false_eq_true, false_iff] at this
            simp [J, this]
          · simp only [true_iff] at this
            simp [J, this]
        · rw [if_neg hb] at h
          have hx := ih x h
          have hb' : b = !stop := by cases b <;> cases stop <;> simp_all
          have key : ∀ π, OnPath T I K nested π →
              (opsHold stop neg T π (c :: cs) ↔ opsHold stop neg T π cs) := by
            intro π hπ
            have := hr.sat π hπ
            simp only [Cond.sat, hb'] at this
            rw [opsHold_cons]
            cases stop
            · simp only [Bool.not_false, true_iff] at this; simp [J, this]
            · simp only [Bool.not_true, Bool.false_eq_true, false_iff] at this; simp [J, this]
          cases x with
          | inl u => intro π hπ; rw [key π hπ]; exact hx π hπ
          | inr ns =>
            refine ⟨hx.1, fun hst => hx.2.1 fun c' hc' => hst c' (List.mem_cons_of_mem _ hc'), fun π hπ => ?_⟩
            rw [key π hπ]; exact hx.2.2 π hπ
      | _ => exact general h

theorem ef_wf {x : Cond} : (Cond.EF x).wf = true ↔ x.wf = true ∧ x.isState = true := by
  simp [Cond.wf]

theorem efArg_some {n x : Cond} (h : efArg n = some x) : n = .EF x := by
  cases n <;> simp only [efArg, Option.some.injEq, reduceCtorEq] at h
  rw [h]

theorem nefArg_some {n x : Cond} (h : nefArg n = some x) : n = .not (.EF x) := by
  cases n with
  | not y => cases y <;> simp only [nefArg, Option.some.injEq, reduceCtorEq] at h; rw [h]
  | _ => simp [nefArg] at h

theorem andResult_spec (hI : StateInv T I) (ns : List Cond) (hwf : ∀ n ∈ ns, n.wf = true) :
    (andResult ns).wf = true ∧ ((∀ n ∈ ns, n.isState = true) → (andResult ns).isState = true) ∧
    ∀ π, T.IsPath π → I (π 0) → ((andResult ns).sat T π ↔ ∀ n ∈ ns, n.sat T π) := by
  have hsplit : ∀ π : Nat → Mark, (∀ n ∈ ns, n.sat T π) ↔
      (∀ x ∈ ns.filterMap nefArg, (Cond.not (.EF x)).sat T π) ∧
      ∀ n ∈ ns.filter (fun c => (nefArg c).isNone), n.sat T π := by
    intro π
    constructor
    · intro h
      refine ⟨fun x hx => ?_, fun n hn => h n (List.mem_filter.1 hn).1⟩
      obtain ⟨n, hn, he⟩ := List.mem_filterMap.1 hx
      have := h n hn
      rwa [nefArg_some he] at this
    · rintro ⟨h1, h2⟩ n hn
      cases he : nefArg n with
      | none => exact h2 n (List.mem_filter.2 ⟨hn, by simp [he]⟩)
      | some x =>
        rw [nefArg_some he]
        exact h1 x (List.mem_filterMap.2 ⟨n, hn, he⟩)
  have hnef : ∀ x ∈ ns.filterMap nefArg, x.wf = true ∧ x.isState = true := by
    intro x hx
    obtain ⟨n, hn, he⟩ := List.mem_filterMap.1 hx
    have := hwf n hn
    rw [nefArg_some he] at this
    exact ef_wf.1 this
  have hoth : ∀ n ∈ ns.filter (fun c => (nefArg c).isNone), n.wf = true ∧
      ((∀ n ∈ ns, n.isState = true) → n.isState = true) := fun n hn =>
    ⟨hwf n (List.mem_filter.1 hn).1, fun h => h n (List.mem_filter.1 hn).1⟩
  revert hsplit hnef hoth
  unfold andResult
  generalize ns.filterMap nefArg = nef
  generalize ns.filter (fun c => (nefArg c).isNone) = other
  intro hsplit hnef hoth
  have hefor : (Cond.EF (makeOr nef)).wf = true := ef_wf.2
    ⟨makeOr_wf nef fun x hx => (hnef x hx).1,
     makeOr_state nef (fun x hx => (hnef x hx).1) fun x hx => (hnef x hx).2⟩
  have hefsat : ∀ π : Nat → Mark, I (π 0) → ((Cond.not (.EF (makeOr nef))).sat T π ↔
      ∀ x ∈ nef, (Cond.not (.EF x)).sat T π) := by
    intro π h0
    have := (Eqv.makeOr hI nef fun x hx => (hnef x hx).1).EF hI h0
    rw [Rules.ef_or] at this
    simp only [Cond.sat] at this ⊢
    rw [this]
    push Not; rfl
  split
  · exact ⟨rfl, fun _ => rfl, fun π _ _ => by rw [hsplit]; simp [Cond.sat]⟩
  · rename_i c
    refine ⟨(hoth c (List.mem_singleton_self _)).1, (hoth c (List.mem_singleton_self _)).2, fun π _ _ => ?_⟩
    rw [hsplit]; simp
  · rename_i x
    refine ⟨ef_wf.2 (hnef x (List.mem_singleton_self _)), fun _ => rfl, fun π _ _ => ?_⟩
    rw [hsplit]; simp
  · refine ⟨makeAnd_wf _ fun n hn => (hoth n hn).1,
      fun h => makeAnd_state _ (fun n hn => (hoth n hn).1) fun n hn => (hoth n hn).2 h, fun π _ h0 => ?_⟩
    rw [hsplit, makeAnd_spec (hI.m32 _ h0) _ fun n hn => (hoth n hn).1]
    simp
  · refine ⟨hefor, fun _ => rfl, fun π _ h0 => ?_⟩
    rw [hsplit, hefsat π h0]
    simp
  · have hw : ∀ n ∈ other ++ [Cond.not (.EF (makeOr nef))], n.wf = true := by
      intro n hn
      rcases List.mem_append.1 hn with hn | hn
      · exact (hoth n hn).1
      · rw [List.mem_singleton.1 hn]; exact hefor
    refine ⟨makeAnd_wf _ hw, fun h => makeAnd_state _ hw fun n hn => ?_, fun π _ h0 => ?_⟩
    · rcases List.mem_append.1 hn with hn | hn
      · exact (hoth n hn).2 h
      · rw [List.mem_singleton.1 hn]; rfl
    · rw [hsplit, makeAnd_spec (hI.m32 _ h0) _ hw, ← hefsat π h0]
      simp only [List.mem_append, List.mem_singleton]
      constructor
      · intro h; exact ⟨h _ (.inr rfl), fun n hn => h n (.inl hn)⟩
      · rintro ⟨h1, h2⟩ n (hn | rfl)
        · exact h2 n hn
        · exact h1

theorem orResult_spec (hI : StateInv T I) (ns : List Cond) (hwf : ∀ n ∈ ns, n.wf = true) :
    (orResult ns).wf = true ∧ ((∀ n ∈ ns, n.isState = true) → (orResult ns).isState = true) ∧
    ∀ π, T.IsPath π → I (π 0) → ((orResult ns).sat T π ↔ ∃ n ∈ ns, n.sat T π) := by
  have hsplit : ∀ π : Nat → Mark, (∃ n ∈ ns, n.sat T π) ↔
      (∃ x ∈ ns.filterMap efArg, (Cond.EF x).sat T π) ∨
      ∃ n ∈ ns.filter (fun c => (efArg c).isNone), n.sat T π := by
    intro π
    constructor
    · rintro ⟨n, hn, hs⟩
      cases he : efArg n with
      | none => exact .inr ⟨n, List.mem_filter.2 ⟨hn, by simp [he]⟩, hs⟩
      | some x =>
        rw [efArg_some he] at hs
        exact .inl ⟨x, List.mem_filterMap.2 ⟨n, hn, he⟩, hs⟩
    · rintro (⟨x, hx, hs⟩ | ⟨n, hn, hs⟩)
      · obtain ⟨n, hn, he⟩ := List.mem_filterMap.1 hx
        exact ⟨n, hn, by rwa [efArg_some he]⟩
      · exact ⟨n, (List.mem_filter.1 hn).1, hs⟩
  have hnef : ∀ x ∈ ns.filterMap efArg, x.wf = true ∧ x.isState = true := by
    intro x hx
    obtain ⟨n, hn, he⟩ := List.mem_filterMap.1 hx
    have := hwf n hn
    rw [efArg_some he] at this
    exact ef_wf.1 this
  have hoth : ∀ n ∈ ns.filter (fun c => (efArg c).isNone), n.wf = true ∧
      ((∀ n ∈ ns, n.isState = true) → n.isState = true) := fun n hn =>
    ⟨hwf n (List.mem_filter.1 hn).1, fun h => h n (List.mem_filter.1 hn).1⟩
  revert hsplit hnef hoth
  unfold orResult
  generalize ns.filterMap efArg = nef
  generalize ns.filter (fun c => (efArg c).isNone) = other
  intro hsplit hnef hoth
  have hefor : (Cond.EF (makeOr nef)).wf = true := ef_wf.2
    ⟨makeOr_wf nef fun x hx => (hnef x hx).1,
     makeOr_state nef (fun x hx => (hnef x hx).1) fun x hx => (hnef x hx).2⟩
  have hefsat : ∀ π : Nat → Mark, I (π 0) → ((Cond.EF (makeOr nef)).sat T π ↔
      ∃ x ∈ nef, (Cond.EF x).sat T π) := by
    intro π h0
    have := (Eqv.makeOr hI nef fun x hx => (hnef x hx).1).EF hI h0
    rwa [Rules.ef_or] at this
  split
  · exact ⟨rfl, fun _ => rfl, fun π _ _ => by rw [hsplit]; simp [Cond.sat]⟩
  · rename_i c
    refine ⟨(hoth c (List.mem_singleton_self _)).1, (hoth c (List.mem_singleton_self _)).2, fun π _ _ => ?_⟩
    rw [hsplit]; simp
  · rename_i x
    refine ⟨ef_wf.2 (hnef x (List.mem_singleton_self _)), fun _ => rfl, fun π _ _ => ?_⟩
    rw [hsplit]; simp
  · refine ⟨makeOr_wf _ fun n hn => (hoth n hn).1,
      fun h => makeOr_state _ (fun n hn => (hoth n hn).1) fun n hn => (hoth n hn).2 h, fun π _ h0 => ?_⟩
    rw [hsplit, makeOr_spec (hI.m32 _ h0) _ fun n hn => (hoth n hn).1]
    simp
  · refine ⟨hefor, fun _ => rfl, fun π _ h0 => ?_⟩
    rw [hsplit, hefsat π h0]
    simp
  · have hw : ∀ n ∈ other ++ [Cond.EF (makeOr nef)], n.wf = true := by
      intro n hn
      rcases List.mem_append.1 hn with hn | hn
      · exact (hoth n hn).1
      · rw [List.mem_singleton.1 hn]; exact hefor
    refine ⟨makeOr_wf _ hw, fun h => makeOr_state _ hw fun n hn => ?_, fun π _ h0 => ?_⟩
    · rcases List.mem_append.1 hn with hn | hn
      · exact (hoth n hn).2 h
      · rw [List.mem_singleton.1 hn]; rfl
    · rw [hsplit, makeOr_spec (hI.m32 _ h0) _ hw, ← hefsat π h0]
      simp only [List.mem_append, List.mem_singleton]
      constructor
      · rintro ⟨n, hn | rfl, hs⟩
        · exact .inr ⟨n, hn, hs⟩
        · exact .inl hs
      · rintro (hs | ⟨n, hn, hs⟩)
        · exact ⟨_, .inr rfl, hs⟩
        · exact ⟨n, .inl hn, hs⟩

theorem pushAnd_spec (hI : StateInv T I) (hv : Good T I K v) (cs : List Cond) (hwf : ∀ c ∈ cs, c.wf = true)
    (h : pushAnd v nested neg cs = some r) :
    Rel T I K nested r (fun π => ∀ c ∈ cs, xneg neg (c.sat T π)) (∀ c ∈ cs, c.isState = true) := by
  unfold pushAnd at h
  rw [Option.map_eq_some_iff] at h
  obtain ⟨x, hx, rfl⟩ := h
  have := visitOps_spec hv false cs hwf x hx
  cases x with
  | inl u =>
    refine ⟨rfl, fun _ => rfl, fun π hπ => ?_⟩
    have := this π hπ
    simpa [Cond.sat, opsHold] using this
  | inr ns =>
    obtain ⟨h1, h2, h3⟩ := andResult_spec hI ns this.1
    refine ⟨h1, fun hs => h2 (this.2.1 hs), fun π hπ => ?_⟩
    rw [h3 π hπ.path hπ.inv]
    simpa [logHolds, opsHold] using this.2.2 π hπ

theorem pushOr_spec (hI : StateInv T I) (hv : Good T I K v) (cs : List Cond) (hwf : ∀ c ∈ cs, c.wf = true)
    (h : pushOr v nested neg cs = some r) :
    Rel T I K nested r (fun π => ∃ c ∈ cs, xneg neg (c.sat T π)) (∀ c ∈ cs, c.isState = true) := by
  unfold pushOr at h
  rw [Option.map_eq_some_iff] at h
  obtain ⟨x, hx, rfl⟩ := h
  have := visitOps_spec hv true cs hwf x hx
  cases x with
  | inl u =>
    refine ⟨rfl, fun _ => rfl, fun π hπ => ?_⟩
    have := this π hπ
    simpa [Cond.sat, opsHold] using this
  | inr ns =>
    obtain ⟨h1, h2, h3⟩ := orResult_spec hI ns this.1
    refine ⟨h1, fun hs => h2 (this.2.1 hs), fun π hπ => ?_⟩
    rw [h3 π hπ.path hπ.inv]
    simpa [logHolds, opsHold] using this.2.2 π hπ

/-! ### Temporal operators -/

theorem pushEX_spec (hI : StateInv T I) (hv : Good T I K v) (hc : (Cond.EX c).wf = true)
    (h : pushEX v nested neg c = some r) :
    Rel T I K nested r (fun π => xneg neg ((Cond.EX c).sat T π)) True := by
  have hw : c.wf = true ∧ c.isState = true := by simpa [Cond.wf] using hc
  unfold pushEX at h
  cases ha : v true neg c with
  | none => simp [ha] at h
  | some a =>
    obtain ⟨a1, a2, a3⟩ := hv.eqv' ha hw.1
    simp only [ha, Option.bind_eq_bind, Option.bind_some] at h
    cases neg
    · have hex : ∀ π, I (π 0) → ((Cond.EX a).sat T π ↔ (Cond.EX c).sat T π) := by
        intro π h0
        simp only [Cond.sat]
        exact exists_congr fun ρ => and_congr_right fun hρ => and_congr_right fun hs =>
          a3 ρ hρ (hI.closed _ _ h0 hs)
      have hdef : Rel T I K nested (.EX a) (fun π => xneg false ((Cond.EX c).sat T π)) True :=
        ⟨by simp [Cond.wf, a1, a2 hw.2], fun _ => rfl, fun π hπ => hex π hπ.inv⟩
      simp only [Bool.false_eq_true, if_false] at h
      split at h
      · cases h
        exact ⟨rfl, fun _ => rfl, fun π hπ => by
          rw [show xneg false ((Cond.EX c).sat T π) = (Cond.EX c).sat T π from rfl, ← hex π hπ.inv]
          simp only [Rules.ex_false]; simp [Cond.sat]⟩
      · cases h
        exact ⟨rfl, fun _ => rfl, fun π hπ => by
          rw [show xneg false ((Cond.EX c).sat T π) = (Cond.EX c).sat T π from rfl, ← hex π hπ.inv]
          exact Rules.ex_true.symm⟩
      · cases h; exact hdef
    · simp only [if_true] at h
      have := hv nested false (.AX a) r h (by simp [Cond.wf, a1, a2 hw.2])
      refine this.change (fun _ => rfl) fun π hπ => ?_
      simp only [xneg, Bool.false_eq_true, if_false, if_true, Cond.sat]
      push Not
      exact forall_congr' fun ρ => forall_congr' fun hρ => forall_congr' fun hs =>
        a3 ρ hρ (hI.closed _ _ hπ.inv hs)

theorem pushAX_spec (hI : StateInv T I) (hv : Good T I K v) (hc : (Cond.AX c).wf = true)
    (h : pushAX v nested neg c = some r) :
    Rel T I K nested r (fun π => xneg neg ((Cond.AX c).sat T π)) True := by
  have hw : c.wf = true ∧ c.isState = true := by simpa [Cond.wf] using hc
  unfold pushAX at h
  cases ha : v true neg c with
  | none => simp [ha] at h
  | some a =>
    obtain ⟨a1, a2, a3⟩ := hv.eqv' ha hw.1
    simp only [ha, Option.bind_eq_bind, Option.bind_some] at h
    cases neg
    · have hax : ∀ π, I (π 0) → ((Cond.AX a).sat T π ↔ (Cond.AX c).sat T π) := by
        intro π h0
        simp only [Cond.sat]
        exact forall_congr' fun ρ => forall_congr' fun hρ => forall_congr' fun hs =>
          a3 ρ hρ (hI.closed _ _ h0 hs)
      have hdef : Rel T I K nested (.AX a) (fun π => xneg false ((Cond.AX c).sat T π)) True :=
        ⟨by simp [Cond.wf, a1, a2 hw.2], fun _ => rfl, fun π hπ => hax π hπ.inv⟩
      simp only [Bool.false_eq_true, if_false] at h
      split at h
      · cases h
        exact ⟨rfl, fun _ => rfl, fun π hπ => by
          rw [show xneg false ((Cond.AX c).sat T π) = (Cond.AX c).sat T π from rfl, ← hax π hπ.inv]
          simp only [Rules.ax_true]; simp [Cond.sat]⟩
      · cases h
        exact ⟨rfl, fun _ => rfl, fun π hπ => by
          rw [show xneg false ((Cond.AX c).sat T π) = (Cond.AX c).sat T π from rfl, ← hax π hπ.inv]
          exact Rules.ax_false.symm⟩
      · cases h; exact hdef
    · simp only [if_true] at h
      have := hv nested false (.EX a) r h (by simp [Cond.wf, a1, a2 hw.2])
      refine this.change (fun _ => rfl) fun π hπ => ?_
      simp only [xneg, Bool.false_eq_true, if_false, if_true, Cond.sat]
      push Not
      exact exists_congr fun ρ => and_congr_right fun hρ => and_congr_right fun hs =>
        a3 ρ hρ (hI.closed _ _ hπ.inv hs)

theorem pushEF_spec (hI : StateInv T I) (hv : Good T I K v) (hc : (Cond.EF c).wf = true)
    (h : pushEF v nested neg c = some r) :
    Rel T I K nested r (fun π => xneg neg ((Cond.EF c).sat T π)) True := by
  have hw : c.wf = true ∧ c.isState = true := by simpa [Cond.wf] using hc
  unfold pushEF at h
  cases ha : v true false c with
  | none => simp [ha] at h
  | some a =>
    obtain ⟨a1, a2, a3⟩ := hv.eqv ha hw.1
    have ast := a2 hw.2
    simp only [ha, Option.bind_eq_bind, Option.bind_some] at h
    have heq : ∀ π, OnPath T I K nested π → ((Cond.EF a).sat T π ↔ (Cond.EF c).sat T π) :=
      fun π hπ => a3.EF hI hπ.inv
    suffices Rel T I K nested r (fun π => xneg neg ((Cond.EF a).sat T π)) ((Cond.EF a).isState = true) from
      this.change (fun _ => rfl) fun π hπ => xneg_congr neg (heq π hπ)
    split at h
    · exact hv.via h rfl (fun _ => rfl) fun π hπ => (Rules.ef_notdead hπ.path).symm
    · cases h
      exact rel_negIf a1 (fun _ => rfl) fun π hπ => (Rules.ef_ef hπ.path _).symm
    · simp only [Cond.wf, Bool.and_eq_true] at a1
      exact hv.via h (by simp [Cond.wf, a1]) (fun _ => rfl) fun π hπ => (Rules.ef_af a1.2).symm
    · simp only [Cond.wf, Bool.and_eq_true] at a1
      exact hv.via h (by simp [Cond.wf, a1]) (fun _ => rfl) fun π hπ => (Rules.ef_eu _ _).symm
    · simp only [Cond.wf, Bool.and_eq_true] at a1
      exact hv.via h (by simp [Cond.wf, a1]) (fun _ => rfl) fun π hπ => (Rules.ef_au a1.2).symm
    · rename_i cs
      split at h
      · have hcs : ∀ x ∈ cs.map Cond.EF, x.wf = true := by
          intro x hx
          obtain ⟨y, hy, rfl⟩ := List.mem_map.1 hx
          exact ef_wf.2 ⟨(wfL_iff cs).1 a1 y hy, (isState_all_iff cs).1 ast y hy⟩
        refine hv.via h (makeOr_wf _ hcs) (fun _ => makeOr_state _ hcs fun x hx => ?_) fun π hπ => ?_
        · obtain ⟨y, _, rfl⟩ := List.mem_map.1 hx; rfl
        · rw [makeOr_spec (hI.m32 _ hπ.inv) _ hcs, Rules.ef_or]
          simp
      · cases h
        exact rel_negIf (ef_wf.2 ⟨a1, ast⟩) (fun _ => rfl) fun π hπ => Iff.rfl
    · cases h
      exact rel_negIf (ef_wf.2 ⟨a1, ast⟩) (fun _ => rfl) fun π hπ => Iff.rfl

theorem isEF_iff (c : Cond) : c.isEF = true ↔ ∃ x, c = .EF x := by
  cases c <;> simp [Cond.isEF]

/-- The partition of the operands used by the `AF` and until rules. -/
theorem ef_partition (cs : List Cond) :
    (∀ c, c ∈ cs ↔ c ∈ cs.filter Cond.isEF ∨ c ∈ cs.filter (fun c => !c.isEF)) ∧
    ∀ c ∈ cs.filter Cond.isEF, ∃ x, c = .EF x := by
  refine ⟨fun c => ?_, fun c hc => (isEF_iff c).1 (List.mem_filter.1 hc).2⟩
  simp only [List.mem_filter]
  cases c.isEF <;> simp

theorem af_wf {x : Cond} : (Cond.AF x).wf = true ↔ x.wf = true ∧ x.isState = true := by
  simp [Cond.wf]

theorem pushAF_spec (hI : StateInv T I) (hv : Good T I K v) (hc : (Cond.AF c).wf = true)
    (h : pushAF v nested neg c = some r) :
    Rel T I K nested r (fun π => xneg neg ((Cond.AF c).sat T π)) True := by
  have hw : c.wf = true ∧ c.isState = true := by simpa [Cond.wf] using hc
  unfold pushAF at h
  cases ha : v true false c with
  | none => simp [ha] at h
  | some a =>
    obtain ⟨a1, a2, a3⟩ := hv.eqv ha hw.1
    have ast := a2 hw.2
    simp only [ha, Option.bind_eq_bind, Option.bind_some] at h
    have heq : ∀ π, OnPath T I K nested π → ((Cond.AF a).sat T π ↔ (Cond.AF c).sat T π) :=
      fun π hπ => a3.AF hI hπ.inv
    suffices Rel T I K nested r (fun π => xneg neg ((Cond.AF a).sat T π)) ((Cond.AF a).isState = true) from
      this.change (fun _ => rfl) fun π hπ => xneg_congr neg (heq π hπ)
    split at h
    · exact hv.via h rfl (fun _ => rfl) fun π hπ => (Rules.af_notdead hπ.path).symm
    · cases h
      exact rel_negIf a1 (fun _ => rfl) fun π hπ => (Rules.af_af _).symm
    · cases h
      exact rel_negIf a1 (fun _ => rfl) fun π hπ => (Rules.af_ef hπ.path _).symm
    · rename_i cs
      split at h
      · cases h
        exact rel_negIf (af_wf.2 ⟨a1, ast⟩) (fun _ => rfl) fun π hπ => Iff.rfl
      · obtain ⟨p1, p2⟩ := ef_partition cs
        have hwc := (wfL_iff cs).1 a1
        have hsc := (isState_all_iff cs).1 ast
        generalize cs.filter Cond.isEF = pef at *
        generalize cs.filter (fun c => !c.isEF) = npef at *
        have hn1 : ∀ c ∈ npef, c.wf = true := fun c hc => hwc c ((p1 c).2 (.inr hc))
        have hn2 : ∀ c ∈ npef, c.isState = true := fun c hc => hsc c ((p1 c).2 (.inr hc))
        have hall : ∀ x ∈ pef ++ [Cond.AF (makeOr npef)], x.wf = true ∧ x.isState = true := by
          intro x hx
          rcases List.mem_append.1 hx with hx | hx
          · exact ⟨hwc x ((p1 x).2 (.inl hx)), hsc x ((p1 x).2 (.inl hx))⟩
          · rw [List.mem_singleton.1 hx]
            exact ⟨af_wf.2 ⟨makeOr_wf _ hn1, makeOr_state _ hn1 hn2⟩, rfl⟩
        refine hv.via h (makeOr_wf _ fun x hx => (hall x hx).1)
          (fun _ => makeOr_state _ (fun x hx => (hall x hx).1) fun x hx => (hall x hx).2) fun π hπ => ?_
        rw [makeOr_spec (hI.m32 _ hπ.inv) _ fun x hx => (hall x hx).1,
          Rules.af_or_split cs pef npef p1 p2]
        have := (Eqv.makeOr hI npef hn1).AF hI hπ.inv
        rw [← this]
        simp only [List.mem_append, List.mem_singleton]
        constructor
        · rintro ⟨x, hx | rfl, hs⟩
          · exact .inl ⟨x, hx, hs⟩
          · exact .inr hs
        · rintro (⟨x, hx, hs⟩ | hs)
          · exact ⟨x, .inl hx, hs⟩
          · exact ⟨_, .inr rfl, hs⟩
    · simp only [Cond.wf, Bool.and_eq_true] at a1
      exact hv.via h (by simp [Cond.wf, a1]) (fun _ => rfl) fun π hπ => (Rules.af_au a1.2).symm
    · cases h
      exact rel_negIf (af_wf.2 ⟨a1, ast⟩) (fun _ => rfl) fun π hπ => Iff.rfl

theorem untilDead_inl {a b : Cond} (h : untilDead a b = some (.inl ())) : b = .not .dead ∨ a = .dead := by
  unfold untilDead at h
  split at h
  · exact .inl rfl
  · simp at h
  · split at h
    · exact .inr rfl
    · simp at h
    · simp at h

theorem untilDead_inr {a b : Cond} (h : untilDead a b = some (.inr ())) : a = .not .dead := by
  unfold untilDead at h
  split at h
  · simp at h
  · simp at h
  · split at h
    · simp at h
    · rfl
    · simp at h

theorem pushAU_spec (hI : StateInv T I) (hv : Good T I K v) (hc : (Cond.AU c d).wf = true)
    (h : pushAU v nested neg c d = some r) :
    Rel T I K nested r (fun π => xneg neg ((Cond.AU c d).sat T π)) True := by
  have hw : ((c.wf = true ∧ c.isState = true) ∧ d.wf = true) ∧ d.isState = true := by simpa [Cond.wf] using hc
  unfold pushAU at h
  cases hb : v true false d with
  | none => simp [hb] at h
  | some b =>
  cases ha : v true false c with
  | none => simp [hb, ha] at h
  | some a =>
    obtain ⟨a1, a2, a3⟩ := hv.eqv ha hw.1.1.1
    obtain ⟨b1, b2, b3⟩ := hv.eqv hb hw.1.2
    have ast := a2 hw.1.1.2
    have bst := b2 hw.2
    simp only [ha, hb, Option.bind_eq_bind, Option.bind_some] at h
    suffices Rel T I K nested r (fun π => xneg neg ((Cond.AU a b).sat T π)) ((Cond.AU a b).isState = true) from
      this.change (fun _ => rfl) fun π hπ => xneg_congr neg (a3.AU hI b3 hπ.inv)
    split at h
    · rename_i hu
      refine hv.via h b1 (fun _ => bst) fun π hπ => ?_
      rcases untilDead_inl hu with rfl | rfl
      · exact (Rules.au_notdead hπ.path a).symm
      · exact (Rules.au_dead hπ.path bst).symm
    · rename_i hu
      cases untilDead_inr hu
      exact hv.via h (af_wf.2 ⟨b1, bst⟩) (fun _ => rfl) fun π hπ => (Rules.au_alive b).symm
    · split at h
      · exact hv.via h b1 (fun _ => rfl) fun π hπ => (Rules.au_af _ _).symm
      · cases h
        exact rel_negIf b1 (fun _ => rfl) fun π hπ => (Rules.au_ef hπ.path _ _).symm
      · rename_i cs _
        split at h
        · cases h
          exact rel_negIf (by simp only [Cond.wf, Bool.and_eq_true] at b1 ⊢; exact ⟨⟨⟨a1, ast⟩, b1⟩, bst⟩)
            (fun _ => rfl) fun π hπ => Iff.rfl
        · obtain ⟨p1, p2⟩ := ef_partition cs
          have hwc := (wfL_iff cs).1 b1
          have hsc := (isState_all_iff cs).1 bst
          generalize cs.filter Cond.isEF = pef at *
          generalize cs.filter (fun c => !c.isEF) = npef at *
          have hn1 : ∀ c ∈ npef, c.wf = true := fun c hc => hwc c ((p1 c).2 (.inr hc))
          have hn2 : ∀ c ∈ npef, c.isState = true := fun c hc => hsc c ((p1 c).2 (.inr hc))
          have hpe : ∀ x ∈ pef, x.wf = true ∧ x.isState = true := fun x hx =>
            ⟨hwc x ((p1 x).2 (.inl hx)), hsc x ((p1 x).2 (.inl hx))⟩
          have hall : ∀ x ∈ (if npef.isEmpty then pef else pef ++ [Cond.AU c (makeOr npef)]),
              x.wf = true ∧ x.isState = true := by
            intro x hx
            split at hx
            · exact hpe x hx
            · rcases List.mem_append.1 hx with hx | hx
              · exact hpe x hx
              · rw [List.mem_singleton.1 hx]
                refine ⟨?_, rfl⟩
                simp only [Cond.wf, Bool.and_eq_true]
                exact ⟨⟨hw.1.1, makeOr_wf _ hn1⟩, makeOr_state _ hn1 hn2⟩
          refine hv.via h (makeOr_wf _ fun x hx => (hall x hx).1)
            (fun _ => makeOr_state _ (fun x hx => (hall x hx).1) fun x hx => (hall x hx).2) fun π hπ => ?_
          rw [makeOr_spec (hI.m32 _ hπ.inv) _ fun x hx => (hall x hx).1,
            Rules.au_or_split a cs pef npef p1 p2]
          split
          · rename_i he
            rw [List.isEmpty_iff] at he
            subst he
            have := Rules.au_false hπ.path a
            simp [this]
          · have hcg : Eqv T I c a := fun π hp h0 => (a3 π hp h0).symm
            have := hcg.AU hI (Eqv.makeOr hI npef hn1) hπ.inv
            rw [← this]
            simp only [List.mem_append, List.mem_singleton]
            constructor
            · rintro ⟨x, hx | rfl, hs⟩
              · exact .inl ⟨x, hx, hs⟩
              · exact .inr hs
            · rintro (⟨x, hx, hs⟩ | hs)
              · exact ⟨x, .inl hx, hs⟩
              · exact ⟨_, .inr rfl, hs⟩
      · cases h
        exact rel_negIf (by simp only [Cond.wf, Bool.and_eq_true]; exact ⟨⟨⟨a1, ast⟩, b1⟩, bst⟩)
          (fun _ => rfl) fun π hπ => Iff.rfl

theorem pushEU_spec (hI : StateInv T I) (hv : Good T I K v) (hc : (Cond.EU c d).wf = true)
    (h : pushEU v nested neg c d = some r) :
    Rel T I K nested r (fun π => xneg neg ((Cond.EU c d).sat T π)) True := by
  have hw : ((c.wf = true ∧ c.isState = true) ∧ d.wf = true) ∧ d.isState = true := by simpa [Cond.wf] using hc
  unfold pushEU at h
  cases hb : v true false d with
  | none => simp [hb] at h
  | some b =>
  cases ha : v true false c with
  | none => simp [hb, ha] at h
  | some a =>
    obtain ⟨a1, a2, a3⟩ := hv.eqv ha hw.1.1.1
    obtain ⟨b1, b2, b3⟩ := hv.eqv hb hw.1.2
    have ast := a2 hw.1.1.2
    have bst := b2 hw.2
    simp only [ha, hb, Option.bind_eq_bind, Option.bind_some] at h
    suffices Rel T I K nested r (fun π => xneg neg ((Cond.EU a b).sat T π)) ((Cond.EU a b).isState = true) from
      this.change (fun _ => rfl) fun π hπ => xneg_congr neg (a3.EU hI b3 hπ.inv)
    split at h
    · rename_i hu
      refine hv.via h b1 (fun _ => bst) fun π hπ => ?_
      rcases untilDead_inl hu with rfl | rfl
      · exact (Rules.eu_notdead hπ.path a).symm
      · exact (Rules.eu_dead hπ.path bst).symm
    · rename_i hu
      cases untilDead_inr hu
      exact hv.via h (ef_wf.2 ⟨b1, bst⟩) (fun _ => rfl) fun π hπ => (Rules.eu_alive b).symm
    · split at h
      · cases h
        exact rel_negIf b1 (fun _ => rfl) fun π hπ => (Rules.eu_ef hπ.path _ _).symm
      · rename_i cs _
        split at h
        · cases h
          exact rel_negIf (by simp only [Cond.wf, Bool.and_eq_true] at b1 ⊢; exact ⟨⟨⟨a1, ast⟩, b1⟩, bst⟩)
            (fun _ => rfl) fun π hπ => Iff.rfl
        · obtain ⟨p1, p2⟩ := ef_partition cs
          have hwc := (wfL_iff cs).1 b1
          have hsc := (isState_all_iff cs).1 bst
          generalize cs.filter Cond.isEF = pef at *
          generalize cs.filter (fun c => !c.isEF) = npef at *
          have hn1 : ∀ c ∈ npef, c.wf = true := fun c hc => hwc c ((p1 c).2 (.inr hc))
          have hn2 : ∀ c ∈ npef, c.isState = true := fun c hc => hsc c ((p1 c).2 (.inr hc))
          have hpe : ∀ x ∈ pef, x.wf = true ∧ x.isState = true := fun x hx =>
            ⟨hwc x ((p1 x).2 (.inl hx)), hsc x ((p1 x).2 (.inl hx))⟩
          have hall : ∀ x ∈ (if npef.isEmpty then pef else pef ++ [Cond.EU c (makeOr npef)]),
              x.wf = true ∧ x.isState = true := by
            intro x hx
            split at hx
            · exact hpe x hx
            · rcases List.mem_append.1 hx with hx | hx
              · exact hpe x hx
              · rw [List.mem_singleton.1 hx]
                refine ⟨?_, rfl⟩
                simp only [Cond.wf, Bool.and_eq_true]
                exact ⟨⟨hw.1.1, makeOr_wf _ hn1⟩, makeOr_state _ hn1 hn2⟩
          refine hv.via h (makeOr_wf _ fun x hx => (hall x hx).1)
            (fun _ => makeOr_state _ (fun x hx => (hall x hx).1) fun x hx => (hall x hx).2) fun π hπ => ?_
          rw [makeOr_spec (hI.m32 _ hπ.inv) _ fun x hx => (hall x hx).1,
            Rules.eu_or_split hπ.path a cs pef npef p1 p2]
          split
          · rename_i he
            rw [List.isEmpty_iff] at he
            subst he
            have := Rules.eu_false (T := T) (π := π) a
            simp [this]
          · have hcg : Eqv T I c a := fun π hp h0 => (a3 π hp h0).symm
            have := hcg.EU hI (Eqv.makeOr hI npef hn1) hπ.inv
            rw [← this]
            simp only [List.mem_append, List.mem_singleton]
            constructor
            · rintro ⟨x, hx | rfl, hs⟩
              · exact .inl ⟨x, hx, hs⟩
              · exact .inr hs
            · rintro (⟨x, hx, hs⟩ | hs)
              · exact ⟨x, .inl hx, hs⟩
              · exact ⟨_, .inr rfl, hs⟩
      · cases h
        exact rel_negIf (by simp only [Cond.wf, Bool.and_eq_true]; exact ⟨⟨⟨a1, ast⟩, b1⟩, bst⟩)
          (fun _ => rfl) fun π hπ => Iff.rfl

theorem pushU_spec (hI : StateInv T I) (hv : Good T I K v) (hc : (Cond.U c d).wf = true)
    (h : pushU v neg c d = some r) :
    Rel T I K nested r (fun π => xneg neg ((Cond.U c d).sat T π)) False := by
  have hw : c.wf = true ∧ d.wf = true := by simpa [Cond.wf] using hc
  unfold pushU at h
  cases hb : v true false d with
  | none => simp [hb] at h
  | some b =>
  cases ha : v true false c with
  | none => simp [hb, ha] at h
  | some a =>
    obtain ⟨a1, a2, a3⟩ := hv.eqv ha hw.1
    obtain ⟨b1, b2, b3⟩ := hv.eqv hb hw.2
    simp only [ha, hb, Option.bind_eq_bind, Option.bind_some] at h
    suffices Rel T I K nested r (fun π => xneg neg ((Cond.U a b).sat T π)) ((Cond.U a b).isState = true) from
      this.change (fun h => h.elim) fun π hπ => xneg_congr neg (a3.U hI b3 hπ.path hπ.inv)
    split at h
    · cases h
      exact rel_negIf b1 (fun h => by simp [Cond.isState] at h) fun π hπ => (Rules.u_f _ _).symm
    · cases h
      exact rel_negIf (by simp [Cond.wf, a1, b1]) (fun h => h) fun π hπ => Iff.rfl

theorem pushX_spec (hI : StateInv T I) (hv : Good T I K v) (hc : (Cond.X c).wf = true)
    (h : pushX v neg c = some r) :
    Rel T I K nested r (fun π => xneg neg ((Cond.X c).sat T π)) False := by
  unfold pushX at h
  cases ha : v true neg c with
  | none => simp [ha] at h
  | some a =>
    obtain ⟨a1, a2, a3⟩ := hv.eqv' ha hc
    simp only [ha, Option.bind_eq_bind, Option.bind_some] at h
    have hX : ∀ π, OnPath T I K nested π → ((Cond.X a).sat T π ↔ xneg neg ((Cond.X c).sat T π)) :=
      fun π hπ => a3 _ (suffix_path hπ.path 1) (hI.path hπ.path hπ.inv 1)
    split at h
    · cases h
      exact ⟨rfl, fun h => h.elim, fun π hπ => by rw [← hX π hπ]; simp [Cond.sat]⟩
    · cases h
      exact ⟨a1, fun h => h.elim, hX⟩

theorem pushF_spec (hI : StateInv T I) (hv : Good T I K v) (hc : (Cond.F c).wf = true)
    (h : pushF v nested neg c = some r) :
    Rel T I K nested r (fun π => xneg neg ((Cond.F c).sat T π)) False := by
  unfold pushF at h
  cases ha : v true false c with
  | none => simp [ha] at h
  | some a =>
    obtain ⟨a1, a2, a3⟩ := hv.eqv ha hc
    simp only [ha, Option.bind_eq_bind, Option.bind_some] at h
    suffices Rel T I K nested r (fun π => xneg neg ((Cond.F a).sat T π)) ((Cond.F a).isState = true) from
      this.change (fun h => h.elim) fun π hπ => xneg_congr neg (a3.F hI hπ.path hπ.inv)
    have nst : ∀ {P : Prop}, (Cond.F a).isState = true → P := fun h => by simp [Cond.isState] at h
    split at h
    · cases h
      exact rel_negIf a1 nst fun π hπ => (Rules.f_f _).symm
    · simp only [Cond.wf, Bool.and_eq_true] at a1
      exact hv.via h (by simp [Cond.wf, a1]) nst fun π hπ => (Rules.f_u _ _).symm
    · rename_i cs
      split at h
      · have hcs : ∀ x ∈ cs.map Cond.F, x.wf = true := by
          intro x hx
          obtain ⟨y, hy, rfl⟩ := List.mem_map.1 hx
          exact (wfL_iff cs).1 a1 y hy
        refine hv.via h (makeOr_wf _ hcs) nst fun π hπ => ?_
        rw [makeOr_spec (hI.m32 _ hπ.inv) _ hcs, Rules.f_or]
        simp
      · cases h
        exact rel_negIf a1 nst fun π hπ => Iff.rfl
    · cases h
      exact rel_negIf a1 nst fun π hπ => Iff.rfl

theorem xneg_not (neg : Bool) (P : Prop) : xneg (!neg) (¬ P) ↔ xneg neg P := by
  cases neg <;> simp [xneg]

theorem xneg_not' (neg : Bool) (P : Prop) : xneg (!neg) P ↔ xneg neg (¬ P) := by
  cases neg <;> simp [xneg]

theorem Rel.mono {P : (Nat → Mark) → Prop} {st st' : Prop} (h : Rel T I K nested r P st) (hs : st' → st) :
    Rel T I K nested r P st' := h.change hs fun _ _ => Iff.rfl

/-- One visit is right if the recursive visits are. -/
theorem pushStep_good (hI : StateInv T I) (hd : K.dl = true ↔ T.Dead K.m0) (hv : Good T I K v) :
    Good T I K (pushStep K v) := by
  intro nested neg c r h hc
  cases c with
  | bool b =>
    cases h
    exact Rel.rw hd ⟨rfl, fun _ => rfl, fun π _ => by cases b <;> cases neg <;> simp [Cond.sat, xneg]⟩
  | dead =>
    cases h
    exact Rel.rw hd (rel_negIf rfl (fun _ => rfl) fun _ _ => Iff.rfl)
  | cmp op e1 e2 =>
    cases h
    have := pushCmp_spec neg op e1 e2 hc (T := T) (π := fun _ _ => 0)
    exact Rel.rw hd ⟨this.1, fun _ => this.2.1, fun π _ => (pushCmp_spec neg op e1 e2 hc).2.2⟩
  | cc l n =>
    cases h
    refine Rel.rw hd ⟨hc, fun _ => rfl, fun π _ => ?_⟩
    cases n <;> cases neg <;> simp [Cond.sat, ccHolds, xneg]
  | not c =>
    simp only [pushStep, Option.map_eq_some_iff] at h
    obtain ⟨x, hx, rfl⟩ := h
    exact Rel.rw hd ((hv nested (!neg) c x hx hc).change (fun h => h) fun π _ => xneg_not' neg _)
  | and cs =>
    have hw := (wfL_iff cs).1 hc
    simp only [pushStep, Option.map_eq_some_iff] at h
    obtain ⟨x, hx, rfl⟩ := h
    refine Rel.rw hd ?_
    cases neg
    · simp only [Bool.false_eq_true, if_false] at hx
      refine (pushAnd_spec hI hv cs hw hx).change (fun h => (isState_all_iff cs).1 h) fun π _ => ?_
      simp [xneg, Cond.sat, satAll_iff]
    · simp only [if_true] at hx
      refine (pushOr_spec hI hv cs hw hx).change (fun h => (isState_all_iff cs).1 h) fun π _ => ?_
      simp [xneg, Cond.sat, satAll_iff]
  | or cs =>
    have hw := (wfL_iff cs).1 hc
    simp only [pushStep, Option.map_eq_some_iff] at h
    obtain ⟨x, hx, rfl⟩ := h
    refine Rel.rw hd ?_
    cases neg
    · simp only [Bool.false_eq_true, if_false] at hx
      refine (pushOr_spec hI hv cs hw hx).change (fun h => (isState_all_iff cs).1 h) fun π _ => ?_
      simp [xneg, Cond.sat, satAny_iff]
    · simp only [if_true] at hx
      refine (pushAnd_spec hI hv cs hw hx).change (fun h => (isState_all_iff cs).1 h) fun π _ => ?_
      simp [xneg, Cond.sat, satAny_iff]
  | EX c =>
    simp only [pushStep, Option.map_eq_some_iff] at h
    obtain ⟨x, hx, rfl⟩ := h
    exact Rel.rw hd ((pushEX_spec hI hv hc hx).mono fun _ => trivial)
  | AX c =>
    simp only [pushStep, Option.map_eq_some_iff] at h
    obtain ⟨x, hx, rfl⟩ := h
    exact Rel.rw hd ((pushAX_spec hI hv hc hx).mono fun _ => trivial)
  | EF c =>
    simp only [pushStep, Option.map_eq_some_iff] at h
    obtain ⟨x, hx, rfl⟩ := h
    exact Rel.rw hd ((pushEF_spec hI hv hc hx).mono fun _ => trivial)
  | AF c =>
    simp only [pushStep, Option.map_eq_some_iff] at h
    obtain ⟨x, hx, rfl⟩ := h
    exact Rel.rw hd ((pushAF_spec hI hv hc hx).mono fun _ => trivial)
  | EG c =>
    refine (hv nested (!neg) (.AF (.not c)) r h hc).change (fun _ => rfl) fun π _ => ?_
    rw [← xneg_not neg]
    refine xneg_congr _ ?_
    simp only [Cond.sat]; push Not; rfl
  | AG c =>
    refine (hv nested (!neg) (.EF (.not c)) r h hc).change (fun _ => rfl) fun π _ => ?_
    rw [← xneg_not neg]
    refine xneg_congr _ ?_
    simp only [Cond.sat]; push Not; rfl
  | EU c d =>
    simp only [pushStep, Option.map_eq_some_iff] at h
    obtain ⟨x, hx, rfl⟩ := h
    exact Rel.rw hd ((pushEU_spec hI hv hc hx).mono fun _ => trivial)
  | AU c d =>
    simp only [pushStep, Option.map_eq_some_iff] at h
    obtain ⟨x, hx, rfl⟩ := h
    exact Rel.rw hd ((pushAU_spec hI hv hc hx).mono fun _ => trivial)
  | E c =>
    simp only [pushStep, Option.map_eq_some_iff] at h
    obtain ⟨x, hx, rfl⟩ := h
    have := hv nested neg c x hx hc
    have key : ∀ π, OnPath T I K nested π → ∀ ρ, T.IsPath ρ → ρ 0 = π 0 →
        (x.sat T ρ ↔ xneg neg (c.sat T ρ)) := fun π hπ ρ hρ h0 =>
      this.sat ρ ⟨hρ, by rw [h0]; exact hπ.inv, fun h1 h2 => h0.trans (hπ.init h1 h2)⟩
    cases neg
    · refine ⟨this.wf, fun _ => rfl, fun π hπ => ?_⟩
      simp only [Bool.false_eq_true, if_false, Cond.sat, xneg]
      exact exists_congr fun ρ => and_congr_right fun hρ => and_congr_right fun h0 => key π hπ ρ hρ h0
    · refine ⟨this.wf, fun _ => rfl, fun π hπ => ?_⟩
      simp only [if_true, Cond.sat, xneg]
      push Not
      exact forall_congr' fun ρ => forall_congr' fun hρ => forall_congr' fun h0 => key π hπ ρ hρ h0
  | A c =>
    refine (hv nested (!neg) (.E (.not c)) r h hc).change (fun _ => rfl) fun π _ => ?_
    rw [← xneg_not neg]
    refine xneg_congr _ ?_
    simp only [Cond.sat]; push Not; rfl
  | X c =>
    simp only [pushStep, Option.map_eq_some_iff] at h
    obtain ⟨x, hx, rfl⟩ := h
    exact Rel.rw hd ((pushX_spec hI hv hc hx).mono fun h => by simp [Cond.isState] at h)
  | F c =>
    simp only [pushStep, Option.map_eq_some_iff] at h
    obtain ⟨x, hx, rfl⟩ := h
    exact Rel.rw hd ((pushF_spec hI hv hc hx).mono fun h => by simp [Cond.isState] at h)
  | G c =>
    refine (hv nested (!neg) (.F (.not c)) r h hc).change (fun h => by simp [Cond.isState] at h) fun π _ => ?_
    rw [← xneg_not neg]
    refine xneg_congr _ ?_
    simp only [Cond.sat]; push Not; rfl
  | U c d =>
    simp only [pushStep, Option.map_eq_some_iff] at h
    obtain ⟨x, hx, rfl⟩ := h
    exact Rel.rw hd ((pushU_spec hI hv hc hx).mono fun h => by simp [Cond.isState] at h)

theorem pushNegation_good (hI : StateInv T I) (hd : K.dl = true ↔ T.Dead K.m0) (fuel : Nat) :
    Good T I K (pushNegation K fuel) := by
  induction fuel with
  | zero => intro nested neg c r h; simp [pushNegation] at h
  | succ f ih => exact pushStep_good hI hd ih

end PQL
end Verif
