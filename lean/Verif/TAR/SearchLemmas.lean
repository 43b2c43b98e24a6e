import Verif.TAR.AutoInv
import Verif.TAR.Search

/-! # A search that covers everything leaves an inductive invariant -/

namespace Verif
namespace TAR
open PRVec Solver TraceSet

variable {N : FlatNet} {m0 : Nat → Nat} {G : (Nat → Nat) → Prop} {s : TraceSet}

/-- The markings described by a set of states. -/
def Gam (s : TraceSet) (I : List Nat) (m : Nat → Nat) : Prop := ∀ i ∈ I, SatI (s.pred i) m

/-- Indices of states. -/
def WFI (s : TraceSet) (I : List Nat) : Prop := ∀ i ∈ I, i < s.states.length

theorem mem_insAll (is : List Nat) : ∀ (l : List Nat) (x : Nat), x ∈ insAll l is ↔ x ∈ l ∨ x ∈ is := by
  induction is with
  | nil => intro l x; simp [insAll]
  | cons i is ih =>
    intro l x
    have : insAll l (i :: is) = insAll (ins l i) is := rfl
    rw [this, ih, mem_ins, List.mem_cons]
    constructor
    · rintro ((h | h) | h)
      · exact Or.inl h
      · exact Or.inr (Or.inl h)
      · exact Or.inr (Or.inr h)
    · rintro (h | h | h)
      · exact Or.inl (Or.inl h)
      · exact Or.inl (Or.inr h)
      · exact Or.inr h

theorem maximize_spec (h : AInv N m0 G s) {I : List Nat} (hI : WFI s I) :
    WFI s (s.maximize I) ∧ ∀ m, Gam s I m → Gam s (s.maximize I) m := by
  have key : ∀ (L : List Nat) (acc : List Nat) (x : Nat), x ∈ L.foldl (fun mx i => insAll mx (s.state i).simulates) acc →
      x ∈ acc ∨ ∃ i ∈ L, x ∈ (s.state i).simulates := by
    intro L
    induction L with
    | nil => intro acc x hx; exact Or.inl hx
    | cons i L ih =>
      intro acc x hx
      rcases ih _ _ hx with hx | ⟨j, hj, hx⟩
      · rcases (mem_insAll _ _ _).1 hx with hx | hx
        · exact Or.inl hx
        · exact Or.inr ⟨i, by simp, hx⟩
      · exact Or.inr ⟨j, by simp [hj], hx⟩
  have hmem : ∀ x ∈ s.maximize I, x ∈ I ∨ x = 1 ∨ ∃ i ∈ I, x ∈ (s.state i).simulates := by
    intro x hx
    rcases key _ _ _ hx with hx | hx
    · rcases mem_ins.1 hx with hx | hx
      · exact Or.inl hx
      · exact Or.inr (Or.inl hx)
    · exact Or.inr (Or.inr hx)
  constructor
  · intro x hx
    rcases hmem x hx with hx | rfl | ⟨i, hi, hx⟩
    · exact hI x hx
    · have := h.len; omega
    · exact (h.sim i (hI i hi) x hx).1
  · intro m hm x hx
    rcases hmem x hx with hx | rfl | ⟨i, hi, hx⟩
    · exact hm x hx
    · rw [h.p1]; exact satI_nil m
    · obtain ⟨h1, _, h3⟩ := h.sim i (hI i hi) x hx
      exact incl_sat (h.good x h1) (h.good i (hI i hi)) h3 (hm i hi)

theorem incl_trans {a b c : PRVec} (h : Incl a b) (h' : Incl b c) : Incl a c := by
  intro e he
  obtain ⟨e1, he1, hp1, hc1⟩ := h e he
  obtain ⟨e2, he2, hp2, hc2⟩ := h' e1 he1
  refine ⟨e2, he2, hp2.trans hp1, ?_⟩
  simp only [Range.compare, Bool.and_eq_true, decide_eq_true_eq] at hc1 hc2 ⊢
  omega

theorem incl_refl (a : PRVec) : Incl a a := by
  intro e he
  refine ⟨e, he, rfl, ?_⟩
  simp [Range.compare]

theorem incl_antisymm {a b : PRVec} (ha : Sorted a) (hb : Sorted b) (h : Incl a b) (h' : Incl b a) : a = b := by
  have sub : ∀ {a b : PRVec}, Sorted a → Sorted b → Incl a b → Incl b a → ∀ e ∈ a, e ∈ b := by
    intro a b ha hb h h' e he
    obtain ⟨e1, he1, hp1, hc1⟩ := h e he
    obtain ⟨e2, he2, hp2, hc2⟩ := h' e1 he1
    have h1 := rng_of_mem ha he
    have h2 := rng_of_mem ha he2
    rw [hp2, hp1, h1] at h2
    simp only [Range.compare, Bool.and_eq_true, decide_eq_true_eq] at hc1 hc2
    have : e = e1 := by
      cases e with
      | mk p r =>
        cases e1 with
        | mk p1 r1 =>
          cases r with
          | mk l u =>
            cases r1 with
            | mk l1 u1 =>
              simp only at hp1 h2 hc1 hc2
              rw [← h2] at hc2
              simp only at hc2
              have e1 : l = l1 := by omega
              have e2 : u = u1 := by omega
              rw [hp1, e1, e2]
    rw [this]; exact he1
  refine List.Perm.eq_of_pairwise (le := fun x y : PRange => x.place < y.place) ?_ ha hb ?_
  · intro x y _ _ h1 h2
    omega
  · have nd : ∀ {a : PRVec}, Sorted a → a.Nodup := by
      intro a ha
      unfold List.Nodup
      exact List.Pairwise.imp (fun {x y} h he => by rw [he] at h; exact Nat.lt_irrefl _ h) ha
    rw [List.perm_ext_iff_of_nodup (nd ha) (nd hb)]
    exact fun e => ⟨sub ha hb h h' e, sub hb ha h' h e⟩

/-- Leaving out the weaker predicates of a set loses nothing. -/
theorem minimize_spec (h : AInv N m0 G s) {I : List Nat} (hI : WFI s I) :
    ∀ m, Gam s (s.minimize I) m → Gam s I m := by
  intro m hm
  classical
  let dn : Nat → Nat := fun x => (List.range s.states.length).countP fun j => decide (Incl (s.pred x) (s.pred j))
  have key : ∀ n, ∀ e ∈ I, dn e ≤ n → SatI (s.pred e) m := by
    intro n
    induction n with
    | zero =>
      intro e he hd
      exfalso
      have : 0 < dn e := by
        rw [List.countP_pos_iff]
        exact ⟨e, List.mem_range.2 (hI e he), by simp [incl_refl]⟩
      omega
    | succ n ih =>
      intro e he hd
      by_cases hmin : e ∈ s.minimize I
      · exact hm e hmin
      · simp only [minimize, List.mem_filter, he, true_and, Bool.not_eq_true', Bool.not_eq_false, List.any_eq_true,
          List.contains_eq_mem, decide_eq_true_eq] at hmin
        obtain ⟨i, hi, hei⟩ := hmin
        obtain ⟨h1, h2, h3⟩ := h.sim i (hI i hi) e hei
        refine incl_sat (h.good e h1) (h.good i (hI i hi)) h3 (ih i hi ?_)
        have hlt : dn i < dn e := by
          have hsub : ∀ j ∈ List.range s.states.length, decide (Incl (s.pred i) (s.pred j)) = true →
              decide (Incl (s.pred e) (s.pred j)) = true := by
            intro j _ hj
            simp only [decide_eq_true_eq] at hj ⊢
            exact incl_trans h3 hj
          have hne : ¬ Incl (s.pred i) (s.pred e) := by
            intro hc
            exact h2 (h.inj e h1 i (hI i hi) (incl_antisymm (h.good e h1).sorted (h.good i (hI i hi)).sorted h3 hc))
          have gen : ∀ (l : List Nat), (∀ j ∈ l, decide (Incl (s.pred i) (s.pred j)) = true →
              decide (Incl (s.pred e) (s.pred j)) = true) → e ∈ l →
              l.countP (fun j => decide (Incl (s.pred i) (s.pred j))) < l.countP (fun j => decide (Incl (s.pred e) (s.pred j))) := by
            intro l
            induction l with
            | nil => intro _ hc; cases hc
            | cons j l ihl =>
              intro hs hmem
              rw [List.countP_cons, List.countP_cons]
              have hle : l.countP (fun j => decide (Incl (s.pred i) (s.pred j))) ≤ l.countP (fun j => decide (Incl (s.pred e) (s.pred j))) :=
                List.countP_mono_left (fun x hx => hs x (by simp [hx]))
              rcases List.mem_cons.1 hmem with rfl | hmem
              · simp only [hne, incl_refl, decide_false, decide_true, if_true]
                simp
                omega
              · have := ihl (fun x hx => hs x (by simp [hx])) hmem
                have hj := hs j (by simp)
                by_cases hc : decide (Incl (s.pred i) (s.pred j)) = true
                · rw [if_pos hc, if_pos (hj hc)]; omega
                · rw [if_neg hc]; omega
          exact gen _ hsub (List.mem_range.2 h1)
        omega
  exact fun e he => key _ e he (Nat.le_refl _)

/-- `follow` fails only on steps that cannot be taken, and otherwise gives predicates that hold afterwards. -/
theorem follow_spec (h : AInv N m0 G s) (sym : Nat) : ∀ (I next : List Nat), WFI s I →
    match s.follow sym I next with
    | none => ∃ i ∈ I, EdgeOK N G (s.pred i) sym (falseRange N.nplaces)
    | some nx => ∀ j ∈ nx, j ∈ next ∨ (j < s.states.length ∧ ∃ i ∈ I, EdgeOK N G (s.pred i) sym (s.pred j)) := by
  intro I
  induction I with
  | nil => intro next _; simp only [follow]; exact fun j hj => Or.inl hj
  | cons i I ih =>
    intro next hI
    have hI' : WFI s I := fun x hx => hI x (by simp [hx])
    have hi := hI i (by simp)
    simp only [follow]
    by_cases h0 : i = 0
    · rw [if_pos h0]
      have := ih next hI'
      revert this
      cases s.follow sym I next with
      | none => rintro ⟨j, hj, hh⟩; exact ⟨j, by simp [hj], hh⟩
      | some nx =>
        intro hh j hj
        rcases hh j hj with hj | ⟨hj, k, hk, hh⟩
        · exact Or.inl hj
        · exact Or.inr ⟨hj, k, by simp [hk], hh⟩
    · rw [if_neg h0]
      have ht : ∀ j ∈ targets (s.state i).edges sym, j < s.states.length ∧ EdgeOK N G (s.pred i) sym (s.pred j) := by
        intro j hj
        obtain ⟨x, hx, hsym, hjx⟩ := mem_targets hj
        rw [← hsym]; exact h.edge i hi h0 x hx j hjx
      generalize targets (s.state i).edges sym = T at ht
      by_cases hh : T.head? = some 0
      · rw [if_pos hh]
        have : 0 ∈ T := List.mem_of_mem_head? hh
        obtain ⟨_, he⟩ := ht 0 this
        rw [h.p0] at he
        exact ⟨i, by simp, he⟩
      · rw [if_neg hh]
        have := ih (insAll next T) hI'
        revert this
        cases s.follow sym I (insAll next T) with
        | none => rintro ⟨j, hj, hh⟩; exact ⟨j, by simp [hj], hh⟩
        | some nx =>
          intro hh j hj
          rcases hh j hj with hj | ⟨hj, k, hk, hh⟩
          · rcases (mem_insAll _ _ _).1 hj with hj | hj
            · exact Or.inl hj
            · exact Or.inr ⟨(ht j hj).1, i, by simp, (ht j hj).2⟩
          · exact Or.inr ⟨hj, k, by simp [hk], hh⟩

theorem mem_copyNonChanged (src mods : List Nat) : ∀ (acc : List Nat) (x : Nat), x ∈ s.copyNonChanged src mods acc →
    x ∈ acc ∨ (x ∈ src ∧ (s.pred x).restricts mods = false) := by
  unfold copyNonChanged
  induction src with
  | nil => intro acc x hx; exact Or.inl hx
  | cons p src ih =>
    intro acc x hx
    rw [List.foldl_cons] at hx
    rcases ih _ _ hx with hx | ⟨hx, hr⟩
    · split at hx
      · exact Or.inl hx
      · rename_i hr
        rcases mem_ins.1 hx with hx | rfl
        · exact Or.inl hx
        · exact Or.inr ⟨by simp, by simpa using hr⟩
    · exact Or.inr ⟨by simp [hx], hr⟩

theorem changes_sorted (N : FlatNet) (t : Nat) : (changes N t).Pairwise (· ≤ ·) := by
  unfold changes
  have := List.pairwise_mergeSort (le := fun a b : Nat => decide (a ≤ b)) (by intro a b c; simp; omega)
    (by intro a b; simp; omega) ((N.preset t).map (·.place) ++ (N.postset t).map (·.place))
  exact this.imp (by simp)

theorem mem_changes (N : FlatNet) (t p : Nat) : p ∈ changes N t ↔
    (∃ a ∈ N.preset t, a.place = p) ∨ ∃ a ∈ N.postset t, a.place = p := by
  unfold changes
  rw [List.mem_mergeSort]
  simp

/-- A predicate over places a transition does not touch is kept. -/
theorem nonChanged_keep {n : Nat} {v : PRVec} (g : Good n v) {t : Nat} (hr : v.restricts (changes N t) = false)
    {m m' : Nat → Nat} (hm : SatI v m) (hf : Fire N m t m') : SatI v m' := by
  obtain ⟨_, _, rfl⟩ := hf
  rw [restricts_false_iff _ _ g.sorted (changes_sorted N t)] at hr
  intro p
  by_cases hp : rng v p = {}
  · rw [hp]; exact has_default _
  · have he := mem_of_rng g.sorted hp
    have hn : p ∉ changes N t := by
      intro hc
      exact hp (unbound_iff.1 (hr p hc _ he rfl))
    rw [mem_changes] at hn
    have h1 : pre N t p = 0 := arcSum_zero (fun a ha hap => hn (Or.inl ⟨a, ha, hap⟩))
    have h2 : post N t p = 0 := arcSum_zero (fun a ha hap => hn (Or.inr ⟨a, ha, hap⟩))
    simp only [h1, h2]
    simpa using hm p

theorem doStep_none (h : AInv N m0 G s) {I : List Nat} (hI : WFI s I) {sym : Nat} (hd : doStep N s I sym = none) :
    ∃ i ∈ I, EdgeOK N G (s.pred i) sym (falseRange N.nplaces) := by
  have := follow_spec h sym I [] hI
  unfold doStep at hd
  revert this hd
  cases s.follow sym I [] with
  | none => intro _ this; exact this
  | some nx => intro hd; simp only at hd; split at hd <;> cases hd

theorem doStep_some (h : AInv N m0 G s) {I : List Nat} (hI : WFI s I) {t : Nat} {nx : List Nat}
    (hd : doStep N s I (t + 1) = some nx) :
    WFI s nx ∧ ∀ m m', Gam s I m → Fire N m t m' → Nz N.nplaces m' → Gam s nx m' := by
  have := follow_spec h (t + 1) I [] hI
  unfold doStep at hd
  revert this hd
  cases s.follow (t + 1) I [] with
  | none => intro hd; cases hd
  | some ny =>
    intro hd hny
    simp only [Nat.add_sub_cancel, Nat.succ_ne_zero, if_false] at hd
    obtain rfl := Option.some.inj hd
    have hw : WFI s (s.copyNonChanged I (changes N t) ny) := by
      intro x hx
      rcases mem_copyNonChanged _ _ _ _ hx with hx | ⟨hx, _⟩
      · rcases hny x hx with hx | ⟨hx, _⟩
        · cases hx
        · exact hx
      · exact hI x hx
    obtain ⟨h1, h2⟩ := maximize_spec h hw
    refine ⟨h1, fun m m' hm hf hz => h2 m' ?_⟩
    intro x hx
    rcases mem_copyNonChanged _ _ _ _ hx with hx | ⟨hx, hr⟩
    · rcases hny x hx with hx | ⟨_, i, hi, he⟩
      · cases hx
      · exact he m m' (hm i hi) hf hz
    · exact nonChanged_keep (h.good x (hI x hx)) hr (hm x hx) hf

/-! ## The loop -/

/-- What is known of a symbol of a set: the step cannot be taken, or its result lies in a set of `V`. -/
def Handled (N : FlatNet) (s : TraceSet) (use : Nat → Bool) (V : List (List Nat)) (I : List Nat) (e : Nat) : Prop :=
  use e = true → doStep N s I e = none ∨
    (e ≠ 0 ∧ ∃ nx, doStep N s I e = some nx ∧ ∃ J ∈ V, ∀ m, Gam s nx m → Gam s J m)

theorem Handled.mono {use : Nat → Bool} {V V' : List (List Nat)} (hV : ∀ J ∈ V, J ∈ V') {I : List Nat} {e : Nat}
    (h : Handled N s use V I e) : Handled N s use V' I e := by
  intro hu
  rcases h hu with h | ⟨h0, nx, h1, J, hJ, h2⟩
  · exact Or.inl h
  · exact Or.inr ⟨h0, nx, h1, J, hV J hJ, h2⟩

/-- The edge number `k` of a state. -/
def edgeNo (T offset k : Nat) : Nat := SState.edge T ⟨offset, k, []⟩

theorem edge_eq (T : Nat) (x : SState) : x.edge T = edgeNo T x.offset x.edgecnt := rfl

theorem edgeNo_surj (T offset e : Nat) (he : e ≤ T) : ∃ k ≤ T, edgeNo T offset k = e := by
  unfold edgeNo SState.edge
  rcases Nat.eq_zero_or_pos e with rfl | hp
  · exact ⟨0, Nat.zero_le _, by simp⟩
  · have hT : 0 < T := by omega
    let r := offset % T
    have hr : r < T := Nat.mod_lt _ hT
    have hoff : offset % T = r := rfl
    by_cases hc : r ≤ e - 1
    · refine ⟨e - 1 - r + 1, by omega, ?_⟩
      rw [if_neg (by simp)]
      simp only [Nat.add_sub_cancel]
      rw [Nat.add_mod, hoff, Nat.mod_eq_of_lt (a := e - 1 - r) (by omega), Nat.mod_eq_of_lt (by omega)]
      omega
    · refine ⟨e - 1 + T - r + 1, by omega, ?_⟩
      rw [if_neg (by simp)]
      simp only [Nat.add_sub_cancel]
      rw [Nat.add_mod, hoff, Nat.mod_eq_of_lt (a := e - 1 + T - r) (by omega)]
      have : e - 1 + T - r + r = (e - 1) + T := by omega
      rw [this, Nat.add_mod_right, Nat.mod_eq_of_lt (by omega)]
      omega

structure LoopInv (N : FlatNet) (s : TraceSet) (use : Nat → Bool) (D : List (List Nat)) (checked : List (List Nat))
    (stack : List SState) : Prop where
  wf : ∀ J ∈ D ++ stack.map (·.inter), WFI s J
  done : ∀ J ∈ D, ∀ e ≤ N.ntransitions, Handled N s use (D ++ stack.map (·.inter)) J e
  top : ∀ x ∈ stack.head?, ∀ k < x.edgecnt, k ≤ N.ntransitions →
    Handled N s use (D ++ stack.map (·.inter)) x.inter (edgeNo N.ntransitions x.offset k)
  below : ∀ x ∈ stack.tail, ∀ k ≤ x.edgecnt, k ≤ N.ntransitions →
    Handled N s use (D ++ stack.map (·.inter)) x.inter (edgeNo N.ntransitions x.offset k)
  chk : ∀ c ∈ checked, ∃ J ∈ D ++ stack.map (·.inter), ∀ m, Gam s c m → Gam s J m

/-- A set of sets closed under the used symbols. -/
def Closed (N : FlatNet) (s : TraceSet) (use : Nat → Bool) (V : List (List Nat)) : Prop :=
  (∀ J ∈ V, WFI s J) ∧ ∀ J ∈ V, ∀ e ≤ N.ntransitions, Handled N s use V J e

theorem subsumed_gam {checked : List (List Nat)} {nx : List Nat} (h : subsumed checked nx = true) :
    ∃ c ∈ checked, ∀ m, Gam s nx m → Gam s c m := by
  unfold subsumed at h
  rw [List.any_eq_true] at h
  obtain ⟨c, hc, h⟩ := h
  rw [List.all_eq_true] at h
  exact ⟨c, hc, fun m hm i hi => hm i (by simpa using h i hi)⟩

theorem mem_chainInsert {checked : List (List Nat)} {x c : List Nat} (h : c ∈ chainInsert checked x) :
    c ∈ checked ∨ c = x := by
  unfold chainInsert at h
  split at h
  · exact Or.inl h
  · rcases List.mem_append.1 h with h | h
    · exact Or.inl (List.mem_filter.1 h).1
    · exact Or.inr (by simpa using h)

theorem runTAR_covered (h : AInv N m0 G s) (use : Nat → Bool) (rand : Nat → Nat) :
    ∀ (fuel k : Nat) (checked : List (List Nat)) (stack : List SState) (D : List (List Nat)),
      LoopInv N s use D checked stack → runTAR N s use rand fuel k checked stack = .ok .covered →
      ∃ V, (∀ J ∈ D ++ stack.map (·.inter), J ∈ V) ∧ Closed N s use V := by
  intro fuel
  induction fuel with
  | zero => intro k checked stack D _ hr; cases hr
  | succ fuel ih =>
    intro k checked stack D inv hr
    cases stack with
    | nil =>
      refine ⟨D, fun J hJ => by simpa using hJ, fun J hJ => inv.wf J (by simpa using hJ), fun J hJ e he => ?_⟩
      have := inv.done J hJ e he
      simpa using this
    | cons x rest =>
      simp only [runTAR] at hr
      by_cases hdone : x.edgecnt > N.ntransitions
      · rw [if_pos hdone] at hr
        have hV : ∀ J, J ∈ D ++ (x :: rest).map (·.inter) ↔ J ∈ (x.inter :: D) ++ rest.map (·.inter) := by
          intro J; simp only [List.map_cons, List.mem_append, List.mem_cons]
          constructor
          · rintro (h | h | h) <;> simp [h]
          · rintro ((h | h) | h) <;> simp [h]
        have hx : ∀ e ≤ N.ntransitions, Handled N s use ((x.inter :: D) ++ rest.map (·.inter)) x.inter e := by
          intro e he
          obtain ⟨k', hk', rfl⟩ := edgeNo_surj N.ntransitions x.offset e he
          exact (inv.top x (by simp) k' (by omega) hk').mono (fun J hJ => (hV J).1 hJ)
        cases rest with
        | nil =>
          simp only at hr
          suffices hi : LoopInv N s use (x.inter :: D) checked [] by
            obtain ⟨V, h1, h2⟩ := ih k checked [] (x.inter :: D) hi hr
            exact ⟨V, fun J hJ => h1 J ((hV J).1 hJ), h2⟩
          refine ⟨?_, ?_, ?_, ?_, ?_⟩
          · exact fun J hJ => inv.wf J ((hV J).2 hJ)
          · intro J hJ e he
            rcases List.mem_cons.1 hJ with rfl | hJ
            · exact hx e he
            · exact (inv.done J hJ e he).mono (fun J hJ => (hV J).1 hJ)
          · intro y hy; cases hy
          · intro y hy; cases hy
          · intro c hc
            obtain ⟨J, hJ, h⟩ := inv.chk c hc
            exact ⟨J, (hV J).1 hJ, h⟩
        | cons r rs =>
          simp only at hr
          suffices hi : LoopInv N s use (x.inter :: D) checked (r.next :: rs) by
            obtain ⟨V, h1, h2⟩ := ih k checked (r.next :: rs) (x.inter :: D) hi hr
            exact ⟨V, fun J hJ => h1 J ((hV J).1 hJ), h2⟩
          refine ⟨?_, ?_, ?_, ?_, ?_⟩
          · exact fun J hJ => inv.wf J ((hV J).2 hJ)
          · intro J hJ e he
            rcases List.mem_cons.1 hJ with rfl | hJ
            · exact hx e he
            · exact (inv.done J hJ e he).mono (fun J hJ => (hV J).1 hJ)
          · intro y hy k' hk' hkT
            simp only [List.head?_cons, Option.mem_def, Option.some.injEq] at hy
            subst hy
            refine (inv.below r (by simp) k' ?_ hkT).mono (fun J hJ => (hV J).1 hJ)
            simp only [SState.next] at hk'; omega
          · intro y hy k' hk' hkT
            exact (inv.below y (by simp only [List.tail_cons] at hy ⊢; simp [hy]) k' hk' hkT).mono (fun J hJ => (hV J).1 hJ)
          · intro c hc
            obtain ⟨J, hJ, h⟩ := inv.chk c hc
            exact ⟨J, (hV J).1 hJ, h⟩
      · rw [if_neg hdone] at hr
        -- moving to the next edge of the top state
        have next : Handled N s use (D ++ (x :: rest).map (·.inter)) x.inter (edgeNo N.ntransitions x.offset x.edgecnt) →
            runTAR N s use rand fuel k checked (x.next :: rest) = .ok .covered →
            ∃ V, (∀ J ∈ D ++ (x :: rest).map (·.inter), J ∈ V) ∧ Closed N s use V := by
          intro hh hr'
          refine ih k checked (x.next :: rest) D ⟨inv.wf, inv.done, ?_, inv.below, inv.chk⟩ hr'
          intro y hy k' hk' hkT
          simp only [List.head?_cons, Option.mem_def, Option.some.injEq] at hy
          subst hy
          simp only [SState.next] at hk'
          rcases Nat.lt_succ_iff_lt_or_eq.1 hk' with hlt | heq
          · exact inv.top x (by simp) k' hlt hkT
          · rw [heq]; exact hh
        by_cases huse : use (x.edge N.ntransitions) = true
        · rw [huse] at hr
          simp only [Bool.not_true, Bool.false_eq_true, if_false] at hr
          cases hd : doStep N s x.inter (x.edge N.ntransitions) with
          | none =>
            rw [hd] at hr
            exact next (fun _ => Or.inl hd) hr
          | some nx =>
            rw [hd] at hr
            simp only at hr
            by_cases h0 : x.edge N.ntransitions = 0
            · rw [if_pos h0] at hr; cases hr
            · rw [if_neg h0] at hr
              by_cases hs : subsumed checked nx = true
              · rw [if_pos hs] at hr
                refine next (fun _ => Or.inr ⟨h0, nx, hd, ?_⟩) hr
                obtain ⟨c, hc, h1⟩ := subsumed_gam (s := s) hs
                obtain ⟨J, hJ, h2⟩ := inv.chk c hc
                exact ⟨J, hJ, fun m hm => h2 m (h1 m hm)⟩
              · rw [if_neg hs] at hr
                have hwx : WFI s x.inter := inv.wf _ (by simp)
                have hsucc : ∃ t, x.edge N.ntransitions = t + 1 := ⟨x.edge N.ntransitions - 1, by omega⟩
                obtain ⟨t, ht⟩ := hsucc
                have hnx := (doStep_some h hwx (ht ▸ hd)).1
                let y : SState := ⟨rand k, 0, nx⟩
                have hV : ∀ J ∈ D ++ (x :: rest).map (·.inter), J ∈ D ++ (y :: x :: rest).map (·.inter) := by
                  intro J hJ
                  simp only [List.map_cons, List.mem_append, List.mem_cons] at hJ ⊢
                  rcases hJ with h | h | h <;> simp [h]
                have hy : nx ∈ D ++ (y :: x :: rest).map (·.inter) := by simp [y]
                suffices hi : LoopInv N s use D (chainInsert checked (s.minimize nx)) (y :: x :: rest) by
                  obtain ⟨V, h1, h2⟩ := ih (k + 1) _ (y :: x :: rest) D hi hr
                  exact ⟨V, fun J hJ => h1 J (hV J hJ), h2⟩
                refine ⟨?_, ?_, ?_, ?_, ?_⟩
                · intro J hJ
                  simp only [List.map_cons, List.mem_append, List.mem_cons] at hJ
                  rcases hJ with hJ | rfl | hJ
                  · exact inv.wf J (by simp [hJ])
                  · exact hnx
                  · exact inv.wf J (by simp; exact Or.inr (by simpa using hJ))
                · exact fun J hJ e he => (inv.done J hJ e he).mono hV
                · intro z hz k' hk'
                  simp only [List.head?_cons, Option.mem_def, Option.some.injEq] at hz
                  subst hz
                  exact absurd hk' (Nat.not_lt_zero _)
                · intro z hz k' hk' hkT
                  simp only [List.tail_cons] at hz
                  rcases List.mem_cons.1 hz with rfl | hz
                  · rcases Nat.lt_or_eq_of_le hk' with hlt | heq
                    · exact (inv.top z (by simp) k' hlt hkT).mono hV
                    · rw [heq]
                      exact fun _ => Or.inr ⟨h0, nx, hd, nx, hy, fun m hm => hm⟩
                  · exact (inv.below z (by simpa using hz) k' hk' hkT).mono hV
                · intro c hc
                  rcases mem_chainInsert hc with hc | rfl
                  · obtain ⟨J, hJ, h⟩ := inv.chk c hc
                    exact ⟨J, hV J hJ, h⟩
                  · exact ⟨nx, hy, minimize_spec h hnx⟩
        · have hf : use (x.edge N.ntransitions) = false := by simpa using huse
          rw [hf] at hr
          simp only [Bool.not_false, if_true] at hr
          exact next (fun hu => absurd hu (by rw [← edge_eq, hf]; simp)) hr

/-- The markings reached by used transitions through non-empty markings. -/
inductive NzRun (N : FlatNet) (use : Nat → Bool) (m0 : Nat → Nat) : (Nat → Nat) → Prop
  | refl : NzRun N use m0 m0
  | step {m m' : Nat → Nat} (t : Nat) : NzRun N use m0 m → use (t + 1) = true → Fire N m t m' → Nz N.nplaces m' →
      NzRun N use m0 m'

theorem covered_sound (h : AInv N m0 G s) {use : Nat → Bool} (h0 : use 0 = true) {rand : Nat → Nat} {fuel off : Nat}
    (hr : runTAR N s use rand fuel 0 [] [⟨off, 0, s.maximize s.initial⟩] = .ok .covered) {m : Nat → Nat}
    (hm : NzRun N use m0 m) (hz : Nz N.nplaces m) : ¬ G m := by
  have hwi : WFI s s.initial := fun i hi => (h.init i hi).1
  have hgi : Gam s s.initial m0 := fun i hi => (h.init i hi).2
  obtain ⟨hw, hg⟩ := maximize_spec h hwi
  obtain ⟨V, hV, hwf, hcl⟩ := runTAR_covered h use rand fuel 0 [] _ [] (by
    refine ⟨?_, fun _ h => (by cases h), ?_, fun _ h => (by cases h), fun _ h => (by cases h)⟩
    · intro J hJ
      simp at hJ
      rw [hJ]; exact hw
    · intro x hx k hk
      simp only [List.head?_cons, Option.mem_def, Option.some.injEq] at hx
      subst hx
      exact absurd hk (Nat.not_lt_zero _)) hr
  have hinv : ∀ m, NzRun N use m0 m → ∃ J ∈ V, Gam s J m := by
    intro m hm
    induction hm with
    | refl => exact ⟨_, hV _ (by simp), hg _ hgi⟩
    | @step m m' t _ hu hf hz ih =>
      obtain ⟨J, hJ, hGJ⟩ := ih
      rcases hcl J hJ (t + 1) hf.1 hu with hd | ⟨_, nx, hd, K, hK, hsub⟩
      · obtain ⟨i, hi, he⟩ := doStep_none h (hwf J hJ) hd
        exact absurd hz (sat_falseRange (he m m' (hGJ i hi) hf hz))
      · exact ⟨K, hK, hsub m' ((doStep_some h (hwf J hJ) hd).2 m m' hGJ hf hz)⟩
  obtain ⟨J, hJ, hGJ⟩ := hinv m hm
  rcases hcl J hJ 0 (Nat.zero_le _) h0 with hd | ⟨hc, _⟩
  · obtain ⟨i, hi, he⟩ := doStep_none h (hwf J hJ) hd
    exact he m (hGJ i hi) hz
  · exact (hc rfl).elim

/-! ## The shape of a trace -/

/-- The symbols of a trace are transitions, and the last one is the query. -/
def TraceShape (T : Nat) (tr : List Nat) : Prop := ∃ l, tr = l ++ [0] ∧ ∀ e ∈ l, 1 ≤ e ∧ e ≤ T

theorem runTAR_trace (N : FlatNet) (s : TraceSet) (use : Nat → Bool) (rand : Nat → Nat) :
    ∀ (fuel k : Nat) (checked : List (List Nat)) (stack : List SState) (tr : List Nat),
      (∀ x ∈ stack.tail, 1 ≤ x.edge N.ntransitions ∧ x.edge N.ntransitions ≤ N.ntransitions) →
      runTAR N s use rand fuel k checked stack = .ok (.trace tr) → TraceShape N.ntransitions tr := by
  intro fuel
  induction fuel with
  | zero => intro k checked stack tr _ hr; cases hr
  | succ fuel ih =>
    intro k checked stack tr hst hr
    cases stack with
    | nil => cases hr
    | cons x rest =>
      simp only [List.tail_cons] at hst
      simp only [runTAR] at hr
      by_cases hdone : x.edgecnt > N.ntransitions
      · rw [if_pos hdone] at hr
        cases rest with
        | nil => exact ih _ _ _ _ (by simp) hr
        | cons r rs => exact ih _ _ _ _ (fun y hy => hst y (by simp only [List.tail_cons] at hy; simp [hy])) hr
      · rw [if_neg hdone] at hr
        by_cases huse : use (x.edge N.ntransitions) = true
        · rw [huse] at hr
          simp only [Bool.not_true, Bool.false_eq_true, if_false] at hr
          cases hd : doStep N s x.inter (x.edge N.ntransitions) with
          | none => rw [hd] at hr; exact ih k checked (x.next :: rest) tr hst hr
          | some nx =>
            rw [hd] at hr
            simp only at hr
            by_cases h0 : x.edge N.ntransitions = 0
            · rw [if_pos h0] at hr
              simp only [Except.ok.injEq, RunRes.trace.injEq] at hr
              subst hr
              refine ⟨rest.reverse.map (SState.edge N.ntransitions), by simp [h0], ?_⟩
              intro e he
              obtain ⟨y, hy, rfl⟩ := List.mem_map.1 he
              exact hst y (by simpa using hy)
            · rw [if_neg h0] at hr
              by_cases hs : subsumed checked nx = true
              · rw [if_pos hs] at hr; exact ih k checked (x.next :: rest) tr hst hr
              · rw [if_neg hs] at hr
                refine ih _ _ _ _ ?_ hr
                intro y hy
                simp only [List.tail_cons] at hy
                rcases List.mem_cons.1 hy with rfl | hy
                · refine ⟨by omega, ?_⟩
                  unfold SState.edge at h0 ⊢
                  by_cases hc : y.edgecnt = 0
                  · rw [if_pos hc] at h0; exact (h0 rfl).elim
                  · rw [if_neg hc]
                    have hT : 0 < N.ntransitions := by omega
                    have := Nat.mod_lt (y.edgecnt - 1 + y.offset) hT
                    omega
                · exact hst y hy
        · have hf : use (x.edge N.ntransitions) = false := by simpa using huse
          rw [hf] at hr
          simp only [Bool.not_false, if_true] at hr
          exact ih k checked (x.next :: rest) tr hst hr

end TAR
end Verif
