import Verif.LTL.Hyper
import Verif.Props.Net

/-!
# Lemmas on the compound generator
-/

namespace Verif
namespace Hyper
open FlatNet

/-! ### The counters -/

/-- the counters are in range -/
def Valid : List (List Nat) → List Nat → Prop
  | [], [] => True
  | e :: E, k :: ks => k < max 1 e.length ∧ Valid E ks
  | _, _ => False

/-- the number that the counters stand for -/
def num : List (List Nat) → List Nat → Nat
  | e :: E, k :: ks => k + max 1 e.length * num E ks
  | _, _ => 0

/-- the number of combinations -/
def combos (E : List (List Nat)) : Nat := (E.map fun e => max 1 e.length).prod

theorem combos_cons (e : List Nat) (E : List (List Nat)) : combos (e :: E) = max 1 e.length * combos E := by
  simp [combos]

theorem num_lt : ∀ E ks, Valid E ks → num E ks < combos E
  | [], [], _ => by simp [num, combos]
  | e :: E, k :: ks, h => by
    have ih := num_lt E ks h.2
    rw [combos_cons]
    have h1 := h.1
    show k + max 1 e.length * num E ks < max 1 e.length * combos E
    calc k + max 1 e.length * num E ks < max 1 e.length + max 1 e.length * num E ks := by omega
      _ = max 1 e.length * (num E ks + 1) := by rw [Nat.mul_add, Nat.mul_one, Nat.add_comm]
      _ ≤ max 1 e.length * combos E := Nat.mul_le_mul_left _ ih
  | [], _ :: _, h => h.elim
  | _ :: _, [], h => h.elim

theorem num_inj : ∀ E ks ls, Valid E ks → Valid E ls → num E ks = num E ls → ks = ls
  | [], [], [], _, _, _ => rfl
  | e :: E, k :: ks, l :: ls, h, h', he => by
    have he : k + max 1 e.length * num E ks = l + max 1 e.length * num E ls := he
    have hk := h.1
    have hl := h'.1
    have h1 : k = l := by
      have := congrArg (· % max 1 e.length) he
      simp only [Nat.add_mul_mod_self_left, Nat.mod_eq_of_lt hk, Nat.mod_eq_of_lt hl] at this
      exact this
    have h2 : num E ks = num E ls := Nat.eq_of_mul_eq_mul_left (by omega : 0 < max 1 e.length) (by omega)
    rw [h1, num_inj E ks ls h.2 h'.2 h2]
  | [], _ :: _, _, h, _, _ => h.elim
  | [], [], _ :: _, _, h, _ => h.elim
  | _ :: _, [], _, h, _, _ => h.elim
  | _ :: _, _ :: _, [], _, h, _ => h.elim

theorem bump_some : ∀ E ks ls, Valid E ks → bump E ks = some ls → Valid E ls ∧ num E ls = num E ks + 1
  | e :: E, k :: ks, ls, h, hb => by
    have hk := h.1
    unfold bump at hb
    split at hb
    · cases hb
      refine ⟨⟨by omega, h.2⟩, ?_⟩
      show k + 1 + _ = k + _ + 1
      omega
    · rename_i hlt
      obtain ⟨r, hr, rfl⟩ := Option.map_eq_some_iff.1 hb
      obtain ⟨h1, h2⟩ := bump_some E ks r h.2 hr
      refine ⟨⟨by omega, h1⟩, ?_⟩
      show 0 + max 1 e.length * num E r = k + max 1 e.length * num E ks + 1
      rw [h2, Nat.mul_add, Nat.mul_one]
      omega
  | [], [], _, _, hb => by cases hb
  | [], _ :: _, _, h, _ => h.elim
  | _ :: _, [], _, h, _ => h.elim

theorem bump_none : ∀ E ks, Valid E ks → bump E ks = none → num E ks + 1 = combos E
  | [], [], _, _ => by simp [num, combos]
  | e :: E, k :: ks, h, hb => by
    have hk := h.1
    unfold bump at hb
    split at hb
    · cases hb
    · rename_i hlt
      have ih := bump_none E ks h.2 (Option.map_eq_none_iff.1 hb)
      rw [combos_cons, ← ih, Nat.mul_add, Nat.mul_one]
      show k + max 1 e.length * num E ks + 1 = _
      omega
  | [], _ :: _, h, _ => h.elim
  | _ :: _, [], h, _ => h.elim

theorem valid_zero : ∀ E : List (List Nat), Valid E (List.replicate E.length 0) ∧ num E (List.replicate E.length 0) = 0
  | [] => ⟨trivial, rfl⟩
  | e :: E => by
    obtain ⟨h1, h2⟩ := valid_zero E
    refine ⟨⟨by omega, h1⟩, ?_⟩
    show 0 + max 1 e.length * num E (List.replicate E.length 0) = 0
    rw [h2]; simp

/-! ### Segments -/

variable {n : Nat}

theorem seg_set_self (w : Nat → Nat) (i : Nat) {m : Nat → Nat} (h : ∀ p, n ≤ p → m p = 0) : seg n (setSeg n w i m) i = m := by
  funext p
  unfold seg setSeg
  split
  · rename_i hp
    rw [if_pos ⟨Nat.le_add_right .., by omega⟩, Nat.add_sub_cancel_left]
  · exact (h p (by omega)).symm

theorem seg_set_other (w : Nat → Nat) {i j : Nat} (hij : i ≠ j) (m : Nat → Nat) : seg n (setSeg n w i m) j = seg n w j := by
  funext p
  unfold seg setSeg
  split
  · rename_i hp
    rw [if_neg]
    rintro ⟨h1, h2⟩
    rcases Nat.lt_or_gt_of_ne hij with h | h
    · have : (i + 1) * n ≤ j * n := Nat.mul_le_mul_right n h
      rw [Nat.succ_mul] at this
      omega
    · have : (j + 1) * n ≤ i * n := Nat.mul_le_mul_right n h
      rw [Nat.succ_mul] at this
      omega
  · rfl

theorem seg_big (w : Nat → Nat) (i p : Nat) (h : n ≤ p) : seg n w i p = 0 := if_neg (by omega)

theorem seg_copy {k i : Nat} (hi : i < k) (parent w : Nat → Nat) : seg n (copyAll n k parent w) i = seg n parent i := by
  funext p
  unfold seg copyAll
  split
  · rename_i hp
    rw [if_pos]
    have : (i + 1) * n ≤ k * n := Nat.mul_le_mul_right n hi
    rw [Nat.succ_mul] at this
    rw [Nat.mul_comm n k]
    omega
  · rfl

theorem initialAll_seg (init : Nat → Nat) (h : ∀ p, n ≤ p → init p = 0) (w : Nat → Nat) : ∀ k i, i < k → seg n (initialAll n init k w) i = init
  | k + 1, i, hi => by
    unfold initialAll
    by_cases e : k = i
    · subst e
      exact seg_set_self _ _ h
    · rw [seg_set_other _ e]
      exact initialAll_seg init h w k i (by omega)

/-! ### Firing and enumerating -/

variable {N : FlatNet}

/-- no trace comes near the limit of 32 bits -/
structure Fits (N : FlatNet) (k : Nat) (parent : Nat → Nat) : Prop where
  lt : ∀ i, i < k → ∀ p, seg N.nplaces parent i p < W32
  room : ∀ i, i < k → ∀ t, N.toNet.Enabled (seg N.nplaces parent i) t → ∀ p, N.toNet.fire (seg N.nplaces parent i) t p + 1 < W32

theorem fire_big (w : N.WF) {m : Nat → Nat} (hm : ∀ p, N.nplaces ≤ p → m p = 0) (t : Fin N.ntransitions) (p : Nat) (hp : N.nplaces ≤ p) :
    N.toNet.fire m t p = 0 := by
  show m p - N.toNet.pre t p + N.toNet.post t p = 0
  rw [hm p hp, post_lt w t p hp]
  omega

/-- what the list of a trace has to be -/
def Lists (N : FlatNet) (m : Nat → Nat) (e : List Nat) : Prop :=
  e.Nodup ∧ ∀ t, t ∈ e ↔ ∃ h : t < N.ntransitions, N.toNet.Enabled m ⟨t, h⟩

/-- where trace `m` goes with counter `c` -/
def Goes (N : FlatNet) (m : Nat → Nat) (e : List Nat) (c : Nat) (m' : Nat → Nat) : Prop :=
  (e = [] ∧ m' = m) ∨ ∃ h : e.getD c 0 < N.ntransitions, e ≠ [] ∧ N.toNet.Step m ⟨e.getD c 0, h⟩ m'

theorem fireFrom_spec (wf : N.WF) {k : Nat} {parent : Nat → Nat} (hF : Fits N k parent) : ∀ (E : List (List Nat)) (ks : List Nat) (i : Nat) (w : Nat → Nat),
    Valid E ks → i + E.length = k → (∀ j, j < E.length → Lists N (seg N.nplaces parent (i + j)) (E.getD j [])) →
    (∀ j, i ≤ j → j < k → seg N.nplaces w j = seg N.nplaces parent j) →
    ∃ w', fireFrom N i E ks w = .ok w' ∧ (∀ j, j < i → seg N.nplaces w' j = seg N.nplaces w j) ∧
      ∀ j, j < E.length → Goes N (seg N.nplaces parent (i + j)) (E.getD j []) (ks.getD j 0) (seg N.nplaces w' (i + j))
  | [], [], i, w, _, _, _, _ => ⟨w, rfl, fun _ _ => rfl, fun j hj => absurd hj (Nat.not_lt_zero _)⟩
  | e :: E, c :: ks, i, w, hv, hk, hL, hw => by
    have hk' : i + 1 + E.length = k := by simp only [List.length_cons] at hk; omega
    have hL' : ∀ j, j < E.length → Lists N (seg N.nplaces parent (i + 1 + j)) (E.getD j []) := fun j hj => by
      have := hL (j + 1) (by simp only [List.length_cons]; omega)
      rwa [show i + (j + 1) = i + 1 + j by omega] at this
    have hsplit : ∀ {w'}, (∀ j, j < E.length → Goes N (seg N.nplaces parent (i + 1 + j)) (E.getD j []) (ks.getD j 0) (seg N.nplaces w' (i + 1 + j))) →
        Goes N (seg N.nplaces parent i) e c (seg N.nplaces w' i) →
        ∀ j, j < (e :: E).length → Goes N (seg N.nplaces parent (i + j)) ((e :: E).getD j []) ((c :: ks).getD j 0) (seg N.nplaces w' (i + j)) := by
      intro w' h h0 j hj
      cases j with
      | zero => exact h0
      | succ j =>
        have := h j (by simp only [List.length_cons] at hj; omega)
        rwa [show i + 1 + j = i + (j + 1) by omega] at this
    unfold fireFrom
    by_cases he : e = []
    · rw [if_pos (by rw [he]; rfl)]
      obtain ⟨w', h1, h2, h3⟩ := fireFrom_spec wf hF E ks (i + 1) w hv.2 hk' hL' (fun j hj hjk => hw j (by omega) hjk)
      refine ⟨w', h1, fun j hj => h2 j (by omega), hsplit h3 (.inl ⟨he, ?_⟩)⟩
      rw [h2 i (by omega), hw i (Nat.le_refl _) (by omega)]
    · rw [if_neg (by simpa using he)]
      have hc : c < e.length := by
        have := hv.1
        have : 0 < e.length := List.length_pos_iff.2 he
        omega
      have hmem : e.getD c 0 ∈ e := by
        rw [List.getD_eq_getElem?_getD, List.getElem?_eq_getElem hc, Option.getD_some]
        exact List.getElem_mem _
      obtain ⟨ht, hen⟩ := ((hL 0 (by simp)).2 (e.getD c 0)).1 hmem
      have hik : i < k := by omega
      rw [hw i (Nat.le_refl _) hik]
      have hfs := fire_spec wf (seg N.nplaces parent i) (fun p _ => hF.lt i hik p) ⟨e.getD c 0, ht⟩ hen
      cases hf : N.fire (seg N.nplaces parent i) (e.getD c 0) with
      | none =>
        rw [hf] at hfs
        obtain ⟨p, _, hp⟩ := hfs
        have := hF.room i hik ⟨e.getD c 0, ht⟩ hen p
        omega
      | some m =>
        rw [hf] at hfs
        obtain ⟨rfl, _⟩ := hfs
        obtain ⟨w', h1, h2, h3⟩ := fireFrom_spec wf hF E ks (i + 1) (setSeg N.nplaces w i (N.toNet.fire (seg N.nplaces parent i) ⟨e.getD c 0, ht⟩)) hv.2 hk' hL'
          (fun j hj hjk => by rw [seg_set_other _ (by omega)]; exact hw j (by omega) hjk)
        refine ⟨w', h1, fun j hj => ?_, hsplit h3 (.inr ⟨ht, he, hen, ?_⟩)⟩
        · rw [h2 j (by omega), seg_set_other _ (by omega)]
        · rw [h2 i (by omega), seg_set_self]
          exact fun p hp => fire_big wf (seg_big _ _) _ p hp
  | [], _ :: _, _, _, h, _, _, _ => h.elim
  | _ :: _, [], _, _, h, _, _, _ => h.elim

theorem enumSegs_spec (wf : N.WF) {k : Nat} {parent : Nat → Nat} (hF : Fits N k parent) : ∀ (c i : Nat) (w : Nat → Nat), i + c = k →
    ∃ E w', enumSegs N parent c i w = .ok (E, w') ∧ E.length = c ∧ (∀ j, j < c → Lists N (seg N.nplaces parent (i + j)) (E.getD j [])) ∧
      ∀ j, 0 < j → seg N.nplaces w' j = seg N.nplaces w j
  | 0, i, w, _ => ⟨[], w, rfl, rfl, fun j hj => absurd hj (Nat.not_lt_zero _), fun _ _ => rfl⟩
  | c + 1, i, w, hk => by
    unfold enumSegs
    rcases C01_successor_enumeration_exact N wf (seg N.nplaces parent i) (fun p _ => hF.lt i (by omega) p) (fun _ => true)
      (N.ntransitions + 1) (Nat.lt_succ_self _) with ⟨l, hl, hn, hb, hs⟩ | ⟨_, t, p, _, _, he, hp⟩
    · rw [hl]
      obtain ⟨E, w', h1, h2, h3, h4⟩ := enumSegs_spec wf hF c (i + 1)
        (lastWrite N.nplaces w l) (by omega)
      refine ⟨l.map Prod.fst :: E, w', by simp only [h1], by simp [h2], fun j hj => ?_, fun j hj => ?_⟩
      · cases j with
        | zero =>
          refine ⟨hn, fun t => ⟨fun ht => ?_, fun ⟨ht, he⟩ => ?_⟩⟩
          · obtain ⟨x, hx, rfl⟩ := List.mem_map.1 ht
            exact ⟨hb x hx, ((hs ⟨x.1, hb x hx⟩ x.2).1 hx).2.1⟩
          · exact List.mem_map.2 ⟨(t, _), (hs ⟨t, ht⟩ _).2 ⟨rfl, he, rfl⟩, rfl⟩
        | succ j =>
          have := h3 j (by omega)
          rwa [show i + 1 + j = i + (j + 1) by omega] at this
      · rw [h4 j hj]
        unfold lastWrite
        split
        · exact seg_set_other _ (by omega) _
        · rfl
    · have := hF.room i (by omega) t he p
      omega

/-! ### The loop -/

theorem all_from (wf : N.WF) {k : Nat} {parent : Nat → Nat} (hF : Fits N k parent) {E : List (List Nat)} (hlen : E.length = k) (hk0 : 0 < k)
    (hL : ∀ j, j < k → Lists N (seg N.nplaces parent j) (E.getD j [])) : ∀ (r : Nat) (ks : List Nat) (w : Nat → Nat), Valid E ks →
    num E ks + r + 1 = combos E → ∃ l, compoundAll N k parent (r + 1) w ⟨E, ks⟩ = .ok (l, true) ∧ l.length = r ∧
      (∀ x ∈ l, ∃ ls, Valid E ls ∧ ∀ j, j < k → Goes N (seg N.nplaces parent j) (E.getD j []) (ls.getD j 0) (seg N.nplaces x j)) ∧
      ∀ ls, Valid E ls → num E ks < num E ls → ∃ x ∈ l, ∀ j, j < k → Goes N (seg N.nplaces parent j) (E.getD j []) (ls.getD j 0) (seg N.nplaces x j)
  | r, ks, w, hv, hr => by
    have hne : ks.isEmpty = false := by
      cases E with
      | nil => simp at hlen; omega
      | cons e E =>
        cases ks with
        | nil => exact hv.elim
        | cons => rfl
    unfold compoundAll compoundNext
    simp only [hne, Bool.false_eq_true, if_false]
    cases hb : bump E ks with
    | none =>
      have := bump_none E ks hv hb
      have hr0 : r = 0 := by omega
      subst hr0
      refine ⟨[], rfl, rfl, fun _ h => (by cases h), fun ls hls hlt => ?_⟩
      have := num_lt E ls hls
      omega
    | some it' =>
      obtain ⟨hv', hn'⟩ := bump_some E ks it' hv hb
      have hlt := num_lt E it' hv'
      obtain ⟨w', h1, _, h3⟩ := fireFrom_spec wf hF E it' 0 (copyAll N.nplaces k parent w) hv' (by omega)
        (fun j hj => by rw [Nat.zero_add]; exact hL j (by omega)) (fun j _ hj => seg_copy hj _ _)
      simp only [h1]
      cases r with
      | zero => omega
      | succ r =>
        obtain ⟨l, h4, h5, h6, h7⟩ := all_from wf hF hlen hk0 hL r it' w' hv' (by omega)
        have hgo : ∀ j, j < k → Goes N (seg N.nplaces parent j) (E.getD j []) (it'.getD j 0) (seg N.nplaces w' j) := fun j hj => by
          have := h3 j (by omega)
          rwa [Nat.zero_add] at this
        refine ⟨w' :: l, by simp only [h4], by simp [h5], fun x hx => ?_, fun ls hls hl => ?_⟩
        · rcases List.mem_cons.1 hx with rfl | hx
          · exact ⟨it', hv', hgo⟩
          · exact h6 x hx
        · by_cases e : num E ls = num E it'
          · rw [num_inj E ls it' hls hv' e]
            exact ⟨w', List.mem_cons_self .., hgo⟩
          · obtain ⟨x, hx, h⟩ := h7 ls hls (by omega)
            exact ⟨x, List.mem_cons_of_mem _ hx, h⟩

/-- the choices of the traces as counters -/
theorem counters : ∀ (E : List (List Nat)) (f : Nat → Nat), (∀ j, j < E.length → E.getD j [] = [] ∨ f j ∈ E.getD j []) →
    ∃ ls, Valid E ls ∧ ∀ j, j < E.length → E.getD j [] = [] ∨ (E.getD j []).getD (ls.getD j 0) 0 = f j
  | [], f, _ => ⟨[], trivial, fun j hj => absurd hj (Nat.not_lt_zero _)⟩
  | e :: E, f, h => by
    obtain ⟨ls, h1, h2⟩ := counters E (fun j => f (j + 1)) (fun j hj => h (j + 1) (by simp only [List.length_cons]; omega))
    have : ∃ c, c < max 1 e.length ∧ (e = [] ∨ e.getD c 0 = f 0) := by
      rcases h 0 (by simp) with h | h
      · exact ⟨0, by omega, .inl h⟩
      · have h : f 0 ∈ e := h
        obtain ⟨c, hc, he⟩ := List.getElem_of_mem h
        refine ⟨c, ?_, .inr ?_⟩
        · have : c < e.length := hc
          omega
        · show e.getD c 0 = f 0
          rw [List.getD_eq_getElem?_getD, List.getElem?_eq_getElem hc, Option.getD_some]
          exact he
    obtain ⟨c, hc, hce⟩ := this
    refine ⟨c :: ls, ⟨hc, h1⟩, fun j hj => ?_⟩
    cases j with
    | zero => exact hce
    | succ j => exact h2 j (by simp only [List.length_cons] at hj; omega)

/-! ### Evaluation -/

mutual
/-- The meaning of an expression: `m i` is the marking of trace `i`. -/
def HExpr.val (m : Nat → Nat → Nat) : Nat → HExpr → Int
  | _, .lit v => v
  | off, .id p => m off p
  | off, .plus c ids es => (c + (ids.map fun p => (m off p : Int)).sum) + valSum m off es
  | off, .minus e => - HExpr.val m off e
  | off, .sub e1 e2 => HExpr.val m off e1 - HExpr.val m off e2
  | _, .on i e => HExpr.val m i e
def valSum (m : Nat → Nat → Nat) : Nat → List HExpr → Int
  | _, [] => 0
  | off, e :: es => HExpr.val m off e + valSum m off es
end

/-- The meaning of a proposition: outside a scope it speaks about the first trace. -/
def HCond.Sat (N : FlatNet) (m : Nat → Nat → Nat) : Nat → HCond → Prop
  | off, .dead => N.toNet.Dead (m off)
  | off, .cmp .eq e1 e2 => HExpr.val m off e1 = HExpr.val m off e2
  | off, .cmp .ne e1 e2 => HExpr.val m off e1 ≠ HExpr.val m off e2
  | off, .cmp .lt e1 e2 => HExpr.val m off e1 < HExpr.val m off e2
  | off, .cmp .le e1 e2 => HExpr.val m off e1 ≤ HExpr.val m off e2
  | off, .cc l ng => if ng then ¬ ∀ c ∈ l, c.lower ≤ m off c.place ∧ m off c.place ≤ c.upper
      else ∀ c ∈ l, c.lower ≤ m off c.place ∧ m off c.place ≤ c.upper
  | off, .not c => ¬ HCond.Sat N m off c
  | off, .and c d => HCond.Sat N m off c ∧ HCond.Sat N m off d
  | _, .on i c => HCond.Sat N m i c

mutual
/-- the places of an expression exist, and sums of places belong to the first trace -/
def okE (n : Nat) : Nat → HExpr → Bool
  | _, .lit _ => true
  | _, .id p => decide (p < n)
  | off, .plus _ ids es => (ids.isEmpty || (decide (off = 0) && ids.all fun p => decide (p < n))) && okEs n off es
  | off, .minus e => okE n off e
  | off, .sub e1 e2 => okE n off e1 && okE n off e2
  | _, .on i e => okE n i e
def okEs (n : Nat) : Nat → List HExpr → Bool
  | _, [] => true
  | off, e :: es => okE n off e && okEs n off es
end

mutual
/-- every place is under a trace -/
def closedE : HExpr → Bool
  | .lit _ => true
  | .id _ => false
  | .plus _ ids es => ids.isEmpty && closedEs es
  | .minus e => closedE e
  | .sub e1 e2 => closedE e1 && closedE e2
  | .on _ _ => true
def closedEs : List HExpr → Bool
  | [] => true
  | e :: es => closedE e && closedEs es
end

/-- the propositions that are evaluated as they should -/
def okC (n : Nat) : Nat → HCond → Bool
  | off, .dead => decide (off = 0)
  | off, .cmp _ e1 e2 => (decide (off = 0) || (closedE e1 && closedE e2)) && (okE n 0 e1 && okE n 0 e2)
  | off, .cc l _ => decide (off = 0) && l.all fun c => decide (c.place < n)
  | off, .not c => okC n off c
  | off, .and c d => okC n off c && okC n off d
  | _, .on i c => okC n i c

theorem seg_read {n : Nat} (w : Nat → Nat) (i : Nat) {p : Nat} (h : p < n) : seg n w i p = w (p + i * n) := by
  unfold seg
  rw [if_pos h, Nat.add_comm]

theorem sum_places {n : Nat} (w : Nat → Nat) : ∀ (ids : List Nat) (c : Int), (ids.all fun p => decide (p < n)) = true →
    ids.foldl (fun r p => r + (w p : Int)) c = c + (ids.map fun p => (seg n w 0 p : Int)).sum
  | [], c, _ => by simp
  | p :: ids, c, h => by
    rw [List.all_cons, Bool.and_eq_true, decide_eq_true_eq] at h
    rw [List.foldl_cons, sum_places w ids _ h.2, List.map_cons, List.sum_cons, seg_read w 0 h.1]
    simp only [Nat.zero_mul, Nat.add_zero]
    omega

mutual
theorem hval_eq {n : Nat} (w : Nat → Nat) : ∀ (off : Nat) (e : HExpr), okE n off e = true → hval n w off e = HExpr.val (seg n w) off e
  | _, .lit v, _ => by simp [hval, HExpr.val]
  | off, .id p, h => by
    have h : p < n := by simpa [okE] using h
    simp [hval, HExpr.val, seg_read w off h]
  | off, .plus c ids es, h => by
    simp only [okE, Bool.and_eq_true, Bool.or_eq_true, decide_eq_true_eq, List.isEmpty_iff] at h
    rw [hval, HExpr.val, hsum_eq w off _ es h.2]
    congr 1
    rcases h.1 with rfl | ⟨rfl, h'⟩
    · simp
    · exact sum_places w ids c h'
  | off, .minus e, h => by
    rw [hval, HExpr.val, hval_eq w off e (by simpa [okE] using h)]
  | off, .sub e1 e2, h => by
    simp only [okE, Bool.and_eq_true] at h
    rw [hval, HExpr.val, hval_eq w off e1 h.1, hval_eq w off e2 h.2]
  | _, .on i e, h => by
    rw [hval, HExpr.val, hval_eq w i e (by simpa [okE] using h)]
theorem hsum_eq {n : Nat} (w : Nat → Nat) : ∀ (off : Nat) (r : Int) (es : List HExpr), okEs n off es = true →
    hsum n w off r es = r + valSum (seg n w) off es
  | _, r, [], _ => by simp [hsum, valSum]
  | off, r, e :: es, h => by
    simp only [okEs, Bool.and_eq_true] at h
    rw [hsum, valSum, hval_eq w off e h.1, hsum_eq w off _ es h.2]
    omega
end

mutual
theorem val_closed (m : Nat → Nat → Nat) (o1 o2 : Nat) : ∀ e : HExpr, closedE e = true → HExpr.val m o1 e = HExpr.val m o2 e
  | .lit v, _ => by simp [HExpr.val]
  | .id p, h => by simp [closedE] at h
  | .plus c ids es, h => by
    simp only [closedE, Bool.and_eq_true, List.isEmpty_iff] at h
    rw [HExpr.val, HExpr.val, valSum_closed m o1 o2 es h.2, h.1]
    rfl
  | .minus e, h => by
    rw [HExpr.val, HExpr.val, val_closed m o1 o2 e (by simpa [closedE] using h)]
  | .sub e1 e2, h => by
    simp only [closedE, Bool.and_eq_true] at h
    rw [HExpr.val, HExpr.val, val_closed m o1 o2 e1 h.1, val_closed m o1 o2 e2 h.2]
  | .on i e, _ => by rw [HExpr.val, HExpr.val]
theorem valSum_closed (m : Nat → Nat → Nat) (o1 o2 : Nat) : ∀ es : List HExpr, closedEs es = true → valSum m o1 es = valSum m o2 es
  | [], _ => by simp [valSum]
  | e :: es, h => by
    simp only [closedEs, Bool.and_eq_true] at h
    rw [valSum, valSum, val_closed m o1 o2 e h.1, valSum_closed m o1 o2 es h.2]
end

theorem checkInvs_congr {m m' : Nat → Nat} : ∀ l : List Invariant, (∀ i ∈ l, m i.place = m' i.place) → checkInvs m l = checkInvs m' l
  | [], _ => rfl
  | i :: l, h => by
    have h1 := h i (List.mem_cons_self ..)
    have ih := checkInvs_congr l fun j hj => h j (List.mem_cons_of_mem _ hj)
    unfold checkInvs
    rw [h1, ih]

theorem enabled_seg (wf : N.WF) (w : Nat → Nat) (t : Fin N.ntransitions) : N.toNet.Enabled w t ↔ N.toNet.Enabled (seg N.nplaces w 0) t := by
  rw [← checkPreset_iff wf, ← checkPreset_iff wf]
  unfold checkPreset
  rw [checkInvs_congr]
  intro i hi
  unfold preset slice at hi
  have := wf.place_lt i (List.mem_of_mem_drop (List.mem_of_mem_take hi))
  rw [seg_read w 0 this]
  simp

theorem dead_seg (wf : N.WF) (w : Nat → Nat) : N.deadlocked w = true ↔ N.toNet.Dead (seg N.nplaces w 0) := by
  rw [C02_deadlock_exact N wf w]
  exact forall_congr' fun t => not_congr (enabled_seg wf w t)

theorem heval_iff (wf : N.WF) (w : Nat → Nat) : ∀ (off : Nat) (c : HCond), okC N.nplaces off c = true →
    (heval N.nplaces N.deadlocked w off c = true ↔ HCond.Sat N (seg N.nplaces w) off c)
  | off, .dead, h => by
    have h : off = 0 := by simpa [okC] using h
    subst h
    exact dead_seg wf w
  | off, .cmp op e1 e2, h => by
    simp only [okC, Bool.and_eq_true, Bool.or_eq_true, decide_eq_true_eq] at h
    obtain ⟨h, h1, h2⟩ := h
    have e1' : hval N.nplaces w 0 e1 = HExpr.val (seg N.nplaces w) off e1 := by
      rw [hval_eq w 0 e1 h1]
      rcases h with rfl | h
      · rfl
      · exact val_closed _ _ _ _ h.1
    have e2' : hval N.nplaces w 0 e2 = HExpr.val (seg N.nplaces w) off e2 := by
      rw [hval_eq w 0 e2 h2]
      rcases h with rfl | h
      · rfl
      · exact val_closed _ _ _ _ h.2
    cases op <;> simp only [heval, HCond.Sat, e1', e2', decide_eq_true_eq]
  | off, .cc l ng, h => by
    simp only [okC, Bool.and_eq_true, decide_eq_true_eq, List.all_eq_true] at h
    obtain ⟨rfl, h⟩ := h
    have hall : (l.all fun c => decide (w c.place ≤ c.upper) && decide (c.lower ≤ w c.place)) = true ↔
        ∀ c ∈ l, c.lower ≤ seg N.nplaces w 0 c.place ∧ seg N.nplaces w 0 c.place ≤ c.upper := by
      rw [List.all_eq_true]
      refine forall_congr' fun c => forall_congr' fun hc => ?_
      rw [seg_read w 0 (h c hc), Bool.and_eq_true, decide_eq_true_eq, decide_eq_true_eq, Nat.zero_mul, Nat.add_zero, and_comm]
    show (ng != _) = true ↔ _
    unfold HCond.Sat
    rw [← hall]
    cases ng <;> simp
  | off, .not c, h => by
    have ih := heval_iff wf w off c h
    show (!heval _ _ _ _ _) = true ↔ _
    unfold HCond.Sat
    rw [← ih]
    simp
  | off, .and c d, h => by
    simp only [okC, Bool.and_eq_true] at h
    show (heval _ _ _ _ _ && heval _ _ _ _ _) = true ↔ _
    rw [Bool.and_eq_true, heval_iff wf w off c h.1, heval_iff wf w off d h.2]
    rfl
  | _, .on i c, h => heval_iff wf w i c h

end Hyper
end Verif
