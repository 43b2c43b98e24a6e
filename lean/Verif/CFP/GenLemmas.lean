import Verif.CFP.TermLemmas

/-!
# The intervals of the variables cover the bindings

For an assignment that takes covered tokens from all input arcs one of the maps of the variables contains the assignment.
-/

namespace Verif
namespace CFP

open CPN

variable {T : Types} {vty : Nat → Nat}

/-! ### Shifts -/

theorem shift_between {w n : Nat} {m : Int} {r : Rng} (hm : -(n : Int) ≤ m) (hs : r.lo ≤ r.hi) (hr : r.hi < n) {a : Nat} (h1 : r.lo ≤ a) (h2 : a ≤ r.hi) :
    if shiftN w n m r.lo > shiftN w n m r.hi then shiftN w n m a ≤ shiftN w n m r.hi ∨ shiftN w n m r.lo ≤ shiftN w n m a
    else shiftN w n m r.lo ≤ shiftN w n m a ∧ shiftN w n m a ≤ shiftN w n m r.hi := by
  have hu := shiftN_succ (w := w) hm hs hr
  have ha := shiftN_succ (w := w) hm h1 (show a < n by omega)
  have hl := shiftN_lt (w := w) (m := m) (a := r.lo) (show 0 < n by omega)
  generalize shiftN w n m r.hi = u at *
  generalize shiftN w n m r.lo = l at *
  generalize shiftN w n m a = y at *
  split at hu <;> split at ha <;> split <;> omega

theorem rangesFrom_has {n : Nat} {m : Int} {r : Rng} (hm : -(n : Int) ≤ m) (hs : r.lo ≤ r.hi) (hr : r.hi < n) {a : Nat} (h1 : r.lo ≤ a) (h2 : a ≤ r.hi) :
    ∃ q ∈ rangesFrom n m r, q.lo ≤ shiftN 64 n m a ∧ shiftN 64 n m a ≤ q.hi := by
  have hb := shift_between (w := 64) hm hs hr h1 h2
  have ha := shiftN_lt (w := 64) (m := m) (a := a) (show 0 < n by omega)
  unfold rangesFrom
  simp only
  by_cases c : shiftN 64 n m r.lo > shiftN 64 n m r.hi
  · rw [if_pos c] at hb ⊢
    by_cases c2 : shiftN 64 n m r.lo = shiftN 64 n m r.hi + 1
    · rw [if_pos c2]
      exact ⟨_, List.mem_singleton.2 rfl, Nat.zero_le _, by show _ ≤ n - 1; omega⟩
    · rw [if_neg c2]
      rcases hb with hb | hb
      · exact ⟨_, List.mem_cons_self, Nat.zero_le _, hb⟩
      · exact ⟨_, List.mem_cons_of_mem _ (List.mem_singleton.2 rfl), hb, by show _ ≤ n - 1; omega⟩
  · rw [if_neg c] at hb ⊢
    exact ⟨_, List.mem_singleton.2 rfl, hb⟩

theorem rangesFrom_in {n : Nat} (hn : 0 < n) (m : Int) (r : Rng) : ∀ q ∈ rangesFrom n m r, q.lo ≤ q.hi ∧ q.hi < n := by
  have hl := shiftN_lt (w := 64) (m := m) (a := r.lo) hn
  have hu := shiftN_lt (w := 64) (m := m) (a := r.hi) hn
  intro q hq
  unfold rangesFrom at hq
  simp only at hq
  split at hq
  · split at hq
    · rw [List.mem_singleton] at hq; subst hq; constructor <;> (simp only; omega)
    · rw [List.mem_cons, List.mem_singleton] at hq
      rcases hq with rfl | rfl <;> constructor <;> (simp only; omega)
  · rw [List.mem_singleton] at hq; subst hq; constructor <;> (simp only; omega)

theorem shiftRanges_has {n : Nat} {m : Int} {r : Rng} (hm : -(n : Int) ≤ m) (hs : r.lo ≤ r.hi) (hr : r.hi < n) {a : Nat} (h1 : r.lo ≤ a) (h2 : a ≤ r.hi) :
    ∃ q ∈ shiftRanges n m r, q.lo ≤ shiftN 32 n m a ∧ shiftN 32 n m a ≤ q.hi := by
  have hb := shift_between (w := 32) hm hs hr h1 h2
  have ha := shiftN_lt (w := 32) (m := m) (a := a) (show 0 < n by omega)
  unfold shiftRanges
  simp only
  by_cases c : shiftN 32 n m r.hi + 1 = shiftN 32 n m r.lo
  · rw [if_pos c]
    exact ⟨_, List.mem_singleton.2 rfl, Nat.zero_le _, by show _ ≤ n - 1; omega⟩
  · rw [if_neg c]
    by_cases c2 : shiftN 32 n m r.hi < shiftN 32 n m r.lo
    · rw [if_pos c2] at hb ⊢
      rcases hb with hb | hb
      · exact ⟨_, List.mem_cons_of_mem _ (List.mem_singleton.2 rfl), Nat.zero_le _, hb⟩
      · exact ⟨_, List.mem_cons_self, hb, by show _ ≤ n - 1; omega⟩
    · rw [if_neg c2] at hb ⊢
      exact ⟨_, List.mem_singleton.2 rfl, hb⟩

theorem shiftRanges_in {n : Nat} (hn : 0 < n) (m : Int) (r : Rng) : ∀ q ∈ shiftRanges n m r, q.lo ≤ q.hi ∧ q.hi < n := by
  have hl := shiftN_lt (w := 32) (m := m) (a := r.lo) hn
  have hu := shiftN_lt (w := 32) (m := m) (a := r.hi) hn
  intro q hq
  unfold shiftRanges at hq
  simp only at hq
  split at hq
  · rw [List.mem_singleton] at hq; subst hq; constructor <;> (simp only; omega)
  · split at hq
    · rw [List.mem_cons, List.mem_singleton] at hq
      rcases hq with rfl | rfl <;> constructor <;> (simp only; omega)
    · rw [List.mem_singleton] at hq; subst hq; constructor <;> (simp only; omega)

/-- The components of a value shifted back. -/
def unshift (m : Int) (ns : List Nat) (x : Val) : Val := List.zipWith (fun n a => shiftN 64 n m a) ns x

theorem intervalsFrom_has {m : Int} : (ns : List Nat) → (i : List Rng) → (x : Val) → (∀ n ∈ ns, -(n : Int) ≤ m) →
    Interval.In ns (i.take ns.length) → Interval.Has (i.take ns.length) (x.take ns.length) →
    IVec.Has (intervalsFrom m ns i) (unshift m ns x)
  | [], i, x, _, _, _ => ⟨[], by rw [intervalsFrom]; exact List.mem_singleton.2 rfl, by unfold unshift; simp [Interval.Has]⟩
  | n :: ns, [], x, _, h, _ => h.elim
  | n :: ns, r :: i, [], _, _, g => g.elim
  | n :: ns, r :: i, a :: x, hm, h, g => by
    rw [List.length_cons, List.take_succ_cons] at h g
    rw [List.take_succ_cons] at g
    obtain ⟨q, hq, h1⟩ := rangesFrom_has (hm n List.mem_cons_self) h.1.1 h.1.2 g.1.1 g.1.2
    obtain ⟨j, hj, h2⟩ := intervalsFrom_has ns i x (fun k hk => hm k (List.mem_cons_of_mem _ hk)) h.2 g.2
    refine ⟨q :: j, ?_, h1, h2⟩
    rw [intervalsFrom]
    exact List.mem_flatten.2 ⟨_, List.mem_map.2 ⟨q, hq, rfl⟩, List.mem_map.2 ⟨j, hj, rfl⟩⟩

theorem intervalsFrom_in {m : Int} : (ns : List Nat) → (i : List Rng) → (∀ n ∈ ns, 0 < n) → IVec.In ns (intervalsFrom m ns i)
  | [], i, _ => fun j hj => by rw [intervalsFrom, List.mem_singleton] at hj; subst hj; trivial
  | n :: ns, [], _ => fun j hj => by rw [intervalsFrom] at hj; cases hj
  | n :: ns, r :: i, hn => fun j hj => by
    rw [intervalsFrom] at hj
    obtain ⟨l, hl, hj⟩ := List.mem_flatten.1 hj
    obtain ⟨q, hq, rfl⟩ := List.mem_map.1 hl
    obtain ⟨k, hk, rfl⟩ := List.mem_map.1 hj
    exact ⟨rangesFrom_in (hn n List.mem_cons_self) m r q hq, intervalsFrom_in ns i (fun k hk => hn k (List.mem_cons_of_mem _ hk)) k hk⟩

theorem overlaps_has {dims : List Nat} {v w : IVec} {x : Val} (hv : IVec.In dims v) (hw : IVec.In dims w) (h1 : IVec.Has v x) (h2 : IVec.Has w x) :
    IVec.Has (overlaps v w) x := by
  obtain ⟨i, hi, hx⟩ := h1
  obtain ⟨j, hj, hy⟩ := h2
  have ho : Interval.Has (i.overlap j) x := (Interval.overlap_has (by rw [(hv i hi).length, (hw j hj).length])).2 ⟨hx, hy⟩
  refine IVec.addAll_has_right [] ⟨i.overlap j, List.mem_filter.2 ⟨?_, ho.sound⟩, ho⟩
  exact List.mem_flatten.2 ⟨_, List.mem_map.2 ⟨i, hi, rfl⟩, List.mem_map.2 ⟨j, hj, rfl⟩⟩

theorem nil_in (dims : List Nat) : IVec.In dims [] := fun _ h => by cases h

theorem overlaps_in {dims : List Nat} {v w : IVec} (hv : IVec.In dims v) (hw : IVec.In dims w) : IVec.In dims (overlaps v w) := by
  refine IVec.In.addAll (nil_in _) fun k hk => ?_
  obtain ⟨hk, hs⟩ := List.mem_filter.1 hk
  obtain ⟨l, hl, hk⟩ := List.mem_flatten.1 hk
  obtain ⟨i, hi, rfl⟩ := List.mem_map.1 hl
  obtain ⟨j, hj, rfl⟩ := List.mem_map.1 hk
  exact (hv i hi).overlap (hw j hj) hs

theorem full_in : (dims : List Nat) → (∀ n ∈ dims, 0 < n) → Interval.In dims (fullInterval dims)
  | [], _ => trivial
  | n :: ns, h => ⟨⟨Nat.zero_le _, by have := h n List.mem_cons_self; show n - 1 < n; omega⟩, full_in ns fun k hk => h k (List.mem_cons_of_mem _ hk)⟩

theorem full_has : (dims : List Nat) → (x : Val) → Fits dims x → Interval.Has (fullInterval dims) x
  | [], [], _ => trivial
  | n :: ns, a :: x, h => ⟨⟨Nat.zero_le _, by have := h.1; show a ≤ n - 1; omega⟩, full_has ns x h.2⟩
  | [], _ :: _, h => h.elim
  | _ :: _, [], h => h.elim

theorem fits_pos : (dims : List Nat) → (x : Val) → Fits dims x → ∀ n ∈ dims, 0 < n
  | [], [], _ => fun n hn => by cases hn
  | n :: ns, a :: x, h => fun k hk => by
    rcases List.mem_cons.1 hk with rfl | hk
    · have := h.1; omega
    · exact fits_pos ns x h.2 k hk
  | [], _ :: _, h => h.elim
  | _ :: _, [], h => h.elim

/-! ### The entries of a variable for a leaf -/

/-- An entry says where and with what modifier the value `x` of the leaf contains the value `y` of the variable. -/
structure EntryOk (pdims vdims : List Nat) (x y : Val) (q : Nat × Int) : Prop where
  pos : vdims = (pdims.drop q.1).take vdims.length
  small : ∀ n ∈ vdims, -(n : Int) ≤ q.2
  val : unshift q.2 vdims (x.drop q.1) = y

theorem in_drop : (dims : List Nat) → (i : Interval) → (k : Nat) → Interval.In dims i → Interval.In (dims.drop k) (i.drop k)
  | _, _, 0, h => h
  | [], [], _ + 1, _ => trivial
  | _ :: ns, _ :: i, k + 1, h => in_drop ns i k h.2
  | [], _ :: _, _ + 1, h => h.elim
  | _ :: _, [], _ + 1, h => h.elim

theorem in_take : (dims : List Nat) → (i : Interval) → (k : Nat) → Interval.In dims i → Interval.In (dims.take k) (i.take k)
  | _, _, 0, _ => trivial
  | [], [], _ + 1, _ => trivial
  | _ :: ns, _ :: i, k + 1, h => ⟨h.1, in_take ns i k h.2⟩
  | [], _ :: _, _ + 1, h => h.elim
  | _ :: _, [], _ + 1, h => h.elim

theorem has_drop : (i : Interval) → (x : Val) → (k : Nat) → Interval.Has i x → Interval.Has (i.drop k) (x.drop k)
  | _, _, 0, h => h
  | [], [], _ + 1, _ => trivial
  | _ :: i, _ :: x, k + 1, h => has_drop i x k h.2
  | [], _ :: _, _ + 1, h => h.elim
  | _ :: _, [], _ + 1, h => h.elim

theorem has_take : (i : Interval) → (x : Val) → (k : Nat) → Interval.Has i x → Interval.Has (i.take k) (x.take k)
  | _, _, 0, _ => trivial
  | [], [], _ + 1, _ => trivial
  | _ :: i, _ :: x, k + 1, h => ⟨h.1, has_take i x k h.2⟩
  | [], _ :: _, _ + 1, h => h.elim
  | _ :: _, [], _ + 1, h => h.elim

theorem entry_has {pdims vdims : List Nat} {x y : Val} {q : Nat × Int} {box : Interval} (h : EntryOk pdims vdims x y q)
    (hb : Interval.In pdims box) (hx : Interval.Has box x) : IVec.Has (intervalsFrom q.2 vdims (box.drop q.1)) y := by
  rw [← h.val]
  refine intervalsFrom_has vdims _ _ h.small ?_ (has_take _ _ _ (has_drop _ _ _ hx))
  have := in_take _ _ vdims.length (in_drop _ _ q.1 hb)
  rw [← h.pos] at this
  exact this

theorem arcVar_fold {pdims vdims : List Nat} {x y : Val} {box : Interval} (hn : ∀ n ∈ vdims, 0 < n)
    (hb : Interval.In pdims box) (hx : Interval.Has box x) (es : List (Nat × Int)) (h : ∀ q ∈ es, EntryOk pdims vdims x y q)
    (vi : IVec) (hv : IVec.In vdims vi) (hy : vi ≠ [] → IVec.Has vi y) :
    IVec.In vdims (es.foldl (fun vi q =>
      let is := intervalsFrom q.2 vdims (box.drop q.1)
      if vi.isEmpty then IVec.addAll [] is else overlaps vi is) vi) ∧
    ((vi ≠ [] ∨ es ≠ []) → IVec.Has (es.foldl (fun vi q =>
      let is := intervalsFrom q.2 vdims (box.drop q.1)
      if vi.isEmpty then IVec.addAll [] is else overlaps vi is) vi) y) := by
  induction es generalizing vi with
  | nil => exact ⟨hv, fun hh => hy (by simpa using hh)⟩
  | cons q es ih =>
    have h1 := entry_has (h q List.mem_cons_self) hb hx
    have h2 : IVec.In vdims (intervalsFrom q.2 vdims (box.drop q.1)) := intervalsFrom_in _ _ hn
    rw [List.foldl_cons]
    have key : IVec.In vdims (if vi.isEmpty then IVec.addAll [] (intervalsFrom q.2 vdims (box.drop q.1)) else overlaps vi (intervalsFrom q.2 vdims (box.drop q.1))) ∧
        IVec.Has (if vi.isEmpty then IVec.addAll [] (intervalsFrom q.2 vdims (box.drop q.1)) else overlaps vi (intervalsFrom q.2 vdims (box.drop q.1))) y := by
      cases vi with
      | nil =>
        exact ⟨IVec.In.addAll (nil_in _) h2, IVec.addAll_has_right [] h1⟩
      | cons i l =>
        exact ⟨overlaps_in hv h2, overlaps_has hv h2 (hy (by simp)) h1⟩
    obtain ⟨i1, i2⟩ := ih (fun q hq => h q (List.mem_cons_of_mem _ hq)) _ key.1 (fun _ => key.2)
    refine ⟨i1, fun _ => i2 (Or.inl ?_)⟩
    intro e
    rw [e] at key
    exact IVec.has_nil key.2

/-- The entries of the leaf of a variable are right, or there are none and there are other leaves. -/
structure LeafOk (pdims vdims : List Nat) (x y : Val) (k j : Nat) (vec : List (List (Nat × Int))) : Prop where
  entries : ∀ q ∈ vec.getD j [], EntryOk pdims vdims x y q
  some : vec.getD j [] ≠ [] ∨ 1 < k

theorem leafIntervals_ok {pdims vdims : List Nat} {x y : Val} {k j : Nat} {vec : List (List (Nat × Int))} {box : Interval}
    (hb : Interval.In pdims box) (hx : Interval.Has box x) (hy : Fits vdims y) (h : LeafOk pdims vdims x y k j vec) :
    IVec.In vdims (leafIntervals vdims k j vec box) ∧ IVec.Has (leafIntervals vdims k j vec box) y := by
  have hn := fits_pos _ _ hy
  obtain ⟨h1, h2⟩ := arcVar_fold hn hb hx (vec.getD j []) h.entries [] (nil_in _) (fun hh => absurd rfl hh)
  unfold leafIntervals
  simp only
  by_cases c : k > 1 ∧ (vec.getD j []).isEmpty = true
  · rw [if_pos c]
    exact ⟨IVec.In.add h1 (full_in _ hn), IVec.add_has_right _ (full_has _ _ hy)⟩
  · rw [if_neg c]
    refine ⟨h1, h2 (Or.inr ?_)⟩
    rcases h.some with h | h
    · exact h
    · intro e
      exact c ⟨h, by rw [e]; rfl⟩

theorem leafIntervals_in {vdims : List Nat} (hn : ∀ n ∈ vdims, 0 < n) {k j : Nat} {vec : List (List (Nat × Int))} {box : Interval} :
    IVec.In vdims (leafIntervals vdims k j vec box) := by
  have key : ∀ (es : List (Nat × Int)) (vi : IVec), IVec.In vdims vi → IVec.In vdims (es.foldl (fun vi q =>
      let is := intervalsFrom q.2 vdims (box.drop q.1)
      if vi.isEmpty then IVec.addAll [] is else overlaps vi is) vi) := by
    intro es
    induction es with
    | nil => intro vi h; exact h
    | cons q es ih =>
      intro vi h
      rw [List.foldl_cons]
      apply ih
      have h2 : IVec.In vdims (intervalsFrom q.2 vdims (box.drop q.1)) := intervalsFrom_in _ _ hn
      simp only
      split
      · exact IVec.In.addAll (nil_in _) h2
      · exact overlaps_in h h2
  unfold leafIntervals
  simp only
  split
  · exact IVec.In.add (key _ _ (nil_in _)) (full_in _ hn)
  · exact key _ _ (nil_in _)

/-! ### Maps -/

/-- The map allows the assignment. -/
def VMap.Covers (m : VMap) (ρ : Nat → Val) : Prop := ∀ q ∈ m, IVec.Has q.2 (ρ q.1)
/-- The boxes of the map lie in the types of the variables. -/
def VMap.In (T : Types) (vty : Nat → Nat) (m : VMap) : Prop := ∀ q ∈ m, IVec.In (T.dims (vty q.1)) q.2

/-- The modifiers of an arc are right for leaf `j` with the value `x`. -/
def ModsOk (T : Types) (vty : Nat → Nat) (ρ : Nat → Val) (pdims : List Nat) (x : Val) (k j : Nat) (mods : Mods) : Prop :=
  ∀ q ∈ mods, LeafOk pdims (T.dims (vty q.1)) x (ρ q.1) k j q.2 ∧ Fits (T.dims (vty q.1)) (ρ q.1)

theorem localMap_ok {ρ : Nat → Val} {pdims : List Nat} {x : Val} {k j : Nat} {box : Interval} (hb : Interval.In pdims box) (hx : Interval.Has box x) :
    (mods : Mods) → ModsOk T vty ρ pdims x k j mods → ∃ l, localMap T vty k j box mods = some l ∧ l.Covers ρ ∧ l.map (·.1) = mods.map (·.1)
  | [], _ => ⟨[], rfl, (fun q hq => nomatch hq), rfl⟩
  | (v, vec) :: ms, h => by
    obtain ⟨l, h1, h2, h3⟩ := localMap_ok hb hx ms fun q hq => h q (List.mem_cons_of_mem _ hq)
    obtain ⟨g1, g2⟩ := h (v, vec) List.mem_cons_self
    obtain ⟨g3, g4⟩ := leafIntervals_ok hb hx g2 g1
    refine ⟨(v, leafIntervals (T.dims (vty v)) k j vec box) :: l, ?_, ?_, by rw [List.map_cons, List.map_cons, h3]⟩
    · rw [localMap]
      rw [if_neg (by rw [isEmpty_of_has g4]; exact Bool.false_ne_true), h1]
      rfl
    · intro q hq
      rcases List.mem_cons.1 hq with rfl | hq
      · exact g4
      · exact h2 q hq

theorem localMap_in (hn : ∀ v, ∀ n ∈ T.dims (vty v), 0 < n) {k j : Nat} {box : Interval} :
    (mods : Mods) → (l : VMap) → localMap T vty k j box mods = some l → l.In T vty ∧ l.map (·.1) = mods.map (·.1)
  | [], l, h => by
    rw [localMap] at h
    cases h
    exact ⟨(fun q hq => nomatch hq), rfl⟩
  | (v, vec) :: ms, l, h => by
    rw [localMap] at h
    split at h
    · cases h
    · cases hl : localMap T vty k j box ms with
      | none => rw [hl] at h; cases h
      | some l' =>
        rw [hl] at h
        cases h
        obtain ⟨h1, h2⟩ := localMap_in hn ms l' hl
        refine ⟨fun q hq => ?_, by rw [List.map_cons, List.map_cons, h2]⟩
        rcases List.mem_cons.1 hq with rfl | hq
        · exact leafIntervals_in (hn v)
        · exact h1 q hq

theorem lookup_mem' {α : Type} {l : List (Nat × α)} {k : Nat} {a : α} (h : l.lookup k = some a) : (k, a) ∈ l := by
  induction l with
  | nil => cases h
  | cons q l ih =>
    obtain ⟨j, b⟩ := q
    rw [List.lookup_cons] at h
    by_cases e : (k == j) = true
    · rw [e] at h
      cases h
      rw [beq_iff_eq] at e
      rw [e]
      exact List.mem_cons_self
    · have e' : (k == j) = false := by simpa using e
      rw [e'] at h
      exact List.mem_cons_of_mem _ (ih h)

theorem populate_ok {ρ : Nat → Val} {pdims : List Nat} {x : Val} {k j : Nat} {box : Interval} (hb : Interval.In pdims box) (hx : Interval.Has box x)
    {old : VMap} (ho : old.Covers ρ) (hoi : old.In T vty) :
    (mods : Mods) → ModsOk T vty ρ pdims x k j mods → ∃ l, populate T vty k j old box mods = some l ∧ l.Covers ρ
  | [], _ => ⟨[], rfl, fun q hq => by cases hq⟩
  | (v, vec) :: ms, h => by
    obtain ⟨l, h1, h2⟩ := populate_ok hb hx ho hoi ms fun q hq => h q (List.mem_cons_of_mem _ hq)
    obtain ⟨g1, g2⟩ := h (v, vec) List.mem_cons_self
    obtain ⟨g3, g4⟩ := leafIntervals_ok hb hx g2 g1
    have g5 : IVec.Has (meetOld old v (leafIntervals (T.dims (vty v)) k j vec box)) (ρ v) := by
      unfold meetOld
      cases hl : old.lookup v with
      | none => exact g4
      | some w =>
        have hm := lookup_mem' hl
        exact overlaps_has g3 (hoi _ hm) g4 (ho _ hm)
    rw [populate]
    rw [if_neg (by rw [isEmpty_of_has g5]; exact Bool.false_ne_true), h1]
    refine ⟨_, rfl, ?_⟩
    intro q hq
    rcases List.mem_cons.1 hq with rfl | hq
    · exact g5
    · exact h2 q hq

theorem populate_in (hn : ∀ v, ∀ n ∈ T.dims (vty v), 0 < n) {k j : Nat} {box : Interval} {old : VMap} (hoi : old.In T vty) :
    (mods : Mods) → (l : VMap) → populate T vty k j old box mods = some l → l.In T vty ∧ l.map (·.1) = mods.map (·.1)
  | [], l, h => by
    rw [populate] at h
    cases h
    exact ⟨(fun q hq => nomatch hq), rfl⟩
  | (v, vec) :: ms, l, h => by
    rw [populate] at h
    have g5 : IVec.In (T.dims (vty v)) (meetOld old v (leafIntervals (T.dims (vty v)) k j vec box)) := by
      unfold meetOld
      cases hl : old.lookup v with
      | none => exact leafIntervals_in (hn v)
      | some w => exact overlaps_in (leafIntervals_in (hn v)) (hoi _ (lookup_mem' hl))
    split at h
    · cases h
    · cases hl : populate T vty k j old box ms with
      | none => rw [hl] at h; cases h
      | some l' =>
        rw [hl] at h
        cases h
        obtain ⟨h1, h2⟩ := populate_in hn hoi ms l' hl
        refine ⟨fun q hq => ?_, by rw [List.map_cons, List.map_cons, h2]⟩
        rcases List.mem_cons.1 hq with rfl | hq
        · exact g5
        · exact h1 q hq

/-- All maps are empty or none is. -/
def Uniform (maps : List VMap) : Prop := ∀ m ∈ maps, ∀ m' ∈ maps, m = [] → m' = []

/-- What is known of the maps: they are within the types, alike, and if `ρ` is an assignment, one of them allows it. -/
structure MapsOk (T : Types) (vty : Nat → Nat) (ρ : Nat → Val) (maps : List VMap) : Prop where
  inn : ∀ m ∈ maps, m.In T vty
  uni : Uniform maps
  cov : ∃ m ∈ maps, m.Covers ρ

/-- the pushes of the loops: maps are appended unless they are empty and there is one already -/
def pushMap (acc : List VMap) (m : VMap) : List VMap := if !m.isEmpty || acc.isEmpty then acc ++ [m] else acc

theorem push_mem {acc : List VMap} {m q : VMap} (h : q ∈ pushMap acc m) : q ∈ acc ∨ q = m := by
  unfold pushMap at h
  split at h
  · rcases List.mem_append.1 h with h | h
    · exact Or.inl h
    · exact Or.inr (List.mem_singleton.1 h)
  · exact Or.inl h

theorem push_old {acc : List VMap} {m q : VMap} (h : q ∈ acc) : q ∈ pushMap acc m := by
  unfold pushMap
  split
  · exact List.mem_append_left _ h
  · exact h

/-- The maps that are pushed, in a loop over a list. -/
theorem pushes {α : Type} (f : α → Option VMap) (l : List α) (acc : List VMap) :
    (∀ m ∈ l.foldl (fun acc a => match f a with | none => acc | some m => pushMap acc m) acc, m ∈ acc ∨ ∃ a ∈ l, f a = some m) ∧
    (∀ m ∈ acc, m ∈ l.foldl (fun acc a => match f a with | none => acc | some m => pushMap acc m) acc) ∧
    (∀ a ∈ l, ∀ m, f a = some m → m ∈ l.foldl (fun acc a => match f a with | none => acc | some m => pushMap acc m) acc ∨
      (m = [] ∧ l.foldl (fun acc a => match f a with | none => acc | some m => pushMap acc m) acc ≠ [])) := by
  induction l generalizing acc with
  | nil => exact ⟨fun m h => Or.inl h, fun m h => h, fun a h => by cases h⟩
  | cons a l ih =>
    rw [List.foldl_cons]
    obtain ⟨h1, h2, h3⟩ := ih (match f a with | none => acc | some m => pushMap acc m)
    have hold : ∀ m ∈ acc, m ∈ (match f a with | none => acc | some m => pushMap acc m) := by
      intro m hm
      cases f a with
      | none => exact hm
      | some m' => exact push_old hm
    refine ⟨?_, fun m hm => h2 m (hold m hm), ?_⟩
    · intro m hm
      rcases h1 m hm with h | ⟨b, hb, e⟩
      · cases hf : f a with
        | none => rw [hf] at h; exact Or.inl h
        | some m' =>
          rw [hf] at h
          rcases push_mem h with h | rfl
          · exact Or.inl h
          · exact Or.inr ⟨a, List.mem_cons_self, hf⟩
      · exact Or.inr ⟨b, List.mem_cons_of_mem _ hb, e⟩
    · intro b hb m hm
      rcases List.mem_cons.1 hb with rfl | hb
      · rw [hm] at h2 ⊢
        by_cases c : (!m.isEmpty || acc.isEmpty) = true
        · left
          apply h2
          show m ∈ pushMap acc m
          unfold pushMap
          rw [if_pos c]
          exact List.mem_append_right _ (List.mem_singleton.2 rfl)
        · right
          rw [Bool.or_eq_true, not_or] at c
          have c1 : m = [] := by
            cases m with
            | nil => rfl
            | cons => exact absurd rfl c.1
          refine ⟨c1, ?_⟩
          intro e
          cases acc with
          | nil => exact absurd rfl c.2
          | cons q qs =>
            have := h2 q (push_old List.mem_cons_self)
            rw [e] at this
            cases this
      · exact h3 b hb m hm

theorem fill_eq (k j : Nat) (mods : Mods) (vec : IVec) : fillVarMaps T vty k j mods vec =
    vec.foldl (fun acc a => match localMap T vty k j a mods with | none => acc | some m => pushMap acc m) [] := rfl

/-- One leaf, when there are no maps yet. -/
theorem fill_ok (hn : ∀ v, ∀ n ∈ T.dims (vty v), 0 < n) {ρ : Nat → Val} {pdims : List Nat} {x : Val} {k j : Nat} {mods : Mods} {vec : IVec}
    (hv : IVec.In pdims vec) (hx : IVec.Has vec x) (hm : ModsOk T vty ρ pdims x k j mods) :
    MapsOk T vty ρ (fillVarMaps T vty k j mods vec) := by
  rw [fill_eq]
  obtain ⟨h1, _, h3⟩ := pushes (fun a => localMap T vty k j a mods) vec []
  have hall : ∀ m ∈ vec.foldl (fun acc a => match localMap T vty k j a mods with | none => acc | some m => pushMap acc m) [],
      m.In T vty ∧ m.map (·.1) = mods.map (·.1) := by
    intro m hm'
    rcases h1 m hm' with h | ⟨a, _, e⟩
    · cases h
    · exact localMap_in hn mods m e
  refine ⟨fun m h => (hall m h).1, ?_, ?_⟩
  · intro m hm1 m' hm2 e
    have := (hall m hm1).2
    rw [e] at this
    have e2 := (hall m' hm2).2
    rw [← this] at e2
    exact List.map_eq_nil_iff.1 e2
  · obtain ⟨i, hi, hxi⟩ := hx
    obtain ⟨l, g1, g2, g3⟩ := localMap_ok (hv i hi) hxi mods hm
    rcases h3 i hi l g1 with h | ⟨rfl, hne⟩
    · exact ⟨l, h, g2⟩
    · obtain ⟨m, hm'⟩ := List.exists_mem_of_ne_nil _ hne
      have e := (hall m hm').2
      rw [← g3, List.map_nil] at e
      have := List.map_eq_nil_iff.1 e
      exact ⟨m, hm', by rw [this]; exact fun q hq => by cases hq⟩

theorem refine_eq (k j : Nat) (mods : Mods) (vec : IVec) (maps : List VMap) : refineVarMaps T vty k j mods vec maps =
    (maps.map fun old => vec.map fun box => (old, box)).flatten.foldl (fun acc a =>
      match (populate T vty k j a.1 a.2 mods).map fun l => keepOld l a.1 with | none => acc | some m => pushMap acc m) [] := by
  unfold refineVarMaps
  congr 1
  funext acc q
  cases populate T vty k j q.1 q.2 mods <;> rfl

theorem keepOld_nil {l old : VMap} (h : keepOld l old = []) : l = [] ∧ old = [] := by
  unfold keepOld at h
  obtain ⟨h1, h2⟩ := List.append_eq_nil_iff.1 h
  subst h1
  refine ⟨rfl, ?_⟩
  cases old with
  | nil => rfl
  | cons q old => simp [List.lookup] at h2

/-- One leaf, when there are maps. -/
theorem refine_ok (hn : ∀ v, ∀ n ∈ T.dims (vty v), 0 < n) {ρ : Nat → Val} {pdims : List Nat} {x : Val} {k j : Nat} {mods : Mods} {vec : IVec}
    {maps : List VMap} (hv : IVec.In pdims vec) (hx : IVec.Has vec x) (hm : ModsOk T vty ρ pdims x k j mods) (h : MapsOk T vty ρ maps) :
    MapsOk T vty ρ (refineVarMaps T vty k j mods vec maps) := by
  rw [refine_eq]
  obtain ⟨h1, _, h3⟩ := pushes (fun a : VMap × Interval => (populate T vty k j a.1 a.2 mods).map fun l => keepOld l a.1)
    (maps.map fun old => vec.map fun box => (old, box)).flatten []
  generalize hR : (maps.map fun old => vec.map fun box => (old, box)).flatten.foldl (fun acc a =>
      match (populate T vty k j a.1 a.2 mods).map fun l => keepOld l a.1 with | none => acc | some m => pushMap acc m) [] = R at h1 h3 ⊢
  have hall : ∀ m ∈ R, ∃ old ∈ maps, ∃ l : VMap, m = keepOld l old ∧ l.In T vty ∧ l.map (·.1) = mods.map (·.1) := by
    intro m hm'
    rcases h1 m hm' with h' | ⟨a, ha, e⟩
    · cases h'
    · obtain ⟨r, hr, ha⟩ := List.mem_flatten.1 ha
      obtain ⟨old, hold, rfl⟩ := List.mem_map.1 hr
      obtain ⟨box, _, rfl⟩ := List.mem_map.1 ha
      simp only at e
      cases hp : populate T vty k j old box mods with
      | none => rw [hp] at e; cases e
      | some l =>
        rw [hp] at e
        cases e
        exact ⟨old, hold, l, rfl, populate_in hn (h.inn old hold) mods l hp⟩
  have hnil : ∀ m ∈ R, m = [] → mods = [] ∧ [] ∈ maps := by
    intro m hm' e
    obtain ⟨old, ho, l, e1, _, e2⟩ := hall m hm'
    rw [e] at e1
    obtain ⟨rfl, rfl⟩ := keepOld_nil e1.symm
    exact ⟨List.map_eq_nil_iff.1 (by rw [← e2]; rfl), ho⟩
  have huni : mods = [] → [] ∈ maps → ∀ m ∈ R, m = [] := by
    intro e1 e2 m hm'
    obtain ⟨old, ho, l, rfl, _, e3⟩ := hall m hm'
    have : old = [] := h.uni [] e2 old ho rfl
    subst this
    rw [e1] at e3
    have : l = [] := List.map_eq_nil_iff.1 e3
    subst this
    rfl
  refine ⟨?_, ?_, ?_⟩
  · intro m hm'
    obtain ⟨old, ho, l, rfl, hl, _⟩ := hall m hm'
    intro q hq
    rcases List.mem_append.1 hq with hq | hq
    · exact hl q hq
    · exact h.inn old ho q (List.mem_filter.1 hq).1
  · intro m hm1 m' hm2 e
    obtain ⟨e1, e2⟩ := hnil m hm1 e
    exact huni e1 e2 m' hm2
  · obtain ⟨old, ho, hcov⟩ := h.cov
    obtain ⟨i, hi, hxi⟩ := hx
    obtain ⟨l, g1, g2⟩ := populate_ok (hv i hi) hxi hcov (h.inn old ho) mods hm
    have gc : (keepOld l old).Covers ρ := by
      intro q hq
      rcases List.mem_append.1 hq with hq | hq
      · exact g2 q hq
      · exact hcov q (List.mem_filter.1 hq).1
    rcases h3 (old, i) (List.mem_flatten.2 ⟨_, List.mem_map.2 ⟨old, ho, rfl⟩, List.mem_map.2 ⟨i, hi, rfl⟩⟩) (keepOld l old) (by
      simp only; rw [g1]; rfl) with h' | ⟨e, hne⟩
    · exact ⟨_, h', gc⟩
    · obtain ⟨m, hm'⟩ := List.exists_mem_of_ne_nil _ hne
      obtain ⟨e1, e2⟩ := keepOld_nil e
      subst e2
      have : mods = [] := by
        have := (populate_in hn (h.inn [] ho) mods l g1).2
        rw [e1] at this
        exact List.map_eq_nil_iff.1 this.symm
      have := huni this ho m hm'
      exact ⟨m, hm', by rw [this]; exact fun q hq => by cases hq⟩

theorem MapsOk.ne {ρ : Nat → Val} {maps : List VMap} (h : MapsOk T vty ρ maps) : maps.isEmpty = false := by
  obtain ⟨m, hm, _⟩ := h.cov
  cases maps with
  | nil => cases hm
  | cons => rfl

/-- One leaf. -/
theorem leafStep_ok (hn : ∀ v, ∀ n ∈ T.dims (vty v), 0 < n) {ρ : Nat → Val} {pdims : List Nat} {x : Val} {k j : Nat} {mods : Mods} {vec : IVec}
    {maps : List VMap} (hv : IVec.In pdims vec) (hx : IVec.Has vec x) (hm : ModsOk T vty ρ pdims x k j mods) (h : maps = [] ∨ MapsOk T vty ρ maps) :
    MapsOk T vty ρ (leafStep T vty k j mods vec maps) := by
  unfold leafStep
  rcases h with rfl | h
  · exact fill_ok hn hv hx hm
  · rw [if_neg (by rw [h.ne]; exact Bool.false_ne_true)]
    exact refine_ok hn hv hx hm h

/-- The modifiers of an arc are right for the terms from leaf `j` on. -/
def ArcOk (T : Types) (vty : Nat → Nat) (ρ : Nat → Val) (pdims : List Nat) (mods : Mods) (k : Nat) : Nat → List CExpr → Prop
  | _, [] => True
  | j, t :: ts => (ModsOk T vty ρ pdims (den T vty ρ t) k j mods ∧ entriesExist mods j = true) ∧ ArcOk T vty ρ pdims mods k (j + 1) ts

/-- The leaves of an arc. -/
theorem leavesStep_ok (hn : ∀ v, ∀ n ∈ T.dims (vty v), 0 < n) {ρ : Nat → Val} {pdims : List Nat} {mods : Mods} {k : Nat} :
    (vecs : List IVec) → (ts : List CExpr) → (j : Nat) → (maps : List VMap) → Pairs T vty ρ pdims vecs ts → ArcOk T vty ρ pdims mods k j ts →
    (maps = [] ∧ ts ≠ []) ∨ MapsOk T vty ρ maps → ∃ maps', leavesStep T vty mods k j vecs maps = some maps' ∧ MapsOk T vty ρ maps'
  | [], [], j, maps, _, _, h => by
    rcases h with h | h
    · exact absurd rfl h.2
    · exact ⟨maps, by rw [leavesStep], h⟩
  | v :: vs, t :: ts, j, maps, hp, ha, h => by
    have h1 := leafStep_ok hn hp.1.2 hp.1.1 ha.1.1 (maps := maps) (h.imp (fun h => h.1) id)
    rw [leavesStep, ha.1.2]
    simp only [Bool.not_true, Bool.and_false, Bool.false_eq_true, if_false]
    rw [if_neg (by rw [h1.ne]; exact Bool.false_ne_true)]
    exact leavesStep_ok hn vs ts (j + 1) _ hp.2 ha.2 (Or.inr h1)
  | [], _ :: _, _, _, h, _, _ => h.elim
  | _ :: _, [], _, _, h, _, _ => h.elim

/-- What is needed of one arc. -/
structure ArcFits (T : Types) (vty : Nat → Nat) (ρ : Nat → Val) (a : Mods × List IVec) : Prop where
  ex : ∃ pdims ts, Pairs T vty ρ pdims a.2 ts ∧ ts ≠ [] ∧ ArcOk T vty ρ pdims a.1 ts.length 0 ts

/-- All arcs. -/
theorem arcsStep_ok (hn : ∀ v, ∀ n ∈ T.dims (vty v), 0 < n) {ρ : Nat → Val} (arcs : List (Mods × List IVec)) (maps : List VMap)
    (ha : ∀ a ∈ arcs, ArcFits T vty ρ a) (h : (maps = [] ∧ arcs ≠ []) ∨ MapsOk T vty ρ maps) :
    ∃ maps', arcsStep T vty arcs maps = some maps' ∧ MapsOk T vty ρ maps' := by
  induction arcs generalizing maps with
  | nil =>
    rcases h with h | h
    · exact absurd rfl h.2
    · exact ⟨maps, rfl, h⟩
  | cons a arcs ih =>
    obtain ⟨mods, vecs⟩ := a
    obtain ⟨pdims, ts, h1, h2, h3⟩ := (ha _ List.mem_cons_self).ex
    simp only at h1 h3
    rw [← h1.length] at h3
    obtain ⟨maps', e, hm⟩ := leavesStep_ok hn vecs ts 0 maps h1 h3 (h.imp (fun h => ⟨h.1, h2⟩) id)
    rw [arcsStep, e]
    simp only
    rw [if_neg (by rw [hm.ne]; exact fun c => Bool.false_ne_true c.1)]
    exact ih maps' (fun b hb => ha b (List.mem_cons_of_mem _ hb)) (Or.inr hm)

/-- `getVarIntervals`: one of the maps allows the assignment. -/
theorem varIntervals_ok (hn : ∀ v, ∀ n ∈ T.dims (vty v), 0 < n) {ρ : Nat → Val} (arcs : List (Mods × List IVec))
    (ha : ∀ a ∈ arcs, ArcFits T vty ρ a) : ∃ maps, varIntervals T vty arcs = some (maps, true) ∧ MapsOk T vty ρ maps := by
  unfold varIntervals
  cases arcs with
  | nil =>
    refine ⟨[[]], rfl, fun m hm => ?_, fun m hm m' hm' _ => List.mem_singleton.1 hm', [], List.mem_singleton.2 rfl, fun q hq => by cases hq⟩
    rw [List.mem_singleton] at hm
    subst hm
    exact fun q hq => by cases hq
  | cons a arcs =>
    obtain ⟨maps, e, hm⟩ := arcsStep_ok hn (a :: arcs) [] ha (Or.inl ⟨rfl, by simp⟩)
    refine ⟨maps, ?_, hm⟩
    rw [e]
    simp only [List.isEmpty_cons, Bool.false_eq_true, if_false, Option.map_some, hm.ne, Bool.not_false, Bool.true_or]

end CFP
end Verif
