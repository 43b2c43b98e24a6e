import Verif.XCol.IgnorantLemmas

/-!
# The calls to the builder describe the copies
-/

namespace Verif
namespace XCol
open CPN Colored OffsetsProps
open Builder (Op specPre specPost specInh specInit specNet Sane run)

/-- what an arc takes from a place -/
def Range.takes (q : String) (r : Range) : Nat := if r.isInput = true ∧ r.place = q then r.current else 0
/-- what an arc gives to a place -/
def Range.gives (q : String) (r : Range) : Nat := if r.isInput = false ∧ r.place = q then r.current else 0

def takes (rs : List Range) (q : String) : Nat := (rs.map (Range.takes q)).sum
def gives (rs : List Range) (q : String) : Nat := (rs.map (Range.gives q)).sum

/-- the weights of all copies of this name -/
def takesOf (E : List (String × List Range)) (n q : String) : Nat := (E.map fun e => if e.1 = n then takes e.2 q else 0).sum
def givesOf (E : List (String × List Range)) (n q : String) : Nat := (E.map fun e => if e.1 = n then gives e.2 q else 0).sum

/-- A part of the calls describes these copies. -/
structure Part (N : CNet) (E : List (String × List Range)) (ops : List Op) : Prop where
  pre : ∀ n q, specPre ops n q = takesOf E n q
  post : ∀ n q, specPost ops n q = givesOf E n q
  noplace : ∀ p k, Op.place p k ∉ ops
  inh : ∀ q n k, Op.input q n true k ∈ ops → ∃ h ∈ N.inhibitors, q = (N.place h.place).name ∧ n = (N.trans h.trans).name ∧ k = h.weight
  trans : ∀ e ∈ E, ∃ pl, Op.trans e.1 pl ∈ ops
  input : ∀ q n k, Op.input q n false k ∈ ops → 0 < k ∧ ∃ e ∈ E, e.1 = n ∧ ∃ r ∈ e.2, r.isInput = true ∧ r.place = q ∧ r.current = k
  output : ∀ q n k, Op.output n q k ∈ ops → 0 < k ∧ ∃ e ∈ E, e.1 = n ∧ ∃ r ∈ e.2, r.isInput = false ∧ r.place = q ∧ r.current = k
  decl : ∀ l o r, ops = l ++ o :: r → ∀ t, arcTrans o = some t → (∃ pl, Op.trans t pl ∈ l) ∨ ∃ c ∈ N.transitions, c.name = t

theorem part_nil (N : CNet) : Part N [] [] :=
  ⟨fun _ _ => rfl, fun _ _ => rfl, (fun _ _ h => nomatch h), (fun _ _ _ h => nomatch h), (fun _ h => nomatch h), (fun _ _ _ h => nomatch h),
    (fun _ _ _ h => nomatch h), (fun l o r h => by cases l <;> cases h)⟩

theorem Part.append {N : CNet} {E F : List (String × List Range)} {a b : List Op} (ha : Part N E a) (hb : Part N F b) : Part N (E ++ F) (a ++ b) := by
  refine ⟨fun n q => ?_, fun n q => ?_, fun p k h => ?_, fun q n k h => ?_, fun e h => ?_, fun q n k h => ?_, fun q n k h => ?_, fun l o r h t ht => ?_⟩
  · rw [specPre_append, ha.pre, hb.pre]; unfold takesOf; rw [List.map_append, List.sum_append]
  · rw [specPost_append, ha.post, hb.post]; unfold givesOf; rw [List.map_append, List.sum_append]
  · rcases List.mem_append.1 h with h | h
    · exact ha.noplace p k h
    · exact hb.noplace p k h
  · rcases List.mem_append.1 h with h | h
    · exact ha.inh q n k h
    · exact hb.inh q n k h
  · rcases List.mem_append.1 h with h | h
    · obtain ⟨pl, h⟩ := ha.trans e h
      exact ⟨pl, List.mem_append_left _ h⟩
    · obtain ⟨pl, h⟩ := hb.trans e h
      exact ⟨pl, List.mem_append_right _ h⟩
  · rcases List.mem_append.1 h with h | h
    · obtain ⟨h0, e, he, h⟩ := ha.input q n k h
      exact ⟨h0, e, List.mem_append_left _ he, h⟩
    · obtain ⟨h0, e, he, h⟩ := hb.input q n k h
      exact ⟨h0, e, List.mem_append_right _ he, h⟩
  · rcases List.mem_append.1 h with h | h
    · obtain ⟨h0, e, he, h⟩ := ha.output q n k h
      exact ⟨h0, e, List.mem_append_left _ he, h⟩
    · obtain ⟨h0, e, he, h⟩ := hb.output q n k h
      exact ⟨h0, e, List.mem_append_right _ he, h⟩
  · rcases List.append_eq_append_iff.1 h with ⟨a', h1, h2⟩ | ⟨c', h1, h2⟩
    · rcases hb.decl a' o r h2 t ht with ⟨pl, h⟩ | h
      · exact .inl ⟨pl, by rw [h1]; exact List.mem_append_right _ h⟩
      · exact .inr h
    · cases c' with
      | nil =>
        rw [List.nil_append] at h2
        rcases hb.decl [] o r h2.symm t ht with ⟨pl, h⟩ | h
        · cases h
        · exact .inr h
      | cons x c' =>
        rw [List.cons_append] at h2
        obtain ⟨h3, h4⟩ := List.cons.inj h2
        subst h3
        exact ha.decl l o c' h1 t ht

/-- the calls for the arcs of one copy -/
theorem rangeOps_pre (n q : String) : (rs : List Range) → (m : String) →
    specPre (rs.map (Range.ops m)).flatten n q = (if m = n then takes rs q else 0) ∧
    specPost (rs.map (Range.ops m)).flatten n q = (if m = n then gives rs q else 0)
  | [], m => by simp [specPre, specPost, takes, gives]
  | r :: rs, m => by
    obtain ⟨h1, h2⟩ := rangeOps_pre n q rs m
    rw [List.map_cons, List.flatten_cons, specPre_append, specPost_append, h1, h2]
    unfold takes gives
    rw [List.map_cons, List.sum_cons, List.map_cons, List.sum_cons]
    have h3 : specPre (r.ops m) n q = if m = n then r.takes q else 0 := by
      unfold Range.ops Range.takes
      by_cases hc : r.current > 0
      · rw [if_pos hc]
        cases hi : r.isInput
        · by_cases hm : m = n <;> simp [specPre]
        · by_cases hm : m = n
          · by_cases hq : r.place = q <;> simp [specPre, hm, hq]
          · simp [specPre, hm]
      · rw [if_neg hc]
        have : r.current = 0 := by omega
        simp [specPre, this]
    have h4 : specPost (r.ops m) n q = if m = n then r.gives q else 0 := by
      unfold Range.ops Range.gives
      by_cases hc : r.current > 0
      · rw [if_pos hc]
        cases hi : r.isInput
        · by_cases hm : m = n
          · by_cases hq : r.place = q <;> simp [specPost, hm, hq]
          · simp [specPost, hm]
        · by_cases hm : m = n <;> simp [specPost]
      · rw [if_neg hc]
        have : r.current = 0 := by omega
        simp [specPost, this]
    rw [h3, h4]
    split <;> simp

theorem mem_rangeOps {m : String} {rs : List Range} {o : Op} (h : o ∈ (rs.map (Range.ops m)).flatten) :
    ∃ r ∈ rs, 0 < r.current ∧ ((r.isInput = true ∧ o = .input r.place m false r.current) ∨ (r.isInput = false ∧ o = .output m r.place r.current)) := by
  obtain ⟨l, h1, h2⟩ := List.mem_flatten.1 h
  obtain ⟨r, h3, rfl⟩ := List.mem_map.1 h1
  unfold Range.ops at h2
  split at h2
  · rename_i hc
    split at h2
    · rename_i hi
      exact ⟨r, h3, hc, .inl ⟨hi, List.mem_singleton.1 h2⟩⟩
    · rename_i hi
      exact ⟨r, h3, hc, .inr ⟨by simpa using hi, List.mem_singleton.1 h2⟩⟩
  · cases h2

theorem part_copy (N : CNet) (e : String × List Range) : Part N [e] (copyOps e) := by
  have hm : ∀ o ∈ copyOps e, o = .trans e.1 0 ∨ ∃ r ∈ e.2, 0 < r.current ∧
      ((r.isInput = true ∧ o = .input r.place e.1 false r.current) ∨ (r.isInput = false ∧ o = .output e.1 r.place r.current)) := by
    intro o ho
    rcases List.mem_cons.1 ho with rfl | ho
    · exact .inl rfl
    · exact .inr (mem_rangeOps ho)
  refine ⟨fun n q => ?_, fun n q => ?_, fun p k h => ?_, fun q n k h => ?_, fun e' h => ?_, fun q n k h => ?_, fun q n k h => ?_, fun l o r h t ht => ?_⟩
  · have h1 : specPre (copyOps e) n q = specPre [Op.trans e.1 0] n q + specPre (e.2.map (Range.ops e.1)).flatten n q := specPre_append [_] _ n q
    rw [h1, (rangeOps_pre n q e.2 e.1).1]
    simp [specPre, takesOf]
  · have h1 : specPost (copyOps e) n q = specPost [Op.trans e.1 0] n q + specPost (e.2.map (Range.ops e.1)).flatten n q := specPost_append [_] _ n q
    rw [h1, (rangeOps_pre n q e.2 e.1).2]
    simp [specPost, givesOf]
  · rcases hm _ h with h | ⟨r, _, _, ⟨_, h⟩ | ⟨_, h⟩⟩ <;> cases h
  · rcases hm _ h with h | ⟨r, _, _, ⟨_, h⟩ | ⟨_, h⟩⟩ <;> cases h
  · rw [List.mem_singleton.1 h]; exact ⟨0, List.mem_cons_self⟩
  · rcases hm _ h with h | ⟨r, h1, h2, ⟨h3, h⟩ | ⟨_, h⟩⟩
    · cases h
    · cases h
      exact ⟨h2, e, List.mem_singleton.2 rfl, rfl, r, h1, h3, rfl, rfl⟩
    · cases h
  · rcases hm _ h with h | ⟨r, h1, h2, ⟨_, h⟩ | ⟨h3, h⟩⟩
    · cases h
    · cases h
    · cases h
      exact ⟨h2, e, List.mem_singleton.2 rfl, rfl, r, h1, h3, rfl, rfl⟩
  · have ho : o ∈ copyOps e := by rw [h]; exact List.mem_append_right _ List.mem_cons_self
    have hte : t = e.1 := by
      rcases hm _ ho with rfl | ⟨r, _, _, ⟨_, rfl⟩ | ⟨_, rfl⟩⟩
      · cases ht
      · cases ht; rfl
      · cases ht; rfl
    subst hte
    cases l with
    | nil =>
      unfold copyOps at h
      rw [List.nil_append] at h
      obtain ⟨rfl, _⟩ := List.cons.inj h
      cases ht
    | cons x l =>
      unfold copyOps at h
      rw [List.cons_append] at h
      obtain ⟨rfl, _⟩ := List.cons.inj h
      exact .inl ⟨0, List.mem_cons_self⟩

theorem part_copies (N : CNet) : (E : List (String × List Range)) → Part N E (E.map copyOps).flatten
  | [] => part_nil N
  | e :: E => by
    rw [List.map_cons, List.flatten_cons]
    exact (part_copy N e).append (part_copies N E)

theorem part_inhib {N : CNet} {h : CInhib} (hh : h ∈ N.inhibitors) (ht : h.trans < N.transitions.length) : Part N [] (inhibOps N [] h) := by
  have he : inhibOps N [] h = [.input (N.place h.place).name (N.trans h.trans).name true h.weight] := rfl
  rw [he]
  refine ⟨fun n q => by simp [specPre, takesOf], fun n q => by simp [specPost, givesOf], fun p k h => ?_, fun q n k h' => ?_, (fun e h => nomatch h),
    fun q n k h => ?_, fun q n k h => ?_, fun l o r h' t ht' => ?_⟩
  · cases List.mem_singleton.1 h
  · cases List.mem_singleton.1 h'
    exact ⟨h, hh, rfl, rfl, rfl⟩
  · cases List.mem_singleton.1 h
  · cases List.mem_singleton.1 h
  · have ho : o ∈ [Op.input (N.place h.place).name (N.trans h.trans).name true h.weight] := by
      rw [h']; exact List.mem_append_right _ List.mem_cons_self
    cases List.mem_singleton.1 ho
    cases ht'
    exact .inr ⟨_, trans_mem ht, rfl⟩

theorem part_inhibs {N : CNet} : (hs : List CInhib) → (∀ h ∈ hs, h ∈ N.inhibitors ∧ h.trans < N.transitions.length) →
    Part N [] (hs.map (inhibOps N [])).flatten
  | [], _ => part_nil N
  | h :: hs, hh => by
    rw [List.map_cons, List.flatten_cons]
    exact (part_inhib (hh h List.mem_cons_self).1 (hh h List.mem_cons_self).2).append
      (part_inhibs hs fun h' hm => hh h' (List.mem_cons_of_mem _ hm))

theorem takesOf_mem {E : List (String × List Range)} (hn : (E.map (·.1)).Nodup) {e : String × List Range} (he : e ∈ E) (q : String) :
    takesOf E e.1 q = takes e.2 q ∧ givesOf E e.1 q = gives e.2 q := by
  unfold takesOf givesOf
  induction E with
  | nil => cases he
  | cons a E ih =>
    rw [List.map_cons, List.nodup_cons] at hn
    rw [List.map_cons, List.sum_cons, List.map_cons, List.sum_cons]
    rcases List.mem_cons.1 he with rfl | he
    · rw [if_pos rfl, if_pos rfl, sum_zero, sum_zero]
      · exact ⟨rfl, rfl⟩
      · exact fun x hx => if_neg fun hc => hn.1 (List.mem_map.2 ⟨x, hx, hc⟩)
      · exact fun x hx => if_neg fun hc => hn.1 (List.mem_map.2 ⟨x, hx, hc⟩)
    · have hne : ¬ a.1 = e.1 := fun hc => hn.1 (List.mem_map.2 ⟨e, he, hc.symm⟩)
      rw [if_neg hne, if_neg hne, (ih hn.2 he).1, (ih hn.2 he).2]
      exact ⟨Nat.zero_add _, Nat.zero_add _⟩

theorem takesOf_none {E : List (String × List Range)} {n : String} (h : n ∉ E.map (·.1)) (q : String) :
    takesOf E n q = 0 ∧ givesOf E n q = 0 :=
  ⟨sum_zero _ fun x hx => if_neg fun hc => h (List.mem_map.2 ⟨x, hx, hc⟩), sum_zero _ fun x hx => if_neg fun hc => h (List.mem_map.2 ⟨x, hx, hc⟩)⟩

/-- A whole list of calls: the declarations, then a part. -/
structure Laid (N : CNet) (E : List (String × List Range)) (ops : List Op) : Prop where
  pre : ∀ n q, specPre ops n q = takesOf E n q
  post : ∀ n q, specPost ops n q = givesOf E n q
  init : ∀ p < N.places.length, specInit ops (N.place p).name = (N.place p).tokens
  place : ∀ p < N.places.length, ∃ k, Op.place (N.place p).name k ∈ ops
  inh : ∀ q n k, Op.input q n true k ∈ ops → ∃ h ∈ N.inhibitors, q = (N.place h.place).name ∧ n = (N.trans h.trans).name ∧ k = h.weight
  trans : ∀ e ∈ E, ∃ pl, Op.trans e.1 pl ∈ ops
  input : ∀ q n k, Op.input q n false k ∈ ops → 0 < k ∧ ∃ e ∈ E, e.1 = n ∧ ∃ r ∈ e.2, r.isInput = true ∧ r.place = q ∧ r.current = k
  output : ∀ q n k, Op.output n q k ∈ ops → 0 < k ∧ ∃ e ∈ E, e.1 = n ∧ ∃ r ∈ e.2, r.isInput = false ∧ r.place = q ∧ r.current = k
  decl : Declared ops

theorem mem_declOps {N : CNet} {o : Op} (h : o ∈ declOps N) :
    (∃ p ∈ N.places, o = .place p.name (p.tokens % W32)) ∨ ∃ t ∈ N.transitions, o = .trans t.name 0 := by
  rcases List.mem_append.1 h with h | h
  · obtain ⟨p, h1, rfl⟩ := List.mem_map.1 h
    exact .inl ⟨p, h1, rfl⟩
  · obtain ⟨p, h1, rfl⟩ := List.mem_map.1 h
    exact .inr ⟨p, h1, rfl⟩

theorem noArcs {l : List Op} (h : ∀ o ∈ l, arcTrans o = none) (t p : String) : specPre l t p = 0 ∧ specPost l t p = 0 := by
  induction l with
  | nil => exact ⟨rfl, rfl⟩
  | cons o l ih =>
    have h1 : specPre (o :: l) t p = specPre [o] t p + specPre l t p := specPre_append [o] l t p
    have h2 : specPost (o :: l) t p = specPost [o] t p + specPost l t p := specPost_append [o] l t p
    have h3 := h o List.mem_cons_self
    rw [h1, h2, (ih fun o' ho => h o' (List.mem_cons_of_mem _ ho)).1, (ih fun o' ho => h o' (List.mem_cons_of_mem _ ho)).2]
    cases o with
    | place => simp [specPre, specPost]
    | trans => simp [specPre, specPost]
    | input => cases h3
    | output => cases h3

theorem laid_of {N : CNet} (w : N.WF) {E : List (String × List Range)} {ops : List Op} (hp : Part N E ops) : Laid N E (declOps N ++ ops) := by
  have hna : ∀ o ∈ declOps N, arcTrans o = none := fun o ho => by
    rcases mem_declOps ho with ⟨p, _, rfl⟩ | ⟨t, _, rfl⟩ <;> rfl
  have hpl : ∀ p < N.places.length, Op.place (N.place p).name ((N.place p).tokens % W32) ∈ declOps N := fun p h =>
    List.mem_append_left _ (List.mem_map.2 ⟨_, place_mem h, rfl⟩)
  refine ⟨fun n q => ?_, fun n q => ?_, fun p h => ?_, fun p h => ⟨_, List.mem_append_left _ (hpl p h)⟩, fun q n k h => ?_, fun e h => ?_,
    fun q n k h => ?_, fun q n k h => ?_, fun l o r h t ht => ?_⟩
  · rw [specPre_append, (noArcs hna n q).1, hp.pre, Nat.zero_add]
  · rw [specPost_append, (noArcs hna n q).2, hp.post, Nat.zero_add]
  · rw [specInit_fold]
    refine init_fold _ _ _ _ (fun k hk => ?_) (.inr ⟨_, List.mem_append_left _ (hpl p h)⟩)
    rcases List.mem_append.1 hk with hk | hk
    · rcases mem_declOps hk with ⟨c, hc, he⟩ | ⟨t, _, he⟩
      · obtain ⟨i, hi, rfl⟩ := List.mem_iff_getElem.1 hc
        have hci : N.places[i] = N.place i := by
          unfold CNet.place
          rw [List.getD_eq_getElem?_getD, List.getElem?_eq_getElem hi]
          rfl
        rw [hci] at he
        obtain ⟨h1, h2⟩ := Op.place.inj he
        rw [h2, ← w.place_inj h hi h1]
        exact Nat.mod_eq_of_lt (w.marking _ (place_mem h)).2.2
      · cases he
    · exact absurd hk (hp.noplace _ _)
  · rcases List.mem_append.1 h with h | h
    · cases hna _ h
    · exact hp.inh q n k h
  · obtain ⟨pl, h⟩ := hp.trans e h
    exact ⟨pl, List.mem_append_right _ h⟩
  · rcases List.mem_append.1 h with h | h
    · cases hna _ h
    · exact hp.input q n k h
  · rcases List.mem_append.1 h with h | h
    · cases hna _ h
    · exact hp.output q n k h
  · rcases List.append_eq_append_iff.1 h with ⟨a', h1, h2⟩ | ⟨c', h1, h2⟩
    · rcases hp.decl a' o r h2 t ht with ⟨pl, h⟩ | ⟨c, hc, rfl⟩
      · exact ⟨pl, by rw [h1]; exact List.mem_append_right _ h⟩
      · exact ⟨0, by rw [h1]; exact List.mem_append_left _ (List.mem_append_right _ (List.mem_map.2 ⟨c, hc, rfl⟩))⟩
    · cases c' with
      | nil =>
        rw [List.nil_append] at h2
        rcases hp.decl [] o r h2.symm t ht with ⟨pl, h⟩ | ⟨c, hc, rfl⟩
        · cases h
        · rw [List.append_nil] at h1
          exact ⟨0, by rw [← h1]; exact List.mem_append_right _ (List.mem_map.2 ⟨c, hc, rfl⟩)⟩
      | cons x c' =>
        rw [List.cons_append] at h2
        obtain ⟨rfl, _⟩ := List.cons.inj h2
        have := hna o (by rw [h1]; exact List.mem_append_right _ List.mem_cons_self)
        rw [ht] at this
        cases this

end XCol
end Verif
