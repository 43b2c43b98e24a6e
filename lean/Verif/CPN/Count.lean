import Verif.CPN.Sim

/-!
# The tokens of a place of the coloured net, counted in the unfolded net
-/

namespace Verif
namespace CPN

open Builder (Op specPre specPost specInh specInit specNet)

/-- the names registered for a place -/
def U.of (s : U) (p : Nat) : List (Nat × Nat × String) := s.names.filter fun q => q.1 == p

theorem hasPlace_iff {s : U} {p : Nat} : s.hasPlace p = !(s.of p).isEmpty := by
  unfold U.hasPlace U.of
  induction s.names with
  | nil => rfl
  | cons q l ih =>
    rw [List.any_cons, ih, List.filter_cons]
    by_cases h : (q.1 == p) = true
    · rw [if_pos h, h]; rfl
    · rw [if_neg h]; simp only [Bool.not_eq_true] at h; rw [h]; rfl

theorem of_put_ne {N : CNet} {s : U} {p q : Nat} (h : q ≠ p) (o : Option (Nat × Nat)) : (s.putOrphan N q o).of p = s.of p := by
  cases o with
  | none => rfl
  | some x =>
    unfold U.putOrphan U.of
    simp only
    rw [List.filter_append]
    simp [h]

theorem of_put {N : CNet} {s : U} {p : Nat} (o : Option (Nat × Nat)) :
    (s.putOrphan N p o).of p = s.of p ++ o.toList.map fun x => (p, x.1, orphanName (N.place p).name) := by
  cases o with
  | none => simp [U.putOrphan]
  | some x =>
    unfold U.putOrphan U.of
    simp only
    rw [List.filter_append]
    simp

theorem init_put_ne {N : CNet} {s : U} {q : Nat} {n : String} (h : n ≠ orphanName (N.place q).name) (o : Option (Nat × Nat)) :
    specInit (s.putOrphan N q o).ops n = specInit s.ops n := by
  cases o with
  | none => rfl
  | some x =>
    unfold U.putOrphan
    apply specInit_append_ne
    intro o ho k hc
    rw [List.mem_singleton] at ho
    rw [ho] at hc
    cases hc
    exact h rfl

theorem init_put {N : CNet} {s : U} {p : Nat} (x : Nat × Nat) :
    specInit (s.putOrphan N p (some x)).ops (orphanName (N.place p).name) = x.2 := by
  unfold U.putOrphan
  simp only
  rw [specInit_fold, List.foldl_append, List.foldl_cons, List.foldl_nil]
  simp [initStep]

theorem orphanOf_put {N : CNet} {s : U} {p q : Nat} (h : q ≠ p) (hpl : ∀ x ∈ s.of p, ∀ m, x.2.2 ≠ orphanName m) (o : Option (Nat × Nat)) :
    (s.putOrphan N q o).orphanOf N p = s.orphanOf N p := by
  have h1 : (s.putOrphan N q o).hasPlace p = s.hasPlace p := by rw [hasPlace_iff, hasPlace_iff, of_put_ne h]
  have h2 : (s.putOrphan N q o).used p = s.used p := by
    unfold U.used
    have h3 : (s.putOrphan N q o).names.filter (fun q => q.1 == p) = s.names.filter fun q => q.1 == p := of_put_ne h o
    rw [h3]
    congr 1
    exact sum_congr _ fun x hx => init_put_ne (hpl x hx _) o
  unfold U.orphanOf
  rw [h1, h2]

theorem orphans_other {N : CNet} (w : N.WF) {p : Nat} (hp : p < N.places.length) (ps : List Nat) (hps : ∀ q ∈ ps, q < N.places.length) (h : p ∉ ps) (s : U) :
    (U.orphans N ps s).of p = s.of p ∧
      specInit (U.orphans N ps s).ops (orphanName (N.place p).name) = specInit s.ops (orphanName (N.place p).name) := by
  induction ps generalizing s with
  | nil => exact ⟨rfl, rfl⟩
  | cons q ps ih =>
    rw [List.mem_cons] at h
    rw [U.orphans, orphan_eq]
    obtain ⟨h1, h2⟩ := ih (fun x hx => hps x (List.mem_cons_of_mem _ hx)) (fun hc => h (Or.inr hc)) (s.putOrphan N q (s.orphanOf N q))
    have hq : q ≠ p := fun e => h (Or.inl e.symm)
    rw [h1, h2, of_put_ne hq, init_put_ne (fun e => hq (w.place_inj (hps q List.mem_cons_self) hp (orphanName_inj e).symm))]
    exact ⟨rfl, rfl⟩

/-- what `handleOrphanPlace` did for a place -/
theorem orphans_one {N : CNet} (w : N.WF) {p : Nat} (hp : p < N.places.length) (ps : List Nat) (hn : ps.Nodup) (hps : ∀ q ∈ ps, q < N.places.length)
    (h : p ∈ ps) (s : U) (hpl : ∀ x ∈ s.of p, ∀ m, x.2.2 ≠ orphanName m) :
    (U.orphans N ps s).of p = s.of p ++ (s.orphanOf N p).toList.map (fun x => (p, x.1, orphanName (N.place p).name)) ∧
      ∀ x, s.orphanOf N p = some x → specInit (U.orphans N ps s).ops (orphanName (N.place p).name) = x.2 := by
  induction ps generalizing s with
  | nil => cases h
  | cons q ps ih =>
    rw [List.nodup_cons] at hn
    have hps' : ∀ x ∈ ps, x < N.places.length := fun x hx => hps x (List.mem_cons_of_mem _ hx)
    rw [U.orphans, orphan_eq]
    by_cases hq : q = p
    · subst hq
      obtain ⟨h1, h2⟩ := orphans_other w hp ps hps' hn.1 (s.putOrphan N q (s.orphanOf N q))
      rw [h1, h2, of_put]
      refine ⟨rfl, fun x hx => ?_⟩
      rw [hx, init_put]
    · have hm : p ∈ ps := (List.mem_cons.1 h).resolve_left fun e => hq e.symm
      obtain ⟨h1, h2⟩ := ih hn.2 hps' hm (s.putOrphan N q (s.orphanOf N q)) (by rw [of_put_ne hq]; exact hpl)
      rw [of_put_ne hq, orphanOf_put hq hpl] at h1
      rw [orphanOf_put hq hpl] at h2
      exact ⟨h1, h2⟩

/-- a sum over a list split along a part of it -/
theorem sum_split {l ks : List Nat} (hl : l.Nodup) (hk : ks.Nodup) (hs : ∀ k ∈ ks, k ∈ l) (f : Nat → Nat) :
    (l.map f).sum = (ks.map f).sum + ((l.filter fun i => decide (i ∉ ks)).map f).sum := by
  have hp : l.Perm (ks ++ l.filter fun i => decide (i ∉ ks)) := by
    rw [List.perm_ext_iff_of_nodup hl]
    · intro a
      rw [List.mem_append, List.mem_filter]
      constructor
      · intro ha
        by_cases h : a ∈ ks
        · exact Or.inl h
        · exact Or.inr ⟨ha, by simpa using h⟩
      · rintro (h | h)
        · exact hs a h
        · exact h.1
    · rw [List.nodup_append]
      refine ⟨hk, hl.filter _, ?_⟩
      intro a ha b hb hab
      subst hab
      rw [List.mem_filter] at hb
      have hna : a ∉ ks := by simpa using hb.2
      exact hna ha
  rw [(hp.map f).sum_nat, List.map_append, List.sum_append]

/-- the tokens of the names of a place -/
theorem count_names {N : CNet} (w : N.WF) {s0 : U} (hi : s0.Inv N) {es : List Emit}
    (r : Result N (U.orphans N (List.range N.places.length) s0) es) {p : Nat} (hp : p < N.places.length)
    (hns : ∀ k, (p, k, sumName (N.place p).name) ∉ (U.orphans N (List.range N.places.length) s0).names)
    {M : CMark} {u : String → Nat} (h : Rel N (U.orphans N (List.range N.places.length) s0) M u) :
    (((U.orphans N (List.range N.places.length) s0).of p).map fun q => u q.2.2).sum = N.total M p := by
  have hm := more_orphans (List.range N.places.length) (fun q hq => List.mem_range.1 hq) s0
  have hof : ∀ x ∈ s0.of p, x = (p, x.2.1, cname (N.place p).name x.2.1) ∧ x.2.1 < N.types.size (N.place p).ty ∧ x ∈ s0.names := by
    intro x hx
    obtain ⟨hx1, hx2⟩ := List.mem_filter.1 hx
    obtain ⟨q, k, n⟩ := x
    have hq : q = p := by simpa using hx2
    subst hq
    rcases (hi.names q k n hx1).2 with ⟨h1, h2⟩ | ⟨h1, _⟩
    · exact ⟨by rw [h1], h2, hx1⟩
    · rw [h1] at hx1
      exact absurd (hm.le _ hx1) (hns k)
  obtain ⟨h1, h2⟩ := orphans_one w hp (List.range N.places.length) List.nodup_range (fun q hq => List.mem_range.1 hq)
    (List.mem_range.2 hp) s0 (fun x hx m hc => by
      rw [(hof x hx).1] at hc
      exact cname_ne_orphan _ _ _ hc)
  -- the colours with a place
  let ks := (s0.of p).map (·.2.1)
  have hks : s0.of p = ks.map fun k => (p, k, cname (N.place p).name k) := by
    rw [List.map_map]
    conv => lhs; rw [← List.map_id (s0.of p)]
    exact List.map_congr_left fun x hx => (hof x hx).1
  have hnd : ks.Nodup := by
    have h3 : ((s0.of p).map fun q => (q.1, q.2.1)).Nodup := List.Nodup.sublist (List.filter_sublist.map _) hi.keys
    rw [hks, List.map_map] at h3
    rw [List.nodup_iff_pairwise_ne, List.pairwise_map] at h3
    exact List.nodup_iff_pairwise_ne.2 (h3.imp fun {a b} hab e => hab (by simp [e]))
  have hlt : ∀ k ∈ ks, k ∈ List.range (N.types.size (N.place p).ty) := by
    intro k hk
    obtain ⟨x, hx, rfl⟩ := List.mem_map.1 hk
    exact List.mem_range.2 (hof x hx).2.1
  have hmade : ∀ k, k ∈ ks ↔ (U.orphans N (List.range N.places.length) s0).Made N p k := by
    intro k
    rw [more_made hm]
    constructor
    · intro hk
      obtain ⟨x, hx, rfl⟩ := List.mem_map.1 hk
      obtain ⟨h3, _, h4⟩ := hof x hx
      rw [h3] at h4
      exact h4
    · intro hk
      exact List.mem_map.2 ⟨_, List.mem_filter.2 ⟨hk, by simp⟩, rfl⟩
  -- tokens of the coloured net
  have htot : N.total M p = (ks.map fun k => M p (N.types.value ⟨(N.place p).ty, k⟩)).sum +
      (((List.range (N.types.size (N.place p).ty)).filter fun i => decide (i ∉ ks)).map (entry (N.place p).marking)).sum := by
    unfold CNet.total
    rw [values_eq, List.map_map]
    rw [sum_split List.nodup_range hnd hlt]
    congr 1
    refine sum_congr _ fun i hi' => ?_
    obtain ⟨h3, h4⟩ := List.mem_filter.1 hi'
    have h5 : i ∉ ks := by simpa using h4
    change M p _ = _
    rw [h.rest p hp i (List.mem_range.1 h3) (fun hc => h5 ((hmade i).2 hc)), init_value w hp (List.mem_range.1 h3)]
  obtain ⟨hmk, hml, hmt⟩ := w.marking _ (place_mem hp)
  have htok : (N.place p).tokens = (ks.map (entry (N.place p).marking)).sum +
      (((List.range (N.types.size (N.place p).ty)).filter fun i => decide (i ∉ ks)).map (entry (N.place p).marking)).sum := by
    unfold CPlace.tokens
    rw [← sum_entry hmk List.nodup_range (fun i hi' => List.mem_range.2 (hml i hi')), sum_split List.nodup_range hnd hlt]
  have hused : s0.used p = (ks.map (entry (N.place p).marking)).sum := by
    unfold U.used
    change (((s0.of p).map fun q => specInit s0.ops q.2.2).sum) % W32 = _
    rw [hks, List.map_map]
    rw [sum_congr ks (g := entry (N.place p).marking)]
    · exact Nat.mod_eq_of_lt (by omega)
    · intro k hk
      change specInit s0.ops (cname (N.place p).name k) = _
      rw [← more_init hm (fun q => cname_ne_orphan _ _ _), r.init_color p k ((hmade k).1 hk), ms_get]
  -- the orphan place
  have hor : ((s0.orphanOf N p).toList.map fun x => x.2).sum = (N.place p).tokens - s0.used p := by
    unfold U.orphanOf
    by_cases hb : s0.hasPlace p = true
    · rw [hb]
      simp only [Bool.not_true, Bool.false_and, Bool.false_eq_true, if_false, Bool.true_eq_false, or_false]
      split
      · simp only [Option.toList_some, List.map_cons, List.map_nil, List.sum_cons, List.sum_nil, Nat.add_zero]
        exact Nat.mod_eq_of_lt (by omega)
      · simp only [Option.toList_none, List.map_nil, List.sum_nil]
        omega
    · have hb' : s0.hasPlace p = false := by simpa using hb
      have hks0 : ks = [] := by
        rw [hasPlace_iff] at hb'
        have : s0.of p = [] := by simpa using hb'
        simp [ks, this]
      have hu0 : s0.used p = 0 := by rw [hused, hks0]; rfl
      rw [hb', hu0]
      simp only [Bool.not_false, Bool.true_and, or_true, if_true, Nat.sub_zero]
      split
      · simp only [Option.toList_some, List.map_cons, List.map_nil, List.sum_cons, List.sum_nil, Nat.add_zero]
        exact Nat.mod_eq_of_lt hmt
      · simp only [Option.toList_some, List.map_cons, List.map_nil, List.sum_cons, List.sum_nil, Nat.add_zero]
        exact Nat.mod_eq_of_lt hmt
  have hou : (((s0.orphanOf N p).toList.map fun x => (p, x.1, orphanName (N.place p).name)).map fun q => u q.2.2).sum =
      ((s0.orphanOf N p).toList.map fun x => x.2).sum := by
    cases ho : s0.orphanOf N p with
    | none => rfl
    | some x =>
      have := h2 x ho
      simp only [Option.toList_some, List.map_cons, List.map_nil, List.sum_cons, List.sum_nil, Nat.add_zero]
      rw [h.orphan p hp, this]
  rw [h1, List.map_append, List.sum_append, hou, hor, hks, List.map_map, htot]
  have hcol : (ks.map ((fun q : Nat × Nat × String => u q.2.2) ∘ fun k => (p, k, cname (N.place p).name k))).sum =
      (ks.map fun k => M p (N.types.value ⟨(N.place p).ty, k⟩)).sum :=
    sum_congr _ fun k hk => h.color p k ((hmade k).1 hk)
  rw [hcol, hused]
  omega

/-- the places of a query -/
theorem resolve_all {order : List (Nat × Nat × String)} (h : ∀ q ∈ order, ∀ m, q.2.2 ≠ sumName m) : resolve order = order.map (·.2.2) := by
  unfold resolve
  simp only
  split
  · rfl
  · split
    · rename_i l hl
      split
      · rename_i h3
        exfalso
        obtain ⟨q, hq, rfl⟩ := List.mem_map.1 (List.mem_of_getLast? hl)
        refine h q hq (String.ofList (q.2.2.toList.reverse.drop 3).reverse) ?_
        apply String.toList_inj.1
        unfold sumName
        rw [String.toList_append, String.toList_ofList]
        have h4 := congrArg List.reverse (List.take_append_drop 3 q.2.2.toList.reverse)
        rw [h3, List.reverse_append, List.reverse_reverse] at h4
        rw [← h4]
        simp
      · rfl
    · rfl

end CPN
end Verif
