import Verif.CPN.Shares

/-!
# The unfolded net simulates the coloured net, and conversely
-/

namespace Verif
namespace CPN

open Builder (Op specPre specPost specInh specInit specNet)

/-! ### Generators of bindings -/

/-- A generator that gives each legal binding of each transition once. -/
def GenOK (N : CNet) (gen : CTrans → Option (List Binding)) : Prop :=
  ∀ t ∈ N.transitions, ∃ bs, gen t = some bs ∧
    (∀ b ∈ bs, ∃ ρ, Agree N.types N.vty b ρ t.vars) ∧
    (∀ b ∈ bs, ∀ ρ, Agree N.types N.vty b ρ t.vars → guardHolds N.types N.vty ρ t.guard) ∧
    (∀ ρ, (∀ v ∈ t.vars, ρ v ∈ N.types.values (N.vty v)) → guardHolds N.types N.vty ρ t.guard →
      ∃ (i : Nat) (b : Binding), bs[i]? = some b ∧ Agree N.types N.vty b ρ t.vars) ∧
    (∀ ρ (i j : Nat) (b c : Binding), bs[i]? = some b → bs[j]? = some c → Agree N.types N.vty b ρ t.vars → Agree N.types N.vty c ρ t.vars → i = j)

/-- A generator that gives legal bindings only. -/
def GenLegal (N : CNet) (gen : CTrans → Option (List Binding)) : Prop :=
  ∀ t ∈ N.transitions, ∃ bs, gen t = some bs ∧
    (∀ b ∈ bs, ∃ ρ, Agree N.types N.vty b ρ t.vars) ∧
    (∀ b ∈ bs, ∀ ρ, Agree N.types N.vty b ρ t.vars → guardHolds N.types N.vty ρ t.guard)

theorem GenOK.legal {N : CNet} {gen : CTrans → Option (List Binding)} (h : GenOK N gen) : GenLegal N gen := fun t ht => by
  obtain ⟨bs, h1, h2, h3, _⟩ := h t ht
  exact ⟨bs, h1, h2, h3⟩

theorem guardVars_sub (t : CTrans) : ∀ v ∈ guardVars t.guard, v ∈ t.vars := by
  intro v hv
  unfold CTrans.vars
  rw [mem_dedup]
  exact List.mem_append_left _ (List.mem_append_left _ hv)

theorem vars_nodup (t : CTrans) : t.vars.Nodup := nodup_dedup _

theorem naive_one {N : CNet} (w : N.WF) {t : CTrans} (ht : t ∈ N.transitions) (fuel : Nat) :
    (fuel < (vsizes N.types N.vty t.vars).prod ∧ naiveBindings N.types N.vty fuel t = none) ∨
    ∃ bs, naiveBindings N.types N.vty fuel t = some bs ∧
    (∀ b ∈ bs, ∃ ρ, Agree N.types N.vty b ρ t.vars) ∧
    (∀ b ∈ bs, ∀ ρ, Agree N.types N.vty b ρ t.vars → guardHolds N.types N.vty ρ t.guard) ∧
    (∀ ρ, (∀ v ∈ t.vars, ρ v ∈ N.types.values (N.vty v)) → guardHolds N.types N.vty ρ t.guard →
      ∃ (i : Nat) (b : Binding), bs[i]? = some b ∧ Agree N.types N.vty b ρ t.vars) ∧
    (∀ ρ (i j : Nat) (b c : Binding), bs[i]? = some b → bs[j]? = some c → Agree N.types N.vty b ρ t.vars → Agree N.types N.vty c ρ t.vars → i = j) := by
  have hgr : ∀ n ρ, Agree N.types N.vty (bnd N.types N.vty t.vars n) ρ t.vars →
      ∃ r, guardEval N.types N.vty (bnd N.types N.vty t.vars n) t.guard = some r ∧ (r = true ↔ guardHolds N.types N.vty ρ t.guard) :=
    fun n ρ ha => guardEval_ok w.types t.guard (w.guard t ht) (ha.mono (guardVars_sub t))
  have hg : ∀ n, n < (vsizes N.types N.vty t.vars).prod → guardEval N.types N.vty (bnd N.types N.vty t.vars n) t.guard =
      some ((guardEval N.types N.vty (bnd N.types N.vty t.vars n) t.guard).getD false) := by
    intro n hn
    obtain ⟨r, h1, _⟩ := hgr n _ (agree_rho t.vars (vars_nodup t) hn)
    rw [h1]
    rfl
  rcases naive_spec (w.vpos t ht) hg fuel with h | ⟨ms, h1, h2, h3⟩
  · exact Or.inl h
  · refine Or.inr ⟨_, h1, ?_, ?_, ?_, ?_⟩
    · intro b hb
      obtain ⟨m, hm, rfl⟩ := List.mem_map.1 hb
      exact ⟨_, agree_rho t.vars (vars_nodup t) ((h3 m).1 hm).1⟩
    · intro b hb ρ ha
      obtain ⟨m, hm, rfl⟩ := List.mem_map.1 hb
      obtain ⟨r, h4, h5⟩ := hgr m ρ ha
      have h6 := ((h3 m).1 hm).2
      rw [h4] at h6
      exact h5.1 h6
    · intro ρ hv hgd
      obtain ⟨m, hm, ha⟩ := exists_bnd t.vars (vars_nodup t) hv
      obtain ⟨r, h4, h5⟩ := hgr m ρ ha
      have hmem : m ∈ ms := (h3 m).2 ⟨hm, by rw [h4]; exact h5.2 hgd⟩
      obtain ⟨i, hi, he⟩ := List.mem_iff_getElem.1 hmem
      exact ⟨i, bnd N.types N.vty t.vars m, by rw [List.getElem?_map, List.getElem?_eq_getElem hi, he]; rfl, ha⟩
    · intro ρ i j b c hb hc hab hac
      rw [List.getElem?_map] at hb hc
      obtain ⟨m, hm, rfl⟩ := Option.map_eq_some_iff.1 hb
      obtain ⟨n, hn, rfl⟩ := Option.map_eq_some_iff.1 hc
      have hm' := List.mem_of_getElem? hm
      have hn' := List.mem_of_getElem? hn
      have := agree_inj t.vars (vars_nodup t) ((h3 m).1 hm').1 ((h3 n).1 hn').1 hab hac
      subst this
      have hnd : ms.Nodup := List.nodup_iff_pairwise_ne.2 (h2.imp fun h => Nat.ne_of_lt h)
      have hi : i < ms.length := (List.getElem?_eq_some_iff.1 hm).1
      exact (List.getElem?_inj hi hnd).1 (hm.trans hn.symm)

theorem transitions_gen {N : CNet} {gen : CTrans → Option (List Binding)} {ts : List CTrans} {s s' : U} (h : U.transitions N gen ts s = some s') :
    ∀ t ∈ ts, gen t ≠ none := by
  induction ts generalizing s with
  | nil => intro t ht; cases ht
  | cons a ts ih =>
    rw [U.transitions] at h
    cases hg : gen a with
    | none => rw [hg] at h; cases h
    | some bs =>
      rw [hg, Option.bind_some] at h
      cases hb : U.bindings N a 0 bs s with
      | none => rw [hb] at h; cases h
      | some s1 =>
        rw [hb, Option.bind_some] at h
        intro t ht
        rcases List.mem_cons.1 ht with rfl | ht
        · rw [hg]; exact Option.some_ne_none _
        · exact ih h t ht

theorem genOK_of_unfold {N : CNet} (w : N.WF) {fuel : Nat} {s : U} (h : unfold N fuel = some s) :
    GenOK N (naiveBindings N.types N.vty fuel) := by
  intro t ht
  unfold unfold unfoldWith at h
  obtain ⟨s0, h0, _⟩ := Option.map_eq_some_iff.1 h
  rcases naive_one w ht fuel with ⟨_, h1⟩ | h1
  · exact absurd h1 (transitions_gen h0 t ht)
  · exact h1

theorem genOK_naive {N : CNet} (w : N.WF) {fuel : Nat} (h : ∀ t ∈ N.transitions, (vsizes N.types N.vty t.vars).prod ≤ fuel) :
    GenOK N (naiveBindings N.types N.vty fuel) := by
  intro t ht
  rcases naive_one w ht fuel with ⟨h1, _⟩ | h1
  · have := h t ht; omega
  · exact h1

/-! ### Emitted transitions -/

theorem mem_emitB {t : CTrans} {e : Emit} (bs : List Binding) (i : Nat) :
    e ∈ emitB t i bs ↔ ∃ j b, bs[j]? = some b ∧ e = ⟨bname t.name (i + j), t, b⟩ := by
  induction bs generalizing i with
  | nil => simp [emitB]
  | cons a bs ih =>
    rw [emitB, List.mem_cons, ih]
    constructor
    · rintro (rfl | ⟨j, b, h1, rfl⟩)
      · exact ⟨0, a, rfl, rfl⟩
      · exact ⟨j + 1, b, h1, by rw [Nat.add_assoc, Nat.add_comm 1 j]⟩
    · rintro ⟨j, b, h1, rfl⟩
      cases j with
      | zero => cases h1; exact Or.inl rfl
      | succ j => exact Or.inr ⟨j, b, h1, by rw [Nat.add_assoc, Nat.add_comm 1 j]⟩

theorem mem_emitT {gen : CTrans → Option (List Binding)} {e : Emit} (ts : List CTrans) :
    e ∈ emitT gen ts ↔ ∃ t ∈ ts, ∃ j b, ((gen t).getD [])[j]? = some b ∧ e = ⟨bname t.name j, t, b⟩ := by
  induction ts with
  | nil => simp [emitT]
  | cons a ts ih =>
    rw [emitT, List.mem_append, ih, mem_emitB]
    simp only [Nat.zero_add]
    constructor
    · rintro (h | ⟨t, h1, h2⟩)
      · exact ⟨a, List.mem_cons_self, h⟩
      · exact ⟨t, List.mem_cons_of_mem _ h1, h2⟩
    · rintro ⟨t, h1, h2⟩
      rcases List.mem_cons.1 h1 with rfl | h1
      · exact Or.inl h2
      · exact Or.inr ⟨t, h1, h2⟩

theorem emitB_nodup (t : CTrans) (bs : List Binding) (i : Nat) : ((emitB t i bs).map (·.name)).Nodup := by
  induction bs generalizing i with
  | nil => exact List.nodup_nil
  | cons b bs ih =>
    rw [emitB, List.map_cons, List.nodup_cons]
    refine ⟨?_, ih _⟩
    intro h
    obtain ⟨e, he, hn⟩ := List.mem_map.1 h
    obtain ⟨j, c, _, rfl⟩ := (mem_emitB bs (i + 1)).1 he
    have := (bname_inj hn).2
    omega

theorem emitT_nodup {gen : CTrans → Option (List Binding)} (ts : List CTrans) (h : (ts.map (·.name)).Nodup) :
    ((emitT gen ts).map (·.name)).Nodup := by
  induction ts with
  | nil => exact List.nodup_nil
  | cons a ts ih =>
    rw [List.map_cons, List.nodup_cons] at h
    rw [emitT, List.map_append, List.nodup_append]
    refine ⟨emitB_nodup _ _ _, ih h.2, ?_⟩
    intro x hx y hy hxy
    subst hxy
    obtain ⟨e, he, rfl⟩ := List.mem_map.1 hx
    obtain ⟨f, hf, hn⟩ := List.mem_map.1 hy
    obtain ⟨j, b, _, rfl⟩ := (mem_emitB _ 0).1 he
    obtain ⟨t, ht, k, c, _, rfl⟩ := (mem_emitT ts).1 hf
    exact h.1 (List.mem_map.2 ⟨t, ht, (bname_inj hn).1⟩)

theorem sumIf_mem {es : List Emit} (hn : (es.map (·.name)).Nodup) {e : Emit} (he : e ∈ es) (f : Emit → String → Nat) (q : String) :
    sumIf es f e.name q = f e q := by
  unfold sumIf
  induction es with
  | nil => cases he
  | cons a es ih =>
    rw [List.map_cons, List.nodup_cons] at hn
    rw [List.map_cons, List.sum_cons]
    rcases List.mem_cons.1 he with rfl | he
    · rw [if_pos rfl, sum_zero, Nat.add_zero]
      intro x hx
      exact if_neg fun hc => hn.1 (List.mem_map.2 ⟨x, hx, hc⟩)
    · rw [if_neg (fun hc => hn.1 (List.mem_map.2 ⟨e, he, Eq.symm hc⟩)), ih hn.2 he, Nat.zero_add]

theorem sumIf_notMem {es : List Emit} {t : String} (h : t ∉ es.map (·.name)) (f : Emit → String → Nat) (q : String) : sumIf es f t q = 0 :=
  sum_zero _ fun x hx => if_neg fun hc => h (List.mem_map.2 ⟨x, hx, hc⟩)

/-! ### Orphans -/

/-- the place for left-over tokens: its key and its tokens -/
def U.orphanOf (N : CNet) (s : U) (p : Nat) : Option (Nat × Nat) :=
  if !s.hasPlace p && decide ((N.place p).tokens > 0) then some (0, (N.place p).tokens % W32)
  else if (N.place p).tokens > s.used p ∨ s.hasPlace p = false then some (W32 - 1, ((N.place p).tokens - s.used p) % W32)
  else none

def U.putOrphan (N : CNet) (s : U) (p : Nat) : Option (Nat × Nat) → U
  | none => s
  | some (k, n) => { s with ops := s.ops ++ [.place (orphanName (N.place p).name) n],
                            names := s.names ++ [(p, k, orphanName (N.place p).name)] }

theorem orphan_eq (N : CNet) (s : U) (p : Nat) : s.orphan N p = s.putOrphan N p (s.orphanOf N p) := by
  unfold U.orphan U.orphanOf
  simp only
  split
  · rfl
  · split <;> rfl

/-- two states that differ by places for left-over tokens only -/
structure U.More (N : CNet) (s s' : U) : Prop where
  ops : ∃ l : List (String × Nat), s'.ops = s.ops ++ l.map fun q => Op.place (orphanName q.1) q.2
  names : ∀ q, q ∈ s'.names → q ∈ s.names ∨ ∃ p < N.places.length, q.1 = p ∧ q.2.2 = orphanName (N.place p).name
  le : ∀ q ∈ s.names, q ∈ s'.names
  sums : s'.sums = s.sums

theorem U.More.refl (N : CNet) (s : U) : U.More N s s := ⟨⟨[], by simp⟩, fun _ h => Or.inl h, fun _ h => h, rfl⟩

theorem U.More.trans {N : CNet} {s s' s'' : U} (h : U.More N s s') (h' : U.More N s' s'') : U.More N s s'' where
  ops := by
    obtain ⟨l, h1⟩ := h.ops
    obtain ⟨k, h2⟩ := h'.ops
    exact ⟨l ++ k, by rw [h2, h1, List.map_append, List.append_assoc]⟩
  names q hq := by
    rcases h'.names q hq with h1 | h1
    · exact h.names q h1
    · exact Or.inr h1
  le q hq := h'.le q (h.le q hq)
  sums := h'.sums.trans h.sums

theorem more_orphan {N : CNet} {s : U} {p : Nat} (hp : p < N.places.length) (o : Option (Nat × Nat)) : U.More N s (s.putOrphan N p o) := by
  cases o with
  | none => exact .refl N s
  | some q =>
    obtain ⟨k, n⟩ := q
    refine ⟨⟨[((N.place p).name, n)], rfl⟩, ?_, fun q hq => List.mem_append_left _ hq, rfl⟩
    intro q hq
    rcases List.mem_append.1 hq with hq | hq
    · exact Or.inl hq
    · cases List.mem_singleton.1 hq
      exact Or.inr ⟨p, hp, rfl, rfl⟩

theorem more_orphans {N : CNet} (ps : List Nat) (hp : ∀ p ∈ ps, p < N.places.length) (s : U) : U.More N s (U.orphans N ps s) := by
  induction ps generalizing s with
  | nil => exact .refl N s
  | cons p ps ih =>
    rw [U.orphans, orphan_eq]
    exact (more_orphan (hp p List.mem_cons_self) _).trans (ih (fun q hq => hp q (List.mem_cons_of_mem _ hq)) _)

theorem initStep_ne {p : String} {o : Op} (h : ∀ k, o ≠ Op.place p k) (acc : Nat) : initStep p acc o = acc := by
  cases o with
  | place q k =>
    unfold initStep
    simp only
    rw [if_neg]
    rintro rfl
    exact h k rfl
  | trans => rfl
  | input => rfl
  | output => rfl

theorem specInit_append_ne (ops : List Op) (l : List Op) (n : String) (h : ∀ o ∈ l, ∀ k, o ≠ Op.place n k) :
    specInit (ops ++ l) n = specInit ops n := by
  rw [specInit_fold, specInit_fold, List.foldl_append]
  generalize ops.foldl (initStep n) 0 = a
  induction l generalizing a with
  | nil => rfl
  | cons o l ih =>
    rw [List.foldl_cons, initStep_ne (h o List.mem_cons_self)]
    exact ih (fun o' ho => h o' (List.mem_cons_of_mem _ ho)) a

theorem more_init {N : CNet} {s s' : U} (h : U.More N s s') {n : String} (hn : ∀ p, n ≠ orphanName p) :
    specInit s'.ops n = specInit s.ops n := by
  obtain ⟨l, hl⟩ := h.ops
  rw [hl]
  apply specInit_append_ne
  intro o ho k hc
  obtain ⟨q, _, rfl⟩ := List.mem_map.1 ho
  cases hc
  exact hn _ rfl

theorem more_input {N : CNet} {s s' : U} (h : U.More N s s') {n t : String} {i : Bool} {k : Nat} :
    Op.input n t i k ∈ s'.ops ↔ Op.input n t i k ∈ s.ops := by
  obtain ⟨l, hl⟩ := h.ops
  rw [hl]; simp

theorem more_output {N : CNet} {s s' : U} (h : U.More N s s') {n t : String} {k : Nat} :
    Op.output t n k ∈ s'.ops ↔ Op.output t n k ∈ s.ops := by
  obtain ⟨l, hl⟩ := h.ops
  rw [hl]; simp

theorem more_trans {N : CNet} {s s' : U} (h : U.More N s s') {n : String} {k : Int} :
    Op.trans n k ∈ s'.ops ↔ Op.trans n k ∈ s.ops := by
  obtain ⟨l, hl⟩ := h.ops
  rw [hl]; simp

theorem more_pre {N : CNet} {s s' : U} (h : U.More N s s') (t q : String) : specPre s'.ops t q = specPre s.ops t q := by
  obtain ⟨l, hl⟩ := h.ops
  rw [hl, specPre_append]
  have : specPre (l.map fun q => Op.place (orphanName q.1) q.2) t q = 0 := by
    unfold specPre
    rw [List.map_map]
    exact sum_zero _ fun x _ => rfl
  rw [this, Nat.add_zero]

theorem more_post {N : CNet} {s s' : U} (h : U.More N s s') (t q : String) : specPost s'.ops t q = specPost s.ops t q := by
  obtain ⟨l, hl⟩ := h.ops
  rw [hl, specPost_append]
  have : specPost (l.map fun q => Op.place (orphanName q.1) q.2) t q = 0 := by
    unfold specPost
    rw [List.map_map]
    exact sum_zero _ fun x _ => rfl
  rw [this, Nat.add_zero]

theorem more_made {N : CNet} {s s' : U} (h : U.More N s s') {p i : Nat} : s'.Made N p i ↔ s.Made N p i := by
  constructor
  · intro hm
    rcases h.names _ hm with h1 | ⟨q, _, _, h3⟩
    · exact h1
    · exact absurd h3 (cname_ne_orphan _ _ _)
  · exact fun hm => h.le _ hm

theorem more_named {N : CNet} {s s' : U} (h : U.More N s s') {n : String} : s'.Named N n ↔ s.Named N n := by
  unfold U.Named
  simp only [more_made h, h.sums]

/-! ### Everything about the unfolded net -/

structure Result (N : CNet) (s : U) (es : List Emit) : Prop where
  pre : ∀ t q, specPre s.ops t q = sumIf es (inS N) t q
  post : ∀ t q, specPost s.ops t q = sumIf es (outS N) t q
  inh : ∀ t q k, Op.input q t true k ∈ s.ops ↔ ∃ e ∈ es, inhOf N e.t.name e.name N.inhibitors t q k
  trans : ∀ n pl, Op.trans n pl ∈ s.ops ↔ pl = 0 ∧ ∃ e ∈ es, e.name = n
  made : ∀ p i, s.Made N p i → p < N.places.length ∧ i < N.types.size (N.place p).ty
  sums : ∀ p ∈ s.sums, p < N.places.length ∧ N.inhibited p = true
  input : ∀ n t i k, Op.input n t i k ∈ s.ops → s.Named N n
  output : ∀ t n k, Op.output t n k ∈ s.ops → s.Named N n
  weight : (∀ n t i k, Op.input n t i k ∈ s.ops → 0 < k ∧ k < W32) ∧ ∀ t n k, Op.output t n k ∈ s.ops → 0 < k ∧ k < W32
  init_color : ∀ p i, s.Made N p i → specInit s.ops (cname (N.place p).name i) = (N.place p).ms.get ⟨(N.place p).ty, i⟩
  init_sum : ∀ p ∈ s.sums, specInit s.ops (sumName (N.place p).name) = (N.place p).tokens % W32

theorem result_of {N : CNet} (w : N.WF) {gen : CTrans → Option (List Binding)} (hg : GenLegal N gen) :
    ∃ s, unfoldWith N gen = some s ∧ Result N s (emitT gen N.transitions) ∧
      ∃ s0, U.Inv N s0 ∧ s = U.orphans N (List.range N.places.length) s0 := by
  have hI : InhOK N := fun h hh => ⟨(w.inhib h hh).1, (w.inhib h hh).2.2⟩
  obtain ⟨s0, h1, h2⟩ := grow_transitions hI (gen := gen) N.transitions (fun t ht => by
    obtain ⟨bs, h1, h2, _⟩ := hg t ht
    refine ⟨bs, h1, fun b hb a ha => ?_⟩
    obtain ⟨ρ, hr⟩ := h2 b hb
    exact (sound_of w ht hr a ha).fine) {} (inv_empty N)
  have hi := h2.inv (inv_empty N)
  have hm := more_orphans (List.range N.places.length) (fun p hp => List.mem_range.1 hp) s0
  refine ⟨_, by unfold unfoldWith; rw [h1]; rfl, ?_, s0, hi, rfl⟩
  have hinit : ∀ n, (∀ p, n ≠ orphanName p) → (∃ k, Op.place n k ∈ s0.ops) → ∀ c, (∀ k, Op.place n k ∈ s0.ops → k = c) →
      specInit (U.orphans N (List.range N.places.length) s0).ops n = c := by
    intro n hn he c hc
    rw [more_init hm hn]
    exact specInit_of hc he
  constructor
  · intro t q; rw [more_pre hm, h2.pre_eq]; exact Nat.zero_add _
  · intro t q; rw [more_post hm, h2.post_eq]; exact Nat.zero_add _
  · intro t q k; rw [more_input hm, h2.inh_eq]; simp
  · intro n pl; rw [more_trans hm, h2.trans_eq]; simp
  · intro p i hmd
    rw [more_made hm] at hmd
    obtain ⟨h3, h4 | h4⟩ := hi.names _ _ _ hmd
    · exact ⟨h3, h4.2⟩
    · exact absurd h4.1 (cname_ne_sum _ _ _)
  · intro p hp
    rw [hm.sums] at hp
    exact hi.sums p hp
  · intro n t i k h; rw [more_named hm]; exact hi.input n t i k ((more_input hm).1 h)
  · intro n t k h; rw [more_named hm]; exact hi.output n t k ((more_output hm).1 h)
  · exact ⟨fun n t i k h => hi.weight.1 n t i k ((more_input hm).1 h), fun t n k h => hi.weight.2 t n k ((more_output hm).1 h)⟩
  · intro p i hmd
    rw [more_made hm] at hmd
    obtain ⟨hp, _⟩ := hi.names _ _ _ hmd
    apply hinit _ (fun q => cname_ne_orphan _ _ _) (hi.made p i hmd)
    intro k hk
    rcases hi.place _ k hk with ⟨p', j, h3, h4, h5⟩ | ⟨p', h3, h4, _⟩
    · obtain ⟨h6, rfl⟩ := cname_inj h4
      have := w.place_inj hp (hi.names _ _ _ h3).1 h6
      subst this
      exact h5
    · exact absurd h4 (cname_ne_sum _ _ _)
  · intro p hp
    rw [hm.sums] at hp
    apply hinit _ (fun q => sum_ne_orphan _ _) (hi.summed p hp)
    intro k hk
    rcases hi.place _ k hk with ⟨p', j, h3, h4, h5⟩ | ⟨p', h3, h4, h5⟩
    · exact absurd h4.symm (cname_ne_sum _ _ _)
    · have := w.place_inj (hi.sums p hp).1 (hi.sums p' h3).1 (sumName_inj h4)
      subst this
      exact h5

/-! ### The correspondence of markings -/

/-- a marking of the unfolded net stands for a marking of the coloured net -/
structure Rel (N : CNet) (s : U) (M : CMark) (u : String → Nat) : Prop where
  /-- the place of a colour holds the tokens of that colour -/
  color : ∀ p i, (p, i, cname (N.place p).name i) ∈ s.names → u (cname (N.place p).name i) = M p (N.types.value ⟨(N.place p).ty, i⟩)
  /-- the sum place holds as many tokens as the place -/
  sum : ∀ p ∈ s.sums, u (sumName (N.place p).name) = N.total M p
  /-- colours without a place keep their initial tokens -/
  rest : ∀ p < N.places.length, ∀ i < N.types.size (N.place p).ty, (p, i, cname (N.place p).name i) ∉ s.names →
    M p (N.types.value ⟨(N.place p).ty, i⟩) = N.init p (N.types.value ⟨(N.place p).ty, i⟩)
  /-- the tokens of those colours stay on the orphan place -/
  orphan : ∀ p < N.places.length, u (orphanName (N.place p).name) = specInit s.ops (orphanName (N.place p).name)

theorem init_value {N : CNet} (w : N.WF) {p i : Nat} (hp : p < N.places.length) (hi : i < N.types.size (N.place p).ty) :
    N.init p (N.types.value ⟨(N.place p).ty, i⟩) = entry (N.place p).marking i := by
  obtain ⟨h1, h2, _⟩ := w.marking _ (place_mem hp)
  unfold CNet.init
  generalize (N.place p).marking = l at *
  induction l with
  | nil => rfl
  | cons q l ih =>
    rw [List.map_cons, List.nodup_cons] at h1
    rw [List.map_cons, List.sum_cons, entry_cons, ih h1.2 fun j hj => h2 j (by rw [List.map_cons]; exact List.mem_cons_of_mem _ hj)]
    by_cases hc : i = q.1
    · rw [if_pos (by rw [hc]), if_pos hc, hc, entry_notMem h1.1, Nat.add_zero]
    · rw [if_neg hc, if_neg, Nat.zero_add]
      intro he
      exact hc (value_inj N.types (h2 q.1 (by simp)) hi he).symm

theorem ms_get {pl : CPlace} (i : Nat) : pl.ms.get ⟨pl.ty, i⟩ = entry pl.marking i := by
  unfold CPlace.ms
  by_cases h : pl.marking.isEmpty
  · rw [if_pos h, List.isEmpty_iff.1 h]; rfl
  · rw [if_neg h]
    unfold MS.get
    simp [entry]

theorem total_init {N : CNet} (w : N.WF) {p : Nat} (hp : p < N.places.length) : N.total N.init p = (N.place p).tokens := by
  obtain ⟨h1, h2, _⟩ := w.marking _ (place_mem hp)
  unfold CNet.total CPlace.tokens
  rw [values_eq, List.map_map, ← sum_entry h1 List.nodup_range fun i hi => List.mem_range.2 (h2 i hi)]
  exact sum_congr _ fun i hi => init_value w hp (List.mem_range.1 hi)

theorem rel_init {N : CNet} (w : N.WF) {s : U} {es : List Emit} (r : Result N s es) : Rel N s N.init (specInit s.ops) where
  color p i h := by
    rw [r.init_color p i h, ms_get, init_value w (r.made p i h).1 (r.made p i h).2]
  sum p h := by
    rw [r.init_sum p h, total_init w (r.sums p h).1]
    exact Nat.mod_eq_of_lt (w.marking _ (place_mem (r.sums p h).1)).2.2
  rest p _ i _ _ := rfl
  orphan p _ := rfl

section
variable {N : CNet} (w : N.WF) {s : U} {es : List Emit} (r : Result N s es)
include w r

theorem named_color {p i : Nat} (hp : p < N.places.length) (h : s.Named N (cname (N.place p).name i)) : s.Made N p i := by
  rcases h with ⟨q, j, h1, h2⟩ | ⟨q, _, h2⟩
  · obtain ⟨h3, rfl⟩ := cname_inj h2
    have := w.place_inj hp (r.made q _ h1).1 h3
    subst this
    exact h1
  · exact absurd h2 (cname_ne_sum _ _ _)

theorem named_sum {p : Nat} (hp : p < N.places.length) (h : s.Named N (sumName (N.place p).name)) : p ∈ s.sums := by
  rcases h with ⟨q, j, h1, h2⟩ | ⟨q, h1, h2⟩
  · exact absurd h2.symm (cname_ne_sum _ _ _)
  · have := w.place_inj hp (r.sums q h1).1 (sumName_inj h2)
    subst this
    exact h1

omit w r in
theorem named_orphan {p : String} : ¬ s.Named N (orphanName p) := by
  rintro (⟨q, j, _, h2⟩ | ⟨q, _, h2⟩)
  · exact cname_ne_orphan _ _ _ h2.symm
  · exact sum_ne_orphan _ _ h2.symm

variable (hn : (es.map (·.name)).Nodup) {e : Emit} (he : e ∈ es) {t : Nat} (htt : t < N.transitions.length) (het : e.t = N.trans t)
  {ρ : Nat → Val} (ha : Agree N.types N.vty e.b ρ e.t.vars)
include hn he htt het ha

theorem pre_color {p i : Nat} (hp : p < N.places.length) (hi : i < N.types.size (N.place p).ty) :
    specPre s.ops e.name (cname (N.place p).name i) = arcsTokens N ρ (N.trans t).inputs p (N.types.value ⟨(N.place p).ty, i⟩) := by
  have hs := sound_of w (het ▸ trans_mem htt) ha
  rw [r.pre, sumIf_mem hn he, inS, shares_color w (fun a h => hs a (List.mem_append_left _ h)) hp hi, het]

theorem post_color {p i : Nat} (hp : p < N.places.length) (hi : i < N.types.size (N.place p).ty) :
    specPost s.ops e.name (cname (N.place p).name i) = arcsTokens N ρ (N.trans t).outputs p (N.types.value ⟨(N.place p).ty, i⟩) := by
  have hs := sound_of w (het ▸ trans_mem htt) ha
  rw [r.post, sumIf_mem hn he, outS, shares_color w (fun a h => hs a (List.mem_append_right _ h)) hp hi, het]

theorem pre_sum {p : Nat} (hp : p < N.places.length) (hi : N.inhibited p = true) :
    specPre s.ops e.name (sumName (N.place p).name) = ((N.types.values (N.place p).ty).map (arcsTokens N ρ (N.trans t).inputs p)).sum := by
  have hs := sound_of w (het ▸ trans_mem htt) ha
  rw [r.pre, sumIf_mem hn he, inS, shares_sum w (fun a h => hs a (List.mem_append_left _ h)) hp hi, het]

theorem post_sum {p : Nat} (hp : p < N.places.length) (hi : N.inhibited p = true) :
    specPost s.ops e.name (sumName (N.place p).name) = ((N.types.values (N.place p).ty).map (arcsTokens N ρ (N.trans t).outputs p)).sum := by
  have hs := sound_of w (het ▸ trans_mem htt) ha
  rw [r.post, sumIf_mem hn he, outS, shares_sum w (fun a h => hs a (List.mem_append_right _ h)) hp hi, het]

/-- the transition takes tokens of colours with a place only -/
theorem in_made {p i : Nat} (hp : p < N.places.length) (hi : i < N.types.size (N.place p).ty)
    (h : arcsTokens N ρ (N.trans t).inputs p (N.types.value ⟨(N.place p).ty, i⟩) ≠ 0) : s.Made N p i := by
  rw [← pre_color w r hn he htt het ha hp hi] at h
  obtain ⟨k, hk⟩ := specPre_ne h
  exact named_color w r hp (r.input _ _ _ _ hk)

theorem out_made {p i : Nat} (hp : p < N.places.length) (hi : i < N.types.size (N.place p).ty)
    (h : arcsTokens N ρ (N.trans t).outputs p (N.types.value ⟨(N.place p).ty, i⟩) ≠ 0) : s.Made N p i := by
  rw [← post_color w r hn he htt het ha hp hi] at h
  obtain ⟨k, hk⟩ := specPost_ne h
  exact named_color w r hp (r.output _ _ _ hk)

theorem rel_enabled {M : CMark} {u : String → Nat} (h : Rel N s M u) :
    (specNet s.ops).Enabled u e.name ↔ N.Enabled M t ρ := by
  have hs := sound_of w (het ▸ trans_mem htt) ha
  have hsi : ∀ a ∈ (N.trans t).inputs, Sound N e.b ρ a := fun a hm => hs a (List.mem_append_left _ (het ▸ hm))
  constructor
  · rintro ⟨h1, h2⟩
    refine ⟨fun p x => ?_, fun g hg hgt => ?_⟩
    · rcases Nat.eq_zero_or_pos (arcsTokens N ρ (N.trans t).inputs p x) with h0 | h0
      · omega
      · obtain ⟨hp, hx⟩ := arcsTokens_mem hsi (Nat.pos_iff_ne_zero.1 h0)
        obtain ⟨i, hi, rfl⟩ := (mem_values N.types).1 hx
        rw [← h.color p i (in_made w r hn he htt het ha hp hi (Nat.pos_iff_ne_zero.1 h0)), ← pre_color w r hn he htt het ha hp hi]
        exact h1 _
    · have hop : Op.input (sumName (N.place g.place).name) e.name true g.weight ∈ s.ops := by
        rw [r.inh]
        exact ⟨e, he, rfl, g, hg, by rw [hgt, het], rfl, rfl⟩
      have hgp := (w.inhib g hg).1
      have hsum : g.place ∈ s.sums := named_sum w r hgp (r.input _ _ _ _ hop)
      rw [← h.sum _ hsum]
      exact (specInh_iff s.ops e.name _ _).1 (fun k hk => h2 _ k hk) _ hop
  · rintro ⟨h1, h2⟩
    refine ⟨fun q => ?_, fun q => ?_⟩
    · change specPre s.ops e.name q ≤ u q
      rcases Nat.eq_zero_or_pos (specPre s.ops e.name q) with h0 | h0
      · omega
      · obtain ⟨k, hk⟩ := specPre_ne (Nat.pos_iff_ne_zero.1 h0)
        rcases r.input _ _ _ _ hk with ⟨p, i, h3, rfl⟩ | ⟨p, h3, rfl⟩
        · obtain ⟨hp, hi⟩ := r.made p i h3
          rw [pre_color w r hn he htt het ha hp hi, h.color p i h3]
          exact h1 p _
        · obtain ⟨hp, hi⟩ := r.sums p h3
          rw [pre_sum w r hn he htt het ha hp hi, h.sum p h3]
          exact sum_le _ fun x _ => h1 p x
    · refine (specInh_iff s.ops e.name q _).2 fun k hk => ?_
      obtain ⟨e', he', hname, g, hg, h3, h4, h5⟩ := (r.inh _ _ _).1 hk
      have hee : e' = e := by
        obtain ⟨i, hi, rfl⟩ := List.mem_iff_getElem.1 he'
        obtain ⟨j, hj, rfl⟩ := List.mem_iff_getElem.1 he
        have : i = j := (List.getElem_inj (xs := es.map (·.name)) (h₀ := by simpa using hi) (h₁ := by simpa using hj) hn).1 (by simpa using hname.symm)
        subst this
        rfl
      subst hee
      have hgt : g.trans = t := w.trans_inj (w.inhib g hg).2.1 htt (by rw [h3, het])
      have hgp := (w.inhib g hg).1
      rw [h4] at hk ⊢
      rw [h.sum _ (named_sum w r hgp (r.input _ _ _ _ hk)), h5]
      exact h2 g hg hgt

theorem rel_fire {M : CMark} {u : String → Nat} (h : Rel N s M u) (hen : N.Enabled M t ρ) :
    Rel N s (N.fire M t ρ) ((specNet s.ops).fire u e.name) where
  color p i hm := by
    obtain ⟨hp, hi⟩ := r.made p i hm
    change u _ - specPre s.ops e.name _ + specPost s.ops e.name _ = _
    rw [pre_color w r hn he htt het ha hp hi, post_color w r hn he htt het ha hp hi, h.color p i hm]
    rfl
  sum p hm := by
    obtain ⟨hp, hi⟩ := r.sums p hm
    change u _ - specPre s.ops e.name _ + specPost s.ops e.name _ = _
    rw [pre_sum w r hn he htt het ha hp hi, post_sum w r hn he htt het ha hp hi, h.sum p hm]
    unfold CNet.total CNet.fire
    exact (sum_sub_add _ fun x _ => hen.1 p x).symm
  rest p hp i hi hm := by
    have h1 : arcsTokens N ρ (N.trans t).inputs p (N.types.value ⟨(N.place p).ty, i⟩) = 0 := by
      apply Decidable.byContradiction
      exact fun hc => hm (in_made w r hn he htt het ha hp hi hc)
    have h2 : arcsTokens N ρ (N.trans t).outputs p (N.types.value ⟨(N.place p).ty, i⟩) = 0 := by
      apply Decidable.byContradiction
      exact fun hc => hm (out_made w r hn he htt het ha hp hi hc)
    unfold CNet.fire
    rw [h1, h2, h.rest p hp i hi hm]
    rfl
  orphan p hp := by
    change u _ - specPre s.ops e.name _ + specPost s.ops e.name _ = _
    have h1 : specPre s.ops e.name (orphanName (N.place p).name) = 0 := by
      apply Decidable.byContradiction
      intro hc
      obtain ⟨k, hk⟩ := specPre_ne hc
      exact named_orphan (r.input _ _ _ _ hk)
    have h2 : specPost s.ops e.name (orphanName (N.place p).name) = 0 := by
      apply Decidable.byContradiction
      intro hc
      obtain ⟨k, hk⟩ := specPost_ne hc
      exact named_orphan (r.output _ _ _ hk)
    rw [h1, h2, h.orphan p hp]
    rfl

end

end CPN
end Verif
