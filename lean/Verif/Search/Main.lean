import Verif.Search.Lemmas

/-! # The main loop of the explicit search -/

namespace Verif
namespace Search
open Queue StateSet Encoder

variable {Q : Type} {E : Env Q} {base : Prop} {L : Lawful E.I base}

def Outcome.st : Outcome Q → Option (St Q)
  | .running s => some s
  | .done _ s => some s
  | .thrown s => some s
  | .ub => none

/-! ### The final answers -/

theorem finish_aux (l : List Nat) (hl : l.Nodup) (s : St Q) :
    let s' := l.foldl (fun s i => if s.results i = .unknown then callback E i .notSatisfied s else s) s
    s'.set = s.set ∧ s'.satisfying = s.satisfying ∧ s'.hist = s.hist ∧
    (∀ i, i ∉ l → s'.results i = s.results i) ∧
    s'.calls = s.calls ++ (l.filter (fun i => s.results i = .unknown)).map
      (fun i => ⟨i, .notSatisfied, s.satisfying, s.hist⟩) := by
  induction l generalizing s with
  | nil => simp
  | cons i l ih =>
    simp only [List.nodup_cons] at hl
    simp only [List.foldl_cons]
    by_cases hr : s.results i = .unknown
    · rw [if_pos hr]
      obtain ⟨h1, h2, h3, h4, h5⟩ := ih hl.2 (callback E i .notSatisfied s)
      refine ⟨h1, h2, h3, ?_, ?_⟩
      · intro j hj
        simp only [List.mem_cons, not_or] at hj
        rw [h4 j hj.2]
        simp [callback, hj.1]
      · rw [h5, List.filter_cons_of_pos (by simpa using hr)]
        have : l.filter (fun j => decide ((callback E i .notSatisfied s).results j = .unknown)) =
            l.filter (fun j => decide (s.results j = .unknown)) := by
          apply List.filter_congr
          intro j hj
          have : j ≠ i := fun e => hl.1 (e ▸ hj)
          simp [callback, this]
        rw [this]
        simp [callback]
    · rw [if_neg hr]
      obtain ⟨h1, h2, h3, h4, h5⟩ := ih hl.2 s
      refine ⟨h1, h2, h3, ?_, ?_⟩
      · intro j hj
        simp only [List.mem_cons, not_or] at hj
        exact h4 j hj.2
      · rw [h5, List.filter_cons_of_neg (by simpa using hr)]

theorem finish_evals (s : St Q) : (finish E s).evals = s.evals := by
  unfold finish
  generalize List.range E.nq = l
  induction l generalizing s with
  | nil => rfl
  | cons i l ih =>
    rw [List.foldl_cons, ih]
    split <;> rfl

theorem finish_spec (s : St Q) :
    (finish E s).set = s.set ∧
    (finish E s).calls = s.calls ++ ((List.range E.nq).filter (fun i => s.results i = .unknown)).map
      (fun i => ⟨i, .notSatisfied, s.satisfying, s.hist⟩) := by
  have := finish_aux (E := E) (List.range E.nq) List.nodup_range s
  exact ⟨this.1, this.2.2.2.2⟩

/-! ### Monotonicity of the stored set -/

theorem mainLoop_mono (fuel : Nat) (s s' : St Q) (h : (mainLoop E fuel s).st = some s') :
    s.set.trie.length ≤ s'.set.trie.length := by
  induction fuel generalizing s with
  | zero =>
    simp only [mainLoop, Outcome.st, Option.some.injEq] at h
    subst h; exact Nat.le_refl _
  | succ fuel ih =>
    simp only [mainLoop] at h
    split at h
    · simp [Outcome.st] at h
    · simp only [Outcome.st, Option.some.injEq] at h
      subst h
      rw [(finish_spec _).1]
    · rename_i nid q hpop
      have hd := decodeId_trie s.set nid s.state
      split at h
      · simp [Outcome.st] at h
      · rename_i S m hdec
        rw [hdec] at hd
        simp only at hd
        have hm := succLoop_mono (E := E) (E.gen m).1 { s with set := S, queue := q, state := m, parent := nid }
        simp only [hd] at hm
        split at h
        · simp [Outcome.st] at h
        · rename_i s1 hs1
          simp only [Outcome.st, Option.some.injEq] at h
          subst h
          exact hm _ (by rw [hs1]; rfl)
        · rename_i s1 hs1
          simp only [Outcome.st, Option.some.injEq] at h
          subst h
          exact hm _ (by rw [hs1]; rfl)
        · rename_i s1 hs1
          have hm1 := hm s1 (by rw [hs1]; rfl)
          split at h
          · simp only [Outcome.st, Option.some.injEq] at h
            subst h; exact hm1
          · exact Nat.le_trans hm1 (ih { s1 with expanded := s1.expanded + 1 } h)

/-! ### The main loop -/

theorem mainLoop_inv (hG : GenOK E) (H : HandlerOK E) (hpl : E.places < W32)
    (fuel : Nat) (s : St Q) (M : List (List Nat))
    (h : Inv E L s M (fun _ _ => True)) (hcl : Closed E L s M none)
    (hk : (L.pend s.queue).card + s.expanded = M.length) :
    match mainLoop E fuel s with
    | .ub => Fin' E W32 → ¬ Total E.I
    | .running s' => Small E s' → ∃ M', Inv E L s' M' (fun _ _ => True) ∧
        (L.pend s'.queue).card + s'.expanded = M'.length ∧ s'.expanded = s.expanded + fuel
    | .thrown s' => Small E s' → ∃ M', Inv E L s' M' (fun _ _ => False)
    | .done true s' => Small E s' → ∃ M', Inv E L s' M' (fun _ _ => False)
    | .done false s' => Small E s' → ∃ M' s'', Inv E L s'' M' (fun _ _ => True) ∧
        Closed E L s'' M' none ∧ L.pend s''.queue = 0 ∧ s' = finish E s'' := by
  induction fuel generalizing s M with
  | zero => exact fun _ => ⟨M, h, hk, rfl⟩
  | succ fuel ih =>
    simp only [mainLoop]
    cases hpop : E.I.pop s.queue (E.rand s.expanded) with
    | none =>
      intro _ hT
      obtain ⟨x, hx⟩ := hT.2 s.queue (E.rand s.expanded)
      rw [hx] at hpop; simp at hpop
    | some r =>
      obtain ⟨o, q⟩ := r
      cases o with
      | none =>
        obtain ⟨p1, p2, p3⟩ := L.pop_none _ _ _ h.qinv hpop
        simp only
        refine fun _ => ⟨M, { s with queue := q }, ?_, ?_, p3, rfl⟩
        · refine { h with qinv := p1, pend := ?_ }
          intro x hx
          rw [show L.pend q = 0 from p3] at hx
          simp at hx
        · intro i hi _ hne
          exact hcl i hi (by rw [p2]; simp) hne
      | some nid =>
        obtain ⟨p1, p2⟩ := L.pop_some _ _ _ _ h.qinv hpop
        have hnid : nid < M.length := h.pend nid (by rw [p2]; simp)
        obtain ⟨d1, d2, d3, d4⟩ := decode_rep h.rep (by rw [h.places]; exact hpl) nid s.state
        have dt := decodeId_trie s.set nid s.state
        simp only
        generalize decodeId s.set nid s.state = r at *
        obtain ⟨S, om⟩ := r
        simp only at d1 d2 d3 d4 dt ⊢
        rw [List.getElem?_eq_getElem hnid, Option.map_some, h.places] at d4
        have hm : over E.places (arr M[nid]) s.state = mkM E M nid := by
          unfold mkM over
          funext p
          split
          · simp [List.getD_eq_getElem?_getD, List.getElem?_eq_getElem hnid]
          · rename_i hp; exact h.tail p (by omega)
        rw [hm] at d4
        subst d4
        simp only
        have hInv : Inv E L { s with set := S, queue := q, state := mkM E M nid, parent := nid } M (fun _ _ => True) := by
          refine { h with
            rep := d3, places := d1.trans h.places, kbound := d2.trans h.kbound
            qinv := p1, pend := ?_, tail := ?_ }
          · intro x hx
            exact h.pend x (by rw [p2]; exact Multiset.mem_cons_of_mem hx)
          · intro p hp; exact Inv.tail_mk M nid p hp
        have hcl' : Closed E L { s with set := S, queue := q, state := mkM E M nid, parent := nid } M (some nid) := by
          intro i hi hip hne
          refine hcl i hi ?_ (by simp)
          rw [p2, Multiset.mem_cons, not_or]
          exact ⟨fun e => hne (by rw [e]), hip⟩
        have hk' : (L.pend q).card + (s.expanded + 1) = M.length := by
          rw [p2, Multiset.card_cons] at hk; omega
        have hsl := succLoop_inv hG H hpl (k := s.expanded + 1) (E.gen (mkM E M nid)).1 _ M hInv hnid rfl (fun y hy => hy) hcl' hk'
        revert hsl
        cases hsl : succLoop E (E.gen (mkM E M nid)).1 { s with set := S, queue := q, state := mkM E M nid, parent := nid } with
        | ub => exact id
        | ret s' =>
          intro this hs
          obtain ⟨M', _, h2⟩ := this hs
          exact ⟨M', h2⟩
        | thrown s' =>
          intro this hs
          obtain ⟨M', _, h2⟩ := this hs
          exact ⟨M', h2⟩
        | cont s' =>
          simp only
          intro this
          by_cases hthrow : (E.gen (mkM E M nid)).2 = true
          · rw [if_pos hthrow]
            intro hs
            obtain ⟨M', _, h2, _⟩ := this hs
            exact ⟨M', h2.weaken (by simp)⟩
          · rw [if_neg hthrow]
            by_cases hs : Small E s'
            · obtain ⟨M', h1, h2, h3, h4, h5, h6⟩ := this hs
              have hnid' : nid < M'.length := Nat.lt_of_lt_of_le hnid h1.length_le
              have hcl2 : Closed E L { s' with expanded := s'.expanded + 1 } M' none := by
                intro i hi hip _
                by_cases hix : i = nid
                · subst hix
                  rw [mk_prefix E h1 hnid]
                  exact ⟨by simpa using hthrow, h6⟩
                · exact h3 i hi hip (fun e => hix (by simpa using e.symm))
              have := ih { s' with expanded := s'.expanded + 1 } M' { h2 with } hcl2 (by
                simp only
                rw [h5]; exact h4)
              revert this
              cases mainLoop E fuel { s' with expanded := s'.expanded + 1 } with
              | ub => exact id
              | running s2 =>
                intro this hs2
                obtain ⟨M2, i1, i2, i3⟩ := this hs2
                refine ⟨M2, i1, i2, ?_⟩
                rw [i3]; simp only [h5]; omega
              | thrown s2 => exact id
              | done b s2 => cases b <;> exact id
            · have hnF : ¬ Fin' E W32 := fun hF => hs (.inl hF)
              have hnlen : ¬ s'.set.trie.length ≤ W32 := fun hF => hs (.inr hF)
              have hmono := mainLoop_mono (E := E) fuel { s' with expanded := s'.expanded + 1 }
              simp only at hmono
              have hbig : ∀ s2 : St Q, s'.set.trie.length ≤ s2.set.trie.length → ¬ Small E s2 := by
                rintro s2 hle (hF | hle')
                · exact hnF hF
                · omega
              revert hmono
              cases mainLoop E fuel { s' with expanded := s'.expanded + 1 } with
              | ub => exact fun _ hF => absurd hF hnF
              | running s2 => exact fun hm hs => absurd hs (hbig s2 (hm s2 rfl))
              | thrown s2 => exact fun hm hs => absurd hs (hbig s2 (hm s2 rfl))
              | done b s2 => cases b <;> exact fun hm hs => absurd hs (hbig s2 (hm s2 rfl))

/-! ### All queries answered -/

theorem newState_done (H : HandlerOK E) (hstop : ∀ i, (E.handler i .satisfied).2 = false)
    {s s' : St Q} {id t : Nat} {m : Nat → Nat} (h : newState E id t m s = some (s', true)) :
    ∀ i, i < E.nq → s'.results i ≠ .unknown := by
  unfold newState at h
  split at h
  · split at h
    · simp at h
    · rename_i q hq
      simp only [Option.some.injEq] at h
      unfold checkQueries at h
      split at h
      · have := (checkLoop_done H hstop m (List.range E.nq)
          { s with queue := q, hist := fun j => if j = id then (u32 s.parent, u32 t) else s.hist j,
                   satisfying := id, explored := s.explored + 1 } true).1
        rw [h] at this
        exact fun i hi => (this rfl).2 i (List.mem_range.2 hi)
      · simp at h
  · simp at h

theorem succLoop_done (H : HandlerOK E) (hstop : ∀ i, (E.handler i .satisfied).2 = false)
    (rest : List (Nat × (Nat → Nat))) (s s' : St Q) (h : succLoop E rest s = .ret s') :
    ∀ i, i < E.nq → s'.results i ≠ .unknown := by
  induction rest generalizing s with
  | nil => simp [succLoop] at h
  | cons y rest ih =>
    obtain ⟨t, m⟩ := y
    simp only [succLoop] at h
    split at h
    · simp at h
    · simp at h
    · exact ih _ h
    · simp at h
    · split at h
      · simp at h
      · rename_i s1 hn
        simp only [Loop.ret.injEq] at h
        subst h
        exact newState_done H hstop hn
      · exact ih _ h

theorem mainLoop_done (H : HandlerOK E) (hstop : ∀ i, (E.handler i .satisfied).2 = false)
    (fuel : Nat) (s s' : St Q) (h : mainLoop E fuel s = .done true s') :
    ∀ i, i < E.nq → s'.results i ≠ .unknown := by
  induction fuel generalizing s with
  | zero => simp [mainLoop] at h
  | succ fuel ih =>
    simp only [mainLoop] at h
    split at h
    · simp at h
    · simp at h
    · split at h
      · simp at h
      · split at h
        · simp at h
        · simp at h
        · rename_i s1 hs1
          simp only [Outcome.done.injEq, true_and] at h
          subst h
          exact succLoop_done H hstop _ _ _ hs1
        · split at h
          · simp at h
          · exact ih _ h

/-! ### tryReach -/

theorem closed_all {s : St Q} {M C} (h : Inv E L s M C) (hG : GenOK E) (hcl : Closed E L s M none)
    (hp : L.pend s.queue = 0) {ts : List Nat} {m : Nat → Nat} (hm : GPath E ts m) :
    ∃ i, i < M.length ∧ mkM E M i = m := by
  induction hm with
  | nil _ =>
    have := h.first
    cases M with
    | nil => simp at this
    | cons a M => exact ⟨0, by simp, h.mk0⟩
  | @snoc ts m t m' _ hmem hinb ih =>
    obtain ⟨i, hi, rfl⟩ := ih
    have := (hcl i hi (by rw [hp]; simp) (by simp)).2 _ hmem hinb
    obtain ⟨j, hj, hjm⟩ := List.getElem_of_mem this
    refine ⟨j, hj, ?_⟩
    simp only at hjm
    obtain ⟨_, _, htail⟩ := hG _ (h.val hi) _ hmem
    simp only at htail
    funext p
    by_cases hp' : p < E.places
    · have h1 := h.ml_mk hj
      rw [hjm, ml_eq_iff] at h1
      exact h1 p hp'
    · rw [Inv.tail_mk M j p (by omega), htail p (by omega), Inv.tail_mk M i p (by omega)]

/-- What is known of the calls of the result handler. -/
structure Good (E : Env Q) (s : St Q) : Prop where
  ans : ∀ c ∈ s.calls, c.answer = .satisfied ∨ c.answer = .notSatisfied
  query : ∀ c ∈ s.calls, c.query < E.nq ∧ E.results0 c.query = .unknown
  once : (s.calls.map Call.query).Nodup
  sat : ∀ c ∈ s.calls, c.answer = .satisfied → ∃ ts m, GPath E ts m ∧ E.goal c.query m = true ∧
    (c.query, m) ∈ s.evals ∧ ∀ fuel, c.marking ≤ fuel → traceWalk c.hist fuel c.marking [] = some ts
  not : ∀ c ∈ s.calls, c.answer = .notSatisfied → E.useQueries = true →
    ∀ ts m, GPath E ts m → E.goal c.query m = false ∧ (E.gen m).2 = false ∧ (c.query, m) ∈ s.evals
  evals : ∀ x ∈ s.evals, ∃ ts, GPath E ts x.2

theorem Inv.good {s : St Q} {M C} (h : Inv E L s M C) : Good E s := by
  refine ⟨fun c hc => .inl (h.sat c hc).1, fun c hc => ⟨(h.sat c hc).2.1, h.fresh c hc⟩, h.once, ?_, ?_, ?_⟩
  · intro c hc _
    obtain ⟨_, _, _, h4, h5, hev, h6⟩ := h.sat c hc
    obtain ⟨ts, p1, p2⟩ := h.path c.hist c.marking h4 h6
    exact ⟨ts, _, p1, h5, hev, fun fuel hf => by simpa using p2 fuel [] hf⟩
  · intro c hc hn
    have := (h.sat c hc).1
    rw [this] at hn; simp at hn
  · intro x hx
    obtain ⟨i, hi, he⟩ := h.evals x hx
    rw [he]
    obtain ⟨ts, p1, _⟩ := h.path s.hist i hi fun _ _ _ => rfl
    exact ⟨ts, p1⟩

theorem finish_good {s : St Q} (h : Good E s)
    (hun : ∀ q, q < E.nq → (s.results q = .unknown → E.results0 q = .unknown ∧ ∀ c ∈ s.calls, c.query ≠ q))
    (hno : ∀ q, q < E.nq → s.results q = .unknown → E.useQueries = true →
      ∀ ts m, GPath E ts m → E.goal q m = false ∧ (E.gen m).2 = false ∧ (q, m) ∈ s.evals) : Good E (finish E s) := by
  obtain ⟨_, hc⟩ := finish_spec (E := E) s
  have hmem : ∀ c ∈ (finish E s).calls, c ∈ s.calls ∨ (c.answer = .notSatisfied ∧ c.query < E.nq ∧
      s.results c.query = .unknown) := by
    intro c hcm
    rw [hc, List.mem_append, List.mem_map] at hcm
    rcases hcm with hcm | ⟨i, hi, rfl⟩
    · exact .inl hcm
    · rw [List.mem_filter, List.mem_range] at hi
      exact .inr ⟨rfl, hi.1, by simpa using hi.2⟩
  have he := finish_evals (E := E) s
  refine ⟨?_, ?_, ?_, ?_, ?_, ?_⟩
  · intro c hcm
    rcases hmem c hcm with h' | h'
    · exact h.ans c h'
    · exact .inr h'.1
  · intro c hcm
    rcases hmem c hcm with h' | h'
    · exact h.query c h'
    · exact ⟨h'.2.1, (hun _ h'.2.1 h'.2.2).1⟩
  · rw [hc, List.map_append, List.nodup_append]
    refine ⟨h.once, ?_, ?_⟩
    · rw [List.map_map]
      have : (Call.query ∘ fun i => (⟨i, .notSatisfied, s.satisfying, s.hist⟩ : Call)) = id := rfl
      rw [this, List.map_id]
      exact List.nodup_range.filter _
    · intro a ha b hb
      rw [List.mem_map] at ha
      obtain ⟨c, hcm, rfl⟩ := ha
      rw [List.map_map, List.mem_map] at hb
      obtain ⟨i, hi, rfl⟩ := hb
      rw [List.mem_filter, List.mem_range] at hi
      exact (hun i hi.1 (by simpa using hi.2)).2 c hcm
  · intro c hcm hs
    rcases hmem c hcm with h' | h'
    · rw [he]; exact h.sat c h' hs
    · rw [h'.1] at hs; simp at hs
  · intro c hcm hs
    rcases hmem c hcm with h' | h'
    · rw [he]; exact h.not c h' hs
    · rw [he]; exact hno _ h'.2.1 h'.2.2
  · rw [he]; exact h.evals

/-- Every query given as unknown has been answered. -/
def AllAnswered (E : Env Q) (s : St Q) : Prop :=
  ∀ q, q < E.nq → E.results0 q = .unknown → ∃ c ∈ s.calls, c.query = q

theorem answered_of {s : St Q} (hun : ∀ q, s.results q = .unknown ↔
    E.results0 q = .unknown ∧ ∀ c ∈ s.calls, c.query ≠ q) (h : ∀ i, i < E.nq → s.results i ≠ .unknown) :
    AllAnswered E s := by
  intro q hq h0
  by_contra hc
  push Not at hc
  exact h q hq ((hun q).2 ⟨h0, hc⟩)

theorem finish_answered {s : St Q} (hun : ∀ q, s.results q = .unknown ↔
    E.results0 q = .unknown ∧ ∀ c ∈ s.calls, c.query ≠ q) : AllAnswered E (finish E s) := by
  obtain ⟨_, hc⟩ := finish_spec (E := E) s
  intro q hq h0
  rw [hc]
  by_cases hr : s.results q = .unknown
  · exact ⟨⟨q, .notSatisfied, s.satisfying, s.hist⟩, by simp [hq, hr], rfl⟩
  · rw [hun q] at hr
    push Not at hr
    obtain ⟨c, h1, h2⟩ := hr h0
    exact ⟨c, by simp [h1], h2⟩

/-- The main theorem about the search. -/
theorem tryReach_good (L : Lawful E.I base) (hG : GenOK E) (H : HandlerOK E) (hpl : E.places < W32)
    (hm0 : ∀ p, p < E.places → E.m0 p < W32) (hheur : E.heur0 < E.nq) (fuel : Nat) :
    match tryReach E fuel with
    | .ub => Fin' E W32 → ¬ Total E.I
    | .running s' => Small E s' → Good E s' ∧ ∃ M : List (List Nat), M.Nodup ∧ fuel ≤ M.length ∧
        ∀ l ∈ M, ∃ ts m, GPath E ts m ∧ ml E.places m = l
    | .thrown s' => Small E s' → Good E s'
    | .done _ s' => Small E s' → Good E s' ∧
        ((∀ i, (E.handler i .satisfied).2 = false) → AllAnswered E s') := by
  have hrep0 : Rep (start E).set [] := ⟨rfl, fun l hl => by simp at hl, List.nodup_nil, fun _ _ => rfl⟩
  have hplaces : (start E).set.places = E.places := rfl
  have hkb : (start E).set.kbound = E.kbound := rfl
  obtain ⟨e1, e2, hadd⟩ := add_cases hrep0 hpl (m := E.m0) hm0
  unfold tryReach
  generalize StateSet.add (start E).set E.m0 = r at *
  obtain ⟨S, res⟩ := r
  simp only at e1 e2 hadd ⊢
  rw [hplaces, hkb] at hadd
  have hg0 : ∀ S', Good E { start E with set := S' } := by
    intro S'
    exact ⟨fun c hc => by simp [start] at hc, fun c hc => by simp [start] at hc, by simp [start],
      fun c hc => by simp [start] at hc, fun c hc => by simp [start] at hc,
      fun c hc => by simp [start] at hc⟩
  rcases hadd with ⟨rfl, hr⟩ | ⟨hnb, rfl, hr⟩ | ⟨hb, hin, _⟩ | ⟨hb, hnin, rfl, hr⟩
  · exact fun _ => hg0 S
  · simp only
    intro _
    have hnoP : ∀ ts m, ¬ GPath E ts m := by
      intro ts m hp
      induction hp with
      | nil h => exact hnb h
      | snoc _ _ _ ih => exact ih
    refine ⟨finish_good (hg0 S) (fun q _ hq => ⟨hq, by simp [start]⟩) (fun q _ _ _ ts m hp => absurd hp (hnoP ts m)), ?_⟩
    intro _
    apply finish_answered
    intro q
    simp [start]
  · simp at hin
  · simp only [List.length_nil, List.nil_append] at hr ⊢
    have hmk : mkM E [ml E.places E.m0] 0 = E.m0 := mk_last E [] E.m0 (fun _ _ => rfl)
    have hpend0 : L.pend (start E).queue = 0 := L.init_pend
    have hInv : Inv E L { start E with set := S, satisfying := 0 } [ml E.places E.m0] (fun _ i => i < 0) := by
      refine ⟨hr, e1, e2, L.init_inv, ?_, rfl, fun _ _ => rfl, ?_, ?_, ?_, ?_, ?_, ?_, ?_, hheur,
        fun x hx => by simp [start] at hx⟩
      · intro x hx
        have : x ∈ L.pend (start E).queue := hx
        rw [hpend0] at this; simp at this
      · intro i hi0 hi; simp at hi; omega
      · intro i hi
        have : i = 0 := by simpa using hi
        subst this; rw [hmk]; exact hb
      · intro c hc; simp [start] at hc
      · intro q _ _ _ i _ hi; omega
      · intro q; simp [start]
      · simp [start]
      · intro c hc; simp [start] at hc
    have hck := checkQueries_inv H (n := 0) rfl _ hInv rfl
    have hfr := checkQueries_frame (E := E) (mkM E [ml E.places E.m0] 0) { start E with set := S, satisfying := 0 }
    rw [hmk] at hck hfr
    cases hcq : checkQueries E E.m0 { start E with set := S, satisfying := 0 } with
    | mk s b =>
      rw [hcq] at hck hfr
      simp only at hck hfr
      obtain ⟨f1, f2, f3, f4, f5, f6, f7⟩ := hfr
      cases b with
      | true =>
        simp only
        intro _
        refine ⟨hck.1.good, fun hstop => answered_of hck.1.unans ?_⟩
        unfold checkQueries at hcq
        split at hcq
        · have := (checkLoop_done H hstop E.m0 (List.range E.nq) { start E with set := S, satisfying := 0 } true).1
          rw [hcq] at this
          exact fun i hi => (this rfl).2 i (List.mem_range.2 hi)
        · simp at hcq
      | false =>
        simp only
        have hI := hck.2 rfl
        unfold afterInit
        rw [if_pos hI.heur]
        cases hq : E.I.push s.queue 0 (E.dist s.heur E.m0) none with
        | none =>
          intro _ hT
          obtain ⟨q', hq'⟩ := hT.1 s.queue 0 (E.dist s.heur E.m0) none
          rw [hq'] at hq; simp at hq
        | some q =>
          simp only
          have hps : L.pend s.queue = 0 := by rw [f2]; exact hpend0
          obtain ⟨q1, q2⟩ := L.push _ _ _ _ _ hI.qinv (by decide) (fun _ => .inr hps) hq
          rw [hps] at q2
          have hI2 : Inv E L { s with queue := q } [ml E.places E.m0] (fun _ _ => True) := by
            refine { hI with qinv := q1, pend := ?_ }
            intro x hx
            have hx' : x ∈ L.pend q := hx
            rw [q2] at hx'
            simp at hx'
            simp [hx']
          have hcl : Closed E L { s with queue := q } [ml E.places E.m0] none := by
            intro i hi hip _
            have : i = 0 := by simpa using hi
            subst this
            have hip' : (0 : Nat) ∉ L.pend q := hip
            rw [q2] at hip'
            simp at hip'
          have hml := mainLoop_inv hG H hpl fuel { s with queue := q } _ hI2 hcl (by
            simp only
            rw [q2, f5]; simp [start])
          revert hml
          cases hmain : mainLoop E fuel { s with queue := q } with
          | ub => exact id
          | running s' =>
            intro this hs
            obtain ⟨M', i1, i2, i3⟩ := this hs
            refine ⟨i1.good, M', i1.rep.nodup, by omega, fun l hl => i1.reach hl⟩
          | thrown s' =>
            intro this hs
            obtain ⟨M', i1⟩ := this hs
            exact i1.good
          | done b s' =>
            cases b with
            | true =>
              intro this hs
              obtain ⟨M', i1⟩ := this hs
              exact ⟨i1.good, fun hstop => answered_of i1.unans (mainLoop_done H hstop fuel _ _ hmain)⟩
            | false =>
              intro this hs
              obtain ⟨M', s2, i1, i2, i3, rfl⟩ := this hs
              refine ⟨finish_good i1.good (fun q _ hq => (i1.unans q).1 hq) ?_, fun _ => finish_answered i1.unans⟩
              intro q hq hr hu ts m hp
              obtain ⟨i, hi, rfl⟩ := closed_all i1 hG i2 i3 hp
              exact ⟨(i1.open' q hq hu hr i hi trivial).1, (i2 i hi (by rw [i3]; simp) (by simp)).1,
                (i1.open' q hq hu hr i hi trivial).2⟩

end Search
end Verif
