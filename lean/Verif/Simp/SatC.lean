import Verif.Simp.CollLemmas

/-!
# An unsatisfiable collection has no feasible solution
-/

namespace Verif
namespace Simp

/-- The rows are told apart by their addresses, and the solver says "impossible" only if no feasible firing counts satisfy the
equations. -/
structure Oracle.Sound (o : Oracle) (Fs : Pred) : Prop where
  addr : Function.Injective o.addr
  solve : ∀ π eqs, o.solve π eqs = .impossible → ∀ x, Fs x → ¬ eqsHold x eqs

variable {o : Oracle} {Fs : Pred}

theorem rowCheck_bad {π : List Nat} {l : List Eqn} (h : rowCheck o π l = some true) (x : Nat → Int) :
    ¬ eqsHold x l := by
  induction l with
  | nil => simp [rowCheck] at h
  | cons e l ih =>
    intro hx
    unfold rowCheck at h
    have he := hx e List.mem_cons_self
    split at h
    · rename_i hb
      unfold badRow at hb
      unfold Eqn.holds at he
      split at hb
      · rename_i a b h1 h2
        simp only [decide_eq_true_eq] at hb
        simp only [h1, h2, loOK, upOK] at he
        omega
      · cases hb
    · split at h
      · cases h
      · exact ih h fun f hf => hx f (List.mem_cons_of_mem _ hf)

theorem isImpossible_spec (hs : o.Sound Fs) (π : List Nat) (p : LP) :
    ((p.isImpossible o π).1 = true → (p.isImpossible o π).2.res = .impossible ∧ ∀ x, Fs x → ¬ p.cfg.hold x) ∧
    ((p.isImpossible o π).1 = false → (p.isImpossible o π).2.cfg = p.cfg) := by
  unfold LP.isImpossible
  split
  · rename_i h
    refine ⟨fun _ => ⟨h, fun x _ hh => ?_⟩, by simp⟩
    simp [LP.cfg, h, Cfg.hold] at hh
  · rename_i hp
    have hcfg : ∀ x, p.cfg.hold x ↔ eqsHold x p.eqs := by
      intro x; simp only [LP.cfg, hp, if_false, Cfg.hold]
    split
    · simp
    · split
      · simp
      · split
        · simp
        · split
          · rename_i hr
            refine ⟨fun _ => ⟨rfl, fun x _ hh => rowCheck_bad hr x ((hcfg x).1 hh)⟩, by simp⟩
          · simp
          · refine ⟨fun h => ?_, fun h => ?_⟩
            · simp only [decide_eq_true_eq] at h
              exact ⟨h, fun x hx hh => hs.solve _ _ h x hx ((hcfg x).1 hh)⟩
            · simp only [decide_eq_false_iff_not] at h
              simp only [LP.cfg, h, hp, if_false]

namespace Coll

/-- Some configuration has the firing counts as a solution. -/
def Sat (c : Coll) (x : Nat → Int) : Prop := ∃ k ∈ seq c, k.hold x

theorem nextMember_seqs {i : Nat} {l l' : List Coll} (h : nextMember i l = some l') :
    seqs l' = seqs l ∧ l'.length = l.length := ⟨(nextMember_spec h).1, (nextMember_spec h).2.1⟩

/-- what does not change in a call of `merge` on a `MergeCollection` -/
def Shape (c d : Coll) (more : Bool) : Prop :=
  ∀ rs he l r tmp mr moreR re nsat curr, c = merge rs he l r tmp mr moreR re nsat curr →
    ∃ l' r' tmp' mr' moreR' re' curr', d = merge rs he l' r' tmp' mr' moreR' re' nsat curr' ∧
      seq l' = seq l ∧ seq r' = seq r ∧ (more = true → nsat < curr')

theorem mergeC_static (n : Nat) :
    ∀ {c : Coll} {out : Out}, mergeC o n c = some out → seq out.coll = seq c ∧ Shape c out.coll out.more := by
  induction n with
  | zero => intro c r h; simp [mergeC] at h
  | succ n ih =>
    intro c out h
    cases c with
    | single rs he p =>
      simp only [mergeC] at h
      obtain rfl := Option.some.inj h
      exact ⟨rfl, fun _ _ _ _ _ _ _ _ _ _ hc => (by cases hc)⟩
    | union rs he lps cur =>
      refine ⟨?_, fun _ _ _ _ _ _ _ _ _ _ hc => (by cases hc)⟩
      simp only [mergeC] at h
      split at h
      · cases h
      · rename_i c hc
        split at h
        · cases h
        · rename_i x hx
          obtain ⟨h1, _⟩ := ih hx
          have hs := set_seqs hc h1
          unfold unionStep at h
          split at h
          · obtain rfl := Option.some.inj h
            simp only [seq_union, hs, set_ne]
          · split at h
            · cases h
            · rename_i lps' hn
              obtain rfl := Option.some.inj h
              obtain ⟨h2, h3⟩ := nextMember_seqs hn
              simp only [seq_union, h2, hs]
              have : lps' = [] ↔ lps = [] := by
                rw [← List.length_eq_zero_iff, ← List.length_eq_zero_iff, h3]
                simp
              simp [this]
    | merge rs he l r1 tmp mr moreR re nsat curr =>
      simp only [mergeC] at h
      generalize hst : (if mr = true then
        match mergeC o n r1 with
        | none => none
        | some x =>
          match reset l with
          | none => none
          | some l' => some (⟨x.coll, l', x.prog, x.more, x.emp⟩ : Right)
        else some ⟨r1, l, tmp, moreR, re⟩) = st0 at h
      cases st0 with
      | none => simp at h
      | some st =>
        simp only at h
        have hS : seq st.l = seq l ∧ seq st.r = seq r1 := by
          by_cases hmr : mr = true
          · rw [if_pos hmr] at hst
            split at hst
            · cases hst
            · rename_i x hx
              split at hst
              · cases hst
              · rename_i l' hl
                obtain rfl := Option.some.inj hst
                exact ⟨(reset_rem hl).1, (ih hx).1⟩
          · rw [if_neg hmr] at hst
            obtain rfl := Option.some.inj hst
            exact ⟨rfl, rfl⟩
        obtain ⟨s1, s2⟩ := hS
        split at h
        · cases h
        · rename_i y hy
          obtain ⟨y1, _⟩ := ih hy
          have hseqN : ∀ k, seq (merge rs he y.coll st.r st.tmp (!y.more) st.moreR st.re nsat k) =
              seq (merge rs he l r1 tmp mr moreR re nsat curr) := by
            intro k
            simp only [seq, y1, s1, s2]
          have hcont : ∀ {out},
              mergeC o n (merge rs he y.coll st.r st.tmp (!y.more) st.moreR st.re nsat (curr + 1)) = some out →
              seq out.coll = seq (merge rs he l r1 tmp mr moreR re nsat curr) ∧
              Shape (merge rs he l r1 tmp mr moreR re nsat curr) out.coll out.more := by
            intro out hgo
            obtain ⟨g1, g2⟩ := ih hgo
            refine ⟨g1.trans (hseqN _), ?_⟩
            intro _ _ _ _ _ _ _ _ _ _ hc
            cases hc
            obtain ⟨l', r', t', m', mm', re', c', e1, e2, e3, e4⟩ := g2 _ _ _ _ _ _ _ _ _ _ rfl
            exact ⟨l', r', t', m', mm', re', c', e1, by rw [e2, y1, s1], by rw [e3, s2], e4⟩
          split at h
          · rename_i hcond
            split at h
            · exact hcont h
            · obtain rfl := Option.some.inj h
              refine ⟨hseqN _, ?_⟩
              intro _ _ _ _ _ _ _ _ _ _ hc
              cases hc
              refine ⟨_, _, _, _, _, _, _, rfl, by rw [y1, s1], s2, ?_⟩
              intro hm
              rcases hcond with h' | h'
              · exact h'
              · simp only at hm
                rw [hm] at h'
                cases h'
          · exact hcont h

/-- No feasible firing counts are a solution of the configuration. -/
def DeadK (Fs : Pred) (k : Cfg) : Prop := ∀ x, Fs x → ¬ k.hold x

theorem mergeLoop_spec (hs : o.Sound Fs) (π : List Nat) (n : Nat) :
    ∀ {rs he l r tmp mr moreR re nsat curr b c'}, Ok (merge rs he l r tmp mr moreR re nsat curr) →
    mergeLoop o π n (merge rs he l r tmp mr moreR re nsat curr) = some (b, c') →
    ∃ l' r' tmp' mr' moreR' re' nsat' curr' D R, c' = merge rs he l' r' tmp' mr' moreR' re' nsat' curr' ∧
      seq l' = seq l ∧ seq r' = seq r ∧ rem (merge rs he l r tmp mr moreR re nsat curr) = D ++ R ∧
      (∀ k ∈ D, DeadK Fs k) ∧ nsat' = nsat + D.length ∧ (b = false → R = []) := by
  induction n with
  | zero => intro _ _ _ _ _ _ _ _ _ _ _ _ _ h; simp [mergeLoop] at h
  | succ n ih =>
    intro rs he l r tmp mr moreR re nsat curr b c' hok h
    unfold mergeLoop at h
    split at h
    · cases h
      exact ⟨_, _, _, _, _, _, _, _, [], _, rfl, rfl, rfl, rfl, by simp, by simp, by simp⟩
    · split at h
      · cases h
      · rename_i out hout
        obtain ⟨q1, tail, q2, q3, q4⟩ := mergeC_spec hs.addr n hok hout
        obtain ⟨_, sh⟩ := mergeC_static n hout
        obtain ⟨l', r', t', m', mm', re', k', e1, e2, e3, e4⟩ := sh _ _ _ _ _ _ _ _ _ _ rfl
        split at h
        · cases h
          exact ⟨l', r', t', m', mm', re', nsat, k', [], _, e1, e2, e3, rfl, by simp, by simp, by simp⟩
        · split at h
          · cases h
            exact ⟨l', r', t', m', mm', re', nsat, k', [], _, e1, e2, e3, rfl, by simp, by simp, by simp⟩
          · rename_i himp
            simp only [not_or, Bool.not_eq_false] at himp
            have hdead : DeadK Fs out.prog.cfg := ((isImpossible_spec hs _ _).1 himp.2).2
            split at h
            · rename_i hm
              obtain ⟨q5, q6⟩ := q4 hm
              rw [e1] at h q5 q6
              simp only [bump] at h
              have hle : nsat < k' := e4 hm
              have hok2 : Ok (merge rs he l' r' t' m' mm' re' (nsat + 1) k') := by
                rw [Ok] at q5 ⊢
                exact q5
              have hrem2 : rem (merge rs he l' r' t' m' mm' re' (nsat + 1) k') = tail := by
                rw [← q6, rem, rem, show nsat + 1 - k' = 0 by omega, show nsat - k' = 0 by omega]
              obtain ⟨l2, r2, t2, m2, mm2, re2, n2, k2, D, R, f1, f2, f3, f4, f5, f6, f7⟩ := ih hok2 h
              refine ⟨l2, r2, t2, m2, mm2, re2, n2, k2, out.prog.cfg :: D, R, f1, by rw [f2, e2], by rw [f3, e3], ?_, ?_,
                ?_, f7⟩
              · rw [q2, ← hrem2, f4]; rfl
              · intro k hk
                rcases List.mem_cons.1 hk with rfl | hk
                · exact hdead
                · exact f5 k hk
              · rw [f6]; simp; omega
            · rename_i hm
              cases h
              rw [e1]
              have ht : tail = [] := by
                by_cases ht : tail = []
                · exact ht
                · exact absurd (q3.2 ht) hm
              refine ⟨l', r', t', m', mm', re', nsat + 1, k', [out.prog.cfg], [], rfl, e2, e3, ?_, ?_, rfl, fun _ => rfl⟩
              · rw [q2, ht]; rfl
              · intro k hk
                rw [List.mem_singleton] at hk
                subst hk
                exact hdead

theorem keepF_mem {l : List (Cfg × Cfg)} {q : Cfg × Cfg} (h : q ∈ keepF l) : q ∈ l := by
  match l with
  | [] => rw [keepF] at h; exact h
  | [k] => rw [keepF] at h; exact h
  | c :: k :: ks =>
    rw [keepF] at h
    split at h
    · exact List.mem_cons_of_mem _ (keepF_mem h)
    · rcases List.mem_cons.1 h with rfl | h
      · exact List.mem_cons_self
      · exact List.mem_cons_of_mem _ (keepF_mem h)

theorem mem_keepF {l : List (Cfg × Cfg)} {q : Cfg × Cfg} (h : q ∈ l) (hq : q.1 ≠ .imp) : q ∈ keepF l := by
  match l with
  | [] => cases h
  | [k] => rw [keepF]; exact h
  | c :: k :: ks =>
    rw [keepF]
    rcases List.mem_cons.1 h with rfl | h
    · rw [if_neg hq]; exact List.mem_cons_self
    · split
      · exact mem_keepF h hq
      · exact List.mem_cons_of_mem _ (mem_keepF h hq)

/-- dropping elements keeps only elements kept before -/
theorem keepF_drop {l : List (Cfg × Cfg)} (i : Nat) {q : Cfg × Cfg} (h : q ∈ keepF (l.drop i)) : q ∈ keepF l := by
  induction l generalizing i with
  | nil => simpa using h
  | cons c l ih =>
    cases i with
    | zero => simpa using h
    | succ i =>
      rw [List.drop_succ_cons] at h
      have := ih i h
      cases l with
      | nil => rw [keepF] at this; cases this
      | cons k ks =>
        rw [keepF]
        split
        · exact this
        · exact List.mem_cons_of_mem _ this

/-- An element whose left program is not known to be impossible and that is not among the first `j` kept ones is not among the
first `j`. -/
theorem keepF_rest {l D R : List (Cfg × Cfg)} (h : keepF l = D ++ R) {q : Cfg × Cfg} (hq : q ∈ l) (hi : q.1 ≠ .imp)
    (hD : q ∉ D) : D.length < l.length ∧ q ∈ l.drop D.length := by
  induction l generalizing D with
  | nil => cases hq
  | cons c l ih =>
    cases D with
    | nil => exact ⟨by simp, by simpa using hq⟩
    | cons d D =>
      cases l with
      | nil =>
        rw [keepF] at h
        simp only [List.cons_append, List.cons.injEq] at h
        rw [List.mem_singleton] at hq
        exact absurd (hq ▸ h.1 ▸ List.mem_cons_self) hD
      | cons k ks =>
        rw [keepF] at h
        split at h
        · rename_i hc
          have hql : q ∈ k :: ks := by
            rcases List.mem_cons.1 hq with rfl | hq
            · exact absurd hc hi
            · exact hq
          obtain ⟨h1, h2⟩ := ih h hql hD
          refine ⟨Nat.lt_succ_of_lt h1, ?_⟩
          simp only [List.length_cons, List.drop_succ_cons] at h2 ⊢
          have hsub : List.drop (D.length + 1) (k :: ks) ⊆ List.drop D.length (k :: ks) := by
            rw [List.drop_succ_cons]
            have := List.drop_sublist 1 (List.drop D.length (k :: ks))
            rw [List.drop_drop, List.drop_succ_cons] at this
            exact this.subset
          exact hsub (by simpa using h2)
        · simp only [List.cons_append, List.cons.injEq] at h
          obtain ⟨rfl, h⟩ := h
          have hql : q ∈ k :: ks := by
            rcases List.mem_cons.1 hq with rfl | hq
            · exact absurd List.mem_cons_self hD
            · exact hq
          obtain ⟨h1, h2⟩ := ih h hql fun hd => hD (List.mem_cons_of_mem _ hd)
          exact ⟨by simpa using h1, by simpa using h2⟩

/-- After the first configurations were found dead, the collection is satisfiable by the same firing counts. -/
theorem skip_more {n : Nat} {l : List (Cfg × Cfg)} {D R : List Cfg} (h : skip n l = D ++ R)
    (hD : ∀ k ∈ D, DeadK Fs k) {x : Nat → Int} (hx : Fs x) (hsat : ∃ k ∈ skip n l, k.hold x) :
    ∃ k ∈ skip (n + D.length) l, k.hold x := by
  unfold skip at h hsat ⊢
  obtain ⟨k, hk, hkx⟩ := hsat
  obtain ⟨q, hq, rfl⟩ := List.mem_map.1 hk
  have hqm := keepF_mem hq
  have hq1 : q.1 ≠ .imp := Cfg.hold_of_both hkx
  rw [List.map_eq_append_iff] at h
  obtain ⟨D', R', h1, h2, h3⟩ := h
  have hnD : q ∉ D' := by
    intro hd
    exact hD (pair q) (by rw [← h2]; exact List.mem_map_of_mem hd) x hx hkx
  obtain ⟨g1, g2⟩ := keepF_rest h1 hqm hq1 hnD
  rw [List.drop_drop] at g2
  have hlen : D'.length = D.length := by rw [← h2]; simp
  rw [hlen] at g1 g2
  rw [List.length_drop] at g1
  refine ⟨pair q, List.mem_map_of_mem (mem_keepF ?_ hq1), hkx⟩
  by_cases hn : n ≤ l.length - 1
  · rw [Nat.min_eq_left hn] at g1 g2
    rw [show min (n + D.length) (l.length - 1) = n + D.length by omega]
    exact g2
  · rw [show min (n + D.length) (l.length - 1) = min n (l.length - 1) by omega]
    exact hqm

mutual
/-- A collection known to be unsatisfiable has no feasible solution. -/
def InvR (Fs : Pred) : Coll → Prop
  | single r h p => r = .impossible → ∀ x, Fs x → ¬ Sat (single r h p) x
  | union r h l i => (r = .impossible → l ≠ [] → ∀ x, Fs x → ¬ Sat (union r h l i) x) ∧ InvRs Fs l
  | merge r h a b t m mm re n k => r = .impossible → ∀ x, Fs x → ¬ Sat (merge r h a b t m mm re n k) x
def InvRs (Fs : Pred) : List Coll → Prop
  | [] => True
  | c :: cs => InvR Fs c ∧ InvRs Fs cs
end

theorem InvRs_iff (l : List Coll) : InvRs Fs l ↔ ∀ c ∈ l, InvR Fs c := by
  induction l with
  | nil => simp [InvRs]
  | cons c l ih => simp [InvRs, ih]

theorem skip_mem {n m : Nat} (h : n ≤ m) {l : List (Cfg × Cfg)} {k : Cfg} (hk : k ∈ skip m l) : k ∈ skip n l := by
  unfold skip at *
  obtain ⟨q, hq, rfl⟩ := List.mem_map.1 hk
  apply List.mem_map_of_mem
  have : l.drop (min m (l.length - 1)) =
      (l.drop (min n (l.length - 1))).drop (min m (l.length - 1) - min n (l.length - 1)) := by
    rw [List.drop_drop]
    congr 1
    omega
  rw [this] at hq
  exact keepF_drop _ hq

theorem reset_InvR : ∀ {c c' : Coll}, reset c = some c' → InvR Fs c → InvR Fs c'
  | single r h p, c', hr, hi => by
    simp only [reset] at hr
    obtain rfl := Option.some.inj hr
    exact hi
  | union _ _ [] _, c', hr, hi => by simp [reset] at hr
  | union r h (c :: cs) i, c', hr, hi => by
    have hsq := (reset_rem hr).1
    unfold reset at hr
    split at hr
    · cases hr
    · rename_i c1 hc
      obtain rfl := Option.some.inj hr
      rw [InvR] at hi ⊢
      refine ⟨fun h1 _ x hx => ?_, ?_⟩
      · have := hi.1 h1 (by simp) x hx
        unfold Sat at this ⊢
        rw [hsq]; exact this
      · rw [InvRs] at hi ⊢
        exact ⟨reset_InvR hc hi.2.1, hi.2.2⟩
  | merge r h a b t x y z n k, c', hr, hi => by
    have hsq := (reset_rem hr).1
    unfold reset at hr
    split at hr
    · cases hr
    · rename_i b' hb
      obtain rfl := Option.some.inj hr
      rw [InvR] at hi ⊢
      intro h1 x hx
      have := hi h1 x hx
      unfold Sat at this ⊢
      rw [hsq]; exact this

/-- what `satisfiable` guarantees -/
structure SatOut (Fs : Pred) (c : Coll) (b : Bool) (c' : Coll) : Prop where
  no : b = false → ∀ x, Fs x → ¬ Sat c x
  inv : InvR Fs c'
  keep : ∀ x, Fs x → Sat c x → Sat c' x

theorem sat_union_iff {r h l i} (hl : l ≠ []) (x : Nat → Int) : Sat (union r h l i) x ↔ ∃ c ∈ l, Sat c x := by
  unfold Sat
  rw [seq_union, if_neg hl, seqs_eq]
  simp only [List.mem_flatMap]
  constructor
  · rintro ⟨k, ⟨c, hc, hk⟩, hx⟩; exact ⟨c, hc, k, hk, hx⟩
  · rintro ⟨c, hc, k, hk, hx⟩; exact ⟨k, ⟨c, hc, hk⟩, hx⟩

theorem unionLoop_spec {π : List Nat} {sat : List Nat → Coll → Option (Bool × Coll)}
    (hsat : ∀ {π c b c'}, InvR Fs c → sat π c = some (b, c') → SatOut Fs c b c') {l l' : List Coll} {b : Bool}
    (hi : ∀ c ∈ l, InvR Fs c) (h : unionLoop o π sat l = some (b, l')) :
    (∀ c ∈ l', InvR Fs c) ∧ (b = true → l' ≠ []) ∧
    (∀ x, Fs x → (∃ c ∈ l, Sat c x) → b = true ∧ ∃ c ∈ l', Sat c x) := by
  induction l with
  | nil =>
    simp only [unionLoop, Option.some.injEq, Prod.mk.injEq] at h
    obtain ⟨rfl, rfl⟩ := h
    simp
  | cons c l ih =>
    unfold unionLoop at h
    split at h
    · cases h
    · rename_i b1 c1 hc
      have hs := hsat (hi c List.mem_cons_self) hc
      split at h
      · rename_i hb
        cases h
        refine ⟨?_, by simp, ?_⟩
        · intro d hd
          rcases List.mem_cons.1 hd with rfl | hd
          · exact hs.inv
          · exact hi d (List.mem_cons_of_mem _ hd)
        · rintro x hx ⟨d, hd, hdx⟩
          refine ⟨rfl, ?_⟩
          rcases List.mem_cons.1 hd with rfl | hd
          · exact ⟨c1, List.mem_cons_self, hs.keep x hx hdx⟩
          · exact ⟨d, List.mem_cons_of_mem _ hd, hdx⟩
      · rename_i hb
        simp only [Bool.or_eq_true, not_or, Bool.not_eq_true] at hb
        obtain ⟨h1, h2, h3⟩ := ih (fun d hd => hi d (List.mem_cons_of_mem _ hd)) h
        refine ⟨h1, h2, ?_⟩
        rintro x hx ⟨d, hd, hdx⟩
        rcases List.mem_cons.1 hd with rfl | hd
        · exact absurd hdx (hs.no hb.1 x hx)
        · exact h3 x hx ⟨d, hd, hdx⟩

/-- `satisfiable` says "no" only if there is no feasible solution, and keeps all feasible solutions. -/
theorem satC_spec (hs : o.Sound Fs) (n : Nat) :
    ∀ {π : List Nat} {c : Coll} {b : Bool} {c' : Coll}, InvR Fs c → satC o n π c = some (b, c') → SatOut Fs c b c' := by
  induction n with
  | zero => intro π c b c' _ h; simp [satC] at h
  | succ n ih =>
    intro π c0 b c' hi0 h
    unfold satC at h
    split at h
    · cases h
    · rename_i c hr
      obtain ⟨hq, hrm, hok⟩ := reset_rem hr
      have hi := reset_InvR hr hi0
      have hsat : ∀ x, Sat c0 x ↔ Sat c x := by intro x; unfold Sat; rw [hq]
      -- it suffices to look at the collection after the reset
      suffices hmain : SatOut Fs c b c' from
        ⟨fun hb x hx h => hmain.no hb x hx ((hsat x).1 h), hmain.inv, fun x hx h => hmain.keep x hx ((hsat x).1 h)⟩
      split at h
      · cases h
        exact ⟨by simp, hi, fun x _ h => h⟩
      · split at h
        · rename_i hres
          have hno : ∀ x, Fs x → ¬ Sat c x := by
            intro x hx
            cases c with
            | single r h p => rw [InvR] at hi; exact hi hres x hx
            | union r h l i =>
              rw [InvR] at hi
              refine hi.1 hres ?_ x hx
              rintro rfl
              cases c0 with
              | single => simp [reset] at hr
              | union r0 h0 l0 i0 =>
                cases l0 with
                | nil => simp [reset] at hr
                | cons d ds =>
                  unfold reset at hr
                  split at hr <;> simp at hr
              | merge =>
                unfold reset at hr
                split at hr <;> simp at hr
            | merge => rw [InvR] at hi; exact hi hres x hx
          cases h
          exact ⟨fun _ => hno, hi, fun x hx h => h⟩
        · rename_i hres
          cases c with
          | single r h1 p =>
            simp only [satImpl] at h
            obtain ⟨i1, i2⟩ := isImpossible_spec hs (1 :: π) p
            have hsp : ∀ r h p x, Sat (single r h p) x ↔ p.cfg.hold x := by
              intro r h p x; simp [Sat, seq]
            split at h
            · rename_i hb
              cases h
              obtain ⟨i3, i4⟩ := i1 hb
              refine ⟨fun _ x hx h => i4 x hx ((hsp _ _ _ x).1 h), ?_, fun x hx h => absurd ((hsp _ _ _ x).1 h) (i4 x hx)⟩
              rw [InvR]
              intro _ x hx h
              rw [hsp, (cfg_imp_iff _).2 i3] at h
              exact h
            · rename_i hb
              cases h
              simp only [Bool.not_eq_true] at hb
              refine ⟨by simp, (by rw [InvR]; intro h; cases h), fun x hx h => ?_⟩
              rw [hsp] at h ⊢
              rw [i2 hb]; exact h
          | union rs h1 lps cur =>
            simp only [satImpl] at h
            rw [InvR, InvRs_iff] at hi
            have hne : lps ≠ [] := by
              rintro rfl
              cases c0 with
              | single => simp [reset] at hr
              | union r0 h0 l0 i0 =>
                cases l0 with
                | nil => simp [reset] at hr
                | cons d ds =>
                  unfold reset at hr
                  split at hr <;> simp at hr
              | merge =>
                unfold reset at hr
                split at hr <;> simp at hr
            split at h
            · cases h
            · rename_i rest hl
              cases h
              obtain ⟨u1, u2, u3⟩ := unionLoop_spec ih (by intro d hd; exact hi.2 d (List.mem_reverse.1 hd)) hl
              have hne2 : rest.reverse ≠ [] := by
                rw [ne_eq, List.reverse_eq_nil_iff]; exact u2 rfl
              refine ⟨by simp, ?_, ?_⟩
              · rw [InvR, InvRs_iff]
                exact ⟨fun h => (by cases h), fun d hd => u1 d (List.mem_reverse.1 hd)⟩
              · intro x hx h
                rw [sat_union_iff hne] at h
                rw [sat_union_iff hne2]
                obtain ⟨d, hd, hdx⟩ := h
                obtain ⟨_, e, he, hex⟩ := u3 x hx ⟨d, List.mem_reverse.2 hd, hdx⟩
                exact ⟨e, List.mem_reverse.2 he, hex⟩
            · rename_i rest hl
              obtain ⟨u1, u2, u3⟩ := unionLoop_spec ih (by intro d hd; exact hi.2 d (List.mem_reverse.1 hd)) hl
              have hno : ∀ x, Fs x → ¬ Sat (union rs h1 lps cur) x := by
                intro x hx h
                rw [sat_union_iff hne] at h
                obtain ⟨d, hd, hdx⟩ := h
                have := (u3 x hx ⟨d, List.mem_reverse.2 hd, hdx⟩).1
                cases this
              unfold finish at h
              split at h
              · cases h
                refine ⟨by simp, ?_, fun x hx h => absurd h (hno x hx)⟩
                rename_i hp
                rw [InvR, InvRs_iff]
                exact ⟨fun _ h => absurd rfl h, by simp⟩
              · cases h
                refine ⟨fun _ => hno, ?_, fun x hx h => absurd h (hno x hx)⟩
                rw [setRes, InvR, InvRs_iff]
                exact ⟨fun _ h => absurd rfl h, by simp⟩
          | merge rs h1 l r t m mm re ns k =>
            simp only [satImpl] at h
            have hsm : ∀ rs h l r t m mm re ns k x, Sat (merge rs h l r t m mm re ns k) x ↔
                ∃ q ∈ skip ns (prod (seq r) (seq l)), q.hold x := by
              intro rs h l r t m mm re ns k x; simp [Sat, seq]
            have hqm : rem (merge rs h1 l r t m mm re ns k) = skip ns (prod (seq r) (seq l)) := by
              rw [hrm, ← hq, seq]
            split at h
            · cases h
            · rename_i c2 hl
              cases h
              obtain ⟨l', r', t', m', mm', re', n', k', D, R, e1, e2, e3, e4, e5, e6, _⟩ := mergeLoop_spec hs _ _ hok hl
              subst e1
              refine ⟨by simp, (by rw [setRes, InvR]; intro h; cases h), ?_⟩
              intro x hx h
              rw [setRes]
              rw [hsm] at h ⊢
              rw [e2, e3, e6]
              exact skip_more (by rw [← hqm, e4]) e5 hx h
            · rename_i c2 hl
              obtain ⟨l', r', t', m', mm', re', n', k', D, R, e1, e2, e3, e4, e5, e6, e7⟩ := mergeLoop_spec hs _ _ hok hl
              subst e1
              rw [e7 rfl, List.append_nil] at e4
              have hno : ∀ x, Fs x → ¬ Sat (merge rs h1 l r t m mm re ns k) x := by
                intro x hx h
                rw [hsm, ← hqm, e4] at h
                obtain ⟨q, hq2, hqx⟩ := h
                exact e5 q hq2 x hx hqx
              unfold finish at h
              split at h
              · cases h
                rename_i hp
                refine ⟨by simp, ?_, fun x hx h => absurd h (hno x hx)⟩
                rw [InvR]
                intro h
                simp only [res] at hp
                rw [hp] at h
                cases h
              · cases h
                refine ⟨fun _ => hno, ?_, fun x hx h => absurd h (hno x hx)⟩
                rw [setRes, InvR]
                intro _ x hx h
                refine hno x hx ?_
                rw [hsm] at h ⊢
                obtain ⟨q, hq2, hqx⟩ := h
                rw [e2, e3] at hq2
                exact ⟨q, skip_mem (by omega) hq2, hqx⟩

/-! ### The constructors -/

theorem sat_mkMerge {a b : Coll} {x : Nat → Int} (ha : Sat a x) (hb : Sat b x) : Sat (mkMerge a b) x := by
  obtain ⟨p, hp, hpx⟩ := ha
  obtain ⟨q, hq, hqx⟩ := hb
  unfold mkMerge Sat
  rw [seq]
  refine ⟨pair (p, q), ?_, Cfg.both_hold hpx hqx⟩
  rw [skip_zero]
  apply List.mem_map_of_mem
  apply mem_keepF
  · unfold prod
    exact List.mem_flatMap.2 ⟨q, hq, List.mem_map.2 ⟨p, hp, rfl⟩⟩
  · rintro h
    simp only at h
    subst h
    exact hpx

theorem inv_mkMerge (a b : Coll) : InvR Fs (mkMerge a b) := by
  rw [mkMerge, InvR]; intro h; cases h

theorem sat_mkUnion {l : List Coll} {x : Nat → Int} {c : Coll} (hc : c ∈ l) (h : Sat c x) : Sat (mkUnion l) x := by
  rw [mkUnion, sat_union_iff (by rintro rfl; cases hc)]
  exact ⟨c, hc, h⟩

theorem inv_mkUnion {l : List Coll} (h : ∀ c ∈ l, InvR Fs c) : InvR Fs (mkUnion l) := by
  rw [mkUnion, InvR, InvRs_iff]
  exact ⟨fun h => (by cases h), h⟩

theorem sat_mkUnion2 {a b : Coll} {x : Nat → Int} (h : Sat a x ∨ Sat b x) : Sat (mkUnion2 a b) x := by
  unfold mkUnion2
  split
  · rw [sat_union_iff (by simp)]; simpa using h
  · split
    · rw [sat_union_iff (by simp)]; simpa using h
    · rw [sat_union_iff (by simp)]; simpa using h

theorem inv_mkUnion2 {a b : Coll} (ha : InvR Fs a) (hb : InvR Fs b) : InvR Fs (mkUnion2 a b) := by
  unfold mkUnion2
  split
  · rw [InvR, InvRs_iff]
    exact ⟨fun h => (by cases h), by simp [ha, hb]⟩
  · split
    · rw [InvR, InvRs_iff]
      exact ⟨fun h => (by cases h), by simp [ha, hb]⟩
    · rw [InvR, InvRs_iff]
      exact ⟨fun h => (by cases h), by simp [ha, hb]⟩

theorem sat_empty (x : Nat → Int) : Sat empty x := by
  simp [Sat, empty, seq, LP.cfg, Cfg.hold, eqsHold]

theorem inv_empty : InvR Fs empty := by rw [empty, InvR]; intro h; cases h

/-- the meaning of an operator of a linear program -/
def OpT.holds (a c : Int) : OpT → Prop
  | .eq => a = c
  | .le => a ≤ c
  | .ge => c ≤ a
  | .lt => a < c
  | .gt => c < a

theorem sat_mkSingle (m : Member) (c : Int) (op : OpT) (x : Nat → Int) :
    Sat (mkSingle m c op) x ↔ OpT.holds (dot m.vars x) c op := by
  cases op <;>
    simp [Sat, mkSingle, seq, LP.mk1, LP.cfg, Cfg.hold, eqsHold, Eqn.holds, dotS_sparse0, loOK, upOK, OpT.holds] <;> omega

theorem inv_mkSingle (m : Member) (c : Int) (op : OpT) : InvR Fs (mkSingle m c op) := by
  rw [mkSingle, InvR]; intro h; cases h

/-- merging a list: all members have the solution -/
theorem mergeLps_spec (n : Nat) : ∀ {j : Nat} {l : List Coll} {c : Coll}, mergeLps n j l = some c →
    (∀ d ∈ l, InvR Fs d) → InvR Fs c ∧ ∀ x, (∀ d ∈ l, Sat d x) → Sat c x := by
  induction n with
  | zero => intro j l c h; simp [mergeLps] at h
  | succ n ih =>
    intro j l c h hi
    match l, h, hi with
    | [], h, _ => simp [mergeLps] at h
    | [d], h, hi =>
      simp only [mergeLps, Option.some.injEq] at h
      subst h
      exact ⟨hi d (by simp), fun x hx => hx d (by simp)⟩
    | d :: e :: l, h, hi =>
      rw [mergeLps] at h
      split at h
      · exact ih h hi
      · split at h
        · rename_i a b ha hb
          have hma : a ∈ d :: e :: l := List.mem_of_getElem? ha
          have hmb : b ∈ d :: e :: l := List.mem_of_getLast? hb
          obtain ⟨h1, h2⟩ := ih h (by
            intro k hk
            rcases List.mem_or_eq_of_mem_set hk with hk | rfl
            · exact hi k (List.mem_of_mem_dropLast hk)
            · exact inv_mkMerge a b)
          refine ⟨h1, fun x hx => h2 x ?_⟩
          intro k hk
          rcases List.mem_or_eq_of_mem_set hk with hk | rfl
          · exact hx k (List.mem_of_mem_dropLast hk)
          · exact sat_mkMerge (hx a hma) (hx b hmb)
        · cases h
      · intro h; cases h
      · intro c h; cases h

end Coll
end Simp
end Verif
