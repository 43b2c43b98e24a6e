import Verif.Simp.LP
import Verif.Simp.MemberLemmas

/-!
# What the collections of linear programs say about firing counts
-/

namespace Verif
namespace Simp

abbrev Pred := (Nat → Int) → Prop

/-- scalar product of a sparse row -/
def dotS (x : Nat → Int) : Row → Int
  | [] => 0
  | (i, v) :: r => v * x i + dotS x r

theorem dotS_sparse (x : Nat → Int) (i : Nat) (l : List Int) : dotS x (sparse i l) = dot l fun j => x (i + j) := by
  induction l generalizing i with
  | nil => rfl
  | cons v l ih =>
    have h2 : (fun j => x (i + (j + 1))) = fun j => x (i + 1 + j) := by
      funext j
      exact congrArg x (by omega)
    unfold sparse
    split
    · rename_i h
      rw [ih]
      simp only [dot, h, h2, zero_mul, zero_add]
    · simp only [dotS, dot, ih, h2, Nat.add_zero]

theorem dotS_sparse0 (x : Nat → Int) (l : List Int) : dotS x (sparse 0 l) = dot l x := by
  rw [dotS_sparse]; simp

def loOK (v : Int) : Option Int → Prop
  | none => True
  | some l => l ≤ v
def upOK (v : Int) : Option Int → Prop
  | none => True
  | some u => v ≤ u

/-- The firing counts satisfy the equation. -/
def Eqn.holds (x : Nat → Int) (e : Eqn) : Prop := loOK (dotS x e.row) e.lower ∧ upOK (dotS x e.row) e.upper

/-- The firing counts satisfy all equations. -/
def eqsHold (x : Nat → Int) (l : List Eqn) : Prop := ∀ e ∈ l, e.holds x

theorem maxLo_ok (v : Int) (a b : Option Int) : loOK v (maxLo a b) ↔ loOK v a ∧ loOK v b := by
  cases a <;> cases b <;> simp only [maxLo, loOK, true_and, and_true]
  split <;> omega

theorem minUp_ok (v : Int) (a b : Option Int) : upOK v (minUp a b) ↔ upOK v a ∧ upOK v b := by
  cases a <;> cases b <;> simp only [minUp, upOK, true_and, and_true]
  split <;> omega

theorem unionEqs_holds {addr : Row → Nat} (hi : Function.Injective addr) (x : Nat → Int) (n : Nat) (a b : List Eqn) :
    eqsHold x (unionEqs addr n a b) ↔ eqsHold x a ∧ eqsHold x b := by
  have app : ∀ a b : List Eqn, eqsHold x (a ++ b) ↔ eqsHold x a ∧ eqsHold x b := by
    intro a b
    simp only [eqsHold, List.mem_append, or_imp, forall_and]
  have cons : ∀ (e : Eqn) (b : List Eqn), eqsHold x (e :: b) ↔ e.holds x ∧ eqsHold x b := by
    intro e b
    simp only [eqsHold, List.mem_cons, or_imp, forall_and, forall_eq]
  have nil : eqsHold x [] := by intro e he; cases he
  induction n generalizing a b with
  | zero => exact app a b
  | succ n ih =>
    cases a with
    | nil => simp [unionEqs, nil]
    | cons e a =>
      cases b with
      | nil => simp [unionEqs, nil]
      | cons f b =>
        unfold unionEqs
        split
        · simp only [cons, ih]
          constructor
          · rintro ⟨h1, h2, h3, h4⟩; exact ⟨⟨h1, h2⟩, h3, h4⟩
          · rintro ⟨⟨h1, h2⟩, h3, h4⟩; exact ⟨h1, h2, h3, h4⟩
        · split
          · simp only [cons, ih]
            constructor
            · rintro ⟨h1, ⟨h2, h3⟩, h4⟩; exact ⟨⟨h2, h3⟩, h1, h4⟩
            · rintro ⟨⟨h1, h2⟩, h3, h4⟩; exact ⟨h3, ⟨h1, h2⟩, h4⟩
          · have hr : e.row = f.row := hi (by omega)
            simp only [cons, ih, Eqn.holds, maxLo_ok, minUp_ok, hr]
            constructor
            · rintro ⟨⟨⟨h1, h2⟩, h3, h4⟩, h5, h6⟩; exact ⟨⟨⟨h1, h3⟩, h5⟩, ⟨h2, h4⟩, h6⟩
            · rintro ⟨⟨⟨h1, h3⟩, h5⟩, ⟨h2, h4⟩, h6⟩; exact ⟨⟨⟨h1, h2⟩, h3, h4⟩, h5, h6⟩

/-- A configuration: undefined behaviour, known to be impossible, or a program. -/
inductive Cfg
  | ub
  | imp
  | ok (P : Pred)

namespace Cfg
/-- The firing counts may be a solution. -/
def hold (x : Nat → Int) : Cfg → Prop
  | ub => True
  | imp => False
  | ok P => P x

/-- conjunction of two configurations -/
def both : Cfg → Cfg → Cfg
  | imp, _ => imp
  | _, imp => imp
  | ub, _ => ub
  | _, ub => ub
  | ok P, ok Q => ok fun x => P x ∧ Q x

theorem hold_of_both {x : Nat → Int} {a b : Cfg} (h : (both a b).hold x) : a ≠ .imp := by
  rintro rfl
  cases b <;> exact h

theorem both_hold {x : Nat → Int} {a b : Cfg} (ha : a.hold x) (hb : b.hold x) : (both a b).hold x := by
  cases a <;> cases b <;> first | exact trivial | exact ha.elim | exact hb.elim | exact ⟨ha, hb⟩

end Cfg

/-- the configuration of a program -/
def LP.cfg (p : LP) : Cfg := if p.res = .impossible then .imp else .ok fun x => eqsHold x p.eqs

theorem LP.cfg_ne_ub (p : LP) : p.cfg ≠ .ub := by
  unfold LP.cfg; split <;> simp

theorem LP.cfg_union {addr : Row → Nat} (hi : Function.Injective addr) (p q : LP) :
    (LP.union addr p q).cfg = Cfg.both p.cfg q.cfg := by
  unfold LP.union LP.cfg
  by_cases hp : p.res = .impossible
  · by_cases hq : q.res = .impossible <;> simp [hp, hq, Cfg.both]
  · by_cases hq : q.res = .impossible
    · simp [hp, hq, Cfg.both]
    · simp only [hp, hq, or_self, if_false, Cfg.both]
      congr 1
      funext x
      exact propext (unionEqs_holds hi x _ _ _)

theorem LP.cfg_empty_union {addr : Row → Nat} (p : LP) (hi : Function.Injective addr) :
    (LP.union addr {} p).cfg = p.cfg := by
  rw [LP.cfg_union hi]
  unfold LP.cfg
  by_cases hp : p.res = .impossible
  · simp [hp, Cfg.both]
  · simp only [hp, if_false, Cfg.both, reduceCtorEq]
    congr 1
    funext x
    simp [eqsHold]

/-- all pairs, the right programs in the outer loop -/
def prod (R L : List Cfg) : List (Cfg × Cfg) := R.flatMap fun a => L.map fun b => (b, a)

open Classical in
/-- pairs whose left program is not known to be impossible, and the last one -/
noncomputable def keepF : List (Cfg × Cfg) → List (Cfg × Cfg)
  | [] => []
  | [k] => [k]
  | c :: k :: ks => if c.1 = .imp then keepF (k :: ks) else c :: keepF (k :: ks)

/-- the conjunction of a pair -/
def pair (q : Cfg × Cfg) : Cfg := Cfg.both q.1 q.2

/-- skip the configurations found unsatisfiable before, but not the last one -/
noncomputable def skip (n : Nat) (l : List (Cfg × Cfg)) : List Cfg := (keepF (l.drop (min n (l.length - 1)))).map pair

namespace Coll

mutual
/-- the configurations of a collection in order -/
noncomputable def seq : Coll → List Cfg
  | single _ _ p => [p.cfg]
  | union _ _ [] _ => [.ub]
  | union _ _ (c :: cs) _ => seq c ++ seqs cs
  | merge _ _ l r _ _ _ _ n _ => skip n (prod (seq r) (seq l))
noncomputable def seqs : List Coll → List Cfg
  | [] => []
  | c :: cs => seq c ++ seqs cs
end

theorem seqs_eq (l : List Coll) : seqs l = l.flatMap seq := by
  induction l with
  | nil => rfl
  | cons c l ih => simp [seqs, ih]

theorem seq_union (r : Res) (h : Bool) (l : List Coll) (i : Nat) :
    seq (union r h l i) = if l = [] then [.ub] else seqs l := by
  cases l <;> simp [seq, seqs]

mutual
/-- the configurations from the current position on -/
noncomputable def rem : Coll → List Cfg
  | single _ _ p => [p.cfg]
  | union _ _ l i => remAt l (if l.length ≤ i then 0 else i)
  | merge _ _ l r tmp mr moreR _ n k =>
    skip (n - k) (if mr then prod (rem r) (seq l)
      else (rem l).map (fun b => (b, tmp.cfg)) ++ if moreR then prod (rem r) (seq l) else [])
noncomputable def remAt : List Coll → Nat → List Cfg
  | [], _ => [.ub]
  | c :: cs, 0 => rem c ++ seqs cs
  | _ :: cs, i + 1 => remAt cs i
end

mutual
/-- The collection was reset and not used up. -/
def Ok : Coll → Prop
  | single .. => True
  | union _ _ l i => OkAt l (if l.length ≤ i then 0 else i)
  | merge _ _ l r _ mr moreR _ _ _ => if mr then moreR = true ∧ Ok r else Ok l ∧ (moreR = true → Ok r)
def OkAt : List Coll → Nat → Prop
  | [], _ => True
  | c :: _, 0 => Ok c
  | _ :: cs, i + 1 => OkAt cs i
end

end Coll

theorem keepF_ne : ∀ {l : List (Cfg × Cfg)}, l ≠ [] → keepF l ≠ []
  | [], h => absurd rfl h
  | [k], _ => by simp [keepF]
  | c :: k :: ks, _ => by
    rw [keepF]
    split
    · exact keepF_ne (by simp)
    · simp

theorem skip_ne {l : List (Cfg × Cfg)} (n : Nat) (h : l ≠ []) : skip n l ≠ [] := by
  unfold skip
  rw [ne_eq, List.map_eq_nil_iff]
  apply keepF_ne
  intro hd
  rw [List.drop_eq_nil_iff] at hd
  have : 0 < l.length := List.length_pos_iff.2 h
  omega

theorem prod_ne {R L : List Cfg} (hr : R ≠ []) (hl : L ≠ []) : prod R L ≠ [] := by
  cases R with
  | nil => exact absurd rfl hr
  | cons a R =>
    cases L with
    | nil => exact absurd rfl hl
    | cons b L => simp [prod]

namespace Coll

mutual
theorem seq_ne : ∀ c : Coll, seq c ≠ []
  | single _ _ p => by simp [seq]
  | union _ _ [] _ => by simp [seq]
  | union _ _ (c :: cs) _ => by
    simp only [seq, ne_eq, List.append_eq_nil_iff, not_and]
    intro h
    exact absurd h (seq_ne c)
  | merge _ _ l r _ _ _ _ n _ => by
    rw [seq]
    exact skip_ne n (prod_ne (seq_ne r) (seq_ne l))
end

mutual
theorem rem_ne : ∀ c : Coll, rem c ≠ []
  | single _ _ p => by simp [rem]
  | union _ _ l i => by rw [rem]; exact remAt_ne l _
  | merge _ _ l r tmp mr moreR _ n k => by
    rw [rem]
    apply skip_ne
    split
    · exact prod_ne (rem_ne r) (seq_ne l)
    · simp only [ne_eq, List.append_eq_nil_iff, List.map_eq_nil_iff, not_and]
      intro h
      exact absurd h (rem_ne l)
theorem remAt_ne : ∀ (l : List Coll) (i : Nat), remAt l i ≠ []
  | [], _ => by simp [remAt]
  | c :: cs, 0 => by
    simp only [remAt, ne_eq, List.append_eq_nil_iff, not_and]
    intro h
    exact absurd h (rem_ne c)
  | _ :: cs, i + 1 => by rw [remAt]; exact remAt_ne cs i
end

/-- A collection that was reset is at its beginning. -/
theorem reset_rem : ∀ {c c' : Coll}, reset c = some c' → seq c' = seq c ∧ rem c' = seq c ∧ Ok c'
  | single r h p, c', hr => by
    simp only [reset] at hr
    obtain rfl := Option.some.inj hr
    simp [seq, rem, Ok]
  | union _ _ [] _, c', hr => by simp [reset] at hr
  | union r h (c :: cs) i, c', hr => by
    unfold reset at hr
    split at hr
    · cases hr
    · rename_i c1 hc
      obtain rfl := Option.some.inj hr
      obtain ⟨h1, h2, h3⟩ := reset_rem hc
      simp [seq, rem, remAt, Ok, OkAt, h1, h2, h3]
  | merge r h a b t x y z n k, c', hr => by
    unfold reset at hr
    split at hr
    · cases hr
    · rename_i b' hb
      obtain rfl := Option.some.inj hr
      obtain ⟨h1, h2, h3⟩ := reset_rem hb
      simp [seq, rem, Ok, h1, h2, h3]

/-! ### One call of `merge` -/

/-- the head and what remains -/
structure Step (c : Coll) (o : Out) : Prop where
  seq_eq : seq o.coll = seq c
  split : ∃ tail, rem c = o.prog.cfg :: tail ∧ (o.more = true ↔ tail ≠ []) ∧
    (o.more = true → Ok o.coll ∧ rem o.coll = tail)

theorem keepF_cons_imp {q : Cfg × Cfg} {l : List (Cfg × Cfg)} (hq : q.1 = .imp) (h : l ≠ []) :
    keepF (q :: l) = keepF l := by
  cases l with
  | nil => exact absurd rfl h
  | cons k ks => rw [keepF, if_pos hq]

theorem keepF_cons {q : Cfg × Cfg} {l : List (Cfg × Cfg)} (hq : q.1 ≠ .imp) : keepF (q :: l) = q :: keepF l := by
  cases l with
  | nil => simp [keepF]
  | cons j l => rw [keepF, if_neg hq]

theorem keepF_single (k : Cfg × Cfg) : keepF [k] = [k] := by rw [keepF]

theorem keepF_nil_iff {l : List (Cfg × Cfg)} : keepF l = [] ↔ l = [] := by
  constructor
  · intro h
    by_cases hl : l = []
    · exact hl
    · exact absurd h (keepF_ne hl)
  · rintro rfl; rw [keepF]

theorem skip_zero (l : List (Cfg × Cfg)) : skip 0 l = (keepF l).map pair := by simp [skip]

theorem skip_one (n : Nat) (k : Cfg × Cfg) : skip n [k] = [pair k] := by
  unfold skip
  have : min n ([k].length - 1) = 0 := by simp
  rw [this, List.drop_zero, keepF_single]
  rfl

theorem skip_cons {n : Nat} {k : Cfg × Cfg} {l : List (Cfg × Cfg)} (hl : l ≠ []) :
    skip (n + 1) (k :: l) = skip n l := by
  unfold skip
  have : 0 < l.length := List.length_pos_iff.2 hl
  have h2 : min (n + 1) ((k :: l).length - 1) = min n (l.length - 1) + 1 := by simp; omega
  rw [h2, List.drop_succ_cons]

theorem set_seqs {l : List Coll} {i : Nat} {c c' : Coll} (h : l[i]? = some c) (hs : seq c' = seq c) :
    seqs (l.set i c') = seqs l := by
  induction l generalizing i with
  | nil => simp at h
  | cons d l ih =>
    cases i with
    | zero =>
      simp only [List.getElem?_cons_zero, Option.some.injEq] at h
      subst h
      simp [seqs, hs]
    | succ i =>
      simp only [List.getElem?_cons_succ] at h
      simp [seqs, ih h]

theorem set_ne {l : List Coll} {i : Nat} {c : Coll} : l.set i c = [] ↔ l = [] := by
  cases l <;> cases i <;> simp

theorem remAt_get {l : List Coll} {i : Nat} {c : Coll} (h : l[i]? = some c) :
    remAt l i = rem c ++ seqs (l.drop (i + 1)) := by
  induction l generalizing i with
  | nil => simp at h
  | cons d l ih =>
    cases i with
    | zero =>
      simp only [List.getElem?_cons_zero, Option.some.injEq] at h
      subst h
      simp [remAt]
    | succ i =>
      simp only [List.getElem?_cons_succ] at h
      simp [remAt, ih h]

theorem OkAt_get {l : List Coll} {i : Nat} {c : Coll} (h : l[i]? = some c) : OkAt l i ↔ Ok c := by
  induction l generalizing i with
  | nil => simp at h
  | cons d l ih =>
    cases i with
    | zero =>
      simp only [List.getElem?_cons_zero, Option.some.injEq] at h
      subst h
      simp [OkAt]
    | succ i =>
      simp only [List.getElem?_cons_succ] at h
      simp [OkAt, ih h]

theorem seqs_ne_nil {l : List Coll} (h : l ≠ []) : seqs l ≠ [] := by
  cases l with
  | nil => exact absurd rfl h
  | cons c l =>
    simp only [seqs, ne_eq, List.append_eq_nil_iff, not_and]
    intro hh
    exact absurd hh (seq_ne c)

/-- The next member of a union is reset. -/
theorem nextMember_spec {i : Nat} {l l' : List Coll} (h : nextMember i l = some l') :
    seqs l' = seqs l ∧ l'.length = l.length ∧ (∀ c, l[i]? = some c → ∃ c', l'[i]? = some c' ∧ rem c' = seq c ∧ Ok c') ∧
    l'.drop (i + 1) = l.drop (i + 1) := by
  unfold nextMember at h
  split at h
  · rename_i hn
    obtain rfl := Option.some.inj h
    exact ⟨rfl, rfl, fun c hc => (by rw [hn] at hc; cases hc), rfl⟩
  · rename_i c hc
    split at h
    · cases h
    · rename_i c' hr
      obtain rfl := Option.some.inj h
      obtain ⟨h1, h2, h3⟩ := reset_rem hr
      refine ⟨set_seqs hc h1, by simp, ?_, ?_⟩
      · intro d hd
        rw [hc] at hd
        obtain rfl := Option.some.inj hd
        have hlt : i < l.length := (List.getElem?_eq_some_iff.1 hc).1
        exact ⟨c', by simp [hlt], h2, h3⟩
      · rw [List.drop_set]
        simp

theorem unionStep_spec {res : Res} {he : Bool} {lps : List Coll} {cur i : Nat} {c : Coll} {r o : Out}
    (hcur : i = if lps.length ≤ cur then 0 else cur) (hi : lps[i]? = some c) (hr : Step c r)
    (h : unionStep res he lps i r = some o) : Step (union res he lps cur) o := by
  have hlt : i < lps.length := (List.getElem?_eq_some_iff.1 hi).1
  have hne : lps ≠ [] := by intro h; simp [h] at hlt
  obtain ⟨tail, h1, h2, h3⟩ := hr.split
  have hset : (lps.set i r.coll)[i]? = some r.coll := by simp [hlt]
  have hseqs : seqs (lps.set i r.coll) = seqs lps := set_seqs hi hr.seq_eq
  have hdrop : (lps.set i r.coll).drop (i + 1) = lps.drop (i + 1) := by rw [List.drop_set]; simp
  have hrem : rem (union res he lps cur) = r.prog.cfg :: (tail ++ seqs (lps.drop (i + 1))) := by
    rw [rem, ← hcur, remAt_get hi, h1]; rfl
  unfold unionStep at h
  split at h
  · rename_i hm
    obtain rfl := Option.some.inj h
    obtain ⟨h4, h5⟩ := h3 hm
    refine ⟨?_, tail ++ seqs (lps.drop (i + 1)), hrem, ?_, ?_⟩
    · simp only [seq_union, hseqs, set_ne]
    · simp [h2.1 hm]
    · intro _
      have hc2 : ¬ (lps.set i r.coll).length ≤ i := by simp; omega
      refine ⟨?_, ?_⟩
      · simp only [Ok, hc2, if_false]
        exact (OkAt_get hset).2 h4
      · simp only [rem, hc2, if_false]
        rw [remAt_get hset, h5, hdrop]
  · rename_i hm
    have htail : tail = [] := by
      by_cases ht : tail = []
      · exact ht
      · exact absurd (h2.2 ht) hm
    subst htail
    split at h
    · cases h
    · rename_i lps' hn
      obtain rfl := Option.some.inj h
      obtain ⟨h4, h5, h6, h7⟩ := nextMember_spec hn
      have hlen : lps'.length = lps.length := by rw [h5]; simp
      refine ⟨?_, seqs (lps.drop (i + 1)), by simpa using hrem, ?_, ?_⟩
      · simp only [seq_union, h4, hseqs]
        have : lps' = [] ↔ lps = [] := by
          rw [← List.length_eq_zero_iff, ← List.length_eq_zero_iff, hlen]
        simp [this]
      · simp only [decide_eq_true_eq]
        constructor
        · intro hlt2
          apply seqs_ne_nil
          intro hd
          rw [List.drop_eq_nil_iff] at hd
          omega
        · intro hs
          by_cases hlt2 : i + 1 < lps.length
          · exact hlt2
          · rw [List.drop_eq_nil_iff.2 (by omega)] at hs
            exact absurd rfl hs
      · intro hmore
        simp only [decide_eq_true_eq] at hmore
        have hget : (lps.set i r.coll)[i + 1]? = some lps[i + 1] := by
          rw [List.getElem?_set]
          simp [hmore]
        obtain ⟨c', hc', hrc, hok⟩ := h6 _ hget
        have hc2 : ¬ lps'.length ≤ i + 1 := by omega
        refine ⟨?_, ?_⟩
        · simp only [Ok, hc2, if_false]
          exact (OkAt_get hc').2 hok
        · simp only [rem, hc2, if_false]
          rw [remAt_get hc', hrc, h7]
          have : (lps.set i r.coll).drop (i + 1 + 1) = lps.drop (i + 1 + 1) := by
            rw [List.drop_set]; simp; omega
          rw [this]
          conv_rhs => rw [List.drop_eq_getElem_cons hmore]
          rfl

theorem cfg_imp_iff (p : LP) : p.cfg = .imp ↔ p.res = .impossible := by
  unfold LP.cfg; split <;> simp_all

/-- One call of `merge` yields the next configuration. -/
theorem mergeC_spec {o : Oracle} (hi : Function.Injective o.addr) (n : Nat) :
    ∀ {c : Coll} {r : Out}, Ok c → mergeC o n c = some r → Step c r := by
  induction n with
  | zero => intro c r _ h; simp [mergeC] at h
  | succ n ih =>
    intro c r hok h
    cases c with
    | single rs he p =>
      simp only [mergeC] at h
      obtain rfl := Option.some.inj h
      refine ⟨rfl, [], ?_, by simp, fun h => (by cases h)⟩
      simp only [rem]
      rw [LP.cfg_empty_union p hi]
    | union rs he lps cur =>
      simp only [mergeC] at h
      split at h
      · cases h
      · rename_i c hc
        split at h
        · cases h
        · rename_i x hx
          have hokc : Ok c := by
            rw [Ok] at hok
            exact (OkAt_get hc).1 hok
          exact unionStep_spec rfl hc (ih hokc hx) h
    | merge rs he l r1 tmp mr moreR re nsat curr =>
      simp only [mergeC] at h
      generalize hst : (if mr = true then
        match mergeC o n r1 with
        | none => none
        | some x =>
          match reset l with
          | none => none
          | some l' => some (⟨x.coll, l', x.prog, x.more, x.emp⟩ : Right)
        else some ⟨r1, l, tmp, moreR, re⟩) = st0 at h
      cases st0 with
      | none => simp at h
      | some st =>
        simp only at h
        -- the state with a right program
        have hS : seq st.l = seq l ∧ seq st.r = seq r1 ∧ Ok st.l ∧ (st.moreR = true → Ok st.r) ∧
            (if mr = true then prod (rem r1) (seq l) else (rem l).map (fun b => (b, tmp.cfg)) ++
              if moreR = true then prod (rem r1) (seq l) else []) =
            (rem st.l).map (fun b => (b, st.tmp.cfg)) ++
              if st.moreR = true then prod (rem st.r) (seq l) else [] := by
          by_cases hmr : mr = true
          · rw [if_pos hmr] at hst
            rw [Ok, if_pos hmr] at hok
            split at hst
            · cases hst
            · rename_i x hx
              split at hst
              · cases hst
              · rename_i l' hl
                obtain rfl := Option.some.inj hst
                obtain ⟨h1, tail, h2, h3, h4⟩ := ih hok.2 hx
                obtain ⟨h5, h6, h7⟩ := reset_rem hl
                refine ⟨h5, h1, h7, fun hm => (h4 hm).1, ?_⟩
                rw [if_pos hmr, h2, h6]
                simp only [prod, List.flatMap_cons]
                congr 1
                by_cases hm : x.more = true
                · rw [if_pos hm, (h4 hm).2]
                · rw [if_neg hm]
                  have : tail = [] := by
                    by_cases ht : tail = []
                    · exact ht
                    · exact absurd (h3.2 ht) hm
                  rw [this]; rfl
          · rw [if_neg hmr] at hst
            rw [Ok, if_neg hmr] at hok
            obtain rfl := Option.some.inj hst
            exact ⟨rfl, rfl, hok.1, hok.2, by rw [if_neg hmr]⟩
        obtain ⟨s1, s2, s3, s4, s5⟩ := hS
        split at h
        · cases h
        · rename_i y hy
          obtain ⟨y1, tailL, y2, y3, y4⟩ := ih s3 hy
          -- the rest after this configuration
          let rest := tailL.map (fun b => (b, st.tmp.cfg)) ++
            if st.moreR = true then prod (rem st.r) (seq l) else []
          have hrem : rem (merge rs he l r1 tmp mr moreR re nsat curr) =
              skip (nsat - curr) ((y.prog.cfg, st.tmp.cfg) :: rest) := by
            rw [rem, s5, y2]; rfl
          have hseqN : ∀ k, seq (merge rs he y.coll st.r st.tmp (!y.more) st.moreR st.re nsat k) =
              seq (merge rs he l r1 tmp mr moreR re nsat curr) := by
            intro k
            simp only [seq, y1, s1, s2]
          have hrest : (y.more || st.moreR) = true ↔ rest ≠ [] := by
            simp only [rest, Bool.or_eq_true, ne_eq, List.append_eq_nil_iff, List.map_eq_nil_iff]
            have hp : prod (rem st.r) (seq l) ≠ [] := prod_ne (rem_ne _) (seq_ne _)
            constructor
            · rintro (hm | hm) ⟨ht, hp2⟩
              · exact (y3.1 hm) ht
              · rw [if_pos hm] at hp2; exact hp hp2
            · intro hno
              by_cases hm : y.more = true
              · exact Or.inl hm
              · refine Or.inr ?_
                by_cases hm2 : st.moreR = true
                · exact hm2
                · exact absurd ⟨(by
                    by_cases ht : tailL = []
                    · exact ht
                    · exact absurd (y3.2 ht) hm), by rw [if_neg hm2]⟩ hno
          have hnext : (y.more || st.moreR) = true →
              Ok (merge rs he y.coll st.r st.tmp (!y.more) st.moreR st.re nsat (curr + 1)) ∧
              rem (merge rs he y.coll st.r st.tmp (!y.more) st.moreR st.re nsat (curr + 1)) =
                skip (nsat - (curr + 1)) rest := by
            intro hm
            by_cases hy2 : y.more = true
            · obtain ⟨y5, y6⟩ := y4 hy2
              refine ⟨?_, ?_⟩
              · rw [Ok]; simp only [hy2, Bool.not_true, Bool.false_eq_true, if_false]
                exact ⟨y5, s4⟩
              · rw [rem]; simp only [hy2, Bool.not_true, Bool.false_eq_true, if_false]
                rw [y6, y1, s1]
            · have hmR : st.moreR = true := by
                simp only [Bool.or_eq_true] at hm
                exact hm.resolve_left hy2
              have ht : tailL = [] := by
                by_cases ht : tailL = []
                · exact ht
                · exact absurd (y3.2 ht) hy2
              refine ⟨?_, ?_⟩
              · rw [Ok]
                simp only [hy2, Bool.not_false, if_true]
                exact ⟨hmR, s4 hmR⟩
              · rw [rem]
                simp only [hy2, Bool.not_false, if_true]
                have hr2 : rest = prod (rem st.r) (seq l) := by simp only [rest, ht, hmR]; simp
                rw [hr2, y1, s1]
          have hcfg : (LP.union o.addr y.prog st.tmp).cfg = Cfg.both y.prog.cfg st.tmp.cfg := LP.cfg_union hi _ _
          -- going on with the next configuration
          have hcont : ∀ {r}, (y.more || st.moreR) = true → skip (nsat - curr) ((y.prog.cfg, st.tmp.cfg) :: rest) =
              skip (nsat - (curr + 1)) rest →
              mergeC o n (merge rs he y.coll st.r st.tmp (!y.more) st.moreR st.re nsat (curr + 1)) = some r →
              Step (merge rs he l r1 tmp mr moreR re nsat curr) r := by
            intro r hm hsk hgo
            obtain ⟨h6, h7⟩ := hnext hm
            have h8 := ih h6 hgo
            refine ⟨by rw [h8.seq_eq, hseqN], ?_⟩
            rw [hrem, hsk, ← h7]
            exact h8.split
          split at h
          · rename_i hcond
            split at h
            · rename_i himp
              -- known to be impossible
              refine hcont himp.2 ?_ h
              have hlt : nsat < curr + 1 := by
                rcases hcond with h' | h'
                · exact h'
                · rw [himp.2] at h'; cases h'
              rw [show nsat - curr = 0 by omega, show nsat - (curr + 1) = 0 by omega, skip_zero, skip_zero]
              rw [keepF_cons_imp ((cfg_imp_iff _).2 himp.1) (hrest.1 himp.2)]
            · rename_i himp
              obtain rfl := Option.some.inj h
              simp only at *
              by_cases hm : (y.more || st.moreR) = true
              · have hni : y.prog.cfg ≠ .imp := fun hc => himp ⟨(cfg_imp_iff _).1 hc, hm⟩
                have hlt : nsat < curr + 1 := by
                  rcases hcond with h' | h'
                  · exact h'
                  · rw [hm] at h'; cases h'
                refine ⟨hseqN _, (keepF rest).map pair, ?_, ?_, ?_⟩
                · rw [hrem, show nsat - curr = 0 by omega, skip_zero, keepF_cons hni, hcfg]
                  rfl
                · simp only [hm, ne_eq, List.map_eq_nil_iff, keepF_nil_iff, true_iff]
                  exact hrest.1 hm
                · intro _
                  obtain ⟨h6, h7⟩ := hnext hm
                  refine ⟨h6, ?_⟩
                  rw [h7, show nsat - (curr + 1) = 0 by omega, skip_zero]
              · have hre : rest = [] := by
                  by_cases hr : rest = []
                  · exact hr
                  · exact absurd (hrest.2 hr) hm
                refine ⟨hseqN _, [], ?_, by simp [hm], fun h => absurd h hm⟩
                rw [hrem, hre, skip_one, hcfg]; rfl
          · rename_i hcond
            simp only [not_or, Nat.not_lt, Bool.not_eq_false] at hcond
            refine hcont hcond.2 ?_ h
            rw [show nsat - curr = (nsat - (curr + 1)) + 1 by omega]
            exact skip_cons (hrest.1 hcond.2)

end Coll
end Simp
end Verif
