import Verif.PQL.XmlLemmas

/-!
# XML queries: formulas are read back
-/

namespace Verif
namespace Xml
open PQL

/-- A conjunction or disjunction of what was read. -/
def reLog (orp : Bool) : List Cond → Cond
  | [] => .bool (!orp)
  | [c] => c
  | cs => logNode orp (logOperands orp cs)

/-- What is read back for a constraint. -/
def reCons (c : Cons) : List Cond :=
  (if c.lower ≠ 0 then [.cmp .le (.lit c.lower) (.id c.place)] else []) ++
  (if c.upper ≠ umax then [.cmp .le (.id c.place) (.lit c.upper)] else [])

def reConj (l : List Cons) : Cond := reLog false (l.flatMap reCons)

def reCC (l : List Cons) (neg : Bool) : Cond := if neg then .not (reConj l) else reConj l

/-- What is read back for a formula: the CTL operators become pairs of quantifier and path operator. -/
def reC : Cond → Cond
  | .bool b => .bool b
  | .dead => .dead
  | .cmp op e1 e2 => .cmp op (reE e1) (reE e2)
  | .cc l n => reCC l n
  | .not c => .not (reC c)
  | .and cs => reLog false (reCs cs)
  | .or cs => reLog true (reCs cs)
  | .EX c => .E (.X (reC c))
  | .AX c => .A (.X (reC c))
  | .EF c => .E (.F (reC c))
  | .AF c => .A (.F (reC c))
  | .EG c => .E (.G (reC c))
  | .AG c => .A (.G (reC c))
  | .EU c d => .E (.U (reC c) (reC d))
  | .AU c d => .A (.U (reC c) (reC d))
  | .E c => .E (reC c)
  | .A c => .A (reC c)
  | .X c => .X (reC c)
  | .F c => .F (reC c)
  | .G c => .G (reC c)
  | .U c d => .U (reC c) (reC d)
where reCs : List Cond → List Cond
  | [] => []
  | c :: cs => reC c :: reCs cs

theorem reCs_eq (cs : List Cond) : reC.reCs cs = cs.map reC := by
  induction cs with
  | nil => rfl
  | cons c cs ih => simp [reC.reCs, ih]

/-- A constraint whose bounds are written as numbers that `int` can hold. -/
def ConsOk (nn : Nat) (c : Cons) : Prop :=
  c.place < nn ∧ c.lower ≤ 2147483647 ∧ (c.upper ≤ 2147483647 ∨ c.upper = umax)

/-- Formulas that can be printed: the expressions can be printed, the bounds of constraints are 31-bit numbers
(or absent), and a conjunction of constraints has a constraint that says something, unless it is empty. -/
def CondOk (nn : Nat) : Cond → Prop
  | .bool _ | .dead => True
  | .cmp _ e1 e2 => ExprOk nn e1 ∧ ExprOk nn e2
  | .cc l _ => (∀ c ∈ l, ConsOk nn c) ∧ (l = [] ∨ ∃ c ∈ l, c.trivial = false)
  | .not c => CondOk nn c
  | .and cs => all cs
  | .or cs => all cs
  | .EX c | .AX c | .EF c | .AF c | .EG c | .AG c | .E c | .A c | .X c | .F c | .G c => CondOk nn c
  | .EU c d | .AU c d | .U c d => CondOk nn c ∧ CondOk nn d
where all : List Cond → Prop
  | [] => True
  | c :: cs => CondOk nn c ∧ all cs

theorem condOk_all (nn : Nat) (cs : List Cond) : CondOk.all nn cs ↔ ∀ c ∈ cs, CondOk nn c := by
  induction cs with
  | nil => simp [CondOk.all]
  | cons c cs ih => simp [CondOk.all, ih]

section
variable {nn : Nat} {nm : Nat → Txt} {env : Env}

/-- The events are one element, which is parsed as `c`. -/
def PC (env : Env) (evs : List Ev) (t : Node) (c : Cond) : Prop :=
  Enc evs [t] ∧ ∀ f, evs.length ≤ f → parseCond env f t = .ok c

/-- The events are nodes which are parsed as `cs`. -/
def PCs (env : Env) (evs : List Ev) (ts : List Node) (cs : List Cond) : Prop :=
  Enc evs ts ∧ ∀ f, evs.length ≤ f → mapE (parseCond env f) ts = .ok cs

theorem PCs.nil : PCs env [] [] [] := ⟨Enc.nil, fun _ _ => rfl⟩

theorem PCs.append {a b : List Ev} {ts us : List Node} {es ds : List Cond} (h : PCs env a ts es)
    (h' : PCs env b us ds) : PCs env (a ++ b) (ts ++ us) (es ++ ds) :=
  ⟨h.1.append h'.1, fun f hf => by
    rw [List.length_append] at hf
    exact mapE_append (h.2 f (by omega)) (h'.2 f (by omega))⟩

theorem PC.single {a : List Ev} {t : Node} {e : Cond} (h : PC env a t e) : PCs env a [t] [e] :=
  ⟨h.1, fun f hf => by simp only [mapE, h.2 f hf]⟩

theorem PCs.one {a : List Ev} {ts : List Node} {e : Cond} (h : PCs env a ts [e]) : ∃ t, PC env a t e := by
  have hl := mapE_length (h.2 _ (Nat.le_refl _))
  obtain ⟨t, rfl⟩ : ∃ t, ts = [t] := List.length_eq_one_iff.1 hl
  refine ⟨t, h.1, fun f hf => ?_⟩
  have := h.2 f hf
  simp only [mapE] at this
  cases hx : parseCond env f t with
  | error e => rw [hx] at this; cases this
  | ok y => rw [hx] at this; cases this; rfl

theorem PC.bool (b : Bool) : ∃ t, PC env (printBool b) t (.bool b) := by
  cases b
  · refine ⟨_, Enc.nil.tag "false", fun f hf => ?_⟩
    obtain ⟨f, rfl⟩ : ∃ g, f = g + 1 := ⟨f - 1, by simp [printBool, tag] at hf; omega⟩
    rfl
  · refine ⟨_, Enc.nil.tag "true", fun f hf => ?_⟩
    obtain ⟨f, rfl⟩ : ∃ g, f = g + 1 := ⟨f - 1, by simp [printBool, tag] at hf; omega⟩
    rfl

theorem PC.dead : PC env (tag "deadlock" []) (.elem "deadlock" []) .dead := by
  refine ⟨Enc.nil.tag _, fun f hf => ?_⟩
  obtain ⟨f, rfl⟩ : ∃ g, f = g + 1 := ⟨f - 1, by simp [tag] at hf; omega⟩
  rfl

/-- Unary operators. -/
theorem PC.un {a : List Ev} {t : Node} {c : Cond} (h : PC env a t c) {n : String} {k : Cond → Cond}
    (hn : unForm n = some k) : PC env (tag n a) (.elem n [t]) (k c) := by
  refine ⟨h.1.tag _, fun f hf => ?_⟩
  rw [tag_length] at hf
  obtain ⟨f, rfl⟩ : ∃ g, f = g + 1 := ⟨f - 1, by omega⟩
  simp only [parseCond, hn, only]
  show orThrow ((parseCond env f t).map k) = _
  rw [h.2 f (by omega)]
  rfl

theorem PC.until {a b : List Ev} {t u : Node} {c d : Cond} (h : PC env a t c) (h' : PC env b u d) :
    ∃ t, PC env (printUntil a b) t (.U c d) := by
  refine ⟨_, ((h.1.tag "before").append (h'.1.tag "reach")).tag "until", fun f hf => ?_⟩
  rw [printUntil, tag_length, List.length_append, tag_length, tag_length] at hf
  obtain ⟨f, rfl⟩ : ∃ g, f = g + 1 := ⟨f - 1, by omega⟩
  have e1 : unForm "until" = none := rfl
  have e2 : oldForm "until" = none := rfl
  have e3 : isLog "until" = none := rfl
  simp only [parseCond, e1, e2, e3, if_true]
  show orThrow ((parseCond env f t).bind fun c => (parseCond env f u).map fun d => Cond.U c d) = _
  rw [h.2 f (by omega), h'.2 f (by omega)]
  rfl

theorem mkLog_ok (orp : Bool) {cs : List Cond} (h : cs ≠ []) : mkLog orp cs = .ok (reLog orp cs) := by
  match cs, h with
  | [_], _ => rfl
  | _ :: _ :: _, _ => rfl

/-- Conjunctions and disjunctions. -/
theorem PCs.log {a : List Ev} {ts : List Node} {cs : List Cond} (h : PCs env a ts cs) (hne : cs ≠ []) {n : String}
    {orp : Bool} (h1 : unForm n = none) (h2 : oldForm n = none) (h3 : isLog n = some orp) :
    PC env (tag n a) (.elem n ts) (reLog orp cs) := by
  refine ⟨h.1.tag _, fun f hf => ?_⟩
  rw [tag_length] at hf
  obtain ⟨f, rfl⟩ : ∃ g, f = g + 1 := ⟨f - 1, by omega⟩
  simp only [parseCond, h1, h2, h3, h.2 f (by omega)]
  exact mkLog_ok orp hne

/-- Comparisons. -/
theorem PC.cmp {a b : List Ev} {t u : Node} {e1 e2 : Expr} (h : PE env a t e1) (h' : PE env b u e2) {n : String}
    (h1 : unForm n = none) (h2 : oldForm n = none) (h3 : isLog n = none) (h4 : isBin n = false)
    (h5 : isCmp n = true) (h6 : n ≠ "until" ∧ n ≠ "deadlock" ∧ n ≠ "true" ∧ n ≠ "false") {c : Cond}
    (h7 : cmpOf n e1 e2 = some c) :
    PC env (tag n (a ++ b)) (.elem n [t, u]) c := by
  refine ⟨(h.1.append h'.1).tag _, fun f hf => ?_⟩
  rw [tag_length, List.length_append] at hf
  obtain ⟨f, rfl⟩ : ∃ g, f = g + 1 := ⟨f - 1, by omega⟩
  simp only [parseCond, h1, h2, h3, h4, h5, h6.1, h6.2.1, h6.2.2.1, h6.2.2.2, if_false, if_true, Bool.false_eq_true,
    parseCmp, both, h.2 f (by omega), h'.2 f (by omega), h7]

theorem PC.bound (hN : Names nn nm env) {p v : Nat} (hp : p < nn) (hv : v ≤ 2147483647) :
    (∃ t, PC env (printBound nm "integer-ge" p v) t (.cmp .le (.lit v) (.id p))) ∧
    (∃ t, PC env (printBound nm "integer-le" p v) t (.cmp .le (.id p) (.lit v))) := by
  have hi : IsInt (v : Int) := by unfold IsInt; omega
  constructor
  · exact ⟨_, PC.cmp (PE.id hN hp) (PE.constNat hi) rfl rfl rfl rfl rfl (by decide) rfl⟩
  · exact ⟨_, PC.cmp (PE.id hN hp) (PE.constNat hi) rfl rfl rfl rfl rfl (by decide) rfl⟩

theorem printCons_ok (hN : Names nn nm env) {c : Cons} (h : ConsOk nn c) :
    ∃ ts, PCs env (printCons nm c) ts (reCons c) := by
  obtain ⟨hp, hl, hu⟩ := h
  have h1 : ∃ ts, PCs env (if c.lower ≠ 0 then printBound nm "integer-ge" c.place c.lower else []) ts
      (if c.lower ≠ 0 then [.cmp .le (.lit c.lower) (.id c.place)] else []) := by
    by_cases h0 : c.lower ≠ 0
    · simp only [if_pos h0]
      obtain ⟨t, ht⟩ := (PC.bound hN hp hl).1
      exact ⟨_, ht.single⟩
    · simp only [if_neg h0]; exact ⟨[], PCs.nil⟩
  have h2 : ∃ ts, PCs env (if c.upper ≠ umax then printBound nm "integer-le" c.place c.upper else []) ts
      (if c.upper ≠ umax then [.cmp .le (.id c.place) (.lit c.upper)] else []) := by
    by_cases h0 : c.upper ≠ umax
    · simp only [if_pos h0]
      obtain ⟨t, ht⟩ := (PC.bound hN hp (hu.resolve_right h0)).2
      exact ⟨_, ht.single⟩
    · simp only [if_neg h0]; exact ⟨[], PCs.nil⟩
  obtain ⟨t1, h1⟩ := h1
  obtain ⟨t2, h2⟩ := h2
  exact ⟨_, h1.append h2⟩

theorem conss_ok (hN : Names nn nm env) (l : List Cons) (h : ∀ c ∈ l, ConsOk nn c) :
    ∃ ts, PCs env (l.flatMap (printCons nm)) ts (l.flatMap reCons) := by
  induction l with
  | nil => exact ⟨[], PCs.nil⟩
  | cons c l ih =>
    obtain ⟨t1, h1⟩ := printCons_ok hN (h c (List.mem_cons_self ..))
    obtain ⟨t2, h2⟩ := ih fun x hx => h x (List.mem_cons_of_mem _ hx)
    simp only [List.flatMap_cons]
    exact ⟨_, h1.append h2⟩

theorem reCons_eq_nil {c : Cons} : reCons c = [] ↔ c.trivial = true := by
  unfold reCons Cons.trivial
  by_cases h1 : c.lower = 0 <;> by_cases h2 : c.upper = umax <;> simp [h1, h2]

theorem printConj_ok (hN : Names nn nm env) (l : List Cons) (h : ∀ c ∈ l, ConsOk nn c)
    (hl : l = [] ∨ ∃ c ∈ l, c.trivial = false) : ∃ t, PC env (printConj nm l) t (reConj l) := by
  unfold printConj reConj
  rcases hl with rfl | ⟨x, hx, hxt⟩
  · simp only [List.isEmpty_nil, if_true]
    exact PC.bool true
  · have hemp : l.isEmpty = false := by
      cases l with
      | nil => cases hx
      | cons => rfl
    simp only [hemp, Bool.false_eq_true, if_false]
    obtain ⟨ts, hts⟩ := conss_ok hN l h
    have hne : l.flatMap reCons ≠ [] := by
      intro hc
      rw [List.flatMap_eq_nil_iff] at hc
      rw [reCons_eq_nil.1 (hc x hx)] at hxt
      cases hxt
    by_cases hs : ccSingular l = true
    · rw [if_pos hs]
      obtain ⟨c, rfl, hc⟩ := ccSingular_cases hs
      have hxc : x = c := by simpa using hx
      subst hxc
      have hone : ∃ y, List.flatMap reCons [x] = [y] := by
        simp only [Cons.oneSided, Bool.or_eq_true, beq_iff_eq] at hc
        simp only [List.flatMap_cons, List.flatMap_nil, List.append_nil]
        simp only [Cons.trivial, Bool.and_eq_false_iff, beq_eq_false_iff_ne] at hxt
        unfold reCons
        by_cases h1 : x.lower = 0 <;> by_cases h2 : x.upper = umax <;> simp_all
      obtain ⟨y, hy⟩ := hone
      rw [hy] at hts ⊢
      exact hts.one
    · rw [if_neg hs]
      exact ⟨_, hts.log hne rfl rfl rfl⟩

theorem printLog_ok (orp : Bool) {cs : List Cond} {body : List Ev}
    (h : ∃ ts, PCs env body ts (cs.map reC)) :
    ∃ t, PC env (printLog (!orp) (if orp then "disjunction" else "conjunction") cs.length body) t
      (reLog orp (cs.map reC)) := by
  obtain ⟨ts, hts⟩ := h
  match cs with
  | [] => simp only [printLog, List.length_nil, if_true, List.map_nil, reLog]; exact PC.bool _
  | [c] =>
    simp only [printLog, List.length_singleton, Nat.one_ne_zero, if_false, if_true, List.map_cons, List.map_nil, reLog]
    exact hts.one
  | c :: d :: cs =>
    have h1 : ¬ (c :: d :: cs).length = 0 := by simp
    have h2 : ¬ (c :: d :: cs).length = 1 := by simp
    simp only [printLog, if_neg h1, if_neg h2]
    cases orp
    · exact ⟨_, hts.log (by simp) rfl rfl rfl⟩
    · exact ⟨_, hts.log (by simp) rfl rfl rfl⟩

theorem conds_enc (cs : List Cond) (h : ∀ c ∈ cs, ∃ t, PC env (printCond nm c) t (reC c)) :
    ∃ ts, PCs env (printConds nm cs) ts (cs.map reC) := by
  induction cs with
  | nil => exact ⟨[], PCs.nil⟩
  | cons e es ih =>
    obtain ⟨ts, hts⟩ := ih fun q hq => h q (List.mem_cons_of_mem _ hq)
    obtain ⟨t, ht⟩ := h e (List.mem_cons_self ..)
    exact ⟨_, ht.single.append hts⟩

/-- A printed formula is read back. -/
theorem printCond_ok (hN : Names nn nm env) (c : Cond) (hc : CondOk nn c) :
    ∃ t, PC env (printCond nm c) t (reC c) := by
  induction c using Cond.ind with
  | bool b => exact PC.bool b
  | dead => exact ⟨_, PC.dead⟩
  | cmp op e1 e2 =>
    obtain ⟨t, ht⟩ := printExpr_ok hN e1 hc.1
    obtain ⟨u, hu⟩ := printExpr_ok hN e2 hc.2
    cases op
    · exact ⟨_, PC.cmp ht hu rfl rfl rfl rfl rfl (by decide) rfl⟩
    · exact ⟨_, PC.cmp ht hu rfl rfl rfl rfl rfl (by decide) rfl⟩
    · exact ⟨_, PC.cmp ht hu rfl rfl rfl rfl rfl (by decide) rfl⟩
    · exact ⟨_, PC.cmp ht hu rfl rfl rfl rfl rfl (by decide) rfl⟩
  | cc l n =>
    obtain ⟨t, ht⟩ := printConj_ok hN l hc.1 hc.2
    cases n
    · exact ⟨t, ht⟩
    · exact ⟨_, ht.un (n := "negation") (k := .not) rfl⟩
  | not c ih =>
    obtain ⟨t, ht⟩ := ih hc
    exact ⟨_, ht.un (n := "negation") (k := .not) rfl⟩
  | and cs ih =>
    have := printLog_ok (env := env) false (conds_enc cs fun c hx => ih c hx ((condOk_all nn cs).1 hc c hx))
    simp only [printCond, reC, reCs_eq]
    exact this
  | or cs ih =>
    have := printLog_ok (env := env) true (conds_enc cs fun c hx => ih c hx ((condOk_all nn cs).1 hc c hx))
    simp only [printCond, reC, reCs_eq]
    exact this
  | EX c ih =>
    obtain ⟨t, ht⟩ := ih hc
    exact ⟨_, (ht.un (n := "next") (k := .X) rfl).un (n := "exists-path") (k := .E) rfl⟩
  | AX c ih =>
    obtain ⟨t, ht⟩ := ih hc
    exact ⟨_, (ht.un (n := "next") (k := .X) rfl).un (n := "all-paths") (k := .A) rfl⟩
  | EF c ih =>
    obtain ⟨t, ht⟩ := ih hc
    exact ⟨_, (ht.un (n := "finally") (k := .F) rfl).un (n := "exists-path") (k := .E) rfl⟩
  | AF c ih =>
    obtain ⟨t, ht⟩ := ih hc
    exact ⟨_, (ht.un (n := "finally") (k := .F) rfl).un (n := "all-paths") (k := .A) rfl⟩
  | EG c ih =>
    obtain ⟨t, ht⟩ := ih hc
    exact ⟨_, (ht.un (n := "globally") (k := .G) rfl).un (n := "exists-path") (k := .E) rfl⟩
  | AG c ih =>
    obtain ⟨t, ht⟩ := ih hc
    exact ⟨_, (ht.un (n := "globally") (k := .G) rfl).un (n := "all-paths") (k := .A) rfl⟩
  | EU c d ihc ihd =>
    obtain ⟨t, ht⟩ := ihc hc.1
    obtain ⟨u, hu⟩ := ihd hc.2
    obtain ⟨v, hv⟩ := ht.until hu
    exact ⟨_, hv.un (n := "exists-path") (k := .E) rfl⟩
  | AU c d ihc ihd =>
    obtain ⟨t, ht⟩ := ihc hc.1
    obtain ⟨u, hu⟩ := ihd hc.2
    obtain ⟨v, hv⟩ := ht.until hu
    exact ⟨_, hv.un (n := "all-paths") (k := .A) rfl⟩
  | U c d ihc ihd =>
    obtain ⟨t, ht⟩ := ihc hc.1
    obtain ⟨u, hu⟩ := ihd hc.2
    exact ht.until hu
  | E c ih =>
    obtain ⟨t, ht⟩ := ih hc
    exact ⟨_, ht.un (n := "exists-path") (k := .E) rfl⟩
  | A c ih =>
    obtain ⟨t, ht⟩ := ih hc
    exact ⟨_, ht.un (n := "all-paths") (k := .A) rfl⟩
  | X c ih =>
    obtain ⟨t, ht⟩ := ih hc
    exact ⟨_, ht.un (n := "next") (k := .X) rfl⟩
  | F c ih =>
    obtain ⟨t, ht⟩ := ih hc
    exact ⟨_, ht.un (n := "finally") (k := .F) rfl⟩
  | G c ih =>
    obtain ⟨t, ht⟩ := ih hc
    exact ⟨_, ht.un (n := "globally") (k := .G) rfl⟩

end

end Xml
end Verif
