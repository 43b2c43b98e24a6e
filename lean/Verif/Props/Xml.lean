import Verif.PQL.XmlCtl

/-!
# C60: XML query files round-trip
-/

namespace Verif
namespace XmlProps
open PQL Ctl Xml

/-- What is read back for a formula `c`: a formula `d` with the same meaning on all paths of 32-bit markings, if `c` has
no operators `EX` and `AX` (which are read back as two operators, `E X`); if `c` is a CTL formula then `d` is recognised
as one and converted to a CTL formula with the same meaning, also in deadlocks. -/
def SameCond (c d : Cond) : Prop :=
  (noEX c = true → ∀ (T : TS), Step32 T → ∀ π, Path32 π → (d.sat T π ↔ c.sat T π)) ∧
  (Ctl.pure c = true → (∀ t, isCTL t d = true) ∧ ∃ e, asCTL d = some e ∧ Ctl.pure e = true ∧
    ∀ (T : TS), Step32 T → ∀ π, Path32 π → (e.sat T π ↔ c.sat T π))

/-- The same query. -/
def SameQuery : Binary.Query → PQuery → Prop
  | .cond c, .cond d => SameCond c d
  | .control c, .control d => SameCond c d
  | .bounds ps _ _, .bounds qs => ps.map Prod.fst = qs
  | _, _ => False

theorem same_reC (c : Cond) : SameCond c (reC c) := by
  refine ⟨fun h T hT π hp => reC_sat hT c h π hp, fun h => ⟨fun t => ?_, ?_⟩⟩
  · exact (isCTL_iff t _ (reC_plain c)).2 (Or.inl (reC_shape c h))
  · obtain ⟨e, h1, h2, h3⟩ := (asCTL_conv (reC c)).1 (reC_shape c h)
    exact ⟨e, h1, h2, fun T hT π hp => (h3 T π).trans (reC_ctl hT c h π hp)⟩

/-- **C60**, formulas.  What is printed for a formula is one element, and parsing it gives a formula with the same
meaning. -/
theorem C60_formula_partial (nn : Nat) (nm : Nat → Txt) (env : Env) (hN : Names nn nm env) (c : Cond)
    (hc : CondOk nn c) :
    ∃ t d, build (Xml.printCond nm c) [] [] = some [t] ∧ parseCond env (Xml.printCond nm c).length t = .ok d ∧
      SameCond c d := by
  obtain ⟨t, h1, h2⟩ := printCond_ok hN c hc
  refine ⟨t, reC c, ?_, h2 _ (Nat.le_refl _), same_reC c⟩
  have := h1 [] [] []
  rw [List.append_nil] at this
  exact this

/-- **C60**.  Full statement: every file of queries that is written is read back, with the same names and the same
meaning, in order.  It is false of the code (the findings below).  What holds: a file with any number of formulas and
games over places with names without white space, in which integer constants are 31-bit numbers with a sign and no sum,
product, difference or conjunction of constraints is degenerate, is read back; the selected queries have the names they
were written with and the same meaning, the others are left empty. -/
theorem C60_file_partial (nn : Nat) (nm : Nat → Txt) (env : Env) (hN : Names nn nm env)
    (qs : List (Txt × Binary.Query)) (hid : ∀ q ∈ qs, q.1 ≠ []) (hq : ∀ q ∈ qs, QueryOk nn q.2) (sel : Nat → Bool) :
    ∃ items, parseFile env sel (printFile nm qs) = .ok items ∧ items.length = qs.length ∧
      ∀ k q, qs[k]? = some q →
        (sel k = true → ∃ r, items[k]? = some (some (q.1, some r)) ∧ SameQuery q.2 r) ∧
        (sel k = false → items[k]? = some none) := by
  refine ⟨reSet sel 0 qs, printFile_ok hN sel qs hid hq, ?_, fun k q hk => ?_⟩
  · have : ∀ (i : Nat) (qs : List (Txt × Binary.Query)), (reSet sel i qs).length = qs.length := by
      intro i qs
      induction qs generalizing i with
      | nil => rfl
      | cons q qs ih => simp only [reSet, List.length_cons, ih]
    exact this 0 qs
  · rw [reSet_getElem?, hk, Nat.zero_add]
    refine ⟨fun h => ⟨reQ q.2, by simp [h], ?_⟩, fun h => by simp [h]⟩
    cases q.2 with
    | cond c => exact same_reC c
    | control c => exact same_reC c
    | bounds ps _ _ => rfl

/-! ### Examples and findings -/

/-- Two places `p` and `q`. -/
def nm2 : Nat → Txt := fun p => if p = 0 then "p".toList else "q".toList
def env2 : Env := { place := fun s => if s = "p".toList then 0 else 1, fire := fun _ => .dead }

theorem names2 : Names 2 nm2 env2 where
  ne p hp := by
    rcases (by omega : p = 0 ∨ p = 1) with rfl | rfl <;> decide
  plain p hp := by
    rcases (by omega : p = 0 ∨ p = 1) with rfl | rfl <;> decide
  known p hp := by
    rcases (by omega : p = 0 ∨ p = 1) with rfl | rfl <;> decide

/-- Non-vacuity: `AG (p ≤ 3 ∨ EX (q + 1 = p))` and the game `control AF dead`. -/
def qs2 : List (Txt × Binary.Query) :=
  [("a".toList, .cond (.AG (.or [.cc [⟨0, 0, 3⟩] false, .EX (.cmp .eq (.plus 1 [1] []) (.id 0))]))),
   ("b".toList, .control (.AF .dead))]

example : (∀ q ∈ qs2, q.1 ≠ []) ∧ ∀ q ∈ qs2, QueryOk 2 q.2 := by
  constructor
  · intro q hq
    rcases List.mem_cons.1 hq with rfl | hq
    · decide
    · rw [List.mem_singleton.1 hq]; decide
  · intro q hq
    rcases List.mem_cons.1 hq with rfl | hq
    · simp [QueryOk, CondOk, CondOk.all, ConsOk, ExprOk, ExprOk.all, IsInt, Cons.trivial, umax]
    · rw [List.mem_singleton.1 hq]; trivial

/-- The failure of a run, if it fails. -/
def failure {α : Type} : Except Fail α → Option Fail
  | .error e => some e
  | .ok _ => none

def readOne (nm : Nat → Txt) (env : Env) (c : Cond) : Option Fail :=
  failure (parseFile env (fun _ => true) (printFile nm [("a".toList, .cond c)]))

example : failure (parseFile env2 (fun _ => true) (printFile nm2 qs2)) = none := by decide +kernel

/-- **Finding.**  No upper-bounds query can be read back: it is written as `exists-path`, `finally`, `place-bound`, and
`place-bound` is not a formula for the parser. -/
theorem C60_finding_bounds_not_read (nn : Nat) (nm : Nat → Txt) (env : Env) (hN : Names nn nm env) (id : Txt)
    (hid : id ≠ []) (ps : List (Nat × Nat)) (hp : ∀ p ∈ ps.map Prod.fst, p < nn) (mx off : Nat) :
    failure (parseFile env (fun _ => true) (printFile nm [(id, .bounds ps mx off)])) = some .throw := by
  obtain ⟨h1, -⟩ := places_enc hN (ps.map Prod.fst) hp
  have hd : "Simplified".toList ≠ [] := by decide
  have henc := (((Enc.leaf hid "id").append (Enc.leaf hd "description")).append
    ((((h1.tag "place-bound").tag "finally").tag "exists-path").tag "formula")).tag "property" |>.tag "property-set"
  have hb := henc [] [] []
  rw [List.append_nil] at hb
  have hpr : printFile nm [(id, Binary.Query.bounds ps mx off)] = tag "property-set" (tag "property"
      (leaf "id" id ++ leaf "description" "Simplified".toList ++ tag "formula" (tag "exists-path" (tag "finally"
        (tag "place-bound" (List.flatMap (place nm) (List.map Prod.fst ps))))))) := by
    simp only [printFile, List.flatMap_cons, List.flatMap_nil, List.append_nil]; rfl
  rw [← hpr] at hb
  have hl : ∃ f, (printFile nm [(id, Binary.Query.bounds ps mx off)]).length = f + 2 := by
    refine ⟨(printFile nm [(id, Binary.Query.bounds ps mx off)]).length - 2, ?_⟩
    simp [printFile, printProperty, tag]
  obtain ⟨f, hf⟩ := hl
  unfold parseFile
  rw [hb, hf]
  simp only [build, List.append_nil, List.reverse_cons, List.reverse_nil, List.nil_append]
  have hpb : ∀ ks, ∃ e, parseCond env f (.elem "place-bound" ks) = .error e ∧ e ≠ .undef := by
    intro ks
    cases f with
    | zero => exact ⟨_, rfl, by decide⟩
    | succ f => exact ⟨.throw, by simp [parseCond, unForm, oldForm, isLog, isBin, isCmp], by decide⟩
  generalize hg : List.map (fun p => Node.elem "place" [Node.text (nm p)]) (List.map Prod.fst ps) = ns
  obtain ⟨e, he, hne⟩ := hpb ns
  have hF : parseFormula env (f + 2) [.elem "exists-path" [.elem "finally" [.elem "place-bound" ns]]] = .error .throw := by
    simp only [parseFormula, parseCond, unForm, only, Except.bind, he, Except.map]
    cases e <;> simp [orThrow] at hne ⊢
  simp [parseSet, parseProperty, lastOf, value, hid, hF, Except.map, Except.bind, failure]

/-- **Finding.**  A conjunction of constraints in which no constraint says anything is written as nothing, or as an empty
conjunction; neither is read back. -/
theorem C60_finding_trivial_constraints :
    readOne nm2 env2 (.cc [⟨0, 0, umax⟩] false) = some .null ∧
    readOne nm2 env2 (.cc [⟨0, 0, umax⟩, ⟨1, 0, umax⟩] false) = some .throw := by decide +kernel

/-- **Finding.**  Numbers above the largest `int` are written, and read with a conversion that is undefined for them. -/
theorem C60_finding_large_constants :
    readOne nm2 env2 (.cc [⟨0, 0, 2147483648⟩] false) = some .undef ∧
    readOne nm2 env2 (.cmp .le (.id 0) (.lit 4294967295)) = some .undef := by decide +kernel

/-- **Finding.**  A sum with constant 0 and a product with constant 1 without operands are written as nothing, and a
comparison with such an operand is not read back. -/
theorem C60_finding_empty_sum :
    (readOne nm2 env2 (.cmp .le (.id 0) (.plus 0 [] []))).isSome = true ∧
    (readOne nm2 env2 (.cmp .le (.id 0) (.mul 1 [] []))).isSome = true := by decide +kernel

/-- **Finding.**  A difference with one operand is read back as its negation: `p0 ≤ 0` for `p0 = 1` does not hold, but
what is read back does. -/
theorem C60_finding_single_difference :
    ∃ t c, build (Xml.printCond nm2 (.cmp .le (.sub (.id 0) []) (.lit 0))) [] [] = some [t] ∧
      parseCond env2 100 t = .ok c ∧ ∀ T, c.sat T (fun _ _ => 1) ∧
      ¬ (Cond.cmp .le (.sub (.id 0) []) (.lit 0)).sat T (fun _ _ => 1) := by
  refine ⟨_, .cmp .le (.sub (.lit 0) [.id 0]) (.lit 0), rfl, rfl, fun T => ⟨?_, ?_⟩⟩
  · simp [Cond.sat, Cmp.holds, Expr.val, vals]
  · simp [Cond.sat, Cmp.holds, Expr.val, vals]

/-- **Finding.**  White space in names of places is dropped, so the places `a b` and `ab` are not distinguished. -/
theorem C60_finding_white_space (env : Env) :
    parsePlace env (.elem "place" [.text "a b".toList]) = parsePlace env (.elem "place" [.text "ab".toList]) := rfl

/-- **Finding.**  A query with the tag `is-reachability` set to `true` is refused. -/
theorem C60_finding_reachability_tag (env : Env) (f : Nat) (ks : List Node) :
    parseProperty env f (.elem "property" [.elem "id" [.text "a".toList],
      .elem "tags" [.elem "is-reachability" [.text "true".toList]], .elem "formula" ks]) = .ok ("a".toList, none) := rfl

/-- A formula read from an element has the meaning `P`, for all systems and paths. -/
def ReadAs (env : Env) (f : Nat) (x : Node) (P : TS → (Nat → Mark) → Prop) : Prop :=
  ∃ c, parseCond env f x = .ok c ∧ ∀ T π, c.sat T π ↔ P T π

/-- **C60**, the elements that are read but never written: implication, equivalence, exclusive disjunction, the old names of
reachability formulas, comparisons with `gt` and `ge`, and the fireability of several transitions have their usual meanings. -/
theorem C60_sugar (env : Env) (f : Nat) (x y : Node) (P Q : TS → (Nat → Mark) → Prop) (hx : ReadAs env f x P) (hy : ReadAs env f y Q) :
    ReadAs env (f + 1) (.elem "implication" [x, y]) (fun T π => P T π → Q T π) ∧
    ReadAs env (f + 1) (.elem "equivalence" [x, y]) (fun T π => P T π ↔ Q T π) ∧
    ReadAs env (f + 1) (.elem "exclusive-disjunction" [x, y]) (fun T π => ¬ (P T π ↔ Q T π)) ∧
    ReadAs env (f + 1) (.elem "not" [x]) (fun T π => ¬ P T π) ∧
    ReadAs env (f + 1) (.elem "and" [x, y]) (fun T π => P T π ∧ Q T π) ∧
    ReadAs env (f + 1) (.elem "or" [x, y]) (fun T π => P T π ∨ Q T π) ∧
    ReadAs env (f + 1) (.elem "possibility" [x]) (fun T π => ∃ π', T.IsPath π' ∧ π' 0 = π 0 ∧ ∃ i, P T (suffix π' i)) ∧
    ReadAs env (f + 1) (.elem "impossibility" [x]) (fun T π => ∀ π', T.IsPath π' → π' 0 = π 0 → ∀ i, ¬ P T (suffix π' i)) ∧
    ReadAs env (f + 1) (.elem "invariant" [x]) (fun T π => ∀ π', T.IsPath π' → π' 0 = π 0 → ∀ i, P T (suffix π' i)) := by
  obtain ⟨a, ha, ga⟩ := hx
  obtain ⟨b, hb, gb⟩ := hy
  have hand : ∀ cs T π, (Cond.and (logOperands false cs)).sat T π ↔ ∀ c ∈ cs, c.sat T π := by
    intro cs T π
    have := Binary.logOperands_sat (T := T) (π := π) false cs
    simp only [logHolds, Bool.false_eq_true, if_false] at this
    rw [Cond.sat, satAll_iff, this]
  have hor : ∀ cs T π, (Cond.or (logOperands true cs)).sat T π ↔ ∃ c ∈ cs, c.sat T π := by
    intro cs T π
    have := Binary.logOperands_sat (T := T) (π := π) true cs
    simp only [logHolds, if_true] at this
    rw [Cond.sat, satAny_iff, this]
  have hnot : ∀ (c : Cond) T π, (Cond.not c).sat T π ↔ ¬ c.sat T π := fun c T π => Iff.rfl
  refine ⟨⟨binForm "implication" a b, ?_, fun T π => ?_⟩, ⟨binForm "equivalence" a b, ?_, fun T π => ?_⟩,
    ⟨binForm "exclusive-disjunction" a b, ?_, fun T π => ?_⟩, ⟨.not a, ?_, fun T π => ?_⟩,
    ⟨.and (logOperands false [a, b]), ?_, fun T π => ?_⟩, ⟨.or (logOperands true [a, b]), ?_, fun T π => ?_⟩,
    ⟨.EF a, ?_, fun T π => ?_⟩, ⟨.not (.EF a), ?_, fun T π => ?_⟩, ⟨.not (.EF (.not a)), ?_, fun T π => ?_⟩⟩
  · simp [parseCond, unForm, oldForm, isLog, isBin, both, Except.bind, Except.map, ha, hb]
  · rw [show binForm "implication" a b = .or (logOperands true [.not a, b]) from rfl, hor]
    simp only [List.mem_cons, List.not_mem_nil, or_false, exists_eq_or_imp, exists_eq_left, Cond.sat, ga, gb]
    tauto
  · simp [parseCond, unForm, oldForm, isLog, isBin, both, Except.bind, Except.map, ha, hb]
  · rw [show binForm "equivalence" a b = .or (logOperands true [.and (logOperands false [a, b]), .and (logOperands false [.not a, .not b])]) from rfl, hor]
    simp only [List.mem_cons, List.not_mem_nil, or_false, exists_eq_or_imp, exists_eq_left, hand, forall_eq_or_imp, forall_eq, hnot, ga, gb]
    tauto
  · simp [parseCond, unForm, oldForm, isLog, isBin, both, Except.bind, Except.map, ha, hb]
  · rw [show binForm "exclusive-disjunction" a b = .or (logOperands true [.and (logOperands false [a, .not b]), .and (logOperands false [.not a, b])]) from rfl, hor]
    simp only [List.mem_cons, List.not_mem_nil, or_false, exists_eq_or_imp, exists_eq_left, hand, forall_eq_or_imp, forall_eq, hnot, ga, gb]
    tauto
  · simp [parseCond, unForm, only, Except.bind, Except.map, orThrow, ha]
  · rw [Cond.sat, ga]
  · simp [parseCond, unForm, oldForm, isLog, mapE, mkLog, logNode, Except.bind, ha, hb]
  · rw [hand]
    simp only [List.mem_cons, List.not_mem_nil, or_false, forall_eq_or_imp, forall_eq, ga, gb]
  · simp [parseCond, unForm, oldForm, isLog, mapE, mkLog, logNode, Except.bind, ha, hb]
  · rw [hor]
    simp only [List.mem_cons, List.not_mem_nil, or_false, exists_eq_or_imp, exists_eq_left, ga, gb]
  · simp [parseCond, unForm, oldForm, first, Except.bind, Except.map, orThrow, ha]
  · simp only [Cond.sat, ga]
  · simp [parseCond, unForm, oldForm, first, Except.bind, Except.map, orThrow, ha]
  · simp only [Cond.sat, ga]
    push Not
    rfl
  · simp [parseCond, unForm, oldForm, first, Except.bind, Except.map, orThrow, ha]
  · simp only [Cond.sat, ga]
    push Not
    rfl

/-- **C60**, comparisons with the names that are never written. -/
theorem C60_sugar_compare (env : Env) (f : Nat) (x y : Node) (a b : Expr) (hx : parseExpr env f x = .ok a) (hy : parseExpr env f y = .ok b) :
    ReadAs env (f + 1) (.elem "integer-gt" [x, y]) (fun _ π => b.val (π 0) < a.val (π 0)) ∧
    ReadAs env (f + 1) (.elem "integer-ge" [x, y]) (fun _ π => b.val (π 0) ≤ a.val (π 0)) := by
  refine ⟨⟨.cmp .lt b a, ?_, fun T π => ?_⟩, ⟨.cmp .le b a, ?_, fun T π => ?_⟩⟩
  · simp [parseCond, unForm, oldForm, isLog, isBin, isCmp, parseCmp, cmpOf, both, hx, hy]
  · simp [Cond.sat, Cmp.holds]
  · simp [parseCond, unForm, oldForm, isLog, isBin, isCmp, parseCmp, cmpOf, both, hx, hy]
  · simp [Cond.sat, Cmp.holds]

/-- **C60**, fireability: some transition of the list is fireable. -/
theorem C60_sugar_fireable (env : Env) (f : Nat) (ts : List Txt) (hne : ts ≠ []) :
    ReadAs env (f + 1) (.elem "is-fireable" (ts.map fun t => .elem "transition" [.text t]))
      (fun T π => ∃ t ∈ ts, (env.fire t).sat T π) := by
  have h1 : mapE (parseFire env) (ts.map fun t => .elem "transition" [.text t]) = .ok (ts.map env.fire) := by
    clear hne
    induction ts with
    | nil => rfl
    | cons t ts ih => simp [mapE, parseFire, value, ih]
  refine ⟨.or (ts.map env.fire), ?_, fun T π => ?_⟩
  · have h2 : parseCond env (f + 1) (.elem "is-fireable" (ts.map fun t => .elem "transition" [.text t])) =
        (mapE (parseFire env) (ts.map fun t => .elem "transition" [.text t])).bind mkFire := rfl
    rw [h2, h1]
    cases ts with
    | nil => exact absurd rfl hne
    | cons t ts => rfl
  · rw [Cond.sat, satAny_iff]
    simp only [List.mem_map, exists_exists_and_eq_and]

example : ReadAs env2 1 (.elem "deadlock" []) (fun T π => Cond.dead.sat T π) := ⟨.dead, rfl, fun T π => Iff.rfl⟩

end XmlProps
end Verif
