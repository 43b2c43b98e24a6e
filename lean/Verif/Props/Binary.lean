import Verif.PQL.BinaryLemmas

/-!
# C21: binary query files round-trip
-/

namespace Verif
namespace BinaryProps
open PQL Binary

/-- **C21**, formulas.  Every formula over `nn` places whose constants and numbers of operands fit 32 bits is
read back as a formula with the same meaning on every path of every transition system, and exactly the bytes
written are consumed. -/
theorem C21_formula_partial (nn : Nat) (hn : nn ≤ 2 ^ 32) (c : Cond) (hc : CondFits nn c) (hs : CondSmall c) :
    ∃ c', (∀ f r, (printCond c).length ≤ f → parseCond nn f (printCond c ++ r) = some (c', r)) ∧
      ∀ (T : TS) (π : Nat → Mark), c'.sat T π ↔ c.sat T π :=
  ⟨reCond c, fun f r hf => parseCond_ok hn c hc f hf r, fun _ π => reCond_sat c hs π⟩

/-- The same query. -/
def SameQuery : Query → Query → Prop
  | .cond c, .cond d => ∀ (T : TS) (π : Nat → Mark), c.sat T π ↔ d.sat T π
  | .control c, .control d => ∀ (T : TS) (π : Nat → Mark), c.sat T π ↔ d.sat T π
  | .bounds ps mx off, .bounds ps' mx' off' => ps = ps' ∧ mx = mx' ∧ off = off'
  | _, _ => False

/-- A query with 32-bit constants over `nn` places. -/
def QueryOk (nn : Nat) : Query → Prop
  | .cond c => CondFits nn c ∧ CondSmall c
  | .control c => CondFits nn c ∧ CondSmall c
  | q => QueryFits nn q

theorem QueryOk.fits {nn : Nat} {q : Query} (h : QueryOk nn q) : QueryFits nn q := by
  cases q with
  | cond c => exact h.1
  | control c => exact h.1
  | bounds ps mx off => exact h

theorem reQuery_same {nn : Nat} {q : Query} (h : QueryOk nn q) : SameQuery (reQuery q) q := by
  cases q with
  | cond c => exact fun _ π => reCond_sat c h.2 π
  | control c => exact fun _ π => reCond_sat c h.2 π
  | bounds ps mx off => exact ⟨rfl, rfl, rfl⟩

/-- A file as it is written: the places are numbered from 0, names contain no zero byte. -/
structure FileOk (x : File) : Prop where
  places : x.names.length ≤ 2 ^ 31
  queries : x.queries.length < 2 ^ 32
  nodup : (x.names.map Prod.fst).Nodup
  range : ∀ n ∈ x.names, n.1 < x.names.length
  zero : ∀ n ∈ x.names, ∀ b ∈ n.2, b ≠ 0
  qzero : ∀ q ∈ x.queries, ∀ b ∈ q.1, b ≠ 0
  fits : ∀ q ∈ x.queries, QueryOk x.names.length q.2

/-- **C21**.  A file with any number of queries is read back: the table maps every place number to the name
it was written with, and the queries come back in order, with their names and the same meaning.
Partial: constants must be 32-bit integers (`C21_finding_constants_truncated`). -/
theorem C21_file_partial (x : File) (h : FileOk x) :
    ∃ t qs, parseFile (printFile x) = some (t, qs) ∧
      t.length = x.names.length ∧ (∀ n ∈ x.names, t[n.1]? = some n.2) ∧
      List.Forall₂ (fun q' q : Bytes × Query => q'.1 = q.1 ∧ SameQuery q'.2 q.2) qs x.queries := by
  have hn : x.names.length ≤ 2 ^ 32 := by have := h.places; omega
  have h1 := many_flatMap (readName x.names.length) (fun n : Nat × Bytes => u32 n.1 ++ n.2 ++ [0]) id x.names
    (fun n hx r => by
      simp only [readName, List.append_assoc, readPlace_u32 (h.range n hx) hn, List.cons_append, List.nil_append,
        getline_zero n.2 (h.zero n hx)]
      rfl)
  have h2 := many_flatMap (readNamed x.names.length) (fun q : Bytes × Query => q.1 ++ [0] ++ printQuery q.2)
    (fun q => (q.1, reQuery q.2)) x.queries
    (fun q hx r => by
      simp only [readNamed, List.append_assoc, List.cons_append, List.nil_append,
        getline_zero q.1 (h.qzero q hx), parseQuery_ok hn q.2 (h.fits q hx).fits])
  refine ⟨table x.names.length x.names, x.queries.map fun q => (q.1, reQuery q.2), ?_, table_length _ _,
    fun n hx => table_get h.nodup hx (h.range n hx), ?_⟩
  · have h2' := h2 []
    rw [List.append_nil] at h2'
    have h1' := h1 (x.queries.flatMap fun q : Bytes × Query => q.1 ++ [0] ++ printQuery q.2)
    rw [List.map_id] at h1'
    unfold parseFile printFile
    simp only [List.append_assoc, readNat_u32 h.queries, readNat_u32 (show x.names.length < 2 ^ 32 by
      have := h.places; omega)]
    simp only [List.append_assoc] at h1' h2'
    rw [h1']
    simp only [h2']
  · rw [List.forall₂_map_left_iff]
    have : ∀ l : List (Bytes × Query), (∀ q ∈ l, QueryOk x.names.length q.2) →
        List.Forall₂ (fun a b : Bytes × Query => a.1 = b.1 ∧ SameQuery (reQuery a.2) b.2) l l := by
      intro l
      induction l with
      | nil => exact fun _ => .nil
      | cons q l ih =>
        exact fun hl => .cons ⟨rfl, reQuery_same (hl q (by simp))⟩ (ih fun y hy => hl y (by simp [hy]))
    exact this _ h.fits

/-- The formula `p0 + 2^32 ≤ 1`, which holds nowhere. -/
def big : Cond := .cmp .le (.plus 4294967296 [0] []) (.lit 1)

/-- **Finding**: the 64-bit constant of a sum or product is written as 32 bits
(src/PetriEngine/PQL/BinaryPrinter.cpp:54-55), so the meaning can change: `p0 + 2^32 ≤ 1` becomes `p0 ≤ 1`. -/
theorem C21_finding_constants_truncated :
    parseCond 1 100 (printCond big) = some (.cmp .le (.plus 0 [0] []) (.lit 1), []) ∧
    ∀ (T : TS) (π : Nat → Mark), ¬ big.sat T π ∧
      ((Cond.cmp .le (.plus 0 [0] []) (.lit 1)).sat T π ↔ π 0 0 ≤ 1) := by
  constructor
  · have h := parseCond_ok (nn := 1) (by decide) big (by
      simp [big, CondFits, ExprFits, ExprFits.all]) 100 (by decide) []
    rw [List.append_nil] at h
    rw [h]
    have hw : wrap32 4294967296 = 0 ∧ wrap32 1 = 1 := by decide
    simp [big, reCond, reExpr, reExprs, hw.1, hw.2, mkPlus, Comm.handle, Expr.placeFree, evalExpr]
  · intro T π
    constructor
    · simp only [big, Cond.sat, Cmp.holds, Expr.val, vals, List.map_cons, List.map_nil, List.sum_cons, List.sum_nil]
      omega
    · simp only [Cond.sat, Cmp.holds, Expr.val, vals, List.map_cons, List.map_nil, List.sum_cons, List.sum_nil]
      omega

/-- Not vacuous: a file with a formula, a game and an upper-bounds query. -/
example : ∃ x : File, FileOk x ∧ x.queries.length = 3 := by
  refine ⟨⟨[(1, [113]), (0, [112])],
    [([65], .cond (.EU (.not (.cmp .ne (.mul 3 [0, 1] [.minus (.id 1)]) (.sub (.id 0) [.lit (-5)])))
        (.and [.dead, .cc [⟨1, 2, 7⟩] true, .AF (.bool true)]))),
     ([66, 66], .control (.AG (.or [.cmp .lt (.id 0) (.lit 4), .X .dead]))),
     ([67], .bounds [(1, 5)] 7 8)]⟩, ⟨by decide, by decide, by decide, by decide, by decide, ?_, ?_⟩, rfl⟩
  · simp
  · simp only [List.mem_cons, List.not_mem_nil, or_false]
    rintro q (rfl | rfl | rfl)
    · simp [QueryOk, CondFits, ExprFits, CondSmall, ExprSmall, ExprFits.all, CondFits.all, ExprSmall.all,
        CondSmall.all, Binary.Int32]
    · simp [QueryOk, CondFits, ExprFits, CondSmall, ExprSmall, CondFits.all, CondSmall.all, Binary.Int32]
    · simp [QueryOk, QueryFits]

end BinaryProps
end Verif
