import Verif.PQL.XmlSat

/-!
# Reading back a file of queries
-/

namespace Verif
namespace Xml
open PQL

variable {nn : Nat} {nm : Nat → Txt} {env : Env}

/-- Queries that can be printed and read back: formulas and games. -/
def QueryOk (nn : Nat) : Binary.Query → Prop
  | .cond c => CondOk nn c
  | .control c => CondOk nn c
  | .bounds _ _ _ => False

/-- What a query is read back as. -/
def reQ : Binary.Query → PQuery
  | .cond c => .cond (reC c)
  | .control c => .control (reC c)
  | .bounds ps _ _ => .bounds (ps.map Prod.fst)

theorem parseFormula_cond {f : Nat} {t : Node} {c : Cond} (h : parseCond env f t = .ok c) :
    parseFormula env f [t] = .ok (.cond c) := by
  cases f with
  | zero => simp [parseCond] at h
  | succ f =>
    cases t with
    | text s => simp [parseCond] at h
    | elem n ks =>
      have ne : ∀ s ∈ ["k-safe", "quasi-liveness", "stable-marking", "liveness", "place-bound", "control"], n ≠ s := by
        rintro s hs rfl
        have : parseCond env (f + 1) (.elem n ks) = .error .throw := by
          simp only [List.mem_cons, List.not_mem_nil, or_false] at hs
          rcases hs with rfl | rfl | rfl | rfl | rfl | rfl <;>
            simp [parseCond, unForm, oldForm, isLog, isBin, isCmp]
        rw [this] at h
        cases h
      simp only [parseFormula]
      rw [if_neg (ne _ (by simp)), if_neg (ne _ (by simp)), if_neg (ne _ (by simp)), if_neg (ne _ (by simp)),
        if_neg (ne _ (by simp)), if_neg (ne _ (by simp)), h]
      rfl

theorem printQuery_ok (hN : Names nn nm env) (q : Binary.Query) (hq : QueryOk nn q) :
    ∃ t, Enc (printQuery nm q) [t] ∧ ∀ f, (printQuery nm q).length ≤ f → parseFormula env f [t] = .ok (reQ q) := by
  cases q with
  | cond c =>
    obtain ⟨t, h1, h2⟩ := printCond_ok hN c hq
    exact ⟨t, h1, fun f hf => parseFormula_cond (h2 f hf)⟩
  | control c =>
    obtain ⟨t, h1, h2⟩ := printCond_ok hN c hq
    refine ⟨_, h1.tag "control", fun f hf => ?_⟩
    have : parseCond env f t = .ok (reC c) := h2 f (by
      simp only [printQuery, tag, List.length_cons, List.length_append] at hf; omega)
    simp only [parseFormula]
    rw [if_neg (by decide), if_neg (by decide), if_neg (by decide), if_neg (by decide), if_neg (by decide), if_pos trivial]
    simp only [only, Except.bind, this, Except.map, orThrow, reQ]
  | bounds ps _ _ => exact hq.elim

theorem printProperty_ok (hN : Names nn nm env) (q : Txt × Binary.Query) (hid : q.1 ≠ []) (hq : QueryOk nn q.2) :
    ∃ t, Enc (printProperty nm q) [t] ∧
      ∀ f, (printProperty nm q).length ≤ f → parseProperty env f t = .ok (q.1, some (reQ q.2)) := by
  obtain ⟨t, h1, h2⟩ := printQuery_ok hN q.2 hq
  have hd : "Simplified".toList ≠ [] := by decide
  refine ⟨_, (((Enc.leaf hid "id").append (Enc.leaf hd "description")).append (h1.tag "formula")).tag "property",
    fun f hf => ?_⟩
  have h := h2 f (by
    simp only [printProperty, tag, List.length_cons, List.length_append] at hf; omega)
  have e1 : lastOf "id" [.elem "id" [.text q.1], .elem "description" [.text "Simplified".toList],
      .elem "formula" [t]] = some [.text q.1] := by simp [lastOf]
  have e2 : lastOf "tags" [.elem "id" [.text q.1], .elem "description" [.text "Simplified".toList],
      .elem "formula" [t]] = none := by simp [lastOf]
  have e3 : lastOf "formula" [.elem "id" [.text q.1], .elem "description" [.text "Simplified".toList],
      .elem "formula" [t]] = some [t] := by simp [lastOf]
  have e4 : value ((some [Node.text q.1]).getD []) = q.1 := rfl
  show parseProperty env f (.elem "property" [.elem "id" [.text q.1],
      .elem "description" [.text "Simplified".toList], .elem "formula" [t]]) = _
  simp only [parseProperty, e1, e2, e3, e4, h, hid, ne_eq, not_true_eq_false, if_false, Bool.true_eq_false]
  rfl

/-- What is read for the queries from number `i` on. -/
def reSet (sel : Nat → Bool) : Nat → List (Txt × Binary.Query) → List (Option Item)
  | _, [] => []
  | i, q :: qs => (if sel i then some (q.1, some (reQ q.2)) else none) :: reSet sel (i + 1) qs

theorem reSet_getElem? (sel : Nat → Bool) (i : Nat) (qs : List (Txt × Binary.Query)) (k : Nat) :
    (reSet sel i qs)[k]? = qs[k]?.map fun q => if sel (i + k) then some (q.1, some (reQ q.2)) else none := by
  induction qs generalizing i k with
  | nil => simp [reSet]
  | cons q qs ih =>
    cases k with
    | zero => simp [reSet]
    | succ k =>
      simp only [reSet, List.getElem?_cons_succ, ih]
      rw [Nat.add_right_comm, Nat.add_assoc]

theorem printSet_ok (hN : Names nn nm env) (sel : Nat → Bool) (qs : List (Txt × Binary.Query))
    (hid : ∀ q ∈ qs, q.1 ≠ []) (hq : ∀ q ∈ qs, QueryOk nn q.2) :
    ∃ ts, Enc (qs.flatMap (printProperty nm)) ts ∧
      ∀ f, (qs.flatMap (printProperty nm)).length ≤ f → ∀ i, parseSet env f sel i ts = .ok (reSet sel i qs) := by
  induction qs with
  | nil => exact ⟨[], Enc.nil, fun _ _ _ => rfl⟩
  | cons q qs ih =>
    obtain ⟨t, h1, h2⟩ := printProperty_ok hN q (hid q (List.mem_cons_self ..)) (hq q (List.mem_cons_self ..))
    obtain ⟨ts, h3, h4⟩ := ih (fun x hx => hid x (List.mem_cons_of_mem _ hx)) fun x hx => hq x (List.mem_cons_of_mem _ hx)
    refine ⟨t :: ts, h1.append h3, fun f hf i => ?_⟩
    rw [List.flatMap_cons, List.length_append] at hf
    have e1 := h2 f (by omega)
    have e2 := h4 f (by omega) (i + 1)
    simp only [parseSet, reSet]
    by_cases hs : sel i = true
    · rw [if_pos hs, if_pos hs, e1, e2]; rfl
    · rw [if_neg hs, if_neg hs, e2]; rfl

theorem printFile_ok (hN : Names nn nm env) (sel : Nat → Bool) (qs : List (Txt × Binary.Query))
    (hid : ∀ q ∈ qs, q.1 ≠ []) (hq : ∀ q ∈ qs, QueryOk nn q.2) :
    parseFile env sel (printFile nm qs) = .ok (reSet sel 0 qs) := by
  obtain ⟨ts, h1, h2⟩ := printSet_ok hN sel qs hid hq
  have hb : build (printFile nm qs) [] [] = some [.elem "property-set" ts] := by
    have := (h1.tag "property-set") [] [] []
    rw [List.append_nil] at this
    exact this
  have hl : (qs.flatMap (printProperty nm)).length ≤ (printFile nm qs).length := by
    simp only [printFile, tag, List.length_cons, List.length_append]; omega
  unfold parseFile
  rw [hb]
  simp only [if_true]
  exact h2 _ hl 0

end Xml
end Verif
