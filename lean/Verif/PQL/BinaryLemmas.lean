import Verif.PQL.Binary
import Verif.PQL.EvalLemmas
import Verif.PQL.MergeLemmas

/-!
# Lemmas about the binary query format
-/

namespace Verif
namespace Binary
open PQL

/-! ### Numbers -/

theorem readNat_bytesOf (n v : Nat) (h : v < 256 ^ n) (r : Bytes) :
    readNat n (bytesOf n v ++ r) = some (v, r) := by
  induction n generalizing v with
  | zero => simp at h; subst h; rfl
  | succ n ih =>
    have : v / 256 < 256 ^ n := by
      rw [Nat.div_lt_iff_lt_mul (by decide)]
      rwa [Nat.pow_succ] at h
    simp only [bytesOf, List.cons_append, readNat, ih _ this, Nat.mod_add_div]

theorem bytesOf_length (n v : Nat) : (bytesOf n v).length = n := by
  induction n generalizing v with
  | zero => rfl
  | succ n ih => simp [bytesOf, ih]

theorem readNat_u32 {v : Nat} (h : v < 2 ^ 32) (r : Bytes) : readNat 4 (u32 v ++ r) = some (v, r) :=
  readNat_bytesOf 4 v (by simpa using h) r

theorem u32_length (v : Nat) : (u32 v).length = 4 := bytesOf_length 4 v
theorem i32_length (v : Int) : (i32 v).length = 4 := bytesOf_length 4 _

/-- 32-bit integers. -/
def Int32 (v : Int) : Prop := -2 ^ 31 ≤ v ∧ v < 2 ^ 31

theorem wrap32_eq {v : Int} (h : Int32 v) : wrap32 v = v := by
  unfold Int32 at h
  unfold wrap32 sign32
  split <;> omega

theorem readI32_i32 (v : Int) (r : Bytes) : readI32 (i32 v ++ r) = some (wrap32 v, r) := by
  have : (v % 2 ^ 32).toNat < 256 ^ 4 := by omega
  simp only [readI32, i32, readNat_bytesOf 4 _ this, wrap32]

theorem getline_zero (s : Bytes) (hs : ∀ b ∈ s, b ≠ 0) (r : Bytes) : getline (s ++ 0 :: r) = (s, r) := by
  induction s with
  | nil => simp [getline]
  | cons b s ih =>
    simp only [List.cons_append, getline, if_neg (hs b (by simp)), ih fun x hx => hs x (by simp [hx])]

theorem many_flatMap {α β : Type} (p : Bytes → Option (β × Bytes)) (pr : α → Bytes) (g : α → β) (l : List α)
    (h : ∀ x ∈ l, ∀ r, p (pr x ++ r) = some (g x, r)) (r : Bytes) :
    many p l.length (l.flatMap pr ++ r) = some (l.map g, r) := by
  induction l with
  | nil => rfl
  | cons x l ih =>
    simp only [List.length_cons, many, List.flatMap_cons, List.append_assoc, h x (by simp),
      ih fun y hy => h y (by simp [hy]), List.map_cons]

theorem readPlace_u32 {nn p : Nat} (h : p < nn) (hn : nn ≤ 2 ^ 32) (r : Bytes) :
    readPlace nn (u32 p ++ r) = some (p, r) := by
  simp only [readPlace, readNat_u32 (Nat.lt_of_lt_of_le h hn), if_pos h]

/-! ### Expressions -/

theorem printExprs_eq (es : List Expr) : printExprs es = es.flatMap printExpr := by
  induction es with
  | nil => rfl
  | cons e es ih => simp [printExprs, ih]

theorem printConds_eq (cs : List Cond) : printConds cs = cs.flatMap printCond := by
  induction cs with
  | nil => rfl
  | cons e es ih => simp [printConds, ih]

mutual
/-- What is read back for an expression. -/
def reExpr : Expr → Expr
  | .lit v => .lit (wrap32 v)
  | .id p => .id p
  | .minus e => .sub (.lit (wrap32 0)) [reExpr e]
  | .sub e es => .sub (reExpr e) (reExprs es)
  | .plus k ids es => mkPlus (.lit (wrap32 k) :: (ids.map .id ++ reExprs es))
  | .mul k ids es => mkMul (.lit (wrap32 k) :: (ids.map .id ++ reExprs es))
def reExprs : List Expr → List Expr
  | [] => []
  | e :: es => reExpr e :: reExprs es
end

theorem reExprs_eq (es : List Expr) : reExprs es = es.map reExpr := by
  induction es with
  | nil => rfl
  | cons e es ih => simp [reExprs, ih]

/-- The places of an expression are among `nn` places, and numbers of operands fit 32 bits. -/
def ExprFits (nn : Nat) : Expr → Prop
  | .lit _ => True
  | .id p => p < nn ∧ p < 2 ^ 31
  | .minus e => ExprFits nn e
  | .sub e es => es.length + 1 < 2 ^ 32 ∧ ExprFits nn e ∧ all es
  | .plus _ ids es => ids.length < 2 ^ 32 ∧ es.length < 2 ^ 32 ∧ (∀ p ∈ ids, p < nn) ∧ all es
  | .mul _ ids es => ids.length < 2 ^ 32 ∧ es.length < 2 ^ 32 ∧ (∀ p ∈ ids, p < nn) ∧ all es
where all : List Expr → Prop
  | [] => True
  | e :: es => ExprFits nn e ∧ all es

theorem exprFits_all (nn : Nat) (es : List Expr) : ExprFits.all nn es ↔ ∀ e ∈ es, ExprFits nn e := by
  induction es with
  | nil => simp [ExprFits.all]
  | cons e es ih => simp [ExprFits.all, ih]

theorem printExpr_pos (e : Expr) : 0 < (printExpr e).length := by
  cases e <;> simp [printExpr]

theorem length_le_flatMap {α : Type} (pr : α → Bytes) {x : α} {l : List α} (h : x ∈ l) :
    (pr x).length ≤ (l.flatMap pr).length := by
  induction l with
  | nil => simp at h
  | cons y l ih =>
    simp only [List.flatMap_cons, List.length_append]
    rcases List.mem_cons.1 h with rfl | h
    · omega
    · have := ih h; omega

theorem readComm_ok {nn : Nat} (hn : nn ≤ 2 ^ 32) (p : Bytes → Option (Expr × Bytes)) (k : Int)
    (ids : List Nat) (es : List Expr) (h1 : ids.length < 2 ^ 32) (h2 : es.length < 2 ^ 32)
    (h3 : ∀ p ∈ ids, p < nn) (h4 : ∀ e ∈ es, ∀ r, p (printExpr e ++ r) = some (reExpr e, r)) (r : Bytes) :
    readComm nn p ((i32 k ++ u32 ids.length ++ u32 es.length ++ ids.flatMap u32 ++ printExprs es) ++ r) =
      some (.lit (wrap32 k) :: (ids.map .id ++ reExprs es), r) := by
  simp only [readComm, List.append_assoc, readI32_i32, readNat_u32 h1, readNat_u32 h2, printExprs_eq, reExprs_eq]
  rw [many_flatMap (readPlace nn) u32 (fun p => p) ids (fun p hp r => readPlace_u32 (h3 p hp) hn r)]
  simp only [List.map_id']
  rw [many_flatMap p printExpr reExpr es h4]

theorem parseExpr_ok {nn : Nat} (hn : nn ≤ 2 ^ 32) (e : Expr) (he : ExprFits nn e) (f : Nat)
    (hf : (printExpr e).length ≤ f) (r : Bytes) : parseExpr nn f (printExpr e ++ r) = some (reExpr e, r) := by
  induction e using Expr.ind generalizing f r with
  | lit v =>
    obtain ⟨f, rfl⟩ : ∃ g, f = g + 1 := ⟨f - 1, by have := printExpr_pos (.lit v); omega⟩
    simp [printExpr, parseExpr, readI32_i32, reExpr]
  | id p =>
    obtain ⟨f, rfl⟩ : ∃ g, f = g + 1 := ⟨f - 1, by have := printExpr_pos (.id p); omega⟩
    simp only [printExpr, parseExpr, List.cons_append, readPlace_u32 he.1 hn, reExpr, if_pos he.2]
    rfl
  | minus e ih =>
    obtain ⟨f, rfl⟩ : ∃ g, f = g + 1 := ⟨f - 1, by have := printExpr_pos (.minus e); omega⟩
    obtain ⟨f, rfl⟩ : ∃ g, f = g + 1 := ⟨f - 1, by simp [printExpr] at hf; omega⟩
    have h1 := ih he (f + 1) (by simp [printExpr] at hf; omega) r
    simp only [printExpr, List.cons_append, List.append_assoc]
    rw [parseExpr]
    simp only [show (45 : Nat) ≠ 108 by decide, show (45 : Nat) ≠ 105 by decide, if_false, if_true]
    rw [readNat_u32 (by decide)]
    simp only [many]
    rw [show (parseExpr nn (f + 1) (108 :: (i32 0 ++ (printExpr e ++ r)))) =
      some (.lit (wrap32 0), printExpr e ++ r) by simp [parseExpr, readI32_i32]]
    simp only [h1, reExpr]
  | sub e es ih ihs =>
    obtain ⟨f, rfl⟩ : ∃ g, f = g + 1 := ⟨f - 1, by have := printExpr_pos (.sub e es); omega⟩
    obtain ⟨h1, h2, h3⟩ := he
    rw [exprFits_all] at h3
    simp only [printExpr, List.length_cons, List.length_append, u32_length, printExprs_eq] at hf
    have hm := many_flatMap (parseExpr nn f) printExpr reExpr (e :: es) (fun x hx r => by
      rcases List.mem_cons.1 hx with rfl | hx
      · exact ih h2 f (by omega) r
      · have := length_le_flatMap printExpr hx
        exact ihs x hx (h3 x hx) f (by omega) r) r
    simp only [List.length_cons, List.flatMap_cons, List.append_assoc, List.map_cons] at hm
    simp only [printExpr, List.cons_append, List.append_assoc, printExprs_eq]
    rw [parseExpr]
    simp only [show (45 : Nat) ≠ 108 by decide, show (45 : Nat) ≠ 105 by decide, if_false, if_true]
    rw [readNat_u32 h1]
    simp only [hm, reExpr, reExprs_eq]
  | plus k ids es ih =>
    obtain ⟨f, rfl⟩ : ∃ g, f = g + 1 := ⟨f - 1, by have := printExpr_pos (.plus k ids es); omega⟩
    obtain ⟨h1, h2, h3, h4⟩ := he
    rw [exprFits_all] at h4
    simp only [printExpr, List.length_cons, List.length_append, u32_length, printExprs_eq] at hf
    have := readComm_ok hn (parseExpr nn f) k ids es h1 h2 h3 (fun x hx r => by
      have := length_le_flatMap printExpr hx
      exact ih x hx (h4 x hx) f (by omega) r) r
    simp only [printExpr, List.cons_append]
    rw [parseExpr]
    simp only [show (43 : Nat) ≠ 108 by decide, show (43 : Nat) ≠ 105 by decide, show (43 : Nat) ≠ 45 by decide,
      show (43 : Nat) ≠ 42 by decide, if_false, if_true, this, reExpr]
  | mul k ids es ih =>
    obtain ⟨f, rfl⟩ : ∃ g, f = g + 1 := ⟨f - 1, by have := printExpr_pos (.mul k ids es); omega⟩
    obtain ⟨h1, h2, h3, h4⟩ := he
    rw [exprFits_all] at h4
    simp only [printExpr, List.length_cons, List.length_append, u32_length, printExprs_eq] at hf
    have := readComm_ok hn (parseExpr nn f) k ids es h1 h2 h3 (fun x hx r => by
      have := length_le_flatMap printExpr hx
      exact ih x hx (h4 x hx) f (by omega) r) r
    simp only [printExpr, List.cons_append]
    rw [parseExpr]
    simp only [show (42 : Nat) ≠ 108 by decide, show (42 : Nat) ≠ 105 by decide, show (42 : Nat) ≠ 45 by decide,
      if_false, if_true, this, reExpr]

/-! ### Conditions -/

mutual
/-- What is read back for a condition. -/
def reCond : Cond → Cond
  | .bool b => .bool b
  | .dead => .dead
  | .cmp op e1 e2 => .cmp op (reExpr e1) (reExpr e2)
  | .cc l n => .cc l n
  | .not c => .not (reCond c)
  | .and cs => .and (logOperands false (reConds cs))
  | .or cs => .or (logOperands true (reConds cs))
  | .EX c => .EX (reCond c)
  | .AX c => .AX (reCond c)
  | .EF c => .EF (reCond c)
  | .AF c => .AF (reCond c)
  | .EG c => .EG (reCond c)
  | .AG c => .AG (reCond c)
  | .EU c d => .EU (reCond c) (reCond d)
  | .AU c d => .AU (reCond c) (reCond d)
  | .E c => .E (reCond c)
  | .A c => .A (reCond c)
  | .X c => .X (reCond c)
  | .F c => .F (reCond c)
  | .G c => .G (reCond c)
  | .U c d => .U (reCond c) (reCond d)
def reConds : List Cond → List Cond
  | [] => []
  | c :: cs => reCond c :: reConds cs
end

theorem reConds_eq (cs : List Cond) : reConds cs = cs.map reCond := by
  induction cs with
  | nil => rfl
  | cons e es ih => simp [reConds, ih]

/-- The places are among `nn` places; bounds, numbers of operands and constraints fit 32 bits. -/
def CondFits (nn : Nat) : Cond → Prop
  | .bool _ | .dead => True
  | .cmp _ e1 e2 => ExprFits nn e1 ∧ ExprFits nn e2
  | .cc l _ => l.length < 2 ^ 32 ∧ ∀ c ∈ l, c.place < nn ∧ c.lower < 2 ^ 32 ∧ c.upper < 2 ^ 32
  | .not c => CondFits nn c
  | .and cs => cs.length < 2 ^ 32 ∧ all cs
  | .or cs => cs.length < 2 ^ 32 ∧ all cs
  | .EX c | .AX c | .EF c | .AF c | .EG c | .AG c | .E c | .A c | .X c | .F c | .G c => CondFits nn c
  | .EU c d | .AU c d | .U c d => CondFits nn c ∧ CondFits nn d
where all : List Cond → Prop
  | [] => True
  | e :: es => CondFits nn e ∧ all es

theorem condFits_all (nn : Nat) (es : List Cond) : CondFits.all nn es ↔ ∀ e ∈ es, CondFits nn e := by
  induction es with
  | nil => simp [CondFits.all]
  | cons e es ih => simp [CondFits.all, ih]

theorem hd_length (p q : Nat) : (hd p q).length = 8 := by simp [hd, u32_length]

theorem printCond_pos (c : Cond) : 8 ≤ (printCond c).length := by
  cases c <;> simp only [printCond, List.length_append, hd_length] <;> omega

theorem readCons_ok {nn : Nat} (hn : nn ≤ 2 ^ 32) {c : Cons}
    (h : c.place < nn ∧ c.lower < 2 ^ 32 ∧ c.upper < 2 ^ 32) (r : Bytes) :
    readCons nn (printCons c ++ r) = some (c, r) := by
  simp only [readCons, printCons, List.append_assoc, readPlace_u32 h.1 hn, readNat_u32 h.2.1, readNat_u32 h.2.2]

theorem readBool (b : Bool) (r : Bytes) : readNat 1 (boolByte b :: r) = some (boolByte b, r) := by
  cases b <;> rfl

theorem boolByte_ne (b : Bool) : decide (boolByte b ≠ 0) = b := by cases b <;> rfl

theorem parseCond_head {p q : Nat} (hp : p < 2 ^ 32) (hq : q < 2 ^ 32) (nn f : Nat) (r : Bytes) :
    parseCond nn (f + 1) (hd p q ++ r) =
        if p = pError then
          if q = qNEG then unary (parseCond nn f) .not r
          else if q = qDEADLOCK then some (.dead, r)
          else if q = qBOOL then
            readBoolean r
          else if q = qAND then readLog false (parseCond nn f) r
          else if q = qOR then readLog true (parseCond nn f) r
          else if q = qCOMPCONJ then readCC nn r
          else if q = qEMPTY then readCmp nn f r
          else if q = qA then unary (parseCond nn f) .A r
          else if q = qE then unary (parseCond nn f) .E r
          else none
        else if p = pX then unary (parseCond nn f) (pick q .X .AX .EX) r
        else if p = pF then unary (parseCond nn f) (pick q .F .AF .EF) r
        else if p = pG then unary (parseCond nn f) (pick q .G .AG .EG) r
        else if p = pU then binary (parseCond nn f) (pick q .U .AU .EU) r
        else none := by
  rw [parseCond, hd, List.append_assoc, readNat_u32 hp]
  simp only [readNat_u32 hq]

theorem readLog_ok (orp : Bool) (p : Bytes → Option (Cond × Bytes)) (cs : List Cond) (h : cs.length < 2 ^ 32)
    (hp : ∀ c ∈ cs, ∀ r, p (printCond c ++ r) = some (reCond c, r)) (r : Bytes) :
    readLog orp p ((u32 cs.length ++ printConds cs) ++ r) = some (logNode orp (logOperands orp (reConds cs)), r) := by
  simp only [readLog, List.append_assoc, readNat_u32 h, printConds_eq, many_flatMap p printCond reCond cs hp,
    reConds_eq]

theorem unary_ok (p : Bytes → Option (Cond × Bytes)) (k : Cond → Cond) {c c' : Cond} {r : Bytes}
    (h : p (printCond c ++ r) = some (c', r)) : unary p k (printCond c ++ r) = some (k c', r) := by
  simp only [unary, h]

theorem binary_ok (p : Bytes → Option (Cond × Bytes)) (k : Cond → Cond → Cond) {c d c' d' : Cond} {r : Bytes}
    (h : p (printCond c ++ (printCond d ++ r)) = some (c', printCond d ++ r))
    (h' : p (printCond d ++ r) = some (d', r)) :
    binary p k (printCond c ++ (printCond d ++ r)) = some (k c' d', r) := by
  simp only [binary, h, h']

theorem parseCond_ok {nn : Nat} (hn : nn ≤ 2 ^ 32) (c : Cond) (hc : CondFits nn c) (f : Nat)
    (hf : (printCond c).length ≤ f) (r : Bytes) : parseCond nn f (printCond c ++ r) = some (reCond c, r) := by
  induction c using Cond.ind generalizing f r with
  | bool b =>
    obtain ⟨f, rfl⟩ : ∃ g, f = g + 1 := ⟨f - 1, by have := printCond_pos (.bool b); omega⟩
    simp only [printCond, List.append_assoc, List.cons_append, List.nil_append]
    rw [parseCond_head (by decide) (by decide)]
    simp only [show qBOOL ≠ qNEG by decide, show qBOOL ≠ qDEADLOCK by decide, if_true, if_false]
    simp only [readBoolean, readBool, boolByte_ne, reCond]
  | dead =>
    obtain ⟨f, rfl⟩ : ∃ g, f = g + 1 := ⟨f - 1, by have := printCond_pos .dead; omega⟩
    simp only [printCond]
    rw [parseCond_head (by decide) (by decide)]
    rfl
  | cmp op e1 e2 =>
    obtain ⟨f, rfl⟩ : ∃ g, f = g + 1 := ⟨f - 1, by have := printCond_pos (.cmp op e1 e2); omega⟩
    simp only [printCond, List.length_append, hd_length, List.length_cons] at hf
    have hg := fun r => getline_zero (opBytes op) (by cases op <;> decide) r
    have h1 := parseExpr_ok hn e1 hc.1 f (by omega) (printExpr e2 ++ r)
    have h2 := parseExpr_ok hn e2 hc.2 f (by omega) r
    simp only [printCond, List.append_assoc, List.cons_append, List.nil_append]
    rw [parseCond_head (by decide) (by decide)]
    change readCmp nn f _ = _
    simp only [readCmp, hg, h1, h2, reCond]
    cases op <;> rfl
  | cc l n =>
    obtain ⟨f, rfl⟩ : ∃ g, f = g + 1 := ⟨f - 1, by have := printCond_pos (.cc l n); omega⟩
    have hm := many_flatMap (readCons nn) printCons id l (fun c hx r => readCons_ok hn (hc.2 c hx) r) r
    rw [List.map_id] at hm
    simp only [printCond, List.append_assoc, List.cons_append, List.nil_append]
    rw [parseCond_head (by decide) (by decide)]
    simp only [show qCOMPCONJ ≠ qNEG by decide, show qCOMPCONJ ≠ qDEADLOCK by decide,
      show qCOMPCONJ ≠ qBOOL by decide, show qCOMPCONJ ≠ qAND by decide, show qCOMPCONJ ≠ qOR by decide,
      if_true, if_false]
    simp only [readCC, readBool, readNat_u32 hc.1, hm, boolByte_ne, reCond]
  | and cs ih =>
    obtain ⟨f, rfl⟩ : ∃ g, f = g + 1 := ⟨f - 1, by have := printCond_pos (.and cs); omega⟩
    obtain ⟨h1, h2⟩ := hc
    rw [condFits_all] at h2
    simp only [printCond, List.length_append, hd_length, u32_length, printConds_eq] at hf
    have := readLog_ok false (parseCond nn f) cs h1 (fun x hx r => by
      have := length_le_flatMap printCond hx
      exact ih x hx (h2 x hx) f (by omega) r) r
    rw [List.append_assoc] at this
    simp only [printCond, List.append_assoc]
    rw [parseCond_head (by decide) (by decide)]
    exact this
  | or cs ih =>
    obtain ⟨f, rfl⟩ : ∃ g, f = g + 1 := ⟨f - 1, by have := printCond_pos (.or cs); omega⟩
    obtain ⟨h1, h2⟩ := hc
    rw [condFits_all] at h2
    simp only [printCond, List.length_append, hd_length, u32_length, printConds_eq] at hf
    have := readLog_ok true (parseCond nn f) cs h1 (fun x hx r => by
      have := length_le_flatMap printCond hx
      exact ih x hx (h2 x hx) f (by omega) r) r
    rw [List.append_assoc] at this
    simp only [printCond, List.append_assoc]
    rw [parseCond_head (by decide) (by decide)]
    exact this
  | EU c d ihc ihd | AU c d ihc ihd | U c d ihc ihd =>
    simp only [printCond, List.length_append, hd_length] at hf
    obtain ⟨f, rfl⟩ : ∃ g, f = g + 1 := ⟨f - 1, by omega⟩
    simp only [printCond, List.append_assoc]
    rw [parseCond_head (by decide) (by decide)]
    exact binary_ok (parseCond nn f) _ (ihc hc.1 f (by omega) _) (ihd hc.2 f (by omega) r)
  | not c ih | EX c ih | AX c ih | EF c ih | AF c ih | EG c ih | AG c ih | E c ih | A c ih | X c ih | F c ih
    | G c ih =>
    simp only [printCond, List.length_append, hd_length] at hf
    obtain ⟨f, rfl⟩ : ∃ g, f = g + 1 := ⟨f - 1, by omega⟩
    simp only [printCond, List.append_assoc]
    rw [parseCond_head (by decide) (by decide)]
    exact unary_ok (parseCond nn f) _ (ih hc f (by omega) r)

/-! ### The meaning of what is read back -/

/-- The constants of an expression are 32-bit integers. -/
def ExprSmall : Expr → Prop
  | .lit v => Int32 v
  | .id _ => True
  | .minus e => ExprSmall e
  | .sub e es => ExprSmall e ∧ all es
  | .plus k _ es => Int32 k ∧ all es
  | .mul k _ es => Int32 k ∧ all es
where all : List Expr → Prop
  | [] => True
  | e :: es => ExprSmall e ∧ all es

theorem exprSmall_all (es : List Expr) : ExprSmall.all es ↔ ∀ e ∈ es, ExprSmall e := by
  induction es with
  | nil => simp [ExprSmall.all]
  | cons e es ih => simp [ExprSmall.all, ih]

theorem map_congr_mem {α β : Type} {f g : α → β} {l : List α} (h : ∀ x ∈ l, f x = g x) : l.map f = l.map g :=
  List.map_congr_left h

theorem reExpr_val (m : Mark) (e : Expr) (he : ExprSmall e) : (reExpr e).val m = e.val m := by
  induction e using Expr.ind with
  | lit v => simp only [reExpr, Expr.val, wrap32_eq he]
  | id p => rfl
  | minus e ih =>
    simp only [reExpr, Expr.val, vals, ih he, wrap32_eq (show Int32 0 by unfold Int32; omega), List.sum_cons,
      List.sum_nil]
    omega
  | sub e es ih ihs =>
    have h2 := (exprSmall_all es).1 he.2
    simp only [reExpr, Expr.val, vals_eq, reExprs_eq, ih he.1, List.map_map]
    rw [map_congr_mem (f := Expr.val m ∘ reExpr) (g := Expr.val m) fun x hx => ihs x hx (h2 x hx)]
  | plus k ids es ih =>
    have h2 := (exprSmall_all es).1 he.2
    have h1 : Int32 k := he.1
    simp only [reExpr, Expr.val, vals_eq, reExprs_eq, mkPlus_val, List.map_cons, List.map_append, List.map_map,
      List.sum_cons, List.sum_append, wrap32_eq h1]
    rw [map_congr_mem (f := Expr.val m ∘ reExpr) (g := Expr.val m) fun x hx => ih x hx (h2 x hx)]
    have : (Expr.val m ∘ Expr.id) = fun p => (m p : Int) := by funext p; simp [Expr.val]
    rw [this]; omega
  | mul k ids es ih =>
    have h2 := (exprSmall_all es).1 he.2
    have h1 : Int32 k := he.1
    simp only [reExpr, Expr.val, vals_eq, reExprs_eq, mkMul_val, List.map_cons, List.map_append, List.map_map,
      List.prod_cons, List.prod_append, wrap32_eq h1]
    rw [map_congr_mem (f := Expr.val m ∘ reExpr) (g := Expr.val m) fun x hx => ih x hx (h2 x hx)]
    have : (Expr.val m ∘ Expr.id) = fun p => (m p : Int) := by funext p; simp [Expr.val]
    rw [this, Int.mul_assoc]

/-- The constants of a formula are 32-bit integers. -/
def CondSmall : Cond → Prop
  | .bool _ | .dead | .cc _ _ => True
  | .cmp _ e1 e2 => ExprSmall e1 ∧ ExprSmall e2
  | .not c => CondSmall c
  | .and cs => all cs
  | .or cs => all cs
  | .EX c | .AX c | .EF c | .AF c | .EG c | .AG c | .E c | .A c | .X c | .F c | .G c => CondSmall c
  | .EU c d | .AU c d | .U c d => CondSmall c ∧ CondSmall d
where all : List Cond → Prop
  | [] => True
  | e :: es => CondSmall e ∧ all es

theorem condSmall_all (es : List Cond) : CondSmall.all es ↔ ∀ e ∈ es, CondSmall e := by
  induction es with
  | nil => simp [CondSmall.all]
  | cons e es ih => simp [CondSmall.all, ih]

variable {T : TS} {π : Nat → Mark}

theorem tryMergeL_plain_of (orp : Bool) (cs : List Cond)
    (ih : ∀ c ∈ cs, ∀ conds, logHolds orp T π (tryMerge orp false conds c) ↔
      J orp (logHolds orp T π conds) (c.sat T π)) (conds : List Cond) :
    logHolds orp T π (tryMergeL orp false conds cs) ↔ J orp (logHolds orp T π conds) (logHolds orp T π cs) := by
  induction cs generalizing conds with
  | nil => cases orp <;> simp [tryMergeL, J, logHolds]
  | cons c cs ihl =>
    rw [tryMergeL, ihl (fun x hx => ih x (List.mem_cons_of_mem _ hx)),
      J_congr orp (ih c (List.mem_cons_self ..) conds) Iff.rfl, J_assoc]
    exact J_congr orp Iff.rfl (logHolds_cons orp c cs).symm

theorem logHolds_append1 (orp : Bool) (conds : List Cond) (c : Cond) :
    logHolds orp T π (conds ++ [c]) ↔ J orp (logHolds orp T π conds) (c.sat T π) := by
  cases orp
  · simp [logHolds, J, or_imp, forall_and]
  · simp [logHolds, J, or_and_right, exists_or]

/-- Without merging of comparisons the constructors of `and` and `or` keep the meaning of any operands. -/
theorem tryMerge_plain (orp : Bool) (c : Cond) (conds : List Cond) :
    logHolds orp T π (tryMerge orp false conds c) ↔ J orp (logHolds orp T π conds) (c.sat T π) := by
  induction c using Cond.ind generalizing conds with
  | and cs ih =>
    simp only [tryMerge]
    cases orp
    · simp only [Bool.false_eq_true, if_false]
      rw [tryMergeL_plain_of false cs ih]
      exact J_congr _ Iff.rfl (by simp [logHolds, Cond.sat, satAll_iff])
    · exact logHolds_append1 ..
  | or cs ih =>
    simp only [tryMerge]
    cases orp
    · exact logHolds_append1 ..
    · simp only [if_true]
      rw [tryMergeL_plain_of true cs ih]
      exact J_congr _ Iff.rfl (by simp [logHolds, Cond.sat, satAny_iff])
  | _ => exact logHolds_append1 ..

theorem logOperands_sat (orp : Bool) (cs : List Cond) :
    logHolds orp T π (logOperands orp cs) ↔ logHolds orp T π cs := by
  rw [logOperands, logHolds_mem orp fun c => mem_postMerge _ c,
    tryMergeL_plain_of orp cs (fun c _ conds => tryMerge_plain orp c conds), logHolds_start]

theorem reCond_sat (c : Cond) (hc : CondSmall c) (π : Nat → Mark) : (reCond c).sat T π ↔ c.sat T π := by
  induction c using Cond.ind generalizing π with
  | bool b | dead | cc l n => rfl
  | cmp op e1 e2 => simp only [reCond, Cond.sat, reExpr_val _ e1 hc.1, reExpr_val _ e2 hc.2]
  | and cs ih =>
    have h := (condSmall_all cs).1 hc
    have := logOperands_sat (T := T) (π := π) false (reConds cs)
    simp only [logHolds, Bool.false_eq_true, if_false] at this
    simp only [reCond, Cond.sat, satAll_iff]
    rw [this, reConds_eq, List.forall_mem_map]
    exact forall₂_congr fun c hx => ih c hx (h c hx) π
  | or cs ih =>
    have h := (condSmall_all cs).1 hc
    have := logOperands_sat (T := T) (π := π) true (reConds cs)
    simp only [logHolds, if_true] at this
    simp only [reCond, Cond.sat, satAny_iff]
    rw [this, reConds_eq]
    simp only [List.mem_map, exists_exists_and_eq_and]
    exact exists_congr fun c => and_congr_right fun hx => ih c hx (h c hx) π
  | EU c d ihc ihd | AU c d ihc ihd | U c d ihc ihd => simp only [reCond, Cond.sat, ihc hc.1, ihd hc.2]
  | not c ih | EX c ih | AX c ih | EF c ih | AF c ih | EG c ih | AG c ih | E c ih | A c ih | X c ih | F c ih
    | G c ih => simp only [reCond, Cond.sat, ih hc]

/-! ### Queries and files -/

/-- What is read back for a query. -/
def reQuery : Query → Query
  | .cond c => .cond (reCond c)
  | .control c => .control (reCond c)
  | .bounds ps mx off => .bounds ps mx off

def QueryFits (nn : Nat) : Query → Prop
  | .cond c => CondFits nn c
  | .control c => CondFits nn c
  | .bounds ps mx off => ps.length < 2 ^ 32 ∧ mx < 2 ^ 64 ∧ off < 2 ^ 64 ∧ ∀ x ∈ ps, x.1 < nn ∧ x.2 < 2 ^ 64

/-- The first two numbers of a formula. -/
theorem printCond_head (c : Cond) : ∃ p q r, printCond c = hd p q ++ r ∧ p < 2 ^ 32 ∧ q < 2 ^ 32 ∧
    ¬ (p = pError ∧ q = qUPPERBOUNDS) ∧ p ≠ pControl := by
  cases c <;> simp only [printCond, List.append_assoc]
  case dead => exact ⟨_, _, [], (List.append_nil _).symm, by decide, by decide, by decide, by decide⟩
  all_goals exact ⟨_, _, _, rfl, by decide, by decide, by decide, by decide⟩

theorem readBound_ok {nn : Nat} (hn : nn ≤ 2 ^ 32) {x : Nat × Nat} (h : x.1 < nn ∧ x.2 < 2 ^ 64) (r : Bytes) :
    readBound nn ((u32 x.1 ++ bytesOf 8 x.2) ++ r) = some (x, r) := by
  simp only [readBound, List.append_assoc, readPlace_u32 h.1 hn,
    readNat_bytesOf 8 x.2 (by have := h.2; omega)]

theorem parseQuery_ok {nn : Nat} (hn : nn ≤ 2 ^ 32) (q : Query) (hq : QueryFits nn q) (r : Bytes) :
    parseQuery nn (printQuery q ++ r) = some (reQuery q, r) := by
  cases q with
  | cond c =>
    obtain ⟨p, q, s, h, hp, hq', h1, h2⟩ := printCond_head c
    have hc := parseCond_ok hn c hq (printCond c ++ r).length (by simp) r
    simp only [printQuery, parseQuery]
    rw [h, hd]
    simp only [List.append_assoc, readNat_u32 hp, readNat_u32 hq', if_neg h1, if_neg h2]
    rw [h, hd] at hc
    simp only [List.append_assoc] at hc
    rw [hc]; rfl
  | control c =>
    have hc := parseCond_ok hn c hq (printCond c ++ r).length (by simp) r
    simp only [printQuery, parseQuery, hd, List.append_assoc]
    rw [readNat_u32 (by decide)]
    simp only []
    rw [readNat_u32 (by decide)]
    simp only [show ¬ (pControl = pError ∧ qBControl = qUPPERBOUNDS) by decide, if_false, if_true, hc, reQuery]
  | bounds ps mx off =>
    obtain ⟨h1, h2, h3, h4⟩ := hq
    have hm := many_flatMap (readBound nn) (fun x : Nat × Nat => u32 x.1 ++ bytesOf 8 x.2) id ps
      (fun x hx r => readBound_ok hn (h4 x hx) r) r
    rw [List.map_id] at hm
    simp only [printQuery, parseQuery, hd, List.append_assoc]
    rw [readNat_u32 (by decide)]
    simp only []
    rw [readNat_u32 (by decide)]
    simp only [and_self, if_true, readBounds, readNat_u32 h1, readNat_bytesOf 8 mx (by omega),
      readNat_bytesOf 8 off (by omega), hm, reQuery]

theorem table_length (nn : Nat) (l : List (Nat × Bytes)) : (table nn l).length = nn := by
  unfold table
  have : ∀ t : List Bytes, (l.foldl (fun t n => t.set n.1 n.2) t).length = t.length := by
    induction l with
    | nil => intro t; rfl
    | cons x l ih => intro t; rw [List.foldl_cons, ih, List.length_set]
  rw [this, List.length_replicate]

theorem table_get {nn : Nat} {l : List (Nat × Bytes)} (hd : (l.map Prod.fst).Nodup) {x : Nat × Bytes}
    (hx : x ∈ l) (hn : x.1 < nn) : (table nn l)[x.1]? = some x.2 := by
  unfold table
  have : ∀ t : List Bytes, t.length = nn → (l.foldl (fun t n => t.set n.1 n.2) t)[x.1]? = some x.2 := by
    induction l with
    | nil => simp at hx
    | cons y l ih =>
      intro t ht
      simp only [List.map_cons, List.nodup_cons] at hd
      rw [List.foldl_cons]
      rcases List.mem_cons.1 hx with rfl | hx
      · have keep : ∀ (l' : List (Nat × Bytes)) (t : List Bytes), x.1 ∉ l'.map Prod.fst →
            (l'.foldl (fun t n => t.set n.1 n.2) t)[x.1]? = t[x.1]? := by
          intro l'
          induction l' with
          | nil => intro t _; rfl
          | cons z l' ih' =>
            intro t h
            simp only [List.map_cons, List.mem_cons, not_or] at h
            rw [List.foldl_cons, ih' _ h.2, List.getElem?_set_ne (Ne.symm h.1)]
        rw [keep _ _ hd.1, List.getElem?_set_self (by omega)]
      · exact ih hd.2 hx _ (by rw [List.length_set, ht])
  exact this _ List.length_replicate

end Binary
end Verif
