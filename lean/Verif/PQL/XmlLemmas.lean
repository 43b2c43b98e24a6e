import Verif.PQL.Xml
import Verif.PQL.BinaryLemmas

/-!
# Lemmas about the XML query format
-/

namespace Verif
namespace Xml
open PQL

/-! ### Numbers -/

theorem digitChar_toNat {d : Nat} (h : d < 10) : (digitChar d).toNat = 48 + d := by
  have : d = 0 ∨ d = 1 ∨ d = 2 ∨ d = 3 ∨ d = 4 ∨ d = 5 ∨ d = 6 ∨ d = 7 ∨ d = 8 ∨ d = 9 := by omega
  rcases this with rfl | rfl | rfl | rfl | rfl | rfl | rfl | rfl | rfl | rfl <;> rfl

theorem digitVal_digitChar {d : Nat} (h : d < 10) : digitVal (digitChar d) = some d := by
  rw [digitVal, digitChar_toNat h, if_pos (by omega)]
  congr 1; omega

/-- Reading digits and going on. -/
theorem scanDigits_append (f n : Nat) (h : n < f) (acc : Nat) (seen : Bool) (r : Txt) :
    ∃ k, scanDigits acc seen (decDigits f n ++ r) = scanDigits (acc * 10 ^ k + n) true r := by
  induction f generalizing n r with
  | zero => omega
  | succ f ih =>
    unfold decDigits
    by_cases hn : n < 10
    · rw [if_pos hn]
      refine ⟨1, ?_⟩
      simp only [List.cons_append, List.nil_append, scanDigits, digitVal_digitChar hn]
      congr 1; omega
    · rw [if_neg hn]
      obtain ⟨k, hk⟩ := ih (n / 10) (by omega) ([digitChar (n % 10)] ++ r)
      refine ⟨k + 1, ?_⟩
      rw [List.append_assoc, hk]
      simp only [List.cons_append, List.nil_append, scanDigits, digitVal_digitChar (show n % 10 < 10 by omega)]
      congr 1
      rw [Nat.pow_succ]
      have h1 : 10 * (acc * 10 ^ k + n / 10) = acc * (10 ^ k * 10) + 10 * (n / 10) := by
        rw [Nat.mul_add, ← Nat.mul_assoc acc, Nat.mul_comm 10 (acc * 10 ^ k)]
      omega

theorem scanDigits_show (n : Nat) : scanDigits 0 false (showNat n) = (n, true) := by
  obtain ⟨k, hk⟩ := scanDigits_append (n + 1) n (by omega) 0 false []
  rw [List.append_nil] at hk
  rw [showNat, hk]
  simp [scanDigits]

theorem decDigits_head (f n : Nat) (h : n < f) : ∃ d cs, d < 10 ∧ decDigits f n = digitChar d :: cs := by
  induction f generalizing n with
  | zero => omega
  | succ f ih =>
    unfold decDigits
    by_cases hn : n < 10
    · rw [if_pos hn]; exact ⟨n, [], hn, rfl⟩
    · rw [if_neg hn]
      obtain ⟨d, cs, hd, hc⟩ := ih (n / 10) (by omega)
      exact ⟨d, cs ++ [digitChar (n % 10)], hd, by rw [hc]; rfl⟩

theorem showNat_head (n : Nat) : ∃ d cs, d < 10 ∧ showNat n = digitChar d :: cs := decDigits_head _ _ (by omega)

theorem digitChar_plain {d : Nat} (h : d < 10) :
    isSpace (digitChar d) = false ∧ digitChar d ≠ '-' ∧ digitChar d ≠ '+' := by
  have : d = 0 ∨ d = 1 ∨ d = 2 ∨ d = 3 ∨ d = 4 ∨ d = 5 ∨ d = 6 ∨ d = 7 ∨ d = 8 ∨ d = 9 := by omega
  rcases this with rfl | rfl | rfl | rfl | rfl | rfl | rfl | rfl | rfl | rfl <;> decide

theorem scanSigned_show (neg : Bool) (n : Nat) :
    scanSigned neg (showNat n) = if IsInt (if neg then - (n : Int) else n) then
      .ok (if neg then - (n : Int) else n) else .error .undef := by
  rw [scanSigned, scanDigits_show]

theorem scanInt_showNat (n : Nat) :
    scanInt (showNat n) = if IsInt (n : Int) then .ok (n : Int) else .error .undef := by
  obtain ⟨d, cs, hd, hc⟩ := showNat_head n
  obtain ⟨h1, h2, h3⟩ := digitChar_plain hd
  have : (showNat n).dropWhile isSpace = showNat n := by rw [hc, List.dropWhile_cons_of_neg (by simp [h1])]
  rw [scanInt, this, hc]
  simp only [h2, h3, if_false]
  rw [← hc, scanSigned_show]
  simp

theorem scanInt_showInt (v : Int) : scanInt (showInt v) = if IsInt v then .ok v else .error .undef := by
  rw [showInt]
  by_cases h : v < 0
  · rw [if_pos h]
    have h1 : (-(v.natAbs : Int)) = v := by omega
    have : scanInt ('-' :: showNat v.natAbs) = scanSigned true (showNat v.natAbs) := rfl
    rw [this, scanSigned_show]
    simp only [if_true, h1]
  · rw [if_neg h, scanInt_showNat]
    have h1 : ((v.natAbs : Nat) : Int) = v := by omega
    rw [h1]

theorem showNat_ne (n : Nat) : showNat n ≠ [] := by
  obtain ⟨d, cs, -, hc⟩ := showNat_head n
  rw [hc]; exact List.cons_ne_nil _ _

theorem showInt_ne (v : Int) : showInt v ≠ [] := by
  unfold showInt
  split
  · exact List.cons_ne_nil _ _
  · exact showNat_ne _

/-! ### Documents -/

/-- The events are those of the nodes. -/
def Enc (evs : List Ev) (ts : List Node) : Prop :=
  ∀ r st cur, build (evs ++ r) st cur = build r st (ts.reverse ++ cur)

theorem Enc.nil : Enc [] [] := fun _ _ _ => rfl

theorem Enc.append {a b : List Ev} {ts us : List Node} (h : Enc a ts) (h' : Enc b us) : Enc (a ++ b) (ts ++ us) := by
  intro r st cur
  rw [List.append_assoc, h, h', List.reverse_append, List.append_assoc]

theorem Enc.tag {body : List Ev} {ts : List Node} (h : Enc body ts) (n : String) :
    Enc (tag n body) [.elem n ts] := by
  intro r st cur
  have h1 : Xml.tag n body ++ r = .op n :: (body ++ (.cl n :: r)) := by simp [Xml.tag]
  rw [h1, build, h, List.append_nil, build, if_pos rfl, List.reverse_reverse]
  rfl

theorem Enc.text {s : Txt} (h : s ≠ []) : Enc [.tx s] [.text s] := by
  intro r st cur
  simp only [List.cons_append, List.nil_append, build, if_neg h, List.reverse_cons, List.reverse_nil]

theorem Enc.leaf {s : Txt} (h : s ≠ []) (n : String) : Enc (leaf n s) [.elem n [.text s]] :=
  (Enc.text h).tag n

theorem tag_length (n : String) (b : List Ev) : (tag n b).length = b.length + 2 := by simp [tag]

/-! ### Loops -/

theorem mapE_append {α β : Type} {g : α → Except Fail β} {xs xs' : List α} {ys ys' : List β}
    (h : mapE g xs = .ok ys) (h' : mapE g xs' = .ok ys') : mapE g (xs ++ xs') = .ok (ys ++ ys') := by
  induction xs generalizing ys with
  | nil =>
    simp only [mapE] at h
    cases h
    simpa using h'
  | cons x xs ih =>
    simp only [mapE] at h
    cases hx : g x with
    | error e => rw [hx] at h; cases h
    | ok y =>
      rw [hx] at h
      cases hxs : mapE g xs with
      | error e => rw [hxs] at h; cases h
      | ok zs =>
        rw [hxs] at h
        cases h
        simp only [List.cons_append, mapE, hx, ih hxs]

theorem mapE_length {α β : Type} {g : α → Except Fail β} {xs : List α} {ys : List β} (h : mapE g xs = .ok ys) :
    xs.length = ys.length := by
  induction xs generalizing ys with
  | nil => simp only [mapE] at h; cases h; rfl
  | cons x xs ih =>
    simp only [mapE] at h
    cases hx : g x with
    | error e => rw [hx] at h; cases h
    | ok y =>
      rw [hx] at h
      cases hxs : mapE g xs with
      | error e => rw [hxs] at h; cases h
      | ok zs =>
        rw [hxs] at h
        cases h
        simp [ih hxs]

theorem mapE_map {α β γ : Type} {g : α → Except Fail β} (k : γ → α) (y : γ → β) (xs : List γ)
    (h : ∀ x ∈ xs, g (k x) = .ok (y x)) : mapE g (xs.map k) = .ok (xs.map y) := by
  induction xs with
  | nil => rfl
  | cons x xs ih =>
    simp only [List.map_cons, mapE, h x (List.mem_cons_self ..), ih fun z hz => h z (List.mem_cons_of_mem _ hz)]

theorem mapE_congr {α β : Type} {g g' : α → Except Fail β} {xs : List α} {ys : List β} (h : mapE g xs = .ok ys)
    (hg : ∀ x y, g x = .ok y → g' x = .ok y) : mapE g' xs = .ok ys := by
  induction xs generalizing ys with
  | nil => exact h
  | cons x xs ih =>
    simp only [mapE] at h
    cases hx : g x with
    | error e => rw [hx] at h; cases h
    | ok y =>
      rw [hx] at h
      cases hxs : mapE g xs with
      | error e => rw [hxs] at h; cases h
      | ok zs =>
        rw [hxs] at h
        cases h
        simp only [mapE, hg x y hx, ih hxs]

/-! ### Expressions -/

/-- The names of the `nn` places: not empty, without white space, and known to the environment. -/
structure Names (nn : Nat) (nm : Nat → Txt) (env : Env) : Prop where
  ne : ∀ p, p < nn → nm p ≠ []
  plain : ∀ p, p < nn → ∀ c ∈ nm p, isSpace c = false
  known : ∀ p, p < nn → env.place (nm p) = p

/-- A sum or product of what was read. -/
def reComm (mul : Bool) : List Expr → Expr
  | [] => .lit (if mul then 1 else 0)
  | [e] => e
  | es => if mul then mkMul es else mkPlus es

def reTokens : List Nat → Expr
  | [p] => .id p
  | ps => mkPlus (ps.map .id)

/-- What is read back for an expression. -/
def reE : Expr → Expr
  | .lit v => .lit v
  | .id p => .id p
  | .plus k ids es =>
    reComm false ((if k ≠ 0 then [.lit k] else []) ++ (if ids.isEmpty then [] else [reTokens ids]) ++ reEs es)
  | .mul k ids es => reComm true ((if k ≠ 1 then [.lit k] else []) ++ ids.map .id ++ reEs es)
  | .sub e es => .sub (reE e) (reEs es)
  | .minus e => .sub (.lit 0) [reE e]
where reEs : List Expr → List Expr
  | [] => []
  | e :: es => reE e :: reEs es

theorem reEs_eq (es : List Expr) : reE.reEs es = es.map reE := by
  induction es with
  | nil => rfl
  | cons e es ih => simp [reE.reEs, ih]

/-- Expressions that can be printed: the constants are 32-bit integers, sums and products are not empty,
differences have two operands. -/
def ExprOk (nn : Nat) : Expr → Prop
  | .lit v => IsInt v
  | .id p => p < nn
  | .plus k ids es => IsInt k ∧ (∀ p ∈ ids, p < nn) ∧ all es ∧ ¬ (k = 0 ∧ ids = [] ∧ es = [])
  | .mul k ids es => IsInt k ∧ (∀ p ∈ ids, p < nn) ∧ all es ∧ ¬ (k = 1 ∧ ids = [] ∧ es = [])
  | .sub e es => ExprOk nn e ∧ all es ∧ es ≠ []
  | .minus e => ExprOk nn e
where all : List Expr → Prop
  | [] => True
  | e :: es => ExprOk nn e ∧ all es

theorem exprOk_all (nn : Nat) (es : List Expr) : ExprOk.all nn es ↔ ∀ e ∈ es, ExprOk nn e := by
  induction es with
  | nil => simp [ExprOk.all]
  | cons e es ih => simp [ExprOk.all, ih]

section
variable {nn : Nat} {nm : Nat → Txt} {env : Env}

/-- The events are one node, which is parsed as `e`. -/
def PE (env : Env) (evs : List Ev) (t : Node) (e : Expr) : Prop :=
  Enc evs [t] ∧ ∀ f, evs.length ≤ f → parseExpr env f t = .ok e

/-- The events are nodes which are parsed as `es`. -/
def PEs (env : Env) (evs : List Ev) (ts : List Node) (es : List Expr) : Prop :=
  Enc evs ts ∧ ∀ f, evs.length ≤ f → mapE (parseExpr env f) ts = .ok es

theorem PEs.nil : PEs env [] [] [] := ⟨Enc.nil, fun _ _ => rfl⟩

theorem PEs.append {a b : List Ev} {ts us : List Node} {es ds : List Expr} (h : PEs env a ts es)
    (h' : PEs env b us ds) : PEs env (a ++ b) (ts ++ us) (es ++ ds) :=
  ⟨h.1.append h'.1, fun f hf => by
    rw [List.length_append] at hf
    exact mapE_append (h.2 f (by omega)) (h'.2 f (by omega))⟩

theorem PE.single {a : List Ev} {t : Node} {e : Expr} (h : PE env a t e) : PEs env a [t] [e] :=
  ⟨h.1, fun f hf => by simp only [mapE, h.2 f hf]⟩

theorem PEs.one {a : List Ev} {ts : List Node} {e : Expr} (h : PEs env a ts [e]) : ∃ t, PE env a t e := by
  have hl := mapE_length (h.2 _ (Nat.le_refl _))
  obtain ⟨t, rfl⟩ : ∃ t, ts = [t] := List.length_eq_one_iff.1 hl
  refine ⟨t, h.1, fun f hf => ?_⟩
  have := h.2 f hf
  simp only [mapE] at this
  cases hx : parseExpr env f t with
  | error e => rw [hx] at this; cases this
  | ok y => rw [hx] at this; cases this; rfl

theorem PE.const {v : Int} (h : IsInt v) :
    PE env (printConst v) (.elem "integer-constant" [.text (showInt v)]) (.lit v) := by
  refine ⟨Enc.leaf (showInt_ne v) _, fun f hf => ?_⟩
  obtain ⟨f, rfl⟩ : ∃ g, f = g + 1 := ⟨f - 1, by simp [printConst, leaf] at hf; omega⟩
  simp only [parseExpr, if_true, value, scanInt_showInt, if_pos h]
  rfl

theorem PE.constNat {v : Nat} (h : IsInt (v : Int)) :
    PE env (leaf "integer-constant" (showNat v)) (.elem "integer-constant" [.text (showNat v)]) (.lit v) := by
  refine ⟨Enc.leaf (showNat_ne v) _, fun f hf => ?_⟩
  obtain ⟨f, rfl⟩ : ∃ g, f = g + 1 := ⟨f - 1, by simp [leaf] at hf; omega⟩
  simp only [parseExpr, if_true, value, scanInt_showNat, if_pos h]
  rfl

theorem parsePlace_ok (hN : Names nn nm env) {p : Nat} (hp : p < nn) :
    parsePlace env (.elem "place" [.text (nm p)]) = .ok p := by
  have : ((nm p).filter fun c => !isSpace c) = nm p := List.filter_eq_self.2 fun c hc => by simp [hN.plain p hp c hc]
  simp only [parsePlace, if_true, value, this, if_neg (hN.ne p hp), hN.known p hp]

theorem places_enc (hN : Names nn nm env) (ids : List Nat) (h : ∀ p ∈ ids, p < nn) :
    Enc (ids.flatMap (place nm)) (ids.map fun p => .elem "place" [.text (nm p)]) ∧
      mapE (parsePlace env) (ids.map fun p => .elem "place" [.text (nm p)]) = .ok ids := by
  constructor
  · induction ids with
    | nil => exact Enc.nil
    | cons p ids ih =>
      exact (Enc.leaf (hN.ne p (h p (List.mem_cons_self ..))) _).append
        (ih fun q hq => h q (List.mem_cons_of_mem _ hq))
  · have := mapE_map (g := parsePlace env) (fun p => Node.elem "place" [.text (nm p)]) id ids
      (fun p hp => parsePlace_ok hN (h p hp))
    rwa [List.map_id] at this

theorem mkTokens_ok {ids : List Nat} (h : ids ≠ []) : mkTokens ids = .ok (reTokens ids) := by
  match ids, h with
  | [p], _ => rfl
  | _ :: _ :: _, _ => rfl

theorem PE.tokens (hN : Names nn nm env) {ids : List Nat} (h : ∀ p ∈ ids, p < nn) (hne : ids ≠ []) :
    PE env (tag "tokens-count" (ids.flatMap (place nm)))
      (.elem "tokens-count" (ids.map fun p => .elem "place" [.text (nm p)])) (reTokens ids) := by
  obtain ⟨h1, h2⟩ := places_enc hN ids h
  refine ⟨h1.tag _, fun f hf => ?_⟩
  obtain ⟨f, rfl⟩ : ∃ g, f = g + 1 := ⟨f - 1, by rw [tag_length] at hf; omega⟩
  have e1 : ("tokens-count" = "integer-constant") = False := by decide
  simp only [parseExpr, e1, if_false, if_true, h2]
  exact mkTokens_ok hne

theorem PE.id (hN : Names nn nm env) {p : Nat} (h : p < nn) :
    PE env (printId nm p) (.elem "tokens-count" [.elem "place" [.text (nm p)]]) (.id p) := by
  have := PE.tokens hN (ids := [p]) (by simpa using h) (by simp)
  simpa [printId, reTokens] using this

theorem ids_enc (hN : Names nn nm env) (ids : List Nat) (h : ∀ p ∈ ids, p < nn) :
    ∃ ts, PEs env (ids.flatMap (printId nm)) ts (ids.map .id) := by
  induction ids with
  | nil => exact ⟨[], PEs.nil⟩
  | cons p ids ih =>
    obtain ⟨ts, hts⟩ := ih fun q hq => h q (List.mem_cons_of_mem _ hq)
    exact ⟨_, (PE.id hN (h p (List.mem_cons_self ..))).single.append hts⟩

theorem mkComm_ok (mul : Bool) {es : List Expr} (h : 2 ≤ es.length) : mkComm mul es = .ok (reComm mul es) := by
  match es, h with
  | _ :: _ :: _, _ => rfl

theorem PEs.comm {evs : List Ev} {ts : List Node} {es : List Expr} (h : PEs env evs ts es) (h2 : 2 ≤ es.length)
    (mul : Bool) :
    PE env (tag (if mul then "integer-product" else "integer-sum") evs)
      (.elem (if mul then "integer-product" else "integer-sum") ts) (reComm mul es) := by
  refine ⟨h.1.tag _, fun f hf => ?_⟩
  rw [tag_length] at hf
  obtain ⟨f, rfl⟩ : ∃ g, f = g + 1 := ⟨f - 1, by omega⟩
  have hh := h.2 f (by omega)
  cases mul
  · have e1 : ("integer-sum" = "integer-constant") = False := by decide
    have e2 : ("integer-sum" = "tokens-count") = False := by decide
    simp only [parseExpr, Bool.false_eq_true, if_false, e1, e2, if_true, hh]
    exact mkComm_ok _ h2
  · have e1 : ("integer-product" = "integer-constant") = False := by decide
    have e2 : ("integer-product" = "tokens-count") = False := by decide
    have e3 : ("integer-product" = "integer-sum") = False := by decide
    simp only [parseExpr, if_false, e1, e2, e3, if_true, hh]
    exact mkComm_ok _ h2

theorem PEs.diff {evs : List Ev} {ts : List Node} {e d : Expr} {es : List Expr} (h : PEs env evs ts (e :: d :: es)) :
    PE env (tag "integer-difference" evs) (.elem "integer-difference" ts) (.sub e (d :: es)) := by
  refine ⟨h.1.tag _, fun f hf => ?_⟩
  rw [tag_length] at hf
  obtain ⟨f, rfl⟩ : ∃ g, f = g + 1 := ⟨f - 1, by omega⟩
  have hh := mapE_congr (g' := fun k => unchecked (parseExpr env f k)) (h.2 f (by omega)) (fun x y hx => by
    rw [hx]; rfl)
  have e1 : ("integer-difference" = "integer-constant") = False := by decide
  have e2 : ("integer-difference" = "tokens-count") = False := by decide
  have e3 : ("integer-difference" = "integer-sum") = False := by decide
  have e4 : ("integer-difference" = "integer-product") = False := by decide
  simp only [parseExpr, if_false, e1, e2, e3, e4, if_true, hh]
  rfl

theorem exprs_enc (es : List Expr) (h : ∀ e ∈ es, ∃ t, PE env (printExpr nm e) t (reE e)) :
    ∃ ts, PEs env (printExprs nm es) ts (es.map reE) := by
  induction es with
  | nil => exact ⟨[], PEs.nil⟩
  | cons e es ih =>
    obtain ⟨ts, hts⟩ := ih fun q hq => h q (List.mem_cons_of_mem _ hq)
    obtain ⟨t, ht⟩ := h e (List.mem_cons_self ..)
    exact ⟨_, ht.single.append hts⟩

/-- A printed expression is read back. -/
theorem printExpr_ok (hN : Names nn nm env) (e : Expr) (he : ExprOk nn e) :
    ∃ t, PE env (printExpr nm e) t (reE e) := by
  induction e using Expr.ind with
  | lit v => exact ⟨_, PE.const he⟩
  | id p => exact ⟨_, PE.id hN he⟩
  | minus e ih =>
    obtain ⟨t, ht⟩ := ih he
    have h0 : PE env (leaf "integer-constant" ['0']) _ (.lit 0) :=
      PE.const (v := 0) (by decide)
    exact ⟨_, (h0.single.append ht.single).diff⟩
  | sub e es ih ihs =>
    obtain ⟨h1, h2, h3⟩ := he
    obtain ⟨t, ht⟩ := ih h1
    obtain ⟨ts, hts⟩ := exprs_enc (nm := nm) (env := env) es fun x hx => ihs x hx ((exprOk_all nn es).1 h2 x hx)
    have := ht.single.append hts
    obtain ⟨d, ds, rfl⟩ := List.exists_cons_of_ne_nil h3
    simp only [printExpr, reE, reEs_eq]
    exact ⟨_, PEs.diff (by simpa using this)⟩
  | plus k ids es ih =>
    obtain ⟨h1, h2, h3, h4⟩ := he
    obtain ⟨ts, hts⟩ := exprs_enc (nm := nm) (env := env) es fun x hx => ih x hx ((exprOk_all nn es).1 h3 x hx)
    have hk : ∃ ts, PEs env (if k ≠ 0 then printConst k else []) ts (if k ≠ 0 then [.lit k] else []) := by
      by_cases hk : k ≠ 0
      · simp only [if_pos hk]; exact ⟨_, (PE.const h1).single⟩
      · simp only [if_neg hk]; exact ⟨[], PEs.nil⟩
    have hi : ∃ ts, PEs env (if ids.isEmpty then [] else tag "tokens-count" (ids.flatMap (place nm))) ts
        (if ids.isEmpty then [] else [reTokens ids]) := by
      by_cases hi : ids = []
      · subst hi; exact ⟨[], PEs.nil⟩
      · have : ids.isEmpty = false := by simpa using hi
        simp only [this, Bool.false_eq_true, if_false]
        exact ⟨_, (PE.tokens hN h2 hi).single⟩
    obtain ⟨tk, hk⟩ := hk
    obtain ⟨ti, hi⟩ := hi
    have hall := (hk.append hi).append hts
    simp only [printExpr, reE, reEs_eq]
    have hlen : ((if k ≠ 0 then [Expr.lit k] else []) ++ (if ids.isEmpty then [] else [reTokens ids]) ++
        es.map reE).length = es.length + (if ids.isEmpty then 0 else 1) + (if k ≠ 0 then 1 else 0) := by
      simp only [List.length_append, List.length_map]
      split <;> split <;> simp <;> omega
    by_cases h : 2 ≤ es.length + (if ids.isEmpty then 0 else 1) + (if k ≠ 0 then 1 else 0)
    · rw [if_pos h]
      exact ⟨_, hall.comm (by rw [hlen]; exact h) false⟩
    · rw [if_neg h]
      have : ((if k ≠ 0 then [Expr.lit k] else []) ++ (if ids.isEmpty then [] else [reTokens ids]) ++
          es.map reE).length = 1 := by
        have h0 : 0 < ((if k ≠ 0 then [Expr.lit k] else []) ++ (if ids.isEmpty then [] else [reTokens ids]) ++
            es.map reE).length := by
          rw [hlen]
          by_contra hc
          refine h4 ⟨?_, ?_, ?_⟩
          · by_contra hk; simp [hk] at hc
          · by_contra hi; simp [hi] at hc
          · by_contra hi; have := List.length_pos_of_ne_nil hi; omega
        rw [hlen] at h0 ⊢
        omega
      obtain ⟨x, hx⟩ := List.length_eq_one_iff.1 this
      rw [hx] at hall ⊢
      exact hall.one
  | mul k ids es ih =>
    obtain ⟨h1, h2, h3, h4⟩ := he
    obtain ⟨ts, hts⟩ := exprs_enc (nm := nm) (env := env) es fun x hx => ih x hx ((exprOk_all nn es).1 h3 x hx)
    have hk : ∃ ts, PEs env (if k ≠ 1 then printConst k else []) ts (if k ≠ 1 then [.lit k] else []) := by
      by_cases hk : k ≠ 1
      · simp only [if_pos hk]; exact ⟨_, (PE.const h1).single⟩
      · simp only [if_neg hk]; exact ⟨[], PEs.nil⟩
    obtain ⟨tk, hk⟩ := hk
    obtain ⟨ti, hi⟩ := ids_enc hN ids h2
    have hall := (hk.append hi).append hts
    simp only [printExpr, reE, reEs_eq]
    have hlen : ((if k ≠ 1 then [Expr.lit k] else []) ++ ids.map Expr.id ++ es.map reE).length =
        (if k ≠ 1 then 1 else 0) + es.length + ids.length := by
      simp only [List.length_append, List.length_map]
      split <;> simp <;> omega
    by_cases h : 2 ≤ (if k ≠ 1 then 1 else 0) + es.length + ids.length
    · rw [if_pos h]
      exact ⟨_, hall.comm (by rw [hlen]; exact h) true⟩
    · rw [if_neg h]
      have : ((if k ≠ 1 then [Expr.lit k] else []) ++ ids.map Expr.id ++ es.map reE).length = 1 := by
        have h0 : 0 < ((if k ≠ 1 then [Expr.lit k] else []) ++ ids.map Expr.id ++ es.map reE).length := by
          rw [hlen]
          by_contra hc
          refine h4 ⟨?_, ?_, ?_⟩
          · by_contra hk; simp [hk] at hc
          · by_contra hi; have := List.length_pos_of_ne_nil hi; omega
          · by_contra hi; have := List.length_pos_of_ne_nil hi; omega
        rw [hlen] at h0 ⊢
        omega
      obtain ⟨x, hx⟩ := List.length_eq_one_iff.1 this
      rw [hx] at hall ⊢
      exact hall.one

theorem reComm_val (m : Mark) (es : List Expr) :
    (reComm false es).val m = (es.map (Expr.val m)).sum ∧ (reComm true es).val m = (es.map (Expr.val m)).prod := by
  match es with
  | [] => simp [reComm, Expr.val]
  | [e] => simp [reComm]
  | e :: d :: es =>
    constructor
    · simp only [reComm, Bool.false_eq_true, if_false, mkPlus_val]
    · simp only [reComm, if_true, mkMul_val]

theorem reTokens_val (m : Mark) (ids : List Nat) :
    (reTokens ids).val m = (ids.map fun p => (m p : Int)).sum := by
  have hc : (Expr.val m ∘ Expr.id) = fun p => (m p : Int) := by funext p; simp [Expr.val]
  match ids with
  | [] => simp [reTokens, mkPlus_val]
  | [p] => simp [reTokens, Expr.val]
  | p :: q :: ids => simp only [reTokens, mkPlus_val, List.map_map, hc]

/-- What is read back has the same value. -/
theorem reE_val (m : Mark) (e : Expr) : (reE e).val m = e.val m := by
  have hc : (Expr.val m ∘ Expr.id) = fun p => (m p : Int) := by funext p; simp [Expr.val]
  induction e using Expr.ind with
  | lit v | id p => rfl
  | minus e ih => simp [reE, Expr.val, vals, ih]
  | sub e es ih ihs =>
    simp only [reE, Expr.val, vals_eq, reEs_eq, ih, List.map_map]
    rw [List.map_congr_left (f := Expr.val m ∘ reE) (g := Expr.val m) fun x hx => ihs x hx]
  | plus k ids es ih =>
    simp only [reE, reEs_eq, (reComm_val m _).1, Expr.val, vals_eq, List.map_append, List.map_map, List.sum_append]
    rw [List.map_congr_left (f := Expr.val m ∘ reE) (g := Expr.val m) fun x hx => ih x hx]
    have h1 : ((if k ≠ 0 then [Expr.lit k] else []).map (Expr.val m)).sum = k := by
      by_cases hk : k = 0 <;> simp [hk, Expr.val]
    have h2 : ((if ids.isEmpty then [] else [reTokens ids]).map (Expr.val m)).sum =
        (ids.map fun p => (m p : Int)).sum := by
      by_cases hi : ids = []
      · subst hi; simp
      · have : ids.isEmpty = false := by simpa using hi
        simp [this, reTokens_val]
    rw [h1, h2]
  | mul k ids es ih =>
    simp only [reE, reEs_eq, (reComm_val m _).2, Expr.val, vals_eq, List.map_append, List.map_map, List.prod_append, hc]
    rw [List.map_congr_left (f := Expr.val m ∘ reE) (g := Expr.val m) fun x hx => ih x hx]
    have h1 : ((if k ≠ 1 then [Expr.lit k] else []).map (Expr.val m)).prod = k := by
      by_cases hk : k = 1 <;> simp [hk, Expr.val]
    rw [h1]

end

end Xml
end Verif
