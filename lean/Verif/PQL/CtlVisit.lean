import Verif.PQL.CtlLemmas

/-!
# Which formulas the CTL check accepts
-/

namespace Verif
namespace PQL
namespace Ctl

/-- Formulas in which no conjunction or disjunction is empty, and the second operands of `EU` and `AU` are CTL
formulas. -/
def plain : Cond → Bool
  | .bool _ | .dead | .cmp _ _ _ | .cc _ _ => true
  | .not c => plain c
  | .and cs => !cs.isEmpty && all cs
  | .or cs => !cs.isEmpty && all cs
  | .EX c | .AX c | .EF c | .AF c | .EG c | .AG c => plain c
  | .EU c d | .AU c d => plain c && shape d
  | .U c d => plain c && plain d
  | .E c | .A c | .X c | .F c | .G c => plain c
where all : List Cond → Bool
  | [] => true
  | c :: cs => plain c && all cs

theorem plain_all (cs : List Cond) : plain.all cs = true ↔ ∀ c ∈ cs, plain c = true := by
  induction cs with
  | nil => simp [plain.all]
  | cons c cs ih => simp [plain.all, ih]

theorem need_false (t : Ty) (s : St) (h : s.ok = false) : (s.need t).ok = false := by
  unfold St.need; split
  · exact h
  · rfl

theorem visits_false (cs : List Cond) (h : ∀ c ∈ cs, ∀ s : St, s.ok = false → (visit s c).ok = false) (s : St)
    (hs : s.ok = false) : (visits s cs).ok = false := by
  induction cs generalizing s with
  | nil => exact hs
  | cons c cs ih =>
    simp only [visits]
    split
    · exact ih (fun x hx => h x (List.mem_cons_of_mem _ hx)) _ (h c (List.mem_cons_self ..) s hs)
    · rfl

/-- A rejection is final. -/
theorem visit_false (c : Cond) (s : St) (h : s.ok = false) : (visit s c).ok = false := by
  induction c using Cond.ind generalizing s with
  | bool b | dead | cmp op e1 e2 | cc l n => exact h
  | not c ih | EX c ih | AX c ih | EF c ih | AF c ih | EG c ih | AG c ih =>
    simp only [visit]; exact need_false _ _ (ih s h)
  | and cs ih | or cs ih => simp only [visit]; exact visits_false cs ih s h
  | EU c d ihc ihd | AU c d ihc ihd => simp only [visit]; exact need_false _ _ (ihc s h)
  | E c ih | A c ih | X c ih | F c ih | G c ih => simp only [visit]; exact need_false _ _ (ih s h)
  | U c d ihc ihd => simp only [visit]; exact need_false _ _ (ihd _ (need_false _ _ (ihc s h)))

theorem shape_not_pshape (c : Cond) : ¬ (shape c = true ∧ pshape c = true) := by
  cases c <;> simp [shape, pshape]

/-- The three outcomes. -/
structure Out (c : Cond) : Prop where
  state : shape c = true → ∀ s, visit s c = ⟨.boolean, s.ok⟩
  path : pshape c = true → ∀ s, visit s c = ⟨.path, s.ok⟩
  bad : shape c = false → pshape c = false → ∀ s, (visit s c).ok = false

/-- An operand that has to be a state formula. -/
theorem Out.need {c : Cond} (h : Out c) :
    (shape c = true → ∀ s, (visit s c).need .boolean = ⟨.boolean, s.ok⟩) ∧
    (shape c = false → ∀ s, ((visit s c).need .boolean).ok = false) := by
  constructor
  · intro hc s; rw [h.state hc s]; rfl
  · intro hc s
    cases hp : pshape c
    · exact need_false _ _ (h.bad hc hp s)
    · rw [h.path hp s]; rfl

theorem visits_out (cs : List Cond) (h : ∀ c ∈ cs, Out c) (hne : cs ≠ []) :
    (shapes cs = true → ∀ s, visits s cs = ⟨.boolean, s.ok⟩) ∧
    (shapes cs = false → ∀ s, (visits s cs).ok = false) := by
  have key : ∀ (cs : List Cond), (∀ c ∈ cs, Out c) → ∀ s : St, s.ty = .boolean →
      (shapes cs = true → visits s cs = ⟨.boolean, s.ok⟩) ∧ (shapes cs = false → (visits s cs).ok = false) := by
    intro cs
    induction cs with
    | nil => intro _ s hs; exact ⟨fun _ => by cases s; simp only at hs; subst hs; rfl, fun h => by simp [shapes] at h⟩
    | cons c cs ih =>
      intro h s hs
      have hc := h c (List.mem_cons_self ..)
      have hcs := ih fun x hx => h x (List.mem_cons_of_mem _ hx)
      constructor
      · intro hsh
        simp only [shapes, Bool.and_eq_true] at hsh
        simp only [visits, hc.state hsh.1 s, if_true]
        exact (hcs _ rfl).1 hsh.2
      · intro hsh
        cases hs1 : shape c with
        | true =>
          simp only [visits, hc.state hs1 s, if_true]
          exact (hcs _ rfl).2 (by simpa [shapes, hs1] using hsh)
        | false =>
          cases hp : pshape c with
          | true => simp [visits, hc.path hp s]
          | false =>
            simp only [visits]
            split
            · exact visits_false cs (fun x _ => visit_false x) _ (hc.bad hs1 hp s)
            · rfl
  obtain ⟨c, cs, rfl⟩ := List.exists_cons_of_ne_nil hne
  have hc := h c (List.mem_cons_self ..)
  have hcs := key cs fun x hx => h x (List.mem_cons_of_mem _ hx)
  constructor
  · intro hsh s
    simp only [shapes, Bool.and_eq_true] at hsh
    simp only [visits, hc.state hsh.1 s, if_true]
    exact (hcs _ rfl).1 hsh.2
  · intro hsh s
    cases hs1 : shape c with
    | true =>
      simp only [visits, hc.state hs1 s, if_true]
      exact (hcs _ rfl).2 (by simpa [shapes, hs1] using hsh)
    | false =>
      cases hp : pshape c with
      | true => simp [visits, hc.path hp s]
      | false =>
        simp only [visits]
        split
        · exact visits_false cs (fun x _ => visit_false x) _ (hc.bad hs1 hp s)
        · rfl

theorem visit_out (c : Cond) (h : plain c = true) : Out c := by
  induction c using Cond.ind with
  | bool b | dead | cmp op e1 e2 | cc l n =>
    exact ⟨fun _ _ => rfl, fun h => by simp [pshape] at h, fun h => by simp [shape] at h⟩
  | not c ih | EX c ih | AX c ih | EF c ih | AF c ih | EG c ih | AG c ih =>
    have := (ih h).need
    exact ⟨fun hs s => this.1 hs s, fun h => by simp [pshape] at h, fun hs _ s => this.2 hs s⟩
  | and cs ih | or cs ih =>
    simp only [plain, Bool.and_eq_true, Bool.not_eq_true', List.isEmpty_eq_false_iff] at h
    have := visits_out cs (fun c hc => ih c hc ((plain_all cs).1 h.2 c hc)) h.1
    exact ⟨fun hs s => this.1 hs s, fun h => by simp [pshape] at h, fun hs _ s => this.2 hs s⟩
  | EU c d ihc ihd | AU c d ihc ihd =>
    simp only [plain, Bool.and_eq_true] at h
    have := (ihc h.1).need
    refine ⟨fun hs s => ?_, fun h => by simp [pshape] at h, fun hs _ s => ?_⟩
    · simp only [shape, Bool.and_eq_true] at hs
      exact this.1 hs.1 s
    · simp only [shape, h.2, Bool.and_true] at hs
      exact this.2 hs s
  | E c ih | A c ih =>
    have hc := ih h
    refine ⟨fun hs s => ?_, fun h => by simp [pshape] at h, fun hs _ s => ?_⟩
    · simp only [visit, hc.path hs s]; rfl
    · simp only [visit]
      cases hs1 : shape c with
      | true => rw [hc.state hs1 s]; rfl
      | false => exact need_false _ _ (hc.bad hs1 hs s)
  | X c ih | F c ih | G c ih =>
    have := (ih h).need
    refine ⟨fun h => by simp [shape] at h, fun hs s => ?_, fun _ hs s => ?_⟩
    · simp only [visit, this.1 hs s]; rfl
    · exact this.2 hs s
  | U c d ihc ihd =>
    simp only [plain, Bool.and_eq_true] at h
    have h1 := (ihc h.1).need
    have h2 := (ihd h.2).need
    refine ⟨fun h => by simp [shape] at h, fun hs s => ?_, fun _ hs s => ?_⟩
    · simp only [pshape, Bool.and_eq_true] at hs
      simp only [visit, h1.1 hs.1 s, h2.1 hs.2]; rfl
    · simp only [visit]
      show ((visit ((visit s c).need .boolean) d).need .boolean).ok = false
      cases hc : shape c with
      | false => exact need_false _ _ (visit_false d _ (h1.2 hc s))
      | true =>
        cases hd : shape d with
        | false => exact h2.2 hd _
        | true => simp [pshape, hc, hd] at hs

/-- What is accepted, whatever the uninitialised type is. -/
theorem isCTL_iff (t : Ty) (c : Cond) (h : plain c = true) :
    isCTL t c = true ↔ shape c = true ∨ pshape c = true := by
  have ho := visit_out c h
  unfold isCTL
  cases hs : shape c with
  | true => simp [ho.state hs]
  | false =>
    cases hp : pshape c with
    | true => simp [ho.path hp]
    | false => simp [ho.bad hs hp]

end Ctl
end PQL
end Verif
