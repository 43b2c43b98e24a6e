import Verif.CTL.FixedPointProg

/-!
# Soundness and termination of the main loop
-/

namespace Verif
namespace CTL

set_option linter.unusedSectionVars false
set_option linter.unusedSimpArgs false

variable {κ : Type} [DecidableEq κ]

open St

variable {G : Graph κ} {V : κ → Prop} {lev : κ → Nat} {s : St κ}

theorem popEdge_prog {T : κ → Prop} {pick : List (EId κ) → Nat} {e : EId κ} {s1 : St κ}
    (hp : s.popEdge pick = some (e, s1)) : Prog T s s1 ∧ Listed s e ∧ s1.N = s.N ∧
      s1.W.length + s1.D.length + 1 = s.W.length + s.D.length ∧ s1.conf = s.conf ∧
      (s1.edge e).refcnt = (s.edge e).refcnt - 1 ∧ (s1.edge e).targets = (s.edge e).targets := by
  have key : ∀ (W' D' : List (EId κ)),
      Prog T s (({ s with W := W', D := D' }.deref e).upE e fun r => { r with status := 0 }) := by
    intro W' D'
    refine Prog.trans (s' := { s with W := W', D := D' }) (lists_prog rfl rfl) ?_
    exact (deref_prog e).trans (upE_prog fun h => h)
  unfold St.popEdge at hp
  simp only at hp
  split at hp
  · rename_i e' D' hD
    simp only [Option.some.injEq, Prod.mk.injEq] at hp
    obtain ⟨rfl, rfl⟩ := hp
    refine ⟨key s.W D', .inr (.inr (by rw [hD]; simp)), rfl, ?_, rfl, by simp [St.deref], by simp [St.deref]⟩
    show s.W.length + D'.length + 1 = _
    rw [hD]; simp; omega
  · rename_i hD
    split at hp
    · rename_i e' hW
      simp only [Option.some.injEq, Prod.mk.injEq] at hp
      obtain ⟨rfl, rfl⟩ := hp
      obtain ⟨hi, hie⟩ := List.getElem?_eq_some_iff.1 hW
      refine ⟨key _ s.D, .inl (by rw [← hie]; exact List.getElem_mem hi), rfl, ?_, rfl, by simp [St.deref],
        by simp [St.deref]⟩
      show (s.W.eraseIdx _).length + s.D.length + 1 = _
      rw [List.length_eraseIdx_of_lt hi]; omega
    · cases hp

theorem trivialNegation_prog {T : κ → Prop} : Prog T s s.trivialNegation := lists_prog rfl rfl

theorem releaseNegationEdges_prog {T : κ → Prop} (d : Nat) : Prog T s (s.releaseNegationEdges d) :=
  lists_prog rfl rfl

theorem splitSkip_nil (p : EId κ → Bool) : ∀ l : List (EId κ), (splitSkip p l).1 = [] → ∀ e ∈ l, p e = false
  | [], _ => by simp
  | [e], h => by
    unfold splitSkip at h
    split at h
    · cases h
    · rename_i hp; simpa using hp
  | e :: f :: es, h => by
    unfold splitSkip at h
    split at h
    · cases h
    · rename_i hp
      have ih := splitSkip_nil p (f :: es) h
      intro x hx
      rcases List.mem_cons.1 hx with rfl | hx
      · simpa using hp
      · exact ih x hx

theorem maxDistance_attained (s : St κ) (hne : s.N ≠ []) :
    ∃ e ∈ s.N, (decide ((s.conf e.1).dist ≥ s.maxDistance) || s.isDone e.1) = true := by
  have key : ∀ (l : List (EId κ)) (m : Nat),
      l.foldl (fun m e => if s.isDone e.1 then m else max m (s.conf e.1).dist) m = m ∨
      ∃ e ∈ l, (s.conf e.1).dist =
        l.foldl (fun m e => if s.isDone e.1 then m else max m (s.conf e.1).dist) m := by
    intro l
    induction l with
    | nil => exact fun m => .inl rfl
    | cons x l ih =>
      intro m
      rw [List.foldl_cons]
      rcases ih (if s.isDone x.1 = true then m else max m (s.conf x.1).dist) with h | ⟨e, h1, h2⟩
      · rw [h]
        split
        · exact .inl rfl
        · by_cases hm : (s.conf x.1).dist ≤ m
          · left; omega
          · right; exact ⟨x, by simp, by omega⟩
      · exact .inr ⟨e, by simp [h1], h2⟩
  rcases key s.N 0 with h | ⟨e, h1, h2⟩
  · obtain ⟨e, he⟩ := List.exists_mem_of_ne_nil _ hne
    refine ⟨e, he, ?_⟩
    have : s.maxDistance = 0 := h
    simp [this]
  · refine ⟨e, h1, ?_⟩
    have : s.maxDistance = (s.conf e.1).dist := h2.symm
    simp [this]

/-! ### One round -/

/-- The invariant of the main loop. -/
structure LoopInv (G : Graph κ) (V : κ → Prop) (lev : κ → Nat) (root : κ) (s : St κ) : Prop where
  inv : Inv G V lev [] [] [] s
  root : s.asg root ≠ .unknown

theorem LoopInv.step (hl : G.Layered lev) (hV : G.Solution V) (addr : EId κ → Nat)
    {pick : List (EId κ) → Nat} {root : κ} {cnt : Nat} (h : LoopInv G V lev root s) :
    match s.step G addr pick root cnt with
    | .answer b => b = true ↔ V root
    | .cont s' _ => LoopInv G V lev root s' := by
  unfold St.step
  cases hp : s.popEdge pick with
  | some r =>
    obtain ⟨e, s1⟩ := r
    simp only
    have h1 := h.inv.popHandle hl hV addr hp
    obtain ⟨p1, p2, _, _, p5, p6, p7⟩ := popEdge_prog (T := fun _ => True) hp
    have hpos := total_pos_of_listed (G := G) (H := []) p2
    have hu := (h.inv.range e hpos).1
    have hrc := h.inv.refcnt_pos hpos
    have hr1 := (handleEdge_prog (G := G) addr (s := s1) (e := e) (by simp only [St.asg, p5]; exact hu)
      (by omega)).1.known root (p1.known _ h.root)
    generalize s1.handleEdge G addr e = s2 at *
    have h3 : LoopInv G V lev root (if (cnt + 1) % 1000 = 0 then s2.trivialNegation else s2) := by
      split
      · exact ⟨h1.trivialNegation hl, hr1⟩
      · exact ⟨h1, hr1⟩
    generalize (if (cnt + 1) % 1000 = 0 then s2.trivialNegation else s2) = s3 at *
    by_cases hd : s3.isDone root = true
    · rw [if_pos hd]
      exact h3.inv.answer hl hV h3.root (.inl hd)
    · rw [if_neg hd]; exact h3
  | none =>
    obtain ⟨hW, hD⟩ := popEdge_none hp
    simp only
    by_cases hd : (s.isDone root || s.N.isEmpty) = true
    · rw [if_pos hd]
      refine h.inv.answer hl hV h.root ?_
      rw [Bool.or_eq_true] at hd
      rcases hd with hd | hd
      · exact .inl hd
      · exact .inr ⟨hW, by simpa using hd, hD⟩
    · rw [if_neg hd]
      have h1 := h.inv.trivialNegation hl
      have hW1 : s.trivialNegation.W = [] := hW
      by_cases hD1 : s.trivialNegation.D.isEmpty = true
      · rw [if_pos hD1]
        exact ⟨h1.releaseNegationEdges hl hV hW1 (by simpa using hD1), h.root⟩
      · rw [if_neg hD1]
        exact ⟨h1, h.root⟩

theorem LoopInv.run_sound (hl : G.Layered lev) (hV : G.Solution V) (addr : EId κ → Nat) {root : κ} :
    ∀ (fuel : Nat) (pick : Nat → List (EId κ) → Nat) (s : St κ) (cnt : Nat) (b : Bool),
      LoopInv G V lev root s → s.run G addr root fuel pick cnt = some b → (b = true ↔ V root)
  | 0, _, _, _, _, _, hr => by cases hr
  | fuel + 1, pick, s, cnt, b, h, hr => by
    have hs := h.step hl hV addr (pick := pick 0) (cnt := cnt)
    unfold St.run at hr
    cases hst : s.step G addr (pick 0) root cnt with
    | answer b' =>
      rw [hst] at hs hr
      simp only [Option.some.injEq] at hr
      rw [← hr]; exact hs
    | cont s' cnt' =>
      rw [hst] at hs hr
      exact LoopInv.run_sound hl hV addr fuel _ s' cnt' b hs hr

/-! ### Termination -/

/-- How far a configuration is from being finished. -/
def wt (s : St κ) (c : κ) : Nat := if s.isDone c = true then 0 else if s.asg c = .unknown then 2 else 1

/-- Whether an edge is still to be processed. -/
def mu (s : St κ) (e : EId κ) : Nat :=
  if s.asg e.1 ≠ .unknown ∧ ((s.edge e).processed = true ∨ (s.edge e).refcnt < 0) then 0 else 1

/-- What is left to do among the configurations `R`. -/
def todo (G : Graph κ) (R : List κ) (s : St κ) : Nat :=
  (R.map (wt s)).sum + ((R.flatMap (succIds G)).map (mu s)).sum

def pending (s : St κ) : Nat := 2 * s.N.length + s.W.length + s.D.length

theorem Prog.wt_le {T : κ → Prop} {s s' : St κ} (h : Prog T s s') (c : κ) : wt s' c ≤ wt s c := by
  unfold wt
  by_cases h1 : s.isDone c = true
  · rw [if_pos (h.done c h1)]; exact Nat.zero_le _
  · rw [if_neg h1]
    by_cases h2 : s.asg c = .unknown
    · rw [if_pos h2]; split
      · omega
      · split <;> omega
    · rw [if_neg h2, if_neg (h.known c h2)]; split <;> omega

theorem Prog.mu_le {T : κ → Prop} {s s' : St κ} (h : Prog T s s') (e : EId κ) : mu s' e ≤ mu s e := by
  unfold mu
  by_cases h1 : s.asg e.1 ≠ .unknown ∧ ((s.edge e).processed = true ∨ (s.edge e).refcnt < 0)
  · rw [if_pos h1, if_pos ⟨h.known _ h1.1, h.spent e h1.1 h1.2⟩]; exact Nat.le_refl _
  · rw [if_neg h1]; split <;> omega

theorem sum_le {α : Type} (f g : α → Nat) (h : ∀ x, f x ≤ g x) : ∀ l : List α, (l.map f).sum ≤ (l.map g).sum
  | [] => by simp
  | x :: l => by
    have := h x; have := sum_le f g h l
    simp only [List.map_cons, List.sum_cons]; omega

theorem sum_lt {α : Type} (f g : α → Nat) (h : ∀ x, f x ≤ g x) : ∀ (l : List α) (x : α), x ∈ l → f x < g x →
    (l.map f).sum < (l.map g).sum
  | [], _, hx, _ => by cases hx
  | y :: l, x, hx, hlt => by
    simp only [List.map_cons, List.sum_cons]
    rcases List.mem_cons.1 hx with rfl | hx
    · have := sum_le f g h l; omega
    · have := sum_lt f g h l x hx hlt; have := h y; omega

theorem Prog.todo_le {T : κ → Prop} {s s' : St κ} (h : Prog T s s') (R : List κ) : todo G R s' ≤ todo G R s := by
  unfold todo
  have := sum_le _ _ h.wt_le R
  have := sum_le _ _ h.mu_le (R.flatMap (succIds G))
  omega

theorem Prog.todo_lt {T : κ → Prop} {s s' : St κ} (h : Prog T s s') {R : List κ} {e : EId κ}
    (hs : Strict s s' e) (he : e.1 ∈ R) (hr : inRange G e) (hk : s.asg e.1 ≠ .unknown)
    (ht : ∀ c ∈ (s.edge e).targets, c ∈ R) : todo G R s' < todo G R s := by
  unfold todo
  have h1 := sum_le _ _ h.wt_le R
  have h2 := sum_le _ _ h.mu_le (R.flatMap (succIds G))
  rcases hs with ⟨a, b⟩ | ⟨c, a, b, d⟩ | ⟨a, b⟩
  · have := sum_lt _ _ h.wt_le R e.1 he (by
      unfold wt
      rw [if_pos b, if_neg (by rw [a]; simp)]
      split <;> omega)
    omega
  · have := sum_lt _ _ h.wt_le R c (ht c a) (by
      unfold wt
      rw [if_neg (show ¬ s.isDone c = true by rw [unknown_not_done b]; simp), if_pos b, if_neg d]
      split <;> omega)
    omega
  · have := sum_lt _ _ h.mu_le (R.flatMap (succIds G)) e
      (List.mem_flatMap.2 ⟨e.1, he, mem_succIds.2 ⟨rfl, hr⟩⟩) (by
      unfold mu
      rw [if_pos ⟨h.known _ hk, b⟩, if_neg (fun h' => a h'.2)]
      omega)
    omega

/-- A set of configurations closed under the edges. -/
def Closed (G : Graph κ) (R : List κ) : Prop := ∀ c ∈ R, ∀ x ∈ G.succ c, ∀ t ∈ x.targets, t ∈ R

theorem LoopInv.step_decreases (addr : EId κ → Nat)
    {pick : List (EId κ) → Nat} {root : κ} {cnt : Nat} (h : LoopInv G V lev root s) {R : List κ}
    (hR : Closed G R) (hin : ∀ c, s.asg c ≠ .unknown → c ∈ R) :
    match s.step G addr pick root cnt with
    | .answer _ => True
    | .cont s' _ => (∀ c, s'.asg c ≠ .unknown → c ∈ R) ∧
        (todo G R s' < todo G R s ∨ (todo G R s' ≤ todo G R s ∧ pending s' < pending s)) := by
  unfold St.step
  cases hp : s.popEdge pick with
  | some r =>
    obtain ⟨e, s1⟩ := r
    simp only
    obtain ⟨p1, p2, p3, p4, p5, p6, p7⟩ := popEdge_prog (T := fun _ => False) hp
    have hpos := total_pos_of_listed (G := G) (H := []) p2
    obtain ⟨hu, hr⟩ := h.inv.range e hpos
    have hrc := h.inv.refcnt_pos hpos
    have hu1 : s1.asg e.1 ≠ .unknown := by simp only [St.asg, p5]; exact hu
    obtain ⟨q1, q2⟩ := handleEdge_prog (G := G) addr (s := s1) (e := e) hu1 (by omega)
    have htR : ∀ c ∈ (s1.edge e).targets, c ∈ R := by
      intro c hc
      rw [p7] at hc
      have h1 := (h.inv.tgt e (by omega) hu hr).1 c hc
      obtain ⟨x, hx, hm⟩ := orig_of_range hr
      refine hR e.1 (hin _ hu) x hm c ?_
      simpa only [Graph.origTargets, hx] using h1
    generalize s1.handleEdge G addr e = s2 at *
    have htriv : Prog (· ∈ (s1.edge e).targets) s2 (if (cnt + 1) % 1000 = 0 then s2.trivialNegation else s2) ∧
        pending (if (cnt + 1) % 1000 = 0 then s2.trivialNegation else s2) ≤ pending s2 := by
      split
      · refine ⟨trivialNegation_prog, ?_⟩
        unfold pending St.trivialNegation
        have := (splitSkip_perm s2.decided s2.N).length_eq
        simp only [List.length_append, List.length_reverse] at this ⊢
        omega
      · exact ⟨Prog.refl _, Nat.le_refl _⟩
    obtain ⟨t1, t2⟩ := htriv
    generalize (if (cnt + 1) % 1000 = 0 then s2.trivialNegation else s2) = s3 at *
    by_cases hd : s3.isDone root = true
    · rw [if_pos hd]; trivial
    · rw [if_neg hd]
      have k1 := q1.trans t1
      refine ⟨fun c hc => ?_, ?_⟩
      · rcases k1.new c hc with h1 | h1
        · exact hin c (by simpa only [St.asg, p5] using h1)
        · exact htR c h1
      · have a1 := p1.todo_le (G := G) R
        rcases q2 with q2 | q2
        · right
          refine ⟨Nat.le_trans (k1.todo_le R) a1, Nat.lt_of_le_of_lt t2 ?_⟩
          unfold pending
          rw [q2.W, q2.N, q2.D, p3]
          omega
        · left
          have a2 := q1.todo_lt (G := G) (R := R) q2 (hin _ hu) hr hu1 htR
          have a3 := t1.todo_le (G := G) R
          omega
  | none =>
    obtain ⟨hW, hD⟩ := popEdge_none hp
    simp only
    by_cases hd : (s.isDone root || s.N.isEmpty) = true
    · rw [if_pos hd]; trivial
    · rw [if_neg hd]
      have hlen := (splitSkip_perm s.decided s.N).length_eq
      rw [List.length_append] at hlen
      have hN : s.N ≠ [] := by
        intro h0; rw [h0] at hd; simp at hd
      have b1 : todo G R s.trivialNegation ≤ todo G R s :=
        (trivialNegation_prog (T := fun _ => False)).todo_le R
      by_cases hD1 : s.trivialNegation.D.isEmpty = true
      · rw [if_pos hD1]
        refine ⟨hin, .inr ⟨Nat.le_trans ((releaseNegationEdges_prog (T := fun _ => False) _).todo_le R) b1, ?_⟩⟩
        have hD2 : (splitSkip s.decided s.N).1 = [] := by
          have : s.trivialNegation.D = [] := by simpa using hD1
          unfold St.trivialNegation at this
          simpa [hD] using this
        have hN2 : s.trivialNegation.N ≠ [] := by
          intro h0
          have h0' : (splitSkip s.decided s.N).2 = [] := h0
          rw [h0', hD2] at hlen
          exact hN (List.length_eq_zero_iff.1 hlen.symm)
        have hN3 : s.trivialNegation.N.length = s.N.length := by
          show (splitSkip s.decided s.N).2.length = _
          rw [hD2] at hlen; simpa using hlen
        have hW3 : s.trivialNegation.W = s.W := rfl
        have hD3 : s.trivialNegation.D = s.D := by rw [hD]; simpa using hD1
        have b2 : pending s.trivialNegation = pending s := by
          unfold pending; rw [hN3, hW3, hD3]
        rw [← b2]
        obtain ⟨e, he, hpe⟩ := maxDistance_attained s.trivialNegation hN2
        have hlen2 := (splitSkip_perm (fun e => decide ((s.trivialNegation.conf e.1).dist ≥
          s.trivialNegation.maxDistance) || s.trivialNegation.isDone e.1) s.trivialNegation.N).length_eq
        have hne : (splitSkip (fun e => decide ((s.trivialNegation.conf e.1).dist ≥
          s.trivialNegation.maxDistance) || s.trivialNegation.isDone e.1) s.trivialNegation.N).1 ≠ [] := by
          intro h0
          have := splitSkip_nil _ _ h0 e he
          rw [hpe] at this; cases this
        have hlp := List.length_pos_iff.2 hne
        unfold pending St.releaseNegationEdges
        simp only [List.length_append] at hlen2 ⊢
        omega
      · rw [if_neg hD1]
        refine ⟨hin, .inr ⟨b1, ?_⟩⟩
        have hne : (splitSkip s.decided s.N).1 ≠ [] := by
          intro h0
          apply hD1
          unfold St.trivialNegation
          simp [h0, hD]
        have hlp := List.length_pos_iff.2 hne
        unfold pending St.trivialNegation
        simp only [List.length_append, List.length_reverse]
        omega

theorem LoopInv.run_terminates (hl : G.Layered lev) (hV : G.Solution V) (addr : EId κ → Nat) {root : κ}
    {R : List κ} (hR : Closed G R) : ∀ (m n : Nat) (s : St κ) (pick : Nat → List (EId κ) → Nat) (cnt : Nat),
    LoopInv G V lev root s → (∀ c, s.asg c ≠ .unknown → c ∈ R) → todo G R s ≤ m → pending s ≤ n →
    ∃ fuel b, s.run G addr root fuel pick cnt = some b := by
  intro m
  induction m using Nat.strongRecOn with
  | _ m ihm =>
    intro n
    induction n using Nat.strongRecOn with
    | _ n ihn =>
      intro s pick cnt h hin hm hn
      have h1 := h.step hl hV addr (pick := pick 0) (cnt := cnt)
      have h2 := h.step_decreases addr (pick := pick 0) (cnt := cnt) hR hin
      cases hst : s.step G addr (pick 0) root cnt with
      | answer b =>
        exact ⟨1, b, by unfold St.run; rw [hst]⟩
      | cont s' cnt' =>
        rw [hst] at h1 h2
        have : ∃ fuel b, s'.run G addr root fuel (fun n => pick (n + 1)) cnt' = some b := by
          rcases h2.2 with h3 | ⟨h3, h4⟩
          · exact ihm (todo G R s') (by omega) (pending s') s' _ cnt' h1 h2.1 (Nat.le_refl _) (Nat.le_refl _)
          · by_cases hlt : todo G R s' < m
            · exact ihm (todo G R s') hlt (pending s') s' _ cnt' h1 h2.1 (Nat.le_refl _) (Nat.le_refl _)
            · exact ihn (pending s') (by omega) s' _ cnt' h1 h2.1 (by omega) (Nat.le_refl _)
        obtain ⟨fuel, b, hf⟩ := this
        exact ⟨fuel + 1, b, by unfold St.run; rw [hst]; exact hf⟩

theorem start_known (addr : EId κ → Nat) (root c : κ)
    (hc : (({} : St κ).explore G addr root).asg c ≠ .unknown) : c = root := by
  rcases (explore_prog (G := G) (T := (· = root)) addr (s := ({} : St κ)) (c := root) rfl rfl).1.new c hc with h | h
  · exact absurd rfl h
  · exact h

end CTL
end Verif
