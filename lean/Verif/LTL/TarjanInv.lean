import Verif.LTL.TarjanLemmas
import Verif.LTL.Lasso

/-!
# The invariant of the search based on Tarjan's algorithm
-/

set_option linter.unusedSectionVars false

namespace Verif
namespace LTL
namespace Tarjan
open Relation
variable {V : Type} [DecidableEq V] (G : PGraph V) (E : V → V → Prop)

/-- Positions on the search stack. -/
abbrev St.pos (s : St V) : List Nat := s.ds.map (·.1)

/-- An edge that has been looked at. -/
def Explored (s : St V) (u : Nat) (e : CEntry V) (w : V) : Prop :=
  G.B E e.id w ∧ ∀ rem, (u, rem) ∈ s.ds → w ∉ rem

/-- The entry at a position. -/
abbrev Get (cs : List (CEntry V)) (p : Nat) (e : CEntry V) : Prop := cs[p]? = some e

/-- The invariant; `X` is an edge that has just been taken and not yet been dealt with. -/
structure Inv (I : V → Prop) (X : Option (Nat × V)) (s : St V) : Prop where
  viol : s.viol = false
  chain : ChainOK G s.cs s.chash
  lowLe : ∀ p e, Get s.cs p e → e.low ≤ p ∧ ∃ e', Get s.cs e.low e' ∧ ReflTransGen (G.B E) e.id e'.id
  nodup : ∀ p q e f, Get s.cs p e → Get s.cs q f → e.id = f.id → p = q
  disj : ∀ p e, Get s.cs p e → e.id ∉ s.store
  sorted : s.pos.Pairwise (· > ·)
  posLt : ∀ x ∈ s.pos, x < s.cs.length
  zero : s.ds ≠ [] → 0 ∈ s.pos
  nil : s.ds = [] → s.cs = []
  off : ∀ p e, Get s.cs p e → p ∉ s.pos → e.low < p
  reach : ∀ x y e f, x ∈ s.pos → x ≤ y → Get s.cs x e → Get s.cs y f → ReflTransGen (G.B E) e.id f.id
  asSorted : s.as.Pairwise (· > ·)
  asPos : ∀ a ∈ s.as, a ∈ s.pos
  asAcc : ∀ a ∈ s.as, ∃ e, Get s.cs a e ∧ G.acc e.id = true
  accAs : ∀ p e, Get s.cs p e → G.acc e.id = true → p ∈ s.as
  accLow : ∀ a p e, a ∈ s.as → a ≤ p → Get s.cs p e → a ≤ e.low ∧ (a < p → a < e.low)
  edge : ∀ u e w, Get s.cs u e → Explored G E s u e w → X ≠ some (u, w) →
    w ∈ s.store ∨ ∃ q f, Get s.cs q f ∧ f.id = w ∧ (∀ a ∈ s.as, a ≤ u → a < q) ∧
      ∀ x g, x ∈ s.pos → x ≤ u → (∀ y ∈ s.pos, y ≤ u → y ≤ x) → Get s.cs x g → g.low ≤ q
  remB : ∀ x rem e w, (x, rem) ∈ s.ds → w ∈ rem → Get s.cs x e → E e.id w
  closed : ∀ v w, v ∈ s.store → G.B E v w → w ∈ s.store
  storeAcc : ∀ v ∈ s.store, G.acc v = true → ¬ TransGen (G.B E) v v
  seenOK : ∀ v ∈ s.seen, v ∈ s.store ∨ ∃ p e, Get s.cs p e ∧ e.id = v
  seenOf : (∀ p e, Get s.cs p e → e.id ∈ s.seen) ∧ ∀ v ∈ s.store, v ∈ s.seen
  root : ∀ p e, Get s.cs p e → ∃ i, I i ∧ G.bnd i = true ∧ ReflTransGen (G.B E) i e.id
  initI : ∀ v ∈ s.inits, I v
  initDone : ∀ v, I v → G.bnd v = true → v ∈ s.inits ∨ v ∈ s.seen

variable {G E} {I : V → Prop} {X : Option (Nat × V)} {s : St V}

theorem Inv.get (h : Inv G E I X s) {x : Nat} (hx : x ∈ s.pos) : ∃ e, s.cs[x]? = some e :=
  ⟨_, List.getElem?_eq_getElem (h.posLt x hx)⟩

/-- every entry reaches a state on the search stack below it -/
theorem Inv.down (h : Inv G E I X s) : ∀ (q : Nat) (f : CEntry V), s.cs[q]? = some f →
    ∃ x e, x ∈ s.pos ∧ x ≤ q ∧ s.cs[x]? = some e ∧ ReflTransGen (G.B E) f.id e.id := by
  intro q
  induction q using Nat.strongRecOn with
  | _ q ih =>
    intro f hf
    by_cases hq : q ∈ s.pos
    · exact ⟨q, f, hq, Nat.le_refl _, hf, .refl⟩
    · have hlt := h.off q f hf hq
      obtain ⟨_, e', he', hr⟩ := h.lowLe q f hf
      obtain ⟨x, e, h1, h2, h3, h4⟩ := ih _ hlt e' he'
      exact ⟨x, e, h1, by omega, h3, hr.trans h4⟩

/-- positions on the search stack are at most the top -/
theorem Inv.le_top (h : Inv G E I X s) {p : Nat} {rem : List V} {ds : List (Nat × List V)} (hds : s.ds = (p, rem) :: ds) :
    ∀ x ∈ s.pos, x ≤ p := by
  intro x hx
  have := h.sorted
  simp only [St.pos, hds, List.map_cons, List.pairwise_cons, List.mem_cons] at this hx
  rcases hx with rfl | hx
  · exact Nat.le_refl _
  · exact Nat.le_of_lt (this.1 x hx)

theorem lowOf_get {cs : List (CEntry V)} {p : Nat} {e : CEntry V} (h : cs[p]? = some e) : lowOf cs p = e.low := by
  simp [lowOf, h]

/-- A push keeps the invariant. -/
theorem Inv.pushWeak (h : Inv G E I X s) (hE : G.Edges E) {v : V} (hb : G.bnd v = true)
    (hns : v ∉ s.store) (hnc : ∀ p e, Get s.cs p e → e.id ≠ v)
    (hfrom : (s.ds = [] ∧ I v) ∨ (∃ p rem ds e, s.ds = (p, rem) :: ds ∧ s.cs[p]? = some e ∧ G.B E e.id v))
    (hX : ∀ u w, X = some (u, w) → w = v)
    (hni : (G.acc v && G.inv v) = false) : Inv G E I none (Tarjan.push G { s with seen := v :: s.seen } v) := by
  have hg : ∀ p f, (Tarjan.push G { s with seen := v :: s.seen } v).cs[p]? = some f ↔
      s.cs[p]? = some f ∨ (p = s.cs.length ∧ f = ⟨s.cs.length, v, s.chash (G.hash v)⟩) :=
    fun p f => push_get _ _ _ _
  have hpos : (Tarjan.push G { s with seen := v :: s.seen } v).pos = s.cs.length :: s.pos := rfl
  have hlen : (Tarjan.push G { s with seen := v :: s.seen } v).cs.length = s.cs.length + 1 := by simp [Tarjan.push]
  have has : ∀ a, a ∈ (Tarjan.push G { s with seen := v :: s.seen } v).as ↔ (a = s.cs.length ∧ G.acc v = true) ∨ a ∈ s.as := by
    intro a
    simp only [Tarjan.push]
    cases hav : G.acc v <;> simp
  have hlt : ∀ {p f}, s.cs[p]? = some f → p < s.cs.length := fun hh => lt_of_get hh
  have haslt : ∀ a ∈ s.as, a < s.cs.length := fun a ha => h.posLt a (h.asPos a ha)
  have hnl : s.cs.length ∉ s.pos := fun hx => Nat.lt_irrefl _ (h.posLt _ hx)
  -- the entry of the stack below reaches the new state
  have hr : ∀ x e, x ∈ s.pos → s.cs[x]? = some e → ReflTransGen (G.B E) e.id v := by
    intro x e hx he
    rcases hfrom with ⟨h0, _⟩ | ⟨p, rem, ds, e', hds, hp, hB⟩
    · simp [St.pos, h0] at hx
    · exact (h.reach x p e e' hx (h.le_top hds x hx) he hp).tail hB
  constructor
  · show (s.viol || _) = false
    rw [h.viol, hni]; rfl
  · exact chain_push G h.chain v s.cs.length
  · intro p e he
    rcases (hg p e).1 he with h1 | ⟨rfl, rfl⟩
    · obtain ⟨a, e', b, c⟩ := h.lowLe p e h1
      exact ⟨a, e', (hg _ _).2 (Or.inl b), c⟩
    · exact ⟨Nat.le_refl _, _, he, .refl⟩
  · intro p q e f he hf hid
    rcases (hg p e).1 he with h1 | ⟨rfl, rfl⟩ <;> rcases (hg q f).1 hf with h2 | ⟨rfl, rfl⟩
    · exact h.nodup p q e f h1 h2 hid
    · exact absurd hid (hnc p e h1)
    · exact absurd hid.symm (hnc q f h2)
    · rfl
  · intro p e he
    rcases (hg p e).1 he with h1 | ⟨rfl, rfl⟩
    · exact h.disj p e h1
    · exact hns
  · rw [hpos, List.pairwise_cons]
    exact ⟨fun x hx => h.posLt x hx, h.sorted⟩
  · intro x hx
    rw [hpos, List.mem_cons] at hx
    rw [hlen]
    rcases hx with rfl | hx
    · omega
    · have := h.posLt x hx; omega
  · intro _
    rw [hpos]
    by_cases h0 : s.ds = []
    · rw [h.nil h0]; simp
    · exact List.mem_cons_of_mem _ (h.zero h0)
  · intro h0
    simp [Tarjan.push] at h0
  · intro p e he hp
    rw [hpos, List.mem_cons, not_or] at hp
    rcases (hg p e).1 he with h1 | ⟨rfl, rfl⟩
    · exact h.off p e h1 hp.2
    · exact absurd rfl hp.1
  · intro x y e f hx hxy he hf
    rw [hpos, List.mem_cons] at hx
    rcases (hg y f).1 hf with h2 | ⟨rfl, rfl⟩
    · rcases (hg x e).1 he with h1 | ⟨rfl, rfl⟩
      · rcases hx with rfl | hx
        · exact absurd (hlt h1) (Nat.lt_irrefl _)
        · exact h.reach x y e f hx hxy h1 h2
      · have := hlt h2; omega
    · rcases (hg x e).1 he with h1 | ⟨rfl, rfl⟩
      · rcases hx with rfl | hx
        · exact absurd (hlt h1) (Nat.lt_irrefl _)
        · exact hr x e hx h1
      · exact .refl
  · simp only [Tarjan.push]
    cases hav : G.acc v
    · simpa using h.asSorted
    · simp only [if_true, List.pairwise_cons]
      exact ⟨fun a ha => haslt a ha, h.asSorted⟩
  · intro a ha
    rw [hpos]
    rcases (has a).1 ha with ⟨rfl, _⟩ | ha
    · exact List.mem_cons_self ..
    · exact List.mem_cons_of_mem _ (h.asPos a ha)
  · intro a ha
    rcases (has a).1 ha with ⟨rfl, hv⟩ | ha
    · exact ⟨_, (hg _ _).2 (Or.inr ⟨rfl, rfl⟩), hv⟩
    · obtain ⟨e, h1, h2⟩ := h.asAcc a ha
      exact ⟨e, (hg _ _).2 (Or.inl h1), h2⟩
  · intro p e he hacc
    rcases (hg p e).1 he with h1 | ⟨rfl, rfl⟩
    · exact (has p).2 (Or.inr (h.accAs p e h1 hacc))
    · exact (has _).2 (Or.inl ⟨rfl, hacc⟩)
  · intro a p e ha hap he
    rcases (hg p e).1 he with h1 | ⟨rfl, rfl⟩
    · rcases (has a).1 ha with ⟨rfl, _⟩ | ha
      · have := hlt h1; omega
      · exact h.accLow a p e ha hap h1
    · exact ⟨hap, fun hh => hh⟩
  · intro u e w he hex _
    rcases (hg u e).1 he with h1 | ⟨rfl, rfl⟩
    · have hul := hlt h1
      have hex' : Explored G E s u e w := ⟨hex.1, fun rem hm => hex.2 rem (List.mem_cons_of_mem _ hm)⟩
      by_cases hXe : X = some (u, w)
      · refine Or.inr ⟨_, _, (hg _ _).2 (Or.inr ⟨rfl, rfl⟩), (hX u w hXe).symm, ?_, ?_⟩
        · intro a ha hau
          rcases (has a).1 ha with ⟨rfl, _⟩ | ha
          · omega
          · exact haslt a ha
        · intro x g hx hxu _ hgx
          rcases (hg x g).1 hgx with hgx | ⟨rfl, rfl⟩
          · have := (h.lowLe x g hgx).1; omega
          · exact Nat.le_refl _
      rcases h.edge u e w h1 hex' hXe with hst | ⟨q, f, h2, h3, h4, h5⟩
      · exact Or.inl hst
      · refine Or.inr ⟨q, f, (hg _ _).2 (Or.inl h2), h3, ?_, ?_⟩
        · intro a ha hau
          rcases (has a).1 ha with ⟨rfl, _⟩ | ha
          · omega
          · exact h4 a ha hau
        · intro x g hx hxu hmax hgx
          rw [hpos, List.mem_cons] at hx
          rcases hx with rfl | hx
          · omega
          · rcases (hg x g).1 hgx with hgx | ⟨rfl, _⟩
            · exact h5 x g hx hxu (fun y hy hyu => hmax y (by rw [hpos]; exact List.mem_cons_of_mem _ hy) hyu) hgx
            · omega
    · exact absurd ((hE.succ s.time v w).2 hex.1.1) (hex.2 _ (List.mem_cons_self ..))
  · intro x rem e w hx hw he
    rcases List.mem_cons.1 hx with hx | hx
    · cases hx
      rcases (hg _ e).1 he with h1 | ⟨_, rfl⟩
      · exact absurd (hlt h1) (Nat.lt_irrefl _)
      · exact (hE.succ _ v w).1 hw
    · rcases (hg _ e).1 he with h1 | ⟨rfl, rfl⟩
      · exact h.remB x rem e w hx hw h1
      · exact absurd (List.mem_map.2 ⟨_, hx, rfl⟩) hnl
  · exact h.closed
  · exact h.storeAcc
  · intro x hx
    rcases List.mem_cons.1 hx with rfl | hx
    · exact Or.inr ⟨_, _, (hg _ _).2 (Or.inr ⟨rfl, rfl⟩), rfl⟩
    rcases h.seenOK x hx with h1 | ⟨p, e, h1, h2⟩
    · exact Or.inl h1
    · exact Or.inr ⟨p, e, (hg _ _).2 (Or.inl h1), h2⟩
  · refine ⟨?_, fun x hx => List.mem_cons_of_mem _ (h.seenOf.2 x hx)⟩
    intro p e he
    rcases (hg p e).1 he with h1 | ⟨rfl, rfl⟩
    · exact List.mem_cons_of_mem _ (h.seenOf.1 p e h1)
    · exact List.mem_cons_self ..
  · intro p e he
    rcases (hg p e).1 he with h1 | ⟨rfl, rfl⟩
    · exact h.root p e h1
    · rcases hfrom with ⟨_, hv⟩ | ⟨q, rem, ds, e', _, hp, hB⟩
      · exact ⟨v, hv, hb, .refl⟩
      · obtain ⟨i, h1, h2, h3⟩ := h.root q e' hp
        exact ⟨i, h1, h2, h3.tail hB⟩
  · exact h.initI
  · exact fun x hx hbx => (h.initDone x hx hbx).imp id (List.mem_cons_of_mem _)

/-- The search stack without its first successor. -/
theorem Inv.take (h : Inv G E I none s) {p : Nat} {w : V} {ws : List V} {ds : List (Nat × List V)}
    (hds : s.ds = (p, w :: ws) :: ds) : Inv G E I (some (p, w)) { s with ds := (p, ws) :: ds } := by
  have hpos : St.pos { s with ds := (p, ws) :: ds } = s.pos := by simp [St.pos, hds]
  obtain ⟨h1, h2, h3, h4, h5, h6, h7, h8, h9, h10, h11, h12, h13, h14, h15, h16, h17, h18, h19, h20, h21, h22, h23, h24,
    h25⟩ := h
  have hne : s.ds ≠ [] := by rw [hds]; simp
  have hnd : p ∉ ds.map (·.1) := by
    simp only [St.pos, hds, List.map_cons, List.pairwise_cons] at h6
    intro hp
    exact Nat.lt_irrefl _ (h6.1 p hp)
  refine ⟨h1, h2, h3, h4, h5, by rw [hpos]; exact h6, by rw [hpos]; exact h7, fun _ => by rw [hpos]; exact h8 hne,
    fun hh => by simp at hh, by rw [hpos]; exact h10, by rw [hpos]; exact h11, h12, by rw [hpos]; exact h13, h14, h15,
    h16, ?_, ?_, h19, h20, h21, h22, h23, h24, h25⟩
  · intro u e w' he hex hne'
    rw [hpos]
    refine h17 u e w' he ⟨hex.1, fun rem hm => ?_⟩ (by simp)
    rw [hds] at hm
    rcases List.mem_cons.1 hm with hm | hm
    · cases hm
      intro hw
      rcases List.mem_cons.1 hw with rfl | hw
      · exact hne' rfl
      · exact hex.2 ws (List.mem_cons_self ..) hw
    · exact hex.2 rem (List.mem_cons_of_mem _ hm)
  · intro x rem e w' hx hw he
    rcases List.mem_cons.1 hx with hx | hx
    · cases hx
      exact h18 p _ e w' (by rw [hds]; exact List.mem_cons_self ..) (List.mem_cons_of_mem _ hw) he
    · exact h18 x rem e w' (by rw [hds]; exact List.mem_cons_of_mem _ hx) hw he

/-- The edge has been dealt with: its target is in the closed part. -/
theorem Inv.done {u : Nat} {w : V} (h : Inv G E I (some (u, w)) s)
    (hd : ∀ e, s.cs[u]? = some e → G.B E e.id w → w ∈ s.store) : Inv G E I none s := by
  obtain ⟨h1, h2, h3, h4, h5, h6, h7, h8, h9, h10, h11, h12, h13, h14, h15, h16, h17, h18, h19, h20, h21, h22, h23, h24,
    h25⟩ := h
  refine ⟨h1, h2, h3, h4, h5, h6, h7, h8, h9, h10, h11, h12, h13, h14, h15, h16, ?_, h18, h19, h20, h21, h22, h23, h24,
    h25⟩
  intro u' e w' he hex _
  by_cases hX : some (u, w) = some (u', w')
  · cases hX
    exact Or.inl (hd e he hex.1)
  · exact h17 u' e w' he hex hX

theorem Inv.see (h : Inv G E I X s) {w : V} (hw : w ∈ s.store ∨ ∃ p e, Get s.cs p e ∧ e.id = w) :
    Inv G E I X { s with seen := w :: s.seen } := by
  obtain ⟨h1, h2, h3, h4, h5, h6, h7, h8, h9, h10, h11, h12, h13, h14, h15, h16, h17, h18, h19, h20, h21, h22, h23, h24,
    h25⟩ := h
  refine ⟨h1, h2, h3, h4, h5, h6, h7, h8, h9, h10, h11, h12, h13, h14, h15, h16, h17, h18, h19, h20, ?_, ?_, h23, h24,
    ?_⟩
  · intro v hv
    rcases List.mem_cons.1 hv with rfl | hv
    · exact hw
    · exact h21 v hv
  · exact ⟨fun p e he => List.mem_cons_of_mem _ (h22.1 p e he), fun x hx => List.mem_cons_of_mem _ (h22.2 x hx)⟩
  · intro v hv hb
    exact (h25 v hv hb).imp id (List.mem_cons_of_mem _)

/-- Lowering a low link on the search stack. -/
theorem Inv.lower (h : Inv G E I X s) {fr l : Nat} {e : CEntry V} (hfr : fr ∈ s.pos) (he : s.cs[fr]? = some e)
    (hl : l ≤ e.low) (hr : ∃ e', s.cs[l]? = some e' ∧ ReflTransGen (G.B E) e.id e'.id)
    (ha : ∀ a ∈ s.as, a ≤ fr → a ≤ l ∧ (a < fr → a < l)) : Inv G E I X { s with cs := setLow s.cs fr l } := by
  have hg := fun q f => setLow_get he l q f
  have hlow := (h.lowLe fr e he).1
  -- entries before and after
  have to : ∀ (q : Nat) (f : CEntry V), (setLow s.cs fr l)[q]? = some f → ∃ f', s.cs[q]? = some f' ∧ f.id = f'.id ∧ f.next = f'.next ∧
      f.low ≤ f'.low := by
    intro q f hf
    rcases (hg q f).1 hf with ⟨_, h1⟩ | ⟨rfl, rfl⟩
    · exact ⟨f, h1, rfl, rfl, Nat.le_refl _⟩
    · exact ⟨e, he, rfl, rfl, hl⟩
  have fro : ∀ (q : Nat) (f' : CEntry V), s.cs[q]? = some f' → ∃ f, (setLow s.cs fr l)[q]? = some f ∧ f.id = f'.id ∧ f.low ≤ f'.low := by
    intro q f' hf
    by_cases hq : q = fr
    · subst hq
      rw [he] at hf; cases hf
      exact ⟨_, (hg _ _).2 (Or.inr ⟨rfl, rfl⟩), rfl, hl⟩
    · exact ⟨f', (hg _ _).2 (Or.inl ⟨hq, hf⟩), rfl, Nat.le_refl _⟩
  obtain ⟨h1, h2, h3, h4, h5, h6, h7, h8, h9, h10, h11, h12, h13, h14, h15, h16, h17, h18, h19, h20, h21, h22, h23, h24,
    h25⟩ := h
  refine ⟨h1, ?_, ?_, ?_, ?_, h6, ?_, h8, ?_, ?_, ?_, h12, h13, ?_, ?_, ?_, ?_, ?_, h19, h20, ?_, ?_, ?_, h24, h25⟩
  · exact chain_congr G h2 (setLow_length _ _ _) (fun p e' he' => by
      obtain ⟨f', a, b, c, _⟩ := to p e' he'; exact ⟨f', a, b, c⟩)
  · intro p f hf
    rcases (hg p f).1 hf with ⟨_, h1⟩ | ⟨rfl, rfl⟩
    · obtain ⟨a, e', b, c⟩ := h3 p f h1
      obtain ⟨g, g1, g2, _⟩ := fro _ _ b
      exact ⟨a, g, g1, by rw [g2]; exact c⟩
    · obtain ⟨e', b, c⟩ := hr
      obtain ⟨g, g1, g2, _⟩ := fro _ _ b
      exact ⟨by show l ≤ p; omega, g, g1, by rw [g2]; exact c⟩
  · intro p q f g hf hg' hid
    obtain ⟨f', a, b, _⟩ := to p f hf
    obtain ⟨g', c, d, _⟩ := to q g hg'
    exact h4 p q f' g' a c (by rw [← b, ← d]; exact hid)
  · intro p f hf
    obtain ⟨f', a, b, _⟩ := to p f hf
    rw [b]; exact h5 p f' a
  · intro x hx
    show x < (setLow s.cs fr l).length
    rw [setLow_length]; exact h7 x hx
  · intro h0
    have := h9 h0
    rw [this] at he; simp at he
  · intro p f hf hp
    obtain ⟨f', a, b, _, c⟩ := to p f hf
    have := h10 p f' a hp
    omega
  · intro x y f g hx hxy hf hg'
    obtain ⟨f', a, b, _⟩ := to x f hf
    obtain ⟨g', c, d, _⟩ := to y g hg'
    rw [b, d]
    exact h11 x y f' g' hx hxy a c
  · intro a haa
    obtain ⟨f', b, c⟩ := h14 a haa
    obtain ⟨f, g1, g2, _⟩ := fro _ _ b
    exact ⟨f, g1, by rw [g2]; exact c⟩
  · intro p f hf hacc
    obtain ⟨f', a, b, _⟩ := to p f hf
    exact h15 p f' a (by rw [← b]; exact hacc)
  · intro a p f haa hap hf
    rcases (hg p f).1 hf with ⟨_, h1⟩ | ⟨rfl, rfl⟩
    · exact h16 a p f haa hap h1
    · exact ha a haa hap
  · intro u f w hf hex hXn
    obtain ⟨f', a, b, _⟩ := to u f hf
    have hex' : Explored G E s u f' w := ⟨by rw [← b]; exact hex.1, hex.2⟩
    rcases h17 u f' w a hex' hXn with hst | ⟨q, g', c1, c2, c3, c4⟩
    · exact Or.inl hst
    · obtain ⟨g, g1, g2, _⟩ := fro _ _ c1
      refine Or.inr ⟨q, g, g1, by rw [g2]; exact c2, c3, ?_⟩
      intro x k hx hxu hmax hk
      obtain ⟨k', d1, _, _, d4⟩ := to x k hk
      have := c4 x k' hx hxu hmax d1
      omega
  · intro x rem f w hx hw hf
    obtain ⟨f', a, b, _⟩ := to x f hf
    rw [b]
    exact h18 x rem f' w hx hw a
  · intro v hv
    rcases h21 v hv with hst | ⟨p, f', a, b⟩
    · exact Or.inl hst
    · obtain ⟨f, g1, g2, _⟩ := fro _ _ a
      exact Or.inr ⟨p, f, g1, by rw [g2]; exact b⟩
  · refine ⟨?_, h22.2⟩
    intro p f hf
    obtain ⟨f', a, b, _⟩ := to p f hf
    rw [b]; exact h22.1 p f' a
  · intro p f hf
    obtain ⟨f', a, b, _⟩ := to p f hf
    rw [b]; exact h23 p f' a

/-- accepting states on the search stack are at most the top of `as` -/
theorem Inv.le_as (h : Inv G E I X s) {a : Nat} {as : List Nat} (has : s.as = a :: as) : ∀ b ∈ s.as, b ≤ a := by
  intro b hb
  have := h.asSorted
  rw [has, List.pairwise_cons] at this
  rw [has] at hb
  rcases List.mem_cons.1 hb with rfl | hb
  · exact Nat.le_refl _
  · exact Nat.le_of_lt (this.1 b hb)

theorem update_eq {fr : Nat} {rem : List V} {ds : List (Nat × List V)} (hds : s.ds = (fr, rem) :: ds) (to l : Nat) :
    update s to l = if l ≤ lowOf s.cs fr then { s with viol := accLoop s.as to, cs := setLow s.cs fr l } else s := by
  unfold update
  split
  · rename_i h0; rw [hds] at h0; cases h0
  · rename_i h0; rw [hds] at h0; cases h0; rfl

/-- A back edge: either a violation, or the invariant holds again. -/
theorem Inv.back {p q : Nat} {w : V} {ws : List V} {ds : List (Nat × List V)} (h : Inv G E I (some (p, w)) s)
    (hds : s.ds = (p, ws) :: ds) {e : CEntry V} (hp : s.cs[p]? = some e) (hB : G.B E e.id w)
    {f : CEntry V} (hq : s.cs[q]? = some f) (hf : f.id = w) :
    (Inv G E I none (update s q (lowOf s.cs q))) ∨
      ((update s q (lowOf s.cs q)).viol = true ∧ G.Lasso E I) := by
  have hpp : p ∈ s.pos := by simp [St.pos, hds]
  rw [update_eq hds, lowOf_get hq, lowOf_get hp]
  have hfl := h.lowLe q f hq
  by_cases hv : ∃ a as, s.as = a :: as ∧ q ≤ a
  · obtain ⟨a, as, has, hqa⟩ := hv
    have haM : a ∈ s.as := by rw [has]; exact List.mem_cons_self ..
    have hap : a ≤ p := h.le_top hds a (h.asPos a haM)
    have hel := (h.accLow a p e haM hap hp).1
    right
    rw [if_pos (by omega)]
    refine ⟨by simp [accLoop, has, hqa], ?_⟩
    obtain ⟨ea, hea, hacc⟩ := h.asAcc a haM
    obtain ⟨i, hi1, hi2, hi3⟩ := h.root a ea hea
    obtain ⟨x, g, hx, hxq, hgx, hfg⟩ := h.down q f hq
    have h1 := h.reach a p ea e (h.asPos a haM) hap hea hp
    have h2 := h.reach x a g ea hx (by omega) hgx hea
    refine ⟨i, ea.id, hi1, hi2, hi3, hacc, Or.inl ?_⟩
    have h3 : TransGen (G.B E) ea.id w := TransGen.tail' h1 hB
    rw [← hf] at h3
    exact h3.trans_left (hfg.trans h2)
  · left
    have hnv : ∀ a ∈ s.as, a < q := by
      intro a ha
      cases has : s.as with
      | nil => rw [has] at ha; cases ha
      | cons b bs =>
        have := h.le_as has a ha
        have : ¬ q ≤ b := fun hqb => hv ⟨b, bs, has, hqb⟩
        omega
    have hviol : accLoop s.as q = false := by
      cases has : s.as with
      | nil => rfl
      | cons b bs =>
        have := hnv b (by rw [has]; exact List.mem_cons_self ..)
        simp only [accLoop, decide_eq_false_iff_not]; omega
    -- the edge, once the low link is low enough
    have fin : ∀ s' : St V, Inv G E I (some (p, w)) s' → s'.ds = s.ds → s'.as = s.as → s'.store = s.store →
        (∀ e', Get s'.cs p e' → e'.low ≤ q) →
        (∃ f', s'.cs[q]? = some f' ∧ f'.id = w) → Inv G E I none s' := by
      rintro s' ⟨h1, h2, h3, h4, h5, h6, h7, h8, h9, h10, h11, h12, h13, h14, h15, h16, h17, h18, h19, h20, h21, h22,
        h23, h24, h25⟩ e1 e2 e3 e4 ⟨f', e5, e6⟩
      refine ⟨h1, h2, h3, h4, h5, h6, h7, h8, h9, h10, h11, h12, h13, h14, h15, h16, ?_, h18, h19, h20, h21, h22, h23,
        h24, h25⟩
      intro u g w' hg hex _
      by_cases hX : some (p, w) = some (u, w')
      · cases hX
        refine Or.inr ⟨q, f', e5, e6, ?_, ?_⟩
        · intro a ha _
          rw [e2] at ha
          exact hnv a ha
        · intro x k hx hxp hmax hk
          have hpx : p ≤ x := hmax p (by rw [St.pos, e1]; exact hpp) (Nat.le_refl _)
          have : x = p := by omega
          subst this
          exact e4 k hk
      · exact h17 u g w' hg hex hX
    by_cases hle : f.low ≤ e.low
    · rw [if_pos hle, hviol]
      have hlow : Inv G E I (some (p, w)) { s with cs := setLow s.cs p f.low } := by
        obtain ⟨a, e', b, c⟩ := hfl
        refine h.lower hpp hp hle ⟨e', b, ReflTransGen.head (by rw [← hf] at hB; exact hB) c⟩ ?_
        intro x hx hxp
        have := h.accLow x q f hx (Nat.le_of_lt (hnv x hx)) hq
        exact ⟨this.1, fun _ => this.2 (hnv x hx)⟩
      have : ({ s with viol := false, cs := setLow s.cs p f.low } : St V) = { s with cs := setLow s.cs p f.low } := by
        rw [← h.viol]
      rw [this]
      refine fin _ hlow rfl rfl rfl ?_ ?_
      · intro e' he'
        rcases (setLow_get hp f.low p e').1 he' with ⟨hh, _⟩ | ⟨_, rfl⟩
        · exact absurd rfl hh
        · exact hfl.1
      · by_cases hqp : q = p
        · subst hqp
          rw [hp] at hq; cases hq
          exact ⟨_, (setLow_get hp e.low q _).2 (Or.inr ⟨rfl, rfl⟩), hf⟩
        · exact ⟨f, (setLow_get hp f.low q f).2 (Or.inl ⟨hqp, hq⟩), hf⟩
    · rw [if_neg hle]
      refine fin s h rfl rfl rfl ?_ ⟨f, hq, hf⟩
      intro e' he'
      rw [Get, hp] at he'; cases he'
      have := hfl.1
      omega

/-- Backtracking from a state that is not the root of its component. -/
theorem Inv.drop (h : Inv G E I none s) {p fr : Nat} {rem : List V} {ds : List (Nat × List V)}
    (hds : s.ds = (p, []) :: (fr, rem) :: ds) {e ef : CEntry V} (hp : s.cs[p]? = some e) (hlt : e.low < p)
    (hf : s.cs[fr]? = some ef) (hle : ef.low ≤ e.low) : Inv G E I none { s with ds := (fr, rem) :: ds } := by
  have hpos : s.pos = p :: St.pos { s with ds := (fr, rem) :: ds } := by simp [St.pos, hds]
  have hpas : p ∉ s.as := fun hh => by have := (h.accLow p p e hh (Nat.le_refl _) hp).1; omega
  have hfrp : fr < p := by
    have := h.sorted
    rw [hpos, List.pairwise_cons] at this
    exact this.1 fr (List.mem_cons_self ..)
  have hmaxfr : ∀ y ∈ St.pos { s with ds := (fr, rem) :: ds }, y ≤ fr := by
    have := h.sorted
    rw [hpos, List.pairwise_cons] at this
    have h2 := this.2
    simp only [St.pos, List.map_cons, List.pairwise_cons] at h2
    intro y hy
    simp only [St.pos, List.map_cons, List.mem_cons] at hy
    rcases hy with rfl | hy
    · exact Nat.le_refl _
    · exact Nat.le_of_lt (h2.1 y hy)
  have hfrm : fr ∈ St.pos { s with ds := (fr, rem) :: ds } := List.mem_cons_self ..
  have hmem : ∀ x, x ∈ St.pos { s with ds := (fr, rem) :: ds } → x ∈ s.pos := fun x hx => by
    rw [hpos]; exact List.mem_cons_of_mem _ hx
  obtain ⟨h1, h2, h3, h4, h5, h6, h7, h8, h9, h10, h11, h12, h13, h14, h15, h16, h17, h18, h19, h20, h21, h22, h23, h24,
    h25⟩ := h
  refine ⟨h1, h2, h3, h4, h5, ?_, fun x hx => h7 x (hmem x hx), ?_, fun hh => by simp at hh, ?_,
    fun x y f g hx => h11 x y f g (hmem x hx), h12, ?_, h14, h15, h16, ?_, ?_, h19, h20, h21, h22, h23, h24, h25⟩
  · rw [hpos, List.pairwise_cons] at h6; exact h6.2
  · intro _
    have := h8 (by rw [hds]; simp)
    rw [hpos] at this
    rcases List.mem_cons.1 this with h0 | h0
    · omega
    · exact h0
  · intro q f hq hnq
    by_cases hqp : q = p
    · subst hqp
      have : f = e := by have hq' : s.cs[q]? = some f := hq; rw [hp] at hq'; cases hq'; rfl
      subst this
      exact hlt
    · refine h10 q f hq ?_
      rw [hpos, List.mem_cons, not_or]
      exact ⟨hqp, hnq⟩
  · intro a ha
    have := h13 a ha
    rw [hpos] at this
    rcases List.mem_cons.1 this with rfl | h0
    · exact absurd ha hpas
    · exact h0
  · intro u f w hu hex _
    have hex' : Explored G E s u f w := by
      refine ⟨hex.1, fun rem' hm => ?_⟩
      rw [hds] at hm
      rcases List.mem_cons.1 hm with hm | hm
      · cases hm; simp
      · exact hex.2 rem' hm
    rcases h17 u f w hu hex' (by simp) with hst | ⟨q, g, c1, c2, c3, c4⟩
    · exact Or.inl hst
    · refine Or.inr ⟨q, g, c1, c2, c3, ?_⟩
      intro x k hx hxu hmax hk
      by_cases hpu : p ≤ u
      · have h0 := c4 p e (by rw [hpos]; exact List.mem_cons_self ..) hpu
          (fun y hy _ => by
            rw [hpos] at hy
            rcases List.mem_cons.1 hy with rfl | hy
            · exact Nat.le_refl _
            · exact Nat.le_trans (hmaxfr y hy) (Nat.le_of_lt hfrp)) hp
        have h01 := hmax fr hfrm (by omega)
        have h02 := hmaxfr x hx
        have : x = fr := by omega
        subst this
        have : k = ef := by have hk' : s.cs[x]? = some k := hk; rw [hf] at hk'; cases hk'; rfl
        subst this
        omega
      · refine c4 x k (hmem x hx) hxu ?_ hk
        intro y hy hyu
        rw [hpos] at hy
        rcases List.mem_cons.1 hy with rfl | hy
        · omega
        · exact hmax y hy hyu
  · intro x rem' f w hx hw hf'
    exact h18 x rem' f w (by rw [hds]; exact List.mem_cons_of_mem _ hx) hw hf'

/-- Closing a component. -/
theorem Inv.close (h : Inv G E I none s) {p : Nat} {ds : List (Nat × List V)}
    (hds : s.ds = (p, []) :: ds) {e : CEntry V} (hp : s.cs[p]? = some e) (hlow : e.low = p) {s' : St V}
    (hs : PopCSpec G { s with ds := ds } p s') {as : List Nat} (has : ∀ a, a ∈ as ↔ a ∈ s.as ∧ a ≠ p)
    (hass : as.Pairwise (· > ·)) : Inv G E I none { s' with as := as } := by
  have hpos : s.pos = p :: St.pos s' := by simp [St.pos, hds, hs.ds]
  have hsort := h.sorted
  rw [hpos, List.pairwise_cons] at hsort
  have hmem : ∀ x, x ∈ St.pos s' → x ∈ s.pos := fun x hx => by rw [hpos]; exact List.mem_cons_of_mem _ hx
  have hpm : p ∈ s.pos := by rw [hpos]; exact List.mem_cons_self ..
  have hall : ∀ y ∈ s.pos, y ≤ p := h.le_top hds
  have hcs : ∀ q f, s'.cs[q]? = some f ↔ s.cs[q]? = some f ∧ q < p := hs.cs
  have hst : ∀ v, v ∈ s'.store ↔ v ∈ s.store ∨ ∃ q f, p ≤ q ∧ s.cs[q]? = some f ∧ f.id = v := hs.store
  -- edges from the component
  have hexp : ∀ q f w, p ≤ q → s.cs[q]? = some f → G.B E f.id w → Explored G E s q f w := by
    intro q f w hpq hq hB
    refine ⟨hB, fun rem hm => ?_⟩
    rw [hds] at hm
    rcases List.mem_cons.1 hm with hm | hm
    · cases hm; simp
    · have : q ∈ St.pos s' := by rw [St.pos, hs.ds]; exact List.mem_map.2 ⟨_, hm, rfl⟩
      have := hsort.1 q this
      omega
  have hcl : ∀ v w, v ∈ s'.store → G.B E v w → w ∈ s'.store := by
    intro v w hv hB
    rcases (hst v).1 hv with hv | ⟨q, f, hpq, hq, rfl⟩
    · exact (hst w).2 (Or.inl (h.closed v w hv hB))
    · rcases h.edge q f w hq (hexp q f w hpq hq hB) (by simp) with h1 | ⟨q', g, h1, h2, _, h4⟩
      · exact (hst w).2 (Or.inl h1)
      · have := h4 p e hpm hpq (fun y hy _ => hall y hy) hp
        exact (hst w).2 (Or.inr ⟨q', g, by omega, h1, h2⟩)
  have hac : ∀ v ∈ s'.store, G.acc v = true → ¬ TransGen (G.B E) v v := by
    intro v hv hacc
    rcases (hst v).1 hv with hv | ⟨q, f, hpq, hq, rfl⟩
    · exact h.storeAcc v hv hacc
    · have hqas := h.accAs q f hq hacc
      have : q = p := by have := hall q (h.asPos q hqas); omega
      subst this
      intro hcyc
      have key : ∀ w, TransGen (G.B E) f.id w → w ∈ s.store ∨ ∃ q' g, q < q' ∧ s.cs[q']? = some g ∧ g.id = w := by
        intro w hw
        induction hw with
        | single hB =>
          rcases h.edge q f _ hq (hexp q f _ hpq hq hB) (by simp) with h1 | ⟨q', g, h1, h2, h3, _⟩
          · exact Or.inl h1
          · exact Or.inr ⟨q', g, h3 q hqas (Nat.le_refl _), h1, h2⟩
        | tail _ hB ih =>
          rcases ih with h1 | ⟨q', g, h1, h2, rfl⟩
          · exact Or.inl (h.closed _ _ h1 hB)
          · rcases h.edge q' g _ h2 (hexp q' g _ (Nat.le_of_lt h1) h2 hB) (by simp) with h3 | ⟨q'', g', h3, h4, h5, _⟩
            · exact Or.inl h3
            · exact Or.inr ⟨q'', g', h5 q hqas (Nat.le_of_lt h1), h3, h4⟩
      rcases key _ hcyc with h1 | ⟨q', g, h1, h2, h3⟩
      · exact h.disj q f hq h1
      · have := h.nodup q' q g f h2 hq h3
        omega
  obtain ⟨h1, h2, h3, h4, h5, h6, h7, h8, h9, h10, h11, h12, h13, h14, h15, h16, h17, h18, h19, h20, h21, h22, h23, h24,
    h25⟩ := h
  refine ⟨?_, hs.chain, ?_, ?_, ?_, hsort.2, ?_, ?_, ?_, ?_, ?_, hass, ?_, ?_, ?_, ?_, ?_, ?_, hcl, hac, ?_, ?_, ?_, ?_, ?_⟩
  · show s'.viol = false
    rw [hs.viol]; exact h1
  · intro q f hq
    obtain ⟨a, b⟩ := (hcs q f).1 hq
    obtain ⟨c, e', d, r⟩ := h3 q f a
    exact ⟨c, e', (hcs _ _).2 ⟨d, by omega⟩, r⟩
  · intro q q' f g hq hq' hid
    exact h4 q q' f g ((hcs _ _).1 hq).1 ((hcs _ _).1 hq').1 hid
  · intro q f hq hin
    obtain ⟨a, b⟩ := (hcs q f).1 hq
    rcases (hst _).1 hin with hin | ⟨q', g, c, d, hid⟩
    · exact h5 q f a hin
    · have := h4 q' q g f d a hid
      omega
  · intro x hx
    show x < s'.cs.length
    have h01 := hsort.1 x hx
    have h02 := h7 x (hmem x hx)
    rw [hs.len]
    show x < min p s.cs.length
    omega
  · intro hne
    show 0 ∈ St.pos s'
    have h0 := h8 (by rw [hds]; simp)
    rw [hpos] at h0
    rcases List.mem_cons.1 h0 with h0 | h0
    · have hne' : s'.ds ≠ [] := hne
      cases hd : s'.ds with
      | nil => exact absurd hd hne'
      | cons d dl =>
        have := hsort.1 d.1 (by rw [St.pos, hd]; exact List.mem_cons_self ..)
        omega
    · exact h0
  · intro hn
    have hn' : s'.ds = [] := hn
    have h0 := h8 (by rw [hds]; simp)
    rw [hpos, St.pos, hn'] at h0
    have : p = 0 := by simp at h0; omega
    show s'.cs = []
    apply List.length_eq_zero_iff.1
    rw [hs.len, this]; simp
  · intro q f hq hnq
    obtain ⟨a, b⟩ := (hcs q f).1 hq
    refine h10 q f a ?_
    rw [hpos, List.mem_cons, not_or]
    exact ⟨by omega, hnq⟩
  · intro x y f g hx hxy hf hg
    exact h11 x y f g (hmem x hx) hxy ((hcs _ _).1 hf).1 ((hcs _ _).1 hg).1
  · intro a ha
    obtain ⟨ha1, ha2⟩ := (has a).1 ha
    have := h13 a ha1
    rw [hpos] at this
    rcases List.mem_cons.1 this with h0 | h0
    · exact absurd h0 ha2
    · exact h0
  · intro a ha
    obtain ⟨ha1, ha2⟩ := (has a).1 ha
    obtain ⟨f, hf, hacc⟩ := h14 a ha1
    have := hall a (h13 a ha1)
    exact ⟨f, (hcs _ _).2 ⟨hf, by omega⟩, hacc⟩
  · intro q f hq hacc
    obtain ⟨a, b⟩ := (hcs q f).1 hq
    exact (has q).2 ⟨h15 q f a hacc, by omega⟩
  · intro a q f ha haq hq
    exact h16 a q f ((has a).1 ha).1 haq ((hcs _ _).1 hq).1
  · intro u f w hu hex _
    obtain ⟨a, b⟩ := (hcs u f).1 hu
    have hex' : Explored G E s u f w := by
      refine ⟨hex.1, fun rem hm => ?_⟩
      rw [hds] at hm
      rcases List.mem_cons.1 hm with hm | hm
      · cases hm; simp
      · exact hex.2 rem (by show _ ∈ s'.ds; rw [hs.ds]; exact hm)
    rcases h17 u f w a hex' (by simp) with h0 | ⟨q, g, c1, c2, c3, c4⟩
    · exact Or.inl ((hst w).2 (Or.inl h0))
    · by_cases hq : q < p
      · refine Or.inr ⟨q, g, (hcs _ _).2 ⟨c1, hq⟩, c2, fun a ha hau => c3 a ((has a).1 ha).1 hau, ?_⟩
        intro x k hx hxu hmax hk
        refine c4 x k (hmem x hx) hxu ?_ ((hcs _ _).1 hk).1
        intro y hy hyu
        rw [hpos] at hy
        rcases List.mem_cons.1 hy with rfl | hy
        · omega
        · exact hmax y hy hyu
      · exact Or.inl ((hst w).2 (Or.inr ⟨q, g, by omega, c1, c2⟩))
  · intro x rem f w hx hw hf
    have hx' : (x, rem) ∈ s'.ds := hx
    rw [hs.ds] at hx'
    exact h18 x rem f w (by rw [hds]; exact List.mem_cons_of_mem _ hx') hw ((hcs _ _).1 hf).1
  · intro v hv
    have hv' : v ∈ s'.seen := hv
    rw [hs.seen] at hv'
    rcases h21 v hv' with h0 | ⟨q, f, h0, h01⟩
    · exact Or.inl ((hst v).2 (Or.inl h0))
    · by_cases hq : q < p
      · exact Or.inr ⟨q, f, (hcs _ _).2 ⟨h0, hq⟩, h01⟩
      · exact Or.inl ((hst v).2 (Or.inr ⟨q, f, by omega, h0, h01⟩))
  · refine ⟨?_, ?_⟩
    · intro q f hq
      show _ ∈ s'.seen
      rw [hs.seen]
      exact h22.1 q f ((hcs _ _).1 hq).1
    · intro v hv
      show _ ∈ s'.seen
      rw [hs.seen]
      rcases (hst v).1 hv with h0 | ⟨q, f, _, h0, rfl⟩
      · exact h22.2 v h0
      · exact h22.1 q f h0
  · intro q f hq
    exact h23 q f ((hcs _ _).1 hq).1
  · intro v hv
    have hv' : v ∈ s'.inits := hv
    rw [hs.inits] at hv'
    exact h24 v hv'
  · intro v hv hb
    show v ∈ s'.inits ∨ v ∈ s'.seen
    rw [hs.inits, hs.seen]
    exact h25 v hv hb

theorem mem_popA {as : List Nat} {p : Nat} (hs : as.Pairwise (· > ·)) (hle : ∀ a ∈ as, a ≤ p) :
    (∀ a, a ∈ popA as p ↔ a ∈ as ∧ a ≠ p) ∧ (popA as p).Pairwise (· > ·) := by
  cases as with
  | nil => simp [popA]
  | cons b bs =>
    rw [List.pairwise_cons] at hs
    simp only [popA]
    by_cases hpb : p = b
    · subst hpb
      rw [if_pos rfl]
      refine ⟨fun a => ⟨fun ha => ⟨List.mem_cons_of_mem _ ha, fun h => ?_⟩, fun ha => ?_⟩, hs.2⟩
      · subst h; exact Nat.lt_irrefl _ (hs.1 a ha)
      · rcases List.mem_cons.1 ha.1 with h | h
        · exact absurd h ha.2
        · exact h
    · rw [if_neg hpb]
      refine ⟨fun a => ⟨fun ha => ⟨ha, fun h => ?_⟩, fun ha => ha.1⟩, List.pairwise_cons.2 hs⟩
      subst h
      rcases List.mem_cons.1 ha with h | h
      · exact hpb h
      · have := hs.1 a h
        have := hle b (List.mem_cons_self ..)
        omega

/-- Backtracking keeps the invariant. -/
theorem Inv.pop (h : Inv G E I none s) {p : Nat} {ds : List (Nat × List V)} (hds : s.ds = (p, []) :: ds) :
    Inv G E I none (Tarjan.pop G s) := by
  have hpp : p ∈ s.pos := by simp [St.pos, hds]
  obtain ⟨e, hp⟩ := h.get hpp
  have hsort := h.sorted
  simp only [St.pos, hds, List.map_cons, List.pairwise_cons] at hsort
  have hle : ∀ a ∈ s.as, a ≤ p := fun a ha => h.le_top hds a (h.asPos a ha)
  have heq : Tarjan.pop G s = update { (if e.low = p then popC G { s with ds := ds } p s.cs.length else { s with ds := ds })
      with as := popA (if e.low = p then popC G { s with ds := ds } p s.cs.length else { s with ds := ds }).as p }
        p e.low := by
    unfold Tarjan.pop
    split
    · rename_i h0; rw [hds] at h0; cases h0
    · rename_i h0; rw [hds] at h0; cases h0; simp only [lowOf_get hp]
  rw [heq]
  by_cases hl : e.low = p
  · rw [if_pos hl]
    have hspec := popC_spec G s.cs.length { s with ds := ds } p (Nat.le_refl _) h.chain
    have hA := mem_popA (p := p) h.asSorted hle
    have hasE : (popC G { s with ds := ds } p s.cs.length).as = s.as := hspec.as
    have hcl := h.close hds hp hl hspec (as := popA s.as p) hA.1 hA.2
    rw [hasE]
    cases hd : ds with
    | nil =>
      have : (popC G { s with ds := ds } p s.cs.length).ds = [] := by rw [hspec.ds]; exact hd
      unfold update
      rw [← hd]
      split
      · exact hcl
      · rename_i h0
        have h0' : (popC G { s with ds := ds } p s.cs.length).ds = _ := h0
        rw [this] at h0'; cases h0'
    | cons d dl =>
      obtain ⟨fr, rem⟩ := d
      have hds' : ({ popC G { s with ds := ds } p s.cs.length with as := popA s.as p } : St V).ds = (fr, rem) :: dl := by
        show (popC G { s with ds := ds } p s.cs.length).ds = _
        rw [hspec.ds]; exact hd
      rw [← hd, update_eq hds']
      have hfr : fr < p := hsort.1 fr (by rw [hd]; exact List.mem_cons_self ..)
      obtain ⟨ef, hef⟩ := hcl.get (x := fr) (by
        show fr ∈ List.map (·.1) ({ popC G { s with ds := ds } p s.cs.length with as := popA s.as p } : St V).ds
        rw [hds']; exact List.mem_cons_self ..)
      have := (hcl.lowLe fr ef hef).1
      rw [if_neg]
      · exact hcl
      · rw [lowOf_get hef]; omega
  · rw [if_neg hl]
    have hlt : e.low < p := by have := (h.lowLe p e hp).1; omega
    have hpas : p ∉ s.as := fun hh => by have := (h.accLow p p e hh (Nat.le_refl _) hp).1; omega
    have hpA : popA s.as p = s.as := by
      cases ha : s.as with
      | nil => rfl
      | cons a as =>
        simp only [popA]
        rw [if_neg]
        rintro rfl
        exact hpas (by rw [ha]; exact List.mem_cons_self ..)
    cases hd : ds with
    | nil =>
      have := h.zero (by rw [hds]; simp)
      rw [St.pos, hds, hd] at this
      simp at this; omega
    | cons d dl =>
      obtain ⟨fr, rem⟩ := d
      have hfr : fr < p := hsort.1 fr (by rw [hd]; exact List.mem_cons_self ..)
      have hfm : fr ∈ s.pos := by simp [St.pos, hds, hd]
      obtain ⟨ef, hef⟩ := h.get hfm
      show Inv G E I none (update { s with ds := (fr, rem) :: dl, as := popA s.as p } p e.low)
      rw [hpA, update_eq (s := { s with ds := (fr, rem) :: dl, as := s.as }) rfl]
      have haccl : accLoop s.as p = false := by
        cases ha : s.as with
        | nil => rfl
        | cons a as =>
          have h1 := hle a (by rw [ha]; exact List.mem_cons_self ..)
          have h2 : a ≠ p := by rintro rfl; exact hpas (by rw [ha]; exact List.mem_cons_self ..)
          simp only [accLoop, decide_eq_false_iff_not]; omega
      show Inv G E I none (if e.low ≤ lowOf s.cs fr then
        { s with ds := (fr, rem) :: dl, viol := accLoop s.as p, cs := setLow s.cs fr e.low }
        else { s with ds := (fr, rem) :: dl })
      rw [lowOf_get hef]
      rw [hd] at hds
      by_cases hcmp : e.low ≤ ef.low
      · rw [if_pos hcmp, haccl]
        obtain ⟨_, e', he', hr⟩ := h.lowLe p e hp
        have hlow := h.lower (l := e.low) hfm hef hcmp
          ⟨e', he', (h.reach fr p ef e hfm (Nat.le_of_lt hfr) hef hp).trans hr⟩ (fun a ha hafr => by
            have := (h.accLow a p e ha (by omega) hp).2 (by omega)
            exact ⟨by omega, fun _ => this⟩)
        have := hlow.drop (p := p) (fr := fr) (rem := rem) (ds := dl) hds (e := e)
          (ef := { ef with low := e.low }) ((setLow_get hef _ _ _).2 (Or.inl ⟨by omega, hp⟩)) hlt
          ((setLow_get hef _ _ _).2 (Or.inr ⟨rfl, rfl⟩)) (Nat.le_refl _)
        rw [← h.viol]
        exact this
      · rw [if_neg hcmp]
        exact h.drop hds hp hlt hef (by omega)

theorem Inv.congr {t : Nat} (h : Inv G E I X s) : Inv G E I X { s with time := t } :=
  ⟨h.1, h.2, h.3, h.4, h.5, h.6, h.7, h.8, h.9, h.10, h.11, h.12, h.13, h.14, h.15, h.16, h.17, h.18, h.19, h.20, h.21,
    h.22, h.23, h.24, h.25⟩

theorem Inv.dropInit (h : Inv G E I X s) {v : V} {vs : List V} (hi : s.inits = v :: vs)
    (hv : G.bnd v = true → v ∈ s.seen) : Inv G E I X { s with inits := vs } := by
  obtain ⟨h1, h2, h3, h4, h5, h6, h7, h8, h9, h10, h11, h12, h13, h14, h15, h16, h17, h18, h19, h20, h21, h22, h23, h24,
    h25⟩ := h
  refine ⟨h1, h2, h3, h4, h5, h6, h7, h8, h9, h10, h11, h12, h13, h14, h15, h16, h17, h18, h19, h20, h21, h22, h23,
    fun x hx => h24 x (by rw [hi]; exact List.mem_cons_of_mem _ hx), ?_⟩
  intro x hx hb
  rcases h25 x hx hb with h0 | h0
  · rw [hi] at h0
    rcases List.mem_cons.1 h0 with rfl | h0
    · exact Or.inr (hv hb)
    · exact Or.inl h0
  · exact Or.inr h0

/-- Taking a state into the state set just before it is pushed. -/
theorem Inv.pushSeen (h : Inv G E I X s) (hE : G.Edges E) {v : V} (hb : G.bnd v = true)
    (hns : v ∉ s.store) (hnc : ∀ p e, Get s.cs p e → e.id ≠ v)
    (hfrom : (s.ds = [] ∧ I v) ∨ (∃ p rem ds e, s.ds = (p, rem) :: ds ∧ s.cs[p]? = some e ∧ G.B E e.id v))
    (hX : ∀ u w, X = some (u, w) → w = v) :
    Inv G E I none (Tarjan.push G { s with seen := v :: s.seen } v) ∨
      ((Tarjan.push G { s with seen := v :: s.seen } v).viol = true ∧ G.Lasso E I) := by
  cases hni : (G.acc v && G.inv v) with
  | true =>
    right
    simp only [Bool.and_eq_true] at hni
    refine ⟨by simp [Tarjan.push, hni], ?_⟩
    rcases hfrom with ⟨_, hv⟩ | ⟨q, rem, ds, e', _, hp, hB⟩
    · exact ⟨v, v, hv, hb, .refl, hni.1, Or.inr hni.2⟩
    · obtain ⟨i, h1, h2, h3⟩ := h.root q e' hp
      exact ⟨i, v, h1, h2, h3.tail hB, hni.1, Or.inr hni.2⟩
  | false =>
    left
    exact h.pushWeak hE hb hns hnc hfrom hX hni

end Tarjan
end LTL
end Verif
