import Verif.CPN.EvalLemmas
import Verif.CPN.Unfold

/-!
# The naive generator yields every legal binding once
-/

namespace Verif
namespace CPN

theorem mem_dedup {l : List Nat} {x : Nat} : x ∈ dedup l ↔ x ∈ l := by
  induction l with
  | nil => rfl
  | cons y l ih =>
    rw [dedup]
    split
    · rename_i h
      rw [ih, List.mem_cons]
      constructor
      · exact Or.inr
      · rintro (rfl | h') <;> assumption
    · rw [List.mem_cons, List.mem_cons, ih]

theorem nodup_dedup (l : List Nat) : (dedup l).Nodup := by
  induction l with
  | nil => exact List.nodup_nil
  | cons y l ih =>
    rw [dedup]
    split
    · exact ih
    · rename_i h
      rw [List.nodup_cons]
      exact ⟨fun hc => h (mem_dedup.1 hc), ih⟩

variable {T : Types} {vty : Nat → Nat}

def vsizes (T : Types) (vty : Nat → Nat) (vs : List Nat) : List Nat := vs.map fun v => T.size (vty v)

/-- the binding numbered `n` -/
def bnd (T : Types) (vty : Nat → Nat) (vs : List Nat) (n : Nat) : Binding := vs.zip (dec (vsizes T vty vs) n)

theorem bnd_cons (v : Nat) (vs : List Nat) (n : Nat) :
    bnd T vty (v :: vs) n = (v, n % T.size (vty v)) :: bnd T vty vs (n / T.size (vty v)) := rfl

theorem bnd_zero (vs : List Nat) : bnd T vty vs 0 = vs.map fun v => (v, 0) := by
  induction vs with
  | nil => rfl
  | cons v vs ih => rw [bnd_cons, Nat.zero_mod, Nat.zero_div, ih]; rfl

theorem succC_id {ty i : Nat} (h : i < T.size ty) : (succC T ⟨ty, i⟩).id = (i + 1) % T.size ty := by
  unfold succC
  simp only
  split
  · have : i + 1 = T.size ty := by omega
    rw [this, Nat.mod_self]
  · rw [Nat.mod_eq_of_lt (by omega)]

theorem incr_bnd (vs : List Nat) (hp : ∀ v ∈ vs, 0 < T.size (vty v)) (n : Nat) :
    incr T vty (bnd T vty vs n) = bnd T vty vs (n + 1) := by
  induction vs generalizing n with
  | nil => rfl
  | cons v vs ih =>
    have hv := hp v List.mem_cons_self
    rw [bnd_cons, bnd_cons, incr]
    have hs := succC_id (T := T) (ty := vty v) (Nat.mod_lt n hv)
    have hm : (n % T.size (vty v) + 1) % T.size (vty v) = (n + 1) % T.size (vty v) := by
      rw [Nat.add_mod n 1, Nat.add_mod (n % T.size (vty v)) 1, Nat.mod_mod]
    rw [hm] at hs
    rw [hs]
    by_cases hz : (n + 1) % T.size (vty v) = 0
    · rw [if_neg (fun hc => hc hz)]
      rw [ih fun u hu => hp u (List.mem_cons_of_mem _ hu)]
      have : (n + 1) / T.size (vty v) = n / T.size (vty v) + 1 := by
        rw [Nat.succ_div, if_pos (Nat.dvd_of_mod_eq_zero hz)]
      rw [this]
    · rw [if_pos hz]
      have : (n + 1) / T.size (vty v) = n / T.size (vty v) := by
        rw [Nat.succ_div, if_neg (fun hc => hz (Nat.mod_eq_zero_of_dvd hc))]; rfl
      rw [this]

theorem dec_add_prod (ns : List Nat) (hp : ∀ n ∈ ns, 0 < n) (k : Nat) : dec ns (k + ns.prod) = dec ns k := by
  induction ns generalizing k with
  | nil => rfl
  | cons n ns ih =>
    have hn := hp n List.mem_cons_self
    rw [dec, dec, List.prod_cons, Nat.add_mul_mod_self_left, Nat.add_mul_div_left _ _ hn,
      ih fun m hm => hp m (List.mem_cons_of_mem _ hm)]

theorem vsizes_pos {vs : List Nat} (hp : ∀ v ∈ vs, 0 < T.size (vty v)) : ∀ n ∈ vsizes T vty vs, 0 < n := by
  intro n hn
  obtain ⟨v, hv, rfl⟩ := List.mem_map.1 hn
  exact hp v hv

theorem prod_pos {ns : List Nat} (hp : ∀ n ∈ ns, 0 < n) : 0 < ns.prod := by
  induction ns with
  | nil => simp
  | cons n ns ih =>
    rw [List.prod_cons]
    exact Nat.mul_pos (hp n List.mem_cons_self) (ih fun m hm => hp m (List.mem_cons_of_mem _ hm))

theorem bnd_wrap (vs : List Nat) (hp : ∀ v ∈ vs, 0 < T.size (vty v)) : bnd T vty vs (vsizes T vty vs).prod = bnd T vty vs 0 := by
  unfold bnd
  have := dec_add_prod (vsizes T vty vs) (vsizes_pos hp) 0
  rw [Nat.zero_add] at this
  rw [this]

theorem isInitial_bnd (vs : List Nat) {n : Nat} (h : n < (vsizes T vty vs).prod) : isInitial (bnd T vty vs n) = true ↔ n = 0 := by
  induction vs generalizing n with
  | nil => simp [vsizes] at h; simp [bnd, isInitial, h]
  | cons v vs ih =>
    have h' : n < T.size (vty v) * (vsizes T vty vs).prod := by simpa [vsizes] using h
    have hq := Nat.div_lt_of_lt_mul h'
    rw [bnd_cons]
    have : isInitial ((v, n % T.size (vty v)) :: bnd T vty vs (n / T.size (vty v))) = true ↔
        n % T.size (vty v) = 0 ∧ isInitial (bnd T vty vs (n / T.size (vty v))) = true := by
      simp [isInitial]
    rw [this, ih hq]
    constructor
    · rintro ⟨h1, h2⟩
      have := Nat.mod_add_div n (T.size (vty v))
      rw [h1, h2] at this
      simpa using this.symm
    · rintro rfl
      simp

theorem lookup_bnd (vs : List Nat) (hn : vs.Nodup) {n : Nat} (h : n < (vsizes T vty vs).prod) {v : Nat} (hv : v ∈ vs) :
    ∃ i < T.size (vty v), (bnd T vty vs n).lookup v = some i := by
  induction vs generalizing n with
  | nil => cases hv
  | cons u vs ih =>
    rw [List.nodup_cons] at hn
    have h' : n < T.size (vty u) * (vsizes T vty vs).prod := by simpa [vsizes] using h
    have hu : 0 < T.size (vty u) := by
      rcases Nat.eq_zero_or_pos (T.size (vty u)) with hz | hz
      · rw [hz] at h'; simp at h'
      · exact hz
    rw [bnd_cons, List.lookup_cons]
    rcases List.mem_cons.1 hv with rfl | hv'
    · exact ⟨n % T.size (vty v), Nat.mod_lt _ hu, by simp⟩
    · have : (v == u) = false := by
        simp only [beq_eq_false_iff_ne, ne_eq]
        rintro rfl
        exact hn.1 hv'
      rw [this]
      exact ih hn.2 (Nat.div_lt_of_lt_mul h') hv'

/-- the assignment of values of a binding of the code -/
def rho (T : Types) (vty : Nat → Nat) (b : Binding) (v : Nat) : Val := T.value ⟨vty v, (b.lookup v).getD 0⟩

theorem agree_rho (vs : List Nat) (hn : vs.Nodup) {n : Nat} (h : n < (vsizes T vty vs).prod) :
    Agree T vty (bnd T vty vs n) (rho T vty (bnd T vty vs n)) vs := by
  intro v hv
  obtain ⟨i, hi, hl⟩ := lookup_bnd vs hn h hv
  exact ⟨i, hi, hl, by unfold rho; rw [hl]; rfl⟩

theorem Agree.legal {b : Binding} {ρ : Nat → Val} {vs : List Nat} (h : Agree T vty b ρ vs) : ∀ v ∈ vs, ρ v ∈ T.values (vty v) := by
  intro v hv
  obtain ⟨i, hi, _, hr⟩ := h v hv
  exact (mem_values T).2 ⟨i, hi, hr.symm⟩

theorem exists_bnd (vs : List Nat) (hn : vs.Nodup) {ρ : Nat → Val} (h : ∀ v ∈ vs, ρ v ∈ T.values (vty v)) :
    ∃ n < (vsizes T vty vs).prod, Agree T vty (bnd T vty vs n) ρ vs := by
  induction vs with
  | nil => exact ⟨0, by simp [vsizes], fun v hv => (by cases hv)⟩
  | cons u vs ih =>
    rw [List.nodup_cons] at hn
    obtain ⟨n, hlt, ha⟩ := ih hn.2 fun v hv => h v (List.mem_cons_of_mem _ hv)
    obtain ⟨i, hi, hr⟩ := (mem_values T).1 (h u List.mem_cons_self)
    have hm : (i + T.size (vty u) * n) % T.size (vty u) = i := by rw [Nat.add_mul_mod_self_left, Nat.mod_eq_of_lt hi]
    have hd : (i + T.size (vty u) * n) / T.size (vty u) = n := by
      rw [Nat.add_mul_div_left _ _ (by omega), Nat.div_eq_of_lt hi, Nat.zero_add]
    refine ⟨i + T.size (vty u) * n, ?_, ?_⟩
    · have : (vsizes T vty (u :: vs)).prod = T.size (vty u) * (vsizes T vty vs).prod := by simp [vsizes]
      rw [this]
      calc i + T.size (vty u) * n < T.size (vty u) * (n + 1) := by rw [Nat.mul_succ]; omega
        _ ≤ _ := Nat.mul_le_mul_left _ hlt
    · intro v hv
      rw [bnd_cons, hm, hd, List.lookup_cons]
      by_cases hvu : v = u
      · subst hvu
        exact ⟨i, hi, by simp, hr.symm⟩
      · have : (v == u) = false := by simpa using hvu
        rw [this]
        exact ha v ((List.mem_cons.1 hv).resolve_left hvu)

theorem agree_inj (vs : List Nat) (hn : vs.Nodup) {ρ : Nat → Val} {m n : Nat} (hm : m < (vsizes T vty vs).prod)
    (hn' : n < (vsizes T vty vs).prod) (h1 : Agree T vty (bnd T vty vs m) ρ vs) (h2 : Agree T vty (bnd T vty vs n) ρ vs) :
    m = n := by
  induction vs generalizing m n with
  | nil => simp [vsizes] at hm hn'; omega
  | cons u vs ih =>
    rw [List.nodup_cons] at hn
    have hm1 : m < T.size (vty u) * (vsizes T vty vs).prod := by simpa [vsizes] using hm
    have hn1 : n < T.size (vty u) * (vsizes T vty vs).prod := by simpa [vsizes] using hn'
    have tail : ∀ {k : Nat}, Agree T vty (bnd T vty (u :: vs) k) ρ (u :: vs) → Agree T vty (bnd T vty vs (k / T.size (vty u))) ρ vs := by
      intro k h v hv
      obtain ⟨i, hi, hl, hr⟩ := h v (List.mem_cons_of_mem _ hv)
      rw [bnd_cons, List.lookup_cons] at hl
      have : (v == u) = false := by
        simp only [beq_eq_false_iff_ne, ne_eq]
        rintro rfl
        exact hn.1 hv
      rw [this] at hl
      exact ⟨i, hi, hl, hr⟩
    have head : ∀ {k : Nat}, Agree T vty (bnd T vty (u :: vs) k) ρ (u :: vs) → k % T.size (vty u) < T.size (vty u) ∧
        ρ u = T.value ⟨vty u, k % T.size (vty u)⟩ := by
      intro k h
      obtain ⟨i, hi, hl, hr⟩ := h u List.mem_cons_self
      rw [bnd_cons, List.lookup_cons] at hl
      simp only [beq_self_eq_true, Option.some.injEq] at hl
      subst hl
      exact ⟨hi, hr⟩
    have e1 := ih hn.2 (Nat.div_lt_of_lt_mul hm1) (Nat.div_lt_of_lt_mul hn1) (tail h1) (tail h2)
    obtain ⟨i1, r1⟩ := head h1
    obtain ⟨i2, r2⟩ := head h2
    have e2 := value_inj T i1 i2 (r1.symm.trans r2)
    rw [← Nat.mod_add_div m (T.size (vty u)), ← Nat.mod_add_div n (T.size (vty u)), e1, e2]

/-! ### The generator -/

section
variable {vs : List Nat} {g : Option Guard} {ok : Nat → Bool}

theorem next_spec (hp : ∀ v ∈ vs, 0 < T.size (vty v))
    (hg : ∀ n, n < (vsizes T vty vs).prod → guardEval T vty (bnd T vty vs n) g = some (ok n)) (fuel n : Nat)
    (hn : n < (vsizes T vty vs).prod) :
    (fuel < (vsizes T vty vs).prod - n ∧ nextBinding T vty g fuel (bnd T vty vs n) = none) ∨
    (nextBinding T vty g fuel (bnd T vty vs n) = some (bnd T vty vs 0) ∧ ∀ m, n < m → m < (vsizes T vty vs).prod → ok m = false) ∨
    (∃ m, nextBinding T vty g fuel (bnd T vty vs n) = some (bnd T vty vs m) ∧ n < m ∧ m < (vsizes T vty vs).prod ∧ ok m = true ∧
      ∀ k, n < k → k < m → ok k = false) := by
  induction fuel generalizing n with
  | zero => exact Or.inl ⟨by omega, rfl⟩
  | succ f ih =>
    have hinit : isInitial (bnd T vty vs 0) = true := (isInitial_bnd vs (by omega)).2 rfl
    rw [nextBinding]
    rw [incr_bnd vs hp]
    by_cases hlast : n + 1 = (vsizes T vty vs).prod
    · rw [hlast, bnd_wrap vs hp, if_pos hinit]
      exact Or.inr (Or.inl ⟨rfl, fun m h1 h2 => absurd h2 (by omega)⟩)
    · have hlt : n + 1 < (vsizes T vty vs).prod := by omega
      rw [if_neg (fun hc => absurd ((isInitial_bnd vs hlt).1 hc) (by omega)), hg _ hlt]
      cases ho : ok (n + 1) with
      | true => exact Or.inr (Or.inr ⟨n + 1, rfl, by omega, hlt, ho, fun k h1 h2 => absurd h2 (by omega)⟩)
      | false =>
        simp only
        rcases ih (n + 1) hlt with ⟨h1, h2⟩ | ⟨h1, h2⟩ | ⟨m, h1, h2, h3, h4, h5⟩
        · exact Or.inl ⟨by omega, h2⟩
        · refine Or.inr (Or.inl ⟨h1, fun m h3 h4 => ?_⟩)
          by_cases hm : m = n + 1
          · rw [hm, ho]
          · exact h2 m (by omega) h4
        · refine Or.inr (Or.inr ⟨m, h1, by omega, h3, h4, fun k h6 h7 => ?_⟩)
          by_cases hk : k = n + 1
          · rw [hk, ho]
          · exact h5 k (by omega) h7

theorem iterate_spec (hp : ∀ v ∈ vs, 0 < T.size (vty v))
    (hg : ∀ n, n < (vsizes T vty vs).prod → guardEval T vty (bnd T vty vs n) g = some (ok n)) (fuel n : Nat)
    (hn : n < (vsizes T vty vs).prod) :
    (fuel < (vsizes T vty vs).prod - n ∧ iterate T vty g fuel (bnd T vty vs n) = none) ∨
    ∃ ms : List Nat, iterate T vty g fuel (bnd T vty vs n) = some (ms.map (bnd T vty vs)) ∧ ms.Pairwise (· < ·) ∧
      ∀ m, m ∈ ms ↔ m = n ∨ (n < m ∧ m < (vsizes T vty vs).prod ∧ ok m = true) := by
  induction fuel generalizing n with
  | zero => exact Or.inl ⟨by omega, rfl⟩
  | succ f ih =>
    have hinit : isInitial (bnd T vty vs 0) = true := (isInitial_bnd vs (by omega)).2 rfl
    rw [iterate]
    rcases next_spec hp hg (f + 1) n hn with ⟨h1, h2⟩ | ⟨h1, h2⟩ | ⟨m, h1, h2, h3, h4, h5⟩
    · rw [h2]
      exact Or.inl ⟨h1, rfl⟩
    · rw [h1]
      simp only
      rw [if_pos hinit]
      refine Or.inr ⟨[n], rfl, List.pairwise_singleton _ _, fun m => ?_⟩
      rw [List.mem_singleton]
      constructor
      · exact Or.inl
      · rintro (h | ⟨h3, h4, h5⟩)
        · exact h
        · rw [h2 m h3 h4] at h5; cases h5
    · rw [h1]
      simp only
      rw [if_neg (fun hc => absurd ((isInitial_bnd vs h3).1 hc) (by omega))]
      rcases ih m h3 with ⟨h6, h7⟩ | ⟨ms, h6, h7, h8⟩
      · rw [h7]
        exact Or.inl ⟨by omega, rfl⟩
      · rw [h6]
        refine Or.inr ⟨n :: ms, rfl, ?_, fun k => ?_⟩
        · rw [List.pairwise_cons]
          refine ⟨fun k hk => ?_, h7⟩
          rcases (h8 k).1 hk with h | h <;> omega
        · rw [List.mem_cons, h8]
          constructor
          · rintro (h | h | ⟨h9, h10, h11⟩)
            · exact Or.inl h
            · exact Or.inr (h ▸ ⟨h2, h3, h4⟩)
            · exact Or.inr ⟨by omega, h10, h11⟩
          · rintro (h | ⟨h9, h10, h11⟩)
            · exact Or.inl h
            · rcases Nat.lt_trichotomy k m with hk | hk | hk
              · rw [h5 k h9 hk] at h11; cases h11
              · exact Or.inr (Or.inl hk)
              · exact Or.inr (Or.inr ⟨hk, h10, h11⟩)

end

theorem naive_spec {t : CTrans} {ok : Nat → Bool} (hp : ∀ v ∈ t.vars, 0 < T.size (vty v))
    (hg : ∀ n, n < (vsizes T vty t.vars).prod → guardEval T vty (bnd T vty t.vars n) t.guard = some (ok n)) (fuel : Nat) :
    (fuel < (vsizes T vty t.vars).prod ∧ naiveBindings T vty fuel t = none) ∨
    ∃ ms : List Nat, naiveBindings T vty fuel t = some (ms.map (bnd T vty t.vars)) ∧ ms.Pairwise (· < ·) ∧
      ∀ m, m ∈ ms ↔ m < (vsizes T vty t.vars).prod ∧ ok m = true := by
  have hpos : 0 < (vsizes T vty t.vars).prod := prod_pos (vsizes_pos hp)
  have h0 : firstBinding t = bnd T vty t.vars 0 := (bnd_zero t.vars).symm
  unfold naiveBindings
  rw [h0, hg 0 hpos]
  cases hok : ok 0 with
  | true =>
    simp only
    rcases iterate_spec hp hg fuel 0 hpos with ⟨h1, h2⟩ | ⟨ms, h1, h2, h3⟩
    · exact Or.inl ⟨by omega, h2⟩
    · refine Or.inr ⟨ms, h1, h2, fun m => ?_⟩
      rw [h3]
      constructor
      · rintro (rfl | ⟨_, h⟩)
        · exact ⟨hpos, hok⟩
        · exact h
      · rintro ⟨h4, h5⟩
        rcases Nat.eq_zero_or_pos m with h | h
        · exact Or.inl h
        · exact Or.inr ⟨h, h4, h5⟩
  | false =>
    simp only
    rcases next_spec hp hg fuel 0 hpos with ⟨h1, h2⟩ | ⟨h1, h2⟩ | ⟨m, h1, h2, h3, h4, h5⟩
    · rw [h2]
      exact Or.inl ⟨by omega, rfl⟩
    · rw [h1]
      simp only
      rw [hg 0 hpos, hok]
      refine Or.inr ⟨[], rfl, List.Pairwise.nil, fun m => ?_⟩
      constructor
      · intro h; cases h
      · rintro ⟨h3, h4⟩
        rcases Nat.eq_zero_or_pos m with h | h
        · subst h; rw [hok] at h4; cases h4
        · rw [h2 m h h3] at h4; cases h4
    · rw [h1]
      simp only
      rw [hg m h3, h4]
      simp only
      rcases iterate_spec hp hg fuel m h3 with ⟨h6, h7⟩ | ⟨ms, h6, h7, h8⟩
      · exact Or.inl ⟨by omega, h7⟩
      · refine Or.inr ⟨ms, h6, h7, fun k => ?_⟩
        rw [h8]
        constructor
        · rintro (rfl | ⟨_, h⟩)
          · exact ⟨h3, h4⟩
          · exact h
        · rintro ⟨h9, h10⟩
          rcases Nat.lt_trichotomy k m with hk | hk | hk
          · rcases Nat.eq_zero_or_pos k with h | h
            · subst h; rw [hok] at h10; cases h10
            · rw [h5 k h hk] at h10; cases h10
          · exact Or.inl hk
          · exact Or.inr ⟨hk, h9, h10⟩

end CPN
end Verif
