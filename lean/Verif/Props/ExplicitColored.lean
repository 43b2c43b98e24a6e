import Verif.XCol.SearchLemmas

/-!
# C51, C52, C53: the explicit coloured engine
-/

namespace Verif
namespace ExplicitColoredProps
open XCol Colored CPN

/-! ## C51: successors -/

/-- C51: in every state, whichever generator is used, calling it until it is done yields successors by exactly the firings of the
coloured net.  The conditions on the net (`XFit`) are those whose failure the findings below show to matter. -/
theorem C51_successors_partial {N : CNet} {X : XNet} (w : XFit N X) {m : XMark} (hm : MOK N m) (even : Bool) (id : Nat) :
    ∃ n, ∀ fuel, n ≤ fuel → (X.trans.length ≠ 0 ∨ even = false) → ∃ l, drain X m id fuel (Gen.new X even) (fun _ => none) = some l ∧
      ∀ t M', (∃ ρ, N.Step (abs N m) t ρ M') ↔ ∃ e ∈ l, e.1 = t ∧ abs N e.2 = M' := by
  refine ⟨2 * fullSum X.trans + 1, fun fuel hfuel h0 => ?_⟩
  by_cases hz : X.trans.length = 0
  · obtain rfl : even = false := by rcases h0 with h | h; exacts [absurd hz h, h]
    obtain ⟨fuel, rfl⟩ := Nat.exists_eq_add_of_le' (show 1 ≤ fuel by omega)
    have hnil : X.trans = [] := List.length_eq_zero_iff.1 hz
    refine ⟨[], ?_, fun t M' => ⟨?_, (fun ⟨e, he, _⟩ => by cases he)⟩⟩
    · rw [drain]
      simp only [Gen.new, Bool.false_eq_true, if_false, Gen.next]
      rw [hnil]
      rfl
    · rintro ⟨ρ, hs, _⟩
      rw [← (build_trans w.ok w.built).1] at hs
      omega
  · obtain ⟨n1, n2, n3⟩ := new_ok w m even hz
    obtain ⟨l, e1, e2, e3⟩ := drain_ok w hm (id := id) fuel (Gen.new X even) (fun _ => none) n1 (fun t x _ d hd => by cases hd) (by omega)
    refine ⟨l, e1, fun t M' => ⟨?_, ?_⟩⟩
    · rintro ⟨ρ, hs⟩
      obtain ⟨x, K, f1, _, f2⟩ := step_findAt w hm hs
      exact e3 t x K M' f1 f2 (n3 t K (List.getElem?_eq_some_iff.1 f1).1)
    · rintro ⟨e, he, rfl, rfl⟩
      exact (e2 e he).2

/-- C51: a binding that is found is a firing, whatever is in the cache and wherever the search begins. -/
theorem C51_binding_sound {N : CNet} {X : XNet} (w : XFit N X) {m : XMark} (hm : MOK N m) {t : Nat} {x : XTrans} (hx : X.trans[t]? = some x)
    {b : Bind} {cache : Option CData} (hcache : CacheOK X m x cache) {k : Nat} {b' : Bind} (hf : (findNext X m x 0 b cache).2 = some (k, b')) :
    N.Step (abs N m) t (asg N.types N.vty b') (abs N (fire m x b')) ∧ MOK N (fire m x b') :=
  ⟨(found_step w hm hx hcache (fun h => absurd rfl h) hf).2.2.1, (found_step w hm hx hcache (fun h => absurd rfl h) hf).2.2.2⟩

/-- C51: fireability and deadlock are decided right. -/
theorem C51_enabled {N : CNet} {X : XNet} (w : XFit N X) {m : XMark} (hm : MOK N m) {id : Nat} {c : Cache} (hc : CacheFor X m id c) (t : Nat) :
    (((canFire X m id t c).2 = true) ↔ ∃ ρ M', N.Step (abs N m) t ρ M') ∧
    (((deadLoop X m id X.trans.length 0 c).2 = true) ↔ ∀ u ρ M', ¬N.Step (abs N m) u ρ M') := by
  refine ⟨(eval_ok w hm (.fire t) trivial hc).2.2, (eval_ok w hm .dead trivial hc).2.2.trans ?_⟩
  exact ⟨fun h u ρ M' hs => h u ⟨ρ, M', hs⟩, fun h u ⟨ρ, M', hs⟩ => h u ρ M' hs⟩

/-- C51: the keys of the cache of different states and transitions differ, while there are at most 2^16 transitions and 2^48 states. -/
theorem C51_keys {i j t u : Nat} (hi : i < 2 ^ 48) (hj : j < 2 ^ 48) (ht : t < 2 ^ 16) (hu : u < 2 ^ 16) : getKey i t = getKey j u ↔ i = j ∧ t = u := by
  constructor
  · intro h
    have := getKey_inj ht hu h
    rw [Nat.mod_eq_of_lt hi, Nat.mod_eq_of_lt hj] at this
    exact this
  · rintro ⟨rfl, rfl⟩; rfl

/-! ## C52: the verdict -/

/-- C52: a verdict that the search reaches is right: for each order of the waiting list, for each generator, for `EF` and `AG`.  The
full claim, without the conditions, is refuted by the findings below. -/
theorem C52_verdict_partial {N : CNet} {X : XNet} (w : XFit N X) (ht : Tidy N) (hs : Small N) {q : XQ} (hq : q.fine) (ef even : Bool)
    (pick : Nat → Nat × Nat) {fuel : Nat} (hfuel : fuel < 2 ^ 48) {r : SRes} (h : search X q ef even pick fuel = some r) :
    (resultOf ef r = .satisfied → XCol.Holds N ef q) ∧ (resultOf ef r = .notSatisfied → ¬XCol.Holds N ef q) := by
  obtain ⟨r1, r2⟩ := (search_ok w ht hs hq (ef := ef) (even := even) pick fuel hfuel).1 r h
  unfold resultOf XCol.Holds
  cases hfo : r.found with
  | true =>
    obtain ⟨m, _, _, m3, m4⟩ := r1 hfo
    cases ef with
    | true => exact ⟨fun _ => ⟨_, m3, m4.2 rfl⟩, (fun h => by simp at h)⟩
    | false => exact ⟨(fun h => by simp at h), fun _ hall => absurd (m4.1 (hall _ m3)) (by simp)⟩
  | false =>
    cases hfu : r.full with
    | false => exact ⟨(fun h => by simp at h), (fun h => by simp at h)⟩
    | true =>
      have := r2 hfo hfu
      cases ef with
      | true =>
        refine ⟨(fun h => by simp at h), fun _ ⟨M, h1, h2⟩ => this M h1 ⟨fun _ => rfl, fun _ => h2⟩⟩
      | false =>
        refine ⟨fun _ M h1 => ?_, (fun h => by simp at h)⟩
        exact Classical.byContradiction fun hc => this M h1 ⟨fun h2 => absurd h2 hc, fun h2 => by cases h2⟩

/-- C52: if the encodings of all markings fit (6 bytes for a place and 4 for each colour, at most 65535 in all), the answer is
right. -/
theorem C52_answer_partial {N : CNet} {X : XNet} (w : XFit N X) (ht : Tidy N) (hs : Small N) {q : XQ} (hq : q.fine) (ef even : Bool)
    (hsz : (N.places.map fun p => 6 + 4 * N.types.size p.ty).sum ≤ 65535)
    (pick : Nat → Nat × Nat) {fuel : Nat} (hfuel : fuel < 2 ^ 48) {r : SRes} (h : search X q ef even pick fuel = some r) :
    answer ef r = true ↔ XCol.Holds N ef q := by
  obtain ⟨v1, v2⟩ := C52_verdict_partial w ht hs hq ef even pick hfuel h
  have hfull : r.full = true := by
    refine full_search (fits_of_sizes ?_) h
    obtain ⟨d1, d2, _, _⟩ := build_data w.built
    have : X.sizes.map (fun s => 6 + 4 * s) = N.places.map fun p => 6 + 4 * N.types.size p.ty := by
      unfold XNet.sizes
      rw [List.map_map, d1]
      apply List.ext_getElem
      · simp
      · intro i h1 h2
        simp only [List.length_map, List.length_range] at h1
        simp [d2, size_eq, CNet.place, h1]
    rw [this]; exact hsz
  unfold answer
  rw [decide_eq_true_iff]
  refine ⟨v1, fun hh => ?_⟩
  cases hr : resultOf ef r with
  | satisfied => rfl
  | notSatisfied => exact absurd hh (v2 hr)
  | unknown =>
    unfold resultOf at hr
    rw [hfull] at hr
    simp only [Bool.not_true, Bool.and_false, Bool.false_eq_true, if_false] at hr
    split at hr <;> cases hr

/-- C52: with finitely many reachable markings the search ends, after a number of rounds that depends only on the net. -/
theorem C52_terminates_partial {N : CNet} {X : XNet} (w : XFit N X) (ht : Tidy N) (hs : Small N) {q : XQ} (hq : q.fine) (ef even : Bool)
    (pick : Nat → Nat × Nat) {R : List CMark} (hR : ∀ M, N.Reach M → M ∈ R) {fuel : Nat}
    (h1 : (R.length + 1) * (2 * fullSum X.trans + 2) < fuel) (h2 : fuel < 2 ^ 48) : ∃ r, search X q ef even pick fuel = some r :=
  (search_ok w ht hs hq pick fuel h2).2 (R.length + 1) (marks_bound w hR) h1

/-! ## C53: traces -/

/-- C53: when the search finds a state, the trace from the initial state is found in the map of the states, its bindings are found
again, and it is a sequence of firings of the coloured net from the initial marking to a marking where the proposition has the value
sought. -/
theorem C53_trace_partial {N : CNet} {X : XNet} (w : XFit N X) (ht : Tidy N) (hs : Small N) {q : XQ} (hq : q.fine) (ef even : Bool)
    (pick : Nat → Nat × Nat) {fuel : Nat} (hfuel : fuel < 2 ^ 48) {r : SRes} (h : search X q ef even pick fuel = some r) (hf : r.found = true) :
    ∃ l steps M, getTrace r.map r.cex = some l ∧ replay X X.init l = some steps ∧
      Run N N.init (steps.map fun e => (e.1, asg N.types N.vty e.2.1, abs N e.2.2)) M ∧ (q.holds N M ↔ ef = true) := by
  obtain ⟨m, m1, m2, m3, m4⟩ := ((search_ok w ht hs hq (ef := ef) (even := even) pick fuel hfuel).1 r h).1 hf
  obtain ⟨l, st, t1, t2, _, t4⟩ := (path_trace w m1).2.2 r.cex (Nat.le_refl _)
  exact ⟨l.reverse, st, abs N m, by unfold getTrace; rw [t1]; rfl, t2, t4, m4⟩

/-! ## A net for which the theorems say something -/

namespace Example

/-- A token of a type of three colours moves on to the next colour, unless it has colour 2 or there is a token on `Q`. -/
def net : CNet where
  types := ⟨fun ty => if ty = 0 then 1 else 3, []⟩
  vty := fun _ => 1
  places := [⟨"P", 1, [(0, 1)]⟩, ⟨"Q", 0, []⟩]
  transitions := [⟨"t", some (.ne (.var 0) (.const ⟨1, 2⟩)), [⟨0, .num 1 [.var 0]⟩], [⟨0, .num 1 [.succ (.var 0)]⟩]⟩]
  inhibitors := [⟨1, 0, 1⟩]

def X : XNet := (build net).getD ⟨0, fun _ => [], fun _ => 0, [], fun _ => MS.empty⟩

theorem built : build net = some X := by
  unfold X
  have h : (build net).isSome = true := by decide +kernel
  obtain ⟨Y, hY⟩ := Option.isSome_iff_exists.1 h
  rw [hY]; rfl

theorem types_fit : TFit net.types where
  dot_plain := rfl
  dot_one := rfl
  pos := by
    intro ty s hs
    unfold Types.dims Types.parts at hs
    simp only [net, List.lookup_nil, List.mem_singleton] at hs
    subst hs
    split <;> omega
  small := by
    intro ty
    unfold Types.size Types.parts
    simp only [net, List.lookup_nil]
    split <;> omega

theorem xok : XOK net where
  types := types_fit
  guard := by
    intro t ht g hg
    simp only [net, List.mem_singleton] at ht
    subst ht
    simp only [Option.mem_def, Option.some.injEq] at hg
    subst hg
    refine ⟨⟨1, rfl, rfl, by decide⟩, trivial, ?_⟩
    simp [constOK, net, Types.parts]
  arcs := by
    intro t ht a ha
    simp only [net, List.mem_singleton] at ht
    subst ht
    simp only [List.mem_append, List.mem_singleton] at ha
    rcases ha with rfl | rfl
    · refine ⟨⟨by simp, fun e he => ?_⟩, fun e he => ?_, fun h => by simp [CExpr.varsL, CExpr.vars] at h⟩
      · obtain rfl := List.mem_singleton.1 he; rfl
      · obtain rfl := List.mem_singleton.1 he; trivial
    · refine ⟨⟨by simp, fun e he => ?_⟩, fun e he => ?_, fun h => by simp [CExpr.varsL, CExpr.vars] at h⟩
      · obtain rfl := List.mem_singleton.1 he; exact ⟨rfl, rfl⟩
      · obtain rfl := List.mem_singleton.1 he; simp [constOK]
  marking := by
    intro pl hpl
    simp only [net, List.mem_cons, List.not_mem_nil, or_false] at hpl
    rcases hpl with rfl | rfl
    · exact ⟨by simp, by simp [net, Types.size, Types.parts]⟩
    · exact ⟨by simp, by simp⟩

theorem tidy : Tidy net where
  arcs := by
    intro t ht a ha
    simp only [net, List.mem_singleton] at ht
    subst ht
    simp only [List.mem_append, List.mem_singleton] at ha
    rcases ha with rfl | rfl <;> decide
  pos := by decide

theorem fit : XFit net X where
  ok := xok
  built := built
  single := by
    intro t ht
    simp only [net, List.mem_singleton] at ht
    subst ht
    decide
  min := by
    intro x hx a ha
    obtain ⟨t, ht⟩ := List.getElem?_of_mem hx
    have hall : (X.trans.all fun x => x.inputs.all fun a => a.2.noSub) = true := by decide +kernel
    have h1 := List.all_eq_true.1 (List.all_eq_true.1 hall x hx) a ha
    refine minOK_of_noSub ?_ h1
    obtain ⟨e, e1, e2, e3⟩ := ((build_trans xok built).2 t x ht).inputs a ha
    have hm := trans_mem ((build_trans xok built).2 t x ht).lt
    obtain ⟨t1, t2, t3⟩ := xok.arcs _ hm e (List.mem_append_left _ e1)
    exact (compile_ok types_fit t1 t2 t3 e3).1
  cons := by
    intro t x hx h
    have hall : (X.trans.all fun x => decide (x.total ≤ 30)) = true := by decide +kernel
    have := of_decide_eq_true (List.all_eq_true.1 hall x (List.mem_of_getElem? hx))
    omega
  few := by
    rw [(build_trans xok built).1]
    decide

/-- the marking with the token at a colour -/
def at_ (c : Nat) : CMark := fun p x => if p = 0 ∧ x = [c] then 1 else 0

theorem reach {M : CMark} (h : net.Reach M) : ∃ c < 3, M = at_ c := by
  induction h with
  | init =>
    refine ⟨0, by omega, ?_⟩
    funext p x
    match p with
    | 0 =>
      have h1 : net.types.value ⟨1, 0⟩ = [0] := by decide
      simp [CNet.init, net, CNet.place, at_] at h1 ⊢
      rw [h1]
      by_cases hx : x = [0] <;> simp [hx, eq_comm]
    | 1 => simp [CNet.init, net, CNet.place, at_]
    | p + 2 => simp [CNet.init, net, CNet.place, at_]
  | @step M M' t ρ _ hs ih =>
    obtain ⟨c, hc, rfl⟩ := ih
    obtain ⟨h1, _, ⟨h3, _⟩, rfl⟩ := hs
    obtain rfl : t = 0 := by have : net.transitions.length = 1 := rfl; omega
    have hin : ∀ p x, arcsTokens net ρ (net.trans 0).inputs p x = if 0 = p then [ρ 0].count x else 0 := fun p x => by
      simp [arcsTokens, net, CNet.trans, tokens, den]
    have hout : ∀ p x, arcsTokens net ρ (net.trans 0).outputs p x = if 0 = p then [(ρ 0).map fun i => (i + 1) % 3].count x else 0 := fun p x => by
      simp [arcsTokens, net, CNet.trans, tokens, den, tyOf]
    have hρ : ρ 0 = [c] := by
      have := h3 0 (ρ 0)
      rw [hin, if_pos rfl, List.count_singleton_self] at this
      unfold at_ at this
      split at this
      · rename_i h; exact h.2
      · omega
    refine ⟨(c + 1) % 3, by omega, ?_⟩
    funext p x
    unfold CNet.fire
    rw [hin, hout, hρ]
    unfold at_
    by_cases hp : p = 0
    · subst hp
      simp only [true_and, if_true, List.map_cons, List.map_nil, List.count_singleton, beq_iff_eq, eq_comm (b := x)]
      split <;> omega
    · rw [if_neg (fun h => hp h.1), if_neg (fun h => hp h.symm), if_neg (fun h => hp h.symm), if_neg (fun h => hp h.1)]

theorem small : Small net := fun M hM p x => by
  obtain ⟨c, _, rfl⟩ := reach hM
  unfold at_
  split <;> omega

/-- C51, C52, C53 apply to the net. -/
example : XFit net X ∧ Tidy net ∧ Small net ∧ (∃ R : List CMark, ∀ M, net.Reach M → M ∈ R) ∧
    (net.places.map fun p => 6 + 4 * net.types.size p.ty).sum ≤ 65535 :=
  ⟨fit, tidy, small, ⟨[at_ 0, at_ 1, at_ 2], fun M hM => by
    obtain ⟨c, hc, rfl⟩ := reach hM
    match c, hc with
    | 0, _ => simp
    | 1, _ => simp
    | 2, _ => simp⟩, by decide⟩

/-- the token gets stuck: found after two firings, with both generators; and there is always one token on `P` -/
example : (search X .dead true false (fun n => (n, n)) 50).map (fun r => (answer true r, getTrace r.map r.cex)) = some (true, some [(0, 0), (0, 1)]) ∧
    (search X .dead true true (fun n => (0, n)) 50).map (fun r => (answer true r, getTrace r.map r.cex)) = some (true, some [(0, 0), (0, 1)]) ∧
    (search X (.eq (.place 0) (.lit 1)) false true (fun n => (n, n)) 50).map (answer false) = some true ∧
    (search X (.lt (.place 1) (.place 0)) true true (fun n => (n, n)) 50).map (answer true) = some true ∧
    (search X (.and .dead (.fire 0)) true true (fun n => (n, n)) 50).map (answer true) = some false := by decide +kernel

/-- the successors of the initial state -/
example : (drain X X.init 0 9 (Gen.new X true) fun _ => none).map (List.map fun e => (e.1, (e.2 0).counts)) = some [(0, [(0, 0), (1, 1)])] := by
  decide +kernel

end Example

end ExplicitColoredProps
end Verif
