import Verif.Search.Main
import Verif.Net.FlatLemmas

/-! # The search on a flat net with the plain successor generator -/

namespace Verif
namespace FlatNet

/-- The loop `while (generator.next(working))` from generator state `s` on: transitions fired with
the markings written, and whether the loop ends by the token-limit exception. -/
def genList (N : FlatNet) (m : Nat → Nat) (pred : Nat → Bool) :
    Nat → GenState → List (Nat × (Nat → Nat)) × Bool
  | 0, _ => ([], false)
  | fuel + 1, s =>
    match N.next m pred s with
    | none => ([], false)
    | some (t, s') =>
      match N.fire m t with
      | none => ([], true)
      | some m' => ((t, m') :: (genList N m pred fuel s').1, (genList N m pred fuel s').2)

/-- models the use of include/PetriEngine/SuccessorGenerator.h:40-44 in
include/PetriEngine/Reachability/ReachabilitySearch.h:186-187: `prepare(&state)` and then `next`
until it returns false (at most one call per transition, see `enumFrom_fuel`). -/
def succGen (N : FlatNet) (pred : Nat → Bool) (m : Nat → Nat) : List (Nat × (Nat → Nat)) × Bool :=
  genList N m pred (N.ntransitions + 1) genInit

theorem genList_enum (N : FlatNet) (m : Nat → Nat) (pred : Nat → Bool) : ∀ fuel s,
    match enumFrom N m pred fuel s with
    | .ok (l, _) => genList N m pred fuel s = (l, false)
    | .error _ => (genList N m pred fuel s).2 = true
  | 0, s => by simp [enumFrom, genList]
  | fuel + 1, s => by
    have ih := genList_enum N m pred fuel
    simp only [enumFrom, genList]
    cases N.next m pred s with
    | none => simp
    | some x =>
      obtain ⟨t, s'⟩ := x
      simp only
      cases N.fire m t with
      | none => simp
      | some m' =>
        simp only
        have := ih s'
        revert this
        cases enumFrom N m pred fuel s' with
        | error e => simp
        | ok r =>
          obtain ⟨l, b⟩ := r
          simp only
          intro h
          rw [h]

theorem genList_sound {N : FlatNet} (w : N.WF) (m : Nat → Nat) (pred : Nat → Bool) :
    ∀ fuel s, GenOK N s → ∀ x ∈ (genList N m pred fuel s).1, x.1 < N.ntransitions ∧
      N.checkPreset m x.1 = true ∧ pred x.1 = true ∧ N.fire m x.1 = some x.2
  | 0, s, _, x, hx => by simp [genList] at hx
  | fuel + 1, s, hs, x, hx => by
    have hn := next_spec w m pred s hs
    simp only [genList] at hx
    revert hn hx
    cases N.next m pred s with
    | none => simp
    | some y =>
      obtain ⟨t, s'⟩ := y
      simp only
      intro hx hn
      revert hx
      cases hf : N.fire m t with
      | none => simp
      | some m' =>
        simp only [List.mem_cons]
        rintro (rfl | hx)
        · have := hn.2.2.1
          rw [Bool.and_eq_true] at this
          exact ⟨hn.2.1, this.1, this.2, hf⟩
        · exact genList_sound w m pred fuel s' hn.2.2.2.2.1 x hx

variable {N : FlatNet}

theorem succGen_step (w : N.WF) (pred : Nat → Bool) {m : Nat → Nat}
    (hm : ∀ p, p < N.nplaces → m p < W32) {x : Nat × (Nat → Nat)} (hx : x ∈ (N.succGen pred m).1) :
    ∃ t : Fin N.ntransitions, t.val = x.1 ∧ pred t = true ∧ N.toNet.Step m t x.2 ∧
      ∀ p, p < N.nplaces → x.2 p < W32 := by
  obtain ⟨h1, h2, h3, h4⟩ := genList_sound w m pred _ _ (genInit_ok w) x hx
  have he := (checkPreset_iff w m ⟨x.1, h1⟩).1 h2
  have hs := fire_spec w m hm ⟨x.1, h1⟩ he
  simp only at hs
  rw [h4] at hs
  exact ⟨⟨x.1, h1⟩, rfl, h3, ⟨he, hs.1⟩, hs.2⟩

theorem succGen_complete (w : N.WF) (pred : Nat → Bool) {m : Nat → Nat}
    (hm : ∀ p, p < N.nplaces → m p < W32) (hno : (N.succGen pred m).2 = false)
    {t : Fin N.ntransitions} {m' : Nat → Nat} (hp : pred t = true) (hs : N.toNet.Step m t m') :
    (t.val, m') ∈ (N.succGen pred m).1 := by
  have hen := genList_enum N m pred (N.ntransitions + 1) genInit
  unfold succGen at *
  rcases enumFrom_fuel w m pred (N.ntransitions + 1) genInit (genInit_ok w) (by omega) with ⟨l, hl⟩ | ⟨he, _⟩
  · rw [hl] at hen
    simp only at hen
    rw [hen]
    obtain ⟨h1, _, h3⟩ := enumFrom_ok w m pred _ genInit l true (genInit_ok w) hl
    rw [pos_genInit w] at h3
    obtain ⟨x, hx, hxt⟩ := h3 rfl t (Nat.zero_le _) t.2 ((checkPreset_iff w m t).2 hs.1) hp
    have hfr := (h1 x hx).2.2.2.2
    have hsp := fire_spec w m hm t hs.1
    rw [hxt] at hfr
    rw [hfr] at hsp
    have : x = (t.val, m') := by
      ext1
      · exact hxt
      · rw [hs.2]; exact hsp.1
    rwa [← this]
  · rw [he] at hen
    simp only at hen
    rw [hen] at hno
    simp at hno

theorem step_tail (w : N.WF) {m m' : Nat → Nat} {t : Fin N.ntransitions} (hs : N.toNet.Step m t m')
    (p : Nat) (hp : N.nplaces ≤ p) : m' p = m p := by
  obtain ⟨he, rfl⟩ := hs
  have h1 := post_lt w t p hp
  have h2 : N.toNet.pre t p = 0 := by
    simp only [toNet]
    split
    · rename_i i hi
      have hmem := List.mem_of_find?_eq_some hi
      have hpl := List.find?_some hi
      simp only [Bool.and_eq_true, beq_iff_eq] at hpl
      have : i ∈ N.invariants := by
        unfold preset slice at hmem
        exact List.mem_of_mem_drop (List.mem_of_mem_take hmem)
      have := w.place_lt i this
      omega
    · rfl
  simp [Net.fire, h1, h2]

end FlatNet

namespace Search
open Queue StateSet FlatNet

variable {Q : Type} {E : Env Q} {N : FlatNet}

theorem genOK_of_net (w : N.WF) (hT : N.ntransitions ≤ W32) (hp : E.places = N.nplaces)
    (hg : E.gen = N.succGen (fun _ => true)) : Search.GenOK E := by
  intro m hm x hx
  rw [hg] at hx
  rw [hp] at hm
  obtain ⟨t, h1, _, h3, h4⟩ := succGen_step w _ hm hx
  refine ⟨by rw [← h1]; omega, by rw [hp]; exact h4, fun p hpp => ?_⟩
  rw [hp] at hpp
  exact step_tail w h3 p hpp

/-- Generator paths are runs of the net, and 32-bit. -/
theorem GPath.run (w : N.WF) (hp : E.places = N.nplaces) (hg : E.gen = N.succGen (fun _ => true))
    (hm0 : ∀ p, p < E.places → E.m0 p < W32) {ts : List Nat} {m : Nat → Nat} (h : GPath E ts m) :
    (∃ us : List (Fin N.ntransitions), us.map Fin.val = ts ∧
      N.toNet.RunWithin (InB E.kbound E.places) E.m0 us m) ∧ ∀ p, p < N.nplaces → m p < W32 := by
  induction h with
  | nil h => exact ⟨⟨[], rfl, .nil h⟩, by rw [← hp]; exact hm0⟩
  | snoc _ hmem hinb ih =>
    obtain ⟨⟨us, rfl, hr⟩, hv⟩ := ih
    rw [hg] at hmem
    obtain ⟨t, h1, _, h3, h4⟩ := succGen_step w _ hv hmem
    exact ⟨⟨us ++ [t], by simp [h1], hr.snoc _ h3 hinb⟩, h4⟩

/-- If the generator never throws on what it reaches, it reaches everything the net reaches. -/
theorem gpath_of_run (w : N.WF) (hp : E.places = N.nplaces) (hg : E.gen = N.succGen (fun _ => true))
    (hm0 : ∀ p, p < E.places → E.m0 p < W32) (hno : ∀ ts m, GPath E ts m → (E.gen m).2 = false)
    {us : List (Fin N.ntransitions)} {m1 m2 : Nat → Nat} {ts : List Nat} (h1 : GPath E ts m1)
    (hr : N.toNet.RunWithin (InB E.kbound E.places) m1 us m2) : ∃ ts', GPath E ts' m2 := by
  induction hr generalizing ts with
  | nil _ => exact ⟨ts, h1⟩
  | @cons a t b us c ha hs hr ih =>
    have hv := (h1.run w hp hg hm0).2
    have hn := hno _ _ h1
    rw [hg] at hn
    have hmem := succGen_complete w _ hv hn rfl hs
    refine ih (.snoc h1 (by rw [hg]; exact hmem) ?_)
    cases hr with
    | nil h => exact h
    | cons h _ _ => exact h

end Search
end Verif
