import Verif.Net.Flat

/-! Concrete nets used by the non-vacuity examples. -/

namespace Verif.Examples
open Verif

/-- Three places, three transitions: `t0` is an orphan (only an inhibitor arc from place 2, weight 2,
produces 1 on place 0), `t1` moves 2 tokens from place 0 to 1 token on place 1,
`t2` consumes from places 1 and produces to places 0 and 2. -/
def net3 : FlatNet where
  nplaces := 3
  ntransitions := 3
  ninvariants := 7
  transitions := [⟨0, 1⟩, ⟨2, 3⟩, ⟨4, 5⟩, ⟨7, 7⟩]
  invariants := [⟨2, 2, true, 0⟩, ⟨0, 1, false, 1⟩,
                 ⟨0, 2, false, -1⟩, ⟨1, 1, false, 1⟩,
                 ⟨1, 1, false, -1⟩, ⟨0, 1, false, 1⟩, ⟨2, 1, false, 1⟩]
  placeToPtrs := [0, 2, 3, 3]
  controllable := [true, true, true]

theorem net3_wf : net3.WF where
  places_pos := by decide
  len_trans := by decide
  len_inv := by decide
  len_ptr := by decide
  ptr_zero := by decide
  ptr_mono := by decide
  ptr_last := by decide
  in_out := by decide
  out_in := by decide
  last_in := by decide
  place_lt := by decide
  tokens_pos := by decide
  tokens_lt := by decide
  pre_nodup := by decide
  post_nodup := by decide
  block := by
    intro p t h1 h2 h3 h4
    have hp : p = 1 ∨ p = 2 := by simp only [net3] at h2; omega
    rcases hp with rfl | rfl
    · have : t = 2 := by
        simp [FlatNet.ptr, net3] at h3 h4; omega
      subst this; decide
    · simp [FlatNet.ptr, net3] at h3 h4; omega

/-- A marking of `net3`: 3 tokens on place 0, none on 1, 1 on place 2. -/
def mark3 : Nat → Nat := fun p => if p = 0 then 3 else if p = 2 then 1 else 0

/-- Two places, `t0` moves a token from place 0 to place 1 and `t1` moves it back. -/
def net2 : FlatNet where
  nplaces := 2
  ntransitions := 2
  ninvariants := 4
  transitions := [⟨0, 1⟩, ⟨2, 3⟩, ⟨4, 4⟩]
  invariants := [⟨0, 1, false, -1⟩, ⟨1, 1, false, 1⟩, ⟨1, 1, false, -1⟩, ⟨0, 1, false, 1⟩]
  placeToPtrs := [0, 1, 2]
  controllable := [true, true]

theorem net2_wf : net2.WF where
  places_pos := by decide
  len_trans := by decide
  len_inv := by decide
  len_ptr := by decide
  ptr_zero := by decide
  ptr_mono := by decide
  ptr_last := by decide
  in_out := by decide
  out_in := by decide
  last_in := by decide
  place_lt := by decide
  tokens_pos := by decide
  tokens_lt := by decide
  pre_nodup := by decide
  post_nodup := by decide
  block := by
    intro p t h1 h2 h3 h4
    have hp : p = 1 := by simp only [net2] at h2; omega
    subst hp
    have : t = 1 := by simp [FlatNet.ptr, net2] at h3 h4; omega
    subst this; decide

/-- One token, on place 0. -/
def mark2 : Nat → Nat := fun p => if p = 0 then 1 else 0

/-- The token on place 1. -/
def mark2' : Nat → Nat := fun p => if p = 1 then 1 else 0

end Verif.Examples
