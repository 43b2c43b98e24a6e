import Verif.Net.BuilderFinal

/-! # The direction stored with every arc is the sign of the transition's effect on the place -/

namespace Verif

/-- The `direction` of every arc is the sign of the effect of the transition on the place. -/
def FlatNet.DirOK (N : FlatNet) : Prop :=
  ∀ (t : Fin N.ntransitions) (i : Invariant), (i ∈ N.preset t ∨ i ∈ N.postset t) →
    i.direction = Int.sign ((N.toNet.post t i.place : Int) - (N.toNet.pre t i.place : Int))

namespace Builder

theorem find_map_dir (l : List Invariant) (f : Invariant → Int) (q : Nat) :
    (l.map fun i => { i with direction := f i }).find? (fun o => o.place == q) =
    (l.find? (fun o => o.place == q)).map fun i => { i with direction := f i } := by
  induction l with
  | nil => rfl
  | cons a l ih =>
    simp only [List.map_cons, List.find?_cons]
    cases (a.place == q) <;> simp [ih]

theorem find_nodup {l : List Invariant} (hn : (l.map Invariant.place).Nodup) {i : Invariant} (hi : i ∈ l) :
    l.find? (fun o => o.place == i.place) = some i := by
  have := (find_char hn i.place (fun _ => true) i).2 ⟨hi, rfl, rfl⟩
  simpa using this

variable {B : Builder} {c : Compiled} {order em : List Nat} {blocks : List (List Nat)}

/-- reading `pre` off the first arc to the place -/
theorem pre_of_find {N : FlatNet} (w : N.WF) (t : Fin N.ntransitions) (q : Nat) :
    N.toNet.pre t q = match (N.preset t).find? (fun o => o.place == q) with
      | some i => if i.inhibitor then 0 else i.tokens
      | none => 0 := by
  simp only [FlatNet.toNet]
  cases h : (N.preset t).find? (fun o => o.place == q) with
  | none =>
    have : (N.preset t).find? (fun i => i.place == q && !i.inhibitor) = none := by
      rw [List.find?_eq_none] at h ⊢
      intro x hx; have := h x hx; simp_all
    rw [this]
  | some i =>
    have hi := List.mem_of_find?_eq_some h
    have hp : i.place = q := by simpa using List.find?_some h
    cases hinh : i.inhibitor with
    | false =>
      rw [(find_char (w.pre_nodup t t.2) q (fun j => !j.inhibitor) i).2 ⟨hi, hp, by simp [hinh]⟩]
      simp [hinh]
    | true =>
      cases hf : (N.preset t).find? (fun i => i.place == q && !i.inhibitor) with
      | none => simp [hinh]
      | some j =>
        obtain ⟨h1, h2, h3⟩ := (find_char (w.pre_nodup t t.2) q (fun j => !j.inhibitor) j).1 hf
        have := (find_char (w.pre_nodup t t.2) q (fun _ => true) j).2 ⟨h1, h2, rfl⟩
        simp only [Bool.and_true] at this
        rw [h] at this
        cases this
        simp [hinh] at h3

theorem sign_lt {a b : Nat} (h : a < b) : Int.sign ((b : Int) - a) = 1 := Int.sign_eq_one_of_pos (by omega)
theorem sign_gt {a b : Nat} (h : b < a) : Int.sign ((b : Int) - a) = -1 := Int.sign_eq_neg_one_of_neg (by omega)
theorem sign_same (a : Nat) : Int.sign ((a : Int) - a) = 0 := by simp

theorem Facts.dirOK (h : Facts B c order em blocks) (w : B.WF) : c.net.DirOK := by
  have wf := h.wf w
  intro t i hi
  have htl : t.1 < em.length := by rw [← h.lay.nt]; exact t.2
  have hpre : c.net.preset t = finPre B c.idmap em[t.1] := h.lay.preset_eq htl
  have hpost : c.net.postset t = finPost B c.idmap em[t.1] := h.lay.postset_eq htl
  have posPost : ∀ o ∈ c.net.postset t, 0 < o.tokens := fun o ho => by
    refine wf.tokens_pos o ?_
    unfold FlatNet.postset at ho
    exact List.mem_of_mem_drop (List.mem_of_mem_take ho)
  rw [pre_of_find wf]
  have hfp : ∀ q, (c.net.preset t).find? (fun o => o.place == q) =
      ((sortedPre B c.idmap em[t.1]).find? (fun o => o.place == q)).map fun i =>
        { i with direction := preDir (sortedPost B c.idmap em[t.1]) i } := fun q => by
    rw [hpre]; exact find_map_dir _ _ q
  have hfq : ∀ q, (c.net.postset t).find? (fun o => o.place == q) =
      ((sortedPost B c.idmap em[t.1]).find? (fun o => o.place == q)).map fun i =>
        { i with direction := postDir (sortedPre B c.idmap em[t.1]) i } := fun q => by
    rw [hpost]; exact find_map_dir _ _ q
  simp only [FlatNet.toNet]
  rcases hi with hi | hi
  · have hf := find_nodup (wf.pre_nodup t t.2) hi
    rw [hf]
    have hi' := hi
    rw [hpre] at hi'
    obtain ⟨j, hj, rfl⟩ := List.mem_map.1 hi'
    simp only at hf ⊢
    have hq := hfq j.place
    rw [hq]
    unfold preDir
    cases ho : (sortedPost B c.idmap em[t.1]).find? (fun o => o.place == j.place) with
    | none =>
      simp only [Option.map_none]
      cases hin : j.inhibitor
      · have : 0 < j.tokens := by
          refine wf.tokens_pos { j with direction := preDir (sortedPost B c.idmap em[t.1]) j } ?_
          unfold FlatNet.preset at hi
          exact List.mem_of_mem_drop (List.mem_of_mem_take hi)
        simp only [Bool.false_eq_true, if_false]
        exact (sign_gt this).symm
      · simp
    | some o =>
      rw [ho] at hq
      simp only [Option.map_some] at hq
      have hop := posPost _ (List.mem_of_find?_eq_some hq)
      simp only at hop
      simp only [Option.map_some]
      cases hin : j.inhibitor
      · simp only [Bool.false_eq_true, if_false]
        rcases Nat.lt_trichotomy j.tokens o.tokens with hl | hl | hl
        · rw [if_pos hl]; exact (sign_lt hl).symm
        · rw [if_neg (by omega), if_pos hl, hl]; exact (sign_same _).symm
        · rw [if_neg (by omega), if_neg (by omega)]; exact (sign_gt hl).symm
      · simp only [if_true]
        exact (sign_lt hop).symm
  · have hf := find_nodup (wf.post_nodup t t.2) hi
    have hip := posPost _ hi
    rw [hf]
    have hi' := hi
    rw [hpost] at hi'
    obtain ⟨j, hj, rfl⟩ := List.mem_map.1 hi'
    simp only at hf hip ⊢
    have hq := hfp j.place
    rw [hq]
    unfold postDir
    cases ho : (sortedPre B c.idmap em[t.1]).find? (fun o => o.place == j.place) with
    | none => simp only [Option.map_none]; exact (sign_lt hip).symm
    | some o =>
      simp only [Option.map_some]
      cases hin : o.inhibitor
      · simp only [Bool.false_eq_true, if_false]
        rcases Nat.lt_trichotomy o.tokens j.tokens with hl | hl | hl
        · rw [if_pos hl]; exact (sign_lt hl).symm
        · rw [if_neg (by omega), if_pos hl.symm, hl]; exact (sign_same _).symm
        · rw [if_neg (by omega), if_neg (by omega)]; exact (sign_gt hl).symm
      · simp only [if_true]
        exact (sign_lt hip).symm

end Builder
end Verif
