import Verif.CPN.Unfold

/-!
# The names of unfolded places and transitions are different
-/

namespace Verif
namespace CPN

theorem split_last {a b d e : List Char} (hd : '_' ∉ d) (he : '_' ∉ e) (h : a ++ '_' :: d = b ++ '_' :: e) : a = b ∧ d = e := by
  have key : ∀ (a d : List Char), '_' ∉ d → (a ++ '_' :: d).reverse.takeWhile (· ≠ '_') = d.reverse := by
    intro a d hd
    rw [List.reverse_append, List.reverse_cons, List.append_assoc, List.takeWhile_append_of_pos]
    · simp
    · intro c hc
      rw [List.mem_reverse] at hc
      simp only [ne_eq, decide_not, Bool.not_eq_eq_eq_not, Bool.not_true, decide_eq_false_iff_not]
      rintro rfl
      exact hd hc
  have h1 : d.reverse = e.reverse := by rw [← key a d hd, ← key b e he, h]
  have h2 : d = e := List.reverse_inj.1 h1
  subst h2
  exact ⟨List.append_cancel_right h, rfl⟩

theorem toList_toString (k : Nat) : (toString k).toList = Nat.toDigits 10 k := Nat.toList_repr

theorem toDigits_inj {j k : Nat} (h : Nat.toDigits 10 j = Nat.toDigits 10 k) : j = k := by
  rw [← Nat.ofDigitChars_ten_toDigits (n := j), ← Nat.ofDigitChars_ten_toDigits (n := k), h]

theorem cname_toList (p : String) (k : Nat) : (cname p k).toList = p.toList ++ '_' :: Nat.toDigits 10 k := by
  unfold cname
  rw [String.toList_append, String.toList_append, toList_toString, List.append_assoc]
  rfl

theorem cname_inj {p q : String} {j k : Nat} (h : cname p j = cname q k) : p = q ∧ j = k := by
  have h1 := congrArg String.toList h
  rw [cname_toList, cname_toList] at h1
  obtain ⟨h2, h3⟩ := split_last (Nat.underscore_not_in_toDigits) (Nat.underscore_not_in_toDigits) h1
  exact ⟨String.toList_inj.1 h2, toDigits_inj h3⟩

theorem bname_inj {p q : String} {j k : Nat} (h : bname p j = bname q k) : p = q ∧ j = k := cname_inj h

theorem sumName_inj {p q : String} (h : sumName p = sumName q) : p = q := by
  have h1 := congrArg String.toList h
  unfold sumName at h1
  rw [String.toList_append, String.toList_append] at h1
  exact String.toList_inj.1 (List.append_cancel_right h1)

theorem orphanName_inj {p q : String} (h : orphanName p = orphanName q) : p = q := by
  have h1 := congrArg String.toList h
  unfold orphanName at h1
  rw [String.toList_append, String.toList_append] at h1
  exact String.toList_inj.1 (List.append_cancel_right h1)

theorem last_cname (p : String) (k : Nat) : ∃ c, (cname p k).toList.getLast? = some c ∧ c.isDigit = true := by
  rw [cname_toList]
  have hne := Nat.toDigits_ne_nil (n := k) (b := 10)
  refine ⟨(Nat.toDigits 10 k).getLast hne, ?_, ?_⟩
  · rw [List.getLast?_append, List.getLast?_cons, List.getLast?_eq_some_getLast hne]
    rfl
  · exact Nat.isDigit_of_mem_toDigits (by omega) (by omega) (List.getLast_mem hne)

theorem last_sum (p : String) : (sumName p).toList.getLast? = some 'm' := by
  unfold sumName
  rw [String.toList_append, List.getLast?_append]
  rfl

theorem last_orphan (p : String) : (orphanName p).toList.getLast? = some 'n' := by
  unfold orphanName
  rw [String.toList_append, List.getLast?_append]
  rfl

theorem cname_ne_sum (p q : String) (k : Nat) : cname p k ≠ sumName q := by
  intro h
  obtain ⟨c, h1, h2⟩ := last_cname p k
  rw [h, last_sum] at h1
  cases h1
  revert h2
  decide

theorem cname_ne_orphan (p q : String) (k : Nat) : cname p k ≠ orphanName q := by
  intro h
  obtain ⟨c, h1, h2⟩ := last_cname p k
  rw [h, last_orphan] at h1
  cases h1
  revert h2
  decide

theorem sum_ne_orphan (p q : String) : sumName p ≠ orphanName q := by
  intro h
  have := last_sum p
  rw [h, last_orphan] at this
  cases this

end CPN
end Verif
