import Verif.LTL.SpotBack
import Verif.LTL.FormulaLemmas
import Verif.PQL.CtlLemmas
import Verif.PQL.BinaryLemmas

/-! # The conversion from spot's formulas keeps the meaning -/

namespace Verif
namespace LTL
open PQL
variable {cfg : TCfg} {T : TS} {π : Nat → Mark}

theorem SpotF.ind {P : SpotF → Prop} (tt : P .tt) (ff : P .ff) (ap : ∀ k, P (.ap k)) (not : ∀ f, P f → P (.not f))
    (and : ∀ fs, (∀ f ∈ fs, P f) → P (.and fs)) (or : ∀ fs, (∀ f ∈ fs, P f) → P (.or fs))
    (X : ∀ f, P f → P (.X f)) (F : ∀ f, P f → P (.F f)) (G : ∀ f, P f → P (.G f))
    (U : ∀ f g, P f → P g → P (.U f g)) (f : SpotF) : P f :=
  SpotF.rec (motive_1 := P) (motive_2 := fun fs => ∀ f ∈ fs, P f) tt ff ap not and or X F G U
    (by simp) (fun f fs hf hfs x hx => by
      rcases List.mem_cons.1 hx with rfl | hx
      · exact hf
      · exact hfs x hx) f

theorem mem_keysL {fs : List SpotF} {k : Key} : k ∈ keysL fs ↔ ∃ f ∈ fs, k ∈ f.keys := by
  induction fs with
  | nil => simp [keysL]
  | cons f fs ih => simp [keysL, ih]

/-- What the conversion of `f` yields. -/
def Back (T : TS) (π : Nat → Mark) (v : Nat → Key → Bool) (st : APInfo) (f : SpotF) : Prop :=
  (∀ k ∈ f.keys, ∃ e ∈ st, e.1 = k) → ∃ c, toPQL st f = some c ∧ PathF c = true ∧ ∀ i, c.sat T (suffix π i) ↔ f.sat v i

theorem toPQLs_back {v : Nat → Key → Bool} {st : APInfo} (fs : List SpotF) (h : ∀ f ∈ fs, Back T π v st f)
    (hk : ∀ k ∈ keysL fs, ∃ e ∈ st, e.1 = k) : ∃ cs, toPQLs st fs = some cs ∧ (∀ c ∈ cs, PathF c = true) ∧
      ∀ i, ((∀ c ∈ cs, c.sat T (suffix π i)) ↔ ∀ f ∈ fs, f.sat v i) ∧ ((∃ c ∈ cs, c.sat T (suffix π i)) ↔ ∃ f ∈ fs, f.sat v i) := by
  induction fs with
  | nil => exact ⟨[], rfl, by simp, fun i => by simp⟩
  | cons f fs ih =>
    obtain ⟨c, h1, h2, h3⟩ := h f (List.mem_cons_self ..) fun k hm => hk k (by rw [keysL]; exact List.mem_append_left _ hm)
    obtain ⟨cs, g1, g2, g3⟩ := ih (fun x hx => h x (List.mem_cons_of_mem _ hx))
      fun k hm => hk k (by rw [keysL]; exact List.mem_append_right _ hm)
    refine ⟨c :: cs, by rw [toPQLs, h1, g1]; rfl, fun x hx => ?_, fun i => ⟨?_, ?_⟩⟩
    · rcases List.mem_cons.1 hx with rfl | hx
      · exact h2
      · exact g2 x hx
    · rw [List.forall_mem_cons, List.forall_mem_cons, h3 i, (g3 i).1]
    · rw [List.exists_mem_cons_iff, List.exists_mem_cons_iff, h3 i, (g3 i).2]

theorem pathF_operands (orp : Bool) (cs : List Cond) (h : ∀ c ∈ cs, PathF c = true) : ∀ c ∈ logOperands orp cs, PathF c = true :=
  Ctl.logOperands_mem (P := fun c => PathF c = true) (fun cs h => by rw [PathF, pathAll_iff] at h; exact h)
    (fun cs h => by rw [PathF, pathAll_iff] at h; exact h) orp cs h

theorem toPQL_back {v : Nat → Key → Bool} {st : APInfo} (hr : Reads T π v st) (hp : ∀ e ∈ st, PathF e.2 = true) (f : SpotF) :
    Back T π v st f := by
  induction f using SpotF.ind with
  | tt => exact fun _ => ⟨_, rfl, rfl, fun i => by simp [Cond.sat, SpotF.sat]⟩
  | ff => exact fun _ => ⟨_, rfl, rfl, fun i => by simp [Cond.sat, SpotF.sat]⟩
  | ap k =>
    intro hk
    obtain ⟨e, he, hek⟩ := hk k (by simp [SpotF.keys])
    cases hf : st.find? (fun e => e.1 == k) with
    | none =>
      rw [List.find?_eq_none] at hf
      exact absurd hek (by simpa using hf e he)
    | some e' =>
      have hm := List.mem_of_find?_eq_some hf
      have hk' : e'.1 = k := by simpa using List.find?_some hf
      refine ⟨e'.2, by rw [toPQL, hf]; rfl, hp e' hm, fun i => ?_⟩
      rw [SpotF.sat, ← hk']
      exact (hr e' hm i).symm
  | not f ih =>
    intro hk
    obtain ⟨c, h1, h2, h3⟩ := ih (by simpa [SpotF.keys] using hk)
    exact ⟨.not c, by rw [toPQL, h1]; rfl, h2, fun i => not_congr (h3 i)⟩
  | and fs ih =>
    intro hk
    obtain ⟨cs, h1, h2, h3⟩ := toPQLs_back fs ih (by simpa [SpotF.keys] using hk)
    refine ⟨_, by rw [toPQL, h1]; rfl, by rw [PathF, pathAll_iff]; exact pathF_operands false cs h2, fun i => ?_⟩
    have := Binary.logOperands_sat (T := T) (π := suffix π i) false cs
    simp only [logHolds, Bool.false_eq_true, if_false] at this
    rw [Cond.sat, satAll_iff, SpotF.sat, spotAll_iff, ← (h3 i).1]
    exact this
  | or fs ih =>
    intro hk
    obtain ⟨cs, h1, h2, h3⟩ := toPQLs_back fs ih (by simpa [SpotF.keys] using hk)
    refine ⟨_, by rw [toPQL, h1]; rfl, by rw [PathF, pathAll_iff]; exact pathF_operands true cs h2, fun i => ?_⟩
    have := Binary.logOperands_sat (T := T) (π := suffix π i) true cs
    simp only [logHolds, if_true] at this
    rw [Cond.sat, satAny_iff, SpotF.sat, spotAny_iff, ← (h3 i).2]
    exact this
  | X f ih =>
    intro hk
    obtain ⟨c, h1, h2, h3⟩ := ih (by simpa [SpotF.keys] using hk)
    refine ⟨.X c, by rw [toPQL, h1]; rfl, h2, fun i => ?_⟩
    simp only [Cond.sat, SpotF.sat, suffix_suffix]
    exact h3 (i + 1)
  | F f ih =>
    intro hk
    obtain ⟨c, h1, h2, h3⟩ := ih (by simpa [SpotF.keys] using hk)
    refine ⟨.F c, by rw [toPQL, h1]; rfl, h2, fun i => ?_⟩
    simp only [Cond.sat, SpotF.sat, suffix_suffix]
    exact exists_congr fun j => h3 (i + j)
  | G f ih =>
    intro hk
    obtain ⟨c, h1, h2, h3⟩ := ih (by simpa [SpotF.keys] using hk)
    refine ⟨.G c, by rw [toPQL, h1]; rfl, h2, fun i => ?_⟩
    simp only [Cond.sat, SpotF.sat, suffix_suffix]
    exact forall_congr' fun j => h3 (i + j)
  | U f g ihf ihg =>
    intro hk
    obtain ⟨c, h1, h2, h3⟩ := ihf fun k hm => hk k (by rw [SpotF.keys]; exact List.mem_append_left _ hm)
    obtain ⟨d, g1, g2, g3⟩ := ihg fun k hm => hk k (by rw [SpotF.keys]; exact List.mem_append_right _ hm)
    refine ⟨.U c d, by rw [toPQL, h1, g1]; rfl, by rw [PathF, h2, g2]; rfl, fun i => ?_⟩
    simp only [Cond.sat, SpotF.sat, suffix_suffix]
    exact exists_congr fun j => and_congr (g3 (i + j)) (forall_congr' fun k => imp_congr Iff.rfl (h3 (i + k)))

/-! ### What the table holds -/

/-- Properties of formulas that pass on to the propositions. -/
structure Passes (Q : Cond → Prop) : Prop where
  not : ∀ c, Q (.not c) → Q c
  and : ∀ cs, Q (.and cs) ↔ ∀ c ∈ cs, Q c
  or : ∀ cs, Q (.or cs) ↔ ∀ c ∈ cs, Q c
  X : ∀ c, Q (.X c) → Q c
  F : ∀ c, Q (.F c) → Q c
  G : ∀ c, Q (.G c) → Q c
  U : ∀ c d, Q (.U c d) → Q c ∧ Q d

theorem passes_path : Passes fun c => PathF c = true where
  not _ h := h
  and cs := by rw [PathF, pathAll_iff]
  or cs := by rw [PathF, pathAll_iff]
  X _ h := h
  F _ h := h
  G _ h := h
  U c d h := by rwa [PathF, Bool.and_eq_true] at h

theorem passes_wf : Passes fun c => c.wf = true where
  not _ h := h
  and cs := by rw [Cond.wf, wfL_iff]
  or cs := by rw [Cond.wf, wfL_iff]
  X _ h := h
  F _ h := h
  G _ h := h
  U c d h := by rwa [Cond.wf, Bool.and_eq_true] at h

/-- The table grows, its new entries have the property `Q`, and it has the propositions `ks`. -/
def Knows (Q : Cond → Prop) (st st' : APInfo) (ks : List Key) : Prop :=
  (∃ ext, st' = st ++ ext ∧ ∀ e ∈ ext, Q e.2) ∧ ∀ k ∈ ks, ∃ e ∈ st', e.1 = k

variable {Q : Cond → Prop}

theorem Knows.refl (st : APInfo) : Knows Q st st [] := ⟨⟨[], by simp⟩, by simp⟩

theorem Knows.trans {a b c : APInfo} {k l : List Key} (h : Knows Q a b k) (h' : Knows Q b c l) : Knows Q a c (k ++ l) := by
  obtain ⟨⟨x, rfl, hx⟩, h2⟩ := h
  obtain ⟨⟨y, rfl, hy⟩, h4⟩ := h'
  refine ⟨⟨x ++ y, by rw [List.append_assoc], fun e he => (List.mem_append.1 he).elim (hx e) (hy e)⟩, fun n hn => ?_⟩
  rcases List.mem_append.1 hn with hn | hn
  · obtain ⟨e, he, h⟩ := h2 n hn
    exact ⟨e, List.mem_append_left _ he, h⟩
  · exact h4 n hn

theorem mkAp_knows {c : Cond} (hc : Q c) (st : APInfo) : Knows Q st (mkAp cfg c st).2 (mkAp cfg c st).1.keys := by
  refine ⟨⟨_, rfl, fun e he => by rw [List.mem_singleton.1 he]; exact hc⟩, fun k hk => ?_⟩
  simp only [mkAp, SpotF.keys, List.mem_singleton] at hk
  exact ⟨_, List.mem_append_right _ (List.mem_singleton.2 rfl), hk.symm⟩

theorem toSpotT_knows (cs : List Cond) (h : ∀ c ∈ cs, ∀ st, Knows Q st (toSpot cfg c st).2 (toSpot cfg c st).1.keys) :
    ∀ st, Knows Q st (toSpotT cfg cs st).2 (keysL (toSpotT cfg cs st).1) := by
  induction cs with
  | nil => intro st; rw [toSpotT, keysL]; exact Knows.refl st
  | cons c cs ih =>
    intro st
    have ih' := ih fun d hd => h d (List.mem_cons_of_mem _ hd)
    rw [toSpotT]
    split
    · exact (h c (List.mem_cons_self ..) st).trans (ih' _)
    · exact ih' st

theorem toSpotN_knows (cs : List Cond) (h : ∀ c ∈ cs, ∀ st, Knows Q st (toSpot cfg c st).2 (toSpot cfg c st).1.keys) :
    ∀ st, Knows Q st (toSpotN cfg cs st).2 (keysL (toSpotN cfg cs st).1) := by
  induction cs with
  | nil => intro st; rw [toSpotN, keysL]; exact Knows.refl st
  | cons c cs ih =>
    intro st
    have ih' := ih fun d hd => h d (List.mem_cons_of_mem _ hd)
    rw [toSpotN]
    split
    · exact ih' st
    · exact (h c (List.mem_cons_self ..) st).trans (ih' _)

theorem keysL_append (a b : List SpotF) : keysL (a ++ b) = keysL a ++ keysL b := by
  induction a with
  | nil => rfl
  | cons f a ih => simp [keysL, ih]

theorem toSpot_knows (hQ : Passes Q) (c : Cond) (hc : PathF c = true) (hq : Q c) :
    ∀ st, Knows Q st (toSpot cfg c st).2 (toSpot cfg c st).1.keys := by
  induction c using Cond.ind with
  | bool b => intro st; rw [toSpot]; cases b <;> exact Knows.refl st
  | dead => intro st; rw [toSpot]; exact mkAp_knows hq st
  | cmp o a b => intro st; rw [toSpot]; exact mkAp_knows hq st
  | cc l n => intro st; rw [toSpot]; exact mkAp_knows hq st
  | not c ih => intro st; rw [toSpot]; simp only [SpotF.keys]; exact ih hc (hQ.not _ hq) st
  | and cs ih =>
    rw [PathF, pathAll_iff] at hc
    rw [hQ.and] at hq
    have ih' := fun c hm => ih c hm (hc c hm) (hq c hm)
    intro st
    have hT := toSpotT_knows (cfg := cfg) cs ih' st
    rw [toSpot]
    split
    · exact hT
    · split
      · have := hT.trans (toSpotN_knows (cfg := cfg) cs ih' _)
        simpa only [SpotF.keys, keysL_append, keysL, List.append_nil] using this
      · have := hT.trans (mkAp_knows (cfg := cfg) (c := .and (cs.filter fun c => !c.isTemporal))
          ((hQ.and _).2 fun c hm => hq c (List.mem_filter.1 hm).1) _)
        simpa only [SpotF.keys, keysL_append, keysL, List.append_nil] using this
  | or cs ih =>
    rw [PathF, pathAll_iff] at hc
    rw [hQ.or] at hq
    have ih' := fun c hm => ih c hm (hc c hm) (hq c hm)
    intro st
    have hT := toSpotT_knows (cfg := cfg) cs ih' st
    rw [toSpot]
    split
    · exact hT
    · split
      · have := hT.trans (toSpotN_knows (cfg := cfg) cs ih' _)
        simpa only [SpotF.keys, keysL_append, keysL, List.append_nil] using this
      · have := hT.trans (mkAp_knows (cfg := cfg) (c := .or (cs.filter fun c => !c.isTemporal))
          ((hQ.or _).2 fun c hm => hq c (List.mem_filter.1 hm).1) _)
        simpa only [SpotF.keys, keysL_append, keysL, List.append_nil] using this
  | X c ih => intro st; rw [toSpot]; simp only [SpotF.keys]; exact ih hc (hQ.X _ hq) st
  | F c ih => intro st; rw [toSpot]; simp only [SpotF.keys]; exact ih hc (hQ.F _ hq) st
  | G c ih => intro st; rw [toSpot]; simp only [SpotF.keys]; exact ih hc (hQ.G _ hq) st
  | U c d ihc ihd =>
    rw [PathF, Bool.and_eq_true] at hc
    intro st
    rw [toSpot]
    simp only [SpotF.keys]
    exact (ihc hc.1 (hQ.U _ _ hq).1 st).trans (ihd hc.2 (hQ.U _ _ hq).2 _)
  | _ => cases hc

/-- the word of a path -/
noncomputable def wordOf (T : TS) (π : Nat → Mark) (st : APInfo) (i : Nat) (k : Key) : Bool :=
  open Classical in match st.find? fun e => e.1 == k with
  | some e => decide (e.2.sat T (suffix π i))
  | none => false

theorem wordOf_reads {st : APInfo} (hp : PrintOK T cfg.print st) (h : TableOK cfg st) (hπ : T.IsPath π) :
    Reads T π (wordOf T π st) st := by
  intro e he i
  rw [wordOf]
  cases hf : st.find? (fun e' => e'.1 == e.1) with
  | none =>
    rw [List.find?_eq_none] at hf
    exact absurd (hf e he) (by simp)
  | some e' =>
    have hm := List.mem_of_find?_eq_some hf
    have hk : e'.1 = e.1 := by simpa using List.find?_some hf
    simp only [decide_eq_true_eq]
    exact table_same hp h hm he hk _ (suffix_path hπ i)

/-- The conversion to spot, simplification and conversion back keep the meaning. -/
theorem back_spec {simp : SpotF → SpotF} (hs : SimpOK simp) {c : Cond} (hc : PathF c = true)
    (hp : PrintOK T cfg.print (toSpot cfg c []).2) : ∃ r, toPQL (toSpot cfg c []).2 (simp (toSpot cfg c []).1) = some r ∧
      PathF r = true ∧ ∀ π, T.IsPath π → (r.sat T π ↔ c.sat T π) := by
  obtain ⟨⟨ext, hext, hpe⟩, hkn⟩ := toSpot_knows (cfg := cfg) passes_path c hc hc []
  have htab : TableOK cfg (toSpot cfg c []).2 := toSpot_table c [] (fun i e h => by simp at h)
  have hpath : ∀ e ∈ (toSpot cfg c []).2, PathF e.2 = true := by
    rw [hext, List.nil_append]
    exact hpe
  have key : ∀ π, T.IsPath π → ∃ r, toPQL (toSpot cfg c []).2 (simp (toSpot cfg c []).1) = some r ∧ PathF r = true ∧
      (r.sat T π ↔ c.sat T π) := by
    intro π hπ
    have hr := wordOf_reads (cfg := cfg) hp htab hπ
    obtain ⟨r, h1, h2, h3⟩ := toPQL_back hr hpath (simp (toSpot cfg c []).1) fun k hk => hkn k (hs.keys _ k hk)
    refine ⟨r, h1, h2, ?_⟩
    have h4 := h3 0
    have h5 := (toSpot_good (cfg := cfg) (T := T) (π := π) _ c hc []).2 hr 0
    rw [suffix_zero] at h4 h5
    rw [h4, hs.same, h5]
  have hex : ∃ π, T.IsPath π := by
    obtain ⟨π, hπ, _⟩ := T.exists_path default
    exact ⟨π, hπ⟩
  obtain ⟨π0, hπ0⟩ := hex
  obtain ⟨r, h1, h2, _⟩ := key π0 hπ0
  refine ⟨r, h1, h2, fun π hπ => ?_⟩
  obtain ⟨r', g1, _, g3⟩ := key π hπ
  rw [h1] at g1
  cases g1
  exact g3

/-! ### The conversion keeps well-formedness -/

theorem toPQL_wf {st : APInfo} (hst : ∀ e ∈ st, e.2.wf = true) (f : SpotF) : ∀ c, toPQL st f = some c → c.wf = true := by
  have hops : ∀ orp (cs : List Cond), (∀ c ∈ cs, c.wf = true) → wfL (logOperands orp cs) = true := fun orp cs h =>
    (wfL_iff _).2 (Ctl.logOperands_mem (P := fun c => c.wf = true) (fun cs h => (passes_wf.and cs).1 h) (fun cs h => (passes_wf.or cs).1 h)
      orp cs h)
  have hlist : ∀ fs : List SpotF, (∀ f ∈ fs, ∀ c, toPQL st f = some c → c.wf = true) →
      ∀ cs, toPQLs st fs = some cs → ∀ c ∈ cs, c.wf = true := by
    intro fs
    induction fs with
    | nil => intro _ cs h; cases h; simp
    | cons f fs ih =>
      intro hf cs h
      rw [toPQLs, Option.bind_eq_some_iff] at h
      obtain ⟨c, h1, h⟩ := h
      rw [Option.map_eq_some_iff] at h
      obtain ⟨cs', h2, rfl⟩ := h
      intro x hx
      rcases List.mem_cons.1 hx with rfl | hx
      · exact hf f (List.mem_cons_self ..) _ h1
      · exact ih (fun g hg => hf g (List.mem_cons_of_mem _ hg)) cs' h2 x hx
  induction f using SpotF.ind with
  | tt => intro c h; cases h; rfl
  | ff => intro c h; cases h; rfl
  | ap k =>
    intro c h
    rw [toPQL, Option.map_eq_some_iff] at h
    obtain ⟨e, h1, rfl⟩ := h
    exact hst e (List.mem_of_find?_eq_some h1)
  | and fs ih =>
    intro c h
    rw [toPQL, Option.map_eq_some_iff] at h
    obtain ⟨cs, h1, rfl⟩ := h
    exact hops false cs (hlist fs ih cs h1)
  | or fs ih =>
    intro c h
    rw [toPQL, Option.map_eq_some_iff] at h
    obtain ⟨cs, h1, rfl⟩ := h
    exact hops true cs (hlist fs ih cs h1)
  | U f g ihf ihg =>
    intro c h
    rw [toPQL, Option.bind_eq_some_iff] at h
    obtain ⟨x, h1, h⟩ := h
    rw [Option.map_eq_some_iff] at h
    obtain ⟨y, h2, rfl⟩ := h
    rw [Cond.wf, ihf x h1, ihg y h2]
    rfl
  | not f ih | X f ih | F f ih | G f ih =>
    intro c h
    rw [toPQL, Option.map_eq_some_iff] at h
    obtain ⟨x, h1, rfl⟩ := h
    exact ih x h1

theorem back_wf {simp : SpotF → SpotF} {c r : Cond} (hc : PathF c = true) (hw : c.wf = true)
    (h : toPQL (toSpot cfg c []).2 (simp (toSpot cfg c []).1) = some r) : r.wf = true := by
  obtain ⟨⟨ext, hext, hpe⟩, _⟩ := toSpot_knows (cfg := cfg) passes_wf c hc hw []
  refine toPQL_wf ?_ _ r h
  rw [hext, List.nil_append]
  exact hpe

end LTL
end Verif
