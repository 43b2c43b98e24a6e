import Verif.CPN.Eval

/-!
# Unfolding a coloured net

Models `src/PetriEngine/Colored/BindingGenerator.cpp:25-122` (the naive generator of bindings) and
`src/PetriEngine/Colored/Unfolder.cpp` without partition.  The calls to the builder of the unfolded net are recorded in
the order in which they are made.
-/

namespace Verif
namespace CPN

open Builder (Op)

/-! ### Bindings -/

/-- models src/PetriEngine/Colored/BindingGenerator.cpp:88-93: the next binding, guard or not. -/
def incr (T : Types) (vty : Nat → Nat) : Binding → Binding
  | [] => []
  | (v, i) :: b =>
    let c := succC T ⟨vty v, i⟩
    if c.id ≠ 0 then (v, c.id) :: b else (v, c.id) :: incr T vty b

/-- models src/PetriEngine/Colored/BindingGenerator.cpp:107-112. -/
def isInitial (b : Binding) : Bool := b.all fun q => q.2 == 0

/-- models src/PetriEngine/Colored/BindingGenerator.cpp:85-101; `none` if the guard throws (or no fuel is left). -/
def nextBinding (T : Types) (vty : Nat → Nat) (g : Option Guard) : Nat → Binding → Option Binding
  | 0, _ => none
  | n + 1, b =>
    let b' := incr T vty b
    if isInitial b' then some b'
    else
      match guardEval T vty b' g with
      | none => none
      | some true => some b'
      | some false => nextBinding T vty g n b'

/-- the iteration of src/PetriEngine/Colored/Unfolder.cpp:174 with BindingGenerator.cpp:40-44 -/
def iterate (T : Types) (vty : Nat → Nat) (g : Option Guard) : Nat → Binding → Option (List Binding)
  | 0, _ => none
  | n + 1, b =>
    match nextBinding T vty g (n + 1) b with
    | none => none
    | some b' => if isInitial b' then some [b] else (iterate T vty g n b').map (b :: ·)

/-- models src/PetriEngine/Colored/BindingGenerator.cpp:67-69. -/
def firstBinding (t : CTrans) : Binding := t.vars.map fun v => (v, 0)

/-- models src/PetriEngine/Colored/BindingGenerator.cpp:71-73 and 114-118, followed by the loop over all bindings. -/
def naiveBindings (T : Types) (vty : Nat → Nat) (fuel : Nat) (t : CTrans) : Option (List Binding) :=
  match guardEval T vty (firstBinding t) t.guard with
  | none => none
  | some true => iterate T vty t.guard fuel (firstBinding t)
  | some false =>
    match nextBinding T vty t.guard fuel (firstBinding t) with
    | none => none
    | some b =>
      match guardEval T vty b t.guard with
      | none => none
      | some true => iterate T vty t.guard fuel b
      | some false => some []

/-! ### Names -/

/-- models src/PetriEngine/Colored/Unfolder.cpp:132. -/
def cname (p : String) (k : Nat) : String := p ++ "_" ++ toString k
/-- models src/PetriEngine/Colored/Unfolder.cpp:202, 269. -/
def sumName (p : String) : String := p ++ "Sum"
/-- models src/PetriEngine/Colored/Unfolder.cpp:86, 99. -/
def orphanName (p : String) : String := p ++ "_orphan"
/-- models src/PetriEngine/Colored/Unfolder.cpp:175. -/
def bname (t : String) (i : Nat) : String := t ++ "_" ++ toString i

/-! ### The unfolder -/

/-- models include/PetriEngine/Colored/Unfolder.h:49-66 (data members): the calls to the builder; `_ptplacenames` (place,
key and name; the map is keyed by the names of the places, which are different) and `_sumPlacesNames`. -/
structure U where
  ops : List Op := []
  names : List (Nat × Nat × String) := []
  sums : List Nat := []

/-- the multiset of the initial tokens -/
def CPlace.ms (p : CPlace) : MS := if p.marking.isEmpty then {} else ⟨some p.ty, p.marking⟩

/-- models src/PetriEngine/Colored/Multiset.cpp:196-206 (`size`); the builder keeps 32 bits of it. -/
def CPlace.tokens (p : CPlace) : Nat := (p.marking.map (·.2)).sum

def CNet.inhibited (N : CNet) (p : Nat) : Bool := N.inhibitors.any fun i => i.place == p

def U.has (s : U) (p k : Nat) : Bool := s.names.any fun q => q.1 == p && q.2.1 == k
def U.hasPlace (s : U) (p : Nat) : Bool := s.names.any fun q => q.1 == p

/-- models src/PetriEngine/Colored/Unfolder.cpp:250-254 and 106-136: makes the place for a colour if there is none. -/
def U.needColor (N : CNet) (s : U) (p : Nat) (c : Color) : U :=
  if s.has p c.id then s
  else { s with ops := s.ops ++ [.place (cname (N.place p).name c.id) ((N.place p).ms.get c)],
                names := s.names ++ [(p, c.id, cname (N.place p).name c.id)] }

/-- models src/PetriEngine/Colored/Unfolder.cpp:266-272: makes the place for the sum if there is none. -/
def U.needSum (N : CNet) (s : U) (p : Nat) : U :=
  if s.sums.contains p then s
  else { s with ops := s.ops ++ [.place (sumName (N.place p).name) ((N.place p).tokens % W32)],
                sums := s.sums ++ [p] }

/-- the call at src/PetriEngine/Colored/Unfolder.cpp:257-261 or 276-280 -/
def arcOp (input : Bool) (tn pn : String) (w : Nat) : Op :=
  if input then .input pn tn false w else .output tn pn w

/-- models src/PetriEngine/Colored/Unfolder.cpp:228-263; the name registered under the number of a colour is that of the
colour (a colour of a wrong type could find the sum of the place under its number; not modelled). -/
def U.colors (N : CNet) (input : Bool) (tn : String) (p ty : Nat) (s : U) : List (Nat × Nat) → U
  | [] => s
  | (i, k) :: l =>
    if k = 0 then U.colors N input tn p ty s l
    else
      let s1 := s.needColor N p ⟨ty, i⟩
      U.colors N input tn p ty { s1 with ops := s1.ops ++ [arcOp input tn (cname (N.place p).name i) k] } l

/-- `shadowWeight`, an `int` to which 32-bit numbers are added (src/PetriEngine/Colored/Unfolder.cpp:224, 243) -/
def shadow (l : List (Nat × Nat)) : Nat := (l.map (·.2)).sum % W32

/-- models src/PetriEngine/Colored/Unfolder.cpp:214-284 (`unfoldArc`); the weight is positive as an `int`. -/
def U.arc (N : CNet) (input : Bool) (tn : String) (b : Binding) (a : CArc) (s : U) : Option U :=
  match a.expr.evaluate N.types N.vty b with
  | none => none
  | some m =>
    let s1 := U.colors N input tn a.place (m.ty.getD dotTy) s m.set
    if N.inhibited a.place then
      let s2 := s1.needSum N a.place
      if 0 < shadow m.set ∧ shadow m.set < 2 ^ 31 then
        some { s2 with ops := s2.ops ++ [arcOp input tn (sumName (N.place a.place).name) (shadow m.set)] }
      else some s2
    else some s1

def U.arcs (N : CNet) (input : Bool) (tn : String) (b : Binding) : List CArc → U → Option U
  | [], s => some s
  | a :: as, s => (U.arc N input tn b a s).bind (U.arcs N input tn b as)

/-- models src/PetriEngine/Colored/Unfolder.cpp:193-212 (`unfoldInhibitorArc`). -/
def U.inhibs (N : CNet) (t : String) (tn : String) : List CInhib → U → U
  | [], s => s
  | h :: hs, s =>
    if (N.trans h.trans).name = t then
      let s1 :=
        if s.sums.contains h.place then s
        else
          let s1 := s.needSum N h.place
          if s1.hasPlace h.place then s1
          else { s1 with names := s1.names ++ [(h.place, N.types.size (N.place h.place).ty, sumName (N.place h.place).name)] }
      U.inhibs N t tn hs { s1 with ops := s1.ops ++ [.input (sumName (N.place h.place).name) tn true h.weight] }
    else U.inhibs N t tn hs s

/-- models src/PetriEngine/Colored/Unfolder.cpp:174-189 (the body of the loop over the bindings; players dropped). -/
def U.binding (N : CNet) (t : CTrans) (i : Nat) (b : Binding) (s : U) : Option U :=
  let tn := bname t.name i
  (U.arcs N true tn b t.inputs { s with ops := s.ops ++ [.trans tn 0] }).bind fun s1 =>
    (U.arcs N false tn b t.outputs s1).map fun s2 => U.inhibs N t.name tn N.inhibitors s2

def U.bindings (N : CNet) (t : CTrans) : Nat → List Binding → U → Option U
  | _, [], s => some s
  | i, b :: bs, s => (U.binding N t i b s).bind (U.bindings N t (i + 1) bs)

/-- models src/PetriEngine/Colored/Unfolder.cpp:62-64; `gen` gives the bindings of a transition. -/
def U.transitions (N : CNet) (gen : CTrans → Option (List Binding)) : List CTrans → U → Option U
  | [], s => some s
  | t :: ts, s => (gen t).bind fun bs => (U.bindings N t 0 bs s).bind (U.transitions N gen ts)

/-- models src/PetriEngine/Colored/Unfolder.cpp:92-96: the tokens of the unfolded places, in 32 bits. -/
def U.used (s : U) (p : Nat) : Nat :=
  ((s.names.filter fun q => q.1 == p).map fun q => Builder.specInit s.ops q.2.2).sum % W32

/-- models src/PetriEngine/Colored/Unfolder.cpp:83-104 (`handleOrphanPlace`). -/
def U.orphan (N : CNet) (s : U) (p : Nat) : U :=
  let n := orphanName (N.place p).name
  if !s.hasPlace p && decide ((N.place p).tokens > 0) then
    { s with ops := s.ops ++ [.place n ((N.place p).tokens % W32)], names := s.names ++ [(p, 0, n)] }
  else if (N.place p).tokens > s.used p ∨ s.hasPlace p = false then
    { s with ops := s.ops ++ [.place n (((N.place p).tokens - s.used p) % W32)],
             names := s.names ++ [(p, W32 - 1, n)] }
  else s

def U.orphans (N : CNet) : List Nat → U → U
  | [], s => s
  | p :: ps, s => U.orphans N ps (s.orphan N p)

/-- models src/PetriEngine/Colored/Unfolder.cpp:57-76 (`unfold`), for any generator of bindings. -/
def unfoldWith (N : CNet) (gen : CTrans → Option (List Binding)) : Option U :=
  (U.transitions N gen N.transitions {}).map fun s => U.orphans N (List.range N.places.length) s

/-- `unfold` with the naive generator -/
def unfold (N : CNet) (fuel : Nat) : Option U :=
  unfoldWith N (naiveBindings N.types N.vty fuel)

/-- models src/PetriEngine/PQL/Analyze.cpp:114-143: the unfolded places whose tokens are added up for a place named in a
query; `order` is the order in which the map of the place's names is traversed. -/
def resolve (order : List (Nat × Nat × String)) : List String :=
  let names := order.map (·.2.2)
  if names.length = 1 then names
  else
    match names.getLast? with
    | some l => if l.toList.reverse.take 3 = ['m', 'u', 'S'] then names.dropLast else names
    | none => names

end CPN
end Verif
