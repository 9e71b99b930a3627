import Verif.Model.Json
/-
Model of `join_maps` (loader.py:155-272) and of Python's `str.split` for a non-empty separator.
-/
namespace PyFCM
open Arith

variable {α : Type} [Arith α]

/-- `s.split(sep)` (leftmost, non-overlapping occurrences): `skip` characters still belong to the separator just
found, `acc` is the current piece (reversed). -/
def splitAux (sep : List Char) : List Char → Nat → List Char → List (List Char)
  | [], _, acc => [acc.reverse]
  | c :: cs, skip, acc =>
    if skip > 0 then splitAux sep cs (skip - 1) acc
    else if sep.isPrefixOf (c :: cs) then acc.reverse :: splitAux sep cs (sep.length - 1) []
    else splitAux sep cs 0 (c :: acc)

/-- `str.split` for a non-empty separator. -/
def pySplit (sep s : String) : List String :=
  (splitAux sep.toList s.toList 0 []).map String.ofList

/-- loader.py:243 -/
def relSeparator : String := " |=====> "

/-- A concept description with its 'accumulation' list (loader.py:203). -/
abbrev Acc (α : Type) := ConceptDesc α × List α

/-- loader.py:201-203: the first map. -/
def accFirst : List (ConceptDesc α) → Dict (Acc α) → Except Err (Dict (Acc α))
  | [], d => .ok d
  | c :: cs, d => do
    let v ← need "activation" c.activation
    accFirst cs (d.set c.id (c, [v]))

/-- loader.py:205-207: `new_node_set`. -/
def nodeSet : List (ConceptDesc α) → Dict (ConceptDesc α) → Dict (ConceptDesc α)
  | [], d => d
  | c :: cs, d => nodeSet cs (d.set c.id c)

/-- loader.py:208-214 -/
def accUnion : Dict (ConceptDesc α) → Dict (Acc α) → Except Err (Dict (Acc α))
  | [], d => .ok d
  | (k, c) :: cs, d => do
    let v ← need "activation" c.activation
    accUnion cs (match d.get? k with
      | some (c0, acc) => d.set k (c0, acc ++ [v])
      | none => d.set k (c, [v]))

/-- loader.py:215-225: concepts missing in the new map are dropped. -/
def accInter (new : Dict (ConceptDesc α)) : Dict (Acc α) → Except Err (Dict (Acc α))
  | [] => .ok []
  | (k, (c0, acc)) :: d => do
    let rest ← accInter new d
    match new.get? k with
    | some c => do
      let v ← need "activation" c.activation
      return (k, (c0, acc ++ [v])) :: rest
    | none => return rest

/-- loader.py:194-225: the map loop (after the first map). -/
def accMaps (union : Bool) : List (MapDesc α) → Dict (Acc α) → Except Err (Dict (Acc α))
  | [], d => .ok d
  | m :: ms, d => do
    let new := nodeSet (m.concepts.getD []) []
    let d ← if union then accUnion new d else accInter new d
    accMaps union ms d

inductive Aggr where
  | highest | lowest | average
  deriving DecidableEq, Repr, Inhabited

/-- `sum(xs) / len(xs)` -/
def pyavg (xs : List α) : Except Err α :=
  if xs.length = 0 then .error .zeroDivision else .ok (pysum xs / lit (xs.length : Int))

/-- loader.py:228-235, 260-265 (a list of accumulated values is never empty). -/
def Aggr.run : Aggr → List α → Except Err α
  | .highest => pymax
  | .lowest => pymin
  | .average => pyavg

/-- loader.py:180-187 -/
def Aggr.byName (s : String) : Option Aggr :=
  if s = "highest" then some .highest
  else if s = "lowest" then some .lowest
  else if s = "average" then some .average
  else none

/-- loader.py:226-240 -/
def finalConcepts (vs : Aggr) (ignoreZeros : Bool) : Dict (Acc α) → Except Err (List (ConceptDesc α))
  | [] => .ok []
  | (_, (c, acc)) :: d => do
    let v ← vs.run acc
    let rest ← finalConcepts vs ignoreZeros d
    if v =? lit 0 then
      if ignoreZeros then return rest else return { c with activation := some v } :: rest
    else return { c with activation := some v } :: rest

/-- loader.py:242-249: the weights collected under `origin + separator + destiny`. -/
def collectRel : List (RelDesc α) → Dict (List α) → Dict (List α)
  | [], d => d
  | r :: rs, d =>
    let name := r.origin ++ relSeparator ++ r.destiny
    collectRel rs (match d.get? name with
      | some ws => d.set name (ws ++ [r.weight])
      | none => d.set name [r.weight])

/-- loader.py:251-266 -/
def finalRelations (rs : Aggr) (nodes : Dict (Acc α)) : Dict (List α) → Except Err (List (RelDesc α))
  | [] => .ok []
  | (name, ws) :: d => do
    let parts := pySplit relSeparator name
    let origin ← pyIdx parts 0
    let destiny ← pyIdx parts 1
    if nodes.has origin && nodes.has destiny then
      let w ← rs.run ws
      let rest ← finalRelations rs nodes d
      return ⟨origin, destiny, w⟩ :: rest
    else finalRelations rs nodes d

/-- loader.py:189-270: the joined document. -/
def joinDescs (union : Bool) (vs rs : Aggr) (ignoreZeros : Bool) (first : MapDesc α) (rest : List (MapDesc α)) :
    Except Err (MapDesc α) := do
  let d ← accFirst (first.concepts.getD []) []
  let d ← accMaps union rest d
  let concepts ← finalConcepts vs ignoreZeros d
  let rels := (first :: rest).flatMap fun m => m.relations.getD []
  let relations ← finalRelations rs d (collectRel rels [])
  return { first with concepts := some concepts, relations := some relations }

/-- loader.py:155-272 `join_maps`. -/
def joinMaps (maps : List (FCM α)) (conceptStrategy : String := "union") (valueStrategy : String := "average")
    (relationStrategy : String := "average") (ignoreZeros : Bool := false) : Except Err (FCM α) :=
  if conceptStrategy ≠ "union" ∧ conceptStrategy ≠ "intersection" then
    .error (.exc ("Unknown concept strategy: " ++ conceptStrategy))
  else
    match Aggr.byName valueStrategy with
    | none => .error (.exc ("Unknown value strategy: " ++ valueStrategy))
    | some vs =>
      match Aggr.byName relationStrategy with
      | none => .error (.exc ("Unknown relation strategy: " ++ relationStrategy))
      | some rs => do
        let descs ← maps.mapM FCM.toJson
        match descs with
        | [] => FCM.new
        | first :: rest => do
          let d ← joinDescs (conceptStrategy = "union") vs rs ignoreZeros first rest
          fromJson d

end PyFCM
