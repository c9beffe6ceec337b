import Mathlib.Data.List.Sort

/-!
# Imports for given bindings

Model of `Bindings` and `ProductBindings` (/repo/nemo-physical/src/datasources/bindings.rs) and of the part of
`SparqlReader` (/repo/nemo/src/io/formats/sparql/reader.rs) that turns bindings into queries.

Simplifications: a query is identified with the list of bindings that it contains as `VALUES` blocks
(`query_with_bindings`, reader.rs:174-202, `pattern_with_bindings`, queries.rs:58-90); how the text of a query is
printed is abstract, only whether it is short enough (`fits`).  The remote server is a contract (`Server`).
-/

namespace Verif.Dem

variable {V T : Type}

/-- `Bindings` (bindings.rs:9-13); the field `count` always is the number of bindings (bindings.rs:17-48). -/
structure Bindings (V : Type) where
  positions : List Nat
  rows : List (List V)
deriving DecidableEq

namespace Bindings

/-- `Bindings::count` (bindings.rs:69-71) -/
def count (b : Bindings V) : Nat := b.rows.length

/-- `Bindings::is_empty` (bindings.rs:64-66) -/
def isEmpty (b : Bindings V) : Bool := b.count == 0

/-- `Bindings::empty` (bindings.rs:28-34) -/
def empty (positions : List Nat) : Bindings V := ⟨positions, []⟩

/-- `Bindings::union` (bindings.rs:37-48) -/
def union (l r : Bindings V) : Bindings V := ⟨l.positions, l.rows ++ r.rows⟩

end Bindings

/-- `Itertools::chunks`, `slice::chunks`: consecutive pieces of `n` elements (`n > 0`), the last one may be
shorter. -/
def chunksAux {A : Type} (n : Nat) : Nat → List A → List (List A)
  | 0, _ => []
  | _ + 1, [] => []
  | k + 1, x :: xs => (x :: xs).take n :: chunksAux n k ((x :: xs).drop n)

/-- see `chunksAux` -/
def chunks {A : Type} (n : Nat) (l : List A) : List (List A) := chunksAux n l.length l

/-- `Bindings::chunks` (bindings.rs:51-61) -/
def Bindings.chunks (n : Nat) (b : Bindings V) : List (Bindings V) :=
  (Dem.chunks n b.rows).map fun rows => ⟨b.positions, rows⟩

/-- `ProductBindings` (bindings.rs:86-88): for each factor the old and the new bindings -/
abbrev ProductBindings (V : Type) := List (Bindings V × Bindings V)

/-- `ProductBindings::new` (bindings.rs:92-96) -/
def ProductBindings.single (b : Bindings V) : ProductBindings V := [(Bindings.empty b.positions, b)]

/-- the bindings of the other factors (bindings.rs:118-124) -/
def others (idx : Nat) (l : List (Nat × (Bindings V × Bindings V))) : List (Bindings V) :=
  l.filterMap fun x =>
    if idx = x.1 || (x.2.1.isEmpty && x.2.2.isEmpty) then none else some (x.2.1.union x.2.2)

/-- `ProductBindings::combinations` (bindings.rs:107-130) -/
def combinations (pb : ProductBindings V) : List (List (Bindings V)) :=
  let l := (List.range pb.length).zip pb
  l.filterMap fun x => if x.2.2.isEmpty then none else some (x.2.2 :: others x.1 l)

/-- `ProductBindings::count` (bindings.rs:134-143) -/
def ProductBindings.count (pb : ProductBindings V) : Nat :=
  ((combinations pb).map fun c => (c.map Bindings.count).prod).sum

/-- `sorted_by_cached_key` by the number of bindings (reader.rs:205-209), a stable sort -/
def sortByCount (bs : List (Bindings V)) : List (Bindings V) :=
  bs.insertionSort fun a b => a.count ≤ b.count

/-- the first index at which the numbers of bindings add up to more than the size of a page (reader.rs:211-218);
`acc` is the state of `scan`, initially 1 -/
def splitIndex (pageSize : Nat) : Nat → List (Bindings V) → Option Nat
  | _, [] => none
  | acc, b :: bs =>
    if pageSize < acc + b.count then some 0 else (splitIndex pageSize (acc + b.count) bs).map (· + 1)

/-- `multi_cartesian_product` (itertools) -/
def cartesian {A : Type} : List (List A) → List (List A)
  | [] => [[]]
  | l :: ls => l.flatMap fun a => (cartesian ls).map (a :: ·)

/-- What a piece of code does: it returns, or it panics. -/
inductive Outcome (A : Type)
  | ok (a : A)
  | panic
deriving DecidableEq

/-- `bindings_chunks` (reader.rs:204-258).  The index `rest[rest.len()]` (reader.rs:239) is evaluated for each
element of the product, so the code panics if there is one. -/
def bindingsChunks (bs : List (Bindings V)) (pageSize : Nat) : Outcome (List (List (Bindings V))) :=
  let sorted := sortByCount bs
  match splitIndex pageSize 1 sorted with
  | none => .ok [bs]
  | some k =>
    let pre := sorted.take k
    let rest := sorted.drop k
    let prefixCount := (pre.map Bindings.count).prod
    -- `div_ceil` (reader.rs:227) panics for the divisor 0
    if prefixCount = 0 then .panic
    else
      let remaining := max ((pageSize + prefixCount - 1) / prefixCount) 1
      if 1 < rest.length then
        if (cartesian (rest.dropLast.map (Bindings.chunks 1))).isEmpty then .ok [] else .panic
      else
        match rest with
        | [] => .ok []
        | r :: _ => .ok ((r.chunks remaining).map fun c => pre ++ [c])

/-- `queries_with_bindings` (reader.rs:260-284).  `none`: the recursion did not end after `fuel` calls. -/
def queriesWithBindings (fits : List (Bindings V) → Bool) (pb : ProductBindings V) :
    Nat → Nat → Option (Outcome (List (List (Bindings V))))
  | 0, _ => none
  | fuel + 1, pageSize =>
    go (queriesWithBindings fits pb fuel ((pageSize + 1) / 2)) (combinations pb) (max pageSize 1)
where
  /-- the loop over the pages of a combination (reader.rs:269-280) -/
  pages (rec : Option (Outcome (List (List (Bindings V))))) :
      List (List (Bindings V)) → Option (Outcome (List (List (Bindings V))))
    | [] => some (.ok [])
    | page :: rest =>
      match (if fits page then some (.ok [page]) else rec) with
      | none => none
      | some .panic => some .panic
      | some (.ok q) =>
        match pages rec rest with
        | none => none
        | some .panic => some .panic
        | some (.ok qs) => some (.ok (q ++ qs))
  /-- the loop over the combinations (reader.rs:268-281) -/
  go (rec : Option (Outcome (List (List (Bindings V))))) : List (List (Bindings V)) → Nat →
      Option (Outcome (List (List (Bindings V))))
    | [], _ => some (.ok [])
    | c :: cs, size =>
      match bindingsChunks c size with
      | .panic => some .panic
      | .ok ps =>
        match pages rec ps with
        | none => none
        | some .panic => some .panic
        | some (.ok qs) =>
          match go rec cs size with
          | none => none
          | some .panic => some .panic
          | some (.ok qs') => some (.ok (qs ++ qs'))

/-- The answer of the server to a query: rows of terms, the status "payload too large", or another error. -/
inductive Response (T : Type)
  | rows (l : List (List T))
  | tooLarge
  | failure

/-- The result of a load: the rows that were added, or an error -/
inductive Load (T : Type)
  | done (rows : List (List T))
  | error
  | panic
deriving DecidableEq

/-- `MAX_BINDINGS_PER_PAGE` (sparql.rs:42) -/
def maxBindingsPerPage : Nat := 32000

/-- `load_from_bindings` (reader.rs:98-135).  `none`: the recursion did not end after `fuel` calls.
An error that is not "payload too large" is ignored (reader.rs:111-115). -/
def loadFromBindings (fits : List (Bindings V) → Bool) (server : List (Bindings V) → Response T) :
    Nat → ProductBindings V → Option (Load T)
  | 0, _ => none
  | fuel + 1, pb =>
    match queriesWithBindings fits pb fuel maxBindingsPerPage with
    | none => none
    | some .panic => some .panic
    | some (.ok qs) => queries (loadFromBindings fits server fuel) pb qs
where
  /-- the loop over the queries (reader.rs:104-132) -/
  queries (rec : ProductBindings V → Option (Load T)) (pb : ProductBindings V) :
      List (List (Bindings V)) → Option (Load T)
    | [] => some (.done [])
    | page :: rest =>
      let here : Option (Load T) :=
        match server page with
        | .rows l => some (.done l)
        | .failure => some (.done [])
        | .tooLarge =>
          if pb.count = 1 then some .error
          else parts rec (chunks (max ((page.length + 1) / 2) 1) page)
      match here with
      | none => none
      | some .error => some .error
      | some .panic => some .panic
      | some (.done l) =>
        match queries rec pb rest with
        | none => none
        | some .error => some .error
        | some .panic => some .panic
        | some (.done l') => some (.done (l ++ l'))
  /-- the loop over the parts of a page that was too large (reader.rs:121-130) -/
  parts (rec : ProductBindings V → Option (Load T)) : List (List (Bindings V)) → Option (Load T)
    | [] => some (.done [])
    | part :: rest =>
      match rec (part.map fun b => (Bindings.empty b.positions, b)) with
      | none => none
      | some .error => some .error
      | some .panic => some .panic
      | some (.done l) =>
        match parts rec rest with
        | none => none
        | some .error => some .error
        | some .panic => some .panic
        | some (.done l') => some (.done (l ++ l'))

end Verif.Dem
