import Verif.IntervalColumn

/-!
# Tries

Model of `/repo/nemo-physical/src/tabular/trie.rs`: the table representation, the partial trie scan
over it and the row lookups.
-/

set_option linter.unusedSimpArgs false
set_option linter.unusedSectionVars false

namespace Verif

/-! ## The interface of partial trie scans -/

/-- The interface `PartialTrieScan` (/repo/nemo-physical/src/tabular/triescan.rs:26-59).  `depth` is
`current_layer() + 1` (0 when there is no current layer); `next` and `seek` act on
`current_scan()`, `current` on `scan(layer)`; `seek` selects the scan by the type of the value
(/repo/nemo-physical/src/columnar/columnscan.rs:384-392).  `none` is a panic (or divergence). -/
structure TrieOps (S α : Type) where
  depth : S → Nat
  up : S → Option S
  down : S → Ty → Option S
  next : S → Ty → Option (Option α × S)
  seek : S → α → Option (Option α × S)
  current : S → Nat → Ty → Option α

/-- Position in a partial trie scan: for each layer (innermost first) the type and the cursor. -/
abbrev TPath (α : Type) := List (Ty × Cur α)

/-- the values the cursors of a path stand on, outermost first -/
def TPath.pref {α : Type} (p : TPath α) : List α := (p.filterMap (·.2.current)).reverse

/-- all cursors of a path stand on a value -/
def TPath.full {α : Type} (p : TPath α) : Prop := ∀ e ∈ p, e.2.current.isSome

/-- A partial trie scan behaves like the tree whose children of type `τ` below the values `p` are
`ch p τ`: there is a relation between the states of the scan and the positions in the tree which
is respected by all calls that the interface permits (`down` only when standing on a value, `next`
with the type given to the last `down`). -/
structure Simulates {S α : Type} [SVal α] (ops : TrieOps S α) (arity : Nat)
    (ch : List α → Ty → List α) (R : S → TPath α → Prop) : Prop where
  depth : ∀ s p, R s p → ops.depth s = p.length ∧ p.length ≤ arity
  next : ∀ s τ c p, R s ((τ, c) :: p) →
    ∃ s', ops.next s τ = some (c.next.current, s') ∧ R s' ((τ, c.next) :: p)
  current : ∀ s p q τ c, R s (p ++ (τ, c) :: q) → c ≠ .at [] → ops.current s q.length τ = c.current
  up : ∀ s e p, R s (e :: p) → ∃ s', ops.up s = some s' ∧ R s' p
  down : ∀ s p τ, R s p → p.full → p.length < arity →
    ∃ s', ops.down s τ = some s' ∧ R s' ((τ, .fresh (ch p.pref τ)) :: p)

/-- Also `seek` respects the relation.  (Separate from `Simulates`, since not all operators are used
with `seek`.) -/
def SeekSim {S α : Type} [SVal α] (ops : TrieOps S α) (R : S → TPath α → Prop) : Prop :=
  ∀ s c p v, R s ((ty v, c) :: p) →
    ∃ s', ops.seek s v = some ((c.seek v).current, s') ∧ R s' ((ty v, c.seek v) :: p)

/-- `current` is also right after the end of a column.  (Not part of `Simulates`: after a failed
`seek` the filtering scan still shows its previous value, see C06.) -/
def CurSim {S α : Type} [SVal α] (ops : TrieOps S α) (R : S → TPath α → Prop) : Prop :=
  ∀ s p q τ c, R s (p ++ (τ, c) :: q) → ops.current s q.length τ = c.current

/-! ## The trie -/

/-- `Trie` (trie.rs:41-48). -/
structure Trie (α : Type) where
  columns : List (Layer α)
  emptyRow : Bool

namespace Trie
variable {α : Type}

/-- `arity` (trie.rs:52-54). -/
def arity (t : Trie α) : Nat := t.columns.length

/-- `num_rows` (trie.rs:57-65). -/
def numRows (t : Trie α) : Nat :=
  match t.columns.getLast? with
  | some l => l.numData
  | none => if t.emptyRow then 1 else 0

/-- `empty` (trie.rs:165-172): `num_columns` finalized default builders. -/
def empty [SVal α] (n : Nat) : Trie α :=
  ⟨List.replicate n (MBuilder.finalize (α := α) {}), false⟩

/-- `zero_arity` (trie.rs:175-180). -/
def zeroArity (b : Bool) : Trie α := ⟨[], b⟩

end Trie

/-- `TrieScanGeneric` (trie.rs:563-572).  `path` is `path_types` with the innermost layer first;
`scans k τ` is the scan of type `τ` of layer `k`.  Leaf scans are vector scans here (run-length
encoded ones behave in the same way: C01, C02). -/
structure GScan (α : Type) where
  trie : Trie α
  path : List Ty
  scans : Nat → Ty → VecScan α

namespace GScan
variable {α : Type} [SVal α]

/-- `partial_iterator` (trie.rs:78-86). -/
def new (t : Trie α) : GScan α :=
  ⟨t, [], fun k τ => VecScan.new (((t.columns[k]?).map fun l => (l τ).data).getD [])⟩

/-- Replace one scan. -/
def setScan (s : GScan α) (k : Nat) (τ : Ty) (v : VecScan α) : GScan α :=
  { s with scans := Function.update s.scans k (Function.update (s.scans k) τ v) }

/-- `up` (trie.rs:586-593); `pop` on an empty vector does nothing in release builds. -/
def up (s : GScan α) : Option (GScan α) := some { s with path := s.path.tail }

/-- `down` at the root (trie.rs:597-599). -/
def downRoot (s : GScan α) (τ : Ty) : Option (GScan α) :=
  if 0 < s.trie.columns.length then some (s.setScan 0 τ (s.scans 0 τ).reset) else none

/-- `down` below a layer (trie.rs:600-618). -/
def downInner (s : GScan α) (σ : Ty) (τ : Ty) : Option (GScan α) := do
  let k := s.path.length
  let i ← (s.scans (k - 1) σ).position
  let l ← s.trie.columns[k]?
  let r ← (l τ).bounds σ i
  let v ← (s.scans k τ).narrow (r.getD (0, 0)).1 (r.getD (0, 0)).2
  return s.setScan k τ v

/-- `down` (trie.rs:595-622). -/
def down (s : GScan α) (τ : Ty) : Option (GScan α) := do
  let s' ← (match s.path with
    | [] => downRoot s τ
    | σ :: _ => downInner s σ τ)
  return { s' with path := τ :: s.path }

/-- `next` on the current scan (columnscan.rs:398-406). -/
def next (s : GScan α) (τ : Ty) : Option (Option α × GScan α) := do
  let k ← usub s.path.length 1
  let (o, v) ← (s.scans k τ).next
  return (o, s.setScan k τ v)

/-- `seek` on the current scan (columnscan.rs:384-392). -/
def seek (s : GScan α) (v : α) : Option (Option α × GScan α) := do
  let k ← usub s.path.length 1
  let (o, w) ← (s.scans k (ty v)).seek v
  return (o, s.setScan k (ty v) w)

/-- `current` on the scan of a layer (columnscan.rs:409-417). -/
def current (s : GScan α) (k : Nat) (τ : Ty) : Option α := (s.scans k τ).current

/-- `TrieScanGeneric` as a partial trie scan (trie.rs:585-647). -/
def ops : TrieOps (GScan α) α :=
  ⟨fun s => s.path.length, up, down, next, seek, current⟩

end GScan

namespace Trie
variable {α : Type} [SVal α]

/-- The loop of `contains_row`/`row_position` (trie.rs:107-123, 140-156): for each value go down and
seek it. `none`: panic; `some none`: not found. -/
def find : GScan α → List α → Option (Option (GScan α))
  | s, [] => some (some s)
  | s, v :: vs => do
    let s ← s.down (ty v)
    let (o, s) ← s.seek v
    if o = some v then find s vs else return none

/-- `contains_row` (trie.rs:100-126). -/
def containsRow (t : Trie α) (row : List α) : Option Bool := do
  if t.arity ≠ row.length then return false
  let r ← find (GScan.new t) row
  return r.isSome

/-- `row_position` (trie.rs:129-160). -/
def rowPosition (t : Trie α) (row : List α) : Option (Option Nat) := do
  if t.arity ≠ row.length then return none
  if t.arity = 0 then return none
  match ← find (GScan.new t) row with
  | none => return none
  | some s =>
    let v ← row.getLast?
    return (s.scans (t.arity - 1) (ty v)).position

end Trie

/-! ## Sorted lists of rows as trees -/

section tree
variable {α : Type} [SVal α]

/-- remove repetitions of neighbours -/
def uniq : List α → List α
  | [] => []
  | [a] => [a]
  | a :: b :: l => if a = b then uniq (b :: l) else a :: uniq (b :: l)

/-- the rows starting with `a`, without it -/
def tails (a : α) (rows : List (List α)) : List (List α) :=
  rows.filterMap fun r => match r with
    | [] => none
    | b :: t => if b = a then some t else none

/-- the rows that start with the values `p`, without them -/
def subs (rows : List (List α)) (p : List α) : List (List α) := p.foldl (fun n a => tails a n) rows

/-- the values that occur as first value -/
def keys (rows : List (List α)) : List α := uniq (rows.filterMap List.head?)

/-- the values of type `τ` that follow the values `p` in some row -/
def chOf (rows : List (List α)) (p : List α) (τ : Ty) : List α := keysOf τ (keys (subs rows p))

/-- the type of the last value (the type of the root is `Id32`) -/
def lastTy (p : List α) : Ty := ((p.getLast?).map ty).getD 0

/-- the distinct beginnings of length `k` of the rows, from left to right -/
def level (rows : List (List α)) : Nat → List (List α)
  | 0 => [[]]
  | k + 1 => (level rows k).flatMap fun p => (keys (subs rows p)).map fun a => p ++ [a]

/-- the input of the builder of a layer: types and children of the nodes of the previous layer -/
def gen (rows : List (List α)) (T : List (List α)) : List (Ty × List α) :=
  T.map fun p => (lastTy p, keys (subs rows p))

/-- A trie represents a list of rows: layer `k` consists of the children of the nodes at depth `k`.
(The lookup columns of layer 0, and those of an empty trie, are never used.) -/
structure Rep (t : Trie α) (rows : List (List α)) : Prop where
  data : ∀ k l τ, t.columns[k]? = some l → (l τ).data = allKeys τ (gen rows (level rows k))
  layer : ∀ k l, t.columns[k + 1]? = some l → level rows (k + 1) ≠ [] →
    l = (buildRaw (gen rows (level rows (k + 1)))).finalizeAll

end tree
end Verif
