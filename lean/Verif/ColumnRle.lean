import Verif.ColumnVector
import Verif.BinarySearch

/-!
# Run-length encoded columns

Model of `/repo/nemo-physical/src/columnar/column/rle.rs`,
`/repo/nemo-physical/src/columnar/columnbuilder/rle.rs`,
`/repo/nemo-physical/src/columnar/columnbuilder/adaptive.rs` and
`/repo/nemo-physical/src/datatypes/run_length_encodable.rs` (the concrete integer types are in
`Verif.RleTypes`).
-/

set_option linter.unusedSimpArgs false
set_option linter.unusedSectionVars false

namespace Verif

/-- Trait `RunLengthEncodable` (run_length_encodable.rs:11-29) plus the arithmetic
`((value - start_value) / inc).floor_to_usize().unwrap_or_default()` that `seek` performs on the
value type (column/rle.rs:341-343).  `none` results of `offset` and `floorDiv` are panics. -/
structure RleOps (α Step : Type) where
  diffStep : α → α → Option Step
  zeroStep : Step
  stepInc : Step → Option α
  offset : α → Step → Nat → Option α
  floorDiv : (value start inc : α) → Option Nat

/-- `RleElement` (columnbuilder/rle.rs:14-22); `NonZeroUsize` is a `Nat`. -/
structure RleElement (α Step : Type) where
  value : α
  length : Nat
  increment : Step

/-- `ColumnRle` (column/rle.rs:14-19). -/
structure RleCol (α Step : Type) where
  values : List α
  endIndices : List Nat
  increments : List Step

/-- `ColumnBuilderRle` (columnbuilder/rle.rs:25-30). -/
structure RleBuilder (α Step : Type) where
  elements : List (RleElement α Step)
  prev : Option α
  count : Nat

namespace RleBuilder
variable {α Step : Type} [DecidableEq Step]

/-- `ColumnBuilderRle::new` (columnbuilder/rle.rs:37-43). -/
def new : RleBuilder α Step := ⟨[], none, 0⟩

/-- `add` (columnbuilder/rle.rs:71-124). The two `expect`s are panics. -/
def add (ops : RleOps α Step) (b : RleBuilder α Step) (v : α) : Option (RleBuilder α Step) :=
  if b.elements.isEmpty then
    some ⟨[⟨v, 1, ops.zeroStep⟩], some v, b.count + 1⟩
  else do
    let previous ← b.prev
    let last ← b.elements.getLast?
    let elements :=
      match ops.diffStep previous v with
      | some inc =>
        if last.length = 1 then
          b.elements.dropLast ++ [{ last with length := 2, increment := inc }]
        else if last.increment = inc then
          b.elements.dropLast ++ [{ last with length := last.length + 1 }]
        else b.elements ++ [⟨v, 1, ops.zeroStep⟩]
      | none => b.elements ++ [⟨v, 1, ops.zeroStep⟩]
    return ⟨elements, some v, b.count + 1⟩

/-- `avg_length_of_rle_elements` (columnbuilder/rle.rs:51-57). -/
def avgLength (b : RleBuilder α Step) : Nat :=
  if b.elements.isEmpty then 0 else b.count / b.elements.length

end RleBuilder

namespace RleCol
variable {α Step : Type} [DecidableEq Step]

/-- `ColumnRle::from_rle_elements` (column/rle.rs:26-51). -/
def fromElements (els : List (RleElement α Step)) : RleCol α Step :=
  els.foldl (fun c e =>
    ⟨c.values ++ [e.value], c.endIndices ++ [c.endIndices.getLast?.getD 0 + e.length],
     c.increments ++ [e.increment]⟩) ⟨[], [], []⟩

/-- `el.checked_sub(1).map(|i| end_indices[i].get()).unwrap_or(0)` (column/rle.rs:84-88, 191-195,
229-233, 345-349). -/
def endBefore (c : RleCol α Step) (el : Nat) : Option Nat :=
  match el with
  | 0 => some 0
  | e + 1 => c.endIndices[e]?

/-- The element index of `get_element_and_increment_index_from_global_index`
(column/rle.rs:72-82). -/
def elementOf (c : RleCol α Step) (index : Nat) : Option Nat :=
  if index = 0 then some 0 else
    (binarySearch c.endIndices index).map fun r =>
      match r with
      | .inl i => i + 1
      | .inr i => i

/-- `get_element_and_increment_index_from_global_index` (column/rle.rs:71-91). -/
def locate (c : RleCol α Step) (index : Nat) : Option (Nat × Nat) := do
  let el ← c.elementOf index
  let before ← c.endBefore el
  let inc ← usub index before
  return (el, inc)

/-- `get_internal` (column/rle.rs:93-102). -/
def getInternal (ops : RleOps α Step) (c : RleCol α Step) (el inc : Nat) : Option α := do
  let value ← c.values[el]?
  let increment ← c.increments[el]?
  if increment = ops.zeroStep then return value
  ops.offset value increment inc

/-- `len` (column/rle.rs:111-116). -/
def len (c : RleCol α Step) : Nat := c.endIndices.getLast?.getD 0

/-- `get` (column/rle.rs:122-127). -/
def get (ops : RleOps α Step) (c : RleCol α Step) (index : Nat) : Option α := do
  let (el, inc) ← c.locate index
  c.getInternal ops el inc

end RleCol

/-- `ColumnScanRle` (column/rle.rs:146-155). -/
structure RleScan (α Step : Type) where
  column : RleCol α Step
  el : Nat
  inc : Nat
  current : Option α
  lower : Nat × Nat
  upper : Nat × Nat
  init : Bool

namespace RleScan
variable {α Step : Type} [LinearOrder α] [DecidableEq Step]

/-- `ColumnScanRle::new` (column/rle.rs:162-174). -/
def new (c : RleCol α Step) : Option (RleScan α Step) := do
  let upper ← c.locate c.len
  return ⟨c, 0, 0, none, (0, 0), upper, false⟩

/-- `initialize_indices` (column/rle.rs:176-184). -/
def initIndices (s : RleScan α Step) : RleScan α Step :=
  if s.init then s else { s with el := s.lower.1, inc := s.lower.2, init := true }

/-- `are_indices_in_range` (column/rle.rs:203-211). -/
def inRange (s : RleScan α Step) (el inc : Nat) : Bool :=
  (decide (s.lower.1 < el) || (el == s.lower.1 && decide (s.lower.2 ≤ inc))) &&
  (decide (el < s.upper.1) || (el == s.upper.1 && decide (inc < s.upper.2)))

/-- `is_self_in_range` (column/rle.rs:213-216). -/
def selfInRange (s : RleScan α Step) : Bool := s.init && s.inRange s.el s.inc

/-- `reset` (column/rle.rs:391-396). -/
def reset (s : RleScan α Step) : RleScan α Step :=
  { s with el := 0, inc := 0, current := none, init := false }

/-- `narrow` (column/rle.rs:405-414). -/
def narrow (s : RleScan α Step) (a b : Nat) : Option (RleScan α Step) := do
  let lower ← s.column.locate a
  let upper ← s.column.locate b
  return { s.reset with lower := lower, upper := upper }

/-- `pos` (column/rle.rs:398-403, 186-201); the outer `Option` is a panic. -/
def position (s : RleScan α Step) : Option (Option Nat) :=
  if !s.init then some none
  else if s.inRange s.el s.inc then do
    let b ← s.column.endBefore s.el
    return some (b + s.inc)
  else some none

/-- First half of `next` (column/rle.rs:226-241): move the indices. -/
def advance (s : RleScan α Step) : Option (RleScan α Step) :=
  if s.init && s.selfInRange then do
    let before ← s.column.endBefore s.el
    let stop ← s.column.endIndices[s.el]?
    if stop ≤ (s.inc + 1) + before then return { s with el := s.el + 1, inc := 0 }
    else return { s with inc := s.inc + 1 }
  else some s.initIndices

/-- The value computed by `next` at the new indices (column/rle.rs:244-251). -/
def nextValue (ops : RleOps α Step) (s : RleScan α Step) : Option α :=
  if s.inc = 0 then s.column.values[s.el]? else
    match s.current with
    | some cur => do
      let i ← s.column.increments[s.el]?
      ops.offset cur i 1
    | none => s.column.getInternal ops s.el s.inc

/-- `Iterator::next` (column/rle.rs:225-255). -/
def next (ops : RleOps α Step) (s : RleScan α Step) : Option (Option α × RleScan α Step) := do
  let s ← s.advance
  if s.selfInRange then
    let x ← s.nextValue ops
    return (some x, { s with current := some x })
  else return (none, { s with current := none })

/-- `self.find(|&next| next >= value)` (column/rle.rs:384): `Iterator::find` calls `next` until the
predicate holds. -/
def find (ops : RleOps α Step) (s : RleScan α Step) (v : α) : Option (Option α × RleScan α Step) := do
  let (o, s) ← s.next ops
  match o with
  | none => return (none, s)
  | some x => if v ≤ x then return (some x, s) else find ops s v
partial_fixpoint

/-- `.unwrap_or_else(|err| err)` on a binary search result (column/rle.rs:323). -/
def okOrErr : Nat ⊕ Nat → Nat
  | .inl i => i
  | .inr i => i

/-- Position computed by `seek` from the block found by binary search (column/rle.rs:327-363). -/
def seekTarget (ops : RleOps α Step) (c : RleCol α Step) (b : Nat) (v : α) : Option (Nat × Nat) := do
  let start ← c.values[b]?
  let inc ← c.increments[b]?
  if v ≤ start then return (b, 0)
  else if inc = ops.zeroStep then return (b + 1, 0)
  else match ops.stepInc inc with
    | some i => do
      let k ← ops.floorDiv v start i
      let before ← c.endBefore b
      let stop ← c.endIndices[b]?
      if stop ≤ k + before then return (b + 1, 0) else return (b, k)
    | none => return (b, 0)

/-- `seek` (column/rle.rs:265-385; the `check_column_sorting` assertion is a debug feature). -/
def seek (ops : RleOps α Step) (s : RleScan α Step) (v : α) : Option (Option α × RleScan α Step) :=
  if s.column.values.isEmpty then return (none, s) else
  let s := s.initIndices
  if !s.selfInRange then return (none, s) else do
  let ub := if 0 < s.upper.2 then s.upper.1 + 1 else s.upper.1
  -- slicing `values[element_index..ub]` panics unless `element_index ≤ ub ≤ len`
  if ¬ (s.el ≤ ub ∧ ub ≤ s.column.values.length) then none else
  let r ← binarySearch (slice s.column.values s.el ub) v
  let b := okOrErr r - 1 + s.el
  let (te, ti) ← seekTarget ops s.column b v
  let s := if s.el < te ∨ (te = s.el ∧ s.inc < ti) then { s with el := te, inc := ti } else s
  if s.selfInRange then do
    let cur ← s.column.getInternal ops s.el s.inc
    let s := { s with current := some cur }
    if v ≤ cur then return (some cur, s) else s.find ops v
  else find ops { s with current := none } v

/-- The run-length scan as a cursor implementation. -/
def ops (r : RleOps α Step) : ScanOps (RleScan α Step) α := ⟨next r, seek r, current⟩

end RleScan

/-- `ColumnImplDecisionThreshold` (adaptive.rs:15-21). -/
inductive DecisionThreshold where
  | numberOfRleElements (n : Nat)
  | onFinalize

/-- `ColumnEnum` restricted to what the builder produces (column.rs): a vector or an RLE column. -/
inductive ColumnEnum (α Step : Type) where
  | vector (data : List α)
  | rle (col : RleCol α Step)

/-- `ColumnBuilderType` (adaptive.rs:41-47). -/
inductive AdaptiveState (α Step : Type) where
  | rle (b : RleBuilder α Step)
  | vector (data : List α)

/-- `ColumnBuilderAdaptive` (adaptive.rs:61-68). -/
structure AdaptiveBuilder (α Step : Type) where
  builder : AdaptiveState α Step
  threshold : DecisionThreshold
  targetMin : Nat

namespace AdaptiveBuilder
variable {α Step : Type} [LinearOrder α] [DecidableEq Step]

/-- `ColumnBuilderAdaptive::_new` (adaptive.rs:75-84). -/
def new (t : DecisionThreshold) (m : Nat) : AdaptiveBuilder α Step := ⟨.rle RleBuilder.new, t, m⟩

/-- `rle_column.iter().collect()` (adaptive.rs:102): call `next` until `None`. -/
def drain (ops : RleOps α Step) (s : RleScan α Step) : Option (List α) := do
  let (o, s) ← s.next ops
  match o with
  | none => return []
  | some x => do
    let r ← drain ops s
    return x :: r
partial_fixpoint

/-- `expand_sparse_rle_columns` (adaptive.rs:86-104). -/
def expandSparse (ops : RleOps α Step) (a : AdaptiveBuilder α Step) :
    Option (AdaptiveBuilder α Step) :=
  match a.builder with
  | .vector _ => some a
  | .rle b =>
    if b.avgLength < a.targetMin then do
      let s ← RleScan.new (RleCol.fromElements b.elements)
      let l ← drain ops s
      return { a with builder := .vector l }
    else some a

/-- The `if let` chain at the beginning of `add` (adaptive.rs:114-119). -/
def maybeExpand (ops : RleOps α Step) (a : AdaptiveBuilder α Step) :
    Option (AdaptiveBuilder α Step) :=
  match a.threshold, a.builder with
  | .numberOfRleElements t, .rle b =>
    if t < b.elements.length then expandSparse ops a else some a
  | _, _ => some a

/-- The `match` at the end of `add` (adaptive.rs:121-124). -/
def pushValue (ops : RleOps α Step) (a : AdaptiveBuilder α Step) (v : α) :
    Option (AdaptiveBuilder α Step) :=
  match a.builder with
  | .vector l => some { a with builder := .vector (l ++ [v]) }
  | .rle b => (b.add ops v).map fun b => { a with builder := .rle b }

/-- `add` (adaptive.rs:113-125). -/
def add (ops : RleOps α Step) (a : AdaptiveBuilder α Step) (v : α) :
    Option (AdaptiveBuilder α Step) := do
  let a ← maybeExpand ops a
  pushValue ops a v

/-- `finalize` (adaptive.rs:127-136). -/
def finalize (ops : RleOps α Step) (a : AdaptiveBuilder α Step) : Option (ColumnEnum α Step) := do
  let a ← expandSparse ops a
  match a.builder with
  | .vector l => return .vector l
  | .rle b => return .rle (RleCol.fromElements b.elements)

/-- `count` (adaptive.rs:138-143). -/
def count (a : AdaptiveBuilder α Step) : Nat :=
  match a.builder with
  | .vector l => l.length
  | .rle b => b.count

end AdaptiveBuilder

namespace ColumnEnum
variable {α Step : Type} [LinearOrder α] [DecidableEq Step]

/-- `Column::len` of the chosen column (column.rs forwards to vector.rs:32-34 / rle.rs:111-116). -/
def len : ColumnEnum α Step → Nat
  | .vector l => l.length
  | .rle c => c.len

/-- `Column::get` (vector.rs:36-38, rle.rs:122-127); `none` is an index panic. -/
def get (ops : RleOps α Step) : ColumnEnum α Step → Nat → Option α
  | .vector l, i => l[i]?
  | .rle c, i => c.get ops i

/-- The scan of a column: `ColumnScanEnum::{Vector, Rle}` (columnscan.rs:53-60). -/
inductive Scan (α Step : Type) where
  | vector (s : VecScan α)
  | rle (s : RleScan α Step)

/-- `Column::iter`. -/
def iter : ColumnEnum α Step → Option (Scan α Step)
  | .vector l => some (.vector (VecScan.new l))
  | .rle c => (RleScan.new c).map .rle

/-- `narrow`, forwarded (columnscan.rs:215-262). -/
def Scan.narrow : Scan α Step → Nat → Nat → Option (Scan α Step)
  | .vector s, a, b => (s.narrow a b).map .vector
  | .rle s, a, b => (s.narrow a b).map .rle

/-- `pos`, forwarded; the outer `Option` is a panic. -/
def Scan.position : Scan α Step → Option (Option Nat)
  | .vector s => some s.position
  | .rle s => s.position

/-- The forwarding of `generate_forwarder!(forward_to_columnscan)` (columnscan.rs:215-262). -/
def Scan.ops (r : RleOps α Step) : ScanOps (Scan α Step) α where
  next
    | .vector s => (VecScan.ops.next s).map fun (o, s) => (o, .vector s)
    | .rle s => ((RleScan.ops r).next s).map fun (o, s) => (o, .rle s)
  seek
    | .vector s, v => (VecScan.ops.seek s v).map fun (o, s) => (o, .vector s)
    | .rle s, v => ((RleScan.ops r).seek s v).map fun (o, s) => (o, .rle s)
  current
    | .vector s => s.current
    | .rle s => s.current

end ColumnEnum
end Verif
