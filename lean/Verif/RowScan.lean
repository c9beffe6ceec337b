import Verif.Trie

/-!
# Row scans

Model of `/repo/nemo-physical/src/tabular/rowscan.rs`: iterating over a partial trie scan row by row.
-/

set_option linter.unusedSimpArgs false
set_option linter.unusedSectionVars false

namespace Verif

/-- `Single` (rowscan.rs:100-104). -/
inductive Single
  | before
  | at
  | after
deriving DecidableEq

/-- The mutable part of `RowScan` (rowscan.rs:108-128).  `used k` is `used_types[k].used -
used_types[k].start`: the flat vector of `PossibleTypes` is modelled as one list per layer. -/
structure RowSt (S α : Type) where
  scan : S
  used : Nat → Nat
  single : Single
  row : List α
  change : Nat

/-- The immutable part of `RowScan`: the wrapped scan's operations, its arity, the possible types of
each layer (rowscan.rs:139-141), `existential`, and the number of columns of the rows. -/
structure RowCfg (S α : Type) where
  ops : TrieOps S α
  arity : Nat
  types : Nat → List Ty
  existential : Nat
  usedCols : Nat

namespace RowCfg
variable {S α : Type} (cfg : RowCfg S α)

/-- `RowScan::new` (rowscan.rs:135-157); the initial row has arbitrary content. -/
def new (s : S) (d : α) : RowSt S α := ⟨s, fun _ => 0, .before, List.replicate cfg.usedCols d, 0⟩

/-- the field `empty` (rowscan.rs:143). -/
def empty : Bool := cfg.arity == 0 || (List.range cfg.arity).any fun k => (cfg.types k).isEmpty

/-- `PossibleTypes::current_type` (rowscan.rs:82-84). -/
def curType (st : RowSt S α) (k : Nat) : Option Ty := (cfg.types k)[st.used k]?

/-- set the used type of a layer -/
def setUsed (st : RowSt S α) (k i : Nat) : RowSt S α := { st with used := Function.update st.used k i }

/-- `first_type` followed by `down` (rowscan.rs:75-80, 206-207, 238-240). -/
def downFirst (st : RowSt S α) (k : Nat) : Option (RowSt S α) := do
  let τ ← (cfg.types k)[0]?
  let s ← cfg.ops.down st.scan τ
  return { setUsed st k 0 with scan := s }

/-- `next_type` followed by `down` (rowscan.rs:63-73, 245-247). -/
def downNext (st : RowSt S α) (k : Nat) : Option (RowSt S α) :=
  let i := st.used k + 1
  if i = (cfg.types k).length then some (setUsed st k 0)
  else do
    let τ ← (cfg.types k)[i]?
    let s ← cfg.ops.down st.scan τ
    return { setUsed st k i with scan := s }

/-- call `up` repeatedly (rowscan.rs:231-233). -/
def ups : Nat → S → Option S
  | 0, s => some s
  | n + 1, s => do
    let s ← cfg.ops.up s
    ups n s

/-- one entry of the row (rowscan.rs:224-226); `expect` panics without a value. -/
def rowEntry (st : RowSt S α) (k : Nat) : Option α := do
  let τ ← cfg.curType st k
  cfg.ops.current st.scan k τ

/-- A complete row has been found (rowscan.rs:222-235). -/
def emit (st : RowSt S α) : Option (RowSt S α) := do
  let row ← (List.range cfg.usedCols).mapM (cfg.rowEntry st)
  let s ← cfg.ups cfg.existential st.scan
  return { st with scan := s, row := row, single := .at }

/-- One iteration of the loop (rowscan.rs:212-249), on some layer; the Boolean tells whether the
function returns. -/
def iter (st : RowSt S α) : Option (Bool × RowSt S α) := do
  let k := cfg.ops.depth st.scan - 1
  let τ ← cfg.curType st k
  let st := { st with change := min k st.change }
  let (o, s) ← cfg.ops.next st.scan τ
  let st := { st with scan := s }
  match o with
  | some _ =>
    if k = cfg.arity - 1 then do
      let st ← cfg.emit st
      return (true, st)
    else do
      let st ← cfg.downFirst st (k + 1)
      return (false, st)
  | none => do
    let s ← cfg.ops.up st.scan
    let st ← cfg.downNext { st with scan := s } k
    return (false, st)

/-- The loop (rowscan.rs:212-249). -/
def loop (st : RowSt S α) : Option (RowSt S α) :=
  if cfg.ops.depth st.scan = 0 then some st
  else do
    let (b, st) ← cfg.iter st
    if b then return st else loop st
partial_fixpoint

/-- Enter the first layer when outside (rowscan.rs:205-208). -/
def enter (st : RowSt S α) : Option (RowSt S α) :=
  if cfg.ops.depth st.scan = 0 then cfg.downFirst st 0 else some st

/-- `advance` (rowscan.rs:193-250). -/
def advance (st : RowSt S α) : Option (RowSt S α) :=
  if cfg.empty then some st
  else if cfg.existential = cfg.arity ∧ st.single = .at then some { st with single := .after }
  else do
    let st ← cfg.enter st
    let c ← usub st.row.length 1
    cfg.loop { st with change := c }

/-- `get` (rowscan.rs:252-260, 269-275). -/
def get (st : RowSt S α) : Option (List α × Nat) :=
  if 0 < cfg.ops.depth st.scan ∨ (cfg.existential = cfg.arity ∧ st.single = .at) then
    some (st.row, st.change)
  else none

/-- Iterate until the scan is exhausted: the rows with their `change`. -/
def collect (st : RowSt S α) : Option (List (List α × Nat)) := do
  let st ← cfg.advance st
  match cfg.get st with
  | none => return []
  | some r =>
    let rest ← collect st
    return r :: rest
partial_fixpoint

end RowCfg

/-! ## The rows of a tree -/

section spec
variable {α : Type}

/-- Collect results at depth `n` below the values `p`, from left to right. -/
def dfs {β : Type} (types : Nat → List Ty) (ch : List α → Ty → List α) (g : List α → List β) :
    Nat → List α → List β
  | 0, p => g p
  | n + 1, p => (types p.length).flatMap fun τ => (ch p τ).flatMap fun a =>
      dfs types ch g n (p ++ [a])

/-- the complete rows below `p` -/
def leaves (types : Nat → List Ty) (ch : List α → Ty → List α) (n : Nat) (p : List α) :
    List (List α) := dfs types ch (fun q => [q]) n p

/-- The rows of length `N` that can be extended by `e` values; the result contains for each of them
the row itself and its first extension. -/
def extendable (types : Nat → List Ty) (ch : List α → Ty → List α) (N e : Nat) :
    List (List α × List α) :=
  dfs types ch (fun q => ((leaves types ch e q).head?.map fun r => (q, r)).toList) N []

/-- length of the longest common prefix -/
def cpl [DecidableEq α] : List α → List α → Nat
  | a :: l, b :: m => if a = b then cpl l m + 1 else 0
  | _, _ => 0

/-- give each row the length of the prefix it shares with its predecessor -/
def attachFrom [DecidableEq α] (prev : List α) : List (List α × List α) →
    List (List α × List α × Nat)
  | [] => []
  | (q, r) :: l => (q, r, cpl prev q) :: attachFrom q l

/-- the first row gets `c` -/
def attach [DecidableEq α] (c : Nat) : List (List α × List α) → List (List α × List α × Nat)
  | [] => []
  | (q, r) :: l => (q, r, c) :: attachFrom q l

end spec

end Verif
