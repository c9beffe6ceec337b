import Verif.TrieDependents
import Verif.OrderManager

/-!
# Execution plans

Model of `/repo/nemo-physical/src/management/execution_plan.rs` (turning a plan into a series of trees) and of
`execute_plan` in `/repo/nemo-physical/src/management/database.rs`.

A plan is a set of nodes, some of which are marked as output.  Every output node is computed once and stored, other
nodes are parts of the trees in which they occur.  Nodes may be requested in several column orders; the result
of an output node that exists in one order is reordered when it is needed in another.  Projections of a temporary table
are computed in the same pass as the table itself (its *dependents*), and the table itself is not stored if
only its projections are needed.

The operators aggregate, null, single and import are not part of this model.
-/

set_option linter.unusedSimpArgs false
set_option linter.unusedSectionVars false
set_option linter.unusedVariables false

namespace Verif
namespace XPlan
variable {α : Type} [SVal α] {M V U B T N : Type} [DecidableEq M] [DecidableEq B]

/-! ## Plans -/

/-- `ExecutionOperation` (execution_plan.rs:197-229) without its operands.  `union` carries the number of columns of
the result, which is not part of the code and only used in the specification. -/
inductive Kind (M V U B T N : Type)
  | fetch (table : Nat) (order : Permut)
  | join
  | union (ar : Nat)
  | subtract
  | project
  | filter (filters : List (FTree V U B T N M))
  | function (funs : List (M × FTree V U B T N M))
  | rename
  | zero

/-- `ExecutionNode` (execution_plan.rs:185-193) with its operands (`subnodes`, 148-180).  Nodes can be
operands of several nodes; here they are unfolded into a tree, in which equal ids belong to equal subtrees
(`SubOK` below). -/
inductive Node (M V U B T N : Type)
  | mk (id : Nat) (markers : List M) (kind : Kind M V U B T N) (n : Nat) (subs : Fin n → Node M V U B T N)

namespace Node
/-- `ExecutionNodeRef::id` (execution_plan.rs:97-102) -/
def id : Node M V U B T N → Nat | mk i _ _ _ _ => i
/-- `markers_cloned` (execution_plan.rs:106-111) -/
def markers : Node M V U B T N → List M | mk _ ms _ _ _ => ms
/-- the operation -/
def kind : Node M V U B T N → Kind M V U B T N | mk _ _ k _ _ => k
end Node

/-- `ExecutionOutNode` (execution_plan.rs:250-260): `perm` is the order of a permanent result, `none` for a temporary
one; names are left out. -/
structure Out (M V U B T N : Type) where
  node : Node M V U B T N
  perm : Option Permut
  nonEmpty : Bool

/-- the output node with the given id (execution_plan.rs:716-718) -/
def findOut (outs : List (Out M V U B T N)) (id : Nat) : Option (Out M V U B T N) := outs.find? fun o => o.node.id == id

/-- `ColumnOrder::default()` -/
def ident : Permut := ⟨[], []⟩

/-! ## Series of trees -/

/-- `ExecutionTreeNode` (execution_series.rs:43-57) -/
inductive Tree (M V U B T N : Type)
  | op (p : Plan M V U B T N)
  | project (g : GenPR) (p : Plan M V U B T N)

/-- `ExecutionTreeNode::operation` (execution_series.rs:64-70) -/
def Tree.operation : Tree M V U B T N → Option (Plan M V U B T N)
  | .op p => some p
  | .project _ _ => none

/-- `ExecutionTree` (execution_series.rs:75-99) together with the markers and the roots
that are recorded while the trees are collected (execution_plan.rs:606) -/
structure Entry (M V U B T N : Type) where
  root : Tree M V U B T N
  perm : Option Permut
  id : Nat
  used : Nat
  deps : List (Nat × Choice)
  nonEmpty : Bool
  markers : List M
  roots : List Nat

/-- `computed_trees`, `computed_trees_map` and `loaded_tables` (execution_plan.rs:1047-1052); tables are loaded in the order
of the list -/
structure St (M V U B T N : Type) where
  trees : List (Entry M V U B T N)
  map : List (Nat × List (Permut × Nat))
  loaded : List (Nat × Permut)

/-- a state-changing loop over the operands -/
def mapSt {σ β : Type} : (n : Nat) → (Fin n → σ → Option (β × σ)) → σ → Option ((Fin n → β) × σ)
  | 0, _, s => some (Fin.elim0, s)
  | n + 1, f, s =>
    (f 0 s).bind fun x => (mapSt n (fun i => f i.succ) x.2).map fun y => (Fin.cons x.1 y.1, y.2)

/-- the position in `target` of the marker in column `i` (operations.rs:155-159) -/
def alignKey (self target : List M) (i : Nat) : Nat := (self[i]?.map target.idxOf).getD 0

/-- the columns sorted by their position in the target (operations.rs:154-159) -/
def alignIdx (self target : List M) : List Nat :=
  (List.range self.length).mergeSort fun a b => decide (alignKey self target a ≤ alignKey self target b)

/-- `OperationTable::align` (operations.rs:153-163); a marker that is not in the target panics (in the code
only if there is something to sort). -/
def align (self target : List M) : Option (List M × Permut) :=
  if ∀ m ∈ self, m ∈ target then
    (Permut.fromVector (alignIdx self target)).permute self |>.map fun ms => (ms, Permut.fromVector (alignIdx self target))
  else none

/-- the markers of a node in the requested order (execution_plan.rs:737-740) -/
def orderedMarkers (ms : List M) (order : Permut) : Option (List M) :=
  if ms.isEmpty then some ms else order.permute ms

/-- the order in which operand `i` is needed, and its markers in this order (execution_plan.rs:759-765,
800, 822, 841-849, 879, 900, 924, 1027) -/
def kidOrder (kind : Kind M V U B T N) (ms : List M) (order : Permut) (i : Nat) (kms : List M) : Option (List M × Permut) :=
  match kind with
  | .join => align kms ms
  | .subtract => if i = 0 then some (kms, order) else align kms ms
  | _ => some (kms, order)

/-- `loaded_tables.entry(…)` (execution_plan.rs:744-752) -/
def loadTable (st : St M V U B T N) (table : Nat) (order : Permut) : Nat × St M V U B T N :=
  match st.loaded.findIdx? fun x => x.1 == table && x.2.beq order with
  | some i => (i, st)
  | none => (st.loaded.length, { st with loaded := st.loaded ++ [(table, order)] })

/-- the operands, which must be operations (execution_plan.rs:780-781 and others) -/
def operands {n : Nat} (kids : Fin n → Tree M V U B T N) : Option (Fin n → Plan M V U B T N) :=
  allSome fun i => (kids i).operation

/-- the subtraction (execution_plan.rs:867-873), `ms i` are the markers of the operands -/
def mkSubtract (out : List M) : (n : Nat) → (Fin n → List M) → (Fin n → Plan M V U B T N) → Option (Plan M V U B T N)
  | 0, _, _ => none
  | n + 1, ms, kids => some (.subtract out (List.ofFn fun i : Fin n => ms i.succ) (kids 0)
      fun i => kids ((i.cast (List.length_ofFn)).succ))

/-- the only operand of an operation that has one -/
def only {β : Type} : (n : Nat) → (Fin n → β) → Option β
  | 1, f => some (f 0)
  | _, _ => none

/-- The tree for a node from the trees of its operands (execution_plan.rs:742-1039): `out` are the markers of the node in
the requested order, `kms` those of the operands as they are, `ams` in the order in which they are requested. -/
def assemble {n : Nat} (kind : Kind M V U B T N) (out : List M) (order : Permut) (kms ams : Fin n → List M)
    (kids : Fin n → Tree M V U B T N) (st : St M V U B T N) : Option (Tree M V U B T N × St M V U B T N) :=
  match kind with
  | .fetch table o =>
    let x := loadTable st table (o.chain order)
    some (.op (.leaf (.load x.1)), x.2)
  | .zero => some (.op .zero, st)
  | .join => (operands kids).map fun ps =>
      (.op (.join out (List.ofFn ams) fun i => ps (i.cast List.length_ofFn)), st)
  | .union ar => (operands kids).map fun ps => (.op (.union ar n ps), st)
  | .subtract => ((operands kids).bind fun ps => mkSubtract out n ams ps).map fun p => (.op p, st)
  | .filter filters => ((operands kids).bind (only n)).map fun p => (.op (.filter out filters p), st)
  | .function funs => ((operands kids).bind (only n)).map fun p => (.op (.function out funs p), st)
  | .project => ((operands kids).bind (only n)).bind fun p =>
      ((only n kms).bind fun km => GenPR.new out km).map fun g => (.project g p, st)
  | .rename => (only n kids).map fun t => (t, st)

/-- one more use of a tree (execution_plan.rs:629-630) -/
def useTree (trees : List (Entry M V U B T N)) (k root : Nat) : List (Entry M V U B T N) :=
  trees.modify k fun x => { x with used := x.used + 1, roots := x.roots ++ [root] }

/-- a new tree (execution_plan.rs:692-699) -/
def pushTree (st : St M V U B T N) (order : Permut) (x : Entry M V U B T N) : Nat × St M V U B T N :=
  (st.trees.length, { st with trees := st.trees ++ [x], map := hmInsert st.map x.id [(order, st.trees.length)] })

/-- the result is only stored permanently in its original order (execution_plan.rs:611-615) -/
def resultFor (o : Out M V U B T N) (order : Permut) : Option Permut := if order.isIdentity then o.perm else none

/-- the temporary tree a projection is a dependent of (execution_plan.rs:666-672) -/
def dependsOn (trees : List (Entry M V U B T N)) : Tree M V U B T N → Option (Nat × Choice)
  | .project g (.leaf (.computed k)) => if (trees[k]?.map (·.perm)) = some none then some (k, g.choice) else none
  | _ => none

/-- register a dependent table (execution_plan.rs:673-677); `used` cannot become negative -/
def addDependent (trees : List (Entry M V U B T N)) (dep : Option (Nat × Choice)) : Option (List (Entry M V U B T N)) :=
  match dep with
  | none => some trees
  | some (k, c) => (trees[k]?.bind fun x => usub x.used 1).map fun u =>
      trees.modify k fun x => { x with deps := x.deps ++ [(trees.length, c)], used := u }

/-- the tree for a node that was not computed before (execution_plan.rs:664-699) -/
def newTree (o : Out M V U B T N) (order : Permut) (root : Nat) (t : Tree M V U B T N) (st : St M V U B T N) :
    Option (Nat × St M V U B T N) :=
  (addDependent st.trees (dependsOn st.trees t)).map fun trees =>
    pushTree { st with trees := trees } order
      ⟨t, resultFor o order, o.node.id, 1, [], o.nonEmpty, o.node.markers, [root]⟩

/-- the tree for a node that was computed before (execution_plan.rs:618-652), given the closest order -/
def reuseTree (o : Out M V U B T N) (order : Permut) (root : Nat) (c : Permut × Nat) (st : St M V U B T N) :
    Nat × St M V U B T N :=
  let g := GenPR.fromReordering c.1 order o.node.markers.length
  let st' := { st with trees := useTree st.trees c.2 root }
  if g.isNoop then (c.2, st')
  else pushTree st' order
    ⟨.project g (.leaf (.computed c.2)), resultFor o order, o.node.id, 1, [], o.nonEmpty, o.node.markers, [root]⟩

/-- `execution_tree` (execution_plan.rs:601-702); `body` is `execution_node` for the node itself -/
def execTree (o : Out M V U B T N) (body : Nat → Permut → St M V U B T N → Option (Tree M V U B T N × St M V U B T N))
    (root : Nat) (order : Permut) (st : St M V U B T N) : Option (Nat × St M V U B T N) :=
  match st.map.lookup o.node.id with
  | some tables => (closestOrder tables order).map fun c => reuseTree o order root c st
  | none => (body o.node.id order st).bind fun x => newTree o order root x.1 x.2

/-- the output node an operand refers to, when the tree of the node `root` is made (execution_plan.rs:715-719) -/
def outOf (outs : List (Out M V U B T N)) (root id : Nat) : Option (Out M V U B T N) :=
  if id = root then none else findOut outs id

/-- the first part of `execution_node` (execution_plan.rs:715-733): output nodes get their own tree.  The node of
the output node with the same id is the node itself. -/
def wrap (outs : List (Out M V U B T N)) (id : Nat)
    (body : Nat → Permut → St M V U B T N → Option (Tree M V U B T N × St M V U B T N))
    (root : Nat) (order : Permut) (st : St M V U B T N) : Option (Tree M V U B T N × St M V U B T N) :=
  match outOf outs root id with
  | some o => (execTree o body root order st).map fun x => (.op (.leaf (.computed x.1)), x.2)
  | none => body root order st

/-- the second part of `execution_node` (execution_plan.rs:735-1040) -/
def execBody (outs : List (Out M V U B T N)) : Node M V U B T N → Nat → Permut → St M V U B T N →
    Option (Tree M V U B T N × St M V U B T N)
  | .mk _ ms kind n subs => fun root order st =>
    (orderedMarkers ms order).bind fun out =>
    (allSome fun i : Fin n => kidOrder kind out order i (subs i).markers).bind fun al =>
    (mapSt n (fun i => wrap outs (subs i).id (execBody outs (subs i)) root (al i).2) st).bind fun x =>
    assemble kind out order (fun i => (subs i).markers) (fun i => (al i).1) x.1 x.2

/-- the loop of `finalize` (execution_plan.rs:1054-1068) -/
def collectTrees (outs : List (Out M V U B T N)) : List (Out M V U B T N) → St M V U B T N → Option (St M V U B T N)
  | [], st => some st
  | o :: rest, st =>
    if o.perm.isSome then
      (execTree o (execBody outs o.node) o.node.id ident st).bind fun x => collectTrees outs rest x.2
    else collectTrees outs rest st

/-- `finalize` (execution_plan.rs:1046-1068) -/
def finalize (outs : List (Out M V U B T N)) : Option (St M V U B T N) := collectTrees outs outs ⟨[], [], []⟩

/-- `compute_cut_layer` (execution_plan.rs:578-593) -/
def cutLayer (markers : List M) (rootMarkers : List M) : Nat :=
  (markers.reverse.takeWhile fun m => decide (m ∉ rootMarkers)).length

/-- the markers of the trees in which a tree is used (execution_plan.rs:1079-1087); `none` is a panic -/
def rootMarkers (outs : List (Out M V U B T N)) (roots : List Nat) : Option (List M) :=
  (roots.mapM fun r => (findOut outs r).map fun o => o.node.markers).map List.flatten

/-- `cut_layers` of a tree (execution_plan.rs:1089) -/
def cutOf (outs : List (Out M V U B T N)) (x : Entry M V U B T N) : Option Nat :=
  (rootMarkers outs x.roots).map (cutLayer x.markers)

/-! ## Execution -/

/-- `computed_tables` (database.rs:594) -/
abbrev Comps (α : Type) := List (Option (Trie α))

/-- the tables of the leaves (database.rs:420-428).  Indices are checked in `ready`. -/
def leafTable (loaded : List (Trie α)) (comps : Comps α) : Leaf → Trie α
  | .load i => loaded.getD i (Trie.empty 0)
  | .computed i => (comps.getD i none).getD (Trie.empty 0)

/-- all tables that are read exist (database.rs:422-427) -/
def ready (loaded : List (Trie α)) (comps : Comps α) (l : Leaf) : Bool :=
  match l with
  | .load i => decide (i < loaded.length)
  | .computed i => (comps.getD i none).isSome

/-- `evaluate_operation` (database.rs:441-461) -/
def evalOp (e : PEnv α V U B T N) (loaded : List (Trie α)) (comps : Comps α) (p : Plan M V U B T N) :
    Option (Option (AnyScan α)) :=
  if p.leaves.all (ready loaded comps) then p.eval e (leafTable loaded comps) else none

/-- an operation with its dependents (database.rs:477-491) -/
def storeOp (x : Option (AnyScan α)) (deps : List Choice) (used : Nat) (d : α) : Option (Trie α × List (Trie α)) :=
  match x with
  | some s => materializeDeps s deps (decide (0 < used)) d
  | none => some (Trie.empty 0, deps.map fun _ => Trie.empty 0)

/-- a projection (database.rs:499-508) -/
def storeProject (g : GenPR) (x : Option (AnyScan α)) (cut : Nat) (d : α) : Option (Trie α) :=
  match x with
  | some s =>
    if g.isNoop then materialize s.I.toTrieOps (s.I.arity s.s) (s.I.types s.s) s.s cut d
    else g.apply s.I.toTrieOps (s.I.arity s.s) (s.I.types s.s) s.s d
  | none => some (Trie.empty g.arityOut)

/-- `execute_tree` (database.rs:469-541).  The `debug_assert` at line 494 (no dependents of projections) does not
hold in general; release builds do not check it and compute these dependents later. -/
def executeTree (e : PEnv α V U B T N) (loaded : List (Trie α)) (comps : Comps α) (root : Tree M V U B T N)
    (deps : List Choice) (used cut : Nat) (d : α) : Option (Trie α × List (Trie α)) :=
  match root with
  | .op p => (evalOp e loaded comps p).bind fun x => storeOp x deps used d
  | .project g p => ((evalOp e loaded comps p).bind fun x => storeProject g x cut d).map fun t => (t, [])

/-- storing the dependents (database.rs:635-642) -/
def storeDeps : List (Nat × Choice) → List (Trie α) → Comps α → Comps α
  | (j, _) :: ds, t :: ts, comps => storeDeps ds ts (comps.set j (some t))
  | _, _, comps => comps

/-- `result_empty` (database.rs:632, 638) -/
def resultEmpty (t : Trie α) (ts : List (Trie α)) : Bool := t.numRows == 0 && ts.all fun t => t.numRows == 0

/-- The loop over the trees (database.rs:601-651), starting at index `i`.  The outer option is a panic, the
inner one is `none` if a table that must not be empty is empty. -/
def runTrees (e : PEnv α V U B T N) (outs : List (Out M V U B T N)) (loaded : List (Trie α)) (d : α) :
    List (Entry M V U B T N) → Nat → Comps α → Option (Option (Comps α))
  | [], _, comps => some (some comps)
  | x :: rest, i, comps =>
    if (comps.getD i none).isSome then runTrees e outs loaded d rest (i + 1) comps
    else
      (cutOf outs x).bind fun cut =>
      (executeTree e loaded comps x.root (x.deps.map (·.2)) x.used cut d).bind fun r =>
        if resultEmpty r.1 (r.2.take x.deps.length) && x.nonEmpty then some none
        else runTrees e outs loaded d rest (i + 1) (storeDeps x.deps r.2 (comps.set i (some r.1)))

/-- the permanent results (database.rs:653-670): id of the node, order and table; `none` is a panic -/
def permanents : List (Entry M V U B T N) → Comps α → Option (List (Nat × Permut × Trie α))
  | x :: xs, c :: cs => (permanents xs cs).bind fun rest =>
    match x.perm with
    | none => some rest
    | some o => c.map fun t => if t.numRows = 0 then rest else (x.id, o, t) :: rest
  | _, _ => some []

/-- the tables of the database in the required orders (database.rs:395-410); `trie t o` is the table `t` in the order `o` -/
def loadAll (trie : Nat → Permut → Option (Trie α)) (l : List (Nat × Permut)) : Option (List (Trie α)) :=
  l.mapM fun x => trie x.1 x.2

/-- `execute_plan` (database.rs:575-673): the tables that are added to the database, each with the node it belongs
to and the order in which it is stored.  The result is empty if the execution was stopped because some table is empty. -/
def executePlan (e : PEnv α V U B T N) (outs : List (Out M V U B T N)) (trie : Nat → Permut → Option (Trie α)) (d : α) :
    Option (List (Nat × Permut × Trie α)) :=
  (finalize outs).bind fun st =>
  (loadAll trie st.loaded).bind fun loaded =>
  (runTrees e outs loaded d st.trees 0 (List.replicate st.trees.length none)).bind fun r =>
  match r with
  | none => some []
  | some comps => permanents st.trees comps

/-! ## Execution on a database -/

/-- `collect_requiured_tries` (database.rs:395-410): the storages of the tables -/
def loadMgr (d : α) : List (Nat × Permut) → Mgr α → Option (List Nat × Mgr α)
  | [], m => some ([], m)
  | (t, o) :: l, m => (m.trieId t o d).bind fun x => (loadMgr d l x.2).map fun y => (x.1 :: y.1, y.2)

/-- the new tables are registered and added (database.rs:653-672, 306-316); `next` is the next free id of a table -/
def registerAll : List (Nat × Permut × Trie α) → List (Nat × Nat) → Nat → Mgr α → List (Nat × Nat) × Nat × Mgr α
  | [], res, next, m => (res, next, m)
  | (id, o, t) :: l, res, next, m => registerAll l (hmInsert res id next) (next + 1) (m.addTrie next o t).2

/-- `execute_plan` (database.rs:575-673) on a database: the ids of the new tables, the next free id and the database
after the execution -/
def executeDb (e : PEnv α V U B T N) (outs : List (Out M V U B T N)) (d : α) (m : Mgr α) (next : Nat) :
    Option (List (Nat × Nat) × Nat × Mgr α) :=
  (finalize outs).bind fun st =>
  (loadMgr d st.loaded m).bind fun l =>
  (l.1.mapM l.2.trie).bind fun loaded =>
  (runTrees e outs loaded d st.trees 0 (List.replicate st.trees.length none)).bind fun r =>
  match r with
  | none => some ([], next, l.2)
  | some comps => (permanents st.trees comps).map fun res => registerAll res [] next l.2

/-! ## Specification -/

/-- rows with permuted columns -/
def PermRows (o : Permut) (rows : List α → Prop) (r : List α) : Prop := ∃ x, rows x ∧ o.permute x = some r

/-- The rows of an operation in terms of the rows of its operands, whose columns are named by `kms`. -/
def opSem (env : VEnv α V U B T N) (tab : Nat → List α → Prop) (kind : Kind M V U B T N) (ms : List M) {n : Nat}
    (kms : Fin n → List M) (kid : Fin n → List α → Prop) : List α → Prop :=
  match kind with
  | .fetch t o => PermRows o (tab t)
  | .zero => fun r => r = []
  | .join => fun r => ∃ f : M → α, r = ms.map f ∧ ∀ i, kid i ((kms i).map f)
  | .union _ => fun r => ∃ i, kid i r
  | .subtract => fun r => ∃ f : M → α, r = ms.map f ∧ ∀ i : Fin n, if i.val = 0 then kid i r else ¬ kid i ((kms i).map f)
  | .project => fun r => ∃ f : M → α, r = ms.map f ∧ ∃ i, kid i ((kms i).map f)
  | .filter filters => fun r => ∃ f : M → α, r = ms.map f ∧ (∃ i, kid i r) ∧
      ∀ t ∈ filters, ∃ v, t.sem env.sem (fun m => some (env.val (f m))) = .val v ∧ env.toBool v = some true
  | .function funs => fun r => ∃ f : M → α, r = ms.map f ∧
      (∃ i, kid i ((ms.filter fun m => decide (m ∉ funs.map Prod.fst)).map f)) ∧
      ∀ g ∈ funs, ∃ v, g.2.sem env.sem (fun m => some (env.val (f m))) = .val v ∧ f g.1 = env.sto v
  | .rename => fun r => ∃ i, kid i r

/-- The rows of a node, as an expression of relational algebra over the tables `tab` of the database. -/
def Node.Sem (env : VEnv α V U B T N) (tab : Nat → List α → Prop) : Node M V U B T N → List α → Prop
  | .mk _ ms kind _ subs => opSem env tab kind ms (fun i => (subs i).markers) fun i => Node.Sem env tab (subs i)

/-- the number of columns of an operation -/
def opArity (tabAr : Nat → Nat) (kind : Kind M V U B T N) (ms : List M) {n : Nat} (kid : Fin n → Nat) : Nat :=
  match kind with
  | .fetch t _ => tabAr t
  | .zero => 0
  | .union ar => ar
  | .rename => if h : 0 < n then kid ⟨0, h⟩ else 0
  | _ => ms.length

/-- the number of columns of a node -/
def Node.arity (tabAr : Nat → Nat) : Node M V U B T N → Nat
  | .mk _ ms kind _ subs => opArity tabAr kind ms fun i => Node.arity tabAr (subs i)

/-- nodes are determined by their ids, and only known tables are fetched -/
def SubOK (known : Nat → Prop) (nd : Nat → Node M V U B T N) : Node M V U B T N → Prop
  | .mk id ms kind n subs => nd id = .mk id ms kind n subs ∧ (∀ t o, kind = .fetch t o → known t) ∧ ∀ i, SubOK known nd (subs i)

/-! ## Plans that can be executed -/

/-- projections -/
def Kind.isProject : Kind M V U B T N → Bool | .project => true | _ => false
/-- renamings -/
def Kind.isRename : Kind M V U B T N → Bool | .rename => true | _ => false

/-- the mode (see `Plan.OK`) in which operand `i` of `n` operands is used -/
def kidMode (e : PEnv α V U B T N) (kind : Kind M V U B T N) (n i : Nat) (m : Mode) : Mode :=
  match kind with
  | .join => if n = 1 then m else .weak
  | .union _ => if n ≤ 1 then m else ⟨m.sk, true⟩
  | .subtract => if i = 0 then m else .weak
  | .filter filters => Plan.filterMode e filters m
  | .project => ⟨false, false⟩
  | _ => m

/-- Requirements on an operation with columns `ms`, requested in the order `o`, whose operands have the columns `kms`:
operands have distinct columns, which are columns of the result, expressions refer to available columns, and
functions and projections are only requested in the order in which they are written (in other orders they are
computed wrongly, see DESIGN.md). -/
def KindOK (e : PEnv α V U B T N) (tabAr : Nat → Nat) (kind : Kind M V U B T N) (ms : List M) {n : Nat}
    (kms : Fin n → List M) (kar : Fin n → Nat) (o : Permut) (m : Mode) : Prop :=
  match kind with
  | .fetch t fo => n = 0 ∧ Permut.Built fo ∧ Permut.Moves fo (tabAr t)
  | .zero => n = 0
  | .join => n ≠ 0 ∧ ms.Nodup ∧ (∀ i, (kms i).Nodup ∧ (∀ x ∈ kms i, x ∈ ms) ∧ (kms i).length = kar i) ∧
      ∀ x ∈ ms, ∃ i, x ∈ kms i
  | .union ar => ∀ i, kar i = ar
  | .subtract => 0 < n ∧ ms.Nodup ∧ ∀ i : Fin n, if i.val = 0 then kar i = ms.length else
      (kms i).Nodup ∧ (∀ x ∈ kms i, x ∈ ms) ∧ (kms i).length = kar i
  | .project => n = 1 ∧ o = ident ∧ ms.Nodup ∧ ∀ i, (kms i).Nodup ∧ (∀ x ∈ ms, x ∈ kms i) ∧ (kms i).length = kar i
  | .filter filters => n = 1 ∧ ms.Nodup ∧ ms ≠ [] ∧ (∀ f ∈ filters, TFilter.FilterOK ms f) ∧ (∀ i, kar i = ms.length) ∧
      (m.sk = true → m.cu = true → filters = [])
  | .function funs => n = 1 ∧ o = ident ∧ ms.Nodup ∧ TFn.FnOK e.env ms funs ∧ TFn.PredOK e.env e.te (TFn.ProgOf ms funs) ∧
      (∀ f ∈ funs, f.2.refs = [] → ∀ v, f.2.sem e.env.sem (fun _ => none) = .val v → ty (e.env.sto v) ∈ e.te.dom v) ∧
      ∀ i, kar i = (TFn.inputCols ms funs).length
  | .rename => n = 1

/-- A projection that keeps all columns is stored without the last columns that are not columns of the node
for which it is computed (`compute_cut_layer`), unless it is computed together with its operand.  So the last column must be
one of that node. -/
def cutOK (outs : List (Out M V U B T N)) (req : Nat) : Node M V U B T N → Prop
  | .mk id ms _ _ subs => ∀ i, ms = (subs i).markers → ms = [] ∨
      (∃ x, outOf outs id (subs i).id = some x ∧ x.perm = none) ∨
      ∃ l, ms.getLast? = some l ∧ ∃ r, findOut outs req = some r ∧ l ∈ r.node.markers

/-- Requirements on a request of the output node `nd` in the order `o`, for the tree of node `req`.  `D` are the temporary tables of
which projections are computed: they are neither reordered nor projections. -/
def OutOK (tabAr : Nat → Nat) (outs : List (Out M V U B T N)) (D : Nat → Prop) (req : Nat) (nd : Node M V U B T N) (o : Permut) : Prop :=
  (D nd.id → o = ident ∧ nd.kind.isProject = false) ∧ (¬ D nd.id → nd.markers.length = nd.arity tabAr) ∧
  (nd.kind.isProject = true → cutOK outs req nd)

/-- Plans that can be executed: the operation and its operands satisfy the requirements, in the orders and modes in which they
are requested. -/
def Fits (e : PEnv α V U B T N) (tabAr : Nat → Nat) (outs : List (Out M V U B T N)) (D : Nat → Prop) :
    Node M V U B T N → Nat → Permut → Mode → Prop
  | .mk id ms kind n subs => fun root o m =>
    Permut.Built o ∧ Permut.Moves o (opArity tabAr kind ms fun i => (subs i).arity tabAr) ∧
    (ms = [] ∨ ms.length = opArity tabAr kind ms fun i => (subs i).arity tabAr) ∧
    KindOK e tabAr kind ms (fun i => (subs i).markers) (fun i => (subs i).arity tabAr) o m ∧
    (kind.isProject = true → ∀ i, (∀ x, outOf outs root (subs i).id = some x → x.perm = none → D (subs i).id) ∧
      (outOf outs root (subs i).id = none → (subs i).kind.isRename = false)) ∧
    ∀ (i : Fin n) out al, orderedMarkers ms o = some out → kidOrder kind out o i (subs i).markers = some al →
      ((outOf outs root (subs i).id).isSome → Fits e tabAr outs D (subs i) (subs i).id al.2 ⟨false, false⟩ ∧
        OutOK tabAr outs D root (subs i) al.2) ∧
      ((outOf outs root (subs i).id).isNone → (subs i).kind.isProject = false ∧
        Fits e tabAr outs D (subs i) root al.2 (kidMode e kind n i m))

end XPlan
end Verif
