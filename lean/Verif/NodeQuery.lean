import Verif.Tracing

/-!
# Node queries: the facts at the nodes of a derivation tree of a given form

Model of `trace_node` (/repo/nemo/src/execution/execution_engine/tracing/node_query.rs, node_query/util.rs, node_query/manager.rs) for rules without aggregates and
imports.  Tables are relations; the operators on them are modelled and verified elsewhere (C03–C09).  Not modelled: ids of entries, pagination, possible rules above and below,
times, the tables of negated atoms (see `TreeQuery` for these), and tables on disk.  `none` stands for a panic.
-/

namespace Verif
variable {α : Type} [DecidableEq α] [Dom α]

namespace Trace.NodeQ

/-- `TableEntriesForTreeNodesQueryInner` (/repo/nemo/src/execution/tracing/node_query.rs:14-35): the facts to which a node is restricted (nothing if there are none),
and for inner nodes the id of a rule, the index of a head atom and the nodes for the positive body atoms.  The texts and row ids of `queries` are replaced by the facts that they stand for. -/
inductive Query (α : Type) where
  | leaf (facts : List (List α))
  | node (facts : List (List α)) (rule : Nat) (head : Nat) (children : List (Query α))

/-- `queries` of a node -/
def Query.facts : Query α → List (List α)
  | .leaf qs => qs
  | .node qs _ _ _ => qs

/-- `is_simple` (tracing/node_query.rs:66-68) -/
def Query.isSimple : Query α → Bool
  | .leaf qs => qs.isEmpty
  | .node .. => false

/-- `variables` (/repo/nemo/src/execution/planning/normalization/rule.rs:307-312) for rules without imports and aggregates -/
def allVars (r : NRule α) : List Variable :=
  r.head.flatMap (·.vars) ++ (atomVars r.positive ++ atomVars r.negative ++ r.operations.flatMap Operation.vars)

/-- `variables_non_head` (rule.rs:275-304) for rules without imports and aggregates -/
def nonHeadVars (r : NRule α) : List Variable :=
  atomVars r.positive ++ atomVars r.negative ++ r.operations.flatMap Operation.vars

/-- `unique_variables` (util.rs:263-275) -/
def isUnique (r : NRule α) (v : Variable) : Bool := (allVars r).count v == 1

/-- The variable `_VH_i` (util.rs:96), which does not occur in the rule -/
def fresh (r : NRule α) (i : Nat) : Variable := .universal (((allVars r).map Variable.name).foldl max 0 + 1 + i)

/-- The loop of `variable_translation` over the terms of the head atom (util.rs:63-103): the variables of the columns of the head, and the variables that are added to the order.
`i` is the index of the first term, `used` the value of `used_variables`. -/
def headVars (r : NRule α) : Nat → List Variable → List (Primitive α) → List Variable × List Variable
  | _, _, [] => ([], [])
  | i, used, .var v :: ts =>
    if v.isExistential = false ∧ v ∉ used then
      let x := headVars r (i + 1) (v :: used) ts
      (v :: x.1, if v ∈ atomVars r.positive then x.2 else v :: x.2)
    else
      let x := headVars r (i + 1) used ts
      (fresh r i :: x.1, fresh r i :: x.2)
  | i, used, .const _ :: ts =>
    let x := headVars r (i + 1) used ts
    (fresh r i :: x.1, fresh r i :: x.2)

/-- What `variable_translation` and the beginning of `valid_tables_plan` compute (util.rs:44-106, 124-161): the variables of the head, the variable order, and whether the
head has no variable in common with the body, where columns in `disc` do not count. -/
structure Shape where
  head : List Variable
  order : List Variable
  kept : List Variable
  disjoint : Bool
deriving DecidableEq

/-- see `Shape` -/
def shape (r : NRule α) (hd : HeadAtom α) (disc : List Nat) : Shape :=
  let h := headVars r 0 [] hd.terms
  let kept := (h.1.zipIdx.filter fun x => x.2 ∉ disc).map (·.1)
  ⟨h.1, restrictOrder r.order (atomVars r.positive) ++ h.2, kept, decide (∀ v ∈ kept, v ∉ nonHeadVars r)⟩

/-- What the model leaves open: which rows `GeneratorSingle` (/repo/nemo-physical/src/tabular/operations/single.rs) keeps; the first argument are the single columns. -/
structure Choice (α : Type) where
  single : List Variable → Rel α → Rel α

/-- `valid_tables_plan` (util.rs:110-259) for a table `headRows` of facts of the head that were derived in step `step`: the table with assignments.  `bodies` are the valid facts of the
nodes for the positive atoms in earlier steps.  Simplified: a node that is restricted to facts, but whose head is disjoint from the body, is a panic here. -/
def assignments (c : Choice α) (src : Source α) (r : NRule α) (sh : Shape) (qs : List (List α)) (headRows : List (List α)) (bodies : List (List (List α))) (step : Nat) :
    Option (Rel α) :=
  if sh.disjoint = true ∧ qs ≠ [] then none
  else
    let order := if sh.disjoint then sh.order.filter fun v => decide (v ∈ nonHeadVars r) else sh.order
    let singles := order.filter fun v => decide (v ∉ sh.kept)
    let tables := (if sh.disjoint then [] else [⟨sh.head, headRows⟩]) ++ (if qs = [] then [] else [⟨sh.head, qs⟩]) ++
      (r.positive.zip bodies).map fun x => ⟨x.1.terms, x.2⟩
    let body := (genFFN src step step (if tables.isEmpty then ⟨[], []⟩ else Rel.join order tables) r.operations r.negative).1
    some (if singles.isEmpty then body else c.single singles body)

/-- The tables that are computed for a node (manager.rs:55-79): the valid facts of each step, and for inner nodes the rule, the variables, the assignments of each step
and the children -/
inductive Valid (α : Type) where
  | leaf (valid : List (Nat × List (List α)))
  | node (valid : List (Nat × List (List α))) (rule : NRule α) (shape : Shape) (assign : List (Nat × Rel α)) (children : List (Valid α))

/-- The valid facts of each step -/
def Valid.tables : Valid α → List (Nat × List (List α))
  | .leaf v => v
  | .node v .. => v

/-- `valid_tables_before` (manager.rs:38-45, 134-143) -/
def before (l : List (Nat × List (List α))) (step : Nat) : List (List α) := (l.takeWhile fun x => decide (x.1 < step)).flatMap (·.2)

/-- `consolidate_valid_tables` (util.rs:312-334); nothing if there are no tables -/
def consolidate (l : List (Nat × List (List α))) : Option (List (List α)) := if l.isEmpty then none else some (l.flatMap (·.2))

/-- `tables_in_range_steps` (table_manager.rs:573-594) for the steps before a given one -/
def stepTables (st : Eng α) (p : Tag) (n : Nat) : List (Nat × List (List α)) :=
  ((st.handlers p).single.filter fun e => decide (e.1 < n)).map fun e => (e.1, st.rows e.2)

/-- The last application of a rule before a step (node_query.rs:171-176) -/
def nextStep (st : Eng α) (i : Nat) (n : Nat) : Nat :=
  (((List.range n).filter fun s => decide (st.history[s]? = some i)).getLast?).getD st.history.length

/-- `rule_is_simple` (node_query.rs:703-707) -/
def ruleIsSimple (rules : List (NRule α)) (r : NRule α) : Bool :=
  r.positive.all fun a => decide ((rules.filter fun x => x.head.any fun h => h.pred == a.pred).length ≤ 1)

/-- The facts of a leaf for one step (node_query.rs:277-310, util.rs:358-428); empty tables are not stored.  The columns of the table get the variables 0, 1, …. -/
def leafTable (c : Choice α) (disc : List Nat) (qs : List (List α)) (arity : Nat) (x : Nat × List (List α)) : Option (Nat × List (List α)) :=
  let cols := (List.range arity).map Variable.universal
  let rows := if qs = [] then x.2 else x.2.filter fun row => decide (row ∈ qs)
  if disc = [] then (if qs = [] then some x else if rows = [] then none else some (x.1, rows))
  else
    let t := (c.single (disc.map Variable.universal) ⟨cols, rows⟩).rows
    if t = [] then some x else some (x.1, t)

/-- `discarded_columns` (node_query.rs:191-196) -/
def discarded (r : NRule α) (a : BodyAtom) : List Nat := (a.terms.zipIdx.filter fun x => isUnique r x.1).map (·.2)

mutual
/-- `trace_node_valid` (node_query.rs:148-318) -/
def validNode (c : Choice α) (rules : List (NRule α)) (arity : Tag → Nat) (st : Eng α) : Query α → Tag → List Nat → Nat → Option (Valid α)
  | .leaf qs, p, disc, n => some (.leaf ((stepTables st p n).filterMap (leafTable c disc qs (arity p))))
  | .node qs i k cs, p, disc, n => do
    let r ← rules[i]?
    let hd ← r.head[k]?
    let vs ← validChildren c rules arity st r r.positive cs (nextStep st i n)
    let sh := shape r hd disc
    let simple := ruleIsSimple rules r && cs.all Query.isSimple
    let parts ← ((stepTables st p n).filter fun x => decide (st.history[x.1]? = some i)).mapM fun x => do
      let t ← assignments c st.source r sh qs x.2 (r.positive.zipIdx.map fun y => ((vs[y.2]?).map fun v => before v.tables x.1).getD []) x.1
      some (x, t)
    let valid := parts.filterMap fun y =>
      if sh.disjoint || simple then some y.1
      else let rows := (Rel.project sh.head y.2).rows; if rows = [] then none else some (y.1.1, rows)
    let assign := parts.filterMap fun y => if y.2.rows = [] then none else some (y.1.1, y.2)
    some (.node valid r sh assign vs)
/-- The loop over the children (node_query.rs:180-209) -/
def validChildren (c : Choice α) (rules : List (NRule α)) (arity : Tag → Nat) (st : Eng α) (r : NRule α) : List BodyAtom → List (Query α) → Nat → Option (List (Valid α))
  | a :: as, q :: qs, n => do
    let v ← validNode c rules arity st q a.pred (discarded r a) n
    let vs ← validChildren c rules arity st r as qs n
    some (v :: vs)
  | _, _, _ => some []
end

/-- `result_tables_plan` (util.rs:278-309) and its execution (node_query.rs:380-402): the facts of a node for a body atom; `none` if there are none or if a table is missing.
Only the columns of the variable order of the stored table of assignments are used. -/
def childResult (sh : Shape) (result : List (List α)) (assign : List (Nat × Rel α)) (a : BodyAtom) (valid : List (Nat × List (List α))) : Option (List (List α)) :=
  if sh.disjoint then consolidate valid
  else if assign.isEmpty then none
  else (consolidate valid).bind fun v =>
    let t := Rel.project a.terms (Rel.join sh.order [⟨sh.head, result⟩, ⟨sh.order, assign.flatMap fun x => x.2.rows.map (·.take sh.order.length)⟩, ⟨a.terms, v⟩])
    if t.rows = [] then none else some t.rows

mutual
/-- `trace_node_filter` (node_query.rs:326-418) for a node whose facts are `result`: the facts of all nodes below it, and whether the loop goes on.  Addresses are lists of indices of children. -/
def filterNode (addr : List Nat) (result : List (List α)) : Valid α → List (List Nat × List (List α)) × Bool
  | .leaf _ => ([], true)
  | .node _ r sh assign vs => filterChildren addr result sh assign r.positive vs 0
/-- The loop (node_query.rs:369-414) -/
def filterChildren (addr : List Nat) (result : List (List α)) (sh : Shape) (assign : List (Nat × Rel α)) :
    List BodyAtom → List (Valid α) → Nat → List (List Nat × List (List α)) × Bool
  | a :: as, v :: vs, j =>
    match childResult sh result assign a v.tables with
    | none => ([], false)
    | some t =>
      let x := filterNode (addr ++ [j]) t v
      if x.2 then
        let y := filterChildren addr result sh assign as vs (j + 1)
        ((addr ++ [j], t) :: x.1 ++ y.1, y.2)
      else ((addr ++ [j], t) :: x.1, false)
  | _, _, _ => ([], true)
end

/-- `trace_node` (node_query.rs:421-452, 684-699): the addresses of the nodes with facts, and these facts -/
def traceNode (c : Choice α) (rules : List (NRule α)) (arity : Tag → Nat) (st : Eng α) (q : Query α) (p : Tag) : Option (List (List Nat × List (List α))) := do
  let v ← validNode c rules arity st q p [] st.history.length
  match consolidate v.tables with
  | none => some []
  | some t => some (([], t) :: (filterNode [] t v).1)

end Trace.NodeQ
end Verif
