import Verif.RuleModel

/-!
# Evaluation of rules

Model of the plan generators in `/repo/nemo/src/execution/planning/operations/` and
`/repo/nemo/src/execution/planning/strategy/forward/`.  Creating a plan and executing it are modelled as
one step: each generator directly computes the resulting table.  Tables with named columns are
`Rel`; the operations on them have the meaning of relational algebra (that the operations on tries
compute it is property C09).
-/

set_option linter.unusedSimpArgs false
set_option linter.unusedSectionVars false

namespace Verif

/-- A table with named columns (an execution node with its markers,
/repo/nemo-physical/src/management/execution_plan.rs). -/
structure Rel (α : Type) where
  cols : List Variable
  rows : List (List α)

section
variable {α : Type} [DecidableEq α] [Dom α]

/-- the value of a column in a row -/
def assign (cols : List Variable) (row : List α) (v : Variable) : α :=
  ((cols.zip row).lookup v).getD Dom.tru

namespace Rel

/-- all lists of length `n` over `dom` -/
def tuples (dom : List α) : Nat → List (List α)
  | 0 => [[]]
  | n + 1 => dom.flatMap fun a => (tuples dom n).map (a :: ·)

/-- `join` (execution_plan.rs; the meaning of /repo/nemo-physical/src/tabular/operations/join.rs): the rows
over the columns `cols` that agree with a row of each input. -/
def join (cols : List Variable) (rs : List (Rel α)) : Rel α :=
  ⟨cols, (tuples ((rs.flatMap fun r => r.rows.flatten).dedup) cols.length).filter fun row =>
    rs.all fun r => decide (r.cols.map (assign cols row) ∈ r.rows)⟩

/-- `union` (tabular/operations/union.rs): columns are matched by position. -/
def union (cols : List Variable) (rs : List (Rel α)) : Rel α := ⟨cols, rs.flatMap (·.rows)⟩

/-- `subtract` (tabular/operations/subtract.rs): the rows of the first table that do not agree with a row
of one of the other tables. -/
def subtract (r : Rel α) (others : List (Rel α)) : Rel α :=
  ⟨r.cols, r.rows.filter fun row => others.all fun s => decide (s.cols.map (assign r.cols row) ∉ s.rows)⟩

/-- `filter` (tabular/operations/filter.rs): the rows for which all conditions are true. (A condition that
refers to a missing column panics in the code; here the column has an arbitrary value.) -/
def filter (r : Rel α) (conds : List (Operation α)) : Rel α :=
  ⟨r.cols, r.rows.filter fun row => conds.all fun o => decide (o.eval (assign r.cols row) = some Dom.tru)⟩

/-- one computed column of `function` -/
def extend (r : Rel α) (f : Variable × Operation α) : Rel α :=
  ⟨r.cols ++ [f.1], r.rows.filterMap fun row => (f.2.eval (assign r.cols row)).map fun a => row ++ [a]⟩

/-- `function` (tabular/operations/function.rs): append computed columns; rows for which one of them is
undefined are dropped. -/
def function (r : Rel α) (fs : List (Variable × Operation α)) : Rel α := fs.foldl extend r

/-- `projectreorder` (tabular/operations/projectreorder.rs) -/
def project (cols : List Variable) (r : Rel α) : Rel α :=
  ⟨cols, r.rows.map fun row => cols.map (assign r.cols row)⟩

/-- number the rows -/
def nullRows (k : Nat) : Nat → List (List α) → List (List α)
  | _, [] => []
  | n, row :: rows => (row ++ (List.range k).map fun i => Dom.null (n + i)) :: nullRows k (n + k) rows

/-- `null` (tabular/operations/null.rs): append columns with fresh nulls; returns the next unused null. -/
def null (r : Rel α) (cols : List Variable) (next : Nat) : Rel α × Nat :=
  (⟨r.cols ++ cols, nullRows cols.length next r.rows⟩, next + cols.length * r.rows.length)

/-- The groups of `aggregate`: one for each combination of values of the group-by columns. -/
def groups (r : Rel α) (groupBy : List Variable) : List (List α) :=
  (r.rows.map fun row => groupBy.map (assign r.cols row)).dedup

/-- `aggregate` (tabular/operations/aggregate.rs): a row for each group, with the group-by columns and the
aggregated value; groups for which it is undefined are dropped. -/
def aggregate (r : Rel α) (groupBy : List Variable) (a : Aggregation) : Rel α :=
  ⟨groupBy ++ [a.output], (r.groups groupBy).filterMap fun g =>
    (Dom.agg a.kind ((r.rows.filter fun row => groupBy.map (assign r.cols row) = g).map fun row =>
      (a.input :: a.distinct).map (assign r.cols row))).map fun v => g ++ [v]⟩

end Rel

/-! ## Generators -/

/-- The tables of a predicate: all rows added in the steps `lo..hi` (`tables_in_range`,
/repo/nemo/src/table_manager.rs:627-632). -/
abbrev Source (α : Type) := Tag → Nat → Nat → List (List α)

/-- `UnionRange` (operations/union.rs:17-34), without the variants that are not used. -/
inductive URange
  | all
  | new
  | old
  | newExclusive
  | oldInclusive

/-- `as_range` (union.rs:38-48) -/
def URange.asRange (cur last : Nat) : URange → Nat × Nat
  | .all => (0, cur)
  | .new => (last, cur)
  | .old => (0, last)
  | .newExclusive => (last + 1, cur)
  | .oldInclusive => (0, last + 1)

/-- `GeneratorUnion` for an atom (union.rs:84-111) -/
def genUnion (src : Source α) (cur last : Nat) (a : BodyAtom) (range : URange) : Rel α :=
  ⟨a.terms, src a.pred (range.asRange cur last).1 (range.asRange cur last).2⟩

/-- `VariableOrder::restrict_to` and `as_ordered_list` (analysis/variable_order.rs) -/
def restrictOrder (order : List Variable) (vars : List Variable) : List Variable :=
  order.filter fun v => decide (v ∈ vars)

/-- all variables of the atoms -/
def atomVars (atoms : List BodyAtom) : List Variable := atoms.flatMap (·.terms)

/-- `GeneratorJoin::create_plan` (operations/join.rs:50-67) -/
def genJoin (src : Source α) (cur last : Nat) (order : List Variable) (atoms : List BodyAtom)
    (ranges : List URange) : Rel α :=
  Rel.join (restrictOrder order (atomVars atoms))
    ((atoms.zip ranges).map fun x => genUnion src cur last x.1 x.2)

/-- `GeneratorJoin::is_empty` (join.rs:76-82) -/
def genJoinEmpty (cur last : Nat) (ranges : List URange) : Bool :=
  ranges.any fun r => decide ((r.asRange cur last).2 ≤ (r.asRange cur last).1)

/-- The ranges of a variant (operations/join_seminaive.rs:61-73) -/
def variantRanges (lastIsNew : Bool) (n mid : Nat) : List URange :=
  (List.range n).map fun i =>
    if mid < i then (if lastIsNew then .old else .oldInclusive)
    else if i = mid then (if lastIsNew then .new else .newExclusive)
    else .all

/-- `GeneratorJoinSeminaive` (join_seminaive.rs:47-128) -/
def genSeminaive (src : Source α) (cur last : Nat) (lastIsNew : Bool) (order : List Variable)
    (atoms : List BodyAtom) : Rel α :=
  if atoms.isEmpty then ⟨[], [[]]⟩
  else Rel.union (restrictOrder order (atomVars atoms))
    ((((List.range atoms.length).map (variantRanges lastIsNew atoms.length)).filter
      fun ranges => !genJoinEmpty cur last ranges).map (genJoin src cur last order atoms))

end

section
variable {α : Type}
/-- The state of `GeneratorFunction::new`: variables, functions and the remaining operations. -/
structure FnSt (α : Type) where
  vars : List Variable
  fns : List (Variable × Operation α)

/-- Whether an operation is used as function (operations/function.rs:43-55) -/
def FnSt.takes (s : FnSt α) (o : Operation α) : Option (Variable × Operation α) :=
  match o.variableAssignment with
  | some (v, e) => if v ∉ s.vars ∧ ∀ w ∈ e.vars, w ∈ s.vars then some (v, e) else none
  | none => none

/-- One pass over the operations (function.rs:38-57); the result contains the operations that were kept. -/
def FnSt.pass : FnSt α → List (Operation α) → FnSt α × List (Operation α)
  | s, [] => (s, [])
  | s, o :: os =>
    match s.takes o with
    | some (v, e) => FnSt.pass ⟨s.vars ++ [v], s.fns ++ [(v, e)]⟩ os
    | none => let r := FnSt.pass s os; (r.1, o :: r.2)

theorem FnSt.pass_length (s : FnSt α) (os : List (Operation α)) :
    (s.pass os).1.vars.length + (s.pass os).2.length = s.vars.length + os.length := by
  induction os generalizing s with
  | nil => simp [pass]
  | cons o os ih =>
    rw [pass]
    split
    · rw [ih]; simp; omega
    · simp only [List.length_cons]; have := ih s; omega

/-- The loop (function.rs:37-64) -/
def FnSt.loop (s : FnSt α) (os : List (Operation α)) : FnSt α × List (Operation α) :=
  if (s.pass os).1.vars.length = s.vars.length then s.pass os
  else FnSt.loop (s.pass os).1 (s.pass os).2
termination_by os.length
decreasing_by
  have h1 := FnSt.pass_length s os
  have h2 : s.vars.length ≤ (s.pass os).1.vars.length := by
    clear h1
    rename_i h; clear h
    induction os generalizing s with
    | nil => simp [pass]
    | cons o os ih =>
      rw [pass]
      split
      · refine le_trans ?_ (ih _); simp
      · exact ih s
  omega

/-- `GeneratorFunction::new` (function.rs:30-73): the output variables, the functions and the remaining
operations. -/
def genFunction (vars : List Variable) (os : List (Operation α)) : FnSt α × List (Operation α) :=
  FnSt.loop ⟨vars, []⟩ os

/-- `GeneratorFilter::new` (operations/filter.rs:26-45): the filters and the remaining operations. -/
def genFilter (vars : List Variable) (os : List (Operation α)) : List (Operation α) × List (Operation α) :=
  (os.filter fun o => decide (∀ v ∈ o.vars, v ∈ vars), os.filter fun o => ¬ decide (∀ v ∈ o.vars, v ∈ vars))

/-- `GeneratorNegation::new` (operations/negation.rs:35-73): for each negated atom that shares a variable
with the positive part its filters; other negated atoms are not evaluated. -/
def genNegation (vars : List Variable) : List BodyAtom → List (Operation α) →
    List (BodyAtom × List (Operation α)) × List (Operation α)
  | [], os => ([], os)
  | a :: as, os =>
    if ∀ v ∈ a.terms, v ∉ vars then genNegation vars as os
    else
      let f := genFilter (vars ++ a.terms) os
      let r := genNegation vars as f.2
      ((a, f.1) :: r.1, r.2)

end

section
variable {α : Type} [DecidableEq α] [Dom α]
/-- `GeneratorNegation::create_plan` (negation.rs:76-100) -/
def evalNegation (src : Source α) (cur last : Nat) (vars : List Variable)
    (negs : List (BodyAtom × List (Operation α))) (r : Rel α) : Rel α :=
  r.subtract (negs.map fun n =>
    ((genUnion src cur last n.1 .all).filter n.2).project (vars.filter fun v => decide (v ∈ n.1.terms)))

/-- `GeneratorFunctionFilterNegation` (operations/function_filter_negation.rs:35-78): the resulting table
and the remaining operations. -/
def genFFN (src : Source α) (cur last : Nat) (r : Rel α) (os : List (Operation α)) (neg : List BodyAtom) :
    Rel α × List (Operation α) :=
  let f := genFunction r.cols os
  let flt := genFilter f.1.vars f.2
  let n := genNegation f.1.vars neg flt.2
  (evalNegation src cur last f.1.vars n.1 ((r.function f.1.fns).filter flt.1), n.2)

/-- `StrategyBody` without imports (strategy/forward/body.rs:56-65, 134-143): the matches of the body and
the remaining operations. -/
def evalBody (src : Source α) (cur last : Nat) (r : NRule α) : Rel α × List (Operation α) :=
  genFFN src cur last (genSeminaive src cur last true r.order r.positive) r.operations r.negative

/-- `GeneratorAggregation` (operations/aggregation.rs:38-147).  The projection to the group-by, input and
distinct variables (63-96, 123-125) is part of `Rel.aggregate`. -/
def evalAggregation (body : Rel α) (a : Aggregation) (os : List (Operation α)) : Rel α :=
  let groupBy := body.cols.filter fun v => decide (v ∈ a.groupBy)
  (body.aggregate groupBy a).function (genFunction (groupBy ++ [a.output]) os).1.fns

/-- `GeneratorProjectionHead` (operations/projection_head.rs:59-145): the facts of a head atom.  Projecting
to the first occurrences of variables and appending columns for repeated variables and constants are
combined. -/
def headRows (h : HeadAtom α) (r : Rel α) : List (List α) :=
  r.rows.map fun row => h.inst (assign r.cols row)

/-- `GeneratorDuplicates` (operations/duplicates.rs:25-46) -/
def genDuplicates (src : Source α) (cur : Nat) (p : Tag) (rows : List (List α)) : List (List α) :=
  rows.filter fun row => decide (row ∉ src p 0 cur)

/-! ### Restricted chase -/

/-- `frontier` (normalization/rule.rs:383-405), as predicate -/
def NRule.inFrontier (r : NRule α) (v : Variable) : Bool :=
  decide (v ∈ r.head.flatMap (·.vars)) && decide (v ∈ atomVars r.positive)

/-- Choose fresh variables for repeated variables and constants in a head atom
(`normalize_existential_head`, rule.rs:442-472).  `n` is the next name of the generator. -/
def normHeadTerms : List (Primitive α) → List Variable → Nat → List Variable × List (Operation α) × Nat
  | [], _, n => ([], [], n)
  | .var v :: ts, used, n =>
    if v ∈ used then
      let r := normHeadTerms ts used (n + 1)
      (.universal n :: r.1, .equal (.var (.universal n)) (.var v) :: r.2.1, r.2.2)
    else
      let r := normHeadTerms ts (v :: used) n
      (v :: r.1, r.2.1, r.2.2)
  | .const c :: ts, used, n =>
    let r := normHeadTerms ts used (n + 1)
    (.universal n :: r.1, .equal (.var (.universal n)) (.const c) :: r.2.1, r.2.2)

/-- `normalize_existential_head` (rule.rs:430-478).  `n` is a name that is larger than those of the
variables of the rule (the generated names of the code are `_RESTRICTED_HEAD_k`). -/
def normHead : List (HeadAtom α) → Nat → List BodyAtom × List (Operation α)
  | [], _ => ([], [])
  | h :: hs, n =>
    let t := normHeadTerms h.terms [] n
    let r := normHead hs t.2.2
    (⟨h.pred, t.1⟩ :: r.1, t.2.1 ++ r.2)

/-- Names of variables -/
def Variable.name : Variable → Nat
  | .universal n => n
  | .existential n => n

/-- a name that is not used in the head of the rule -/
def NRule.freshName (r : NRule α) : Nat := ((r.head.flatMap (·.vars)).map Variable.name).foldl max 0 + 1

/-- `apply_optimization` (operations/restricted_head.rs:46-59) -/
def applyOptimization (r : NRule α) (hasFacts : Bool) : Bool :=
  !hasFacts && decide ((r.head.map (·.pred)).dedup.length = r.head.length)

/-- `GeneratorRestrictedHead` (restricted_head.rs:62-135): the values of the frontier variables for which
the head is satisfied because of new facts, without those that are known to be satisfied.  `sat` is the
helper predicate, `order` the variable order for the head. -/
def newSatisfied (src : Source α) (cur last : Nat) (r : NRule α) (hasFacts : Bool) (sat : Tag)
    (order : List Variable) : Rel α :=
  let n := normHead r.head r.freshName
  let order' := order ++ ((atomVars n.1).filter fun v => decide (v ∉ order)).dedup
  let join := genSeminaive src cur last (!applyOptimization r hasFacts) order' n.1
  let proj := Rel.project (order.filter r.inFrontier) (join.filter n.2)
  ⟨proj.cols, genDuplicates src cur sat proj.rows⟩

/-- `StrategyRestricted::create_plan` (strategy/forward/restricted.rs:81-129): the matches with nulls for the
existential variables, the new rows of the helper predicate, and the next unused null. -/
def evalRestricted (src : Source α) (cur last : Nat) (r : NRule α) (hasFacts : Bool) (sat : Tag)
    (order : List Variable) (body : Rel α) (next : Nat) : Rel α × List (List α) × Nat :=
  let frontier := Rel.project (order.filter r.inFrontier) body
  let newSat := newSatisfied src cur last r hasFacts sat order
  let allSat : Rel α := ⟨newSat.cols, newSat.rows ++ src sat 0 cur⟩
  let unsat : Rel α := frontier.subtract [allSat]
  let unsat : Rel α := ⟨unsat.cols, unsat.rows.dedup⟩
  let nulls := unsat.null (r.head.flatMap (·.varsExistential)).dedup next
  (nulls.1, unsat.rows ++ newSat.rows, nulls.2)

/-! ### A rule application -/

/-- The new facts of one head atom (strategy/forward/head.rs:124-146): Datalog and aggregate atoms with
duplicate elimination, existential atoms without. -/
def headAtomRows (src : Source α) (cur : Nat) (r : NRule α) (body agg nulls : Rel α) (i : Nat)
    (h : HeadAtom α) : List (List α) :=
  if (r.aggregation.map (·.2)) = some i then genDuplicates src cur h.pred (headRows h agg)
  else if h.varsExistential ≠ [] then headRows h nulls
  else genDuplicates src cur h.pred (headRows h body)

/-- The parameters of `StrategyForward::new` besides the rule (strategy/forward.rs:40-107): the helper
predicate of the rule, the variable order for the head, and whether a head predicate has facts. -/
structure RuleCfg where
  sat : Tag
  exOrder : List Variable
  hasFacts : Bool

/-- `StrategyForward::execute` (strategy/forward.rs:117-149) together with `execute_plan`
(/repo/nemo-physical/src/management/database.rs:575-673): the new non-empty tables by predicate and the
next unused null.  Nothing is computed if the body has no match (database.rs:644-650). -/
def executeRule (src : Source α) (cur last : Nat) (r : NRule α) (cfg : RuleCfg) (next : Nat) :
    List (Tag × List (List α)) × Nat :=
  let body := evalBody src cur last r
  if body.1.rows.isEmpty then ([], next)
  else
    let agg : Rel α := (r.aggregation.map fun a => evalAggregation body.1 a.1 body.2).getD ⟨[], []⟩
    let res := if r.isExistential then evalRestricted src cur last r cfg.hasFacts cfg.sat cfg.exOrder body.1 next
      else (⟨[], []⟩, [], next)
    let preds := (r.head.map (·.pred)).dedup
    let tables := preds.map fun p => (p, (r.head.zipIdx.flatMap fun x =>
      if x.1.pred = p then headAtomRows src cur r body.1 agg res.1 x.2 x.1 else []).dedup)
    let tables := if r.isExistential then tables ++ [(cfg.sat, res.2.1.dedup)] else tables
    (tables.filter fun t => !t.2.isEmpty, res.2.2)

end
end Verif
