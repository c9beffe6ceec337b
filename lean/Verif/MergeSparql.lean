import Verif.PropSparqlMerge

/-!
# Merging the SPARQL imports of a rule

Model of `TransformationMergeSparql` (/repo/nemo/src/rule_model/pipeline/transformations/merge_sparql.rs).
-/

set_option linter.unusedSimpArgs false
set_option linter.unusedSectionVars false

namespace Verif.Sq
open Verif Verif.Inc
variable {α : Type}

/-- `ImportLiteral` with an `ImportClause` for a SPARQL import (/repo/nemo/src/rule_model/components/import_export/clause.rs:20-32, 192-198) -/
structure QClause (α : Type) where
  positive : Bool
  pred : Tag
  endpoint : Nat
  query : Query α
  vars : List Variable

/-- A rule with SPARQL import clauses (components/rule.rs:33-60).  After `TransformationIncremental` all clauses of a rule are SPARQL imports. -/
structure QRule (α : Type) where
  base : WRule α
  clauses : List (QClause α)

/-- `try_equality_from_operation` (merge_sparql.rs:103-121) -/
def eqOf : Operation α → Option (Variable × α)
  | .equal (.var v) (.const a) => some (v, a)
  | .equal (.const a) (.var v) => some (v, a)
  | _ => none

/-- `equalities` (merge_sparql.rs:83-86).  Collecting into a `HashMap` keeps the last value for each variable; here the first entry counts. -/
def equalities (r : WRule α) : List (Variable × α) := (r.toS.operations.filterMap eqOf).reverse

/-- The constants of a clause, with their positions (/repo/nemo/src/rule_model/components/import_export.rs:195-202, 259-273).  The constants
of a program are no nulls, and complex values lead to a panic (queries.rs:51-53), which is not modelled. -/
def constPositions (eqs : List (Variable × α)) (vars : List Variable) : List (Nat × α) :=
  vars.zipIdx.filterMap fun x => (eqs.lookup x.1).map fun a => (x.2, a)

/-- The variables for which there is no constant (clause.rs:81-84, 92-97) -/
def openVars (eqs : List (Variable × α)) (vars : List Variable) : List Variable := vars.filter fun v => (eqs.lookup v).isNone

/-- `ImportClause::push_constants` (clause.rs:89-98, import_export.rs:181-212) -/
def QClause.push (order : Pat α → List SVar) (eqs : List (Variable × α)) (c : QClause α) : QClause α :=
  { c with query := pushConstants order c.query (constPositions eqs c.vars), vars := openVars eqs c.vars }

/-- `join_variables` (import_export.rs:252-254), in the order in which they occur on the left-hand side.  The code enumerates a
`HashSet`, so the order is arbitrary; it only determines the names in the merged query. -/
def joinVars (left right : List Variable) : List Variable := left.dedup.filter fun v => decide (v ∈ right)

/-- `left_positions.get(variable)` (import_export.rs:255-273): the last position of the variable, unless there is a constant for it -/
def lastPosition (eqs : List (Variable × α)) (vars : List Variable) (v : Variable) : Option Nat :=
  if (eqs.lookup v).isSome then none else ((vars.zipIdx.filter fun x => decide (x.1 = v)).getLast?).map (·.2)

/-- `join_positions` (import_export.rs:275-285); `none` is the panic if there is a constant for one of the variables -/
def joinPositions (eqs : List (Variable × α)) (left right : List Variable) : Option (List (Nat × Nat)) :=
  (joinVars left right).mapM fun v => do
    let l ← lastPosition eqs left v
    let r ← lastPosition eqs right v
    return (l, r)

/-- `ImportClause::try_merge` (clause.rs:67-86, import_export.rs:233-309); the outer `none` is the panic -/
def tryMerge (order : Pat α → List SVar) (eqs : List (Variable × α)) (left right : QClause α) : Option (Option (QClause α)) :=
  if left.endpoint = right.endpoint then
    (joinPositions eqs left.vars right.vars).map fun jp =>
      (mergeQueries order left.query right.query jp (constPositions eqs left.vars) (constPositions eqs right.vars)).map fun q =>
        { left with query := q, vars := openVars eqs (left.vars ++ right.vars.filter fun v => decide (v ∉ joinVars left.vars right.vars)) }
  else some none

/-- `try_reduce` from the second element on (merge_sparql.rs:133-136) -/
def mergeFold (order : Pat α → List SVar) (eqs : List (Variable × α)) : QClause α → List (QClause α) → Option (Option (QClause α))
  | c, [] => some (some c)
  | c, d :: ds =>
    match tryMerge order eqs c d with
    | none => none
    | some none => some none
    | some (some e) => mergeFold order eqs e ds

/-- `merge_and_push_constants` (merge_sparql.rs:123-138) -/
def mergeAndPush (order : Pat α → List SVar) (eqs : List (Variable × α)) : List (QClause α) → Option (Option (QClause α))
  | [] => some none
  | [c] => some (some (c.push order eqs))
  | c :: cs => mergeFold order eqs c cs

/-- `ImportClause::try_negate` (clause.rs:101-108, import_export.rs:214-230) -/
def QClause.negate (c : QClause α) : QClause α := { c with query := negateQuery c.query }

/-- A clause as an atom (merge_sparql.rs:191-196, 245-250, 253-258) -/
def QClause.toAtom (c : QClause α) : SAtom α := ⟨c.pred, c.vars.map .var⟩

/-- The literals except for the equalities (merge_sparql.rs:180-189, 234-243) -/
def otherLiterals [DecidableEq α] (r : WRule α) : List (LLit α) :=
  r.body.filter fun
    | .operation o =>
      match eqOf o with
      | some x => !decide ((equalities r).lookup x.1 = some x.2)
      | none => true
    | _ => true

/-- `is_still_incremental` (merge_sparql.rs:147-171) -/
def stillIncremental (r : WRule α) (positive : QClause α) : Bool :=
  (equalities r).isEmpty || (r.toS.positive.flatMap atomVariables).any fun v => decide (v ∈ positive.vars)

/-- A directive that is added to the program: the predicate, the endpoint and the query -/
structure QDirective (α : Type) where
  pred : Tag
  endpoint : Nat
  query : Query α

def QClause.directive (c : QClause α) : QDirective α := ⟨c.pred, c.endpoint, c.query⟩

/-- `update_import` (merge_sparql.rs:140-273): the imports that are added, and the new rule; `none` is a panic -/
def updateImport [DecidableEq α] (order : Pat α → List SVar) (r : WRule α) (positive negative : Option (QClause α)) : Option (List (QDirective α) × QRule α) :=
  match positive with
  | none => some ([], ⟨r, []⟩)
  | some p =>
    match negative with
    | some n =>
      match tryMerge order (equalities r) p n.negate with
      | none => none
      | some (some c) =>
        if stillIncremental r p then some ([], ⟨r, [c]⟩)
        else some ([c.directive], ⟨⟨r.head, otherLiterals r ++ [.positive c.toAtom]⟩, []⟩)
      | some none =>
        if stillIncremental r p then some ([], ⟨r, [p, n]⟩)
        else some ([n.directive, p.directive], ⟨⟨r.head, otherLiterals r ++ [.positive p.toAtom, .negative n.toAtom]⟩, []⟩)
    | none =>
      if stillIncremental r p then some ([], ⟨r, [p]⟩)
      else some ([p.directive], ⟨⟨r.head, otherLiterals r ++ [.positive p.toAtom]⟩, []⟩)

/-- The treatment of a rule (merge_sparql.rs:60-93); `ineligible` are the predicates whose rules are not changed. -/
def mergeRule [DecidableEq α] (order : Pat α → List SVar) (ineligible : List Tag) (r : QRule α) : Option (List (QDirective α) × QRule α) :=
  if (r.base.head.any fun h => decide (h.pred ∈ ineligible)) || r.clauses.isEmpty then some ([], r)
  else
    match mergeAndPush order (equalities r.base) (r.clauses.filter (·.positive)), mergeAndPush order (equalities r.base) (r.clauses.filter fun c => !c.positive) with
    | some p, some n => updateImport order r.base p n
    | _, _ => none

/-- The statements that are relevant here; `other` are outputs, exports and parameters. -/
inductive QStmt (α : Type)
  | fact (pred : Tag) (row : List α)
  | rule (r : QRule α)
  | imp (d : QDirective α)
  | other

/-- The predicates of the head atoms of all rules -/
def headPreds : List (QStmt α) → List Tag
  | [] => []
  | .rule r :: ss => r.base.head.map (·.pred) ++ headPreds ss
  | _ :: ss => headPreds ss

/-- The predicates of the facts -/
def factPreds : List (QStmt α) → List Tag
  | [] => []
  | .fact p _ :: ss => p :: factPreds ss
  | _ :: ss => factPreds ss

/-- `ineligible` (merge_sparql.rs:38-56) -/
def ineligible (ss : List (QStmt α)) : List Tag := factPreds ss ++ (headPreds ss).filter fun p => decide (1 < (headPreds ss).count p)

/-- The loop over the statements (merge_sparql.rs:58-98) -/
def mergeStmts [DecidableEq α] (order : Pat α → List SVar) (inel : List Tag) : List (QStmt α) → Option (List (QStmt α))
  | [] => some []
  | .rule r :: ss => do
    let x ← mergeRule order inel r
    let rest ← mergeStmts order inel ss
    return x.1.map .imp ++ .rule x.2 :: rest
  | s :: ss => (mergeStmts order inel ss).map (s :: ·)

/-- `TransformationMergeSparql::apply` (merge_sparql.rs:35-101) -/
def mergeProgram [DecidableEq α] (order : Pat α → List SVar) (ss : List (QStmt α)) : Option (List (QStmt α)) := mergeStmts order (ineligible ss) ss

/-! ## Specification -/

/-- The rule where import clauses are ordinary atoms, as `CRule.toS` -/
def QRule.toS (r : QRule α) : SRule α :=
  { r.base.toS with
    positive := r.base.toS.positive ++ (r.clauses.filter (·.positive)).map QClause.toAtom
    negative := r.base.toS.negative ++ (r.clauses.filter fun c => !c.positive).map QClause.toAtom }

/-- The data of all endpoints -/
abbrev Web (α : Type) := Nat → Dataset α

/-- The facts that a rule with import clauses sees: the predicate of an import clause contains the rows of the result of the query.  As
`CRule.load`. -/
def QRule.load (W : Web α) (u : α) (r : QRule α) (I : Interp α) : Interp α := fun p row =>
  (∃ c ∈ r.clauses, c.pred = p ∧ Rows (W c.endpoint) u c.query.pattern row) ∨ ((∀ c ∈ r.clauses, c.pred ≠ p) ∧ I p row)

/-- The facts that a rule with import clauses derives -/
def QDerives [DecidableEq α] [Dom α] (W : Web α) (u : α) (r : QRule α) (P N : Interp α) : Interp α :=
  SDerives r.toS (r.load W u P) (r.load W u N)

/-- The given facts: the facts of the program and the results of the imports -/
def qgiven (W : Web α) (u : α) (ss : List (QStmt α)) : Interp α := fun p row =>
  .fact p row ∈ ss ∨ ∃ d : QDirective α, .imp d ∈ ss ∧ d.pred = p ∧ Rows (W d.endpoint) u d.query.pattern row

/-- The rules of a program -/
def qrules (ss : List (QStmt α)) : List (QRule α) := ss.filterMap fun | .rule r => some r | _ => none

section
variable [DecidableEq α] [Dom α] (W : Web α) (u : α)

/-- as `SClosedUnder` -/
def QClosedUnder (rules : List (QRule α)) (edb N I : Interp α) : Prop := edb.le I ∧ ∀ r ∈ rules, (QDerives W u r I N).le I

/-- as `SLeastModel` -/
def QLeastModel (rules : List (QRule α)) (edb N : Interp α) : Interp α := fun p row => ∀ I, QClosedUnder W u rules edb N I → I p row

/-- The meaning of a program whose rules have import clauses: a stable model -/
def QIsStable (rules : List (QRule α)) (edb M : Interp α) : Prop := M = QLeastModel W u rules edb M

end
end Verif.Sq
