import Verif.ImportPaging
import Verif.Planning

/-!
# Rules with import clauses

Model of the evaluation of rules whose body contains import clauses: `StrategyBody::Import`
(/repo/nemo/src/execution/planning/strategy/forward/body.rs:66-97, 144-160) with `GeneratorJoinCartesian`
(operations/join_cartesian.rs), `GeneratorImport` (operations/import.rs), `GeneratorJoinImportsSimple` and
`GeneratorJoinImportsGeneral` (operations/join_imports_simple.rs, join_imports_general.rs).

Tables are finite relations with variables as columns, as in `Planning.lean`.

Simplifications: the names of the auxiliary predicates (`BindingPattern::name`, import.rs:174-198) are given by a
function `bindTag` of the predicate of the import and the index of the factor.  Each import clause of a rule has
its own predicate (this is what `unique_import_directive`, pipeline/transformations/incremental.rs:213-221, is
for), so that there is one binding for each pattern and one table for each predicate (import.rs:319-342, 484-496).
-/

namespace Verif.Dem
open Verif

variable {α : Type}

/-- A normalized rule with import clauses (normalization/rule.rs:36-70); import clauses only have variables
(normalization/atom/import.rs:15-22). -/
structure IRule (α : Type) where
  base : NRule α
  posImports : List BodyAtom
  negImports : List BodyAtom

/-! ## Factors -/

/-- `Partition` (join_cartesian.rs:127-130) -/
structure Partition where
  vars : List Variable
  origins : List Nat

/-- `Partition::combine` (join_cartesian.rs:150-160) -/
def Partition.combine (p : Partition) (others : List Partition) : Partition :=
  ⟨p.vars ++ others.flatMap (·.vars), p.origins ++ others.flatMap (·.origins)⟩

/-- `Partition::compatible` (join_cartesian.rs:164-169) -/
def Partition.compatible (p q : Partition) : Bool := p.vars.any fun v => decide (v ∈ q.vars)

/-- `Partitions::add` (join_cartesian.rs:177-190) -/
def addPartition (ps : List Partition) (p : Partition) : List Partition :=
  (ps.filter fun q => !q.compatible p) ++ [p.combine (ps.filter fun q => q.compatible p)]

/-- the partitions of the atoms (join_cartesian.rs:193-202) -/
def partitions (atoms : List BodyAtom) : List Partition :=
  (atoms.zipIdx).foldl (fun ps x => addPartition ps ⟨x.1.terms, [x.2]⟩) []

/-- the factors that consist of atoms (join_cartesian.rs:204-218) -/
def atomFactors (atoms : List BodyAtom) : List (List BodyAtom) :=
  (partitions atoms).filterMap fun p =>
    if p.origins.isEmpty then none else some (p.origins.filterMap fun i => atoms[i]?)

/-- one execution of `retain` (join_cartesian.rs:230-244): the taken operations, their variables, and the other
operations -/
def constPass (bodyVars : List Variable) : List (Operation α) → List Variable → List (Operation α) →
    List (Operation α) × List Variable × List (Operation α)
  | [], vars, taken => (taken, vars, [])
  | o :: os, vars, taken =>
    match o.variableAssignment with
    | some (v, e) =>
      if v ∉ bodyVars ∧ ∀ w ∈ e.vars, w ∈ vars then constPass bodyVars os (vars ++ [v]) (taken ++ [o])
      else
        let r := constPass bodyVars os vars taken
        (r.1, r.2.1, o :: r.2.2)
    | none =>
      let r := constPass bodyVars os vars taken
      (r.1, r.2.1, o :: r.2.2)

/-- the loop (join_cartesian.rs:225-251); it ends after at most one pass more than there are operations -/
def constLoop (bodyVars : List Variable) : Nat → List (Operation α) → List Variable → List (Operation α) →
    List (Operation α) × List (Operation α)
  | 0, os, _, taken => (taken, os)
  | n + 1, os, vars, taken =>
    let r := constPass bodyVars os vars taken
    if r.1.length = taken.length then (r.1, r.2.2) else constLoop bodyVars n r.2.2 r.2.1 r.1

/-- the constant operations and the other operations (join_cartesian.rs:220-251) -/
def constOps (atoms : List BodyAtom) (os : List (Operation α)) : List (Operation α) × List (Operation α) :=
  constLoop (atomVars atoms) (os.length + 1) os [] []

section
variable [DecidableEq α] [Dom α]

/-- `GeneratorFunctionFilterNegation` with the remaining operations and the remaining negated atoms
(function_filter_negation.rs:35-54, negation.rs:41-67) -/
def genFFN3 (src : Source α) (cur last : Nat) (r : Rel α) (os : List (Operation α)) (neg : List BodyAtom) :
    Rel α × List (Operation α) × List BodyAtom :=
  let g := genFFN src cur last r os neg
  (g.1, g.2, neg.filter fun a => decide (∀ v ∈ a.terms, v ∉ (genFunction r.cols os).1.vars))

/-- the loop over the factors that consist of atoms (join_cartesian.rs:65-77) -/
def evalFactors (src : Source α) (cur last : Nat) (order : List Variable) : List (List BodyAtom) →
    List (Operation α) → List BodyAtom → List (Rel α) × List (Operation α) × List BodyAtom
  | [], os, neg => ([], os, neg)
  | f :: fs, os, neg =>
    let g := genFFN3 src cur last (genSeminaive src cur last true order f) os neg
    let r := evalFactors src cur last order fs g.2.1 g.2.2
    (g.1 :: r.1, r.2)

/-- The result of `GeneratorJoinCartesian` (join_cartesian.rs:45-101, 261-281): the tables of the factors, whether
there is a single join, and the operations and negated atoms that are left.  If there is not exactly one factor then
the operations and negated atoms are restored, however without the constant operations (join_cartesian.rs:54-60,
95-98). -/
structure Cartesian (α : Type) where
  tables : List (Rel α)
  singleJoin : Bool
  operations : List (Operation α)
  negative : List BodyAtom

/-- see `Cartesian` -/
def cartesianJoin (src : Source α) (cur last : Nat) (r : NRule α) : Cartesian α :=
  let fs := atomFactors r.positive
  let c := constOps r.positive r.operations
  let e := evalFactors src cur last r.order fs c.2 r.negative
  let hasConst := !c.1.isEmpty
  let constTable := (genFFN3 src cur last (genSeminaive src cur last true r.order []) c.1 e.2.2)
  let single := decide (fs.length + (if hasConst then 1 else 0) = 1)
  { tables := e.1 ++ (if hasConst then [constTable.1] else [])
    singleJoin := decide (fs.length = 1)
    operations := if single then e.2.1 else c.2
    negative := if single then (if hasConst then constTable.2.2 else e.2.2) else r.negative }

/-! ## Imports -/

/-- the bound positions of an import clause and their variables (import.rs:100-121) -/
def boundTerms (inputs : List (List Variable)) (a : BodyAtom) : List (Nat × Variable) :=
  (a.terms.zipIdx.filter fun x => decide (x.1 ∈ inputs.flatten)).map fun x => (x.2, x.1)

/-- the indices of the bound variables that a factor provides, sorted (import.rs:123-136) -/
def subsetOf (bound : List Variable) (vars : List Variable) : List Nat :=
  (vars.filterMap fun v => bound.idxOf? v).insertionSort (· ≤ ·)

/-- A binding pattern of an import clause (import.rs:82-91): the index of the factor whose table provides the
bindings, the variables of the bindings and the bound positions -/
structure Pattern where
  factor : Nat
  vars : List Variable
  positions : List Nat

/-- `BindingPattern::new` (import.rs:97-171) and `ProductBinding::bound_positions` (import.rs:251-276): if there is
only one pattern then it is used with all bound positions. -/
def patterns (inputs : List (List Variable)) (a : BodyAtom) : List Pattern :=
  let bt := boundTerms inputs a
  let bound := bt.map (·.2)
  let pos := bt.map (·.1)
  let subsets := (inputs.map (subsetOf bound)).filter fun s => !s.isEmpty
  let all := subsets.map fun s =>
    let vars := s.filterMap fun i => bound[i]?
    ({ factor := (inputs.findIdx? fun vs => decide (∃ v ∈ vars.head?, v ∈ vs)).getD 0
       vars := vars
       positions := s.filterMap fun i => pos[i]? } : Pattern)
  if all.length = 1 then all.map fun p => { p with positions := pos } else all

/-- the predicate under which the bindings of a pattern are stored, see the head of this file -/
abbrev BindTag := Tag → Nat → Tag

/-- the bindings of a pattern (import.rs:366-383) that were not requested before (import.rs:393-433) -/
def newBindings (src : Source α) (cur : Nat) (bindTag : BindTag) (tables : List (Rel α)) (a : BodyAtom) (p : Pattern) :
    List (List α) :=
  match tables[p.factor]? with
  | some t => ((Rel.project p.vars t).rows.filter fun row => decide (row ∉ src (bindTag a.pred p.factor) 0 cur)).dedup
  | none => []

/-- the bindings with which the external table is asked (import.rs:441-472) -/
def requestOf (src : Source α) (cur : Nat) (bindTag : BindTag) (tables : List (Rel α)) (a : BodyAtom) :
    ProductBindings α :=
  (patterns (tables.map (·.cols)) a).map fun p =>
    (⟨p.positions, src (bindTag a.pred p.factor) 0 cur⟩, ⟨p.positions, newBindings src cur bindTag tables a p⟩)

/-- `GeneratorIncrementalImport::apply_operation` (/repo/nemo-physical/src/tabular/operations/incremental_import.rs:93-155):
which bindings are passed to the reader; with a single pattern only the new ones -/
def passed (pb : ProductBindings α) : ProductBindings α :=
  match pb with
  | [f] => ProductBindings.single f.2
  | _ => pb

/-- the rows of an import clause that are fetched (import.rs:441-515); `fetch` is the reader for each predicate -/
def fetched (fetch : Tag → ProductBindings α → List (List α)) (src : Source α) (cur : Nat) (bindTag : BindTag)
    (tables : List (Rel α)) (a : BodyAtom) : List (List α) :=
  (fetch a.pred (passed (requestOf src cur bindTag tables a))).dedup

/-! ## Merging -/

/-- the table of an import clause: what was imported before and the fetched rows (join_imports_simple.rs:111-123) -/
def importTable (fetch : Tag → ProductBindings α → List (List α)) (src : Source α) (cur : Nat) (bindTag : BindTag)
    (tables : List (Rel α)) (a : BodyAtom) : Rel α :=
  ⟨a.terms, src a.pred 0 cur ++ fetched fetch src cur bindTag tables a⟩

/-- the filters of the negated import clauses and the remaining operations (join_imports_simple.rs:75-83) -/
def negFilters : List BodyAtom → List (Operation α) → List (BodyAtom × List (Operation α)) × List (Operation α)
  | [], os => ([], os)
  | a :: as, os =>
    let f := genFilter a.terms os
    let r := negFilters as f.2
    ((a, f.1) :: r.1, r.2)

/-- Joining the matches with the imports, subtracting the negated imports, and evaluating the remaining operations
and negated atoms (join_imports_simple.rs:102-169 and join_imports_general.rs:106-173, which only differ in the
first table) -/
def merge (fetch : Tag → ProductBindings α → List (List α)) (src : Source α) (cur last : Nat) (bindTag : BindTag)
    (tables : List (Rel α)) (order : List Variable) (input : Rel α) (pos neg : List BodyAtom)
    (os : List (Operation α)) (negAtoms : List BodyAtom) : Rel α × List (Operation α) :=
  let cols := restrictOrder order (input.cols ++ atomVars pos)
  let joined := Rel.join cols (input :: pos.map (importTable fetch src cur bindTag tables))
  let n := negFilters neg os
  let sub := joined.subtract (n.1.map fun x =>
    Rel.project (cols.filter fun v => decide (v ∈ x.1.terms))
      ((importTable fetch src cur bindTag tables x.1).filter x.2))
  let out := if neg.isEmpty then joined else sub
  genFFN src cur last out n.2 negAtoms

/-- The body of a rule with import clauses (body.rs:66-97, 144-160) -/
def evalImportBody (fetch : Tag → ProductBindings α → List (List α)) (bindTag : BindTag) (src : Source α)
    (cur last : Nat) (r : IRule α) : Rel α × List (Operation α) :=
  let c := cartesianJoin src cur last r.base
  if c.singleJoin then
    merge fetch src cur last bindTag c.tables r.base.order ((c.tables[0]?).getD ⟨[], []⟩) r.posImports r.negImports
      c.operations c.negative
  else
    merge fetch src cur last bindTag c.tables r.base.order
      (genSeminaive src cur last true r.base.order r.base.positive) r.posImports r.negImports c.operations c.negative

/-- The tables that are stored besides the derived facts: the new bindings in the current step (import.rs:422-427)
and the fetched rows in the step before (import.rs:498-509) -/
def importTables (fetch : Tag → ProductBindings α → List (List α)) (bindTag : BindTag) (src : Source α)
    (cur last : Nat) (r : IRule α) : List (Tag × Nat × List (List α)) :=
  let c := cartesianJoin src cur last r.base
  (r.posImports ++ r.negImports).flatMap fun a =>
    ((patterns (c.tables.map (·.cols)) a).map fun p =>
      (bindTag a.pred p.factor, cur, newBindings src cur bindTag c.tables a p)) ++
    [(a.pred, cur - 1, fetched fetch src cur bindTag c.tables a)]

end

end Verif.Dem
