import Verif.Tracing

/-!
# Tree queries: explaining several facts at once

Model of `trace_tree` (/repo/nemo/src/execution/execution_engine/tracing/tree_query.rs) for rules without aggregates, with the same query for a rule application as in
`Tracing` (/repo/nemo/src/execution/planning/strategy/tracing.rs).  `none` stands for a panic or the end of the fuel; where the code has an `Option`, its `None` is `some none`.
Not modelled: ids of entries, possible rules above and below, times, pagination, import clauses.
-/

namespace Verif
variable {α : Type} [DecidableEq α] [Dom α]

namespace Trace.TreeQ
open VarOrder (derived)

/-- `TreeForTableResponse` (/repo/nemo/src/execution/tracing/tree_query.rs): the predicate, the entries, and (for `node`) the id of the rule and the index of the head atom in
`TraceRule`, and the children. -/
inductive Resp (α : Type) where
  | leaf (pred : Tag) (entries : List (List α))
  | node (pred : Tag) (entries : List (List α)) (rule : Nat) (head : Nat) (children : List (Resp α))

/-- What the model leaves open: the iteration order of the hash map of head variables (tracing.rs:50), and the order of the rows of a query (`trie_row_iterator`). -/
structure Choice (α : Type) where
  perm : List (Variable × α) → List (Variable × α)
  all : List (List α) → List (List α)

/-- `execute_all` and `trie_row_iterator` (tree_query.rs:316-334; tracing.rs:130-137): the rows of the query; a table without columns has no rows
(/repo/nemo-physical/src/tabular/rowscan.rs:143). -/
def treeQuery (c : Choice α) (src : Source α) (step : Nat) (r : NRule α) (g : List (Variable × α)) : List (List α) :=
  if (traceRel src step r g).cols.isEmpty then [] else c.all (traceRel src step r g).rows

/-- `multi_cartesian_product` of the crate itertools (tree_query.rs:390) -/
def product {β : Type} : List (List β) → List (List β)
  | [] => [[]]
  | l :: ls => l.flatMap fun x => (product ls).map (x :: ·)

/-- `trace_next_facts` for all groundings (tree_query.rs:159-187, 391-408): the list of facts for each body atom -/
def nextFacts (out : List Variable) (as : List BodyAtom) (groundings : List (List α)) : Option (List (List (GAtom α))) :=
  as.mapM fun a => groundings.mapM fun row => (a.terms.mapM (lookup (out.zip row))).map fun ts => (a.pred, ts)

/-- The loop over combinations of matches (tree_query.rs:390-432) -/
def treeTry (rec : List (GAtom α) → Option (Option (Resp α))) (out : List Variable) (as : List BodyAtom) : List (List (List α)) → Option (Option (List (Resp α)))
  | [] => some none
  | gr :: grs => do
    let next ← nextFacts out as gr
    let xs ← next.mapM rec
    match xs.mapM id with
    | some children => some (some children)
    | none => treeTry rec out as grs

/-- `partial_grounding_for_rule_head_and_fact` (tree_query.rs:39-103) -/
def partialGrounding (hd : HeadAtom α) (f : GAtom α) : Option (List (Variable × α)) :=
  if hd.pred ≠ f.1 then none else unify (hd.terms.zip f.2) []

/-- The loop over head atoms (tree_query.rs:295-436).  The variables of rows are those of a query without values for head variables (400-401), `out`. -/
def treeHeads (c : Choice α) (src : Source α) (rec : List (GAtom α) → Option (Option (Resp α))) (p : Tag) (facts : List (GAtom α)) (steps : List Nat) (i : Nat) (r : NRule α)
    (out : List Variable) : List (HeadAtom α × Nat) → Option (Option (Resp α))
  | [] => some none
  | (hd, k) :: hs =>
    match facts.mapM (partialGrounding hd) with
    | none => treeHeads c src rec p facts steps i r out hs
    | some gs => do
      let x ← treeTry rec out r.positive (product ((gs.zip steps).map fun y => treeQuery c src y.2 r (c.perm y.1)))
      match x with
      | some children => some (some (.node p (facts.map (·.2)) i k children))
      | none => treeHeads c src rec p facts steps i r out hs

/-- `trace_tree_recursive` (tree_query.rs:190-437).  Simplified: the ids of entries are left out; they are missing exactly if a step is (lines 200-209). -/
def treeRec (c : Choice α) (rules : List (NRule α)) (st : Eng α) : Nat → List (GAtom α) → Option (Option (Resp α))
  | 0, _ => none
  | _ + 1, [] => some none
  | n + 1, f :: fs =>
    match (f :: fs).mapM fun g => st.findTableRow f.1 g.2 with
    | none => some none
    | some steps =>
      if (∃ g ∈ f :: fs, g.1 ∉ derived rules) ∨ 0 ∈ steps then some (some (.leaf f.1 ((f :: fs).map (·.2))))
      else do
        let is ← steps.mapM (st.history[·]?)
        let i ← is[0]?
        if is.any (· ≠ i) then some (some (.leaf f.1 ((f :: fs).map (·.2))))
        else do
          let r ← rules[i]?
          let step ← steps[0]?
          treeHeads c st.source (treeRec c rules st n) f.1 (f :: fs) steps i r (traceOutput st.source step r []) r.head.zipIdx

mutual
/-- `trace_tree_add_negation` (tree_query.rs:109-157): the complete tables of negated atoms.  `norm` is `normalized_index` of the translation of rule ids
(/repo/nemo/src/execution/tracing/rule_translation.rs:104-109), which panics on other ids. -/
def addNegation (rules : List (NRule α)) (norm : Nat → Option Nat) (st : Eng α) : Resp α → Option (Resp α)
  | .leaf p rows => some (.leaf p rows)
  | .node p rows i k children => do
    let cs ← addNegations rules norm st children
    let n ← norm i
    let r ← rules[n]?
    some (.node p rows i k (cs ++ r.negative.map fun a => .leaf a.pred (st.predicateRows a.pred)))
/-- the loop over the children (tree_query.rs:111-113) -/
def addNegations (rules : List (NRule α)) (norm : Nat → Option Nat) (st : Eng α) : List (Resp α) → Option (List (Resp α))
  | [] => some []
  | x :: xs => do
    let y ← addNegation rules norm st x
    let ys ← addNegations rules norm st xs
    some (y :: ys)
end

/-- `trace_tree` for ground facts (tree_query.rs:440-536); the response without entries is `some none`. -/
def traceTree (c : Choice α) (rules : List (NRule α)) (norm : Nat → Option Nat) (st : Eng α) (fuel : Nat) (facts : List (GAtom α)) : Option (Option (Resp α)) := do
  match ← treeRec c rules st fuel facts with
  | some x => (addNegation rules norm st x).map some
  | none => some none

end Trace.TreeQ
end Verif
