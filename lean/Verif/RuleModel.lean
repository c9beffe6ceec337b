import Mathlib.Data.List.Basic
import Mathlib.Data.List.Nodup
import Mathlib.Data.List.Dedup
import Mathlib.Data.Set.Basic
import Mathlib.Tactic.Linarith

/-!
# Normalized rules and their meaning

The first part models the normalized rules of
`/repo/nemo/src/execution/planning/normalization/` (without import clauses).  The second part is the
specification: what it means, in terms of sets of facts, that a rule derives a fact, and which set
of facts is the meaning of a program.
-/

set_option linter.unusedSimpArgs false
set_option linter.unusedSectionVars false

namespace Verif

/-- `Tag` (/repo/nemo/src/rule_model/components/tag.rs): the name of a predicate. -/
abbrev Tag := Nat

/-- `Variable` (/repo/nemo/src/rule_model/components/term/primitive/variable.rs). -/
inductive Variable
  | universal (name : Nat)
  | existential (name : Nat)
deriving DecidableEq

/-- `is_existential` (variable.rs). -/
def Variable.isExistential : Variable → Bool
  | .universal _ => false
  | .existential _ => true

/-- The domain of data values: the two Boolean values, labelled nulls, the (partial) built-in functions
(`FunctionTree`, /repo/nemo-physical/src/function/tree.rs) and the aggregate functions.  An aggregate
function is applied to the list of rows of a group (the aggregated value first, then the distinct
values) and only depends on the set of these rows (see C16). -/
class Dom (α : Type) where
  tru : α
  fls : α
  tru_ne_fls : tru ≠ fls
  null : Nat → α
  app : Nat → List α → Option α
  agg : Nat → List (List α) → Option α
  agg_set : ∀ k l l', (∀ x, x ∈ l ↔ x ∈ l') → agg k l = agg k l'

/-- `Operation` (normalization/operation.rs:25-36): terms over variables, constants and built-in
functions; equality is a separate constructor because it doubles as assignment. -/
inductive Operation (α : Type)
  | var (v : Variable)
  | const (a : α)
  | equal (l r : Operation α)
  | op (kind : Nat) (subterms : List (Operation α))

namespace Operation
variable {α : Type}

mutual
/-- `variables` (operation.rs:74-81) -/
def vars : Operation α → List Variable
  | .var v => [v]
  | .const _ => []
  | .equal l r => l.vars ++ r.vars
  | .op _ subterms => varsList subterms
/-- the variables of a list of terms -/
def varsList : List (Operation α) → List Variable
  | [] => []
  | t :: ts => t.vars ++ varsList ts
end

/-- `variable_assignment` (operation.rs:101-116) -/
def variableAssignment : Operation α → Option (Variable × Operation α)
  | .equal (.var v) r => some (v, r)
  | .equal l (.var v) => some (v, l)
  | _ => none

mutual
/-- The value of a term under a valuation of the variables (`function_tree`, operation.rs:252-354, and
the evaluation of the tree, see C14); `none` if it is undefined. -/
def eval [DecidableEq α] [Dom α] (σ : Variable → α) : Operation α → Option α
  | .var v => some (σ v)
  | .const a => some a
  | .equal l r => do
    let a ← l.eval σ
    let b ← r.eval σ
    return if a = b then Dom.tru else Dom.fls
  | .op k subterms => do
    let l ← evalList σ subterms
    Dom.app k l
/-- the values of a list of terms -/
def evalList [DecidableEq α] [Dom α] (σ : Variable → α) : List (Operation α) → Option (List α)
  | [] => some []
  | t :: ts => do
    let a ← t.eval σ
    let l ← evalList σ ts
    return a :: l
end

end Operation

/-- `BodyAtom` (normalization/atom/body.rs:14-19) -/
structure BodyAtom where
  pred : Tag
  terms : List Variable
deriving DecidableEq

/-- `Primitive` (/repo/nemo/src/rule_model/components/term/primitive.rs) -/
inductive Primitive (α : Type)
  | var (v : Variable)
  | const (a : α)

/-- the value of a primitive term -/
def Primitive.inst {α : Type} (σ : Variable → α) : Primitive α → α
  | .var v => σ v
  | .const a => a

/-- the variable of a primitive term -/
def Primitive.var? {α : Type} : Primitive α → Option Variable
  | .var v => some v
  | .const _ => none

/-- `HeadAtom` (normalization/atom/head.rs:19-24) -/
structure HeadAtom (α : Type) where
  pred : Tag
  terms : List (Primitive α)

namespace HeadAtom
variable {α : Type}
/-- `variables` (head.rs:70-75) -/
def vars (h : HeadAtom α) : List Variable := h.terms.filterMap Primitive.var?
/-- `variables_existential` (head.rs:78-89) -/
def varsExistential (h : HeadAtom α) : List Variable := h.vars.filter Variable.isExistential
/-- the fact obtained by a valuation of the variables -/
def inst (h : HeadAtom α) (σ : Variable → α) : List α := h.terms.map (Primitive.inst σ)
end HeadAtom

/-- `Aggregation` (normalization/aggregate.rs:15-34) -/
structure Aggregation where
  kind : Nat
  input : Variable
  output : Variable
  distinct : List Variable
  groupBy : List Variable

/-- `NormalizedRule` (normalization/rule.rs:44-70) without import atoms; `order` is the variable order. -/
structure NRule (α : Type) where
  positive : List BodyAtom
  negative : List BodyAtom
  operations : List (Operation α)
  head : List (HeadAtom α)
  aggregation : Option (Aggregation × Nat)
  order : List Variable

namespace NRule
variable {α : Type}
/-- `is_existential` (rule.rs:217-222) -/
def isExistential (r : NRule α) : Bool := r.head.any fun h => h.vars.any Variable.isExistential
/-- `contains_aggregates` (rule.rs:225-227) -/
def containsAggregates (r : NRule α) : Bool := r.aggregation.isSome
/-- `is_recursive` (rule.rs:231-243) -/
def isRecursive (r : NRule α) : Bool := r.head.any fun h => r.positive.any fun a => a.pred == h.pred
/-- `predicates_positive` (rule.rs:316-327) -/
def predsPositive (r : NRule α) : List Tag := r.positive.map (·.pred)
/-- `predicates_negative` (rule.rs:330-341) -/
def predsNegative (r : NRule α) : List Tag := r.negative.map (·.pred)
/-- `predicates_head` (rule.rs:344-348) -/
def predsHead (r : NRule α) : List Tag := r.head.map (·.pred)
end NRule

/-! ## Specification: the meaning of rules and programs -/

section semantics
variable {α : Type} [DecidableEq α] [Dom α]

/-- A set of facts. -/
abbrev Interp (α : Type) := Tag → List α → Prop

/-- inclusion of sets of facts -/
def Interp.le (I J : Interp α) : Prop := ∀ p row, I p row → J p row

/-- The variables of a rule that get a value from the positive body atoms: those that occur in one, and
those that are equated with a term all of whose variables get a value. -/
inductive SafeVar (atoms : List BodyAtom) (ops : List (Operation α)) : Variable → Prop
  | atom {a : BodyAtom} {v : Variable} : a ∈ atoms → v ∈ a.terms → SafeVar atoms ops v
  | assign {o e : Operation α} {v : Variable} : o ∈ ops → o.variableAssignment = some (v, e) →
      (∀ w ∈ e.vars, SafeVar atoms ops w) → SafeVar atoms ops v

/-- The body of a rule is true under the valuation `σ`, where positive atoms are looked up in `P` and
negated atoms in `N`: the positive atoms and all conditions on safe variables are true, and there
is no fact that matches a negated atom together with the conditions that concern its other variables. -/
structure BodyHolds (r : NRule α) (P N : Interp α) (σ : Variable → α) : Prop where
  pos : ∀ a ∈ r.positive, P a.pred (a.terms.map σ)
  ops : ∀ o ∈ r.operations, (∀ v ∈ o.vars, SafeVar r.positive r.operations v) → o.eval σ = some Dom.tru
  neg : ∀ a ∈ r.negative, ¬ ∃ τ : Variable → α,
    (∀ v, SafeVar r.positive r.operations v → τ v = σ v) ∧ N a.pred (a.terms.map τ) ∧
    ∀ o ∈ r.operations, (∀ v ∈ o.vars, SafeVar r.positive r.operations v ∨ v ∈ a.terms) →
      o.eval τ = some Dom.tru

/-- The values of an aggregate rule: `σ` gives the group-by variables the values of a group (a class of
valuations that satisfy `B`), the output variable the aggregated value of this group, and the conditions
that are not conditions on the body are true. -/
structure AggHolds (r : NRule α) (a : Aggregation) (B : (Variable → α) → Prop) (σ : Variable → α) : Prop where
  group : ∃ τ l, B τ ∧ (∀ v ∈ a.groupBy, τ v = σ v) ∧
    (∀ x, x ∈ l ↔ ∃ τ', B τ' ∧ (∀ v ∈ a.groupBy, τ' v = τ v) ∧ x = (a.input :: a.distinct).map τ') ∧
    Dom.agg a.kind l = some (σ a.output)
  ops : ∀ o ∈ r.operations, ¬ (∀ v ∈ o.vars, SafeVar r.positive r.operations v) →
    (∀ b ∈ r.negative, ¬ ∀ v ∈ o.vars, SafeVar r.positive r.operations v ∨ v ∈ b.terms) →
    o.eval σ = some Dom.tru

/-- The facts that a rule without existential variables derives if `B` are the valuations that match the
body: instances of the head atoms, where an atom with an aggregate is instantiated for each group. -/
inductive DerivesWith (r : NRule α) (B : (Variable → α) → Prop) : Interp α
  | plain {σ : Variable → α} {h : HeadAtom α} {i : Nat} : B σ → r.head[i]? = some h →
      (∀ a k, r.aggregation = some (a, k) → k ≠ i) → DerivesWith r B h.pred (h.inst σ)
  | agg {σ : Variable → α} {h : HeadAtom α} {i : Nat} {a : Aggregation} :
      AggHolds r a B σ → r.aggregation = some (a, i) → r.head[i]? = some h →
      DerivesWith r B h.pred (h.inst σ)

/-- A rule without existential variables derives a fact from the positive facts `P` and, for negated and
aggregated atoms, the facts `N`.  (The body of a rule with aggregates is completely evaluated in `N`.) -/
def Derives (r : NRule α) (P N : Interp α) : Interp α :=
  DerivesWith r (BodyHolds r (if r.containsAggregates then N else P) N)

/-- The set of facts is closed under the rules, when negated atoms are looked up in `N`. -/
def ClosedUnder (rules : List (NRule α)) (edb : Interp α) (N I : Interp α) : Prop :=
  edb.le I ∧ ∀ r ∈ rules, (Derives r I N).le I

/-- The least set of facts that contains `edb` and is closed under the rules, when negated atoms are
looked up in `N`. -/
def LeastModel (rules : List (NRule α)) (edb : Interp α) (N : Interp α) : Interp α :=
  fun p row => ∀ I, ClosedUnder rules edb N I → I p row

/-- The meaning of a program with negation: a set of facts in which exactly those facts are true that
must be true if negated atoms are looked up in this very set (a *stable model*). -/
def IsStable (rules : List (NRule α)) (edb : Interp α) (M : Interp α) : Prop :=
  M = LeastModel rules edb M

end semantics
end Verif
