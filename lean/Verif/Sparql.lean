import Verif.PropIncrementalMore

/-!
# SPARQL queries and their transformation

Model of the functions of /repo/nemo/src/io/formats/sparql/queries.rs that merge queries, push constants into them, and negate them.
The first part are the patterns and their meaning (SPARQL 1.1, section 18); the second part are the functions.
-/

set_option linter.unusedSimpArgs false
set_option linter.unusedSectionVars false

namespace Verif.Sq
open Verif
variable {α : Type}

/-! ## Patterns -/

/-- The name of a SPARQL variable (`oxrdf::Variable`) -/
abbrev SVar := List Char

/-- `TermPattern`, `NamedNodePattern` -/
inductive STerm (α : Type)
  | var (v : SVar)
  | const (a : α)

/-- `TriplePattern` -/
structure Triple (α : Type) where
  s : STerm α
  p : STerm α
  o : STerm α

/-- `GraphPattern` (spargebra, used in queries.rs:215-290).  `path` is a path expression that is identified by a number.  Expressions in
`filter` and `extend` are functions of the values of the variables that occur in them; filters with (NOT) EXISTS are `filterExists`.
`distinct` stands for `Distinct`, `Reduced` and `OrderBy`, which do not change the set of solutions.  Not modelled: the expression of
`LeftJoin`, `Graph`, `Service`, `Slice` and `Group`. -/
inductive Pat (α : Type)
  | bgp (ts : List (Triple α))
  | path (s : STerm α) (k : Nat) (o : STerm α)
  | join (l r : Pat α)
  | leftJoin (l r : Pat α)
  | union (l r : Pat α)
  | minus (l r : Pat α)
  | values (vs : List SVar) (rows : List (List (Option α)))
  | filter (vs : List SVar) (f : List (Option α) → Bool) (inner : Pat α)
  | filterExists (positive : Bool) (p inner : Pat α)
  | extend (inner : Pat α) (v : SVar) (vs : List SVar) (f : List (Option α) → Option α)
  | project (inner : Pat α) (vs : List SVar)
  | distinct (inner : Pat α)

def STerm.vars : STerm α → List SVar
  | .var v => [v]
  | .const _ => []

def Triple.vars (t : Triple α) : List SVar := t.s.vars ++ t.p.vars ++ t.o.vars

/-! ## Specification: the meaning of patterns -/

/-- The data that an endpoint has -/
structure Dataset (α : Type) where
  triple : α → α → α → Prop
  path : Nat → α → α → Prop

/-- A solution -/
abbrev SMap (α : Type) := SVar → Option α

/-- Two solutions have the same value for each variable for which both have one. -/
def Compat (μ ν : SMap α) : Prop := ∀ v a b, μ v = some a → ν v = some b → a = b

/-- The union of two compatible solutions -/
def SMap.merge (μ ν : SMap α) : SMap α := fun v => (μ v).or (ν v)

/-- The value of a term -/
def STerm.value (μ : SMap α) : STerm α → Option α
  | .var v => μ v
  | .const a => some a

/-- The row of a `VALUES` block as a solution -/
def rowMap (vs : List SVar) (row : List (Option α)) : SMap α := fun v => ((vs.zip row).lookup v).join

/-- The solutions of a pattern.  The pattern in (NOT) EXISTS is evaluated independently, and its solutions must be compatible; the
standard uses substitution, which is the same unless the pattern contains MINUS, filters or subqueries for which the substituted
variables are not in scope. -/
def eval (D : Dataset α) : Pat α → SMap α → Prop
  | .bgp ts, μ => (∀ t ∈ ts, ∃ s p o, t.s.value μ = some s ∧ t.p.value μ = some p ∧ t.o.value μ = some o ∧ D.triple s p o) ∧
      ∀ v, μ v ≠ none → v ∈ ts.flatMap Triple.vars
  | .path s k o, μ => (∃ a b, s.value μ = some a ∧ o.value μ = some b ∧ D.path k a b) ∧ ∀ v, μ v ≠ none → v ∈ s.vars ++ o.vars
  | .join l r, μ => ∃ μ₁ μ₂, eval D l μ₁ ∧ eval D r μ₂ ∧ Compat μ₁ μ₂ ∧ μ = μ₁.merge μ₂
  | .leftJoin l r, μ => (∃ μ₁ μ₂, eval D l μ₁ ∧ eval D r μ₂ ∧ Compat μ₁ μ₂ ∧ μ = μ₁.merge μ₂) ∨
      (eval D l μ ∧ ∀ μ₂, eval D r μ₂ → ¬ Compat μ μ₂)
  | .union l r, μ => eval D l μ ∨ eval D r μ
  | .minus l r, μ => eval D l μ ∧ ∀ μ₂, eval D r μ₂ → ¬ (Compat μ μ₂ ∧ ∃ v, μ v ≠ none ∧ μ₂ v ≠ none)
  | .values vs rows, μ => ∃ row ∈ rows, μ = rowMap vs row
  | .filter vs f inner, μ => eval D inner μ ∧ f (vs.map μ) = true
  | .filterExists positive p inner, μ => eval D inner μ ∧ (positive = true ↔ ∃ μ₂, eval D p μ₂ ∧ Compat μ μ₂)
  | .extend inner v vs f, μ => ∃ μ₀, eval D inner μ₀ ∧ μ₀ v = none ∧ ∀ w, μ w = if w = v then f (vs.map μ₀) else μ₀ w
  | .project inner vs, μ => ∃ μ₀, eval D inner μ₀ ∧ ∀ w, μ w = if w ∈ vs then μ₀ w else none
  | .distinct inner, μ => eval D inner μ

/-- The columns of the result of a query -/
def columns : Pat α → List SVar
  | .project _ vs => vs
  | .distinct inner => columns inner
  | _ => []

/-- The rows of the result of a query.  A cell without a value is read as `unbound` (the empty string, /repo/nemo/src/io/formats/sparql/reader.rs:160-171). -/
def Rows (D : Dataset α) (unbound : α) (q : Pat α) (row : List α) : Prop :=
  ∃ μ, eval D q μ ∧ row = (columns q).map fun v => (μ v).getD unbound

/-! ## The variables of a pattern -/

/-- `variables_in_pattern` (queries.rs:215-290); the variables that are in scope and those that are hidden are not distinguished, because all
callers treat them in the same way.  Variables in expressions, and in patterns in EXISTS, are not included. -/
def collected : Pat α → List SVar
  | .bgp ts => ts.flatMap Triple.vars
  | .path s _ o => s.vars ++ o.vars
  | .join l r => collected l ++ collected r
  | .leftJoin l r => collected l ++ collected r
  | .union l r => collected l ++ collected r
  | .minus l r => collected r ++ collected l
  | .values vs _ => vs
  | .filter _ _ inner => collected inner
  | .filterExists _ _ inner => collected inner
  | .extend inner v _ _ => collected inner ++ [v]
  | .project inner vs => collected inner ++ vs
  | .distinct inner => collected inner

/-- Specification: all variables that occur in a pattern -/
def occurring : Pat α → List SVar
  | .bgp ts => ts.flatMap Triple.vars
  | .path s _ o => s.vars ++ o.vars
  | .join l r => occurring l ++ occurring r
  | .leftJoin l r => occurring l ++ occurring r
  | .union l r => occurring l ++ occurring r
  | .minus l r => occurring l ++ occurring r
  | .values vs _ => vs
  | .filter vs _ inner => vs ++ occurring inner
  | .filterExists _ p inner => occurring p ++ occurring inner
  | .extend inner v vs _ => occurring inner ++ v :: vs
  | .project inner vs => occurring inner ++ vs
  | .distinct inner => occurring inner

/-! ## Renaming -/

def STerm.rename (m : SVar → SVar) : STerm α → STerm α
  | .var v => .var (m v)
  | .const a => .const a

def Triple.rename (m : SVar → SVar) (t : Triple α) : Triple α := ⟨t.s.rename m, t.p.rename m, t.o.rename m⟩

/-- `rename_in_graph_pattern` (queries.rs:466-592; also 310-464) -/
def rename (m : SVar → SVar) : Pat α → Pat α
  | .bgp ts => .bgp (ts.map (Triple.rename m))
  | .path s k o => .path (s.rename m) k (o.rename m)
  | .join l r => .join (rename m l) (rename m r)
  | .leftJoin l r => .leftJoin (rename m l) (rename m r)
  | .union l r => .union (rename m l) (rename m r)
  | .minus l r => .minus (rename m l) (rename m r)
  | .values vs rows => .values (vs.map m) rows
  | .filter vs f inner => .filter (vs.map m) f (rename m inner)
  | .filterExists positive p inner => .filterExists positive (rename m p) (rename m inner)
  | .extend inner v vs f => .extend (rename m inner) (m v) (vs.map m) f
  | .project inner vs => .project (rename m inner) (vs.map m)
  | .distinct inner => .distinct (rename m inner)

/-- A map from variables to variables (`HashMap<Variable, Variable>`); the first entry for a key counts. -/
abbrev Ren := List (SVar × SVar)

/-- `mapping.get(variable).unwrap_or(variable)` (queries.rs:316, 348, 360, 373) -/
def Ren.app (m : Ren) (v : SVar) : SVar := (m.lookup v).getD v

/-- `"Label"` -/
def labelSuffix : List Char := ['L', 'a', 'b', 'e', 'l']

/-- `strip_suffix("Label").unwrap_or(..)` (queries.rs:656-661) -/
def stripLabel (v : SVar) : SVar := if labelSuffix <:+ v then v.take (v.length - 5) else v

/-- `format!("{prefix}{count}")` (queries.rs:669) -/
def numVar (pre : Char) (n : Nat) : SVar := pre :: (toString n).toList

/-- The closure `push` (queries.rs:655-676) -/
def push (pre : Char) (r : Ren) (x : SVar × Nat) : Ren :=
  if (r.lookup (stripLabel x.1)).isSome then r
  else (stripLabel x.1, numVar pre x.2) :: (stripLabel x.1 ++ labelSuffix, numVar pre x.2 ++ labelSuffix) :: r

/-- `standardize_variables` (queries.rs:649-695).  `vars` are the elements of the sets `in_scope` and `hidden`, in the order in which they are
enumerated. -/
def standardize (pre : Char) (vars join : List SVar) : Ren :=
  vars.zipIdx.foldl (push pre) (join.zipIdx.foldl (push 'j') [])

/-! ## Constants -/

/-- `bind_constants` (queries.rs:594-618).  The map from positions to constants is a list with at most one entry for each position. -/
def bindConstants (p : Pat α) (vars : List SVar) (constants : List (Nat × α)) : Pat α :=
  if constants = [] then p
  else .join p (.values (constants.map fun c => vars.getD c.1 []) [constants.map fun c => some c.2])

/-- The elements whose position is not in a map (`filter_map`, queries.rs:632-642) -/
def dropConstants {A : Type} (xs : List A) (constants : List (Nat × α)) : List A :=
  (xs.zipIdx.filter fun x => (constants.lookup x.2).isNone).map (·.1)

/-- `rename_variables_in_project_pattern` (queries.rs:620-647) -/
def renameProject (m : Ren) (constants : List (Nat × α)) : Pat α → Option (Pat α × List SVar)
  | .project inner vs => some (bindConstants (rename m.app inner) (vs.map m.app) constants, dropConstants (vs.map m.app) constants)
  | _ => none

/-! ## Merging -/

/-- `merge_project_patterns` (queries.rs:697-752); `order` is the order in which the sets of variables are enumerated. -/
def mergeProject (order : Pat α → List SVar) (left right : Pat α) (jp : List (Nat × Nat)) (lc rc : List (Nat × α)) : Option (Pat α) :=
  match left, right with
  | .project _ lv, .project _ rv =>
    let lj := jp.map fun x => lv.getD x.1 []
    let rj := jp.map fun x => rv.getD x.2 []
    let lm := standardize 'l' (order left) lj
    let rm := standardize 'r' (order right) rj
    match renameProject lm lc left, renameProject rm rc right with
    | some l, some r => some (.project (.join l.1 r.1) (l.2 ++ r.2.filter fun v => decide (v ∉ lj.map lm.app)))
    | _, _ => none
  | _, _ => none

/-- `Query`: `header` is the form (SELECT or ASK), the dataset and the base IRI.  Other forms of queries are not accepted for imports. -/
structure Query (α : Type) where
  header : Nat
  pattern : Pat α

/-- `merge_queries` (queries.rs:754-808) -/
def mergeQueries (order : Pat α → List SVar) (left right : Query α) (jp : List (Nat × Nat)) (lc rc : List (Nat × α)) : Option (Query α) :=
  if left.header = right.header then (mergeProject order left.pattern right.pattern jp lc rc).map fun p => ⟨left.header, p⟩ else none

/-! ## Pushing constants, negation -/

/-- `push_constants_in_project_pattern` (queries.rs:810-827) -/
def pushProject (order : Pat α → List SVar) (p : Pat α) (constants : List (Nat × α)) : Option (Pat α) :=
  match p with
  | .project _ _ => (renameProject (standardize 'v' (order p) []) constants p).map fun x => .project x.1 x.2
  | _ => none

/-- `push_constants` (queries.rs:829-853) -/
def pushConstants (order : Pat α → List SVar) (q : Query α) (constants : List (Nat × α)) : Query α :=
  { q with pattern := (pushProject order q.pattern constants).getD q.pattern }

/-- `negate_project_pattern` (queries.rs:855-865, with `modify_outermost_projection`, 130-176) -/
def negatePattern : Pat α → Pat α
  | .project inner vs => .project (.filterExists false inner (.bgp [])) vs
  | .distinct inner => .distinct (negatePattern inner)
  | p => p

/-- `negate_query` (queries.rs:867-889) -/
def negateQuery (q : Query α) : Query α := { q with pattern := negatePattern q.pattern }

end Verif.Sq
