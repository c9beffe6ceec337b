import Verif.PropFlatten

/-!
# Import clauses instead of imports

Model of `TransformationIncremental` (/repo/nemo/src/rule_model/pipeline/transformations/incremental.rs): SPARQL imports whose data is only
used in rule bodies that restrict it are removed from the program, and the atoms in rule bodies become import clauses, which fetch the
rows that are needed (see `ImportRule.lean` for their evaluation).
`PropIncremental.lean` shows under which conditions the results do not change (C59).
-/

set_option linter.unusedSimpArgs false
set_option linter.unusedSectionVars false

namespace Verif.Inc
open Verif
variable {α : Type}

/-! ## Names -/

/-- The name of a predicate (`Tag::name`, /repo/nemo/src/rule_model/components/tag.rs:41-43); predicates are represented by the codes of
their names. -/
def tagName (p : Tag) : String :=
  match Encodable.decode (α := List Nat) p with
  | some l => String.ofList (l.map Char.ofNat)
  | none => ""

/-- The anonymous variable as an element of a list of variables.  All anonymous variables are equal to each other, and different from all
variables with a name (`UniversalVariable::eq`, components/term/primitive/variable/universal.rs:95-99). -/
def anonVar : Variable := .universal (Encodable.encode [1114112])

/-- `new_variable` (incremental.rs:207-210) -/
def importVar (p : Tag) (i : Nat) : Variable := .named ("_VAR_IMPORT_" ++ tagName p ++ "_" ++ toString i)

/-- The predicate of `unique_import_directive` (incremental.rs:213-221) -/
def privTag (p : Tag) (id : Nat) : Tag := nameCode ("_" ++ tagName p ++ "_" ++ toString id)

/-! ## Programs -/

/-- `ImportDirective` (components/import_export.rs:166): the predicate, the endpoint for SPARQL imports (`none` for other formats).
`content` are the rows that the source contains. -/
structure Directive (α : Type) where
  pred : Tag
  endpoint : Option Nat
  content : List (List α)
deriving DecidableEq

/-- The statements of a program, with rules of type `ρ` (components/statement.rs:28-45).  Parameters are not used here; exports and
outputs are treated in the same way (incremental.rs:191-196). -/
inductive Stmt (α ρ : Type)
  | fact (pred : Tag) (row : List α)
  | rule (r : ρ)
  | imp (d : Directive α)
  | output (pred : Tag)

/-- `ImportLiteral` (components/import_export/clause.rs:20-32, 192-198).  `origin` is the predicate of the directive in the program, `pred` the
predicate of the copy. -/
structure Clause (α : Type) where
  positive : Bool
  origin : Tag
  pred : Tag
  content : List (List α)
  vars : List Variable

/-- A rule with import clauses (components/rule.rs:33-60) -/
structure CRule (α : Type) where
  base : WRule α
  clauses : List (Clause α)

/-! ## Which imports are turned into clauses -/

/-- The variables of a term (`IterableVariables for Term`, components/term.rs) -/
def termVars : BTerm α → List Variable
  | .var v => [v]
  | .anon => [anonVar]
  | .const _ => []
  | .oper o => o.vars

/-- The variables of an atom -/
def atomVariables (a : SAtom α) : List Variable := a.terms.flatMap termVars

/-- `Term::is_variable` (components/term.rs:137-139) -/
def isVar : BTerm α → Bool
  | .var _ => true
  | .anon => true
  | .const _ => false
  | .oper _ => false

/-- `incremental_predicates.contains_key` -/
def isInc (inc : List (Directive α)) (p : Tag) : Bool := inc.any fun d => decide (d.pred = p)

/-- One execution of the loop over the operations (incremental.rs:60-68) -/
def assignPass : List (Operation α) → List Variable → List Variable
  | [], av => av
  | o :: os, av =>
    match o.variableAssignment with
    | some (v, e) => if (∀ w ∈ e.vars, w ∈ av) ∧ v ∉ av then assignPass os (v :: av) else assignPass os av
    | none => assignPass os av

/-- The loop (incremental.rs:59-75); it ends after at most one pass more than there are operations -/
def assignLoop (os : List (Operation α)) : Nat → List Variable → List Variable
  | 0, av => av
  | n + 1, av => if (assignPass os av).length = av.length then assignPass os av else assignLoop os n (assignPass os av)

/-- `available_variables` (incremental.rs:51-75) -/
def available (r : WRule α) (inc : List (Directive α)) : List Variable :=
  assignLoop r.toS.operations (r.toS.operations.length + 1)
    ((r.toS.positive.filter fun a => !isInc inc a.pred).flatMap atomVariables)

/-- `restricted_atoms` and `available_after_merge` (incremental.rs:79-80) -/
structure Restr where
  done : List Nat
  after : List (Tag × Variable)

/-- The check for one atom (incremental.rs:92-120): the new state, and whether `change` was set. -/
def restrAtom (inc : List (Directive α)) (av : List Variable) (x : SAtom α × Nat) (s : Restr) : Restr × Bool :=
  if x.2 ∈ s.done then (s, false)
  else if !isInc inc x.1.pred then ({ s with done := x.2 :: s.done }, false)
  else if x.1.terms.any fun t => !isVar t then ({ s with done := x.2 :: s.done }, false)
  else if (atomVariables x.1).any fun v => decide (v ∈ av) || decide ((x.1.pred, v) ∈ s.after) then
    (⟨x.2 :: s.done, (atomVariables x.1).map (fun v => (x.1.pred, v)) ++ s.after⟩, true)
  else (s, false)

/-- The loop over the positive atoms (incremental.rs:86-121) -/
def restrPass (inc : List (Directive α)) (av : List Variable) : List (SAtom α × Nat) → Restr → Bool → Restr × Bool
  | [], s, c => (s, c)
  | x :: xs, s, c => let y := restrAtom inc av x s; restrPass inc av xs y.1 (c || y.2)

/-- The loop (incremental.rs:83-122).  Each pass but the last one adds an index to `done`. -/
def restrLoop (inc : List (Directive α)) (av : List Variable) (atoms : List (SAtom α × Nat)) : Nat → Restr → Restr
  | 0, s => s
  | n + 1, s =>
    let y := restrPass inc av atoms s false
    if y.2 then restrLoop inc av atoms n y.1 else y.1

/-- `has_unrestricted_atom` (incremental.rs:47-125) -/
def hasUnrestricted (r : WRule α) (inc : List (Directive α)) : Bool :=
  decide ((restrLoop inc (available r inc) r.toS.positive.zipIdx (r.toS.positive.length + 1) ⟨[], []⟩).done.length ≠ r.toS.positive.length)

/-- `possible_rule` (incremental.rs:128-137) -/
def possibleRule (r : WRule α) (inc : List (Directive α)) : Bool :=
  if r.toS.positive.all fun a => !isInc inc a.pred then false else !hasUnrestricted r inc

/-- The loop over the imports (incremental.rs:153-171): the map and `normal_predicates` -/
def importPass : List (Stmt α (WRule α)) → List (Directive α) × List Tag → List (Directive α) × List Tag
  | [], s => s
  | .imp d :: ss, s =>
    match d.endpoint with
    | some _ => importPass ss (s.1.filter (fun d' => decide (d'.pred ≠ d.pred)) ++ [d], if isInc s.1 d.pred then d.pred :: s.2 else s.2)
    | none => importPass ss (s.1, d.pred :: s.2)
  | _ :: ss, s => importPass ss s

/-- `retain` (incremental.rs:173, 201) -/
def retain (inc : List (Directive α)) (normal : List Tag) : List (Directive α) := inc.filter fun d => decide (d.pred ∉ normal)

/-- The predicates that a statement makes normal (incremental.rs:175-199) -/
def normalOf (inc : List (Directive α)) : Stmt α (WRule α) → List Tag
  | .fact p _ => [p]
  | .rule r => r.head.map (·.pred) ++ (if possibleRule r inc then [] else r.toS.positive.map (·.pred))
  | .imp _ => []
  | .output p => [p]

/-- `incremental_predicates` (incremental.rs:143-204) -/
def incrementalPredicates (ss : List (Stmt α (WRule α))) : List (Directive α) :=
  let s := importPass ss ([], [])
  retain (retain s.1 s.2) (s.2 ++ ss.flatMap (normalOf (retain s.1 s.2)))

/-! ## The new rules -/

/-- The loop over the terms of an atom (incremental.rs:243-253): the variables of the clause -/
def clauseVars (p : Tag) : List (BTerm α) → Nat → List Variable
  | [], _ => []
  | .var v :: ts, i => v :: clauseVars p ts (i + 1)
  | .anon :: ts, i => anonVar :: clauseVars p ts (i + 1)
  | .const _ :: ts, i => importVar p i :: clauseVars p ts (i + 1)
  | .oper _ :: ts, i => importVar p i :: clauseVars p ts (i + 1)

/-- The loop over the terms of an atom (incremental.rs:243-253): `computed_terms` -/
def computed (p : Tag) : List (BTerm α) → Nat → List (Variable × Operation α)
  | [], _ => []
  | .var _ :: ts, i => computed p ts (i + 1)
  | .anon :: ts, i => computed p ts (i + 1)
  | .const a :: ts, i => (importVar p i, .const a) :: computed p ts (i + 1)
  | .oper o :: ts, i => (importVar p i, o) :: computed p ts (i + 1)

/-- The clause for an atom (incremental.rs:255-265), and the next number for names (incremental.rs:213-221) -/
def clauseFor (derived : List Tag) (d : Directive α) (positive : Bool) (a : SAtom α) (id : Nat) : Clause α × Nat :=
  if d.pred ∈ derived then (⟨positive, d.pred, d.pred, d.content, clauseVars a.pred a.terms 0⟩, id)
  else (⟨positive, d.pred, privTag d.pred id, d.content, clauseVars a.pred a.terms 0⟩, id + 1)

/-- The result of the loop over the body (incremental.rs:236-275) -/
structure IncBody (α : Type) where
  kept : List (LLit α)
  clauses : List (Clause α)
  terms : List (Variable × Operation α)
  id : Nat

/-- The loop over the body (incremental.rs:236-275) -/
def incBody (inc : List (Directive α)) (derived : List Tag) : List (LLit α) → Nat → IncBody α
  | [], id => ⟨[], [], [], id⟩
  | .positive a :: ls, id =>
    match inc.find? fun d => decide (d.pred = a.pred) with
    | some d =>
      let c := clauseFor derived d true a id
      let r := incBody inc derived ls c.2
      ⟨r.kept, c.1 :: r.clauses, computed a.pred a.terms 0 ++ r.terms, r.id⟩
    | none => let r := incBody inc derived ls id; ⟨.positive a :: r.kept, r.clauses, r.terms, r.id⟩
  | .negative a :: ls, id =>
    match inc.find? fun d => decide (d.pred = a.pred) with
    | some d =>
      let c := clauseFor derived d false a id
      let r := incBody inc derived ls c.2
      ⟨r.kept, c.1 :: r.clauses, computed a.pred a.terms 0 ++ r.terms, r.id⟩
    | none => let r := incBody inc derived ls id; ⟨.negative a :: r.kept, r.clauses, r.terms, r.id⟩
  | .operation o :: ls, id => let r := incBody inc derived ls id; ⟨.operation o :: r.kept, r.clauses, r.terms, r.id⟩

/-- `incremental_rule` (incremental.rs:225-287) -/
def incRule (inc : List (Directive α)) (derived : List Tag) (r : WRule α) (id : Nat) : CRule α × Nat :=
  let b := incBody inc derived r.body id
  (⟨⟨r.head, b.kept ++ b.terms.map fun x => .operation (equality x)⟩, b.clauses⟩, b.id)

/-- `ProgramRead::derived_predicates` (rule_model/programs.rs:137-145) -/
def derivedPreds : List (Stmt α (WRule α)) → List Tag
  | [] => []
  | .fact p _ :: ss => p :: derivedPreds ss
  | .rule r :: ss => r.head.map (·.pred) ++ derivedPreds ss
  | _ :: ss => derivedPreds ss

/-- The endpoints of the incremental predicates in the body (incremental.rs:306-309); there is one import for each of them -/
def bodyEndpoints (inc : List (Directive α)) (r : WRule α) : List (Option Nat) :=
  ((inc.filter fun d => (r.toS.positive ++ r.toS.negative).any fun a => decide (a.pred = d.pred)).map (·.endpoint)).dedup

/-- The loop of `TransformationIncremental::apply` (incremental.rs:303-333) -/
def incStmts (inc : List (Directive α)) (derived : List Tag) : List (Stmt α (WRule α)) → Nat → List (Stmt α (CRule α))
  | [], _ => []
  | .rule r :: ss, id =>
    if (bodyEndpoints inc r).length = 1 then
      let x := incRule inc derived r id
      .rule x.1 :: incStmts inc derived ss x.2
    else .rule ⟨r, []⟩ :: incStmts inc derived ss id
  | .imp d :: ss, id => if isInc inc d.pred then incStmts inc derived ss id else .imp d :: incStmts inc derived ss id
  | .fact p row :: ss, id => .fact p row :: incStmts inc derived ss id
  | .output p :: ss, id => .output p :: incStmts inc derived ss id

/-- `TransformationIncremental::apply` (incremental.rs:290-336) -/
def incProgram (ss : List (Stmt α (WRule α))) : List (Stmt α (CRule α)) :=
  incStmts (incrementalPredicates ss) (derivedPreds ss) ss 0

/-! ## Specification: the meaning of programs with imports -/

/-- The given facts: the facts of the program and the rows of the imports -/
def given {ρ : Type} (ss : List (Stmt α ρ)) : Interp α := fun p row =>
  .fact p row ∈ ss ∨ ∃ d : Directive α, .imp d ∈ ss ∧ d.pred = p ∧ row ∈ d.content

/-- The rules of a program -/
def rulesOf {ρ : Type} (ss : List (Stmt α ρ)) : List ρ := ss.filterMap fun | .rule r => some r | _ => none

/-- An import clause as an atom -/
def Clause.atom (c : Clause α) : SAtom α := ⟨c.pred, c.vars.map .var⟩

/-- The rule where import clauses are ordinary atoms -/
def CRule.toS (r : CRule α) : SRule α :=
  { r.base.toS with
    positive := r.base.toS.positive ++ (r.clauses.filter (·.positive)).map Clause.atom
    negative := r.base.toS.negative ++ (r.clauses.filter fun c => !c.positive).map Clause.atom }

/-- The facts that a rule with import clauses sees: the predicate of an import clause contains the rows of the source. -/
def CRule.load (r : CRule α) (I : Interp α) : Interp α := fun p row =>
  (∃ c ∈ r.clauses, c.pred = p ∧ row ∈ c.content) ∨ ((∀ c ∈ r.clauses, c.pred ≠ p) ∧ I p row)

section
variable [DecidableEq α] [Dom α]

/-- The facts that a rule with import clauses derives -/
def CDerives (r : CRule α) (P N : Interp α) : Interp α := SDerives r.toS (r.load P) (r.load N)

/-- as `SClosedUnder` -/
def CClosedUnder (rules : List (CRule α)) (edb N I : Interp α) : Prop := edb.le I ∧ ∀ r ∈ rules, (CDerives r I N).le I

/-- as `SLeastModel` -/
def CLeastModel (rules : List (CRule α)) (edb N : Interp α) : Interp α := fun p row => ∀ I, CClosedUnder rules edb N I → I p row

/-- The meaning of a program whose rules have import clauses: a stable model -/
def CIsStable (rules : List (CRule α)) (edb M : Interp α) : Prop := M = CLeastModel rules edb M

end

/-! ## Conditions -/

/-- A variable that does not have one of the names of the transformation -/
def Ordinary (v : Variable) : Prop := v ≠ anonVar ∧ ∀ p i, v ≠ importVar p i

/-- Conditions on a rule, where `I` are the predicates that become import clauses.
* `ordinary` and `names` hold for all programs that can be written, `operSafe` is checked by the validation
* `unique`: no two atoms have different constants or expressions at the same position of the same predicate
* `anonOnce`, `anonPos`, `anonNeg`: at most one anonymous variable in these atoms, except that there may be one in each negated atom -/
structure Convertible (r : WRule α) (I : Tag → Prop) : Prop where
  ordinary : ∀ v ∈ r.toS.vars, Ordinary v
  operSafe : ∀ a ∈ r.toS.positive ++ r.toS.negative, ∀ o, .oper o ∈ a.terms → ∀ v ∈ o.vars, SSafe r.toS v
  names : ∀ a ∈ r.toS.positive ++ r.toS.negative, I a.pred → ∃ s, a.pred = nameCode s
  unique : ∀ a ∈ r.toS.positive ++ r.toS.negative, ∀ b ∈ r.toS.positive ++ r.toS.negative, I a.pred → a.pred = b.pred → ∀ (i : Nat) t t',
    a.terms[i]? = some t → b.terms[i]? = some t' → isVar t = false → isVar t' = false → t = t'
  anonOnce : ∀ a ∈ r.toS.positive ++ r.toS.negative, I a.pred → ∀ i j : Nat, a.terms[i]? = some .anon → a.terms[j]? = some .anon → i = j
  anonPos : ∀ a ∈ r.toS.positive, ∀ b ∈ r.toS.positive, I a.pred → I b.pred → .anon ∈ a.terms → .anon ∈ b.terms → a = b
  anonNeg : ∀ a ∈ r.toS.positive, ∀ b ∈ r.toS.negative, I a.pred → I b.pred → .anon ∈ a.terms → .anon ∉ b.terms

end Verif.Inc
