import Mathlib.Data.List.Basic
import Mathlib.Data.List.Nodup

/-!
# Global parameters

Model of `@parameter` declarations: `validate_parameters` (/repo/nemo/src/rule_model/programs.rs:317-379), `TransformationGlobal`
(/repo/nemo/src/rule_model/pipeline/transformations/global.rs), `Substitution` (/repo/nemo/src/rule_model/substitution.rs), `is_ground` and
`is_resolvable` (/repo/nemo/src/rule_model/components/term.rs:163-205, term/operation.rs:94-150).
-/

namespace Verif.Glob

/-- `Term` (/repo/nemo/src/rule_model/components/term.rs): global variables, other variables, ground terms, operations, and other terms with
subterms (functions, tuples, maps, aggregates).  Simplified: the distinct variables of aggregates are left out. -/
inductive Tm (α : Type) where
  | global (g : Nat)
  | var (v : Nat)
  | ground (a : α)
  | op (f : Nat) (args : List (Tm α))
  | other (f : Nat) (args : List (Tm α))
deriving Repr

variable {α : Type}

mutual
/-- `is_ground` (term.rs:163-172, operation.rs:96-98, function.rs:121-123, aggregate.rs:191-193, primitive.rs:88-93) -/
def Tm.isGround : Tm α → Bool
  | .global _ => false
  | .var _ => false
  | .ground _ => true
  | .op _ args => allGround args
  | .other _ args => allGround args
def allGround : List (Tm α) → Bool
  | [] => true
  | t :: ts => t.isGround && allGround ts
end

mutual
/-- `variables`, only the global ones -/
def Tm.globals : Tm α → List Nat
  | .global g => [g]
  | .var _ => []
  | .ground _ => []
  | .op _ args => allGlobals args
  | .other _ args => allGlobals args
def allGlobals : List (Tm α) → List Nat
  | [] => []
  | t :: ts => t.globals ++ allGlobals ts
end

mutual
/-- `variables`, only those that are not global -/
def Tm.vars : Tm α → List Nat
  | .global _ => []
  | .var v => [v]
  | .ground _ => []
  | .op _ args => allVars args
  | .other _ args => allVars args
def allVars : List (Tm α) → List Nat
  | [] => []
  | t :: ts => t.vars ++ allVars ts
end

/-- `Substitution` (substitution.rs:20-23), a map from global variables to terms -/
abbrev Subst (α : Type) := List (Nat × Tm α)

/-- `map.get` (substitution.rs:57) -/
def Subst.get (s : Subst α) (g : Nat) : Option (Tm α) := (s.find? fun x => x.1 == g).map (·.2)

mutual
/-- `apply` (substitution.rs:51-61): each primitive subterm is replaced -/
def Subst.apply (s : Subst α) : Tm α → Tm α
  | .global g => (s.get g).getD (.global g)
  | .var v => .var v
  | .ground a => .ground a
  | .op f args => .op f (s.applyAll args)
  | .other f args => .other f (s.applyAll args)
def Subst.applyAll (s : Subst α) : List (Tm α) → List (Tm α)
  | [] => []
  | t :: ts => s.apply t :: s.applyAll ts
end

/-- The meaning of operations and of other terms on values; operations are partial. -/
structure Meaning (α : Type) where
  op : Nat → List α → Option α
  other : Nat → List α → Option α

mutual
/-- The value of a term under the values `γ` of global variables and `σ` of other variables (`reduce`, term.rs:178-187, operation.rs:105-125) -/
def Tm.eval (I : Meaning α) (γ σ : Nat → Option α) : Tm α → Option α
  | .global g => γ g
  | .var v => σ v
  | .ground a => some a
  | .op f args => (evalAll I γ σ args).bind (I.op f)
  | .other f args => (evalAll I γ σ args).bind (I.other f)
def evalAll (I : Meaning α) (γ σ : Nat → Option α) : List (Tm α) → Option (List α)
  | [] => some []
  | t :: ts => (t.eval I γ σ).bind fun a => (evalAll I γ σ ts).map (a :: ·)
end

/-- No variables have values. -/
def noValues : Nat → Option α := fun _ => none

mutual
/-- `is_resolvable` (term.rs:194-205, operation.rs:133-149, function.rs:150-152, aggregate.rs:217-219, primitive.rs:106-108) -/
def Tm.isResolvable (I : Meaning α) : Tm α → Bool
  | .global _ => false
  | .var _ => false
  | .ground _ => true
  | .op f args =>
    if allGround args then ((Tm.op f args).eval I noValues noValues).isSome else opResolvable I args
  | .other _ args => allResolvable I args
/-- The loop over the subterms of an operation (operation.rs:138-146) -/
def opResolvable (I : Meaning α) : List (Tm α) → Bool
  | [] => true
  | t :: ts => (!t.globals.isEmpty || t.isResolvable I) && opResolvable I ts
def allResolvable (I : Meaning α) : List (Tm α) → Bool
  | [] => true
  | t :: ts => t.isResolvable I && allResolvable I ts
end

/-! ## Declarations -/

/-- `ParameterDeclaration` (parameter.rs:25-37): the variable and its expression -/
structure Param (α : Type) where
  name : Nat
  expression : Option (Tm α)

/-- A loop over all parameters that is repeated until nothing is added (programs.rs:341-365, global.rs:51-74), with at most `n` rounds; `none` if
more rounds are needed -/
def untilStable {σ π : Type} (size : σ → Nat) (step : σ → π → σ) (ps : List π) : Nat → σ → Option σ
  | 0, _ => none
  | n + 1, s => let s' := ps.foldl step s
    if size s' = size s then some s' else untilStable size step ps n s'

/-- The errors of `validate_parameters` -/
inductive PError where
  | redefinition (g : Nat)
  | missing (g : Nat)
  | cyclic (g : Nat)
deriving DecidableEq, Repr

/-- The first loop (programs.rs:325-337): the errors, the names that are defined, and whether the function returns.  `definitions` are the names of the
previous parameters, `external` those that are given from outside. -/
def declare (external : List Nat) : List (Param α) → List Nat → List Nat → List PError → List PError × List Nat × Bool
  | [], _, defined, errors => (errors, defined, false)
  | p :: ps, definitions, defined, errors =>
    if p.name ∈ definitions then (errors ++ [.redefinition p.name], defined, true)
    else if p.expression.isNone ∧ p.name ∉ external then
      declare external ps (p.name :: definitions) (p.name :: defined) (errors ++ [.missing p.name])
    else declare external ps (p.name :: definitions) defined errors

/-- One step of the second loop (programs.rs:342-358) -/
def defineStep (defined : List Nat) (p : Param α) : List Nat :=
  if p.name ∈ defined then defined
  else match p.expression with
    | some e => if e.globals.all (· ∈ defined) then p.name :: defined else defined
    | none => defined

/-- `validate_parameters` (programs.rs:317-379); `none` if the loop does not end -/
def validateParameters (external : List Nat) (ps : List (Param α)) : Option (List PError) :=
  let d := declare external ps [] external []
  if d.2.2 then some d.1
  else (untilStable List.length defineStep ps (ps.length + 1) d.2.1).map fun defined =>
    match ps.find? fun p => p.expression.isSome && decide (p.name ∉ defined) with
    | some p => d.1 ++ [.cyclic p.name]
    | none => d.1

/-- One step of the loop of `subsitution` (global.rs:52-67).  `ground_set` is the set of variables of the substitution. -/
def substStep (s : Subst α) (p : Param α) : Subst α :=
  if (s.get p.name).isSome then s
  else match p.expression with
    | none => s
    | some e => if (s.apply e).isGround then (p.name, s.apply e) :: s else s

/-- `subsitution` (global.rs:36-75); the values that are given from outside are a map -/
def substitution (external : List (Nat × α)) (ps : List (Param α)) : Option (Subst α) :=
  untilStable List.length substStep ps (ps.length + 1) (external.map fun x => (x.1, .ground x.2))

/-! ## The transformation -/

/-- A statement: a parameter, or another one with the terms that occur in it -/
inductive GStmt (α : Type) where
  | parameter (p : Param α)
  | statement (terms : List (Tm α))

/-- `TransformationGlobal::apply` (global.rs:79-100) for one statement -/
def GStmt.apply (s : Subst α) : GStmt α → GStmt α
  | .parameter p => .parameter p
  | .statement ts => if (allGlobals ts).isEmpty then .statement ts else .statement (s.applyAll ts)

/-- `parameters` (programs.rs:104-109) -/
def parameters (ss : List (GStmt α)) : List (Param α) := ss.filterMap fun
  | .parameter p => some p
  | .statement _ => none

/-- `TransformationGlobal::apply` (global.rs:79-100) -/
def transform (external : List (Nat × α)) (ss : List (GStmt α)) : Option (List (GStmt α)) :=
  (substitution external (parameters ss)).map fun s => ss.map (GStmt.apply s)

/-- The check for variables in `Fact::validate` (/repo/nemo/src/rule_model/components/fact.rs:207-210) -/
def factValid (ts : List (Tm α)) : Bool := ts.all fun t => t.vars.isEmpty

/-- `normalize_fact` (/repo/nemo/src/execution/planning/normalization/atom/ground.rs:80-98): `none` is a panic, `some none` is a fact that is left
out because a value is undefined.  Terms that are neither primitive nor operations are rejected before. -/
def normalizeFact (I : Meaning α) : List (Tm α) → Option (Option (List α))
  | [] => some (some [])
  | t :: ts =>
    if t.isGround then
      match t.eval I noValues noValues with
      | none => some none
      | some a => (normalizeFact I ts).map (Option.map (a :: ·))
    else none

end Verif.Glob
