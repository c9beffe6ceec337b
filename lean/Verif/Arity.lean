import Mathlib.Data.List.Basic

/-!
# Arities of predicates

Model of `validate_arity` and `used_predicates` (/repo/nemo/src/rule_model/programs.rs:148-296), `TransformationActive`
(/repo/nemo/src/rule_model/pipeline/transformations/active.rs) and of the arities in `normalize_program`
(/repo/nemo/src/execution/planning/normalization/program.rs:86-107, 208-305).

Simplified: statements are given by their predicates and arities; the arity that an import or export declares itself (`expected_output_arity`,
`expected_arity`, import_export.rs:422-440) is part of the statement, and the one of imports is used for the input as well (there are no
filter rules before imports are filtered).  Parameters have no predicates and are left out.
-/

namespace Verif.Ar

/-- A statement: a fact, and whether all of its terms have values; a rule, with the predicates and arities of its head and its positive and negative body
atoms in order; an import or export with the arity that it declares, and an output -/
inductive St where
  | fact (p n : Nat) (defined : Bool)
  | rule (head body : List (Nat × Nat))
  | imprt (p : Nat) (arity : Option Nat)
  | exprt (p : Nat) (arity : Option Nat)
  | output (p : Nat)
deriving DecidableEq, Repr

/-- `facts` (programs.rs:87-93), with predicate, arity, and whether the terms have values -/
def factsOf (ss : List St) : List (Nat × Nat × Bool) := ss.filterMap fun
  | .fact p n d => some (p, n, d)
  | _ => none
/-- `rules` (programs.rs:79-85) -/
def rulesOf (ss : List St) : List (List (Nat × Nat) × List (Nat × Nat)) := ss.filterMap fun
  | .rule h b => some (h, b)
  | _ => none
/-- `imports` (programs.rs:63-69) -/
def importsOf (ss : List St) : List (Nat × Option Nat) := ss.filterMap fun
  | .imprt p a => some (p, a)
  | _ => none
/-- `exports` (programs.rs:71-77) -/
def exportsOf (ss : List St) : List (Nat × Option Nat) := ss.filterMap fun
  | .exprt p a => some (p, a)
  | _ => none
/-- `outputs` (programs.rs:95-101) -/
def outputsOf (ss : List St) : List Nat := ss.filterMap fun
  | .output p => some p
  | _ => none

/-- `insert` for a set of predicates -/
def insertSet (s : List Nat) (x : Nat) : List Nat := if x ∈ s then s else x :: s
/-- `extend` for a set of predicates -/
def extendSet (s : List Nat) (xs : List Nat) : List Nat := xs.foldl insertSet s

/-! ## Used predicates -/

/-- The body of the loop over the rules (programs.rs:159-167) -/
def usedStep (used : List Nat) (r : List (Nat × Nat) × List (Nat × Nat)) : List Nat :=
  if r.1.any (fun a => decide (a.1 ∈ used)) then extendSet used (r.2.map Prod.fst) else used

/-- The outer loop (programs.rs:158-174) with at most `n` rounds; `count` is `used_count`. -/
def usedLoop (rules : List (List (Nat × Nat) × List (Nat × Nat))) : Nat → Nat → List Nat → Option (List Nat)
  | 0, _, _ => none
  | n + 1, count, used =>
    let used' := rules.foldl usedStep used
    if used'.length = count then some used' else usedLoop rules n used'.length used'

/-- `used_predicates` (programs.rs:148-175) -/
def usedPredicates (ss : List St) : Option (List Nat) :=
  usedLoop (rulesOf ss) ((rulesOf ss).flatMap (·.2) |>.length.succ.succ.succ) 0
    (extendSet [] (outputsOf ss ++ (exportsOf ss).map Prod.fst ++ (factsOf ss).map Prod.fst))

/-! ## Validation -/

/-- The errors of `validate_arity` -/
inductive AErr where
  | inconsistent (p n : Nat)
  | unknown (p : Nat)
deriving DecidableEq, Repr

/-- The map `arities` and the report -/
abbrev AState := List (Nat × Nat) × List AErr

/-- The function `add` (programs.rs:211-244) -/
def addArity (s : AState) (p n : Nat) : AState :=
  match s.1.lookup p with
  | some m => if n ≠ m then (s.1, s.2 ++ [.inconsistent p n]) else s
  | none => ((p, n) :: s.1, s.2)

/-- The body of the loops over imports and exports (programs.rs:270-279, 285-294) -/
def addDirective (s : AState) (d : Nat × Option Nat) : AState :=
  match d.2 with
  | some n => addArity s d.1 n
  | none => if (s.1.lookup d.1).isNone then (s.1, s.2 ++ [.unknown d.1]) else s

/-- `validate_arity` (programs.rs:208-296) -/
def validateArity (ss : List St) : Option (List AErr) :=
  let s := (factsOf ss).foldl (fun s f => addArity s f.1 f.2.1) ([], [])
  let s := (rulesOf ss).foldl (fun s r => (r.1 ++ r.2).foldl (fun s a => addArity s a.1 a.2) s) s
  (usedPredicates ss).map fun used =>
    let s := (importsOf ss).foldl (fun s i => if i.1 ∉ used then s else addDirective s i) s
    let s := (exportsOf ss).foldl addDirective s
    s.2

/-! ## Active statements -/

/-- The body of the inner loop of `required` (active.rs:36-54); rules are given with their ids. -/
def requiredStep (s : List Nat × List Nat) (x : Nat × List (Nat × Nat) × List (Nat × Nat)) : List Nat × List Nat :=
  if x.1 ∈ s.2 then s
  else if x.2.1.any (fun a => decide (a.1 ∈ s.1)) then (extendSet s.1 (x.2.2.map Prod.fst), x.1 :: s.2)
  else s

/-- The outer loop of `required` (active.rs:32-55) with at most `n` rounds -/
def requiredLoop (rules : List (Nat × List (Nat × Nat) × List (Nat × Nat))) : Nat → Nat → List Nat × List Nat → Option (List Nat × List Nat)
  | 0, _, _ => none
  | n + 1, count, s => if count = s.1.length then some s else requiredLoop rules n s.1.length (rules.foldl requiredStep s)

/-- The rules of a program with the positions of their statements -/
def rulesAt : Nat → List St → List (Nat × List (Nat × Nat) × List (Nat × Nat))
  | _, [] => []
  | i, .rule h b :: ss => (i, h, b) :: rulesAt (i + 1) ss
  | i, _ :: ss => rulesAt (i + 1) ss

/-- `required` (active.rs:19-59); the id of a rule is the position of its statement. -/
def required (ss : List St) : Option (List Nat × List Nat) :=
  requiredLoop (rulesAt 0 ss) ((rulesOf ss).flatMap (·.2) |>.length.succ.succ.succ) 0 (extendSet [] (outputsOf ss ++ (exportsOf ss).map Prod.fst), [])

/-- The choice of a statement (active.rs:68-89) -/
def keepStatement (preds ids : List Nat) (i : Nat) : St → Bool
  | .rule _ _ => decide (i ∈ ids)
  | .fact p _ _ => decide (p ∈ preds)
  | .imprt p _ => decide (p ∈ preds)
  | _ => true

/-- The loop over the statements -/
def keepFrom (preds ids : List Nat) : Nat → List St → List St
  | _, [] => []
  | i, s :: ss => if keepStatement preds ids i s then s :: keepFrom preds ids (i + 1) ss else keepFrom preds ids (i + 1) ss

/-- `TransformationActive::apply` (active.rs:62-93) -/
def active (ss : List St) : Option (List St) := (required ss).map fun r => keepFrom r.1 r.2 0 ss

/-! ## Normalization -/

/-- `add_predicate_arity` (program.rs:208-214): `none` is the panic. -/
def addPredicateArity (m : List (Nat × Nat)) (p n : Nat) : Option (List (Nat × Nat)) :=
  match m.lookup p with
  | some k => if k ≠ n then none else some ((p, n) :: m)
  | none => some ((p, n) :: m)

/-- One import or export (program.rs:277-302, import.rs:54-80, export.rs:54-76): the arity that it declares or else the known one, a panic if there is
none -/
def normDirective (m : List (Nat × Nat)) (d : Nat × Option Nat) : Option (List (Nat × Nat)) :=
  match d.2.or (m.lookup d.1) with
  | none => none
  | some n => addPredicateArity m d.1 n

/-- The arities in `normalize_program` (program.rs:245-302); facts with undefined terms are left out (program.rs:250-252). -/
def normalizeArities (ss : List St) : Option (List (Nat × Nat)) := do
  let m ← ((factsOf ss).filter fun f => f.2.2).foldlM (fun m f => addPredicateArity m f.1 f.2.1) []
  let m ← (rulesOf ss).foldlM (fun m r => (r.1 ++ r.2).foldlM (fun m a => addPredicateArity m a.1 a.2) m) m
  let m ← (importsOf ss).foldlM normDirective m
  (exportsOf ss).foldlM normDirective m

end Verif.Ar
