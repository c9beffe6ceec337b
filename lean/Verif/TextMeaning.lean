import Verif.Translate
import Verif.Source

/-!
# Specification: what a program text means

The meaning of a program, given directly on the syntax tree that is written (`Verif.ParseAst`,
`Verif.ParseStatement`): values of expressions for given values of the variables, rules that derive
facts, and the facts that hold.  Nothing here refers to the translation of `Verif.Translate` except
for the reading of numerals (`number`, `encoded`), for which see `Verif.PropTranslate`.

The domain `α` with its built-in functions is a parameter (`Dom`, functions are referred to by the
position of their name in the list of built-in functions); `el` is the element that a data value
stands for.
-/
namespace Verif.Tr
open Verif.Parse (Str Ex FEl VarKind AOp IOp Enc Guard RuleAst DirectiveAst KindAst StmtAst ProgramAst)

/-- Abbreviations: the base and the IRIs that prefixes stand for. -/
structure Names where
  base : Option Str
  pre : Str → Option Str

/-- `N` are the abbreviations that the statements declare, at whatever position. -/
structure Declared (ss : List StmtAst) (N : Names) : Prop where
  base : ∀ i, N.base = some i ↔ ∃ s ∈ ss, s.kind = .directive (.base i)
  pre : ∀ p i, N.pre p = some i ↔ ∃ s ∈ ss, s.kind = .directive (.prefixIs p i)

/-- The full name that a name stands for. -/
def Names.full (N : Names) : Parse.Tag → Option Str
  | .plain n => some (N.base.getD [] ++ n)
  | .prefixed p n => (N.pre p).map fun i => i ++ n
  | .iri i => some i

/-- The number of a built-in function. -/
def opCode (n : Str) : Nat := Parse.opTable.findIdx fun m => m == n

/-- The number of an aggregate function. -/
def aggCode (n : Str) : Nat := Parse.aggTable.findIdx fun m => m == n

/-- The function that an arithmetic operator stands for. -/
def arithmeticName : AOp → String
  | .add => "SUM"
  | .sub => "SUBTRACTION"
  | .mul => "PRODUCT"
  | .div => "DIVISION"

/-- The function that an ordering stands for; equality and inequality of values are not functions. -/
def orderName : IOp → Option String
  | .eq => none
  | .ne => some "UNEQUALITY"
  | .ge => some "NUMGREATEREQ"
  | .gt => some "NUMGREATER"
  | .le => some "NUMLESSEQ"
  | .lt => some "NUMLESS"

/-! ### Where variables occur -/

mutual
/-- The names of the (universal) variables in an expression, from left to right. -/
def varsOf : Ex → List Str
  | .variable .universal n => [n]
  | .aggregation _ e ds => varsOf e ++ varsOfAll ds
  | .arithmetic _ l r => varsOf l ++ varsOf r
  | .atom _ es => varsOfAll es
  | .operation _ es => varsOfAll es
  | .tuple es => varsOfAll es
  | .map _ kvs => varsOfEntries kvs
  | .negation e => varsOf e
  | .parenthesized e => varsOf e
  | .formatString fs => varsOfPieces fs
  | _ => []
/-- The variables of several expressions. -/
def varsOfAll : List Ex → List Str
  | [] => []
  | e :: es => varsOf e ++ varsOfAll es
/-- The variables of the entries of a map. -/
def varsOfEntries : List (Ex × Ex) → List Str
  | [] => []
  | p :: ps => varsOfEntry p ++ varsOfEntries ps
/-- The variables of an entry of a map. -/
def varsOfEntry : Ex × Ex → List Str
  | (k, v) => varsOf k ++ varsOf v
/-- The variables of the pieces of a format string. -/
def varsOfPieces : List (FEl Ex) → List Str
  | [] => []
  | f :: fs => varsOfPiece f ++ varsOfPieces fs
/-- The variables of a piece of a format string. -/
def varsOfPiece : FEl Ex → List Str
  | .expr e => varsOf e
  | _ => []
end

/-- The variables in a part of a rule. -/
def guardVars : Guard → List Str
  | .expression e => varsOf e
  | .compare _ l r => varsOf l ++ varsOf r

/-- An expression without its outer parentheses. -/
def bare : Ex → Ex
  | .parenthesized e => bare e
  | e => e

/-! ### Rules that are covered -/

mutual
/-- Expressions without existential variables, parameters, aggregates, negation and structured terms. -/
def PlainEx : Ex → Prop
  | .variable k _ => k = .universal
  | .parenthesized e => PlainEx e
  | .arithmetic _ l r => PlainEx l ∧ PlainEx r
  | .operation _ es => PlainExs es
  | .formatString fs => PlainPieces fs
  | .blank _ => True
  | .boolean _ => True
  | .constant _ => True
  | .number _ => True
  | .encoded _ _ => True
  | .rdf _ _ => True
  | .string _ _ => True
  | _ => False
/-- The same for several expressions. -/
def PlainExs : List Ex → Prop
  | [] => True
  | e :: es => PlainEx e ∧ PlainExs es
/-- The same for the pieces of a format string. -/
def PlainPieces : List (FEl Ex) → Prop
  | [] => True
  | f :: fs => PlainPiece f ∧ PlainPieces fs
/-- The same for a piece of a format string. -/
def PlainPiece : FEl Ex → Prop
  | .expr e => PlainEx e
  | _ => True
end

/-- An argument of a body atom is `_` or such an expression. -/
def PlainArg (e : Ex) : Prop := bare e = .anonymous ∨ PlainEx e

/-- The parts of a body contain such expressions only. -/
def PlainGuard : Guard → Prop
  | .expression (.atom _ es) => ∀ e ∈ es, PlainArg e
  | .expression (.negation (.atom _ es)) => ∀ e ∈ es, PlainArg e
  | .expression (.operation _ es) => PlainExs es
  | .expression _ => True
  | .compare _ l r => PlainEx l ∧ PlainEx r

/-- The name of an existential variable. -/
def existential : Ex → Option Str
  | .variable .existential n => some n
  | _ => none

/-- The function, the aggregated expression and the distinct variables of an aggregate. -/
def aggregate : Ex → Option (Str × Ex × List Ex)
  | .aggregation (some k) e ds => some (k, e, ds)
  | _ => none

/-- An argument of a head atom is a plain expression, an existential variable, or an aggregate of a plain expression. -/
def PlainHead (e : Ex) : Prop := PlainEx e ∨ (∃ n, existential (bare e) = some n) ∨
  ∃ k i ds, aggregate (bare e) = some (k, i, ds) ∧ PlainEx i ∧ ∀ d ∈ ds, ∃ n, d = .variable .universal n

/-- A rule without parameters and structured terms, with existential variables and aggregates only as arguments of
head atoms. -/
structure PlainRule (r : RuleAst) : Prop where
  body : ∀ g ∈ r.body, PlainGuard g
  head : ∀ t es, .expression (.atom t es) ∈ r.head → ∀ e ∈ es, PlainHead e

/-- The arguments of an atom. -/
def arguments : Guard → List Ex
  | .expression (.atom _ es) => es
  | _ => []

/-- The aggregates in the head of a rule. -/
def aggregates (r : RuleAst) : List (Str × Ex × List Ex) :=
  (r.head.flatMap arguments).filterMap fun e => aggregate (bare e)

/-- The rule has no existential variables. -/
def NoExistential (r : RuleAst) : Prop := ∀ e ∈ r.head.flatMap arguments, existential (bare e) = none

/-- The two sides of an equation. -/
def sides : Guard → Option (Ex × Ex)
  | .compare .eq l r => some (l, r)
  | .expression (.operation k [l, r]) => if k = "EQUALITY".toList then some (l, r) else none
  | _ => none

/-- The name of a universal variable. -/
def universal : Ex → Option Str
  | .variable .universal n => some n
  | _ => none

/-- The variable that an equation defines, if it is read as a definition of its left side or, if there is no
variable on its left side, of its right side. -/
def assignment (g : Guard) : Option (Str × Ex) :=
  match sides g with
  | none => none
  | some (l, r) => match universal (bare l) with
    | some n => some (n, r)
    | none => match universal (bare r) with
      | some n => some (n, l)
      | none => none

/-- The variables to which facts give a value: those that are arguments of positive atoms, and those
that are defined in terms of such variables. -/
inductive Bound (r : RuleAst) : Str → Prop
  | atom {t : Parse.Tag} {es : List Ex} {e : Ex} {n : Str} : .expression (.atom t es) ∈ r.body → e ∈ es →
      universal (bare e) = some n → Bound r n
  | assign {g : Guard} {n : Str} {e : Ex} : g ∈ r.body → assignment g = some (n, e) → (∀ m ∈ varsOf e, Bound r m) →
      Bound r n

/-- A part of a body that is no atom. -/
def IsCondition : Guard → Prop
  | .compare _ _ _ => True
  | .expression (.operation _ _) => True
  | _ => False

/-- A negated atom. -/
def IsNegated : Guard → Prop
  | .expression (.negation _) => True
  | _ => False

/-- The use of variables and aggregates.  All but `conditions` (for conditions that relate a variable that occurs in a negated atom only
to one that does not occur in this atom), `shared` and `aggregate` (for aggregates in different atoms) are checked by
the validation, and `names` is guaranteed by the parser. -/
structure Scoped (r : RuleAst) : Prop where
  names : ∀ g, g ∈ r.head ∨ g ∈ r.body → ∀ n ∈ guardVars g, n.head? ≠ some '_'
  conditions : ∀ g ∈ r.body, IsCondition g → (∀ n ∈ guardVars g, Bound r n) ∨
    ∃ t es, .expression (.negation (.atom t es)) ∈ r.body ∧ ∀ n ∈ guardVars g, ∃ e ∈ es, universal (bare e) = some n
  arguments : ∀ t es, .expression (.atom t es) ∈ r.body ∨ .expression (.negation (.atom t es)) ∈ r.body →
    ∀ e ∈ es, universal (bare e) = none → ∀ n ∈ varsOf e, Bound r n
  head : ∀ h ∈ r.head, ∀ n ∈ guardVars h, Bound r n
  negated : r.body.Pairwise fun g g' => IsNegated g → IsNegated g' → ∀ n ∈ guardVars g, n ∈ guardVars g' → Bound r n
  shared : ∀ t es, .expression (.negation (.atom t es)) ∈ r.body → ∃ e ∈ es, bare e ≠ .anonymous ∧ ∀ n ∈ varsOf e, Bound r n
  aggregate : (aggregates r).length ≤ 1 ∧ (aggregates r ≠ [] → NoExistential r)

section
variable {α : Type} [DecidableEq α] [Dom α] (L : Fn.Lib) (el : DV → α) (N : Names)

/-- The data value of a constant expression. -/
def constant : Ex → Option DV
  | .blank n => some (.iri (String.ofList n))
  | .boolean b => some (.bool b)
  | .constant t => (N.full t).map fun n => .iri (String.ofList n)
  | .number n => match number L n with
      | .ok v => some v
      | _ => none
  | .encoded e ds => some (encoded e ds)
  | .rdf s t => (N.full t).bind fun dt =>
      match Lit.typedLit L (String.ofList s) (String.ofList dt) with
      | .val v => some v
      | _ => none
  | .string s none => some (.str (String.ofList s))
  | .string s (some l) => some (.lang (String.ofList s) (L.lowerTag (String.ofList l)))
  | _ => none

/-- The truth value of an equality. -/
def equality (a b : α) : α := if a = b then Dom.tru else Dom.fls

/-- A function with this name is applied. -/
def apply (k : Str) : List α → Option α
  | [a, b] => if k = "EQUALITY".toList then some (equality a b) else Dom.app (opCode k) [a, b]
  | xs => Dom.app (opCode k) xs

mutual
/-- The value of an expression, if the variables have the values `ρ`; nothing if it is undefined or
if the expression is of another kind than those listed. -/
def value (ρ : Str → α) : Ex → Option α
  | .variable .universal n => some (ρ n)
  | .parenthesized e => value ρ e
  | .arithmetic o l r => do
      let a ← value ρ l
      let b ← value ρ r
      Dom.app (opCode (arithmeticName o).toList) [a, b]
  | .operation k es => do
      let xs ← values ρ es
      apply k xs
  | .formatString els => do
      let xs ← pieces ρ els
      Dom.app (opCode "CONCAT".toList) xs
  | .blank n => (constant L N (.blank n)).map el
  | .boolean b => (constant L N (.boolean b)).map el
  | .constant t => (constant L N (.constant t)).map el
  | .number n => (constant L N (.number n)).map el
  | .encoded e ds => (constant L N (.encoded e ds)).map el
  | .rdf s t => (constant L N (.rdf s t)).map el
  | .string s l => (constant L N (.string s l)).map el
  | _ => none
/-- The values of several expressions. -/
def values (ρ : Str → α) : List Ex → Option (List α)
  | [] => some []
  | e :: es => do
      let a ← value ρ e
      let as ← values ρ es
      some (a :: as)
/-- The values of the pieces of a format string. -/
def pieces (ρ : Str → α) : List (FEl Ex) → Option (List α)
  | [] => some []
  | f :: fs => do
      let a ← piece ρ f
      let as ← pieces ρ fs
      some (a :: as)
/-- The value of a piece of a format string: literal text stands for itself, the value of an
expression is turned into a string. -/
def piece (ρ : Str → α) : FEl Ex → Option α
  | .text s => some (el (.str (String.ofList s)))
  | .openBrace => some (el (.str "{"))
  | .closeBrace => some (el (.str "}"))
  | .expr e => do
      let a ← value ρ e
      Dom.app (opCode "STR".toList) [a]
end

/-- A value fits an argument of a body atom: everything fits `_`. -/
def Fits (ρ : Str → α) (e : Ex) (b : α) : Prop := bare e = .anonymous ∨ value L el N ρ e = some b

/-- Facts: for every (full) predicate name the rows that hold. -/
abbrev Facts (α : Type) := Str → List α → Prop

/-- A condition is true. -/
def Condition (ρ : Str → α) : Guard → Prop
  | .expression (.operation k es) => value L el N ρ (.operation k es) = some Dom.tru
  | .expression _ => False
  | .compare o l r => ∃ a b, value L el N ρ l = some a ∧ value L el N ρ r = some b ∧
      match orderName o with
      | none => a = b
      | some k => Dom.app (opCode k.toList) [a, b] = some Dom.tru

/-- One part of the body of the rule `r` is satisfied; positive atoms refer to `P`, negated atoms to `M`.
A negated atom says that no fact matches it, whatever the values of its local variables (those that are not bound by the rest of
the rule), among the values that satisfy the conditions on the local variables. -/
def Holds (r : RuleAst) (ρ : Str → α) (P M : Facts α) : Guard → Prop
  | .expression (.atom t es) =>
      ∃ n row, N.full t = some n ∧ P n row ∧ List.Forall₂ (Fits L el N ρ) es row
  | .expression (.negation (.atom t es)) =>
      ∃ n, N.full t = some n ∧ ¬ ∃ ρ' row, (∀ m, Bound r m → ρ' m = ρ m) ∧ M n row ∧ List.Forall₂ (Fits L el N ρ') es row ∧
        ∀ g ∈ r.body, IsCondition g → (∃ m ∈ varsOfAll es, m ∈ guardVars g ∧ ¬ Bound r m) → Condition L el N ρ' g
  | g => Condition L el N ρ g

/-- Every expression in the head and in the negated atoms of a rule has a value; instead of the value of an aggregate, this
refers to the value of the aggregated expression. -/
structure Defined (ρ : Str → α) (r : RuleAst) : Prop where
  head : ∀ t es, .expression (.atom t es) ∈ r.head → ∀ e ∈ es, existential (bare e) = none → aggregate (bare e) = none →
    value L el N ρ e ≠ none
  aggregated : ∀ t es, .expression (.atom t es) ∈ r.head → ∀ e ∈ es, ∀ k i ds, aggregate (bare e) = some (k, i, ds) →
    value L el N ρ i ≠ none
  negated : ∀ t es, .expression (.negation (.atom t es)) ∈ r.body →
    ∀ e ∈ es, bare e = .anonymous ∨ value L el N ρ e ≠ none

/-- The rule is applicable for the values `ρ` of its variables, where positive atoms refer to `P` and negated atoms to `M`.
Conditions on local variables belong to negated atoms. -/
def Applicable (r : RuleAst) (P M : Facts α) (ρ : Str → α) : Prop :=
  (∀ g ∈ r.body, (IsCondition g → ∀ n ∈ guardVars g, Bound r n) → Holds L el N r ρ P M g) ∧ Defined L el N ρ r

/-- `b` is the value of an argument in a head, if `x` is the value of the aggregate. -/
def HeadValue (ρ : Str → α) (x : α) (e : Ex) (b : α) : Prop := match aggregate (bare e) with
  | some _ => b = x
  | none => value L el N ρ e = some b

/-- The facts that a rule without existential variables derives, if `A` are the values for which it is applicable.  Head
atoms with an aggregate are derived for every group of values that give the same values to the other arguments of the atom: the
aggregate function is applied to the values of the aggregated expression (and of the distinct variables) in the group. -/
inductive DerivedBy (r : RuleAst) (A : (Str → α) → Prop) : Facts α
  | plain {ρ : Str → α} {t : Parse.Tag} {es : List Ex} {n : Str} {row : List α} : A ρ → .expression (.atom t es) ∈ r.head →
      (∀ e ∈ es, aggregate (bare e) = none) → N.full t = some n →
      List.Forall₂ (fun e b => value L el N ρ e = some b) es row → DerivedBy r A n row
  | aggregate {ρ : Str → α} {t : Parse.Tag} {es : List Ex} {e : Ex} {k : Str} {i : Ex} {ds : List Ex} {l : List (List α)} {x : α}
      {n : Str} {row : List α} : A ρ → .expression (.atom t es) ∈ r.head → e ∈ es → aggregate (bare e) = some (k, i, ds) →
      (∀ y, y ∈ l ↔ ∃ ρ', A ρ' ∧ (∀ e' ∈ es, aggregate (bare e') = none → value L el N ρ' e' = value L el N ρ e') ∧
        values L el N ρ' (i :: ds) = some y) →
      Dom.agg (aggCode k) l = some x → N.full t = some n → List.Forall₂ (HeadValue L el N ρ x) es row → DerivedBy r A n row

/-- The facts that a rule without existential variables derives from `P`, where negated atoms refer to `M`.  In rules with aggregates, all
atoms refer to `M`. -/
def Derived (r : RuleAst) (P M : Facts α) : Facts α := fun n row =>
  (aggregates r = [] ∧ DerivedBy L el N r (Applicable L el N r P M) n row) ∨
    (aggregates r ≠ [] ∧ DerivedBy L el N r (Applicable L el N r M M) n row)

/-- The facts that are written in a program. -/
def Stated (ss : List StmtAst) : Facts α := fun n row =>
  ∃ s ∈ ss, ∃ t es, s.kind = .fact (.expression (.atom t es)) ∧ N.full t = some n ∧
    List.Forall₂ (fun e b => ∀ ρ, value L el N ρ e = some b) es row

/-- `I` contains the stated facts, the imported facts `E` and everything that rules derive from it. -/
def Closed (ss : List StmtAst) (E M I : Facts α) : Prop :=
  (∀ n row, Stated L el N ss n row → I n row) ∧ (∀ n row, E n row → I n row) ∧
    ∀ s ∈ ss, ∀ r, s.kind = .rule r → ∀ n row, Derived L el N r I M n row → I n row

/-- `M` is what a program without existential variables means: the least set of facts that contains the stated facts, the imported
facts `E` and what the rules derive from it, with negation and aggregates referring to `M` itself. -/
def Meaning (ss : List StmtAst) (E M : Facts α) : Prop :=
  ∀ n row, M n row ↔ ∀ I, Closed L el N ss E M I → I n row

/-! ### Existential rules -/

/-- `b` is the value of an argument in the head of an existential rule, for the values `ε` of the existential variables. -/
def ExistsValue (ρ ε : Str → α) (e : Ex) (b : α) : Prop := match existential (bare e) with
  | some v => b = ε v
  | none => value L el N ρ e = some b

/-- There are values for the existential variables for which all atoms in the head of the rule are facts in `I`. -/
def HeadTrue (r : RuleAst) (I : Facts α) (ρ : Str → α) : Prop := ∃ ε : Str → α, ∀ t es, .expression (.atom t es) ∈ r.head →
  ∃ n row, N.full t = some n ∧ I n row ∧ List.Forall₂ (ExistsValue L el N ρ ε) es row

/-- `M` satisfies the program: it contains the stated facts, the imported facts `E`, what rules without existential
variables derive from it, and whenever an existential rule is applicable, its head is true for suitable values of the
existential variables. -/
structure Model (ss : List StmtAst) (E M : Facts α) : Prop where
  stated : ∀ n row, Stated L el N ss n row → M n row
  imported : ∀ n row, E n row → M n row
  rules : ∀ s ∈ ss, ∀ r, s.kind = .rule r → NoExistential r → ∀ n row, Derived L el N r M M n row → M n row
  existential : ∀ s ∈ ss, ∀ r, s.kind = .rule r → ¬ NoExistential r → ∀ ρ, Applicable L el N r M M ρ → HeadTrue L el N r M ρ

/-- The value of the expression does not depend on whether values are nulls: if nulls are replaced, the value is the same except
that nulls in it are replaced. -/
def NullStable (e : Ex) : Prop :=
  ∀ h : α → α, IsHom h → ∀ (ρ : Str → α) a, value L el N ρ e = some a → value L el N (h ∘ ρ) e = some (h a)

/-- Rules without negation and aggregates, and without conditions and expressions that distinguish nulls. -/
structure PositiveRule (r : RuleAst) : Prop where
  negation : ∀ g ∈ r.body, ¬ IsNegated g
  aggregate : aggregates r = []
  conditions : ∀ g ∈ r.body, IsCondition g → ∀ h : α → α, IsHom h → ∀ (ρ : Str → α) (P M : Facts α),
    Holds L el N r ρ P M g → Holds L el N r (h ∘ ρ) P M g
  body : ∀ t es, .expression (.atom t es) ∈ r.body → ∀ e ∈ es, bare e = .anonymous ∨ NullStable L el N e
  head : ∀ t es, .expression (.atom t es) ∈ r.head → ∀ e ∈ es, existential (bare e) = none → NullStable L el N e

end

/-- The atom `t(es)` is written in the program. -/
inductive Uses (ss : List StmtAst) (t : Parse.Tag) (es : List Ex) : Prop
  | fact {s : StmtAst} : s ∈ ss → s.kind = .fact (.expression (.atom t es)) → Uses ss t es
  | head {s : StmtAst} {r : RuleAst} : s ∈ ss → s.kind = .rule r → .expression (.atom t es) ∈ r.head → Uses ss t es
  | body {s : StmtAst} {r : RuleAst} : s ∈ ss → s.kind = .rule r → .expression (.atom t es) ∈ r.body → Uses ss t es
  | negated {s : StmtAst} {r : RuleAst} : s ∈ ss → s.kind = .rule r → .expression (.negation (.atom t es)) ∈ r.body → Uses ss t es

/-- The programs that are covered: rules and facts without parameters and
structured terms, variables that are used as they should be, and predicates with a fixed number of arguments. -/
structure Covered (N : Names) (ss : List StmtAst) (arity : Str → Nat) : Prop where
  rules : ∀ s ∈ ss, ∀ r, s.kind = .rule r → PlainRule r ∧ Scoped r
  facts : ∀ s ∈ ss, ∀ t es, s.kind = .fact (.expression (.atom t es)) → ∀ e ∈ es, PlainEx e ∧ varsOf e = []
  arity : ∀ t es, Uses ss t es → ∀ n, N.full t = some n → es.length = arity n

/-- Negation and aggregation are stratified: there are levels for the predicates such that the heads of rules are above negated
atoms and not below other atoms, and the heads of rules with aggregates are above all atoms. -/
def Stratified (N : Names) (ss : List StmtAst) : Prop :=
  ∃ level : Str → Nat, ∀ s ∈ ss, ∀ r, s.kind = .rule r → ∀ t es n, .expression (.atom t es) ∈ r.head → N.full t = some n →
    (∀ t' es' m, .expression (.atom t' es') ∈ r.body → N.full t' = some m → level m ≤ level n) ∧
    (∀ t' es' m, .expression (.negation (.atom t' es')) ∈ r.body → N.full t' = some m → level m < level n) ∧
    (aggregates r ≠ [] → ∀ t' es' m, .expression (.atom t' es') ∈ r.body → N.full t' = some m → level m < level n)

/-- A variable, `_` or a constant. -/
def Primitive (e : Ex) : Prop := match bare e with
  | .arithmetic _ _ _ => False
  | .operation _ _ => False
  | .formatString _ => False
  | _ => True

/-- The head of an existential rule contains only existential variables, constants and variables that occur in positive
atoms.  (If there is a computed value in it, the program panics.) -/
def PlainExistential (r : RuleAst) : Prop := ∀ e ∈ r.head.flatMap arguments, (∃ n, existential (bare e) = some n) ∨
  (Primitive e ∧ varsOf e = []) ∨
  ∃ n, universal (bare e) = some n ∧ ∃ t es, .expression (.atom t es) ∈ r.body ∧ ∃ e' ∈ es, universal (bare e') = some n

/-- The name of the helper predicate for the rule with number `i` (/repo/nemo/src/execution/planning/
operations/restricted_head.rs:112-116). -/
def satisfiedName (i : Nat) : Str := ("_SATISFIED_" ++ toString i).toList

/-- The rule does not compute new values: there are computations in conditions only, they define no variable that
does not occur in a positive atom, and variables are aggregated. -/
structure NoNewValues (r : RuleAst) : Prop where
  head : ∀ t es, .expression (.atom t es) ∈ r.head → ∀ e ∈ es, Primitive e
  aggregated : ∀ k i ds, (k, i, ds) ∈ aggregates r → Primitive i
  negated : ∀ t es, .expression (.negation (.atom t es)) ∈ r.body → ∀ e ∈ es, Primitive e
  assign : ∀ g ∈ r.body, ∀ n e, assignment g = some (n, e) → Primitive e ∨
    ∃ t es, .expression (.atom t es) ∈ r.body ∧ ∃ e ∈ es, universal (bare e) = some n

end Verif.Tr
