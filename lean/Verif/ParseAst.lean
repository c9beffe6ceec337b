/-!
# The syntax trees of the rule language

The data that `nemo/src/parser/ast` builds from a program text, without the positions in the text.
-/
namespace Verif.Parse

/-- The texts that are parsed (`parser/input.rs:14-27`): positions in the original program text, which
`Span` also carries, are only used for messages and are left out. -/
abbrev Str := List Char

/-- `StructureTagKind` (`tag/structure.rs:18-39`). -/
inductive Tag where
  | plain (n : Str)
  | prefixed (p n : Str)
  | iri (s : Str)
deriving DecidableEq, Repr

/-- `ArithmeticOperation` (`arithmetic.rs:24-45`). -/
inductive AOp where
  | add | sub | mul | div
deriving DecidableEq, Repr

/-- `InfixExpressionKind` (`infix.rs:20-50`). -/
inductive IOp where
  | eq | ne | ge | gt | le | lt
deriving DecidableEq, Repr

/-- The named kinds of `VariableType` (`variable.rs:17-37`); anonymous variables have no name. -/
inductive VarKind where
  | universal | existential | global
deriving DecidableEq, Repr

/-- `Encoding` (`enc_number.rs:23-40`). -/
inductive Enc where
  | bin | oct | hex
deriving DecidableEq, Repr

/-- `Number` (`number.rs:96-115`): the parts of a numeric literal as they are written. -/
structure Num where
  /-- `integer_sign` is minus -/
  neg : Bool
  int : Str
  frac : Option Str
  /-- sign (minus?) and digits of the exponent -/
  exp : Option (Bool × Str)
  /-- type marker: `false` for `f`, `true` for `d` -/
  marker : Option Bool
deriving DecidableEq, Repr

/-- `FormatStringElement` (`fstring.rs:15-24`), with the expressions as a parameter. -/
inductive FEl (ε : Type) where
  | text (s : Str)
  | expr (e : ε)
  | openBrace
  | closeBrace
deriving DecidableEq, Repr

/-- `Expression` (`expression.rs:27-61`), without the source spans.  An aggregation also records the
name it was written with (`AggregationTag`, `tag/aggregation.rs:17-28`): `kind` is the canonical name
of the aggregate, `none` if it is not a known one. -/
inductive Ex where
  | aggregation (kind : Option Str) (e : Ex) (distinct : List Ex)
  | arithmetic (op : AOp) (l r : Ex)
  | atom (t : Tag) (args : List Ex)
  | blank (n : Str)
  | boolean (b : Bool)
  | constant (t : Tag)
  | formatString (els : List (FEl Ex))
  | map (t : Option Tag) (kvs : List (Ex × Ex))
  | negation (e : Ex)
  | number (n : Num)
  | encoded (enc : Enc) (ds : Str)
  | operation (k : Str) (args : List Ex)
  | parenthesized (e : Ex)
  | rdf (content : Str) (t : Tag)
  | string (content : Str) (lang : Option Str)
  | tuple (args : List Ex)
  | variable (k : VarKind) (n : Str)
  | anonymous

/-- `OperationKind::iter()` with `name()` (`operation_kind.rs:70-404`, names from `syntax.rs:206-340`),
in the order in which the enumeration lists them. -/
def opTable : List Str :=
  ["EQUALITY", "UNEQUALITY", "SUM", "SUBTRACTION", "PRODUCT", "DIVISION", "LOG", "POW", "REM",
   "NUMGREATEREQ", "NUMGREATER", "NUMLESSEQ", "NUMLESS", "COMPARE", "CONTAINS", "REGEX", "SUBSTR",
   "STRBEFORE", "STRAFTER", "STRSTARTS", "STRENDS", "LEVENSHTEIN", "NOT", "DOUBLE", "FLOAT", "INT",
   "IRI", "fullStr", "isInteger", "isFloat", "isDouble", "isIri", "isNumeric", "isNull", "isString",
   "DATATYPE", "STRLANG", "LANG", "ABS", "COS", "CEIL", "FLOOR", "INVERTSIGN", "ROUND", "SIN",
   "SQRT", "TAN", "STRLEN", "STRREV", "LCASE", "UCASE", "URIENCODE", "URIDECODE", "BITAND", "BITOR",
   "BITXOR", "BITSHL", "BITSHRU", "BITSHR", "AND", "OR", "MIN", "MAX", "LUKA", "CONCAT",
   "STR"].map String.toList

/-- `AggregateKind::iter()` with `name()` (`aggregate.rs:38-60`, `syntax.rs:342-351`). -/
def aggTable : List Str := ["count", "min", "max", "sum"].map String.toList

/-- `Guard` (`guard.rs:16-22`). -/
inductive Guard where
  | expression (e : Ex)
  | compare (op : IOp) (l r : Ex)

/-- `ast::Rule` (`ast/rule.rs:17-30`). -/
structure RuleAst where
  head : List Guard
  body : List Guard

end Verif.Parse
