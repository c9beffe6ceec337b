import Verif.ParseStatement
import Verif.Literals

/-!
# From syntax trees to the rule model

Function by function model of `nemo/src/rule_model/translation.rs` and of the files in
`nemo/src/rule_model/translation`, which turn the syntax trees of `Verif.ParseAst` and
`Verif.ParseStatement` into the facts, rules and directives that are validated and executed.

Components keep no positions in the text and no identifiers (`Origin`, `ProgramComponentId`), and
errors keep no hints and no position.
-/
namespace Verif.Tr
open Verif.Parse (Str Ex FEl VarKind AOp IOp Enc Guard RuleAst DirectiveAst KindAst StmtAst ProgramAst)

/-- `TranslationError` (`translation_error.rs:17-134`).  None of them is a warning. -/
inductive Err where
  | headNonAtom | bodyNonLiteral | prefixUnknown (p : Str) | negatedNonAtom | dataValue
  | aggregationUnknown | aggregationDistinctNonVariable | innerNegation
  | directiveUnknown (n : Str) | baseRedefinition | prefixRedefinition (p : Str)
  | attributeUnknown (n : Str) | attributeUnexpected (n : Str) | attributeRedefined (n : Str)
  | attributeParameterCount (found : Nat) | attributeWrongType | attributeWrongComponent
  | directiveNonOperation | expressionAsFact | keyWrongType | paramNotGlobal | unsupportedDeclare
deriving DecidableEq, Repr

/-- The result of `build_component` (`translation.rs:199-202`): `None` is always returned together
with exactly one new error in the report. -/
inductive Res (α : Type) where
  | ok (a : α)
  | err (e : Err)
  | panic
deriving DecidableEq, Repr

/-- The operator `?`. -/
def Res.bind {α β : Type} : Res α → (α → Res β) → Res β
  | .ok a, f => f a
  | .err e, _ => .err e
  | .panic, _ => .panic

instance : Monad Res where
  pure := .ok
  bind := Res.bind

/-- `Variable` of the rule model (`components/term/primitive/variable.rs:30-39`). -/
inductive RVar where
  | named (k : VarKind) (n : Str)
  | anon
deriving DecidableEq, Repr

/-- `Term` of the rule model (`components/term.rs:47-61`). -/
inductive Term where
  | const (v : DV)
  | var (v : RVar)
  | agg (kind : Str) (t : Term) (distinct : List RVar)
  | fn (tag : Str) (ts : List Term)
  | map (tag : Option Str) (kvs : List (Term × Term))
  | op (kind : Str) (ts : List Term)
  | tuple (ts : List Term)

/-- `Atom` and `Fact` (`components/atom.rs:26-37`, `fact.rs:33-43`). -/
structure Atom where
  pred : Str
  terms : List Term

/-- `Literal` (`components/literal.rs:18-26`); an operation is its kind and its terms. -/
inductive Literal where
  | pos (a : Atom)
  | neg (a : Atom)
  | oper (kind : Str) (ts : List Term)

/-- `Rule` (`components/rule.rs:45-63`). -/
structure Rule where
  name : Option Str
  display : Option Term
  head : List Atom
  body : List Literal

/-- `ImportDirective` and `ExportDirective` (`components/import_export.rs`): predicate, format, the
parameters with their names and the bindings. -/
structure Io where
  pred : Str
  format : Str
  attributes : List (Str × Term)
  bindings : List (Str × List Term)

/-- What `ProgramWrite` adds to a program (`programs.rs`): the statements in their order. -/
inductive Item where
  | fact (a : Atom)
  | rule (r : Rule)
  | importFrom (d : Io)
  | exportTo (d : Io)
  | output (p : Str)
  | param (n : Str) (t : Option Term)

/-- `prefix_mapping` and `base` (`translation.rs:39-42`). -/
structure Ctx where
  prefixes : List (Str × Str)
  base : Option Str

/-- `resolve_tag` (`translation.rs:119-149`). -/
def resolveTag (c : Ctx) : Parse.Tag → Res Str
  | .plain n => .ok (match c.base with
      | some b => b ++ n
      | none => n)
  | .prefixed p n => match c.prefixes.lookup p with
      | some e => .ok (e ++ n)
      | none => .err (.prefixUnknown p)
  | .iri s => .ok s

/-! ### Literals -/

/-- `number_string` (`number.rs:100-116`). -/
def numText (n : Parse.Num) : Str :=
  (if n.neg then '-' else '+') :: n.int
    ++ (match n.frac with | some f => '.' :: f | none => [])
    ++ (match n.exp with | some (m, d) => 'e' :: (if m then '-' else '+') :: d | none => [])

/-- `Number::value` (`number.rs:119-141`) and `NumberLiteral::build_component`
(`basic/number.rs:19-56`).  The texts are always well formed, so that parsing them as floating point
numbers succeeds; `Lib.parseF32` and `Lib.parseF64` return nothing exactly if the result is infinite,
where `expect` panics. -/
def number (L : Fn.Lib) (n : Parse.Num) : Res DV :=
  match Lit.fromStr Lit.i64 (numText n) with
  | .ok i => .ok (.long (Int64.ofInt i))
  | .error _ =>
    if n.marker = some false then
      match L.parseF32 (String.ofList (numText n)) with
      | some f => .ok (.float f)
      | none => .panic
    else
      match L.parseF64 (String.ofList (numText n)) with
      | some f => .ok (.double f)
      | none => .panic

/-- `Encoding::radix` (`enc_number.rs:34-42`). -/
def radix : Enc → Nat
  | .bin => 2
  | .oct => 8
  | .hex => 16

/-- `Encoding::print` (`enc_number.rs:20-32`). -/
def encText : Enc → Str
  | .bin => ['0', 'b']
  | .oct => ['0', 'o']
  | .hex => ['0', 'x']

/-- `EncodedNumber::value` (`enc_number.rs:86-102`) and `EncodedNumberLiteral::build_component`
(`basic/enc_number.rs:18-30`). -/
def encoded (e : Enc) (ds : Str) : DV :=
  match Fn.parseI64 (radix e) ds with
  | some i => .long i
  | none => match Fn.digits (radix e) ds 0 with
    | some n => .other (String.ofList (Nat.toDigits 10 n)) "xsd:integer"
    | none => .other (String.ofList (encText e ++ ds)) "xsd:integer"

/-- `RdfLiteral::build_component` (`basic/rdf.rs:21-36`). -/
def rdfLit (L : Fn.Lib) (c : Ctx) (s : Str) (t : Parse.Tag) : Res DV := do
  let dt ← resolveTag c t
  match Lit.typedLit L (String.ofList s) (String.ofList dt) with
  | .val v => .ok v
  | .undef => .err .dataValue
  | .panic => .panic

/-! ### Terms -/

/-- `arithmetic.rs:27-40`. -/
def aopKind : AOp → Str
  | .add => "SUM".toList
  | .sub => "SUBTRACTION".toList
  | .mul => "PRODUCT".toList
  | .div => "DIVISION".toList

/-- `infix.rs:27-44`. -/
def iopKind : IOp → Str
  | .eq => "EQUALITY".toList
  | .ne => "UNEQUALITY".toList
  | .ge => "NUMGREATEREQ".toList
  | .gt => "NUMGREATER".toList
  | .le => "NUMLESSEQ".toList
  | .lt => "NUMLESS".toList

/-- The loop over the distinct variables (`aggregation.rs:34-47`). -/
def distinctVars : List Ex → Res (List RVar)
  | [] => .ok []
  | .variable k n :: es => do
      let vs ← distinctVars es
      .ok (.named k n :: vs)
  | .anonymous :: es => do
      let vs ← distinctVars es
      .ok (.anon :: vs)
  | _ :: _ => .err .aggregationDistinctNonVariable

/-- A string constant (`Term::from`, `term.rs:337-347`). -/
def strTerm (s : Str) : Term := .const (.str (String.ofList s))

mutual
/-- `Term::build_component` (`translation/term.rs:29-91`) with the functions it calls
(`basic/*.rs`, `complex/*.rs`). -/
def term (L : Fn.Lib) (c : Ctx) : Ex → Res Term
  | .arithmetic o l r => do
      let a ← term L c l
      let b ← term L c r
      .ok (.op (aopKind o) [a, b])
  | .atom t as => do
      let n ← resolveTag c t
      let ts ← terms L c as
      .ok (.fn n ts)
  | .blank n => .ok (.const (.iri (String.ofList n)))
  | .boolean b => .ok (.const (.bool b))
  | .constant t => do
      let n ← resolveTag c t
      .ok (.const (.iri (String.ofList n)))
  | .number n => do
      let v ← number L n
      .ok (.const v)
  | .encoded e ds => .ok (.const (encoded e ds))
  | .rdf s t => do
      let v ← rdfLit L c s t
      .ok (.const v)
  | .string s lang =>
      .ok (.const (Fn.mkLang L (String.ofList s) (lang.map String.ofList)))
  | .tuple as => do
      let ts ← terms L c as
      .ok (.tuple ts)
  | .variable k n => .ok (.var (.named k n))
  | .anonymous => .ok (.var .anon)
  | .aggregation kind e ds => match kind with
      | none => .err .aggregationUnknown
      | some k => do
        let t ← term L c e
        let vs ← distinctVars ds
        .ok (.agg k t vs)
  | .map t kvs => do
      let xs ← keyValues L c kvs
      match t with
      | some t => do
        let n ← resolveTag c t
        .ok (.map (some n) xs)
      | none => .ok (.map none xs)
  | .operation k as => do
      let ts ← terms L c as
      .ok (.op k ts)
  | .negation _ => .err .innerNegation
  | .parenthesized e => term L c e
  | .formatString els => do
      let ts ← elements L c els
      .ok (.op "CONCAT".toList ts)
/-- The loops over subterms. -/
def terms (L : Fn.Lib) (c : Ctx) : List Ex → Res (List Term)
  | [] => .ok []
  | e :: es => do
      let t ← term L c e
      let ts ← terms L c es
      .ok (t :: ts)
/-- The loop of `map.rs:24-29`. -/
def keyValues (L : Fn.Lib) (c : Ctx) : List (Ex × Ex) → Res (List (Term × Term))
  | [] => .ok []
  | p :: ps => do
      let x ← keyValue L c p
      let xs ← keyValues L c ps
      .ok (x :: xs)
/-- One round of the loop of `map.rs:24-29`. -/
def keyValue (L : Fn.Lib) (c : Ctx) : Ex × Ex → Res (Term × Term)
  | (k, v) => do
      let k ← term L c k
      let v ← term L c v
      .ok (k, v)
/-- The loop of `fstring.rs:27-41`. -/
def elements (L : Fn.Lib) (c : Ctx) : List (FEl Ex) → Res (List Term)
  | [] => .ok []
  | f :: fs => do
      let t ← element L c f
      let ts ← elements L c fs
      .ok (t :: ts)
/-- One round of the loop of `fstring.rs:27-41`. -/
def element (L : Fn.Lib) (c : Ctx) : FEl Ex → Res Term
  | .text s => .ok (strTerm s)
  | .expr e => do
      let t ← term L c e
      .ok (.op "STR".toList [t])
  | .openBrace => .ok (strTerm ['{'])
  | .closeBrace => .ok (strTerm ['}'])
end

/-! ### Atoms, literals, rules and facts -/

/-- `fact.rs:22-30`, `literal.rs:24-32`, `48-56`, `98-106`. -/
def atom (L : Fn.Lib) (c : Ctx) (t : Parse.Tag) (as : List Ex) : Res Atom := do
  let n ← resolveTag c t
  let ts ← terms L c as
  .ok ⟨n, ts⟩

/-- `Fact::build_component` (`fact.rs:17-41`). -/
def fact (L : Fn.Lib) (c : Ctx) : Guard → Res Atom
  | .expression (.atom t as) => atom L c t as
  | _ => .err .expressionAsFact

/-- `HeadAtom::build_component` (`literal.rs:93-116`). -/
def headAtom (L : Fn.Lib) (c : Ctx) : Guard → Res Atom
  | .expression (.atom t as) => atom L c t as
  | _ => .err .headNonAtom

/-- `InfixOperation::build_component` (`infix.rs:23-57`). -/
def infixOp (L : Fn.Lib) (c : Ctx) (o : IOp) (l r : Ex) : Res (Str × List Term) := do
  let a ← term L c l
  let b ← term L c r
  .ok (iopKind o, [a, b])

/-- `Literal::build_component` (`literal.rs:18-79`). -/
def literal (L : Fn.Lib) (c : Ctx) : Guard → Res Literal
  | .expression (.atom t as) => do
      let a ← atom L c t as
      .ok (.pos a)
  | .expression (.negation (.atom t as)) => do
      let a ← atom L c t as
      .ok (.neg a)
  | .expression (.negation _) => .err .negatedNonAtom
  | .compare o l r => do
      let p ← infixOp L c o l r
      .ok (.oper p.1 p.2)
  | .expression (.operation k as) => do
      let ts ← terms L c as
      .ok (.oper k ts)
  | .expression _ => .err .bodyNonLiteral

/-- A loop with `?`. -/
def traverse {α β : Type} (f : α → Res β) : List α → Res (List β)
  | [] => .ok []
  | a :: as => do
      let b ← f a
      let bs ← traverse f as
      .ok (b :: bs)

/-- `KnownAttributes` (`attribute.rs:24-42`). -/
inductive Attr where
  | name | display
deriving DecidableEq, Repr

/-- `statement_attributes` (`translation.rs:45`): the values of the attribute `name` and of the
attribute `display`, for each occurrence the list of its terms. -/
structure Attrs where
  name : List (List Term)
  display : List (List Term)

/-- `rule.rs:35-41`: with `rule_name[0]`, which panics for an attribute without terms.  `get_unique`
(`util/bag.rs`) returns the first value. -/
def ruleName : List (List Term) → Res (Option Str)
  | [] => .ok none
  | [] :: _ => .panic
  | (.const (.str s) :: _) :: _ => .ok (some s.toList)
  | (_ :: _) :: _ => .ok none

/-- `rule.rs:43-45`, with `rule_display[0]`. -/
def ruleDisplay : List (List Term) → Res (Option Term)
  | [] => .ok none
  | [] :: _ => .panic
  | (t :: _) :: _ => .ok (some t)

/-- `Rule::build_component` (`rule.rs:29-60`). -/
def rule (L : Fn.Lib) (c : Ctx) (attrs : Attrs) (r : RuleAst) : Res Rule := do
  let name ← ruleName attrs.name
  let display ← ruleDisplay attrs.display
  let head ← traverse (headAtom L c) r.head
  let body ← traverse (literal L c) r.body
  .ok ⟨name, display, head, body⟩

/-! ### Attributes -/

/-- `StructureTag::to_string` (`tag/structure.rs:48-58`). -/
def tagText : Parse.Tag → Str
  | .plain n => n
  | .prefixed p n => p ++ ':' :: n
  | .iri s => s

/-- `KnownAttributes::from_name` (`attribute.rs:24-42`). -/
def Attr.ofName (n : Str) : Option Attr :=
  if n = "name".toList then some .name else if n = "display".toList then some .display else none

/-- `OperationKind::return_type` is `String` (`operation_kind.rs:70-404`). -/
def stringKinds : List Str :=
  ["fullStr", "LANG", "STR", "STRAFTER", "STRBEFORE", "CONCAT", "LCASE", "STRREV", "SUBSTR", "UCASE",
   "URIDECODE", "URIENCODE"].map String.toList

/-- `value_type() == String` (`term.rs:95-104`). -/
def Term.isString : Term → Bool
  | .const (.str _) => true
  | .op k _ => k ∈ stringKinds
  | _ => false

/-- `kind() == PlainString` (`term.rs:206-221`, `ground.rs:209-230`). -/
def Term.isPlain : Term → Bool
  | .const (.str _) => true
  | _ => false

/-- A part of the translation that can add several errors to the report: `none` for a panic. -/
def Rep (α : Type) := Option (α × List Err)

/-- One step after another. -/
def Rep.bind {α β : Type} : Rep α → (α → Rep β) → Rep β
  | none, _ => none
  | some (a, es), f => match f a with
    | none => none
    | some (b, fs) => some (b, es ++ fs)

instance : Monad Rep where
  pure a := some (a, [])
  bind := Rep.bind

/-- `report.add`. -/
def report (es : List Err) : Rep Unit := some ((), es)

/-- The rounds of `attribute.rs:109-143` for one attribute: the schema has one entry.  The result is
`none` for the `?` of line 114. -/
def attrTerms (L : Fn.Lib) (c : Ctx) (a : Attr) : List Ex → Rep (Option (List Term))
  | [] => pure (some [])
  | e :: _ => match term L c e with
    | .panic => none
    | .err x => do
        report [x]
        pure none
    | .ok t => match a with
      | .name =>
          if t.isPlain then pure (some [t]) else do
            report [.attributeWrongComponent]
            pure (some [])
      | .display => do
          report (if t.isString then [] else [.attributeWrongType])
          pure (some [t])

/-- `result.get_mut(attribute_kind).push(terms)` (`attribute.rs:145`). -/
def Attrs.push (r : Attrs) : Attr → List Term → Attrs
  | .name, ts => { r with name := r.name ++ [ts] }
  | .display, ts => { r with display := r.display ++ [ts] }

/-- The loop of `process_attributes` (`attribute.rs:55-147`), `seen` being `previous_attributes`. -/
def attributesLoop (L : Fn.Lib) (c : Ctx) (expected : List Attr) :
    List (Parse.Tag × List Ex) → List Attr → Attrs → Rep (Option Attrs)
  | [], _, r => pure (some r)
  | (t, es) :: rest, seen, r =>
    match Attr.ofName (tagText t) with
    | none => do
        report [.attributeUnknown (tagText t)]
        attributesLoop L c expected rest seen r
    | some a =>
      if a ∉ expected then do
        report [.attributeUnexpected (tagText t)]
        attributesLoop L c expected rest seen r
      else if a ∈ seen then do
        report [.attributeRedefined (tagText t)]
        attributesLoop L c expected rest seen r
      else do
        report (if es.length = 1 then [] else [Err.attributeParameterCount es.length])
        match ← attrTerms L c a es with
        | none => pure none
        | some ts => attributesLoop L c expected rest (a :: seen) (r.push a ts)

/-- The attributes of a statement as atoms (`ast/attribute.rs:18-31`). -/
def attrAtoms : List Ex → List (Parse.Tag × List Ex)
  | [] => []
  | .atom t as :: es => (t, as) :: attrAtoms es
  | _ :: es => attrAtoms es

/-- `process_attributes` (`translation.rs:60-71`). -/
def attributes (L : Fn.Lib) (c : Ctx) (s : StmtAst) : Rep Attrs := do
  let expected := match s.kind with
    | .rule _ => [Attr.name, .display]
    | _ => []
  let r ← attributesLoop L c expected (attrAtoms s.attributes) [] ⟨[], []⟩
  pure (r.getD ⟨[], []⟩)

/-! ### Directives -/

/-- `ImportExportAttribute::build_component` (`import_export.rs:50-67`). -/
def ioKey : Ex → Res Str
  | .constant t => .ok (tagText t)
  | _ => .err .keyWrongType

/-- `ImportExportSpec::build_component` (`import_export.rs:28-44`). -/
def ioSpec (L : Fn.Lib) (c : Ctx) : Ex → Res (Str × List (Str × Term))
  | .map t kvs => do
      let kvs ← traverse (fun p : Ex × Ex => do
        let k ← ioKey p.1
        let v ← term L c p.2
        .ok (k, v)) kvs
      .ok ((t.map tagText).getD [], kvs)
  | _ => .err .keyWrongType

/-- One round of `import_export_bindings` (`import_export.rs:78-100`). -/
def ioBinding (L : Fn.Lib) (c : Ctx) : Guard → Res (Str × List Term)
  | .expression e => do
      let t ← term L c e
      match t with
      | .op k ts => .ok (k, ts)
      | _ => .err .directiveNonOperation
  | .compare o l r => infixOp L c o l r

/-- `ImportDirective::build_component`, `ExportDirective::build_component`
(`import_export.rs:109-126`, `132-149`). -/
def io (L : Fn.Lib) (c : Ctx) (t : Parse.Tag) (spec : Ex) (guards : Option (List Guard)) : Res Io := do
  let n ← resolveTag c t
  let s ← ioSpec L c spec
  let bs ← traverse (ioBinding L c) (guards.getD [])
  .ok ⟨n, s.1, s.2, bs⟩

/-- `ParameterDeclaration::build_component` (`parmater_declaration.rs:17-37`). -/
def parameter (L : Fn.Lib) (c : Ctx) : Ex → Option Ex → Res (Str × Option Term)
  | .variable .global n, none => .ok (n, none)
  | .variable .global n, some e => do
      let t ← term L c e
      .ok (n, some t)
  | _, _ => .err .paramNotGlobal

/-- `handle_define_directive` (`directive.rs:27-41`, `handle_base` `91-100`, `handle_declare`
`103-110`, `handle_prefix` `126-143`). -/
def define (c : Ctx) : DirectiveAst → Ctx × List Err
  | .base i => ({ c with base := some i }, if c.base.isSome then [.baseRedefinition] else [])
  | .prefixIs p i => match c.prefixes.lookup p with
    | some _ => (c, [.prefixRedefinition p])
    | none => ({ c with prefixes := (p, i) :: c.prefixes }, [])
  | .declare _ _ => (c, [.unsupportedDeclare])
  | _ => (c, [])

/-- The first loop of `translate` (`translation.rs:80-84`). -/
def defineAll (c : Ctx) : List StmtAst → Ctx × List Err
  | [] => (c, [])
  | s :: ss =>
    let d := match s.kind with
      | .directive d => define c d
      | _ => (c, [])
    let r := defineAll d.1 ss
    (r.1, d.2 ++ r.2)

/-- The result of `build_component` as an addition to the program. -/
def Res.item {α : Type} (f : α → Item) : Res α → Rep (List Item)
  | .ok a => some ([f a], [])
  | .err e => some ([], [e])
  | .panic => none

/-- `handle_output` (`directive.rs:113-123`). -/
def outputs (c : Ctx) : List Parse.Tag → List Item × List Err
  | [] => ([], [])
  | t :: ts =>
    let r := outputs c ts
    match resolveTag c t with
    | .ok n => (.output n :: r.1, r.2)
    | .err e => (r.1, e :: r.2)
    | .panic => r

/-- `handle_use_directive` (`directive.rs:44-75`). -/
def useDirective (L : Fn.Lib) (c : Ctx) : DirectiveAst → Rep (List Item)
  | .exportTo t m gs => (io L c t m gs).item .exportTo
  | .importFrom t m gs => (io L c t m gs).item .importFrom
  | .output ts => some (outputs c ts)
  | .unknown n _ => some ([], [.directiveUnknown n])
  | .base _ => some ([], [])
  | .declare _ _ => some ([], [])
  | .prefixIs _ _ => some ([], [])
  | .parameter v e => (parameter L c v e).item fun p => .param p.1 p.2

/-- One round of the second loop of `translate` (`translation.rs:87-112`). -/
def statement (L : Fn.Lib) (c : Ctx) (s : StmtAst) : Rep (List Item) := do
  let attrs ← attributes L c s
  match s.kind with
  | .fact g => (fact L c g).item .fact
  | .rule r => (rule L c attrs r).item .rule
  | .directive d => useDirective L c d
  | .error _ => none

/-- The second loop of `translate` (`translation.rs:87-112`). -/
def statements (L : Fn.Lib) (c : Ctx) : List StmtAst → Rep (List Item)
  | [] => pure []
  | s :: ss => do
      let is ← statement L c s
      let js ← statements L c ss
      pure (is ++ js)

/-- The result of reading and translating a program. -/
inductive Outcome where
  /-- the program -/
  | ok (items : List Item)
  /-- the errors of the report -/
  | errors (es : List Err)
  /-- errors of the parser -/
  | syntaxErrors
  | panic

/-- `translate` (`translation.rs:74-115`) and what `ProgramHandle::from_file` makes of its report
(`handle.rs:60-62`, `error.rs:221-232`). -/
def translate (L : Fn.Lib) (p : ProgramAst) : Outcome :=
  let d := defineAll ⟨[], none⟩ p.statements
  match statements L d.1 p.statements with
  | none => .panic
  | some (is, es) => if d.2 ++ es = [] then .ok is else .errors (d.2 ++ es)

/-- `ProgramHandle::from_file` (`handle.rs:47-63`). -/
def readProgram (L : Fn.Lib) (s : Str) : Outcome :=
  match Parse.parse s with
  | .ok p => translate L p
  | .errors _ => .syntaxErrors
  | .panic => .panic

end Verif.Tr
