import Verif.ParseExpr

/-!
# The parser of directives, statements and programs

Function by function model of `nemo/src/parser/ast/{directive,attribute,statement,program}`,
`parser/ast/comment/{doc,toplevel}.rs`, of the error recovery in `parser/error.rs` and of
`Parser::parse` (`parser.rs:114-131`).
-/
namespace Verif.Parse

/-- `IOType` (`io_type.rs:11-27`). -/
inductive IoType where
  | int | float | double | string | any
deriving DecidableEq, Repr

/-- `IOType::name` (`io_type.rs:11-27`, `syntax.rs:59-71`). -/
def IoType.text : IoType → Str
  | .int => ['i', 'n', 't']
  | .float => ['f', 'l', 'o', 'a', 't']
  | .double => ['d', 'o', 'u', 'b', 'l', 'e']
  | .string => ['s', 't', 'r', 'i', 'n', 'g']
  | .any => ['a', 'n', 'y']

/-- `Directive` (`directive.rs:64-91`).  In `declare` a parameter without a name is `_`; in `parameter`
the variable is kept as an expression. -/
inductive DirectiveAst where
  | base (iri : Str)
  | declare (t : Tag) (params : List (Option Str × Option IoType))
  | exportTo (t : Tag) (instructions : Ex) (guards : Option (List Guard))
  | importFrom (t : Tag) (instructions : Ex) (guards : Option (List Guard))
  | output (ts : List Tag)
  | prefixIs (p iri : Str)
  | parameter (v : Ex) (e : Option Ex)
  | unknown (n content : Str)

/-- `StatementKind` (`statement.rs:30-39`); an error keeps the text that was skipped. -/
inductive KindAst where
  | fact (g : Guard)
  | rule (r : RuleAst)
  | directive (d : DirectiveAst)
  | error (text : Str)

/-- `Statement` (`statement.rs:67-77`): the lines of the documentation comment, the attributes (each an
atom) and the statement proper. -/
structure StmtAst where
  comment : Option (List Str)
  attributes : List Ex
  kind : KindAst

/-- `Program` (`program.rs:28-36`). -/
structure ProgramAst where
  comment : Option (List Str)
  statements : List StmtAst

/-- The statement is a piece of text that could not be read. -/
def StmtAst.isError (s : StmtAst) : Bool :=
  match s.kind with
  | .error _ => true
  | _ => false

/-- One line of `DocComment::parse` and `TopLevelComment::parse` (`doc.rs:57-62`,
`toplevel.rs:58-63`). -/
def commentLine (mark : Str) : P Str := fun s =>
  andThen (tag mark) (fun _ => andThen notLineEnding fun c => andThen lineEnd fun _ => ret c)
    (s.dropWhile fun c => c == ' ' || c == '\t')

/-- `DocComment::parse` (`doc.rs:49-79`). -/
def docComment : P (List Str) := many1 (commentLine ['%', '%', '%'])

/-- `TopLevelComment::parse` (`toplevel.rs:50-80`). -/
def topLevelComment : P (List Str) := many1 (commentLine ['%', '!'])

/-- `Attribute::parse` (`attribute.rs:42-70`). -/
def attributeP (n : Nat) : P Ex :=
  andThen (bracketed ['#', '['] [']'] (atom (expression n))) fun a => andThen wsoc fun _ => ret a

/-- `Token::directive_*` (`token.rs:634-751`) after `Token::directive_indicator`: the whole name that
follows has to be the keyword. -/
def directiveKey (k : Str) : P Unit :=
  andThen (tag ['@']) fun _ s =>
    match name s with
    | .ok a r => if a = k then .ok () r else .err
    | .err => .err
    | .fail => .fail

/-- `Base::parse` (`directive/base.rs:29-73`). -/
def baseD : P DirectiveAst :=
  andThen (directiveKey "base".toList) fun _ => andThen wsoc fun _ => pmap .base iri

/-- `DataTypeTag::parse` (`tag/datatype.rs:47-78`). -/
def dataType : P IoType := fun s =>
  match [IoType.int, .float, .double, .string, .any].find? fun k => k.text.isPrefixOf s with
  | some k => .ok k (s.drop k.text.length)
  | none => .err

/-- `NameTypePair::parse` (`sequence/declare.rs:44-67`, `tag/parameter.rs:50-74`). -/
def nameType : P (Option Str × Option IoType) :=
  andThen (alt (pmap (fun _ => none) (tag ['_'])) (pmap some name)) fun a =>
    pmap (fun t => (a, t)) (opt (andThen wsoc fun _ => andThen (tag [':']) fun _ =>
      andThen wsoc fun _ => dataType))

/-- `Declare::parse` (`directive/declare.rs:42-107`). -/
def declareD : P DirectiveAst :=
  andThen (directiveKey "declare".toList) fun _ => andThen wsoc fun _ =>
    andThen structureTag fun t => andThen wsoc fun _ =>
      pmap (.declare t) (bracketed ['('] [')'] (sequence nameType))

/-- `Export::parse_body` and `Import::parse_body` (`directive/export.rs:48-68`, `import.rs:49-69`). -/
def ioBody (n : Nat) (f : Tag → Ex → Option (List Guard) → DirectiveAst) : P DirectiveAst :=
  andThen structureTag fun t => andThen wsoc fun _ => andThen (tag [':', '-']) fun _ =>
    andThen wsoc fun _ => andThen (mapP (expression n)) fun m =>
      pmap (f t m) (opt (andThen sepComma fun _ => sequence (guard n)))

/-- `Export::parse` (`directive/export.rs:82-110`). -/
def exportD (n : Nat) : P DirectiveAst :=
  andThen (directiveKey "export".toList) fun _ => andThen wsoc fun _ => ioBody n .exportTo

/-- `Import::parse` (`directive/import.rs:83-111`). -/
def importD (n : Nat) : P DirectiveAst :=
  andThen (directiveKey "import".toList) fun _ => andThen wsoc fun _ => ioBody n .importFrom

/-- `Output::parse` (`directive/output.rs:51-79`). -/
def outputD : P DirectiveAst :=
  andThen (directiveKey "output".toList) fun _ => andThen wsoc fun _ =>
    pmap .output (sequence structureTag)

/-- `Prefix::parse` (`directive/prefix.rs:45-97`). -/
def prefixD : P DirectiveAst :=
  andThen (directiveKey "prefix".toList) fun _ => andThen wsoc fun _ =>
    andThen (alt name (ret [])) fun p => andThen wsoc fun _ => andThen (tag [':']) fun _ =>
      andThen wsoc fun _ => pmap (.prefixIs p) iri

/-- `ParameterDeclaration::parse` (`directive/parameter.rs:33-95`). -/
def parameterD (n : Nat) : P DirectiveAst :=
  andThen (directiveKey "parameter".toList) fun _ => andThen wsoc fun _ => andThen wsoc fun _ =>
    andThen variableP fun v => andThen wsoc fun _ =>
      pmap (.parameter v) (opt (andThen (tag ['=']) fun _ => andThen wsoc fun _ => expression n))

/-- The keywords of `DirectiveKind` (`directive.rs:35-61`). -/
def directiveKeys : List Str :=
  ["base", "declare", "export", "import", "output", "prefix", "parameter"].map String.toList

/-- `UnknownDirective::parse_unknown` (`directive/unknown.rs:52-76`). -/
def unknownName : P Str := fun s =>
  match name s with
  | .ok a r => if a ∈ directiveKeys then .err else .ok a r
  | _ => .err

/-- The text consumed by a parser (nom `recognize`, or the span of a syntax tree). -/
def consumed (p : P α) : P Str := fun s =>
  match p s with
  | .ok _ r => .ok (s.take (s.length - r.length)) r
  | .err => .err
  | .fail => .fail

/-- `UnknownDirective::parse` (`directive/unknown.rs:90-122`). -/
def unknownD (n : Nat) : P DirectiveAst :=
  andThen (tag ['@']) fun _ => andThen unknownName fun k => andThen wsoc fun _ =>
    pmap (.unknown k)
      (alt (andThen (consumed (expression n)) fun c =>
            andThen (takeWhile1 (· != '.')) fun _ => ret c)
        (takeWhile1 (· != '.')))

/-- `Directive::parse` (`directive.rs:138-155`). -/
def directive (n : Nat) : P DirectiveAst :=
  alt baseD (alt declareD (alt (exportD n) (alt (importD n) (alt outputD (alt prefixD
    (alt (parameterD n) (unknownD n)))))))

/-- `StatementKind::parse` (`statement.rs:53-62`). -/
def statementKind (n : Nat) : P KindAst :=
  alt (pmap .directive (directive n)) (alt (pmap .rule (rule n)) (pmap .fact (guard n)))

/-- `Statement::parse` (`statement.rs:113-145`). -/
def statement (n : Nat) : P StmtAst :=
  andThen (opt docComment) fun d => andThen wsoc fun _ => andThen (many0 (attributeP n)) fun as =>
    andThen wsoc fun _ => andThen (statementKind n) fun k => andThen wsoc fun _ =>
      andThen (tag ['.']) fun _ => ret ⟨d, as, k⟩

/-- nom `line_ending`. -/
def lineEnding : P Unit := fun s =>
  match s with
  | '\n' :: r => .ok () r
  | '\r' :: '\n' :: r => .ok () r
  | _ => .err

/-- One alternative of `until_dot_newline` (`error.rs:82-89`). -/
def skipDot (m : Str) : P Str :=
  andThen (takeUntil m) fun a => andThen (tag ['.']) fun _ => andThen lineEnding fun _ =>
    ret (a ++ ['.'])

/-- One alternative of `until_double_newline` (`error.rs:73-80`). -/
def skipBlankLine (m : Str) : P Str :=
  andThen (takeUntil m) fun a =>
    alt (pmap (fun _ => a ++ ['\n', '\n']) (tag ['\n', '\n']))
      (alt (pmap (fun _ => a ++ ['\r', '\n', '\r', '\n']) (tag ['\r', '\n', '\r', '\n']))
        (pmap (fun _ => a ++ ['\r', '\r']) (tag ['\r', '\r'])))

/-- `skip_statement` (`error.rs:70-93`): the text that is skipped after an error. -/
def skipStatement : P Str :=
  alt (skipDot ['.', '\n']) (alt (skipDot ['.', '\r', '\n']) (alt (skipDot ['.', '\r'])
    (alt (skipBlankLine ['\n', '\n']) (alt (skipBlankLine ['\r', '\n', '\r', '\n'])
      (alt (skipBlankLine ['\r', '\r']) fun s => .ok s [])))))

/-- `recover(report_error(..))` (`error.rs:95-115`, `124-180`): a statement that cannot be read becomes
an error statement, except at the end of the text.  `report_error` reports at least one error in
exactly the case in which `recover` makes an error statement. -/
def recover (p : P StmtAst) : P StmtAst := fun s =>
  match p s with
  | .ok a r => .ok a r
  | e => if s = [] then e else pmap (fun t => ⟨none, [], .error t⟩) skipStatement s

/-- One round of the loop in `Program::parse` (`program.rs:89-93`). -/
def statementRound (n : Nat) : P StmtAst :=
  andThen wsoc fun _ => andThen (recover (statement n)) fun a => andThen wsoc fun _ => ret a

/-- `Program::parse` (`program.rs:79-108`). -/
def program (n : Nat) : P ProgramAst :=
  andThen (opt topLevelComment) fun c => pmap (fun l => ⟨c, l⟩) (many0 (statementRound n))

/-- What `Parser::parse` does: a program, a program together with reported errors, or the panic of
`expect("parsing should always succeed")`. -/
inductive Outcome where
  | ok (p : ProgramAst)
  | errors (p : ProgramAst)
  | panic

/-- `Parser::parse` (`parser.rs:114-131`).  Errors are reported exactly for the error statements (see
`recover`), so the check that no errors were reported is that there is no error statement. -/
def parse (s : Str) : Outcome :=
  match program (s.length + 1) s with
  | .ok p _ => if p.statements.any StmtAst.isError then .errors p else .ok p
  | _ => .panic

end Verif.Parse
