import Verif.ParseCore
import Verif.ParseAst

/-!
# The parser of expressions, guards and rules

Function by function model of `nemo/src/parser/ast/{tag,expression,guard,rule,sequence}`.  The Rust
functions call each other recursively; here every parser takes the parsers it calls recursively as
arguments, and `both` closes the recursion with a counter that bounds the nesting depth (every nested
call happens after at least one character was consumed, so a counter larger than the length of the
text is never exhausted; `Verif.ParseProofs` proves the results with such counters).
-/
namespace Verif.Parse

/-- `Iri::parse` (`iri.rs:42-63`). -/
def iri : P Str :=
  andThen (tag ['<']) fun _ => andThen iriText fun s =>
    andThen (tag ['>']) fun _ => ret s

/-- `StructureTag::parse` (`tag/structure.rs:75-106`). -/
def structureTag : P Tag :=
  alt (andThen (alt name (ret [])) fun p => andThen (tag [':']) fun _ => pmap (Tag.prefixed p) name)
    (alt (pmap Tag.plain name) (pmap Tag.iri iri))

/-- `Blank::parse` (`blank.rs:30-67`). -/
def blank : P Ex :=
  andThen (tag ['_', ':']) fun _ => pmap Ex.blank (alt name digits)

/-- `Boolean::parse` (`boolean.rs:47-86`): the text only has to start with the keyword. -/
def boolean : P Ex :=
  alt (pmap (fun _ => Ex.boolean true) (tag ['t', 'r', 'u', 'e']))
    (pmap (fun _ => Ex.boolean false) (tag ['f', 'a', 'l', 's', 'e']))

/-- `Constant::parse` (`constant.rs:39-56`). -/
def constant : P Ex := pmap Ex.constant structureTag

/-- nom `oct_digit1`. -/
def isOct (c : Char) : Bool := '0' ≤ c && c ≤ '7'

/-- nom `hex_digit1`. -/
def isHex (c : Char) : Bool := isDigit c || ('a' ≤ c && c ≤ 'f') || ('A' ≤ c && c ≤ 'F')

/-- `EncodedNumber::parse` (`enc_number.rs:68-138`). -/
def encodedNumber : P Ex :=
  alt (andThen (tag ['0', 'b']) fun _ =>
        pmap (Ex.encoded .bin) (takeWhile1 fun c => c == '0' || c == '1'))
    (alt (andThen (tag ['0', 'o']) fun _ => pmap (Ex.encoded .oct) (takeWhile1 isOct))
      (andThen (tag ['0', 'x']) fun _ => pmap (Ex.encoded .hex) (takeWhile1 isHex)))

/-- `Number::parse_sign` (`number.rs:144-152`): `true` for minus. -/
def sign : P Bool :=
  alt (pmap (fun _ => false) (tag ['+'])) (pmap (fun _ => true) (tag ['-']))

/-- `Number::parse_fractional` (`number.rs:160-162`). -/
def fractional : P Str := andThen (tag ['.']) fun _ => digits

/-- `Number::parse_exponent` (`number.rs:165-171`). -/
def exponent : P (Bool × Str) :=
  andThen (alt (tag ['e']) (tag ['E'])) fun _ =>
    andThen (opt sign) fun sg => pmap (fun d => (sg.getD false, d)) digits

/-- `Number::parse_type` (`number.rs:174-181`). -/
def typeMarker : P Bool :=
  alt (pmap (fun _ => false) (tag ['f'])) (pmap (fun _ => true) (tag ['d']))

/-- `Number::parse` (`number.rs:195-228`). -/
def number : P Ex :=
  andThen (opt sign) fun sg => andThen digits fun i => andThen (opt fractional) fun fr =>
    andThen (opt exponent) fun e => andThen (opt typeMarker) fun m =>
      ret (Ex.number ⟨sg.getD false, i, fr, e, m⟩)

/-- `RdfLiteral::parse` (`rdf_literal.rs:38-81`). -/
def rdfLiteral : P Ex :=
  andThen (tag ['"']) fun _ => andThen stringText fun c => andThen (tag ['"']) fun _ =>
    andThen (tag ['^', '^']) fun _ => pmap (Ex.rdf c) structureTag

/-- `StringLiteral::parse_string` (`string.rs:42-55`). -/
def quoted : P Str :=
  alt (andThen (tag ['"', '"', '"']) fun _ =>
        andThen (alt (takeUntil ['"', '"', '"']) (ret [])) fun c =>
          andThen (tag ['"', '"', '"']) fun _ => ret c)
    (andThen (tag ['"']) fun _ => andThen (alt stringText (ret [])) fun c =>
      andThen (tag ['"']) fun _ => ret c)

/-- `StringLiteral::parse` (`string.rs:58-96`). -/
def stringLiteral : P Ex :=
  andThen quoted fun c =>
    pmap (Ex.string c) (opt (andThen (tag ['@']) fun _ => name))

/-- `Variable::parse` (`variable.rs:65-125`): after an indicator a missing name is a hard failure. -/
def variableP : P Ex :=
  alt (andThen (alt (pmap (fun _ => VarKind.universal) (tag ['?']))
          (alt (pmap (fun _ => VarKind.existential) (tag ['!']))
            (pmap (fun _ => VarKind.global) (tag ['$'])))) fun k =>
        pmap (Ex.variable k) (cut name))
    (pmap (fun _ => Ex.anonymous) (tag ['_']))

/-- `Expression::parse_basic` (`expression.rs:89-100`). -/
def basic : P Ex :=
  alt blank (alt boolean (alt constant (alt encodedNumber (alt number
    (alt rdfLiteral (alt stringLiteral variableP))))))

/-- `Aggregation::parse` (`aggregation.rs:78-120`, `tag/aggregation.rs:52-88`). -/
def aggregation (ex : P Ex) : P Ex :=
  andThen (tag ['#']) fun _ =>
    andThen (alt (pmap some (keyword aggTable)) (pmap (fun _ => none) name)) fun k =>
      bracketed ['('] [')']
        (andThen ex fun e =>
          pmap (fun d => Ex.aggregation k e (d.getD []))
            (opt (andThen sepComma fun _ => sepList1 sepComma ex)))

/-- `Operation::parse` (`operation.rs:63-92`). -/
def operation (ex : P Ex) : P Ex :=
  andThen (keyword opTable) fun k =>
    pmap (Ex.operation k) (bracketed ['('] [')'] (sequence ex))

/-- `Atom::parse` (`atom.rs:58-87`). -/
def atom (ex : P Ex) : P Ex :=
  andThen structureTag fun t =>
    pmap (Ex.atom t) (bracketed ['('] [')'] (sepList1 sepComma ex))

/-- `KeyValuePair::parse` (`key_value.rs:40-61`). -/
def keyValue (ex : P Ex) : P (Ex × Ex) :=
  andThen ex fun k => andThen wsoc fun _ => andThen (tag ['=']) fun _ =>
    andThen wsoc fun _ => pmap (fun v => (k, v)) ex

/-- `Map::parse` (`map.rs:68-97`). -/
def mapP (ex : P Ex) : P Ex :=
  andThen (opt (andThen structureTag fun t => andThen (opt wsoc) fun _ => ret t)) fun t =>
    pmap (Ex.map t) (bracketed ['{'] ['}'] (sequence (keyValue ex)))

/-- `Negation::parse` (`negation.rs:41-62`). -/
def negation (ex : P Ex) : P Ex :=
  andThen (tag ['~']) fun _ => andThen wsoc fun _ => pmap Ex.negation ex

/-- `Tuple::parse` (`tuple.rs:49-74`, `sequence.rs:45-78`): the first element must be followed by a
comma. -/
def tuple (ex : P Ex) : P Ex :=
  pmap Ex.tuple (bracketed ['('] [')']
    (andThen ex fun e => andThen wsoc fun _ => andThen (tag [',']) fun _ =>
      andThen wsoc fun _ => pmap (e :: ·) (sequence ex)))

/-- `Token::multiline_fstring` (`token.rs:449-477`, `502-511`): everything before the first `"""`, `{`
or `}`; an error if there is none of them or nothing comes before. -/
def multilineChunk : P Str
  | [] => .err
  | c :: s =>
    if ['"', '"', '"'].isPrefixOf (c :: s) || c == '{' || c == '}' then .err
    else
      let rec go : Str → Option (Str × Str)
        | [] => none
        | d :: r =>
          if ['"', '"', '"'].isPrefixOf (d :: r) || d == '{' || d == '}' then some ([], d :: r)
          else (go r).map fun (a, b) => (d :: a, b)
      match go s with
      | some (a, b) => .ok (c :: a) b
      | none => .err

/-- `FormatString::parse_element` and `parse_multiline_element` (`fstring.rs:43-79`). -/
def fElement (chunk : P Str) (ex : P Ex) : P (FEl Ex) :=
  alt (pmap FEl.text chunk)
    (alt (pmap (fun _ => FEl.openBrace) (tag ['{', '{']))
      (alt (pmap (fun _ => FEl.closeBrace) (tag ['}', '}']))
        (andThen (tag ['{']) fun _ => andThen ex fun e =>
          andThen (tag ['}']) fun _ => ret (FEl.expr e))))

/-- `FormatString::parse` (`fstring.rs:104-136`). -/
def formatString (ex : P Ex) : P Ex :=
  alt (andThen (tag ['f', '"', '"', '"']) fun _ => andThen (many0 (fElement multilineChunk ex)) fun l =>
        andThen (tag ['"', '"', '"']) fun _ => ret (Ex.formatString l))
    (andThen (tag ['f', '"']) fun _ =>
      andThen (many0 (fElement (takeWhile1 fun c => !(c == '"' || c == '{' || c == '}')) ex)) fun l =>
        andThen (tag ['"']) fun _ => ret (Ex.formatString l))

/-- `Expression::parse_complex` (`expression.rs:103-113`). -/
def complex (ex : P Ex) : P Ex :=
  alt (aggregation ex) (alt (operation ex) (alt (atom ex) (alt (mapP ex) (alt (negation ex)
    (alt (tuple ex) (formatString ex))))))

/-- `Arithmetic::parse_non_arithmetic` (`arithmetic.rs:151-153`). -/
def nonArith (ex : P Ex) : P Ex := alt (complex ex) basic

/-- `Arithmetic::parse_factor` (`arithmetic.rs:156-200`). -/
def factor (ex ar : P Ex) : P Ex :=
  alt (pmap Ex.parenthesized (bracketed ['('] [')'] (nonArith ex)))
    (alt (nonArith ex) (bracketed ['('] [')'] ar))

/-- `ArithmeticOperation::parse_multiplicative` (`arithmetic.rs:60-68`). -/
def mulOp : P AOp :=
  alt (pmap (fun _ => AOp.mul) (tag ['*'])) (pmap (fun _ => AOp.div) (tag ['/']))

/-- `ArithmeticOperation::parse_additive` (`arithmetic.rs:49-57`). -/
def addOp : P AOp :=
  alt (pmap (fun _ => AOp.add) (tag ['+'])) (pmap (fun _ => AOp.sub) (tag ['-']))

/-- One round of the loops in `parse_product` and `parse_sum` (`arithmetic.rs:206-213`, `223-230`). -/
def chainStep (op : P AOp) (p : P Ex) : P (AOp × Ex) :=
  andThen wsoc fun _ => andThen op fun o => andThen wsoc fun _ => pmap (fun e => (o, e)) p

/-- `ArithmeticChain::fold` (`arithmetic.rs:122-146`): operators of a chain group to the left. -/
def chainFold (e : Ex) (l : List (AOp × Ex)) : Ex :=
  l.foldl (fun acc p => .arithmetic p.1 acc p.2) e

/-- `Arithmetic::parse_product` (`arithmetic.rs:203-216`), folded. -/
def product (ex ar : P Ex) : P Ex :=
  andThen (factor ex ar) fun e => pmap (chainFold e) (many0 (chainStep mulOp (factor ex ar)))

/-- `Arithmetic::parse_sum` (`arithmetic.rs:219-245`). -/
def sum (ex ar : P Ex) : P Ex :=
  andThen (product ex ar) fun e => pmap (chainFold e) (many0 (chainStep addOp (product ex ar)))

/-- `Arithmetic::parse` (`arithmetic.rs:258-276`): anything but an arithmetic expression, also a hard
failure, becomes a soft error. -/
def arithmetic (ex ar : P Ex) : P Ex := fun s =>
  match sum ex ar s with
  | .ok (.arithmetic o l r) rest => .ok (.arithmetic o l r) rest
  | _ => .err

/-- `ParenthesizedExpression::parse` (`parenthesized.rs:48-68`). -/
def parenthesized (ex : P Ex) : P Ex :=
  pmap Ex.parenthesized (bracketed ['('] [')'] ex)

/-- `Expression::parse` (`expression.rs:159-172`). -/
def expr (ex ar : P Ex) : P Ex :=
  alt (arithmetic ex ar) (alt (parenthesized ex) (alt (complex ex) basic))

/-- `Expression::parse` and `Arithmetic::parse` with the recursion closed, up to nesting depth `n`. -/
def both : Nat → P Ex × P Ex
  | 0 => (fun _ => .err, fun _ => .err)
  | n + 1 => (expr (both n).1 (both n).2, arithmetic (both n).1 (both n).2)

/-- `Expression::parse` for nesting depth up to `n`. -/
def expression (n : Nat) : P Ex := (both n).1

/-- `InfixExpression::parse_infix_kind` (`infix.rs:73-89`). -/
def infixOp : P IOp :=
  alt (pmap (fun _ => .eq) (tag ['='])) (alt (pmap (fun _ => .ne) (tag ['!', '=']))
    (alt (pmap (fun _ => .ge) (tag ['>', '='])) (alt (pmap (fun _ => .gt) (tag ['>']))
      (alt (pmap (fun _ => .le) (tag ['<', '='])) (pmap (fun _ => .lt) (tag ['<']))))))

/-- `InfixExpression::parse` (`infix.rs:103-130`). -/
def infixExpr (ex : P Ex) : P Guard :=
  andThen ex fun l => andThen wsoc fun _ => andThen infixOp fun o => andThen wsoc fun _ =>
    pmap (fun r => Guard.compare o l r) ex

/-- `Guard::parse` (`guard.rs:48-59`). -/
def guard (n : Nat) : P Guard :=
  alt (infixExpr (expression n)) (pmap Guard.expression (complex (expression n)))

/-- `Rule::parse` (`ast/rule.rs:55-81`). -/
def rule (n : Nat) : P RuleAst :=
  andThen (sequence (guard n)) fun h => andThen wsoc fun _ => andThen (tag [':', '-']) fun _ =>
    andThen wsoc fun _ => pmap (fun b => ⟨h, b⟩) (sequence (guard n))

end Verif.Parse
