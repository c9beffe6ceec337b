import Verif.ParseAst

/-!
# The parser combinators and tokens of the rule language

`nemo/src/parser` builds its parser from the `nom` library.  This file models the combinators the
parser uses (ordered choice, optional, repetition, hard failure) and the tokens of
`parser/ast/token.rs`, over texts that are lists of characters.  A parser result does not carry the
error tree: the model only records whether a parser succeeded, failed in a way that lets an
alternative be tried (`nom::Err::Error`) or failed hard (`nom::Err::Failure`, produced by `cut`).
-/
namespace Verif.Parse

/-- `ParserResult` (`parser.rs:37`): success with the remaining text, `nom::Err::Error`, or
`nom::Err::Failure`.  (`Incomplete` is never produced by the `complete` parsers that are used.) -/
inductive Res (α : Type) where
  | ok (a : α) (rest : Str)
  | err
  | fail
deriving DecidableEq, Repr

/-- A parser function. -/
abbrev P (α : Type) := Str → Res α

/-- nom `success`. -/
def ret (a : α) : P α := fun s => .ok a s

/-- Sequencing: nom `pair`, `tuple`, `preceded`, `terminated`, `delimited`, `separated_pair`. -/
def andThen (p : P α) (f : α → P β) : P β := fun s =>
  match p s with
  | .ok a r => f a r
  | .err => .err
  | .fail => .fail

/-- nom `map`. -/
def pmap (f : α → β) (p : P α) : P β := fun s =>
  match p s with
  | .ok a r => .ok (f a) r
  | .err => .err
  | .fail => .fail

/-- nom `alt` for two parsers: the second is tried only if the first gave a (soft) error. -/
def alt (p q : P α) : P α := fun s =>
  match p s with
  | .err => q s
  | .ok a r => .ok a r
  | .fail => .fail

/-- nom `opt`. -/
def opt (p : P α) : P (Option α) := fun s =>
  match p s with
  | .ok a r => .ok (some a) r
  | .err => .ok none s
  | .fail => .fail

/-- nom `cut`: a soft error becomes a hard one. -/
def cut (p : P α) : P α := fun s =>
  match p s with
  | .err => .fail
  | .ok a r => .ok a r
  | .fail => .fail

/-- nom `many0`, with the number of rounds bounded by `n`: repeat until a soft error; a round that
consumes nothing is an error. -/
def many0Aux (p : P α) : Nat → P (List α)
  | 0, s => .ok [] s
  | n + 1, s =>
    match p s with
    | .err => .ok [] s
    | .fail => .fail
    | .ok a r =>
      if r.length = s.length then .err
      else match many0Aux p n r with
        | .ok as r' => .ok (a :: as) r'
        | .err => .err
        | .fail => .fail

/-- nom `many0`.  Every round consumes a character, so there are at most as many rounds as there are
characters; the extra round observes the error that ends the loop. -/
def many0 (p : P α) : P (List α) := fun s => many0Aux p (s.length + 1) s

/-- nom `many1`. -/
def many1 (p : P α) : P (List α) := andThen p fun a => pmap (a :: ·) (many0 p)

/-- nom `separated_list1`: when the separator or the element after it gives a soft error, the list
ends before that separator.  (nom also rejects a separator that consumes nothing; every separator
used here consumes a comma.) -/
def sepList1 (sep : P Unit) (p : P α) : P (List α) :=
  andThen p fun a => pmap (a :: ·) (many0 (andThen sep fun _ => p))

/-- nom `tag`. -/
def tag (t : Str) : P Unit := fun s =>
  if t.isPrefixOf s then .ok () (s.drop t.length) else .err

/-- nom `take_while1`, and `alpha1`, `digit1`, `is_not` etc., which are instances of it. -/
def takeWhile1 (f : Char → Bool) : P Str := fun s =>
  if s.takeWhile f = [] then .err else .ok (s.takeWhile f) (s.dropWhile f)

/-- nom `take_until`: everything before the first occurrence of `t`; an error if there is none. -/
def takeUntil (t : Str) : P Str
  | [] => if t.isPrefixOf [] then .ok [] [] else .err
  | c :: s =>
    if t.isPrefixOf (c :: s) then .ok [] (c :: s)
    else match takeUntil t s with
      | .ok a r => .ok (c :: a) r
      | .err => .err
      | .fail => .fail

/-- `char::is_ascii_alphabetic`. -/
def isAlpha (c : Char) : Bool := ('a' ≤ c && c ≤ 'z') || ('A' ≤ c && c ≤ 'Z')

/-- `char::is_ascii_digit`. -/
def isDigit (c : Char) : Bool := '0' ≤ c && c ≤ '9'

/-- The characters after the first one of a name (`token.rs:386-403`): letters, digits, `_` and also
the comment character `%`. -/
def nameChar (c : Char) : Bool := isAlpha c || isDigit c || c == '_' || c == '%'

/-- `multispace1` accepts these characters. -/
def isSpace (c : Char) : Bool := c == ' ' || c == '\t' || c == '\r' || c == '\n'

/-- `Token::name` (`token.rs:386-403`): `alpha1` followed by `many0` of runs of letters and digits,
`_` and `%`. -/
def name : P Str :=
  andThen (takeWhile1 isAlpha) fun a s => .ok (a ++ s.takeWhile nameChar) (s.dropWhile nameChar)

/-- `Token::iri` (`token.rs:406-416`): everything up to `>`, a blank or a line feed. -/
def iriText : P Str := takeWhile1 fun c => !(c == '>' || c == ' ' || c == '\n')

/-- `Token::string` (`token.rs:480-482`). -/
def stringText : P Str := takeWhile1 fun c => c != '"'

/-- `Token::digits` (`token.rs:514-526`). -/
def digits : P Str := takeWhile1 isDigit

/-- ASCII lower case, as compared by nom `tag_no_case`.  (nom lower-cases by Unicode rules; the only
non-ASCII character whose lower case is an ASCII letter is U+212A, the Kelvin sign, which is not
modelled.) -/
def lower (c : Char) : Char := if 'A' ≤ c && c ≤ 'Z' then Char.ofNat (c.toNat + 32) else c

/-- `str::to_lowercase` restricted to ASCII. -/
def lowers (s : Str) : Str := s.map lower

/-- The keyword loops of `tag/operation.rs:51-64` and `tag/aggregation.rs:56-69`: the first keyword of
the table that the text starts with, ignoring case. -/
def keyword (table : List Str) : P Str := fun s =>
  match table.find? fun k => (lowers k).isPrefixOf (lowers s) with
  | some k => .ok k (s.drop k.length)
  | none => .err

/-- `Token::comment` (`token.rs:759-783`): `%%%%` and more, or `%`; `%%%` (but not more) is the start
of a documentation comment and is rejected here, without trying the single `%`. -/
def commentMark : P Unit := fun s =>
  if ['%', '%', '%', '%'].isPrefixOf s then .ok () (s.dropWhile (· == '%'))
  else if ['%', '%', '%'].isPrefixOf s then .err
  else tag ['%'] s

/-- nom `not_line_ending`: everything before the next `\n` or `\r\n`; a `\r` that is not followed by
`\n` is an error. -/
def notLineEnding : P Str := fun s =>
  let a := s.takeWhile fun c => !(c == '\r' || c == '\n')
  match s.dropWhile fun c => !(c == '\r' || c == '\n') with
  | '\r' :: '\n' :: r => .ok a ('\r' :: '\n' :: r)
  | '\r' :: _ => .err
  | r => .ok a r

/-- nom `alt((line_ending, eof))`. -/
def lineEnd : P Unit := fun s =>
  match s with
  | [] => .ok () []
  | '\n' :: r => .ok () r
  | '\r' :: '\n' :: r => .ok () r
  | _ => .err

/-- `LineComment::parse` (`comment/line.rs:46-67`). -/
def lineComment : P Unit :=
  andThen commentMark fun _ => andThen notLineEnding fun _ => lineEnd

/-- `ClosedComment::parse` (`comment/closed.rs:46-73`): up to the first `*/`, comments do not nest. -/
def closedComment : P Unit :=
  andThen (tag ['/', '*']) fun _ => andThen (takeUntil ['*', '/']) fun _ => tag ['*', '/']

/-- One round of `WSoC::parse` (`comment/wsoc.rs:40-50`). -/
def wsStep : P Unit :=
  alt (pmap (fun _ => ()) (takeWhile1 isSpace)) (alt lineComment closedComment)

/-- `WSoC::parse` (`comment/wsoc.rs:53-67`): white space and comments; their content is dropped. -/
def wsoc : P Unit := pmap (fun _ => ()) (many0 wsStep)

/-- The separator of sequences (`sequence.rs:84`): a comma with white space around it. -/
def sepComma : P Unit :=
  andThen wsoc fun _ => andThen (tag [',']) fun _ => wsoc

/-- `Sequence::parse` (`sequence.rs:113-132`): possibly empty, possibly with a trailing comma. -/
def sequence (p : P α) : P (List α) :=
  pmap (fun o => o.getD [])
    (opt (andThen (sepList1 sepComma p) fun l => andThen (opt sepComma) fun _ => ret l))

/-- `delimited(pair(open, WSoC), p, pair(WSoC, close))`, the bracketing used everywhere. -/
def bracketed (op cl : Str) (p : P α) : P α :=
  andThen (tag op) fun _ => andThen wsoc fun _ => andThen p fun a =>
    andThen wsoc fun _ => andThen (tag cl) fun _ => ret a

end Verif.Parse
