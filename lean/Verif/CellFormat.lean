import Verif.DataText
/-
Cells of delimiter-separated files (nemo/src/io/formats/dsv/value_format.rs): how data values are
written and how cells are read.
-/

set_option linter.unusedVariables false
set_option linter.unusedSimpArgs false

namespace Verif.Lit
open Verif.Fn

/-- Unicode `White_Space` (std `char::is_whitespace`). -/
def isWhite (c : Char) : Bool :=
  let n := c.toNat
  (9 ≤ n && n ≤ 13) || n = 32 || n = 0x85 || n = 0xA0 || n = 0x1680 || (0x2000 ≤ n && n ≤ 0x200A) ||
    n = 0x2028 || n = 0x2029 || n = 0x202F || n = 0x205F || n = 0x3000

/-- `str::trim`. -/
def trim (cs : List Char) : List Char := (cs.dropWhile isWhite).rdropWhile isWhite

/-- `rfind('"')`: the text before and after the last quote. -/
def lastQuote : List Char → Option (List Char × List Char)
  | [] => none
  | c :: cs => match lastQuote cs with
      | some (a, b) => some (c :: a, b)
      | none => if c = '"' then some ([], cs) else none

/-- The characters in exactly `n` bytes; `none` if this is not a character boundary. -/
def takeBytes : Nat → List Char → Option (List Char)
  | 0, _ => some []
  | _ + 1, [] => none
  | n + 1, c :: cs =>
      if c.utf8Size ≤ n + 1 then (takeBytes (n + 1 - c.utf8Size) cs).map (c :: ·) else none
termination_by n cs => cs.length

/-- Number of bytes. -/
def byteLen (cs : List Char) : Nat := (cs.map Char.utf8Size).sum

/-- The slice `input[1..pos]`, where `pre` is the text before `pos`: begin after end if there is nothing
before `pos` (a panic). -/
def dropFirst : List Char → Option (List Char)
  | [] => none
  | _ :: cs => some cs

/-- value_format.rs:208-217: the text after the last quote is `^^<datatype>`; `none` means that none of
the conditions is met and the match falls through. -/
def typedCell (L : Lib) (pre post : List Char) : Option (Res DV) :=
  if post.getLast? = some '>' ∧ 3 < byteLen post then
    match takeBytes 3 post with
    | none => some .panic
    | some p =>
        if p = ['^', '^', '<'] then
          match dropFirst pre with
          | none => some .panic
          | some lex =>
              match typedLit L (String.ofList lex) (String.ofList ((post.drop 3).dropLast)) with
              | .val v => some (.val v)
              | .panic => some .panic
              | .undef => none
        else none
  else none

/-- value_format.rs:197-219: cells beginning with a quote. -/
def quotedCell (L : Lib) (cs : List Char) : Option (Res DV) :=
  match lastQuote cs with
  | none => none
  | some (pre, []) => match dropFirst pre with
      | none => some .panic
      | some s => some (.val (.str (String.ofList s)))
  | some (pre, c :: post) =>
      if c = '@' then match dropFirst pre with
        | none => some .panic
        | some s => some (.val (.lang (String.ofList s) (String.ofList (post.map Char.toLower))))
      else typedCell L pre (c :: post)

/-- value_format.rs:188-221: cells with a special first character. -/
def specialCell (L : Lib) : List Char → Option (Res DV)
  | [] => none
  | c :: cs =>
      if c = '<' ∧ (c :: cs).getLast? = some '>' then some (.val (.iri (String.ofList cs.dropLast)))
      else if IsDigitB c || c = '+' || c = '-' then
        match decimalLit (c :: cs) .decimal with
        | .val v => some (.val v)
        | .panic => some .panic
        | .undef => none
      else if c = '"' then quotedCell L (c :: cs)
      else none
where
  /-- `b'0'..=b'9'` -/
  IsDigitB (c : Char) : Bool := (digit 10 c).isSome

/-- `Token::name` on the whole input (token.rs:386-403, nom `alpha1`, `alphanumeric1`). -/
def isName : List Char → Bool
  | [] => false
  | c :: cs => c.isAlpha && cs.all fun d => d.isAlpha || d.isDigit || d = '_' || d = '%'

/-- `Token::iri` on the whole input: `is_not("> \n")` (token.rs:406-416). -/
def isIriToken (cs : List Char) : Bool := !cs.isEmpty && cs.all fun d => d ≠ '>' && d ≠ ' ' && d ≠ '\n'

/-- value_format.rs:223-240: everything else. -/
def otherCell (cs : List Char) : DV :=
  if isName cs then .iri (String.ofList cs)
  else if isIriToken cs then .iri (String.ofList cs)
  else .str (String.ofList cs)

/-- The trimmed cell, value_format.rs:182-240. -/
def trimmedCell (L : Lib) (cs : List Char) : Res DV :=
  if cs = [] then .val (.str "")
  else match specialCell L cs with
    | some r => r
    | none => .val (otherCell cs)

/-- `parse_any_value_from_string`, value_format.rs:176-241. -/
def parseAny (L : Lib) (cs : List Char) : Res DV := trimmedCell L (trim cs)

/-- `serialize_integer_to_string`, value_format.rs:280-306. -/
def serializeInteger (X : FloatText) : DV → Option (List Char)
  | .long i => some (lexical X (.long i))
  | .ulong n => some (lexical X (.ulong n))
  | .other s dt => if dt = XSD ++ "integer" then some s.toList else none
  | _ => none

/-- value_format.rs:251-276. -/
def serializeOther (X : FloatText) : DV → List Char
  | .iri s => s.toList
  | v => canonical X v

/-- `serialize_any_value_to_string`, value_format.rs:245-277. -/
def serializeAny (X : FloatText) (v : DV) : List Char :=
  match serializeInteger X v with
  | some s => s
  | none => serializeOther X v

/-- `serialize_double_to_string`, value_format.rs:313-332. -/
def serializeDouble (X : FloatText) : DV → Option (List Char)
  | .double f => some (X.showF64 f)
  | _ => none

/-- `to_plain_string` (datavalue.rs): the text of a plain string. -/
def serializeString : DV → Option (List Char)
  | .str s => some s.toList
  | _ => none

/-- `DsvValueFormat`, value_format.rs:25-52. -/
inductive CellFormat where
  | any | string | int | double | skip
  deriving DecidableEq

/-- `data_value_parser_function`, value_format.rs:142-150. -/
def CellFormat.parse (L : Lib) : CellFormat → List Char → Res DV
  | .any, cs => parseAny L cs
  | .string, cs => .val (.str (String.ofList cs))
  | .int, cs => decimalLit cs .integer
  | .double, cs => doubleLit L (String.ofList cs)
  | .skip, cs => .val (.str (String.ofList cs))

/-- `data_value_serializer_function`, value_format.rs:153-161. -/
def CellFormat.serialize (X : FloatText) : CellFormat → DV → Option (List Char)
  | .any, v => some (serializeAny X v)
  | .string, v => serializeString v
  | .int, v => serializeInteger X v
  | .double, v => serializeDouble X v
  | .skip, v => some (serializeAny X v)

end Verif.Lit
