import Verif.StringFns
import Mathlib.Data.List.DropRight
/-
Typed literals: how the text of a number becomes a data value
(nemo-physical/src/datavalues/any_datavalue.rs:182-459).

Rust's `i64::from_str`/`u64::from_str` are modelled with their error kinds, since the code branches
on them. Parsing of floating point numbers is a parameter (`Lib.parseF64`).
-/

set_option linter.unusedVariables false
set_option linter.unusedSimpArgs false

namespace Verif.Lit
open Verif.Fn

/-! ### `from_str` -/

/-- `IntErrorKind` (std): the kinds `from_str` returns. -/
inductive IntErr where
  | empty | invalidDigit | posOverflow | negOverflow
  deriving DecidableEq

/-- The range of an integer type. -/
structure IntTy where
  lo : Int
  hi : Int
  signed : Bool

/-- `i64` -/
def i64 : IntTy := ⟨-2 ^ 63, 2 ^ 63 - 1, true⟩
/-- `u64` -/
def u64 : IntTy := ⟨0, 2 ^ 64 - 1, false⟩

/-- The value is in the range of the type. -/
def IntTy.Has (t : IntTy) (i : Int) : Prop := t.lo ≤ i ∧ i ≤ t.hi

instance (t : IntTy) (i : Int) : Decidable (t.Has i) := inferInstanceAs (Decidable (_ ∧ _))

/-- `r ± d` -/
def addDigit (neg : Bool) (r : Int) (d : Nat) : Int := if neg then r * 10 - d else r * 10 + d

/-- The overflow error of the direction. -/
def overflow (neg : Bool) : IntErr := if neg then .negOverflow else .posOverflow

/-- The checked loop of `from_str_radix` (std, core/src/num/mod.rs, `run_checked_loop`): the digit is
looked at before the overflow of the multiplication is reported. -/
def digitLoop (t : IntTy) (neg : Bool) : List Char → Int → Except IntErr Int
  | [], r => .ok r
  | c :: cs, r =>
      match digit 10 c with
      | none => .error .invalidDigit
      | some d =>
          if t.Has (r * 10) then
            if t.Has (addDigit neg r d) then digitLoop t neg cs (addDigit neg r d)
            else .error (overflow neg)
          else .error (overflow neg)

/-- `i64::from_str`, `u64::from_str` (std): no text, a lonely sign, an optional sign; a minus sign of
an unsigned type is an invalid digit. -/
def fromStr (t : IntTy) : List Char → Except IntErr Int
  | [] => .error .empty
  | ['+'] => .error .invalidDigit
  | ['-'] => .error .invalidDigit
  | '+' :: cs => digitLoop t false cs 0
  | '-' :: cs => if t.signed then digitLoop t true cs 0 else .error .invalidDigit
  | cs => digitLoop t false cs 0

/-! ### Decimal types -/

/-- `DecimalType`, any_datavalue.rs:25-32. -/
inductive DecType where
  | decimal | integer | nonNegativeInteger | positiveInteger | nonPositiveInteger | negativeInteger
  deriving DecidableEq

/-- `XSD_PREFIX`, syntax.rs:68. -/
def XSD : String := "http://www.w3.org/2001/XMLSchema#"

/-- `from_decimal_typed_long`, any_datavalue.rs:314-334: the match guards. -/
def DecType.rejects : DecType → Int → Bool
  | .positiveInteger, v => v ≤ 0
  | .nonNegativeInteger, v => v < 0
  | .negativeInteger, v => 0 ≤ v
  | .nonPositiveInteger, v => 0 < v
  | _, _ => false

/-- `from_decimal_typed_long`, any_datavalue.rs:314-334. -/
def fromLong (v : Int) (t : DecType) : Res DV :=
  if t.rejects v then .undef else .val (.long (Int64.ofInt v))

/-- The local variables of `parse_large_decimal_literal`, any_datavalue.rs:344-355. -/
structure DecSt where
  trimmed : List Char
  beforeSign : Bool
  leading : Bool
  inFrac : Bool
  lenTrail : Nat
  plus : Bool
  isZero : Bool
  fracNZ : Bool
  saw : Bool

/-- any_datavalue.rs:344-355. -/
def DecSt.init : DecSt := ⟨[], true, true, false, 0, true, true, false, false⟩

/-- any_datavalue.rs:367-376. -/
def DecSt.nonzero (s : DecSt) (c : Char) : DecSt :=
  { s with
    saw := true
    trimmed := s.trimmed ++ [c]
    leading := false
    isZero := false
    fracNZ := if s.inFrac then true else s.fracNZ
    lenTrail := if s.inFrac then (s.trimmed ++ [c]).length else s.lenTrail }

/-- any_datavalue.rs:377-383. -/
def DecSt.zero (s : DecSt) : DecSt :=
  { s with
    saw := true
    beforeSign := false
    trimmed := if s.leading then s.trimmed else s.trimmed ++ ['0'] }

/-- any_datavalue.rs:388-394. -/
def DecSt.dot (s : DecSt) : DecSt :=
  let base := if s.leading then s.trimmed ++ ['0'] else s.trimmed
  { s with
    leading := false
    inFrac := true
    lenTrail := base.length
    trimmed := base ++ ['.'] }

/-- One round of the loop, any_datavalue.rs:357-400 (over characters: a byte of a longer UTF-8
sequence is rejected, as its character is). -/
def DecSt.step (s : DecSt) (c : Char) : Option DecSt :=
  if c = '-' ∧ s.trimmed = [] ∧ s.beforeSign = true then
    some { s with beforeSign := false, plus := false, trimmed := s.trimmed ++ ['-'] }
  else if c = '+' ∧ s.trimmed = [] ∧ s.beforeSign = true then
    some { s with beforeSign := false }
  else if '1' ≤ c ∧ c ≤ '9' then some (s.nonzero c)
  else if c = '0' then some s.zero
  else if c = '.' then if s.inFrac then none else some s.dot
  else none

/-- The loop. -/
def DecSt.run (s : DecSt) : List Char → Option DecSt
  | [] => some s
  | c :: cs => match s.step c with
      | none => none
      | some s' => s'.run cs

/-- any_datavalue.rs:407-410: the text without trailing zeros. -/
def DecSt.text (s : DecSt) : List Char :=
  if s.inFrac then s.trimmed.take s.lenTrail else s.trimmed

/-- any_datavalue.rs:416-427: the sign of a large integer. -/
def DecType.rejectsSign : DecType → Bool → Bool
  | .positiveInteger, plus => !plus
  | .nonNegativeInteger, plus => !plus
  | .negativeInteger, plus => plus
  | .nonPositiveInteger, plus => plus
  | _, _ => false

/-- A number without fraction written with a point, any_datavalue.rs:434-443. -/
def pointed (txt : List Char) : DV :=
  match fromStr i64 txt with
  | .ok v => .long (Int64.ofInt v)
  | .error _ => match fromStr u64 txt with
      | .ok v => .ulong (UInt64.ofNat v.toNat)
      | .error _ => .other (String.ofList txt) (XSD ++ "integer")

/-- any_datavalue.rs:402-446. The panic is the assertion in line 414. -/
def DecSt.finish (t : DecType) (s : DecSt) : Res DV :=
  if s.saw = false then .undef
  else if s.inFrac = false then
    if s.isZero then .panic
    else if t.rejectsSign s.plus then .undef
    else .val (.other (String.ofList s.text) (XSD ++ "integer"))
  else if t = .decimal then
    if s.fracNZ then .val (.other (String.ofList s.text) (XSD ++ "decimal"))
    else .val (pointed s.text)
  else .undef

/-- `parse_large_decimal_literal`, any_datavalue.rs:338-447. -/
def parseLarge (cs : List Char) (t : DecType) : Res DV :=
  match DecSt.init.run cs with
  | none => .undef
  | some s => s.finish t

/-- `new_from_decimal_type_literal`, any_datavalue.rs:286-310. -/
def decimalLit (cs : List Char) (t : DecType) : Res DV :=
  match fromStr i64 cs with
  | .ok v => fromLong v t
  | .error .empty => .undef
  | .error .invalidDigit => if t = .decimal then parseLarge cs t else .undef
  | .error .posOverflow => parseLarge cs t
  | .error .negOverflow => parseLarge cs t

/-! ### Typed literals -/

/-- The macro `parse_integer!`, any_datavalue.rs:187-199. -/
def parseInteger (cs : List Char) (lo hi : Int) : Res DV :=
  match fromStr i64 cs with
  | .ok v => if lo ≤ v ∧ v ≤ hi then .val (.long (Int64.ofInt v)) else .undef
  | .error _ => .undef

/-- any_datavalue.rs:211-223. -/
def parseUnsignedLong (cs : List Char) : Res DV :=
  match fromStr u64 cs with
  | .ok v => if i64.Has v then .val (.long (Int64.ofInt v)) else .val (.ulong (UInt64.ofNat v.toNat))
  | .error _ => .undef

/-- any_datavalue.rs:245-249. -/
def parseBool (s : String) : Res DV :=
  if s = "true" ∨ s = "1" then .val (.bool true)
  else if s = "false" ∨ s = "0" then .val (.bool false)
  else .undef

/-- `new_from_double_literal`, any_datavalue.rs:267-274. -/
def doubleLit (L : Lib) (s : String) : Res DV := Res.ofOption ((L.parseF64 s).map DV.double)

/-- `strip_prefix(XSD_PREFIX)`. -/
def stripXsd (dt : String) : Option String :=
  if XSD.toList <+: dt.toList then some (String.ofList (dt.toList.drop XSD.toList.length)) else none

/-- any_datavalue.rs:202-251: the datatypes of XML Schema. -/
def xsdLit (L : Lib) (s dt ty : String) : Res DV :=
  if ty = "string" then .val (.str s)
  else if ty = "long" then parseInteger s.toList (-2 ^ 63) (2 ^ 63 - 1)
  else if ty = "int" then parseInteger s.toList (-2147483648) 2147483647
  else if ty = "short" then parseInteger s.toList (-32768) 32767
  else if ty = "byte" then parseInteger s.toList (-128) 127
  else if ty = "unsignedInt" then parseInteger s.toList 0 4294967295
  else if ty = "unsignedShort" then parseInteger s.toList 0 65535
  else if ty = "unsignedByte" then parseInteger s.toList 0 255
  else if ty = "unsignedLong" then parseUnsignedLong s.toList
  else if ty = "decimal" then decimalLit s.toList .decimal
  else if ty = "integer" then decimalLit s.toList .integer
  else if ty = "positiveInteger" then decimalLit s.toList .positiveInteger
  else if ty = "nonNegativeInteger" then decimalLit s.toList .nonNegativeInteger
  else if ty = "negativeInteger" then decimalLit s.toList .negativeInteger
  else if ty = "nonPositiveInteger" then decimalLit s.toList .nonPositiveInteger
  else if ty = "double" then doubleLit L s
  else if ty = "boolean" then parseBool s
  else .val (.other s dt)

/-- `new_from_typed_literal`, any_datavalue.rs:182-255. -/
def typedLit (L : Lib) (s dt : String) : Res DV :=
  match stripXsd dt with
  | some ty => xsdLit L s dt ty
  | none => .val (.other s dt)

end Verif.Lit
