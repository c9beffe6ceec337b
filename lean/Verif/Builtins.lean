import Verif.DataValue
import Verif.StackProgram
import Verif.IntArith
import Verif.BitSets
/-
The built-in functions (nemo-physical/src/function/definitions.rs and its submodules) over data values.

IEEE arithmetic, Unicode tables, regular expressions, URL encoding and the printing of values are
parameters (`Lib`): the theorems hold whatever they compute.
-/

set_option linter.unusedVariables false
set_option linter.unusedSimpArgs false

namespace Verif.Fn

/-- Floating point arithmetic of one width. `none` is a result that is not finite
(`Double::new(..).ok()`, datatypes/double.rs:29-330, datatypes/float.rs). -/
structure FloatLib (F : Type) where
  add : F → F → Option F
  sub : F → F → Option F
  mul : F → F → Option F
  div : F → F → Option F
  pow : F → F → Option F
  log : F → F → Option F
  rem : F → F → F
  neg : F → Option F
  sqrt : F → Option F
  abs : F → F
  sin : F → F
  cos : F → F
  tan : F → F
  round : F → F
  ceil : F → F
  floor : F → F
  zero : F
  one : F
  ofNat : Nat → Option F
  /-- the number times a fixed power of two, so that comparing is comparing integers -/
  key : F → Int

/-- Everything taken from the Rust standard library or from other crates. -/
structure Lib where
  f32 : FloatLib F32
  f64 : FloatLib F64
  i64ToF64 : Int64 → F64
  f32ToF64 : F32 → F64
  f64ToF32 : F64 → Option F32
  u64ToF64 : UInt64 → F64
  u64ToF32 : UInt64 → F32
  i64ToF32 : Int64 → F32
  parseF32 : String → Option F32
  parseF64 : String → Option F64
  /-- `value.round() == value` and then `value as i64` (saturating) -/
  f32ToI64 : F32 → Option Int64
  f64ToI64 : F64 → Option Int64
  /-- extended grapheme clusters (crate `unicode-segmentation`) -/
  graphemes : String → List String
  upper : String → String
  lower : String → String
  uriEncode : String → String
  uriDecode : String → Option String
  regex : String → String → Bool
  levenshtein : String → String → Nat
  /-- `canonical_string` -/
  canonical : DV → String
  /-- `lexical_value` -/
  lexical : DV → String
  /-- `datatype_iri`; `none` is the panic of datavalue.rs:116-130 -/
  datatype : DV → Option String
  /-- `to_ascii_lowercase` of language tags (lang_string_datavalue.rs) -/
  lowerTag : String → String

/-! ### Numbers (numeric.rs) -/

/-- numeric.rs:52-56 `NumericValue`. -/
inductive Num where
  | int (i : Int64)
  | float (f : F32)
  | double (f : F64)

/-- numeric.rs:59-82 `from_any_datavalue`. -/
def Num.ofDV : DV → Option Num
  | .float f => some (.float f)
  | .double f => some (.double f)
  | .long i => some (.int i)
  | .ulong n => if n.toNat ≤ 0xFFFFFFFFFFFFFFFF / 2 then some (.int (Int64.ofNat n.toNat)) else none
  | _ => none

/-- numeric.rs:85-95 `convert_to_double`. -/
def Num.toDouble (L : Lib) : Num → F64
  | .int i => L.i64ToF64 i
  | .float f => L.f32ToF64 f
  | .double f => f

/-- numeric.rs:171-175 `NumericPair`. -/
inductive NumPair where
  | int (a b : Int64)
  | float (a b : F32)
  | double (a b : F64)

/-- numeric.rs:201-226 `from_any_pair_cast`. -/
def NumPair.ofDV (L : Lib) (a b : DV) : Option NumPair :=
  match Num.ofDV a, Num.ofDV b with
  | some (.int x), some (.int y) => some (.int x y)
  | some (.float x), some (.float y) => some (.float x y)
  | some (.double x), some (.double y) => some (.double x y)
  | some x, some y => some (.double (x.toDouble L) (y.toDouble L))
  | _, _ => none

/-- numeric.rs:229-234 `NumericList`. -/
inductive NumList where
  | int (xs : List Int64)
  | float (xs : List F32)
  | double (xs : List F64)

/-- numeric.rs:107-114 `integer`. -/
def Num.int? : Num → Option Int64
  | .int i => some i
  | _ => none
/-- numeric.rs:116-122 `float`. -/
def Num.float? : Num → Option F32
  | .float i => some i
  | _ => none
/-- numeric.rs:125-131 `double`. -/
def Num.double? : Num → Option F64
  | .double i => some i
  | _ => none

/-- numeric.rs:239-261 `collect_list_same_type` (for a non-empty list). -/
def NumList.collect (xs : List Num) : Option NumList :=
  match xs with
  | [] => none
  | .int _ :: _ => (xs.mapM Num.int?).map .int
  | .float _ :: _ => (xs.mapM Num.float?).map .float
  | .double _ :: _ => (xs.mapM Num.double?).map .double

/-- numeric.rs:98-104 `same_type`. -/
def Num.sameType : Num → Num → Bool
  | .int _, .int _ => true
  | .float _, .float _ => true
  | .double _, .double _ => true
  | _, _ => false

/-- numeric.rs:264-276 `from_any_list`. -/
def NumList.ofDV (vs : List DV) : Option NumList :=
  if vs.isEmpty then none
  else match vs.mapM Num.ofDV with
    | none => none
    | some xs => NumList.collect xs

/-- numeric.rs:281-301 `from_any_list_cast`; the `expect`s cannot fail. -/
def NumList.ofDVCast (L : Lib) (vs : List DV) : Option NumList :=
  match vs.mapM Num.ofDV with
  | none => none
  | some [] => none
  | some (x :: xs) =>
      if (x :: xs).all (fun y => y.sameType x) then NumList.collect (x :: xs)
      else some (.double ((x :: xs).map (Num.toDouble L)))

/-- Dispatch of a unary numeric function, e.g. numeric.rs:696-706. -/
def numUn (fi : Int64 → Res Int64) (ff : F32 → Option F32) (fd : F64 → Option F64) (v : DV) : Res DV :=
  match Num.ofDV v with
  | none => .undef
  | some (.int i) => do let r ← fi i; .val (.long r)
  | some (.float f) => Res.ofOption ((ff f).map .float)
  | some (.double f) => Res.ofOption ((fd f).map .double)

/-- Dispatch of a binary numeric function, e.g. numeric.rs:313-327. -/
def numBin (L : Lib) (fi : Int64 → Int64 → Res Int64) (ff : F32 → F32 → Option F32)
    (fd : F64 → F64 → Option F64) (v w : DV) : Res DV :=
  match NumPair.ofDV L v w with
  | none => .undef
  | some (.int a b) => do let r ← fi a b; .val (.long r)
  | some (.float a b) => Res.ofOption ((ff a b).map .float)
  | some (.double a b) => Res.ofOption ((fd a b).map .double)

/-- Dispatch of a numeric comparison, e.g. numeric.rs:901-915. -/
def numCmp (L : Lib) (fi : Int64 → Int64 → Bool) (fk : Int → Int → Bool) (v w : DV) : Res DV :=
  match NumPair.ofDV L v w with
  | none => .undef
  | some (.int a b) => .val (.bool (fi a b))
  | some (.float a b) => .val (.bool (fk (L.f32.key a) (L.f32.key b)))
  | some (.double a b) => .val (.bool (fk (L.f64.key a) (L.f64.key b)))

/-- Dispatch of an n-ary numeric function, e.g. numeric.rs:1048-1058. -/
def numNary (L : Lib) (fi : List Int64 → Res Int64) (ff : List F32 → Option F32)
    (fd : List F64 → Option F64) (vs : List DV) : Res DV :=
  match NumList.ofDVCast L vs with
  | none => .undef
  | some (.int xs) => do let r ← fi xs; .val (.long r)
  | some (.float xs) => Res.ofOption ((ff xs).map .float)
  | some (.double xs) => Res.ofOption ((fd xs).map .double)

/-- Dispatch of an n-ary function on integers, e.g. numeric.rs:432-442. -/
def intNary (f : List Int64 → Int64) (vs : List DV) : Res DV :=
  match NumList.ofDV vs with
  | some (.int xs) => .val (.long (f xs))
  | _ => .undef

/-- Dispatch of a shift, numeric.rs:500-590: `from_any_pair_cast` and then only integers. -/
def intBin (L : Lib) (f : Int64 → Int64 → Res Int64) (v w : DV) : Res DV :=
  match NumPair.ofDV L v w with
  | some (.int a b) => do let r ← f a b; .val (.long r)
  | _ => .undef

/-- double.rs:189-197, float.rs:189-197 `numeric_sum_*`. -/
def floatSum {F : Type} (L : FloatLib F) (xs : List F) : Option F :=
  xs.foldlM (fun s x => L.add s x) L.zero
/-- double.rs:203-211 `numeric_product_*`. -/
def floatProd {F : Type} (L : FloatLib F) (xs : List F) : Option F :=
  xs.foldlM (fun s x => L.mul s x) L.one
/-- double.rs:216-220 `numeric_minimum_*`: the first of the least elements. -/
def floatMin {F : Type} (L : FloatLib F) : List F → Option F
  | [] => none
  | x :: xs => some (xs.foldl (fun m y => if L.key y < L.key m then y else m) x)
/-- double.rs:225-229 `numeric_maximum_*`: the last of the greatest elements. -/
def floatMax {F : Type} (L : FloatLib F) : List F → Option F
  | [] => none
  | x :: xs => some (xs.foldl (fun m y => if L.key y ≥ L.key m then y else m) x)
/-- double.rs:235-250 `numeric_tnorm_lukasiewicz_*`. -/
def floatLuka {F : Type} (L : FloatLib F) (xs : List F) : Option F :=
  if xs.isEmpty then none
  else do
    let s ← floatSum L xs
    let n ← L.ofNat (xs.length - 1)
    let d ← L.sub s n
    some (if L.key d ≥ L.key L.zero then d else L.zero)
/-- double.rs:110-119 `numeric_remainder_*`. -/
def floatRem {F : Type} (L : FloatLib F) (a b : F) : Option F :=
  if L.key b = L.key L.zero then none else some (L.rem a b)

/-! ### Strings (string.rs) -/

/-- string.rs:56-69 `LangTaggedString::try_from`. -/
def langString : DV → Option (String × Option String)
  | .str s => some (s, none)
  | .lang s t => some (s, some t)
  | _ => none

/-- string.rs:44-49 `into_data_value`; the constructor of language tagged strings normalizes the tag. -/
def mkLang (L : Lib) (s : String) : Option String → DV
  | some t => .lang s (L.lowerTag t)
  | none => .str s

/-- string.rs:76-90 `lang_string_pair_from_any`. -/
def langPair (a b : DV) : Option ((String × Option String) × (String × Option String)) :=
  match langString a, langString b with
  | some x, some y =>
      match x.2, y.2 with
      | _, none => some (x, y)
      | some t, some t' => if t = t' then some (x, y) else none
      | none, some _ => none
  | _, _ => none

/-- string.rs:29-30: the first offset `≥ i` at which the needle occurs. -/
def findFrom (needle : List String) : List String → Nat → Option Nat
  | hay, i =>
      if hay.take needle.length = needle ∧ needle.length ≤ hay.length then some i
      else match hay with
        | [] => none
        | _ :: rest => findFrom needle rest (i + 1)

/-- string.rs:23-31 `unicode_find`. -/
def unicodeFind (L : Lib) (hay needle : String) : Option Nat :=
  findFrom (L.graphemes needle) (L.graphemes hay) 0

/-- `join("")` / `collect::<String>()`. -/
def join (xs : List String) : String := xs.foldr (· ++ ·) ""

/-- A count as an integer; `new_integer_from_u64(n as u64)`. Rust strings have at most `isize::MAX`
bytes, so larger counts do not occur. -/
def count (n : Nat) : Res DV := if n < 2 ^ 63 then .val (.ulong (UInt64.ofNat n)) else .panic

/-- string.rs:120-135 `StringCompare`. -/
def strCompare (a b : DV) : Res DV :=
  match langPair a b with
  | none => .undef
  | some (x, y) => .val (.long (match compare x.1 y.1 with | .lt => -1 | .eq => 0 | .gt => 1))

/-- string.rs:190-202 `StringContains`. -/
def strContains (L : Lib) (a b : DV) : Res DV :=
  match langPair a b with
  | none => .undef
  | some (x, y) => .val (.bool (unicodeFind L x.1 y.1).isSome)

/-- string.rs:224-247 `StringStarts`. -/
def strStarts (L : Lib) (a b : DV) : Res DV :=
  match langPair a b with
  | none => .undef
  | some (x, y) =>
      if (L.graphemes y.1).length > (L.graphemes x.1).length then .val (.bool false)
      else .val (.bool (decide ((L.graphemes x.1).take (L.graphemes y.1).length = L.graphemes y.1)))

/-- string.rs:269-293 `StringEnds`. -/
def strEnds (L : Lib) (a b : DV) : Res DV :=
  match langPair a b with
  | none => .undef
  | some (x, y) =>
      if (L.graphemes y.1).length > (L.graphemes x.1).length then .val (.bool false)
      else .val (.bool (decide ((L.graphemes x.1).drop
        ((L.graphemes x.1).length - (L.graphemes y.1).length) = L.graphemes y.1)))

/-- string.rs:319-341 `StringBefore`. -/
def strBefore (L : Lib) (a b : DV) : Res DV :=
  match langPair a b with
  | none => .undef
  | some (x, y) => match unicodeFind L x.1 y.1 with
      | some i => .val (mkLang L (join ((L.graphemes x.1).take i)) x.2)
      | none => .val (.str "")

/-- string.rs:366-392 `StringAfter`. -/
def strAfter (L : Lib) (a b : DV) : Res DV :=
  match langPair a b with
  | none => .undef
  | some (x, y) => match unicodeFind L x.1 y.1 with
      | some i => .val (mkLang L (join ((L.graphemes x.1).drop (i + (L.graphemes y.1).length))) x.2)
      | none => .val (.str "")

/-- string.rs:417-432 `StringSubstring`. -/
def strSubstring (L : Lib) (a b : DV) : Res DV :=
  match langString a with
  | none => .undef
  | some x => match b.toI64 with
      | none => .undef
      | some i =>
          let start := (max i 1).toNat
          if start - 1 ≤ (L.graphemes x.1).length then
            .val (mkLang L (join ((L.graphemes x.1).drop (start - 1))) x.2)
          else .val (mkLang L "" x.2)

/-- string.rs:714-717: slice, or else everything from the start. -/
def sliceOrRest (g : List String) (start stop : Nat) : List String :=
  if start ≤ stop ∧ stop ≤ g.length then (g.take stop).drop start else g.drop start

/-- string.rs:694-723 `StringSubstringLength`. `panic`s are the overflow of `start + length` and
the underflow of `end - 1`. -/
def strSubstringLength (L : Lib) (a b c : DV) : Res DV :=
  match langString a with
  | none => .undef
  | some x => match b.toI64 with
      | none => .undef
      | some start => match c.toI64 with
          | none => .undef
          | some length =>
              if length < 1 then .val (mkLang L "" x.2)
              else if start + length ≥ 2 ^ 63 then .panic
              else if start + length < 0 then .undef
              else
                let s := (max start 1).toNat
                if s > (L.graphemes x.1).length then .val (mkLang L "" x.2)
                else if start + length = 0 then .panic
                else .val (mkLang L
                  (join (sliceOrRest (L.graphemes x.1) (s - 1) ((start + length).toNat - 1))) x.2)

/-- string.rs:458-480 `StringRegex`; an invalid pattern matches nothing (the cache is transparent). -/
def strRegex (L : Lib) (a b : DV) : Res DV :=
  match langPair a b with
  | none => .undef
  | some (x, y) => .val (.bool (L.regex y.1 x.1))

/-- string.rs:505-513 `StringLevenshtein`. -/
def strLevenshtein (L : Lib) (a b : DV) : Res DV :=
  match langPair a b with
  | none => .undef
  | some (x, y) => count (L.levenshtein x.1 y.1)

/-- string.rs:155-169 `StringConcatenation`: the tag is kept if all parameters have the same tag. -/
def strConcat (L : Lib) (vs : List DV) : Res DV :=
  match vs.mapM langString with
  | none => .undef
  | some xs =>
      let tag := match xs with
        | [] => none
        | x :: rest => match x.2 with
            | none => none
            | some t => if rest.all (fun y => y.2 == some t) then some t else none
      .val (mkLang L (join (xs.map (·.1))) tag)

/-- A function on strings that keeps the language tag (string.rs:549-624). -/
def strMap (L : Lib) (f : String → String) (v : DV) : Res DV :=
  match langString v with
  | none => .undef
  | some x => .val (mkLang L (f x.1) x.2)

/-! ### Casts (casting.rs) -/

/-- Value of a digit (`char::to_digit`). -/
def digit (radix : Nat) (c : Char) : Option Nat :=
  let n := c.toNat
  let d := if 48 ≤ n ∧ n ≤ 57 then n - 48
    else if 97 ≤ n ∧ n ≤ 122 then n - 87
    else if 65 ≤ n ∧ n ≤ 90 then n - 55
    else 99
  if d < radix then some d else none

/-- Value of a digit sequence. -/
def digits (radix : Nat) : List Char → Nat → Option Nat
  | [], acc => some acc
  | c :: cs, acc => match digit radix c with
      | some d => digits radix cs (acc * radix + d)
      | none => none

/-- The sign of a number text (true: negative) and the rest. -/
def splitSign : List Char → Bool × List Char
  | '-' :: rest => (true, rest)
  | '+' :: rest => (false, rest)
  | cs => (false, cs)

/-- The value with its sign. -/
def signed (neg : Bool) (n : Nat) : Int := if neg then -(n : Int) else n

/-- An integer that fits. -/
def fitI64 (i : Int) : Option Int64 := if I64.Fits i then some (Int64.ofInt i) else none

/-- `i64::from_str_radix`: optional sign, at least one digit, and the value must fit. -/
def parseI64 (radix : Nat) (cs : List Char) : Option Int64 :=
  if (splitSign cs).2.isEmpty then none
  else (digits radix (splitSign cs).2 0).bind fun n => fitI64 (signed (splitSign cs).1 n)

/-- `&lex_val[0..2]`: the characters in the first two bytes; `none` is the panic if byte 2 is not a
character boundary (casting.rs:42). -/
def prefix2 : List Char → Option (List Char)
  | c :: d :: _ =>
      if c.utf8Size = 2 then some [c]
      else if c.utf8Size = 1 ∧ d.utf8Size = 1 then some [c, d]
      else none
  | _ => none

/-- casting.rs:36-53: integer from the lexical value. -/
def castIntString (cs : List Char) : Res DV :=
  if 3 ≤ cs.length then
    match prefix2 cs with
    | none => .panic
    | some p => Res.ofOption ((
        if p = ['0', 'b'] then parseI64 2 (cs.drop 2)
        else if p = ['0', 'o'] then parseI64 8 (cs.drop 2)
        else if p = ['0', 'x'] then parseI64 16 (cs.drop 2)
        else parseI64 10 cs).map DV.long)
  else Res.ofOption ((parseI64 10 cs).map DV.long)

/-- casting.rs:28-89 `CastingIntoInteger64`. -/
def castInt (L : Lib) : DV → Res DV
  | .str s => castIntString s.toList
  | .other s t => castIntString (L.lexical (.other s t)).toList
  | .float f => Res.ofOption ((L.f32ToI64 f).map .long)
  | .double f => Res.ofOption ((L.f64ToI64 f).map .long)
  | .bool b => .val (.long (if b then 1 else 0))
  | .ulong n => if n.toNat ≤ 0xFFFFFFFFFFFFFFFF / 2 then .val (.ulong n) else .undef
  | .long i => .val (.long i)
  | _ => .undef

/-- casting.rs:113-149 `CastingIntoFloat`; the panic is the `expect` for a double beyond the range. -/
def castFloat (L : Lib) : DV → Res DV
  | .str s => Res.ofOption ((L.parseF32 s).map .float)
  | .other s t => Res.ofOption ((L.parseF32 (L.lexical (.other s t))).map .float)
  | .float f => .val (.float f)
  | .double f => match L.f64ToF32 f with
      | some g => .val (.float g)
      | none => .panic
  | .ulong n => .val (.float (L.u64ToF32 n))
  | .long i => .val (.float (L.i64ToF32 i))
  | _ => .undef

/-- casting.rs:173-209 `CastingIntoDouble`. -/
def castDouble (L : Lib) : DV → Res DV
  | .str s => Res.ofOption ((L.parseF64 s).map .double)
  | .other s t => Res.ofOption ((L.parseF64 (L.lexical (.other s t))).map .double)
  | .double f => .val (.double f)
  | .float f => .val (.double (L.f32ToF64 f))
  | .ulong n => .val (.double (L.u64ToF64 n))
  | .long i => .val (.double (L.i64ToF64 i))
  | _ => .undef

/-- casting.rs:224-229 `CastingIntoIri`. -/
def castIri : DV → Res DV
  | .str s => .val (.iri s)
  | .iri s => .val (.iri s)
  | _ => .undef

/-! ### The function enums (definitions.rs) -/

/-- definitions.rs:134-197 `UnaryFunctionEnum`. -/
inductive UFn where
  | booleanNegation | canonicalString | castInt | castDouble | castFloat | castIri
  | isDouble | isFloat | isInteger | isIri | isNull | isNumeric | isString
  | datatype | languageTag | lexicalValue
  | abs | ceil | cos | floor | neg | round | sin | sqrt | tan
  | strLength | strReverse | strLower | strUpper | uriEncode | uriDecode
  deriving DecidableEq, Repr

/-- definitions.rs:258-311 `BinaryFunctionEnum`. -/
inductive BFn where
  | equals | unequals | languageString
  | add | sub | mul | div | log | pow | rem | lt | le | gt | ge
  | strAfter | strBefore | strCompare | strContains | strRegex | strLevenshtein | strEnds | strStarts
  | strSubstring | shl | shr | shru
  deriving DecidableEq, Repr

/-- definitions.rs `TernaryFunctionEnum`. -/
inductive TFn where
  | strSubstringLength
  deriving DecidableEq, Repr

/-- definitions.rs `NaryFunctionEnum`. -/
inductive NFn where
  | bitAnd | bitOr | bitXor | conjunction | disjunction | max | min | luka | sum | prod | concat
  deriving DecidableEq, Repr

/-- `to_boolean`. -/
def toBool : DV → Option Bool
  | .bool b => some b
  | _ => none

/-- `UnaryFunction::evaluate` (definitions.rs:199-238). -/
def unEval (L : Lib) : UFn → DV → Res DV
  | .booleanNegation, v => Res.ofOption ((toBool v).map fun b => .bool !b)
  | .canonicalString, v => .val (.str (L.canonical v))
  | .castInt, v => castInt L v
  | .castDouble, v => castDouble L v
  | .castFloat, v => castFloat L v
  | .castIri, v => castIri v
  | .isDouble, v => .val (.bool (match v with | .double _ => true | _ => false))
  | .isFloat, v => .val (.bool (match v with | .float _ => true | _ => false))
  | .isInteger, v => .val (.bool v.toI64.isSome)
  | .isIri, v => .val (.bool (match v with | .iri _ => true | _ => false))
  | .isNull, v => .val (.bool (match v with | .null _ => true | _ => false))
  | .isNumeric, v => .val (.bool (v.toI64.isSome || match v with
      | .float _ => true | .double _ => true | _ => false))
  | .isString, v => .val (.bool (match v with | .str _ => true | _ => false))
  | .datatype, v => match L.datatype v with
      | some s => .val (.iri s)
      | none => .panic
  | .languageTag, v => match langString v with
      | none => .undef
      | some x => .val (.str (x.2.getD ""))
  | .lexicalValue, v => .val (.str (match v with | .lang s _ => s | v => L.lexical v))
  | .abs, v => numUn I64.abs (some ∘ L.f32.abs) (some ∘ L.f64.abs) v
  | .ceil, v => numUn .val (some ∘ L.f32.ceil) (some ∘ L.f64.ceil) v
  | .cos, v => numUn (fun _ => .undef) (some ∘ L.f32.cos) (some ∘ L.f64.cos) v
  | .floor, v => numUn .val (some ∘ L.f32.floor) (some ∘ L.f64.floor) v
  | .neg, v => numUn I64.neg L.f32.neg L.f64.neg v
  | .round, v => numUn .val (some ∘ L.f32.round) (some ∘ L.f64.round) v
  | .sin, v => numUn (fun _ => .undef) (some ∘ L.f32.sin) (some ∘ L.f64.sin) v
  | .sqrt, v => numUn I64.sqrt L.f32.sqrt L.f64.sqrt v
  | .tan, v => numUn (fun _ => .undef) (some ∘ L.f32.tan) (some ∘ L.f64.tan) v
  | .strLength, v => match langString v with
      | none => .undef
      | some x => count (L.graphemes x.1).length
  | .strReverse, v => strMap L (fun s => join (L.graphemes s).reverse) v
  | .strLower, v => strMap L L.lower v
  | .strUpper, v => strMap L L.upper v
  | .uriEncode, v => match langString v with
      | none => .undef
      | some x => .val (.str (L.uriEncode x.1))
  | .uriDecode, v => match langString v with
      | none => .undef
      | some x => Res.ofOption ((L.uriDecode x.1).map .str)

/-- `BinaryFunction::evaluate` (definitions.rs:313-347). -/
def binEval (L : Lib) : BFn → DV → DV → Res DV
  | .equals, v, w => .val (.bool (v.eq w))
  | .unequals, v, w => .val (.bool (!v.eq w))
  | .languageString, v, w => match v, w with
      | .str s, .str t => .val (.lang s (L.lowerTag t))
      | _, _ => .undef
  | .add, v, w => numBin L I64.add L.f32.add L.f64.add v w
  | .sub, v, w => numBin L I64.sub L.f32.sub L.f64.sub v w
  | .mul, v, w => numBin L I64.mul L.f32.mul L.f64.mul v w
  | .div, v, w => numBin L I64.div L.f32.div L.f64.div v w
  | .log, v, w => numBin L I64.log L.f32.log L.f64.log v w
  | .pow, v, w => numBin L I64.pow L.f32.pow L.f64.pow v w
  | .rem, v, w => numBin L I64.rem (floatRem L.f32) (floatRem L.f64) v w
  | .lt, v, w => numCmp L I64.lt (fun a b => decide (a < b)) v w
  | .le, v, w => numCmp L I64.le (fun a b => decide (a ≤ b)) v w
  | .gt, v, w => numCmp L I64.gt (fun a b => decide (a > b)) v w
  | .ge, v, w => numCmp L I64.ge (fun a b => decide (a ≥ b)) v w
  | .strAfter, v, w => strAfter L v w
  | .strBefore, v, w => strBefore L v w
  | .strCompare, v, w => strCompare v w
  | .strContains, v, w => strContains L v w
  | .strRegex, v, w => strRegex L v w
  | .strLevenshtein, v, w => strLevenshtein L v w
  | .strEnds, v, w => strEnds L v w
  | .strStarts, v, w => strStarts L v w
  | .strSubstring, v, w => strSubstring L v w
  | .shl, v, w => intBin L I64.shl v w
  | .shr, v, w => intBin L I64.shr v w
  | .shru, v, w => intBin L I64.shru v w

/-- `TernaryFunction::evaluate`. -/
def terEval (L : Lib) : TFn → DV → DV → DV → Res DV
  | .strSubstringLength, u, v, w => strSubstringLength L u v w

/-- `NaryFunction::evaluate`. -/
def naryEval (L : Lib) : NFn → List DV → Res DV
  | .bitAnd, vs => intNary I64.bitAnd vs
  | .bitOr, vs => intNary I64.bitOr vs
  | .bitXor, vs => intNary I64.bitXor vs
  | .conjunction, vs => Res.ofOption ((vs.mapM toBool).map fun bs => .bool (bs.all id))
  | .disjunction, vs => Res.ofOption ((vs.mapM toBool).map fun bs => .bool (bs.any id))
  | .max, vs => numNary L I64.maximum (floatMax L.f32) (floatMax L.f64) vs
  | .min, vs => numNary L I64.minimum (floatMin L.f32) (floatMin L.f64) vs
  | .luka, vs => numNary L (fun _ => .undef) (floatLuka L.f32) (floatLuka L.f64) vs
  | .sum, vs => numNary L I64.sum (floatSum L.f32) (floatSum L.f64) vs
  | .prod, vs => numNary L I64.prod (floatProd L.f32) (floatProd L.f64) vs
  | .concat, vs => strConcat L vs

/-- All built-in functions. -/
def sem (L : Lib) : Sem DV UFn BFn TFn NFn := ⟨unEval L, binEval L, terEval L, naryEval L⟩

end Verif.Fn
