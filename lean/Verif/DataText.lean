import Verif.PropLiterals
/-
The texts of data values: lexical value, datatype, canonical string
(nemo-physical/src/datavalues/*.rs), and how typed literals read them back.
-/

set_option linter.unusedVariables false
set_option linter.unusedSimpArgs false

namespace Verif.Lit
open Verif.Fn

/-- Printing of floating point numbers (std `Display`). -/
structure FloatText where
  showF32 : F32 → List Char
  showF64 : F64 → List Char

/-- `str::replace(char, &str)`. -/
def replaceChar (c : Char) (r : List Char) (s : List Char) : List Char :=
  s.flatMap fun x => if x = c then r else [x]

/-- The replacements of `quote_string`, datavalue.rs:15-22, one after the other. -/
def escape (s : List Char) : List Char :=
  replaceChar '\n' ['\\', 'n'] (replaceChar '\r' ['\\', 'r'] (replaceChar '"' ['\\', '"'] (replaceChar '\\' ['\\', '\\'] s)))

/-- `quote_string`, datavalue.rs:15-22. -/
def quoteString (s : List Char) : List Char := '"' :: escape s ++ ['"']

/-- `quote_iri`, datavalue.rs:26-28. -/
def quoteIri (s : List Char) : List Char := '<' :: s ++ ['>']

/-- `ValueDomain::type_iri`, datavalue.rs:98-128. Nulls and other literals have no type (there the
code panics; see `datatypeIri`). -/
def typeIri : ValueDomain → String
  | .plainString => XSD ++ "string"
  | .languageTaggedString => "http://www.w3.org/1999/02/22-rdf-syntax-ns#langString"
  | .iri => XSD ++ "anyURI"
  | .float => XSD ++ "float"
  | .double => XSD ++ "double"
  | .unsignedLong => XSD ++ "unsignedLong"
  | .long => XSD ++ "long"
  | .nonNegativeLong => XSD ++ "long"
  | .unsignedInt => XSD ++ "long"
  | .int => XSD ++ "int"
  | .nonNegativeInt => XSD ++ "int"
  | .tuple => "nemo:tuple"
  | .map => "nemo:map"
  | .boolean => XSD ++ "boolean"
  | .null => ""
  | .other => ""

/-- `datatype_iri` of the data values: `value_domain().type_iri()`, except for `OtherDataValue`
(other_datavalue.rs:20-22); `none` is the panic for nulls. -/
def datatypeIri : DV → Option String
  | .other _ dt => some dt
  | .null _ => none
  | v => some (typeIri v.domain)

/-- `"lex"^^<dt>` without escaping: canonical strings of numbers and booleans
(integer_datavalues.rs:47-49, 131-133, float_datavalues.rs:60-62, 143-145, boolean_datavalue.rs:48-60). -/
def plainTyped (lex : List Char) (dt : String) : List Char := '"' :: lex ++ ['"', '^', '^'] ++ quoteIri dt.toList

/-- `"lex"^^<dt>` with escaping (other_datavalue.rs:32-36, tuple_datavalue.rs:63-67, map_datavalue.rs:74-78). -/
def quotedTyped (lex : List Char) (dt : String) : List Char := quoteString lex ++ ['^', '^'] ++ quoteIri dt.toList

/-- The label of a tuple or map, as a canonical string. -/
def labelText : Option String → List Char
  | some l => quoteIri l.toList
  | none => []

mutual
/-- `lexical_value` of the data values. -/
def lexical (X : FloatText) : DV → List Char
  | .str s => s.toList
  | .lang s tag => s.toList ++ '@' :: replaceChar '@' ['@', '@'] tag.toList
  | .iri s => s.toList
  | .float f => X.showF32 f
  | .double f => X.showF64 f
  | .ulong n => decimal n.toNat
  | .long i => decimalInt i.toInt
  | .bool b => if b then "true".toList else "false".toList
  | .null id => decimal id
  | .tuple l vs => labelText l ++ '(' :: canonicalList X vs ++ [')']
  | .map l ps => labelText l ++ '{' :: canonicalPairs X ps ++ ['}']
  | .other s _ => s.toList
/-- `canonical_string` of the data values. -/
def canonical (X : FloatText) : DV → List Char
  | .str s => quoteString s.toList
  | .lang s tag => quoteString s.toList ++ '@' :: tag.toList
  | .iri s => quoteIri s.toList
  | .float f => plainTyped (X.showF32 f) (typeIri .float)
  | .double f => plainTyped (X.showF64 f) (typeIri .double)
  | .ulong n => plainTyped (decimal n.toNat) (typeIri (ulongDomain n.toNat))
  | .long i => plainTyped (decimalInt i.toInt) (typeIri (longDomain i.toInt))
  | .bool b => plainTyped (if b then "true".toList else "false".toList) (typeIri .boolean)
  | .null id => '_' :: ':' :: decimal id
  | .tuple l vs => quotedTyped (labelText l ++ '(' :: canonicalList X vs ++ [')']) (typeIri .tuple)
  | .map l ps => quotedTyped (labelText l ++ '{' :: canonicalPairs X ps ++ ['}']) (typeIri .map)
  | .other s dt => quotedTyped s.toList dt
/-- The canonical strings of the elements, separated by commas. -/
def canonicalList (X : FloatText) : List DV → List Char
  | [] => []
  | [v] => canonical X v
  | v :: vs => canonical X v ++ ',' :: canonicalList X vs
/-- The entries of a map. -/
def canonicalPairs (X : FloatText) : List (DV × DV) → List Char
  | [] => []
  | [p] => canonicalPair X p
  | p :: ps => canonicalPair X p ++ ',' :: canonicalPairs X ps
/-- An entry of a map. -/
def canonicalPair (X : FloatText) : DV × DV → List Char
  | (k, v) => canonical X k ++ '=' :: canonical X v
end

/-- The lexical value as a string. -/
def lexicalStr (X : FloatText) (v : DV) : String := String.ofList (lexical X v)

/-! ### Reading back -/

theorem stripXsd_append (t : String) : stripXsd (XSD ++ t) = some t := by
  unfold stripXsd
  rw [if_pos (by rw [String.toList_append]; exact List.prefix_append _ _), String.toList_append,
    List.drop_left' rfl, String.ofList_toList]

theorem stripXsd_some {dt t : String} (h : stripXsd dt = some t) : dt = XSD ++ t := by
  unfold stripXsd at h
  split_ifs at h with hp
  obtain ⟨r, hr⟩ := hp
  simp only [Option.some.injEq] at h
  rw [← hr, List.drop_left' rfl] at h
  rw [← h]
  apply String.toList_injective
  rw [String.toList_append, String.toList_ofList, hr]

theorem decimal_digits (n : Nat) : AllDigits (decimal n) := by
  intro c hc
  obtain ⟨d, hd, rfl⟩ := decimal_chars hc
  exact ⟨d, digit_decimal d hd⟩

theorem numeral_decimal (n : Nat) : numeral (decimal n) 0 = n := by
  have h1 := digits_decimal n
  rw [digits_eq (decimal_digits n)] at h1
  simpa using h1

theorem decimalInt_integer (i : Int) : ∃ neg, IsInteger (decimalInt i) neg (decimal i.natAbs) ∧
    signed neg (numeral (decimal i.natAbs) 0) = i := by
  unfold decimalInt
  split_ifs with h
  · refine ⟨true, ⟨⟨['-'], .minus, by simp [fracText]⟩, decimal_digits _, by simp [AllDigits],
      by simpa using decimal_ne_nil _⟩, ?_⟩
    rw [numeral_decimal]
    simp only [signed, if_true]
    omega
  · refine ⟨false, ⟨⟨[], .absent, by simp [fracText]⟩, decimal_digits _, by simp [AllDigits],
      by simpa using decimal_ne_nil _⟩, ?_⟩
    rw [numeral_decimal]
    simp [signed]
    omega

theorem fromStr_i64_show (i : Int64) : fromStr i64 (decimalInt i.toInt) = .ok i.toInt := by
  obtain ⟨neg, hi, hv⟩ := decimalInt_integer i.toInt
  rw [fromStr_integer i64_has_zero hi (fun _ => rfl), hv, if_pos]
  have h1 := Int64.le_toInt i
  have h2 := Int64.toInt_lt i
  simp [IntTy.Has, i64]
  omega

theorem fromStr_u64_show (n : UInt64) : fromStr u64 (decimal n.toNat) = .ok n.toNat := by
  have hi : IsInteger (decimal n.toNat) false (decimal n.toNat) :=
    ⟨⟨[], .absent, by simp [fracText]⟩, decimal_digits _, by simp [AllDigits], by simpa using decimal_ne_nil _⟩
  rw [fromStr_integer u64_has_zero hi (by simp), numeral_decimal, if_pos]
  · simp [signed]
  · have := n.toNat_lt
    simp [IntTy.Has, u64, signed]
    omega

theorem fromStr_i64_of_nat (n : UInt64) (h : n.toNat < 2 ^ 63) : fromStr i64 (decimal n.toNat) = .ok n.toNat := by
  have hi : IsInteger (decimal n.toNat) false (decimal n.toNat) :=
    ⟨⟨[], .absent, by simp [fracText]⟩, decimal_digits _, by simp [AllDigits], by simpa using decimal_ne_nil _⟩
  rw [fromStr_integer i64_has_zero hi (by simp), numeral_decimal, if_pos]
  · simp [signed]
  · simp [IntTy.Has, i64, signed]
    omega

theorem typedLit_xsd (L : Lib) (s t : String) : typedLit L s (XSD ++ t) = xsdLit L s (XSD ++ t) t := by
  unfold typedLit
  rw [stripXsd_append]

theorem xsdLit_string (L : Lib) (s dt : String) : xsdLit L s dt "string" = .val (.str s) := by simp [xsdLit]
theorem xsdLit_integer (L : Lib) (s dt : String) : xsdLit L s dt "integer" = decimalLit s.toList .integer := by
  simp [xsdLit]
theorem xsdLit_decimal (L : Lib) (s dt : String) : xsdLit L s dt "decimal" = decimalLit s.toList .decimal := by
  simp [xsdLit]
theorem xsdLit_double (L : Lib) (s dt : String) : xsdLit L s dt "double" = doubleLit L s := by simp [xsdLit]
theorem xsdLit_boolean (L : Lib) (s dt : String) : xsdLit L s dt "boolean" = parseBool s := by simp [xsdLit]

theorem int0_int0 {ip : List Char} (h : AllDigits ip) : int0 (int0 ip) = int0 ip :=
  int0_inj h.int0 h (numeral_int0 ip)

theorem fracPart_fracPart {fp : List Char} (h : AllDigits fp) : fracPart (fracPart fp) = fracPart fp :=
  fracPart_inj h.fracPart h (fracVal_fracPart fp)

/-- A value that a typed literal reads back from its own text and datatype. -/
def ReadsBack (L : Lib) (X : FloatText) (v : DV) : Prop :=
  ∃ dt v', datatypeIri v = some dt ∧ typedLit L (lexicalStr X v) dt = .val v' ∧ DV.eq v' v = true

theorem readsBack_long (L : Lib) (X : FloatText) (i : Int64) : ReadsBack L X (.long i) := by
  refine ⟨_, .long i, rfl, ?_, by simp [DV.eq]⟩
  have h1 := Int64.le_toInt i
  have h2 := Int64.toInt_lt i
  have key : ∀ lo hi : Int, lo ≤ i.toInt → i.toInt ≤ hi →
      parseInteger (lexicalStr X (.long i)).toList lo hi = .val (.long i) := by
    intro lo hi h3 h4
    unfold parseInteger lexicalStr
    rw [String.toList_ofList, lexical, fromStr_i64_show]
    simp only
    rw [if_pos ⟨h3, h4⟩, Int64.ofInt_toInt]
  simp only [DV.domain, longDomain]
  split_ifs with a b c d <;> simp only [typeIri, typedLit_xsd, xsdLit] <;> simp <;> apply key <;> omega

theorem readsBack_ulong (L : Lib) (X : FloatText) (n : UInt64) : ReadsBack L X (.ulong n) := by
  by_cases hlt : n.toNat < 2 ^ 63
  · refine ⟨_, .long (Int64.ofInt n.toNat), rfl, ?_, ?_⟩
    · have key : ∀ lo hi : Int, lo ≤ n.toNat → n.toNat ≤ hi →
          parseInteger (lexicalStr X (.ulong n)).toList lo hi = .val (.long (Int64.ofInt n.toNat)) := by
        intro lo hi h3 h4
        unfold parseInteger lexicalStr
        rw [String.toList_ofList, lexical, fromStr_i64_of_nat n hlt]
        simp only
        rw [if_pos ⟨h3, h4⟩]
      simp only [DV.domain, ulongDomain]
      split_ifs with a b c <;> simp only [typeIri, typedLit_xsd, xsdLit] <;> simp
      · apply key <;> omega
      · apply key <;> omega
      · apply key <;> omega
      · exfalso; omega
    · simp only [DV.eq, DV.toI64]
      rw [if_pos (by omega), Int64.toInt_ofInt_of_le (by omega) (by omega)]
      simp
  · refine ⟨_, .ulong n, rfl, ?_, by simp [DV.eq]⟩
    simp only [DV.domain, ulongDomain]
    rw [if_neg (by omega), if_neg (by omega), if_neg (by omega)]
    simp only [typeIri, typedLit_xsd, xsdLit]
    simp
    unfold parseUnsignedLong lexicalStr
    rw [String.toList_ofList, lexical, fromStr_u64_show]
    simp only
    rw [if_neg]
    · simp
    · simp [IntTy.Has, i64]
      omega

theorem readsBack_canon (L : Lib) (X : FloatText) {cs : List Char} {neg : Bool} {ip : List Char}
    {fp : Option (List Char)} (h : IsDecimal cs neg ip fp) : ReadsBack L X (canon neg ip fp) := by
  unfold canon
  split_ifs with hnf h1 h2
  · exact readsBack_long L X _
  · exact readsBack_ulong L X _
  · refine ⟨_, .other (String.ofList (minus neg ++ int0 ip)) (XSD ++ "integer"), rfl, ?_, by simp [DV.eq]⟩
    have hi := int0_integer neg h.int
    have hl : (lexicalStr X (.other (String.ofList (minus neg ++ int0 ip)) (XSD ++ "integer"))).toList =
        minus neg ++ int0 ip := by simp [lexicalStr, lexical]
    rw [typedLit_xsd, xsdLit_integer, hl, (decimalLit_integer hi .integer).1 trivial]
    unfold canon
    rw [if_pos (show NoFrac none from rfl), numeral_int0, if_neg h1, if_neg (by simp), int0_int0 h.int]
  · have hall : (fp.getD []).all zeroChar = false := by simpa [NoFrac] using hnf
    have hfr : frac0 (fp.getD []) = '.' :: fracPart (fp.getD []) := by
      unfold frac0
      rw [if_neg (by simpa using hall)]
    have hd : IsDecimal (minus neg ++ int0 ip ++ frac0 (fp.getD [])) neg (int0 ip) (some (fracPart (fp.getD []))) :=
      ⟨⟨minus neg, minus_sign neg, by rw [hfr, fracText]⟩, h.int.int0, h.frac.fracPart, by simp [int0_ne]⟩
    refine ⟨_, .other (String.ofList (minus neg ++ int0 ip ++ frac0 (fp.getD []))) (XSD ++ "decimal"), rfl, ?_,
      by simp [DV.eq]⟩
    have hl : (lexicalStr X (.other (String.ofList (minus neg ++ int0 ip ++ frac0 (fp.getD []))) (XSD ++ "decimal"))).toList =
        minus neg ++ int0 ip ++ frac0 (fp.getD []) := by simp [lexicalStr, lexical]
    rw [typedLit_xsd, xsdLit_decimal, hl, decimalLit_decimal hd]
    have hnz : (fracPart (fp.getD [])).all zeroChar = false := by
      rw [← Bool.not_eq_true, ← fracVal_zero h.frac.fracPart, fracVal_fracPart, fracVal_zero h.frac, hall]
      simp
    unfold canon
    rw [if_neg (by simpa [NoFrac] using hnz), int0_int0 h.int]
    have : frac0 ((some (fracPart (fp.getD []))).getD []) = frac0 (fp.getD []) := by
      simp only [Option.getD_some]
      unfold frac0
      rw [hnz, hall, fracPart_fracPart h.frac]
    rw [this]

theorem decimalLit_val {cs : List Char} {t : DecType} {v : DV} (h : decimalLit cs t = .val v) :
    ∃ neg ip fp, IsDecimal cs neg ip fp ∧ v = canon neg ip fp := by
  by_cases hd : ∃ neg ip fp, IsDecimal cs neg ip fp
  · obtain ⟨neg, ip, fp, hd⟩ := hd
    exact ⟨neg, ip, fp, hd, decimalLit_canon hd h⟩
  · push Not at hd
    rw [decimalLit_refused hd] at h
    cases h

/-- **C47, C32.** Typed literals are stable: whatever value a typed literal is read as, the datatype
and the lexical text of that value are a typed literal that is read as the same value. For doubles this
needs that printing and parsing floating point numbers are inverse. -/
theorem typedLit_stable (L : Lib) (X : FloatText) (hX : ∀ f, L.parseF64 (String.ofList (X.showF64 f)) = some f)
    {s dt : String} {v : DV} (h : typedLit L s dt = .val v) : ReadsBack L X v := by
  have hint : ∀ lo hi, parseInteger s.toList lo hi = .val v → ReadsBack L X v := by
    intro lo hi h
    unfold parseInteger at h
    split at h
    · split_ifs at h
      cases h
      exact readsBack_long L X _
    · cases h
  have hdec : ∀ t, decimalLit s.toList t = .val v → ReadsBack L X v := by
    intro t h
    obtain ⟨neg, ip, fp, hd, rfl⟩ := decimalLit_val h
    exact readsBack_canon L X hd
  have hother : typedLit L s dt = .val (.other s dt) → v = .other s dt → ReadsBack L X v := by
    rintro h rfl
    refine ⟨dt, .other s dt, rfl, ?_, by simp [DV.eq]⟩
    have : lexicalStr X (.other s dt) = s := by simp [lexicalStr, lexical]
    rw [this, h]
  have h0 := h
  unfold typedLit at h
  cases hty : stripXsd dt with
  | none =>
      rw [hty] at h
      cases h
      exact hother h0 rfl
  | some ty =>
      rw [hty] at h
      dsimp only at h
      unfold xsdLit at h
      by_cases c : ty = "string"
      · rw [if_pos c] at h
        cases h
        exact ⟨_, .str s, rfl, by
          rw [DV.domain, typeIri, typedLit_xsd, xsdLit_string, lexicalStr, lexical, String.ofList_toList], by simp [DV.eq]⟩
      rw [if_neg c] at h
      clear c
      by_cases c : ty = "long"
      · rw [if_pos c] at h; exact hint _ _ h
      rw [if_neg c] at h; clear c
      by_cases c : ty = "int"
      · rw [if_pos c] at h; exact hint _ _ h
      rw [if_neg c] at h; clear c
      by_cases c : ty = "short"
      · rw [if_pos c] at h; exact hint _ _ h
      rw [if_neg c] at h; clear c
      by_cases c : ty = "byte"
      · rw [if_pos c] at h; exact hint _ _ h
      rw [if_neg c] at h; clear c
      by_cases c : ty = "unsignedInt"
      · rw [if_pos c] at h; exact hint _ _ h
      rw [if_neg c] at h; clear c
      by_cases c : ty = "unsignedShort"
      · rw [if_pos c] at h; exact hint _ _ h
      rw [if_neg c] at h; clear c
      by_cases c : ty = "unsignedByte"
      · rw [if_pos c] at h; exact hint _ _ h
      rw [if_neg c] at h; clear c
      by_cases c : ty = "unsignedLong"
      · rw [if_pos c] at h
        unfold parseUnsignedLong at h
        split at h
        · split_ifs at h
          · cases h; exact readsBack_long L X _
          · cases h; exact readsBack_ulong L X _
        · cases h
      rw [if_neg c] at h; clear c
      by_cases c : ty = "decimal"
      · rw [if_pos c] at h; exact hdec _ h
      rw [if_neg c] at h; clear c
      by_cases c : ty = "integer"
      · rw [if_pos c] at h; exact hdec _ h
      rw [if_neg c] at h; clear c
      by_cases c : ty = "positiveInteger"
      · rw [if_pos c] at h; exact hdec _ h
      rw [if_neg c] at h; clear c
      by_cases c : ty = "nonNegativeInteger"
      · rw [if_pos c] at h; exact hdec _ h
      rw [if_neg c] at h; clear c
      by_cases c : ty = "negativeInteger"
      · rw [if_pos c] at h; exact hdec _ h
      rw [if_neg c] at h; clear c
      by_cases c : ty = "nonPositiveInteger"
      · rw [if_pos c] at h; exact hdec _ h
      rw [if_neg c] at h; clear c
      by_cases c : ty = "double"
      · rw [if_pos c] at h
        unfold doubleLit at h
        cases hp : L.parseF64 s with
        | none => rw [hp] at h; cases h
        | some f =>
            rw [hp] at h
            simp only [Option.map_some, Res.ofOption, Res.val.injEq] at h
            subst h
            refine ⟨_, .double f, rfl, ?_, by simp [DV.eq]⟩
            rw [DV.domain, typeIri, typedLit_xsd, xsdLit_double, doubleLit, lexicalStr, lexical, hX]
            rfl
      rw [if_neg c] at h; clear c
      by_cases c : ty = "boolean"
      · rw [if_pos c] at h
        unfold parseBool at h
        split_ifs at h
        · cases h
          exact ⟨_, .bool true, rfl, by
            rw [DV.domain, typeIri, typedLit_xsd, xsdLit_boolean, lexicalStr, lexical, if_pos rfl, String.ofList_toList]
            simp [parseBool], by simp [DV.eq]⟩
        · cases h
          exact ⟨_, .bool false, rfl, by
            rw [DV.domain, typeIri, typedLit_xsd, xsdLit_boolean, lexicalStr, lexical, if_neg (by simp), String.ofList_toList]
            simp [parseBool], by simp [DV.eq]⟩
      rw [if_neg c] at h; clear c
      cases h
      exact hother h0 rfl

/-- **Finding.** A single precision number does not read back: there is no case for `xsd:float`
(any_datavalue.rs:202-251), so its text becomes a literal of an unknown type. -/
theorem float_changed (L : Lib) (X : FloatText) (f : F32) :
    ∃ dt, datatypeIri (.float f) = some dt ∧
      typedLit L (lexicalStr X (.float f)) dt = .val (.other (String.ofList (X.showF32 f)) (XSD ++ "float")) ∧
      DV.eq (.other (String.ofList (X.showF32 f)) (XSD ++ "float")) (.float f) = false := by
  refine ⟨_, rfl, ?_, by simp [DV.eq]⟩
  rw [DV.domain, typeIri, typedLit_xsd]
  simp [xsdLit, lexicalStr, lexical]

end Verif.Lit
