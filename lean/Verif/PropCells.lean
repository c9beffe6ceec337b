import Verif.CellFormat
/-
C32: what is written into the cells of delimiter-separated files is read back.
-/

set_option linter.unusedVariables false
set_option linter.unusedSimpArgs false

namespace Verif.Lit
open Verif.Fn

/-! ### Trimming, quotes -/

theorem trim_id {a b : Char} {cs : List Char} (h1 : cs.head? = some a) (ha : isWhite a = false)
    (h2 : cs.getLast? = some b) (hb : isWhite b = false) : trim cs = cs := by
  unfold trim
  cases cs with
  | nil => simp at h1
  | cons c cs =>
      simp only [List.head?_cons, Option.some.injEq] at h1
      subst h1
      rw [List.dropWhile_cons_of_neg (by simpa using ha)]
      rw [List.rdropWhile_eq_self_iff]
      intro hl
      rw [List.getLast?_eq_some_getLast hl] at h2
      simp only [Option.some.injEq] at h2
      rw [h2, hb]
      simp

theorem lastQuote_none {b : List Char} (h : '"' ∉ b) : lastQuote b = none := by
  induction b with
  | nil => rfl
  | cons c b ih =>
      simp only [List.mem_cons, not_or] at h
      rw [lastQuote, ih h.2]
      simp only
      rw [if_neg (fun e => h.1 e.symm)]

theorem lastQuote_append (a : List Char) {b : List Char} (h : '"' ∉ b) : lastQuote (a ++ '"' :: b) = some (a, b) := by
  induction a with
  | nil => simp [lastQuote, lastQuote_none h]
  | cons c a ih => simp [lastQuote, ih]

/-- A character that quoting leaves alone. -/
def PlainChar (c : Char) : Prop := c ≠ '\\' ∧ c ≠ '"' ∧ c ≠ '\r' ∧ c ≠ '\n'

theorem replaceChar_id {c : Char} {r s : List Char} (h : c ∉ s) : replaceChar c r s = s := by
  induction s with
  | nil => rfl
  | cons x s ih =>
      simp only [List.mem_cons, not_or] at h
      simp only [replaceChar, List.flatMap_cons] at ih ⊢
      rw [if_neg (fun e => h.1 e.symm), ih h.2]
      rfl

theorem escape_plain {s : List Char} (h : ∀ c ∈ s, PlainChar c) : escape s = s := by
  unfold escape
  rw [replaceChar_id (c := '\\') (fun m => (h _ m).1 rfl), replaceChar_id (c := '"') (fun m => (h _ m).2.1 rfl),
    replaceChar_id (c := '\r') (fun m => (h _ m).2.2.1 rfl), replaceChar_id (c := '\n') (fun m => (h _ m).2.2.2 rfl)]

theorem replaceChar_length {c : Char} {r : List Char} (hr : 1 ≤ r.length) (s : List Char) :
    s.length ≤ (replaceChar c r s).length := by
  induction s with
  | nil => simp
  | cons x s ih =>
      simp only [replaceChar, List.flatMap_cons, List.length_append, List.length_cons] at ih ⊢
      by_cases e : x = c
      · rw [if_pos e]
        omega
      · rw [if_neg e, List.length_singleton]
        omega

theorem replaceChar_length_lt {c : Char} {r : List Char} (hr : 2 ≤ r.length) {s : List Char} (h : c ∈ s) :
    s.length < (replaceChar c r s).length := by
  induction s with
  | nil => simp at h
  | cons x s ih =>
      have h1 := replaceChar_length (c := c) (r := r) (by omega) s
      simp only [replaceChar, List.flatMap_cons, List.length_append, List.length_cons] at ih h1 ⊢
      by_cases e : x = c
      · rw [if_pos e]
        omega
      · rw [if_neg e]
        have := ih ((List.mem_cons.mp h).resolve_left (fun e' => e e'.symm))
        rw [List.length_singleton]
        omega

theorem mem_replaceChar {c x : Char} {r s : List Char} (hx : x ≠ c) (h : x ∈ s) : x ∈ replaceChar c r s := by
  unfold replaceChar
  rw [List.mem_flatMap]
  exact ⟨x, h, by rw [if_neg hx]; simp⟩

/-- Quoting changes exactly the texts with a backslash, a quote or a line break. -/
theorem escape_eq_iff (s : List Char) : escape s = s ↔ ∀ c ∈ s, PlainChar c := by
  constructor
  · intro h c hc
    have l1 := fun (t : List Char) => replaceChar_length (c := '\\') (r := ['\\', '\\']) (by simp) t
    have l2 := fun (t : List Char) => replaceChar_length (c := '"') (r := ['\\', '"']) (by simp) t
    have l3 := fun (t : List Char) => replaceChar_length (c := '\r') (r := ['\\', 'r']) (by simp) t
    have l4 := fun (t : List Char) => replaceChar_length (c := '\n') (r := ['\\', 'n']) (by simp) t
    have hl := congrArg List.length h
    unfold escape at hl
    have a1 := l1 s
    have a2 := l2 (replaceChar '\\' ['\\', '\\'] s)
    have a3 := l3 (replaceChar '"' ['\\', '"'] (replaceChar '\\' ['\\', '\\'] s))
    have a4 := l4 (replaceChar '\r' ['\\', 'r'] (replaceChar '"' ['\\', '"'] (replaceChar '\\' ['\\', '\\'] s)))
    refine ⟨?_, ?_, ?_, ?_⟩ <;> rintro rfl
    · have := replaceChar_length_lt (r := ['\\', '\\']) (by simp) hc
      omega
    · have := replaceChar_length_lt (r := ['\\', '"']) (by simp) (mem_replaceChar (c := '\\') (r := ['\\', '\\']) (by decide) hc)
      omega
    · have := replaceChar_length_lt (r := ['\\', 'r']) (by simp)
        (mem_replaceChar (c := '"') (r := ['\\', '"']) (by decide)
          (mem_replaceChar (c := '\\') (r := ['\\', '\\']) (by decide) hc))
      omega
    · have := replaceChar_length_lt (r := ['\\', 'n']) (by simp)
        (mem_replaceChar (c := '\r') (r := ['\\', 'r']) (by decide)
          (mem_replaceChar (c := '"') (r := ['\\', '"']) (by decide)
            (mem_replaceChar (c := '\\') (r := ['\\', '\\']) (by decide) hc)))
      omega
  · exact escape_plain

/-! ### Quoted cells -/

theorem special_quoted (L : Lib) (body post : List Char) (h : '"' ∉ post) :
    specialCell L ('"' :: body ++ '"' :: post) = match post with
      | [] => some (.val (.str (String.ofList body)))
      | c :: post => if c = '@' then some (.val (.lang (String.ofList body) (String.ofList (post.map Char.toLower))))
          else typedCell L ('"' :: body) (c :: post) := by
  rw [List.cons_append, specialCell, if_neg (by simp), if_neg (by decide), if_pos rfl]
  unfold quotedCell
  rw [← List.cons_append, lastQuote_append _ h]
  cases post with
  | nil => rfl
  | cons c post => rfl

theorem trimmed_quoted (L : Lib) {body post : List Char} {r : Res DV}
    (h : specialCell L ('"' :: body ++ '"' :: post) = some r) : trimmedCell L ('"' :: body ++ '"' :: post) = r := by
  unfold trimmedCell
  rw [if_neg (by simp), h]

theorem getLast_append_cons {a : List Char} {c : Char} {b : List Char} : (a ++ c :: b).getLast? = (c :: b).getLast? := by
  rw [List.getLast?_append]
  cases h : (c :: b).getLast? with
  | none => simp at h
  | some x => simp

/-- A cell that begins with a quote and does not end with a space is not trimmed. -/
theorem trim_quoted {body post : List Char} {b : Char} (hl : ('"' :: post).getLast? = some b) (hb : isWhite b = false) :
    trim ('"' :: body ++ '"' :: post) = '"' :: body ++ '"' :: post :=
  trim_id (a := '"') (by simp) (by decide) (by rw [getLast_append_cons]; exact hl) hb

theorem takeBytes_ascii3 (dt : List Char) : takeBytes 3 ('^' :: '^' :: '<' :: dt) = some ['^', '^', '<'] := by
  have h1 : ('^' : Char).utf8Size = 1 := by decide
  have h2 : ('<' : Char).utf8Size = 1 := by decide
  rw [takeBytes, if_pos (by rw [h1]; omega), h1, takeBytes, if_pos (by rw [h1]; omega), h1, takeBytes,
    if_pos (by rw [h2]), h2]
  simp [takeBytes]

/-- Reading a cell `"lex"^^<dt>`. -/
theorem parse_typed (L : Lib) (lex : List Char) {dt : String} (hdt : '"' ∉ dt.toList) {v : DV}
    (h : typedLit L (String.ofList lex) dt = .val v) : parseAny L (plainTyped lex dt) = .val v := by
  have e : plainTyped lex dt = '"' :: lex ++ '"' :: ('^' :: '^' :: '<' :: (dt.toList ++ ['>'])) := by
    simp [plainTyped, quoteIri]
  unfold parseAny
  rw [e, trim_quoted (b := '>') (by simp [List.getLast?_cons, List.getLast?_append]) (by decide)]
  apply trimmed_quoted
  rw [special_quoted L _ _ (by simpa using hdt)]
  simp only
  rw [if_neg (by decide)]
  unfold typedCell
  rw [if_pos ⟨by simp [List.getLast?_cons, List.getLast?_append], by
    have h1 : ('^' : Char).utf8Size = 1 := by decide
    have h2 : ('<' : Char).utf8Size = 1 := by decide
    have h3 : ('>' : Char).utf8Size = 1 := by decide
    simp only [byteLen, List.map_cons, List.map_append, List.map_nil, List.sum_cons, List.sum_append, List.sum_nil, h1, h2, h3]
    omega⟩, takeBytes_ascii3]
  simp only [if_true]
  simp only [dropFirst]
  have : ('^' :: '^' :: '<' :: (dt.toList ++ ['>'])).drop 3 = dt.toList ++ ['>'] := rfl
  rw [this, List.dropLast_concat, String.ofList_toList, h]

/-- Reading a quoted string: the text between the quotes, without undoing the quoting. -/
theorem parse_quoted (L : Lib) (body : List Char) : parseAny L ('"' :: body ++ ['"']) = .val (.str (String.ofList body)) := by
  unfold parseAny
  rw [trim_quoted (b := '"') (by simp) (by decide)]
  apply trimmed_quoted
  rw [special_quoted L _ _ (by simp)]

theorem parse_lang (L : Lib) (body : List Char) {tag : List Char} (hq : '"' ∉ tag) (hl : ∀ b, tag.getLast? = some b → isWhite b = false) :
    parseAny L ('"' :: body ++ '"' :: '@' :: tag) = .val (.lang (String.ofList body) (String.ofList (tag.map Char.toLower))) := by
  unfold parseAny
  have : ∃ b, ('"' :: '@' :: tag).getLast? = some b ∧ isWhite b = false := by
    cases ht : tag.getLast? with
    | none => exact ⟨'@', by
        rw [List.getLast?_eq_none_iff] at ht
        subst ht
        rfl, by decide⟩
    | some b => exact ⟨b, by simp [List.getLast?_cons, ht], hl b ht⟩
  obtain ⟨b, h1, h2⟩ := this
  rw [trim_quoted (b := b) h1 h2]
  apply trimmed_quoted
  rw [special_quoted L _ _ (by simpa using hq)]
  simp only [if_true]

/-! ### Numbers -/

theorem not_white_of_digit {c : Char} (h : ∃ d, digit 10 c = some d) : isWhite c = false := by
  obtain ⟨d, h⟩ := h
  have h1 := (digit_char h).2
  have h2 := digit_lt h
  unfold isWhite
  simp
  omega

theorem special_decimal (L : Lib) {c : Char} {cs : List Char}
    (hc : (∃ d, digit 10 c = some d) ∨ c = '+' ∨ c = '-') {v : DV} (h : decimalLit (c :: cs) .decimal = .val v) :
    specialCell L (c :: cs) = some (.val v) := by
  have hlt : c ≠ '<' := by
    rintro rfl
    rcases hc with ⟨d, hd⟩ | h | h
    · simp [digit] at hd
    · exact absurd h (by decide)
    · exact absurd h (by decide)
  have hcond : (specialCell.IsDigitB c || c = '+' || c = '-') = true := by
    rcases hc with ⟨d, hd⟩ | h | h
    · simp [specialCell.IsDigitB, hd]
    · simp [h]
    · simp [h]
  rw [specialCell, if_neg (fun hh => hlt hh.1), if_pos hcond, h]

/-- Reading a cell with an integer, however large. -/
theorem parse_integer (L : Lib) {cs : List Char} {neg : Bool} {ip : List Char} (h : IsInteger cs neg ip) :
    parseAny L cs = .val (canon neg ip none) := by
  obtain ⟨sg, hs, rfl⟩ := h.text
  have hne : ip ≠ [] := by
    have := h.some_digit
    simpa using this
  simp only [fracText, List.append_nil]
  obtain ⟨ip', b, rfl⟩ : ∃ ip' b, ip = ip' ++ [b] := ⟨ip.dropLast, ip.getLast hne, (List.dropLast_append_getLast hne).symm⟩
  have hb : isWhite b = false := not_white_of_digit (h.int b (by simp))
  have hdec := decimalLit_decimal h
  simp only [fracText, List.append_nil] at hdec
  obtain ⟨c, rest, he, hc⟩ : ∃ c rest, sg ++ (ip' ++ [b]) = c :: rest ∧ ((∃ d, digit 10 c = some d) ∨ c = '+' ∨ c = '-') := by
    cases hs with
    | absent =>
        cases ip' with
        | nil => exact ⟨b, [], rfl, .inl (h.int b (by simp))⟩
        | cons x ip' => exact ⟨x, ip' ++ [b], rfl, .inl (h.int x (by simp))⟩
    | plus => exact ⟨'+', ip' ++ [b], rfl, .inr (.inl rfl)⟩
    | minus => exact ⟨'-', ip' ++ [b], rfl, .inr (.inr rfl)⟩
  unfold parseAny
  have hcw : isWhite c = false := by
    rcases hc with hd | rfl | rfl
    · exact not_white_of_digit hd
    · decide
    · decide
  rw [trim_id (a := c) (b := b) (by rw [he]; rfl) hcw (by rw [← List.append_assoc]; simp) hb]
  unfold trimmedCell
  rw [if_neg (by simp [he])]
  rw [he] at hdec ⊢
  rw [special_decimal L hc hdec]

theorem parse_long (L : Lib) (i : Int64) : parseAny L (decimalInt i.toInt) = .val (.long i) := by
  obtain ⟨neg, hi, hv⟩ := decimalInt_integer i.toInt
  rw [parse_integer L hi]
  unfold canon
  rw [if_pos (show NoFrac none from rfl), hv, if_pos, Int64.ofInt_toInt]
  have h1 := Int64.le_toInt i
  have h2 := Int64.toInt_lt i
  simp [IntTy.Has, i64]
  omega

theorem decimal_integer (n : Nat) : IsInteger (decimal n) false (decimal n) :=
  ⟨⟨[], .absent, by simp [fracText]⟩, decimal_digits _, by simp [AllDigits], by simpa using decimal_ne_nil _⟩

/-! ### IRIs -/

/-- A text that is recognized as an IRI without the angle brackets. -/
structure IriText (s : List Char) : Prop where
  first : ∃ c, s.head? = some c ∧ digit 10 c = none ∧ c ≠ '+' ∧ c ≠ '-' ∧ c ≠ '"'
  chars : ∀ c ∈ s, isWhite c = false ∧ c ≠ '>'

theorem parse_iri (L : Lib) {s : List Char} (h : IriText s) : parseAny L s = .val (.iri (String.ofList s)) := by
  obtain ⟨c, hc, h1, h2, h3, h4⟩ := h.first
  cases s with
  | nil => simp at hc
  | cons x cs =>
      simp only [List.head?_cons, Option.some.injEq] at hc
      subst hc
      obtain ⟨b, hb⟩ : ∃ b, (x :: cs).getLast? = some b := ⟨_, List.getLast?_eq_some_getLast (by simp)⟩
      have hbm : b ∈ x :: cs := List.mem_of_getLast? hb
      unfold parseAny
      rw [trim_id (a := x) (b := b) rfl (h.chars x (by simp)).1 hb (h.chars b hbm).1]
      unfold trimmedCell
      rw [if_neg (by simp), specialCell, if_neg (fun hh => (h.chars b hbm).2 (by rw [hb] at hh; simpa using hh.2)),
        if_neg (by simp [specialCell.IsDigitB, h1, h2, h3]), if_neg h4]
      simp only [otherCell]
      split_ifs with c1 c2
      · rfl
      · rfl
      · exfalso
        apply c2
        simp only [isIriToken, List.isEmpty_cons, Bool.not_false, Bool.true_and, List.all_eq_true]
        intro d hd
        have := h.chars d hd
        have hs : d ≠ ' ' := by rintro rfl; exact absurd this.1 (by decide)
        have hn : d ≠ '\n' := by rintro rfl; exact absurd this.1 (by decide)
        simp [this.2, hs, hn]

/-! ### The round trip -/

/-- The values that cells keep. `X` prints floating point numbers. -/
inductive Survives (L : Lib) : DV → Prop
  /-- strings without backslash, quote and line breaks -/
  | str {s : String} : (∀ c ∈ s.toList, PlainChar c) → Survives L (.str s)
  /-- the same for strings with a language tag, which is always in lower case -/
  | lang {s tag : String} : (∀ c ∈ s.toList, PlainChar c) → (∀ c ∈ tag.toList, c ≠ '"' ∧ isWhite c = false ∧ c.toLower = c) →
      Survives L (.lang s tag)
  | iri {s : String} : IriText s.toList → Survives L (.iri s)
  | double (f : F64) : Survives L (.double f)
  | bool (b : Bool) : Survives L (.bool b)
  | long (i : Int64) : Survives L (.long i)
  | ulong {n : UInt64} : n.toNat < 2 ^ 63 → Survives L (.ulong n)
  /-- values of other datatypes: values that some typed literal denotes -/
  | other {s dt : String} : typedLit L s dt = .val (.other s dt) → (∀ c ∈ s.toList, PlainChar c) → '"' ∉ dt.toList →
      Survives L (.other s dt)

/-- **C32.** Values read back from a cell: a value that is written into a cell of a delimiter-separated
file and is one of those listed in `Survives` is read as an equal value. For doubles this needs that
printing and parsing are inverse. -/
theorem cell_roundtrip (L : Lib) (X : FloatText) (hX : ∀ f, L.parseF64 (String.ofList (X.showF64 f)) = some f)
    {v : DV} (h : Survives L v) : ∃ v', parseAny L (serializeAny X v) = .val v' ∧ DV.eq v' v = true := by
  have xsdq : ∀ t : String, '"' ∉ t.toList → '"' ∉ (XSD ++ t).toList := by
    intro t ht hm
    rw [String.toList_append, List.mem_append] at hm
    exact hm.elim (by decide) ht
  cases h with
  | @str s hp =>
      refine ⟨.str s, ?_, by simp [DV.eq]⟩
      simp only [serializeAny, serializeInteger, serializeOther, canonical, quoteString]
      rw [escape_plain hp, parse_quoted, String.ofList_toList]
  | @lang s tag hp ht =>
      refine ⟨.lang s tag, ?_, by simp [DV.eq]⟩
      simp only [serializeAny, serializeInteger, serializeOther, canonical, quoteString]
      rw [escape_plain hp]
      have e : '"' :: s.toList ++ ['"'] ++ '@' :: tag.toList = '"' :: s.toList ++ '"' :: '@' :: tag.toList := by simp
      rw [e, parse_lang L _ (fun hm => (ht _ hm).1 rfl) (fun b hb => (ht b (List.mem_of_getLast? hb)).2.1),
        String.ofList_toList]
      have : tag.toList.map Char.toLower = tag.toList := by
        conv_rhs => rw [← List.map_id tag.toList]
        exact List.map_congr_left fun c hc => (ht c hc).2.2
      rw [this, String.ofList_toList]
  | @iri s hs =>
      refine ⟨.iri s, ?_, by simp [DV.eq]⟩
      simp only [serializeAny, serializeInteger, serializeOther]
      rw [parse_iri L hs, String.ofList_toList]
  | double f =>
      refine ⟨.double f, ?_, by simp [DV.eq]⟩
      simp only [serializeAny, serializeInteger, serializeOther, canonical]
      apply parse_typed L _ (xsdq _ (by decide))
      rw [typedLit_xsd, xsdLit_double, doubleLit, hX]
      rfl
  | bool b =>
      refine ⟨.bool b, ?_, by simp [DV.eq]⟩
      simp only [serializeAny, serializeInteger, serializeOther, canonical]
      apply parse_typed L _ (xsdq _ (by decide))
      rw [typedLit_xsd, xsdLit_boolean]
      cases b <;> simp [parseBool]
  | long i =>
      refine ⟨.long i, ?_, by simp [DV.eq]⟩
      simp only [serializeAny, serializeInteger, lexical]
      exact parse_long L i
  | @ulong n hn =>
      refine ⟨.long (Int64.ofInt n.toNat), ?_, ?_⟩
      · simp only [serializeAny, serializeInteger, lexical]
        rw [parse_integer L (decimal_integer _)]
        unfold canon
        rw [if_pos (show NoFrac none from rfl), numeral_decimal, if_pos]
        · simp [signed]
        · simp [IntTy.Has, i64, signed]
          omega
      · simp only [DV.eq, DV.toI64]
        rw [if_pos (by omega), Int64.toInt_ofInt_of_le (by omega) (by omega)]
        simp
  | @other s dt ht hp hq =>
      refine ⟨.other s dt, ?_, by simp [DV.eq]⟩
      by_cases hi : dt = XSD ++ "integer"
      · subst hi
        simp only [serializeAny, serializeInteger, if_true]
        rw [typedLit_xsd, xsdLit_integer] at ht
        have hint : ∃ neg ip, IsInteger s.toList neg ip := by
          obtain ⟨neg, ip, fp, hd, hv⟩ := decimalLit_val ht
          cases fp with
          | none => exact ⟨neg, ip, hd⟩
          | some fp =>
              rw [decimalLit_point hd (t := .integer) (by decide)] at ht
              cases ht
        obtain ⟨neg, ip, hI⟩ := hint
        rw [parse_integer L hI, decimalLit_canon hI ht]
      · simp only [serializeAny, serializeInteger, if_neg hi, serializeOther, canonical, quotedTyped, quoteString]
        rw [escape_plain hp]
        have : '"' :: s.toList ++ ['"'] ++ ['^', '^'] ++ quoteIri dt.toList = plainTyped s.toList dt := by simp [plainTyped]
        rw [this]
        apply parse_typed L _ hq
        rw [String.ofList_toList, ht]

/-! ### The other column formats -/

/-- **C32.** Columns of format `string` keep every string. -/
theorem string_format (L : Lib) (X : FloatText) {v : DV} {cell : List Char} (h : CellFormat.serialize X .string v = some cell) :
    CellFormat.parse L .string cell = .val v := by
  cases v <;> simp [CellFormat.serialize, serializeString] at h
  subst h
  simp [CellFormat.parse]

/-- **C32.** Columns of format `double` keep every double. -/
theorem double_format (L : Lib) (X : FloatText) (hX : ∀ f, L.parseF64 (String.ofList (X.showF64 f)) = some f)
    {v : DV} {cell : List Char} (h : CellFormat.serialize X .double v = some cell) :
    CellFormat.parse L .double cell = .val v := by
  cases v <;> simp [CellFormat.serialize, serializeDouble] at h
  subst h
  rw [CellFormat.parse, doubleLit, hX]
  rfl

/-- **C32.** Columns of format `int` keep every integer of up to 64 bits with sign, and every larger one
that was read as a literal. -/
theorem int_format (L : Lib) (X : FloatText) {v : DV} {cell : List Char} (hs : Survives L v)
    (h : CellFormat.serialize X .int v = some cell) :
    ∃ v', CellFormat.parse L .int cell = .val v' ∧ DV.eq v' v = true := by
  have key : ∀ {neg : Bool} {ip : List Char}, IsInteger cell neg ip → CellFormat.parse L .int cell = .val (canon neg ip none) := by
    intro neg ip hI
    exact (decimalLit_integer hI .integer).1 trivial
  cases hs with
  | str | lang | iri | double | bool => simp [CellFormat.serialize, serializeInteger] at h
  | long i =>
      simp only [CellFormat.serialize, serializeInteger, lexical, Option.some.injEq] at h
      subst h
      obtain ⟨neg, hi, hv⟩ := decimalInt_integer i.toInt
      refine ⟨.long i, ?_, by simp [DV.eq]⟩
      rw [key hi, ← parse_integer L hi, parse_long]
  | @ulong n hn =>
      simp only [CellFormat.serialize, serializeInteger, lexical, Option.some.injEq] at h
      subst h
      refine ⟨.long (Int64.ofInt n.toNat), ?_, ?_⟩
      · rw [key (decimal_integer _)]
        unfold canon
        rw [if_pos (show NoFrac none from rfl), numeral_decimal, if_pos]
        · simp [signed]
        · simp [IntTy.Has, i64, signed]
          omega
      · simp only [DV.eq, DV.toI64]
        rw [if_pos (by omega), Int64.toInt_ofInt_of_le (by omega) (by omega)]
        simp
  | @other s dt ht hp hq =>
      simp only [CellFormat.serialize, serializeInteger] at h
      split_ifs at h with hi
      simp only [Option.some.injEq] at h
      subst h hi
      refine ⟨.other s (XSD ++ "integer"), ?_, by simp [DV.eq]⟩
      rw [typedLit_xsd, xsdLit_integer] at ht
      exact ht

/-! ### What does not survive -/

/-- **C32, finding.** Strings: the text is quoted on writing, but the quoting is not undone on reading
(value_format.rs:199-202). So exactly the strings without backslash, quote and line break survive. -/
theorem string_cell (L : Lib) (X : FloatText) (s : String) :
    parseAny L (serializeAny X (.str s)) = .val (.str (String.ofList (escape s.toList))) ∧
    (String.ofList (escape s.toList) = s ↔ ∀ c ∈ s.toList, PlainChar c) := by
  constructor
  · simp only [serializeAny, serializeInteger, serializeOther, canonical, quoteString]
    rw [parse_quoted]
  · rw [← escape_eq_iff]
    constructor
    · intro h
      have := congrArg String.toList h
      rwa [String.toList_ofList] at this
    · intro h
      rw [h, String.ofList_toList]

/-- Each round trip doubles the backslashes. -/
theorem string_cell_changed (L : Lib) (X : FloatText) :
    parseAny L (serializeAny X (.str "a\\b")) = .val (.str "a\\\\b") ∧ DV.eq (.str "a\\\\b") (.str "a\\b") = false := by
  refine ⟨?_, by simp [DV.eq]⟩
  rw [(string_cell L X _).1]
  congr 2

/-- **Finding.** Integers from 2^63 on that are stored as `u64` come back as texts with a datatype. -/
theorem ulong_cell (L : Lib) (X : FloatText) {n : UInt64} (hn : 2 ^ 63 ≤ n.toNat) :
    ∃ v', parseAny L (serializeAny X (.ulong n)) = .val v' ∧ DV.eq v' (.ulong n) = false := by
  refine ⟨.other (String.ofList (minus false ++ int0 (decimal n.toNat))) (XSD ++ "integer"), ?_, by simp [DV.eq]⟩
  simp only [serializeAny, serializeInteger, lexical]
  rw [parse_integer L (decimal_integer _)]
  unfold canon
  rw [if_pos (show NoFrac none from rfl), numeral_decimal, if_neg, if_neg (by simp)]
  simp [IntTy.Has, i64, signed]
  omega

/-- **Finding.** Single precision numbers come back as texts with a datatype. -/
theorem float_cell (L : Lib) (X : FloatText) (f : F32) :
    ∃ v', parseAny L (serializeAny X (.float f)) = .val v' ∧ DV.eq v' (.float f) = false := by
  refine ⟨.other (String.ofList (X.showF32 f)) (XSD ++ "float"), ?_, by simp [DV.eq]⟩
  simp only [serializeAny, serializeInteger, serializeOther, canonical]
  apply parse_typed L _
  · intro hm
    rw [typeIri, String.toList_append, List.mem_append] at hm
    exact hm.elim (by decide) (by decide)
  rw [typeIri, typedLit_xsd]
  simp [xsdLit]

/-- **Finding.** Nulls are written as `_:n` and come back as the IRI `_:n`. -/
theorem null_cell (L : Lib) (X : FloatText) (id : Nat) :
    parseAny L (serializeAny X (.null id)) = .val (.iri (String.ofList ('_' :: ':' :: decimal id))) := by
  simp only [serializeAny, serializeInteger, serializeOther, canonical]
  apply parse_iri
  refine ⟨⟨'_', rfl, by decide, by decide, by decide, by decide⟩, ?_⟩
  intro c hc
  simp only [List.mem_cons] at hc
  rcases hc with rfl | rfl | hc
  · decide
  · decide
  · have hd := decimal_digits id c hc
    refine ⟨not_white_of_digit hd, ?_⟩
    rintro rfl
    obtain ⟨d, hd⟩ := hd
    simp [digit] at hd

/-- **Finding.** IRIs are written without angle brackets, and are indistinguishable from other values:
the IRI `5` comes back as the number, and the empty IRI as the empty string (the comment in line 265
claims that texts that are IRIs are always recognized). -/
theorem iri_cell (L : Lib) (X : FloatText) :
    parseAny L (serializeAny X (.iri "5")) = .val (.long 5) ∧ parseAny L (serializeAny X (.iri "")) = .val (.str "") := by
  constructor
  · have := parse_long L 5
    have e : decimalInt (5 : Int64).toInt = "5".toList := by decide +kernel
    rw [e] at this
    exact this
  · rfl

/-- **Finding.** Tuples and maps come back as texts with a datatype. -/
theorem tuple_cell (L : Lib) (X : FloatText) (l : Option String) (vs : List DV) :
    parseAny L (serializeAny X (.tuple l vs)) =
      .val (.other (String.ofList (escape (lexical X (.tuple l vs)))) "nemo:tuple") := by
  simp only [serializeAny, serializeInteger, serializeOther, canonical, lexical]
  rw [quotedTyped, quoteString]
  have : ∀ b : List Char, '"' :: b ++ ['"'] ++ ['^', '^'] ++ quoteIri (typeIri .tuple).toList = plainTyped b "nemo:tuple" := by
    intro b; simp [plainTyped, typeIri]
  rw [this]
  apply parse_typed L _ (by decide)
  unfold typedLit
  have : stripXsd "nemo:tuple" = none := by decide
  rw [this]

/-! ### Panics -/

theorem ite_ne_of {c : Prop} [Decidable c] {a b x : Res DV} (h1 : a ≠ x) (h2 : b ≠ x) : (if c then a else b) ≠ x := by
  split_ifs
  · exact h1
  · exact h2

theorem typedLit_no_panic (L : Lib) (s dt : String) : typedLit L s dt ≠ .panic := by
  have hi : ∀ lo hi, parseInteger s.toList lo hi ≠ .panic := by
    intro lo hi
    unfold parseInteger
    split
    · split_ifs <;> simp
    · simp
  unfold typedLit
  cases stripXsd dt with
  | none => simp
  | some ty =>
      simp only
      unfold xsdLit
      repeat' first
        | exact hi _ _
        | exact decimal_no_panic _ _
        | (refine ite_ne_of ?_ ?_)
      all_goals first
        | (intro hh; cases hh)
        | (unfold parseUnsignedLong
           split
           · split_ifs <;> simp
           · simp)
        | (unfold doubleLit
           cases L.parseF64 s <;> simp [Res.ofOption])
        | (unfold parseBool
           split_ifs <;> simp)

theorem lastQuote_spec {l a b : List Char} (h : lastQuote l = some (a, b)) : l = a ++ '"' :: b ∧ '"' ∉ b := by
  induction l generalizing a b with
  | nil => simp [lastQuote] at h
  | cons c l ih =>
      rw [lastQuote] at h
      cases hl : lastQuote l with
      | some p =>
          obtain ⟨a', b'⟩ := p
          rw [hl] at h
          simp only [Option.some.injEq, Prod.mk.injEq] at h
          obtain ⟨rfl, rfl⟩ := h
          obtain ⟨e1, e2⟩ := ih hl
          exact ⟨by rw [e1]; rfl, e2⟩
      | none =>
          rw [hl] at h
          simp only at h
          split_ifs at h with hc
          simp only [Option.some.injEq, Prod.mk.injEq] at h
          obtain ⟨rfl, rfl⟩ := h
          subst hc
          refine ⟨rfl, ?_⟩
          intro hm
          obtain ⟨x, y, hxy⟩ := List.append_of_mem hm
          have : ∀ x y : List Char, lastQuote (x ++ '"' :: y) ≠ none := by
            intro x y
            induction x with
            | nil =>
                rw [List.nil_append, lastQuote]
                cases lastQuote y with
                | none => simp
                | some p => simp
            | cons c x ih' =>
                rw [List.cons_append, lastQuote]
                cases h : lastQuote (x ++ '"' :: y) with
                | none => exact absurd h ih'
                | some p => simp
          rw [hxy] at hl
          exact this _ _ hl

theorem typedCell_panic {L : Lib} {pre post : List Char} (hp : pre ≠ []) (h : typedCell L pre post = some .panic) :
    takeBytes 3 post = none := by
  unfold typedCell at h
  split_ifs at h
  cases ht : takeBytes 3 post with
  | none => rfl
  | some p =>
      rw [ht] at h
      dsimp only at h
      split_ifs at h
      cases pre with
      | nil => exact absurd rfl hp
      | cons c pre =>
          dsimp only [dropFirst] at h
          split at h
          · simp at h
          · rename_i hh
            exact absurd hh (typedLit_no_panic _ _ _)
          · simp at h

/-- **C48.** Reading a cell can only panic if it begins with a quote and the text has no other quote, or
the text after its last quote has a character across its third byte. -/
theorem parse_panic (L : Lib) {cs : List Char} (h : parseAny L cs = .panic) :
    ∃ pre post, trim cs = pre ++ '"' :: post ∧ '"' ∉ post ∧ (pre = [] ∨ (pre.head? = some '"' ∧ takeBytes 3 post = none)) := by
  unfold parseAny trimmedCell at h
  split_ifs at h with h0
  cases ht : trim cs with
  | nil => exact absurd ht h0
  | cons c t =>
      rw [ht] at h
      cases hsp : specialCell L (c :: t) with
      | none => rw [hsp] at h; simp at h
      | some r =>
          rw [hsp] at h
          dsimp only at h
          subst h
          rw [specialCell] at hsp
          split_ifs at hsp with c1 c2 c3
          · simp at hsp
          · split at hsp
            · simp at hsp
            · rename_i hh
              exact absurd hh (decimal_no_panic _ _)
            · simp at hsp
          · subst c3
            unfold quotedCell at hsp
            cases hl : lastQuote ('"' :: t) with
            | none => rw [hl] at hsp; simp at hsp
            | some p =>
                obtain ⟨pre, post⟩ := p
                rw [hl] at hsp
                obtain ⟨e1, e2⟩ := lastQuote_spec hl
                refine ⟨pre, post, e1, e2, ?_⟩
                cases pre with
                | nil => exact .inl rfl
                | cons x pre =>
                    right
                    have hx : x = '"' := by simpa using (congrArg List.head? e1).symm
                    refine ⟨by simp [hx], ?_⟩
                    cases post with
                    | nil => simp [dropFirst] at hsp
                    | cons y post =>
                        dsimp only at hsp
                        split_ifs at hsp with cy
                        · simp [dropFirst] at hsp
                        · exact typedCell_panic (by simp) hsp

/-- **Findings.** Cells that make the import panic (slices that begin after their end, or inside a
character). -/
theorem parse_panics (L : Lib) : parseAny L ['"'] = .panic ∧ parseAny L "\"@en".toList = .panic ∧
    parseAny L "\"^^<x>".toList = .panic ∧ parseAny L "\"a\"xxé>".toList = .panic := by
  refine ⟨rfl, rfl, ?_, ?_⟩
  · show trimmedCell L ('"' :: '^' :: '^' :: '<' :: 'x' :: ['>']) = _
    unfold trimmedCell
    rw [if_neg (by simp)]
    have : specialCell L ('"' :: '^' :: '^' :: '<' :: 'x' :: ['>']) = typedCell L [] ['^', '^', '<', 'x', '>'] := rfl
    rw [this]
    unfold typedCell
    rw [if_pos ⟨rfl, by decide⟩, takeBytes_ascii3 ['x', '>'] ]
    rfl
  · show trimmedCell L ['"', 'a', '"', 'x', 'x', 'é', '>'] = _
    unfold trimmedCell
    rw [if_neg (by simp)]
    have : specialCell L ['"', 'a', '"', 'x', 'x', 'é', '>'] = typedCell L ['"', 'a'] ['x', 'x', 'é', '>'] := rfl
    rw [this]
    unfold typedCell
    have : takeBytes 3 ['x', 'x', 'é', '>'] = none := by decide +kernel
    rw [if_pos ⟨rfl, by decide⟩, this]

end Verif.Lit
