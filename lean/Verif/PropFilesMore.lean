import Verif.PropRdf

/-!
# Literals and files: statements about single cells and rows

Bounded integer types, IRIs in angle brackets, the record of a row, columns that are not written, and RDF statements
whose first column is malformed.
-/

set_option linter.unusedSimpArgs false

namespace Verif.Lit
open Verif.Fn
variable {α : Type} [SVal α]

/-! ### Bounded integer types (C47) -/

/-- **Specification.** The datatypes with a bounded range (XML Schema part 2, section 3.4). -/
def boundedTypes : List (String × Int × Int) :=
  [("long", -9223372036854775808, 9223372036854775807), ("int", -2147483648, 2147483647), ("short", -32768, 32767),
   ("byte", -128, 127), ("unsignedInt", 0, 4294967295), ("unsignedShort", 0, 65535), ("unsignedByte", 0, 255)]

theorem parseInteger_accepts (cs : List Char) {lo hi : Int} (hlo : -9223372036854775808 ≤ lo) (hhi : hi ≤ 9223372036854775807) (v : DV) :
    parseInteger cs lo hi = .val v ↔ ∃ neg ip, IsInteger cs neg ip ∧ lo ≤ signed neg (numeral ip 0) ∧
      signed neg (numeral ip 0) ≤ hi ∧ v = .long (Int64.ofInt (signed neg (numeral ip 0))) := by
  constructor
  · intro h
    unfold parseInteger at h
    cases hf : fromStr i64 cs with
    | error e => rw [hf] at h; cases h
    | ok i =>
      rw [hf] at h
      dsimp only at h
      obtain ⟨neg, ip, h1, h2, h3⟩ := fromStr_ok i64_has_zero hf
      by_cases hb : lo ≤ i ∧ i ≤ hi
      · rw [if_pos hb] at h
        cases h
        subst h2
        exact ⟨neg, ip, h1, hb.1, hb.2, rfl⟩
      · rw [if_neg hb] at h
        cases h
  · rintro ⟨neg, ip, h1, h2, h3, rfl⟩
    unfold parseInteger
    have hh : i64.Has (signed neg (numeral ip 0)) := ⟨by show (-2^63 : Int) ≤ _; omega, by show _ ≤ (2^63 - 1 : Int); omega⟩
    rw [fromStr_integer i64_has_zero h1 (fun _ => rfl), if_pos hh]
    dsimp only
    rw [if_pos ⟨h2, h3⟩]

/-- **C47.** A literal of a bounded integer type is accepted exactly if it is a whole number in the range of the type, and
denotes this number. -/
theorem bounded_accepts (L : Lib) (s : String) {ty : String} {lo hi : Int} (h : (ty, lo, hi) ∈ boundedTypes) (v : DV) :
    typedLit L s (XSD ++ ty) = .val v ↔ ∃ neg ip, IsInteger s.toList neg ip ∧ lo ≤ signed neg (numeral ip 0) ∧
      signed neg (numeral ip 0) ≤ hi ∧ v = .long (Int64.ofInt (signed neg (numeral ip 0))) := by
  rw [typedLit_xsd]
  simp only [boundedTypes, List.mem_cons, Prod.mk.injEq, List.not_mem_nil, or_false] at h
  rcases h with ⟨rfl, rfl, rfl⟩ | ⟨rfl, rfl, rfl⟩ | ⟨rfl, rfl, rfl⟩ | ⟨rfl, rfl, rfl⟩ | ⟨rfl, rfl, rfl⟩ | ⟨rfl, rfl, rfl⟩ | ⟨rfl, rfl, rfl⟩ <;>
    · simp only [xsdLit, reduceCtorEq, String.reduceEq, if_true, if_false]
      exact parseInteger_accepts s.toList (by decide) (by decide) v

/-- **C47.** The same for `xsd:unsignedLong`, whose values are stored as `i64` if they fit. -/
theorem unsignedLong_accepts (L : Lib) (s : String) :
    (∃ v, typedLit L s (XSD ++ "unsignedLong") = .val v) ↔ ∃ ip, (IsInteger s.toList false ip) ∧ numeral ip 0 < 2 ^ 64 := by
  rw [typedLit_xsd]
  simp only [xsdLit, reduceCtorEq, String.reduceEq, if_true, if_false, parseUnsignedLong]
  constructor
  · rintro ⟨v, h⟩
    cases hf : fromStr u64 s.toList with
    | error e => rw [hf] at h; cases h
    | ok i =>
      obtain ⟨neg, ip, h1, h2, h3⟩ := fromStr_ok u64_has_zero hf
      cases neg with
      | false =>
        refine ⟨ip, h1, ?_⟩
        have := h3.2
        rw [h2] at this
        simp only [u64, signed, Bool.false_eq_true, if_false] at this
        omega
      | true =>
        exfalso
        obtain ⟨sgn, hsgn, hcs⟩ := h1.text
        cases hsgn
        simp only [fracText, List.append_nil, List.singleton_append] at hcs
        rw [hcs, fromStr_u64_minus (isInteger_ne h1)] at hf
        cases hf
  · rintro ⟨ip, h1, h2⟩
    rw [fromStr_integer u64_has_zero h1 (by simp)]
    have : u64.Has (signed false (numeral ip 0)) := ⟨by simp [u64, signed], by simp only [u64, signed]; omega⟩
    rw [if_pos this]
    dsimp only
    split <;> exact ⟨_, rfl⟩

/-! ### IRIs in angle brackets (C48) -/

/-- **C48.** A cell that consists of an IRI in angle brackets is read as this IRI. -/
theorem parse_bracketed (L : Lib) (s : List Char) : parseAny L ('<' :: s ++ ['>']) = .val (.iri (String.ofList s)) := by
  unfold parseAny
  rw [trim_id (a := '<') (b := '>') rfl (by decide) (by rw [show '<' :: s ++ ['>'] = ('<' :: s) ++ ['>'] from rfl, List.getLast?_concat]) (by decide)]
  unfold trimmedCell
  rw [if_neg (by simp), List.cons_append, specialCell, if_pos ⟨rfl, by rw [show '<' :: (s ++ ['>']) = ('<' :: s) ++ ['>'] from rfl, List.getLast?_concat]⟩]
  rw [List.dropLast_concat]

/-! ### Rows of exported files (C32, C48) -/

/-- **Specification.** `r` is the record for a row: the texts of the columns that are not skipped, in order. -/
inductive IsRecord (X : FloatText) : List CellFormat → List DV → Record → Prop
  | nil : IsRecord X [] [] []
  | skip (v : DV) {fs vs r} : IsRecord X fs vs r → IsRecord X (.skip :: fs) (v :: vs) r
  | cell {f : CellFormat} {v : DV} {c fs vs r} : f ≠ .skip → f.serialize X v = some c → IsRecord X fs vs r →
      IsRecord X (f :: fs) (v :: vs) (c :: r)

theorem dsvLine_iff (X : FloatText) : ∀ {formats : List CellFormat} {row : List DV}, formats.length = row.length →
    ∀ r, dsvLine X formats row = some r ↔ IsRecord X formats row r
  | [], [], _, r => by
      simp only [dsvLine, Option.some.injEq]
      constructor
      · rintro rfl; exact .nil
      · intro h; cases h; rfl
  | [], _ :: _, h, _ => by simp at h
  | _ :: _, [], h, _ => by simp at h
  | f :: fs, v :: vs, hl, r => by
      have ih := dsvLine_iff X (formats := fs) (row := vs) (by simpa using hl)
      rw [dsvLine]
      by_cases hf : f = .skip
      · subst hf
        rw [if_pos rfl, ih]
        constructor
        · exact .skip v
        · intro h
          cases h with
          | skip _ h => exact h
          | cell h _ _ => exact absurd rfl h
      · rw [if_neg hf]
        cases hs : f.serialize X v with
        | none =>
          simp only [reduceCtorEq, false_iff]
          intro h
          cases h with
          | skip _ h => exact hf rfl
          | cell _ h _ => rw [hs] at h; cases h
        | some c =>
          simp only [Option.map_eq_some_iff]
          constructor
          · rintro ⟨r', h1, rfl⟩
            exact .cell hf hs ((ih r').mp h1)
          · intro h
            cases h with
            | skip _ h => exact absurd rfl hf
            | cell _ h h' => rw [hs] at h; cases h; exact ⟨_, (ih _).mpr h', rfl⟩

/-- **C48.** The exported file consists of the records of rows: a record of a row that can be written for each such row,
and nothing else (without a limit). -/
theorem dsv_export_records (X : FloatText) {formats : List CellFormat} {rows : List (List DV)}
    (hl : ∀ row ∈ rows, formats.length = row.length) (r : Record) :
    r ∈ dsvWrite X formats none rows ↔ ∃ row ∈ rows, IsRecord X formats row r := by
  rw [dsv_export, limited, List.mem_filterMap]
  constructor
  · rintro ⟨row, h1, h2⟩
    exact ⟨row, h1, (dsvLine_iff X (hl row h1) r).mp h2⟩
  · rintro ⟨row, h1, h2⟩
    exact ⟨row, h1, (dsvLine_iff X (hl row h1) r).mpr h2⟩

/-- The columns that are not skipped. -/
theorem unskipped_spec : ∀ (skips : List Bool) (row : List DV),
    unskipped skips row = ((skips.zip row).filter fun x => !x.1).map Prod.snd
  | [], _ => by simp [unskipped]
  | _ :: _, [] => by simp [unskipped]
  | s :: ss, v :: vs => by
      rw [unskipped, unskipped_spec ss vs]
      cases s <;> simp

/-- **C48.** The exported triples are those whose components are the values of the columns that are not skipped. -/
theorem rdf_export_triples (X : FloatText) (skips : List Bool) {rows : List (List DV)} (hsize : rows.length < 2 ^ 64) (q : Quad) :
    q ∈ rdfWrite X false skips none rows ↔ ∃ row ∈ rows, ∃ s p o,
      ((skips.zip row).filter fun x => !x.1).map Prod.snd = [s, p, o] ∧ q.graph = .defaultGraph ∧
      subjectTerm s = some q.subject ∧ predicateTerm p = some q.predicate ∧ objectTerm X o = some q.object := by
  rw [rdf_export X false skips none rows hsize, limited, List.mem_filterMap]
  have key : ∀ row, rowQuad X false skips row = some q ↔ ∃ s p o,
      ((skips.zip row).filter fun x => !x.1).map Prod.snd = [s, p, o] ∧ q.graph = .defaultGraph ∧
      subjectTerm s = some q.subject ∧ predicateTerm p = some q.predicate ∧ objectTerm X o = some q.object := by
    intro row
    rw [← unskipped_spec]
    unfold rowQuad
    rw [if_neg (by simp)]
    constructor
    · intro h
      unfold tripleOf at h
      split at h
      · rename_i s p o hu
        refine ⟨s, p, o, hu, ?_⟩
        cases h1 : subjectTerm s with
        | none => simp [h1] at h
        | some ts =>
        cases h2 : predicateTerm p with
        | none => simp [h1, h2] at h
        | some tp =>
        cases h3 : objectTerm X o with
        | none => simp [h1, h2, h3] at h
        | some tob =>
        simp [h1, h2, h3] at h
        subst h
        exact ⟨rfl, rfl, rfl, rfl⟩
      · cases h
    · rintro ⟨s, p, o, h0, hg, h1, h2, h3⟩
      rw [h0, tripleOf]
      cases q
      simp only at hg h1 h2 h3
      subst hg
      simp [h1, h2, h3]
  constructor
  · rintro ⟨row, h1, h2⟩; exact ⟨row, h1, (key row).mp h2⟩
  · rintro ⟨row, h1, h2⟩; exact ⟨row, h1, (key row).mpr h2⟩

/-! ### RDF statements that are malformed (C48) -/

/-- **Specification.** The first column of the statement that is read is a malformed literal. -/
def FirstMalformed (L : Lib) : List Bool → List RTerm → Prop
  | s :: ss, t :: ts => if s then FirstMalformed L ss ts else ∃ lex dt, t = .typed lex dt ∧ typedLit L lex dt = .undef
  | _, _ => False

theorem rdfCells_firstMalformed (L : Lib) (enc : DV → α) (st : RdfSt α) : ∀ {skips : List Bool} {ts : List RTerm},
    FirstMalformed L skips ts → rdfCells L enc st skips ts = some (st, false)
  | [], _, h => by simp [FirstMalformed] at h
  | _ :: _, [], h => by simp [FirstMalformed] at h
  | s :: ss, t :: ts, h => by
      unfold FirstMalformed at h
      rw [rdfCells]
      cases s with
      | true => rw [if_pos rfl] at h ⊢; exact rdfCells_firstMalformed L enc st h
      | false =>
        rw [if_neg (by simp)] at h ⊢
        obtain ⟨lex, dt, rfl, h⟩ := h
        simp [RTerm.read, h]

/-- **C48.** A statement whose first column that is read is malformed is ignored: it does not count for the limit, and the
result is that for the file without it. -/
theorem rdf_malformed_ignored (L : Lib) (enc : DV → α) {quads : Bool} {skips : List Bool} {q : Quad}
    (hq : FirstMalformed L skips (q.terms quads)) (limit : Option Nat) (st : RdfSt α) (xs ys : List (Option Quad)) :
    rdfRead L enc quads skips limit st (xs ++ some q :: ys) = rdfRead L enc quads skips limit st (xs ++ none :: ys) := by
  unfold rdfRead
  generalize limit.getD (2 ^ 64 - 1) = stop
  generalize 0 = n
  induction xs generalizing n st with
  | nil =>
    rw [List.nil_append, List.nil_append, rdfStatements, rdfStatements]
    unfold rdfStep
    by_cases h : n = stop
    · simp [h]
    · simp [h, rdfCells_firstMalformed L enc st hq]
  | cons x xs ih =>
    rw [List.cons_append, List.cons_append, rdfStatements, rdfStatements]
    cases hs : rdfStep L enc quads skips stop n st x with
    | none => rfl
    | some y =>
      dsimp only
      split
      · rfl
      · exact ih _ _

/-! ### Examples -/

/-- 32767 is a short, 32768 is not. -/
theorem short_example (L : Lib) : typedLit L "32767" (XSD ++ "short") = .val (.long 32767) ∧
    ∀ v, typedLit L "32768" (XSD ++ "short") ≠ .val v := by
  rw [typedLit_xsd, typedLit_xsd]
  simp only [xsdLit, reduceCtorEq, String.reduceEq, if_true, if_false]
  have h1 : parseInteger "32767".toList (-32768) 32767 = .val (.long 32767) := by
    have : fromStr i64 "32767".toList = .ok 32767 := by decide +kernel
    rw [parseInteger, this]
    rfl
  have h2 : ∀ v, parseInteger "32768".toList (-32768) 32767 ≠ .val v := by
    have : fromStr i64 "32768".toList = .ok 32768 := by decide +kernel
    intro v
    rw [parseInteger, this]
    simp
  exact ⟨h1, h2⟩

/-- A statement with a malformed object, of which only the object is read. -/
theorem firstMalformed_example (L : Lib) : FirstMalformed L [true, true, false]
    ((⟨.defaultGraph, .named "s", .named "p", .typed "abc" (XSD ++ "integer")⟩ : Quad).terms false) :=
  ⟨_, _, rfl, integer_abc L⟩

end Verif.Lit
