import Verif.PropRdf
/-
Concrete cases for the theorems about literals, cells and files (C32, C47, C48).
-/

namespace Verif.Lit
namespace FileExample
open Verif.Fn

theorem all_digits {s : List Char} (h : ∀ c ∈ s, (digit 10 c).isSome = true) : AllDigits s :=
  fun c hc => Option.isSome_iff_exists.mp (h c hc)

/-- `-007.50` is a decimal number with the value -15/2. -/
theorem decimal_example : IsDecimal "-007.50".toList true "007".toList (some "50".toList) ∧
    decimalLit "-007.50".toList .decimal = .val (.other "-7.5" (XSD ++ "decimal")) := by
  have h : IsDecimal "-007.50".toList true "007".toList (some "50".toList) :=
    ⟨⟨['-'], .minus, by decide⟩, all_digits (by decide), all_digits (by decide), by decide⟩
  refine ⟨h, ?_⟩
  rw [decimalLit_decimal h]
  have h1 : ¬ NoFrac (some "50".toList) := by decide
  unfold canon
  rw [if_neg h1]
  congr 2

theorem int5 : IsInteger "5".toList false "5".toList :=
  ⟨⟨[], .absent, by decide⟩, all_digits (by decide), by simp [AllDigits], by decide⟩

theorem parse5 (L : Lib) : CellFormat.parse L .int "5".toList = .val (.long 5) := by
  have := (decimalLit_integer int5 .integer).1 trivial
  rw [CellFormat.parse, this]
  have h1 : NoFrac none := by decide
  have h2 : i64.Has (signed false (numeral "5".toList 0)) := by decide
  unfold canon
  rw [if_pos h1, if_pos h2]
  congr 2

theorem parse_abc (L : Lib) : CellFormat.parse L .int "abc".toList = .undef := by
  have := integer_abc L
  rw [typedLit_xsd, xsdLit_integer] at this
  exact this

/-- A file with a good record, one with a malformed number, and one with a cell too many: only the first one
is a row. -/
theorem record_example (L : Lib) :
    recordRow L [.string, .skip, .int] ["a".toList, "b".toList, "5".toList] = some [.str "a", .long 5] ∧
    recordRow L [.string, .skip, .int] ["a".toList, "b".toList, "abc".toList] = none ∧
    recordRow L [.string, .skip, .int] ["a".toList, "b".toList, "5".toList, "c".toList] = none := by
  refine ⟨?_, ?_, rfl⟩
  · unfold recordRow; rw [if_pos (by decide)]
    rw [cellValues, if_neg (by decide), cellValues, if_pos rfl, cellValues, if_neg (by decide), parse5]
    simp [cellValues, CellFormat.parse]
  · unfold recordRow; rw [if_pos (by decide)]
    rw [cellValues, if_neg (by decide), cellValues, if_pos rfl, cellValues, if_neg (by decide), parse_abc]
    simp [CellFormat.parse]

/-- The hypotheses of `dsv_import` for this file. -/
theorem import_example {α : Type} [SVal α] (L : Lib) (enc : DV → α) (zero : DV) :
    ∃ (b : PBuf DV α) (table : List (List α)),
      dsvRead L enc [.string, .skip, .int] none (PBuf.new zero 2 [])
        [["a".toList, "b".toList, "abc".toList], ["a".toList, "b".toList, "5".toList],
         ["a".toList, "b".toList, "5".toList, "c".toList]] = some b ∧
      b.buf.finalize = some table ∧ ∀ x, x ∈ table ↔ x = [enc (.str "a"), enc (.long 5)] := by
  have hno : ∀ c : List Char, CellFormat.parse L .int c ≠ .panic := fun c => decimal_no_panic c .integer
  obtain ⟨b, table, h1, h2, h3, h4⟩ := dsv_import L enc zero (formats := [.string, .skip, .int]) (output := 2) (ps := [])
    (by decide) (by decide) (patternsOK_nil 2) none
    [["a".toList, "b".toList, "abc".toList], ["a".toList, "b".toList, "5".toList],
      ["a".toList, "b".toList, "5".toList, "c".toList]] (by
      intro r _ i f c hf _
      match i, hf with
      | 0, hf => simp at hf; subst hf; simp [CellFormat.parse]
      | 1, hf => simp at hf; subst hf; simp [CellFormat.parse]
      | 2, hf => simp at hf; subst hf; exact hno c)
  refine ⟨b, table, h1, h2, fun x => ?_⟩
  obtain ⟨r1, r2, r3⟩ := record_example L
  have hl : limited none (List.filter (fun r : Record => decide (r.length = [CellFormat.string, .skip, .int].length))
      [["a".toList, "b".toList, "abc".toList], ["a".toList, "b".toList, "5".toList],
        ["a".toList, "b".toList, "5".toList, "c".toList]]) =
      [["a".toList, "b".toList, "abc".toList], ["a".toList, "b".toList, "5".toList]] := by decide
  rw [h4, hl]
  constructor
  · rintro ⟨r, m, row, e1, out, e2, rfl⟩
    simp only [List.mem_cons, List.not_mem_nil, or_false] at m
    simp only [filterResult, List.isEmpty_nil, if_true, Option.some.injEq] at e2
    subst e2
    rcases m with rfl | rfl
    · rw [r2] at e1; cases e1
    · rw [r1] at e1; cases e1; rfl
  · rintro rfl
    exact ⟨_, by simp, _, r1, _, rfl, rfl⟩

/-- Rows that delimiter-separated files keep. -/
theorem keeps_example (L : Lib) : KeepsRow L [.any, .any, .string, .int] [.iri "http://example.org/a", .str "a b", .str "\"", .long (-5)] := by
  refine ⟨.iri ⟨⟨'h', rfl, by decide, by decide, by decide, by decide⟩, by decide⟩, .str (by
    intro c hc
    have : ∀ c ∈ "a b".toList, c ≠ '\\' ∧ c ≠ '"' ∧ c ≠ '\r' ∧ c ≠ '\n' := by decide
    exact this c hc), ⟨_, rfl⟩, ⟨.long _, .inl ⟨_, rfl⟩⟩, trivial⟩

/-- A row that RDF files keep: a null, and a string that delimiter-separated files do not keep. -/
theorem rdf_example (L : Lib) (X : FloatText) : RdfRow L X false [.null 7, .iri "p", .str "\"\\"] :=
  ⟨.null 0, _, _, _, rfl, .inr ⟨7, rfl⟩, ⟨_, rfl⟩, .str _, by simp⟩

/-- A well-formed statement, and one that is not. -/
theorem wellFormed_example (L : Lib) :
    Quad.WellFormed L false [false, false, false] ⟨.defaultGraph, .named "s", .named "p", .typed "5" (XSD ++ "integer")⟩ ∧
    ¬ Quad.WellFormed L false [false, false, false] ⟨.defaultGraph, .named "s", .named "p", .typed "abc" (XSD ++ "integer")⟩ := by
  constructor
  · intro i t h1 h2
    match i with
    | 0 => simp [Quad.terms] at h2; subst h2; trivial
    | 1 => simp [Quad.terms] at h2; subst h2; trivial
    | 2 =>
        simp [Quad.terms] at h2
        subst h2
        refine ⟨.long 5, ?_⟩
        rw [typedLit_xsd, xsdLit_integer]
        exact parse5 L
    | i + 3 => simp [Quad.terms] at h2
  · intro h
    obtain ⟨v, hv⟩ := h 2 _ rfl rfl
    rw [integer_abc] at hv
    cases hv

end FileExample
end Verif.Lit
