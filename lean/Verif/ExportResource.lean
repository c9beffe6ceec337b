import Verif.ExportFilesExamples

/-!
# The resource of an export

Model of how a text becomes a resource, and of the default resource of exports, including when this panics.
-/

set_option linter.unusedSimpArgs false
set_option linter.unusedSectionVars false

namespace Verif
namespace Exporting

/-- What is used of a parsed IRI: its scheme, whether its authority is absent, empty or `localhost`, its path, its query and fragment (with their delimiters), and its text -/
structure IriParts where
  scheme : String
  isLocal : Bool
  path : String
  suffix : String
  text : String

/-- `strip_local_iri` (/repo/nemo-physical/src/resource.rs:222-244) -/
def stripLocalIri (i : IriParts) : Option String :=
  if i.path.toList.head? ≠ some '/' then none else if i.isLocal then some (i.path ++ i.suffix) else none

/-- `ResourceBuilder::try_from` for texts (resource.rs:350-413); `parse` is `Iri::parse`.  Simplified: the query of an HTTP resource can be decoded, and `Display` yields the text of the IRI. -/
def ofText (parse : String → Option IriParts) (s : String) : Option Res :=
  match parse s with
  | some i =>
    if i.scheme = "file" then (stripLocalIri i).map Res.file
    else if i.scheme = "http" ∨ i.scheme = "https" then some (.file i.text)
    else none
  | none => if s = "" then some .pipe else some (.file s)

/-- `default_resource_builder` (resource.rs:325-332); `none` is the panic of `expect` -/
def defaultResource (parse : String → Option IriParts) (predicate extension : String) : Option Res :=
  if predicate = "" then ofText parse "" else ofText parse (predicate ++ "." ++ extension)

/-- **When the default resource exists**: exactly if the name with the extension is no IRI, or a local `file` IRI with an absolute path, or a web address. -/
theorem defaultResource_iff (parse : String → Option IriParts) (he : parse "" = none) (predicate extension : String) :
    (∃ r, defaultResource parse predicate extension = some r) ↔
      (predicate = "" ∨ parse (predicate ++ "." ++ extension) = none ∨
        ∃ i, parse (predicate ++ "." ++ extension) = some i ∧ (i.scheme = "http" ∨ i.scheme = "https" ∨ (i.scheme = "file" ∧ i.isLocal = true ∧ i.path.toList.head? = some '/'))) := by
  unfold defaultResource
  by_cases hp : predicate = ""
  · simp [hp, ofText, he]
  · rw [if_neg hp]
    unfold ofText
    cases h : parse (predicate ++ "." ++ extension) with
    | none =>
      dsimp only
      refine ⟨fun _ => .inr (.inl rfl), fun _ => ?_⟩
      split
      · exact ⟨_, rfl⟩
      · exact ⟨_, rfl⟩
    | some i =>
      simp only [hp, reduceCtorEq, false_or, Option.some.injEq, exists_eq_left']
      by_cases h1 : i.scheme = "file"
      · simp only [h1, if_true, stripLocalIri]
        by_cases h2 : i.path.toList.head? = some '/'
        · cases h3 : i.isLocal <;> simp [h2]
        · simp [h2]
      · by_cases h2 : i.scheme = "http" ∨ i.scheme = "https"
        · rw [if_neg h1, if_pos h2]
          exact ⟨fun _ => h2.elim .inl fun h => .inr (.inl h), fun _ => ⟨_, rfl⟩⟩
        · rw [if_neg h1, if_neg h2]
          refine ⟨(fun h => by obtain ⟨_, h⟩ := h; cases h), ?_⟩
          rintro (h | h | ⟨h, -⟩)
          · exact absurd (.inl h) h2
          · exact absurd (.inr h) h2
          · exact absurd h h1

/-- The default resource of a predicate whose name is not an IRI is the one of `buildExport` -/
theorem defaultResource_plain {Row : Type} {parse : String → Option IriParts} (he : parse "" = none) {predicate extension : String} (h : parse (predicate ++ "." ++ extension) = none)
    (hne : predicate ++ "." ++ extension ≠ "") (c : Option Bool) (encode : List Row → Data × Bool) :
    defaultResource parse predicate extension = some (buildExport predicate extension ⟨none, c⟩ encode).res := by
  unfold defaultResource ofText
  by_cases hp : predicate = ""
  · rw [if_pos hp, he]
    simp [buildExport, hp]
  · rw [if_neg hp, h]
    simp only [hne, if_false]
    simp [buildExport, hp]

/-- **Exports of predicates with other IRIs panic**: for `@export <urn:p> :- csv{}.`, or any such predicate that is exported with default parameters, there is no default resource. -/
theorem urn_panics (parse : String → Option IriParts) {i : IriParts} (h : parse "urn:p.csv" = some i) (hs : i.scheme = "urn") : defaultResource parse "urn:p" "csv" = none := by
  have h1 : "urn:p" ++ "." ++ "csv" = "urn:p.csv" := by decide
  unfold defaultResource ofText
  rw [if_neg (by decide), h1, h]
  simp [hs]

/-- The hypotheses are met, for a parser that recognizes the scheme -/
def schemeParser (s : String) : Option IriParts :=
  if s = "urn:p.csv" then some ⟨"urn", true, "p.csv", "", s⟩ else if s = "http://a.b/p.csv" then some ⟨"http", false, "/p.csv", "", s⟩ else none

theorem scheme_example : defaultResource schemeParser "urn:p" "csv" = none ∧ defaultResource schemeParser "http://a.b/p" "csv" = some (.file "http://a.b/p.csv") ∧
    defaultResource schemeParser "p" "csv" = some (.file "p.csv") ∧ defaultResource schemeParser "" "csv" = some .pipe := by
  refine ⟨urn_panics _ (i := ⟨"urn", true, "p.csv", "", "urn:p.csv"⟩) rfl rfl, by decide, by decide, by decide⟩

end Exporting
end Verif
