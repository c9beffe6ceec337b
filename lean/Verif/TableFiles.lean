import Verif.PropCells
import Verif.ImportFilter
/-
Reading and writing whole tables (nemo/src/io/formats/dsv/{reader,writer}.rs, rdf/{reader,writer}.rs).
A delimiter-separated file is the list of its records (crate `csv`), an RDF file the list of its statements
(crates `oxrdf`, `oxrdfio`).
-/

set_option linter.unusedVariables false
set_option linter.unusedSimpArgs false
set_option linter.unusedSectionVars false

namespace Verif.Lit
open Verif.Fn
variable {α : Type} [SVal α]

/-! ### Delimiter-separated values: reading -/

/-- A record: the texts of its cells. -/
abbrev Record := List (List Char)

/-- The loop over the cells of a record, dsv/reader.rs:129-140. `none` is a panic. -/
def dsvCells (L : Lib) (enc : DV → α) : PBuf DV α → List CellFormat → Record → Option (PBuf DV α)
  | b, f :: fs, c :: cs =>
      if f = .skip then dsvCells L enc b fs cs
      else match f.parse L c with
        | .val v => match b.add enc v with
            | some b' => dsvCells L enc b' fs cs
            | none => none
        | .undef => some b.drop
        | .panic => none
  | b, _, _ => some b

/-- The loop over the records, dsv/reader.rs:123-149; `n` is `line_count`. -/
def dsvRecords (L : Lib) (enc : DV → α) (formats : List CellFormat) (stop : Nat) :
    Nat → PBuf DV α → List Record → Option (PBuf DV α)
  | _, b, [] => some b
  | n, b, r :: rs =>
      if r.length ≠ formats.length then dsvRecords L enc formats stop n b rs
      else match dsvCells L enc b formats r with
        | none => none
        | some b' => if n + 1 = stop then some b' else dsvRecords L enc formats stop (n + 1) b' rs

/-- `DsvReader::read`, dsv/reader.rs:98-156. -/
def dsvRead (L : Lib) (enc : DV → α) (formats : List CellFormat) (limit : Option Nat) (b : PBuf DV α) (file : List Record) :
    Option (PBuf DV α) :=
  dsvRecords L enc formats (limit.getD 0) 0 b file

/-! ### Delimiter-separated values: writing -/

/-- The loop over the values of a row, dsv/writer.rs:73-86: `none` if a value cannot be written. -/
def dsvLine (X : FloatText) : List CellFormat → List DV → Option Record
  | f :: fs, v :: vs =>
      if f = .skip then dsvLine X fs vs
      else match f.serialize X v with
        | some s => (dsvLine X fs vs).map (s :: ·)
        | none => none
  | _, _ => some []

/-- The loop over the rows, dsv/writer.rs:72-100; `n` is `line_count`. -/
def dsvLines (X : FloatText) (formats : List CellFormat) (stop : Nat) : Nat → List (List DV) → List Record
  | _, [] => []
  | n, row :: rows => match dsvLine X formats row with
      | some r => r :: (if n + 1 = stop then [] else dsvLines X formats stop (n + 1) rows)
      | none => dsvLines X formats stop n rows

/-- `DsvWriter::do_export`, dsv/writer.rs:51-107. -/
def dsvWrite (X : FloatText) (formats : List CellFormat) (limit : Option Nat) (rows : List (List DV)) : List Record :=
  dsvLines X formats (limit.getD 0) 0 rows

/-! ### RDF -/

/-- RDF terms (crate `oxrdf`), and the default graph. -/
inductive RTerm where
  | named (iri : String)
  | blank (label : String)
  | typed (lexical datatype : String)
  | lang (text tag : String)
  | simple (text : String)
  | defaultGraph

/-- A statement; its graph is ignored by the readers and writers of triples. -/
structure Quad where
  graph : RTerm
  subject : RTerm
  predicate : RTerm
  object : RTerm

/-- The nulls of the blank nodes that occurred, and the next null (`NullMap`,
nemo-physical/src/dictionary/string_map.rs; `fresh_null` of the dictionary, see C12). -/
structure Blanks where
  map : List (String × Nat)
  next : Nat

/-- `datavalue_from_blank_node`, rdf/reader.rs:89-101. -/
def Blanks.get (m : Blanks) (label : String) : Nat × Blanks :=
  match m.map.lookup label with
  | some n => (n, m)
  | none => (m.next, ⟨(label, m.next) :: m.map, m.next + 1⟩)

/-- rdf.rs: the IRI that stands for the default graph. -/
def DEFAULT_GRAPH : String := "tag:nemo:defaultgraph"

/-- `datavalue_from_subject`, `datavalue_from_term`, `datavalue_from_graph_name`, `datavalue_from_literal`,
rdf/reader.rs:83-165. -/
def RTerm.read (L : Lib) (m : Blanks) : RTerm → Res DV × Blanks
  | .named s => (.val (.iri s), m)
  | .blank b => (.val (.null (m.get b).1), (m.get b).2)
  | .typed s dt => (typedLit L s dt, m)
  | .lang s tag => (.val (.lang s (String.ofList (tag.toList.map Char.toLower))), m)
  | .simple s => (.val (.str s), m)
  | .defaultGraph => (.val (.iri DEFAULT_GRAPH), m)

/-- The state of a reader. -/
structure RdfSt (α : Type) where
  buf : PBuf DV α
  blanks : Blanks

/-- `on_quad`, rdf/reader.rs:200-213 and 275-296: the values of a statement that are not skipped, one after
the other. The Boolean is `false` if the function returns early with an error. `none` is a panic. -/
def rdfCells (L : Lib) (enc : DV → α) : RdfSt α → List Bool → List RTerm → Option (RdfSt α × Bool)
  | st, s :: ss, t :: ts =>
      if s then rdfCells L enc st ss ts
      else match t.read L st.blanks with
        | (.val v, m) => match st.buf.add enc v with
            | some b => rdfCells L enc ⟨b, m⟩ ss ts
            | none => none
        | (.undef, m) => some (⟨st.buf, m⟩, false)
        | (.panic, _) => none
  | st, _, _ => some (st, true)

/-- The components of a statement in the order in which they are read: triples and quads. -/
def Quad.terms (quads : Bool) (q : Quad) : List RTerm :=
  if quads then [q.graph, q.subject, q.predicate, q.object] else [q.subject, q.predicate, q.object]

/-- One round of the loop, rdf/reader.rs:193-233 and 268-316: the new state and count. `none` in the file is
a statement that the parser rejects. -/
def rdfStep (L : Lib) (enc : DV → α) (quads : Bool) (skips : List Bool) (stop n : Nat) (st : RdfSt α) :
    Option Quad → Option (RdfSt α × Nat)
  | none => some (st, n)
  | some q =>
      if n = stop then some (st, n)
      else match rdfCells L enc st skips (q.terms quads) with
        | none => none
        | some (st', true) => some (st', n + 1)
        | some (st', false) => some (st', n)

/-- The loop, rdf/reader.rs:223-238 and 306-321. -/
def rdfStatements (L : Lib) (enc : DV → α) (quads : Bool) (skips : List Bool) (stop : Nat) :
    Nat → RdfSt α → List (Option Quad) → Option (RdfSt α)
  | _, st, [] => some st
  | n, st, q :: qs => match rdfStep L enc quads skips stop n st q with
      | none => none
      | some (st', n') => if n' = stop then some st' else rdfStatements L enc quads skips stop n' st' qs

/-- `read_triples_with_parser` and `read_quads_with_parser`, rdf/reader.rs:168-326. -/
def rdfRead (L : Lib) (enc : DV → α) (quads : Bool) (skips : List Bool) (limit : Option Nat) (st : RdfSt α)
    (file : List (Option Quad)) : Option (RdfSt α) :=
  rdfStatements L enc quads skips (limit.getD (2 ^ 64 - 1)) 0 st file

/-- `set_object_from_datavalue`, rdf/writer.rs:151-193. -/
def objectTerm (X : FloatText) : DV → Option RTerm
  | .str s => some (.simple s)
  | .lang s tag => some (.lang s tag)
  | .iri s => some (.named s)
  | .tuple _ _ => none
  | .map _ _ => none
  | .null id => some (.blank (String.ofList (decimal id)))
  | v => (datatypeIri v).map fun dt => .typed (lexicalStr X v) dt

/-- `set_subject_from_datavalue`, rdf/writer.rs:125-139. -/
def subjectTerm : DV → Option RTerm
  | .iri s => some (.named s)
  | .null id => some (.blank (String.ofList (decimal id)))
  | _ => none

/-- `set_predicate_from_datavalue`, rdf/writer.rs:141-149. -/
def predicateTerm : DV → Option RTerm
  | .iri s => some (.named s)
  | _ => none

/-- `QuadGraphName::try_from`, rdf/writer.rs:45-63. -/
def graphTerm : DV → Option RTerm
  | .iri s => some (if s = DEFAULT_GRAPH then .defaultGraph else .named s)
  | .null id => some (.blank (String.ofList (decimal id)))
  | _ => none

/-- One row of `export_triples`, rdf/writer.rs:267-284. -/
def tripleOf (X : FloatText) : List DV → Option Quad
  | [s, p, o] => do
      let s ← subjectTerm s
      let p ← predicateTerm p
      let o ← objectTerm X o
      return ⟨.defaultGraph, s, p, o⟩
  | _ => none

/-- One row of `export_quads`, rdf/writer.rs:331-355. -/
def quadOf (X : FloatText) : List DV → Option Quad
  | [g, s, p, o] => do
      let s ← subjectTerm s
      let p ← predicateTerm p
      let o ← objectTerm X o
      let g ← graphTerm g
      return ⟨g, s, p, o⟩
  | _ => none

/-- The columns of a row that are not skipped, rdf/writer.rs:248-258. -/
def unskipped : List Bool → List DV → List DV
  | s :: ss, v :: vs => if s then unskipped ss vs else v :: unskipped ss vs
  | _, _ => []

/-- One row. -/
def rowQuad (X : FloatText) (quads : Bool) (skips : List Bool) (row : List DV) : Option Quad :=
  if quads then quadOf X (unskipped skips row) else tripleOf X (unskipped skips row)

/-- The loop, rdf/writer.rs:267-296 and 331-367 (the serializer only fails on I/O errors). -/
def rdfLines (X : FloatText) (quads : Bool) (skips : List Bool) (stop : Nat) : Nat → List (List DV) → List Quad
  | _, [] => []
  | n, row :: rows => match rowQuad X quads skips row with
      | some q => q :: (if n + 1 = stop then [] else rdfLines X quads skips stop (n + 1) rows)
      | none => rdfLines X quads skips stop n rows

/-- `export_triples` and `export_quads`, rdf/writer.rs:241-374. -/
def rdfWrite (X : FloatText) (quads : Bool) (skips : List Bool) (limit : Option Nat) (rows : List (List DV)) : List Quad :=
  rdfLines X quads skips (limit.getD (2 ^ 64 - 1)) 0 rows

end Verif.Lit
