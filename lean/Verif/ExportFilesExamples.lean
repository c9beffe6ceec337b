import Verif.ExportFiles

/-!
# Exports: names and compression, and exports that go wrong
-/

set_option linter.unusedSimpArgs false
set_option linter.unusedSectionVars false

namespace Verif
namespace Exporting

variable {Row : Type}

/-! ## The compression of an export, and reading the file again -/

/-- `from_file_extension` (/repo/nemo/src/io/compression_format.rs:60-65) of the extension of a name (/repo/nemo-physical/src/resource.rs:147-190): the part after the last `.`, if this is
not the first character; simplified: names of directories before the name of the file are not split off -/
def isGz (name : String) : Bool := decide (3 < name.length) && ['.', 'g', 'z'].isSuffixOf name.toList

/-- The parameters of an export directive that matter here: `resource` (a text, or standard output), and `compression` -/
structure Params where
  resource : Option Res
  compression : Option Bool

/-- `build_export` (/repo/nemo/src/io/format_builder.rs:733-766) and the compression (lines 534-539): if it is not given, it depends on the given resource; the default resource is the
name of the predicate with the default extension of the format (resource.rs:325-332) -/
def buildExport (predicate extension : String) (par : Params) (encode : List Row → Data × Bool) : Exp Row where
  res := par.resource.getD (if predicate = "" then .pipe else .file (predicate ++ "." ++ extension))
  gzip := par.compression.getD (match par.resource with
    | some (.file text) => isGz text
    | _ => false)
  encode := encode

/-- What an import reads from a file whose compression is not given: the content, decompressed according to the name of the file -/
def readBack (gunzip : Data → Data) (p : FPath) (content : Data) : Data := if isGz (p.getLastD "") then gunzip content else content

theorem isGz_append {s : String} (h : s ≠ "") : isGz (s ++ ".gz") = true := by
  have h1 : 0 < s.length := by
    rw [← String.length_toList]
    exact List.length_pos_iff.2 fun h2 => h (String.toList_inj.1 h2)
  have h2 : (s ++ ".gz").length = s.length + 3 := by
    rw [String.length_append]; rfl
  unfold isGz
  rw [h2, Bool.and_eq_true]
  refine ⟨by simpa using h1, ?_⟩
  rw [List.isSuffixOf_iff_suffix, String.toList_append]
  exact ⟨s.toList, rfl⟩

/-- **C67 (5): exported files can be read again.**  If the compression is not given, and the name of the file is given, then what an import reads from the exported file is the encoding of
the rows, whether or not compression is the default.  (Sanitised names are not empty and keep the extension.) -/
theorem export_readable {l : Lib} {m : Mgr} {gunzip : Data → Data} (hg : ∀ d, gunzip (l.gz d) = d) (hs : ∀ s, l.sanitise s ≠ "") (hx : ∀ s, isGz (l.sanitise s) = isGz s)
    {predicate extension text : String} {encode : List Row → Data × Bool} {p : FPath} (ht : Target l m (buildExport predicate extension ⟨some (.file text), none⟩ encode) p) (rows : List Row) :
    readBack gunzip p (Content l m (buildExport predicate extension ⟨some (.file text), none⟩ encode) rows) = (encode rows).1 := by
  obtain ⟨t, h1, rfl⟩ := ht
  have h1' : Res.file text = .file t := h1
  cases h1'
  have hlast : ∀ s : String, (m.base ++ [s]).getLastD "" = s := fun s => by simp [List.getLastD_eq_getLast?]
  show (if isGz ((m.base ++ [l.sanitise text ++ if !isGz text && m.gzip then ".gz" else ""]).getLastD "") then gunzip (if isGz text || m.gzip then l.gz (encode rows).1 else (encode rows).1)
    else (if isGz text || m.gzip then l.gz (encode rows).1 else (encode rows).1)) = _
  rw [hlast]
  cases h2 : isGz text with
  | true => simp [hx, h2, hg]
  | false =>
    cases h3 : m.gzip with
    | true => simp [isGz_append (hs text), hg]
    | false => simp [hx, h2]

/-- The same for the default resource without compression parameter, if the format does not end in `.gz` -/
theorem default_export_readable {l : Lib} {m : Mgr} {gunzip : Data → Data} (hg : ∀ d, gunzip (l.gz d) = d) (hs : ∀ s, l.sanitise s ≠ "") (hx : ∀ s, isGz (l.sanitise s) = isGz s)
    {predicate extension : String} {encode : List Row → Data × Bool} {p : FPath} (he : isGz (predicate ++ "." ++ extension) = false)
    (ht : Target l m (buildExport predicate extension ⟨none, none⟩ encode) p) (rows : List Row) :
    readBack gunzip p (Content l m (buildExport predicate extension ⟨none, none⟩ encode) rows) = (encode rows).1 := by
  obtain ⟨t, h1, rfl⟩ := ht
  have h1' : (if predicate = "" then Res.pipe else .file (predicate ++ "." ++ extension)) = .file t := h1
  split at h1'
  · cases h1'
  · cases h1'
    have hlast : ∀ s : String, (m.base ++ [s]).getLastD "" = s := fun s => by simp [List.getLastD_eq_getLast?]
    show (if isGz ((m.base ++ [l.sanitise (predicate ++ "." ++ extension) ++ if !false && m.gzip then ".gz" else ""]).getLastD "") then
      gunzip (if false || m.gzip then l.gz (encode rows).1 else (encode rows).1) else (if false || m.gzip then l.gz (encode rows).1 else (encode rows).1)) = _
    rw [hlast]
    cases h3 : m.gzip with
    | true => simp [isGz_append (hs _), hg]
    | false => simp [hx, he]

/-- **Compression without resource**: `@export p :- csv{compression="gzip"}` writes compressed data to `p.csv`, so an import of this file does not read the rows. -/
theorem default_compressed (l : Lib) (m : Mgr) (gunzip : Data → Data) (hs : l.sanitise "p.csv" = "p.csv") (encode : List Row → Data × Bool) (rows : List Row) :
    Target l m (buildExport "p" "csv" ⟨none, some true⟩ encode) (m.base ++ ["p.csv"]) ∧
    readBack gunzip (m.base ++ ["p.csv"]) (Content l m (buildExport "p" "csv" ⟨none, some true⟩ encode) rows) = l.gz (encode rows).1 := by
  constructor
  · refine ⟨"p.csv", rfl, ?_⟩
    rw [hs]; rfl
  · have hlast : (m.base ++ ["p.csv"]).getLastD "" = "p.csv" := by simp [List.getLastD_eq_getLast?]
    have h1 : isGz "p.csv" = false := by decide
    unfold readBack
    rw [hlast, h1]
    rfl

/-! ## Exports that go wrong -/

/-- **Predicates without facts**: if there is no table for the predicate, the file of an export that is compressed by its name is empty, which is not the compression of anything, and
cannot be read again. -/
theorem empty_not_compressed (l : Lib) (m : Mgr) (w : World) (e : Exp Row) {p : FPath} (hg : e.gzip = true) (hd : m.disable = false) (ht : Target l m e p) (hp : w.fs p = none) :
    (run l m w [e] (.ok [none])).1.fs p = some (.file []) := by
  obtain ⟨text, h1, rfl⟩ := ht
  have hv : validateAll l m w [e] = .ok () := validateAll_ok fun e' he' q hq => by
    obtain rfl : e' = e := by simpa using he'
    exact .inl (target_unique hq ⟨text, h1, rfl⟩ ▸ hp)
  have hp' : w.fs (sanitizedPath l m text (!e.gzip)) = none := hp
  have he : exportTable l m w e none = ({ w with fs := Function.update w.fs (sanitizedPath l m text (!e.gzip)) (some (.file [])) }, .ok false) := by
    simp only [exportTable, hd, h1, openFile, hp', payload, writes, hg, Bool.false_eq_true, if_false, if_true, Bool.not_true, Function.update_idem]
    simp only [hg, Bool.not_true] at hp'
    simp [hp']
  have hr : run l m w [e] (.ok [none]) = writeAll l m w [(e, none)] := by
    simp only [run, hv, hd]
    rfl
  rw [hr, writeAll, he]
  exact Function.update_self _ _ _

/-- **Two exports with the same file** cannot both be written: without `--overwrite-results`, the run does not succeed, although the exports are valid. -/
theorem collision_fails (l : Lib) (m : Mgr) (w : World) (e e' : Exp Row) (rows rows' : List Row) {p : FPath} (ho : m.overwrite = false) (hd : m.disable = false)
    (ht : Target l m e p) (ht' : Target l m e' p) (hp : w.fs p = none) (hw : (e.encode rows).2 = true) :
    validateAll l m w [e, e'] = .ok () ∧
    run l m w [e, e'] (.ok [some rows, some rows']) =
      ({ w with fs := Function.update w.fs p (some (.file (Content l m e rows))) }, .error (.alreadyExists p)) := by
  have hv : validateAll l m w [e, e'] = .ok () := validateAll_ok fun e1 he1 q hq => by
    simp only [List.mem_cons, List.not_mem_nil, or_false] at he1
    rcases he1 with rfl | rfl
    · exact .inl (target_unique hq ht ▸ hp)
    · exact .inl (target_unique hq ht' ▸ hp)
  refine ⟨hv, ?_⟩
  have h1 := exportTable_file (rows := rows) hd ht hw (.inl hp)
  have h2 : ∀ w' : World, w'.fs p = some (.file (Content l m e rows)) → exportTable l m w' e' (some rows') = (w', .error (.alreadyExists p)) := by
    intro w' hw'
    obtain ⟨text, h3, rfl⟩ := ht'
    have hw'' : w'.fs (sanitizedPath l m text (!e'.gzip)) = some (.file (Content l m e rows)) := hw'
    simp only [exportTable, hd, h3, openFile, hw'', ho, Bool.false_eq_true, if_false]
    rfl
  have hr : run l m w [e, e'] (.ok [some rows, some rows']) = writeAll l m w [(e, some rows), (e', some rows')] := by
    simp only [run, hv, hd]
    rfl
  rw [hr, writeAll, h1]
  dsimp only
  rw [writeAll, h2 _ (by simp)]

/-- With `--overwrite-results`, the run succeeds, and the first export is lost. -/
theorem collision_loses (l : Lib) (m : Mgr) (w : World) (e e' : Exp Row) (rows rows' : List Row) {p : FPath} (ho : m.overwrite = true) (hd : m.disable = false)
    (ht : Target l m e p) (ht' : Target l m e' p) (hp : w.fs p ≠ some .dir) (hw : (e.encode rows).2 = true) (hw' : (e'.encode rows').2 = true) :
    run l m w [e, e'] (.ok [some rows, some rows']) =
      ({ w with fs := Function.update w.fs p (some (.file (Content l m e' rows'))) }, .ok false) := by
  have hv : validateAll l m w [e, e'] = .ok () := validateAll_ok fun _ _ _ _ => .inr ho
  have h1 := exportTable_file (rows := rows) hd ht hw (.inr ⟨ho, hp⟩)
  have hr : run l m w [e, e'] (.ok [some rows, some rows']) = writeAll l m w [(e, some rows), (e', some rows')] := by
    simp only [run, hv, hd]
    rfl
  rw [hr, writeAll, h1]
  dsimp only
  rw [writeAll, exportTable_file (rows := rows') hd ht' hw' (.inr ⟨ho, by simp⟩)]
  simp [writeAll]

/-- Such exports exist: with `--gzip`, `p.csv` and `p.csv.gz` are the same file. -/
theorem collision_gzip (l : Lib) (m : Mgr) (hs : l.sanitise "p.csv" = "p.csv") (hs' : l.sanitise "p.csv.gz" = "p.csv.gz") (hm : m.gzip = true) (encode encode' : List Row → Data × Bool) :
    Target l m (buildExport "p" "csv" ⟨some (.file "p.csv"), none⟩ encode) (m.base ++ ["p.csv.gz"]) ∧
    Target l m (buildExport "q" "csv" ⟨some (.file "p.csv.gz"), none⟩ encode') (m.base ++ ["p.csv.gz"]) := by
  have h1 : isGz "p.csv" = false := by decide
  have h2 : isGz "p.csv.gz" = true := by decide
  refine ⟨⟨"p.csv", rfl, ?_⟩, ⟨"p.csv.gz", rfl, ?_⟩⟩
  · rw [hs]
    show _ = m.base ++ ["p.csv" ++ if !isGz "p.csv" && m.gzip then ".gz" else ""]
    rw [h1, hm]; rfl
  · rw [hs']
    show _ = m.base ++ ["p.csv.gz" ++ if !isGz "p.csv.gz" && m.gzip then ".gz" else ""]
    rw [h2]; rfl

/-! ## Example -/

/-- Two exports to files, one to standard output; rows are numbers, written as bytes; the compressor adds two bytes -/
def lib : Lib := ⟨id, fun d => 31 :: 139 :: d⟩
def bytesOf (rows : List Nat) : Data × Bool := (rows.map UInt8.ofNat, true)
def ex (resource : Option Res) (predicate : String) : Exp Nat := buildExport predicate "csv" ⟨resource, none⟩ bytesOf
def man : Mgr := ⟨["results"], false, false, false⟩

/-- **The hypotheses are met**, for all rows: an export with default name, a compressed one and one to standard output, with an existing file of another name. -/
theorem export_example (r1 r2 r3 : List Nat) (other : Data) : ∃ w',
    run lib man ⟨fun p => if p = ["results", "old.csv"] then some (.file other) else none, []⟩ [ex none "p", ex (some (.file "q.csv.gz")) "q", ex (some .pipe) "r"]
      (.ok [some r1, some r2, some r3]) = (w', .ok true) ∧
    w'.fs ["results", "p.csv"] = some (.file (r1.map UInt8.ofNat)) ∧ w'.fs ["results", "q.csv.gz"] = some (.file (31 :: 139 :: r2.map UInt8.ofNat)) ∧
    w'.stdout = r3.map UInt8.ofNat ∧ w'.fs ["results", "old.csv"] = some (.file other) := by
  have t1 : ∀ p, Target lib man (ex none "p") p ↔ p = ["results", "p.csv"] := fun p =>
    ⟨fun h => target_unique h ⟨"p.csv", rfl, by decide⟩, fun h => h ▸ ⟨"p.csv", rfl, by decide⟩⟩
  have t2 : ∀ p, Target lib man (ex (some (.file "q.csv.gz")) "q") p ↔ p = ["results", "q.csv.gz"] := fun p =>
    ⟨fun h => target_unique h ⟨"q.csv.gz", rfl, by decide⟩, fun h => h ▸ ⟨"q.csv.gz", rfl, by decide⟩⟩
  have t3 : ∀ p, ¬ Target lib man (ex (some .pipe) "r") p := by
    rintro p ⟨t, h, -⟩
    cases h
  obtain ⟨w', h1, h2, h3, h4⟩ := exports_written_tables lib man ⟨fun p => if p = ["results", "old.csv"] then some (.file other) else none, []⟩
    [(ex none "p", r1), (ex (some (.file "q.csv.gz")) "q", r2), (ex (some .pipe) "r", r3)] rfl (by simp [ex, buildExport, bytesOf])
    (by
      simp only [List.pairwise_cons, List.mem_cons, List.not_mem_nil, or_false, forall_eq_or_imp, forall_eq, t1, t2, t3, and_false, not_false_eq_true, implies_true, false_imp_iff, List.Pairwise.nil, and_true]
      rintro p ⟨rfl, h⟩
      revert h; decide)
    (by
      simp only [List.mem_cons, List.not_mem_nil, or_false, forall_eq_or_imp, forall_eq, t1, t2, t3, false_imp_iff, implies_true, and_true]
      exact ⟨.inl (if_neg (by decide)), .inl (if_neg (by decide))⟩)
  refine ⟨w', h1, ?_, ?_, ?_, ?_⟩
  · exact h2 (ex none "p", r1) (by simp) _ ((t1 _).2 rfl)
  · have h5 := h2 (ex (some (.file "q.csv.gz")) "q", r2) (by simp) _ ((t2 _).2 rfl)
    have h6 : (ex (some (.file "q.csv.gz")) "q").gzip = true := by decide
    rw [h5]
    simp only [Content, h6, Bool.true_or, if_true]
    rfl
  · rw [h3]
    have e1 : (ex none "p").res ≠ .pipe := by decide
    have e2 : (ex (some (.file "q.csv.gz")) "q").res ≠ .pipe := by decide
    have e3 : (ex (some .pipe) "r").res = .pipe := rfl
    have e4 : (ex (some .pipe) "r").gzip = false := rfl
    simp only [Printed, List.flatMap_cons, List.flatMap_nil, e1, e2, e3, e4, if_false, if_true, List.nil_append, List.append_nil, Bool.false_eq_true]
    rfl
  · rw [h4 _ (by
      simp only [List.mem_cons, List.not_mem_nil, or_false, forall_eq_or_imp, forall_eq, t1, t2, t3, not_false_eq_true, and_true]
      decide)]
    simp

/-- A predicate without facts: its uncompressed export is an empty file -/
theorem export_none_example : ∃ w', run lib man ⟨fun _ => none, []⟩ [ex none "p"] (.ok [none]) = (w', .ok false) ∧ w'.fs ["results", "p.csv"] = some (.file []) := by
  obtain ⟨w', h1, h2, -, -⟩ := exports_written_partial lib man ⟨fun _ => none, []⟩ [(ex none "p", none)] rfl (by simp [ex, buildExport, bytesOf])
    (by
      intro x hx _
      obtain rfl : x = (ex none "p", none) := by simpa using hx
      exact ⟨rfl, rfl⟩)
    (List.pairwise_singleton _ _) (fun _ _ _ _ => .inl rfl)
  refine ⟨w', h1, ?_⟩
  exact h2 (ex none "p", none) (by simp) _ ⟨"p.csv", rfl, by decide⟩

end Exporting
end Verif
