import Mathlib.Data.List.Basic

/-!
# Writing exports to files

Model of `ExportManager` (/repo/nemo/src/io/export_manager.rs) and of the part of the command line client that uses it (/repo/nemo-cli/src/main.rs:153-225).

The encoding of rows in a format (`TableWriter`), the compressor, and the library `sanitise_file_name` are parameters.  Not modelled: the creation of the export directory, other
input/output errors than those of `open`, and changes of files by other programs during a run.
-/

set_option linter.unusedSimpArgs false
set_option linter.unusedSectionVars false

namespace Verif
namespace Exporting

abbrev Data := List UInt8
/-- A path: the components -/
abbrev FPath := List String

/-- `Resource` (/repo/nemo-physical/src/resource.rs:51-70): standard output, or anything else with the text that `Display` (resource.rs:198-220) yields -/
inductive Res
  | pipe
  | file (text : String)
deriving DecidableEq

/-- `Export` (/repo/nemo/src/io/formats.rs:71-108): the resource, whether the compression is gzip, and the writer of the format: the bytes that it writes for some rows, and whether it succeeds -/
structure Exp (Row : Type) where
  res : Res
  gzip : Bool
  encode : List Row → Data × Bool

/-- `ExportManager` (export_manager.rs:19-29); the default compression is gzip or none (lines 47-54) -/
structure Mgr where
  base : FPath
  overwrite : Bool
  disable : Bool
  gzip : Bool

/-- External functions: `sanitise_with_options`, and the result of `GzEncoder` for the bytes that are written until it is dropped -/
structure Lib where
  sanitise : String → String
  gz : Data → Data

inductive Node
  | file (content : Data)
  | dir
deriving DecidableEq

/-- What can be observed: files and directories, and what was written to standard output -/
structure World where
  fs : FPath → Option Node
  stdout : Data

inductive Err
  | alreadyExists (p : FPath)
  | io
  | write
  | reasoning
deriving DecidableEq

variable {Row : Type}

/-- `CompressionImpl::compress` (/repo/nemo/src/io/compression_format.rs:103-113, compression_format/gzip.rs:36-38) -/
def Lib.compress (l : Lib) (gzip : Bool) (d : Data) : Data := if gzip then l.gz d else d

/-- `sanitized_path` (export_manager.rs:100-119); simplified: the sanitised name is one component -/
def sanitizedPath (l : Lib) (m : Mgr) (text : String) (addCompression : Bool) : FPath :=
  m.base ++ [l.sanitise text ++ if addCompression && m.gzip then ".gz" else ""]

/-- `validate` (export_manager.rs:70-94); metadata of the path is found for files and directories -/
def validate (l : Lib) (m : Mgr) (w : World) (e : Exp Row) : Except Err Unit :=
  match e.res with
  | .pipe => .ok ()
  | .file text =>
    let path := sanitizedPath l m text (!e.gzip)
    if w.fs path = none then .ok () else if m.overwrite || m.disable then .ok () else .error (.alreadyExists path)

/-- `open` with the options of `open_options` (export_manager.rs:198-209): the file is created or truncated, or an error -/
def openFile (m : Mgr) (w : World) (p : FPath) : Except Err World :=
  match w.fs p with
  | none => .ok { w with fs := Function.update w.fs p (some (.file [])) }
  | some (.file _) => if m.overwrite then .ok { w with fs := Function.update w.fs p (some (.file [])) } else .error (.alreadyExists p)
  | some .dir => .error .io

/-- What is written to the writer for a table: the encoding, compressed if the export is (`writer` of `Export`, formats.rs:171-176); nothing if there is no table
(export_manager.rs:171-174) -/
def payload (l : Lib) (e : Exp Row) : Option (List Row) → Data
  | none => []
  | some rows => l.compress e.gzip (e.encode rows).1

/-- Whether the writer succeeds -/
def writes (e : Exp Row) : Option (List Row) → Bool
  | none => true
  | some rows => (e.encode rows).2

/-- `export_table` (export_manager.rs:159-177) with `writer` (lines 126-150) -/
def exportTable (l : Lib) (m : Mgr) (w : World) (e : Exp Row) (table : Option (List Row)) : World × Except Err Bool :=
  if m.disable then (w, .ok false)
  else match e.res with
    | .pipe => ({ w with stdout := w.stdout ++ payload l e table }, if writes e table then .ok true else .error .write)
    | .file text =>
      let p := sanitizedPath l m text (!e.gzip)
      match openFile m w p with
      | .error err => (w, .error err)
      | .ok w' =>
        let content := if !e.gzip then l.compress m.gzip (payload l e table) else payload l e table
        ({ w' with fs := Function.update w'.fs p (some (.file content)) }, if writes e table then .ok false else .error .write)

/-- The loop over the exports (main.rs:190-192) -/
def validateAll (l : Lib) (m : Mgr) (w : World) : List (Exp Row) → Except Err Unit
  | [] => .ok ()
  | e :: es => match validate l m w e with
    | .error err => .error err
    | .ok _ => validateAll l m w es

/-- The loop over the exports with the rows of their predicates (main.rs:210-216); the result is whether standard output was used -/
def writeAll (l : Lib) (m : Mgr) (w : World) : List (Exp Row × Option (List Row)) → World × Except Err Bool
  | [] => (w, .ok false)
  | (e, t) :: es => match exportTable l m w e t with
    | (w', .error err) => (w', .error err)
    | (w', .ok b) => match writeAll l m w' es with
      | (w'', .ok b') => (w'', .ok (b || b'))
      | (w'', .error err) => (w'', .error err)

/-- `run` (main.rs:153-225), without the program; `tables` is the result of the reasoning, for each export the rows of its predicate, if it has a table -/
def run (l : Lib) (m : Mgr) (w : World) (es : List (Exp Row)) (tables : Except Err (List (Option (List Row)))) : World × Except Err Bool :=
  match validateAll l m w es with
  | .error err => (w, .error err)
  | .ok _ => match tables with
    | .error err => (w, .error err)
    | .ok ts => if m.disable then (w, .ok false) else writeAll l m w (es.zip ts)

/-! ## Specification -/

/-- The file of an export: a file in the export directory, with the sanitised name, and `.gz` added if compression is the default and the export has none -/
def Target (l : Lib) (m : Mgr) (e : Exp Row) (p : FPath) : Prop :=
  ∃ text, e.res = .file text ∧ p = m.base ++ [l.sanitise text ++ if !e.gzip && m.gzip then ".gz" else ""]

/-- What the file of an export should contain: the encoding of the rows, compressed once if the export is compressed or compression is the default -/
def Content (l : Lib) (m : Mgr) (e : Exp Row) (rows : List Row) : Data := if e.gzip || m.gzip then l.gz (e.encode rows).1 else (e.encode rows).1

/-- What is written to standard output -/
def Printed (l : Lib) (es : List (Exp Row × List Row)) : Data :=
  es.flatMap fun x => if x.1.res = .pipe then (if x.1.gzip then l.gz (x.1.encode x.2).1 else (x.1.encode x.2).1) else []

theorem target_path {l : Lib} {m : Mgr} {e : Exp Row} {text : String} (h : e.res = .file text) : Target l m e (sanitizedPath l m text (!e.gzip)) := ⟨text, h, rfl⟩

theorem target_unique {l : Lib} {m : Mgr} {e : Exp Row} {p q : FPath} (h : Target l m e p) (h' : Target l m e q) : p = q := by
  obtain ⟨t, h1, rfl⟩ := h
  obtain ⟨t', h2, rfl⟩ := h'
  rw [h1] at h2; cases h2; rfl

/-! ## Only the files of exports change -/

theorem openFile_fs {m : Mgr} {w w' : World} {p : FPath} (h : openFile m w p = .ok w') : w' = { w with fs := Function.update w.fs p (some (.file [])) } ∧ w.fs p ≠ some .dir ∧
    (m.overwrite = false → w.fs p = none) := by
  unfold openFile at h
  split at h
  · rename_i h1; cases h; exact ⟨rfl, by simp [h1], fun _ => h1⟩
  · rename_i c h1
    split at h
    · rename_i h2; cases h; exact ⟨rfl, by simp [h1], fun h3 => by simp [h3] at h2⟩
    · cases h
  · cases h

/-- One export: nothing changes, or its file is written and was not there before or may be overwritten; nothing is written to standard output -/
theorem exportTable_cases (l : Lib) (m : Mgr) (w : World) (e : Exp Row) (t : Option (List Row)) :
    (exportTable l m w e t).1 = w ∨
    (m.disable = false ∧ e.res = .pipe ∧ (exportTable l m w e t).1 = { w with stdout := w.stdout ++ payload l e t }) ∨
    (m.disable = false ∧ ∃ p c, Target l m e p ∧ w.fs p ≠ some .dir ∧ (m.overwrite = false → w.fs p = none) ∧
      (exportTable l m w e t).1 = { w with fs := Function.update w.fs p (some (.file c)) }) := by
  by_cases hd : m.disable = true
  · exact .inl (by simp [exportTable, hd])
  · rw [Bool.not_eq_true] at hd
    cases hr : e.res with
    | pipe => exact .inr (.inl ⟨hd, rfl, by simp [exportTable, hd, hr]⟩)
    | file text =>
      cases ho : openFile m w (sanitizedPath l m text (!e.gzip)) with
      | error err => exact .inl (by simp [exportTable, hd, hr, ho])
      | ok w' =>
        obtain ⟨h1, h2, h3⟩ := openFile_fs ho
        refine .inr (.inr ⟨hd, _, (if !e.gzip then l.compress m.gzip (payload l e t) else payload l e t), target_path hr, h2, h3, ?_⟩)
        subst h1
        simp [exportTable, hd, hr, ho]

theorem writeAll_other (l : Lib) (m : Mgr) : ∀ (es : List (Exp Row × Option (List Row))) (w : World) (p : FPath), (∀ x ∈ es, ¬ Target l m x.1 p) → (writeAll l m w es).1.fs p = w.fs p
  | [], _, _, _ => rfl
  | (e, t) :: es, w, p, h => by
    have h1 : (exportTable l m w e t).1.fs p = w.fs p := by
      rcases exportTable_cases l m w e t with h2 | ⟨-, -, h2⟩ | ⟨-, q, c, hq, -, -, h2⟩
      · rw [h2]
      · rw [h2]
      · rw [h2]
        have : p ≠ q := by rintro rfl; exact h (e, t) (by simp) hq
        simp [Function.update_of_ne this]
    rw [writeAll]
    split
    · rename_i w' err h2
      rw [h2] at h1; exact h1
    · rename_i w' b h2
      rw [h2] at h1
      have h3 := writeAll_other l m es w' p (fun x hx => h x (by simp [hx]))
      split
      · rename_i w'' b' h4
        rw [h4] at h3; exact h3.trans h1
      · rename_i w'' err h4
        rw [h4] at h3; exact h3.trans h1

/-- without `--overwrite-results`, what exists is kept -/
theorem writeAll_keeps (l : Lib) (m : Mgr) (ho : m.overwrite = false) : ∀ (es : List (Exp Row × Option (List Row))) (w : World) (p : FPath) (n : Node), w.fs p = some n →
    (writeAll l m w es).1.fs p = some n
  | [], _, _, _, h => h
  | (e, t) :: es, w, p, n, h => by
    have h1 : (exportTable l m w e t).1.fs p = some n := by
      rcases exportTable_cases l m w e t with h2 | ⟨-, -, h2⟩ | ⟨-, q, c, hq, -, h3, h2⟩
      · rw [h2, h]
      · rw [h2]; exact h
      · rw [h2]
        have : p ≠ q := by rintro rfl; rw [h3 ho] at h; cases h
        simp [Function.update_of_ne this, h]
    rw [writeAll]
    split
    · rename_i w' err h2
      rw [h2] at h1; exact h1
    · rename_i w' b h2
      rw [h2] at h1
      have h3 := writeAll_keeps l m ho es w' p n h1
      split
      · rename_i w'' b' h4
        rw [h4] at h3; exact h3
      · rename_i w'' err h4
        rw [h4] at h3; exact h3

/-- directories are kept -/
theorem writeAll_dir (l : Lib) (m : Mgr) : ∀ (es : List (Exp Row × Option (List Row))) (w : World) (p : FPath), w.fs p = some .dir → (writeAll l m w es).1.fs p = some .dir
  | [], _, _, h => h
  | (e, t) :: es, w, p, h => by
    have h1 : (exportTable l m w e t).1.fs p = some .dir := by
      rcases exportTable_cases l m w e t with h2 | ⟨-, -, h2⟩ | ⟨-, q, c, hq, h3, -, h2⟩
      · rw [h2, h]
      · rw [h2]; exact h
      · rw [h2]
        have : p ≠ q := by rintro rfl; exact h3 h
        simp [Function.update_of_ne this, h]
    rw [writeAll]
    split
    · rename_i w' err h2
      rw [h2] at h1; exact h1
    · rename_i w' b h2
      rw [h2] at h1
      have h3 := writeAll_dir l m es w' p h1
      split
      · rename_i w'' b' h4
        rw [h4] at h3; exact h3
      · rename_i w'' err h4
        rw [h4] at h3; exact h3

theorem run_cases (l : Lib) (m : Mgr) (w : World) (es : List (Exp Row)) (tables : Except Err (List (Option (List Row)))) :
    (run l m w es tables).1 = w ∨ (m.disable = false ∧ ∃ ts, tables = .ok ts ∧ (run l m w es tables) = writeAll l m w (es.zip ts)) := by
  unfold run
  split
  · exact .inl rfl
  · split
    · exact .inl rfl
    · rename_i ts
      split
      · exact .inl rfl
      · rename_i h
        exact .inr ⟨by simpa using h, ts, rfl, rfl⟩

/-- **C67 (1): no existing file is changed** unless overwriting was asked for, whatever the exports are and however the run ends. -/
theorem existing_kept (l : Lib) (m : Mgr) (w : World) (es : List (Exp Row)) (tables : Except Err (List (Option (List Row)))) (ho : m.overwrite = false) (p : FPath) (n : Node)
    (h : w.fs p = some n) : (run l m w es tables).1.fs p = some n := by
  rcases run_cases l m w es tables with h1 | ⟨-, ts, -, h1⟩
  · rw [h1, h]
  · rw [h1]; exact writeAll_keeps l m ho _ w p n h

/-- **C67 (2): only the files of exports are written**, so all written files are in the export directory; directories are never replaced. -/
theorem only_targets (l : Lib) (m : Mgr) (w : World) (es : List (Exp Row)) (tables : Except Err (List (Option (List Row)))) (p : FPath) (h : (run l m w es tables).1.fs p ≠ w.fs p) :
    (∃ e ∈ es, Target l m e p) ∧ w.fs p ≠ some .dir ∧ m.disable = false := by
  rcases run_cases l m w es tables with h1 | ⟨hd, ts, -, h1⟩
  · rw [h1] at h; exact absurd rfl h
  · rw [h1] at h
    refine ⟨?_, fun h2 => h (by rw [writeAll_dir l m _ w p h2, h2]), hd⟩
    by_contra hc
    refine h (writeAll_other l m _ w p fun x hx ht => hc ⟨x.1, ?_, ht⟩)
    obtain ⟨x1, x2⟩ := x
    exact (List.of_mem_zip hx).1

/-- **C67 (3): a run fails before anything is computed or written** if a file of an export exists and may not be overwritten. -/
theorem fails_early (l : Lib) (m : Mgr) (w : World) (es : List (Exp Row)) (tables : Except Err (List (Option (List Row)))) (ho : m.overwrite = false) (hd : m.disable = false)
    (h : ∃ e ∈ es, ∃ p, Target l m e p ∧ w.fs p ≠ none) : ∃ p, (run l m w es tables) = (w, .error (.alreadyExists p)) ∧ w.fs p ≠ none ∧ ∃ e ∈ es, Target l m e p := by
  have key : ∀ es : List (Exp Row), (∃ e ∈ es, ∃ p, Target l m e p ∧ w.fs p ≠ none) →
      ∃ p, validateAll l m w es = .error (.alreadyExists p) ∧ w.fs p ≠ none ∧ ∃ e ∈ es, Target l m e p := by
    intro es
    induction es with
    | nil => rintro ⟨e, he, -⟩; cases he
    | cons e es ih =>
      rintro ⟨e', he', p, hp, hw⟩
      by_cases hv : ∃ q, Target l m e q ∧ w.fs q ≠ none
      · obtain ⟨q, ⟨text, h1, rfl⟩, h2⟩ := hv
        refine ⟨_, ?_, h2, e, by simp, ⟨text, h1, rfl⟩⟩
        have h3 : w.fs (sanitizedPath l m text (!e.gzip)) ≠ none := h2
        simp only [validateAll, validate, h1, h3, ho, hd, if_false, Bool.or_self, Bool.false_eq_true, ↓reduceIte]
        rfl
      · have hne : e' ∈ es := by
          rcases List.mem_cons.1 he' with rfl | h3
          · exact absurd ⟨p, hp, hw⟩ hv
          · exact h3
        obtain ⟨q, h3, h4, e2, h5, h6⟩ := ih ⟨e', hne, p, hp, hw⟩
        refine ⟨q, ?_, h4, e2, by simp [h5], h6⟩
        have h7 : validate l m w e = .ok () := by
          cases hr : e.res with
          | pipe => simp [validate, hr]
          | file text =>
            have : w.fs (sanitizedPath l m text (!e.gzip)) = none := by
              by_contra hc
              exact hv ⟨_, target_path hr, hc⟩
            simp [validate, hr, this]
        simp only [validateAll, h7, h3]
  obtain ⟨p, h1, h2, h3⟩ := key es h
  exact ⟨p, by simp [run, h1], h2, h3⟩

/-! ## What is written -/

theorem exportTable_file {l : Lib} {m : Mgr} {w : World} {e : Exp Row} {rows : List Row} {p : FPath} (hd : m.disable = false) (ht : Target l m e p) (hw : (e.encode rows).2 = true)
    (hp : w.fs p = none ∨ (m.overwrite = true ∧ w.fs p ≠ some .dir)) :
    exportTable l m w e (some rows) = ({ w with fs := Function.update w.fs p (some (.file (Content l m e rows))) }, .ok false) := by
  obtain ⟨text, h1, rfl⟩ := ht
  have hop : openFile m w (sanitizedPath l m text (!e.gzip)) =
      .ok { w with fs := Function.update w.fs (sanitizedPath l m text (!e.gzip)) (some (.file [])) } := by
    unfold openFile
    have hp' : w.fs (sanitizedPath l m text (!e.gzip)) = none ∨ (m.overwrite = true ∧ w.fs (sanitizedPath l m text (!e.gzip)) ≠ some .dir) := hp
    rcases hp' with h2 | ⟨h2, h3⟩
    · rw [h2]
    · cases h4 : w.fs (sanitizedPath l m text (!e.gzip)) with
      | none => rfl
      | some n =>
        cases n with
        | file c => simp [h2]
        | dir => exact absurd h4 h3
  have hc : (if !e.gzip then l.compress m.gzip (payload l e (some rows)) else payload l e (some rows)) = Content l m e rows := by
    cases hg : e.gzip <;> cases hm : m.gzip <;> simp [payload, Lib.compress, Content, hg, hm]
  simp only [exportTable, hd, h1, hop, writes, hw, Bool.false_eq_true, if_false, if_true, Function.update_idem]
  rw [hc]
  rfl

theorem exportTable_pipe {l : Lib} {m : Mgr} {w : World} {e : Exp Row} {rows : List Row} (hd : m.disable = false) (hr : e.res = .pipe) (hw : (e.encode rows).2 = true) :
    exportTable l m w e (some rows) = ({ w with stdout := w.stdout ++ (if e.gzip then l.gz (e.encode rows).1 else (e.encode rows).1) }, .ok true) := by
  simp [exportTable, hd, hr, writes, hw, payload, Lib.compress]

theorem writeAll_ok (l : Lib) (m : Mgr) (hd : m.disable = false) : ∀ (es : List (Exp Row × List Row)) (w : World), (∀ x ∈ es, (x.1.encode x.2).2 = true) →
    es.Pairwise (fun x y => ∀ p, ¬ (Target l m x.1 p ∧ Target l m y.1 p)) →
    (∀ x ∈ es, ∀ p, Target l m x.1 p → w.fs p = none ∨ (m.overwrite = true ∧ w.fs p ≠ some .dir)) →
    (writeAll l m w (es.map fun x => (x.1, some x.2))).2 = .ok (es.any fun x => decide (x.1.res = .pipe)) ∧
    (writeAll l m w (es.map fun x => (x.1, some x.2))).1.stdout = w.stdout ++ Printed l es ∧
    ∀ x ∈ es, ∀ p, Target l m x.1 p → (writeAll l m w (es.map fun x => (x.1, some x.2))).1.fs p = some (.file (Content l m x.1 x.2))
  | [], w, _, _, _ => ⟨rfl, by simp [writeAll, Printed], by simp⟩
  | (e, rows) :: es, w, hw, hp, ht => by
    rw [List.pairwise_cons] at hp
    have hwe : (e.encode rows).2 = true := hw (e, rows) (by simp)
    cases hr : e.res with
    | pipe =>
      have h1 := exportTable_pipe (l := l) (m := m) (w := w) hd hr hwe
      set w' : World := { w with stdout := w.stdout ++ (if e.gzip then l.gz (e.encode rows).1 else (e.encode rows).1) } with hw'
      obtain ⟨i1, i2, i3⟩ := writeAll_ok l m hd es w' (fun x hx => hw x (by simp [hx])) hp.2 (fun x hx p hpx => ht x (by simp [hx]) p hpx)
      have h2 : writeAll l m w (((e, rows) :: es).map fun x => (x.1, some x.2)) =
          ((writeAll l m w' (es.map fun x => (x.1, some x.2))).1, .ok (true || es.any fun x => decide (x.1.res = .pipe))) := by
        rw [List.map_cons, writeAll, h1]
        dsimp only
        split
        · rename_i w'' b' h4
          rw [h4] at i1; cases i1; rw [h4]
        · rename_i w'' err h4
          rw [h4] at i1; cases i1
      rw [h2]
      refine ⟨by simp [hr], ?_, fun x hx p hpx => ?_⟩
      · rw [i2, hw']
        simp [Printed, hr]
      · rcases List.mem_cons.1 hx with rfl | hx
        · obtain ⟨t, h3, -⟩ := hpx
          rw [hr] at h3; cases h3
        · exact i3 x hx p hpx
    | file text =>
      have hte := target_path (l := l) (m := m) (e := e) hr
      set p0 := sanitizedPath l m text (!e.gzip) with hp0
      have h1 := exportTable_file (rows := rows) hd hte hwe (ht (e, rows) (by simp) p0 hte)
      set w' : World := { w with fs := Function.update w.fs p0 (some (.file (Content l m e rows))) } with hw'
      have hne : ∀ x ∈ es, ∀ p, Target l m x.1 p → p ≠ p0 := fun x hx p hpx h => hp.1 x hx p0 ⟨hte, h ▸ hpx⟩
      obtain ⟨i1, i2, i3⟩ := writeAll_ok l m hd es w' (fun x hx => hw x (by simp [hx])) hp.2 (fun x hx p hpx => by
        rw [hw']
        simp only [Function.update_of_ne (hne x hx p hpx)]
        exact ht x (by simp [hx]) p hpx)
      have h2 : writeAll l m w (((e, rows) :: es).map fun x => (x.1, some x.2)) =
          ((writeAll l m w' (es.map fun x => (x.1, some x.2))).1, .ok (false || es.any fun x => decide (x.1.res = .pipe))) := by
        rw [List.map_cons, writeAll, h1]
        dsimp only
        split
        · rename_i w'' b' h4
          rw [h4] at i1; cases i1; rw [h4]
        · rename_i w'' err h4
          rw [h4] at i1; cases i1
      rw [h2]
      refine ⟨by simp [hr], ?_, fun x hx p hpx => ?_⟩
      · rw [i2, hw']
        simp [Printed, hr]
      · rcases List.mem_cons.1 hx with rfl | hx
        · rw [target_unique hpx hte]
          dsimp only
          rw [writeAll_other l m _ w' p0 (fun y hy hty => by
            obtain ⟨z, hz, rfl⟩ := List.mem_map.1 hy
            exact hne z hz p0 hty rfl), hw']
          simp
        · exact i3 x hx p hpx

theorem validateAll_ok {l : Lib} {m : Mgr} {w : World} : ∀ {es : List (Exp Row)}, (∀ e ∈ es, ∀ p, Target l m e p → w.fs p = none ∨ m.overwrite = true) → validateAll l m w es = .ok ()
  | [], _ => rfl
  | e :: es, h => by
    have h7 : validate l m w e = .ok () := by
      cases hr : e.res with
      | pipe => simp [validate, hr]
      | file text =>
        rcases h e (by simp) _ (target_path hr) with h1 | h1
        · simp [validate, hr, h1]
        · simp [validate, hr, h1]
    simp only [validateAll, h7]
    exact validateAll_ok fun e' he' => h e' (by simp [he'])

/-- The exported files, if all predicates have tables: if the writers succeed, the exports have different files, and these do not exist yet or are files that may be overwritten, then the run succeeds;
afterwards each file contains the encoding of its rows, compressed at most once, standard output contains the other exports in order, and no other file is changed. -/
theorem exports_written_tables (l : Lib) (m : Mgr) (w : World) (es : List (Exp Row × List Row)) (hd : m.disable = false) (hw : ∀ x ∈ es, (x.1.encode x.2).2 = true)
    (hp : es.Pairwise fun x y => ∀ p, ¬ (Target l m x.1 p ∧ Target l m y.1 p))
    (ht : ∀ x ∈ es, ∀ p, Target l m x.1 p → w.fs p = none ∨ (m.overwrite = true ∧ w.fs p ≠ some .dir)) :
    ∃ w', run l m w (es.map (·.1)) (.ok (es.map fun x => some x.2)) = (w', .ok (es.any fun x => decide (x.1.res = .pipe))) ∧
      (∀ x ∈ es, ∀ p, Target l m x.1 p → w'.fs p = some (.file (Content l m x.1 x.2))) ∧
      w'.stdout = w.stdout ++ Printed l es ∧ ∀ p, (∀ x ∈ es, ¬ Target l m x.1 p) → w'.fs p = w.fs p := by
  have hz : (es.map (·.1)).zip (es.map fun x => some x.2) = es.map fun x => (x.1, some x.2) := by
    rw [List.zip_map', ]
  have hv : validateAll l m w (es.map (·.1)) = .ok () := validateAll_ok fun e he p hpe => by
    obtain ⟨x, hx, rfl⟩ := List.mem_map.1 he
    rcases ht x hx p hpe with h1 | h1
    · exact .inl h1
    · exact .inr h1.1
  obtain ⟨h1, h2, h3⟩ := writeAll_ok l m hd es w hw hp ht
  refine ⟨(writeAll l m w (es.map fun x => (x.1, some x.2))).1, ?_, h3, h2, fun p hpx => writeAll_other l m _ w p fun y hy hty => ?_⟩
  · simp only [run, hv, hd, Bool.false_eq_true, if_false, hz]
    exact Prod.ext rfl h1
  · obtain ⟨z, hz', rfl⟩ := List.mem_map.1 hy
    exact hpx z hz' hty

/-- Predicates without facts have no table, which makes no difference if the export is not compressed itself and its format writes nothing for no rows -/
theorem writeAll_none (l : Lib) (m : Mgr) : ∀ (es : List (Exp Row × Option (List Row))) (w : World), (∀ x ∈ es, x.2 = none → x.1.gzip = false ∧ x.1.encode [] = ([], true)) →
    writeAll l m w es = writeAll l m w (es.map fun x => (x.1, some (x.2.getD [])))
  | [], _, _ => rfl
  | (e, t) :: es, w, h => by
    have h1 : exportTable l m w e t = exportTable l m w e (some (t.getD [])) := by
      cases t with
      | some rows => rfl
      | none =>
        have hh := h (e, none) (by simp) rfl
        have h2 : e.gzip = false := hh.1
        have h3 : e.encode [] = ([], true) := hh.2
        have hp : payload l e none = payload l e (some []) := by simp [payload, Lib.compress, h2, h3]
        have hw : writes e none = writes e (some []) := by simp [writes, h3]
        simp only [exportTable, Option.getD_none, hp, hw]
    show writeAll l m w ((e, t) :: es) = writeAll l m w ((e, some (t.getD [])) :: es.map fun x => (x.1, some (x.2.getD [])))
    rw [writeAll, writeAll, h1]
    cases exportTable l m w e (some (t.getD [])) with
    | mk w' r =>
      cases r with
      | error err => rfl
      | ok b => dsimp only; rw [writeAll_none l m es w' fun x hx => h x (by simp [hx])]

/-- **C67 (4): the exported files.**  If the writers succeed, the exports have different files, and these do not exist yet or are files that may be overwritten, then the run succeeds; afterwards each
file contains the encoding of its rows, compressed at most once, standard output contains the other exports in order, and no other file is changed.  Predicates may have no table if their exports are
not compressed themselves. -/
theorem exports_written_partial (l : Lib) (m : Mgr) (w : World) (es : List (Exp Row × Option (List Row))) (hd : m.disable = false)
    (hw : ∀ x ∈ es, (x.1.encode (x.2.getD [])).2 = true) (hn : ∀ x ∈ es, x.2 = none → x.1.gzip = false ∧ x.1.encode [] = ([], true))
    (hp : es.Pairwise fun x y => ∀ p, ¬ (Target l m x.1 p ∧ Target l m y.1 p))
    (ht : ∀ x ∈ es, ∀ p, Target l m x.1 p → w.fs p = none ∨ (m.overwrite = true ∧ w.fs p ≠ some .dir)) :
    ∃ w', run l m w (es.map (·.1)) (.ok (es.map (·.2))) = (w', .ok (es.any fun x => decide (x.1.res = .pipe))) ∧
      (∀ x ∈ es, ∀ p, Target l m x.1 p → w'.fs p = some (.file (Content l m x.1 (x.2.getD [])))) ∧
      w'.stdout = w.stdout ++ Printed l (es.map fun x => (x.1, x.2.getD [])) ∧ ∀ p, (∀ x ∈ es, ¬ Target l m x.1 p) → w'.fs p = w.fs p := by
  obtain ⟨w', h1, h2, h3, h4⟩ := exports_written_tables l m w (es.map fun x => (x.1, x.2.getD [])) hd
    (fun x hx => by obtain ⟨y, hy, rfl⟩ := List.mem_map.1 hx; exact hw y hy)
    (List.pairwise_map.2 hp)
    (fun x hx => by obtain ⟨y, hy, rfl⟩ := List.mem_map.1 hx; exact ht y hy)
  have hz : (es.map (·.1)).zip (es.map (·.2)) = es := by rw [List.zip_map']; simp
  have hz' : (es.map (·.1)).zip (es.map fun x => some (x.2.getD [])) = es.map fun x => (x.1, some (x.2.getD [])) := by rw [List.zip_map']
  refine ⟨w', ?_, fun x hx p hpx => ?_, h3, fun p hpx => h4 p fun x hx => ?_⟩
  · have e1 : (es.map fun x => (x.1, x.2.getD [])).map (·.1) = es.map (·.1) := by rw [List.map_map]; rfl
    have e2 : ((es.map fun x => (x.1, x.2.getD [])).map fun x => some x.2) = es.map fun x => some (x.2.getD []) := by rw [List.map_map]; rfl
    have e3 : ((es.map fun x => (x.1, x.2.getD [])).any fun x => decide (x.1.res = .pipe)) = es.any fun x => decide (x.1.res = .pipe) := by rw [List.any_map]; rfl
    rw [e1, e2, e3] at h1
    rw [← h1]
    unfold run
    split
    · rfl
    · dsimp only
      rw [hz, hz', writeAll_none l m es w hn]
  · exact h2 (x.1, x.2.getD []) (List.mem_map.2 ⟨x, hx, rfl⟩) p hpx
  · obtain ⟨y, hy, rfl⟩ := List.mem_map.1 hx
    exact hpx y hy

/-! ## When runs succeed -/

theorem exportTable_ok {l : Lib} {m : Mgr} {w w' : World} {e : Exp Row} {t : Option (List Row)} {b : Bool} (hd : m.disable = false) (ho : m.overwrite = false)
    (h : exportTable l m w e t = (w', .ok b)) : writes e t = true ∧ (∀ p, Target l m e p → w.fs p = none ∧ w'.fs p ≠ none) ∧ ∀ p, w.fs p ≠ none → w'.fs p ≠ none := by
  have hwr : writes e t = true := by
    cases hr : e.res with
    | pipe =>
      simp only [exportTable, hd, hr, Bool.false_eq_true, if_false] at h
      by_contra hc
      rw [if_neg hc] at h
      exact absurd (congrArg Prod.snd h) (by simp)
    | file text =>
      simp only [exportTable, hd, hr, Bool.false_eq_true, if_false] at h
      split at h
      · exact absurd (congrArg Prod.snd h) (by simp)
      · by_contra hc
        rw [if_neg hc] at h
        exact absurd (congrArg Prod.snd h) (by simp)
  refine ⟨hwr, fun p hp => ?_, fun p hp => ?_⟩
  · obtain ⟨text, hr, rfl⟩ := hp
    show w.fs (sanitizedPath l m text (!e.gzip)) = none ∧ w'.fs (sanitizedPath l m text (!e.gzip)) ≠ none
    simp only [exportTable, hd, hr, Bool.false_eq_true, if_false] at h
    split at h
    · exact absurd (congrArg Prod.snd h) (by simp)
    · rename_i w1 h1
      obtain ⟨-, -, h3⟩ := openFile_fs h1
      refine ⟨h3 ho, ?_⟩
      have h4 := congrArg (fun x => x.1.fs (sanitizedPath l m text (!e.gzip))) h
      simp only [Function.update_self] at h4
      rw [← h4]; simp
  · rcases exportTable_cases l m w e t with h2 | ⟨-, -, h2⟩ | ⟨-, q, c, -, -, -, h2⟩
    · rw [h] at h2; simp only at h2; rw [h2]; exact hp
    · rw [h] at h2; simp only at h2; rw [h2]; exact hp
    · rw [h] at h2; simp only at h2; rw [h2]
      by_cases hpq : p = q
      · rw [hpq]; simp
      · simpa [Function.update_of_ne hpq] using hp

theorem writeAll_ok_cond (l : Lib) (m : Mgr) (hd : m.disable = false) (ho : m.overwrite = false) : ∀ (es : List (Exp Row × Option (List Row))) (w : World) (b : Bool),
    (writeAll l m w es).2 = .ok b → (∀ x ∈ es, writes x.1 x.2 = true) ∧ (∀ x ∈ es, ∀ p, Target l m x.1 p → w.fs p = none) ∧
      es.Pairwise fun x y => ∀ p, ¬ (Target l m x.1 p ∧ Target l m y.1 p)
  | [], _, _, _ => ⟨by simp, by simp, .nil⟩
  | (e, t) :: es, w, b, h => by
    rw [writeAll] at h
    split at h
    · cases h
    · rename_i w' b1 h1
      obtain ⟨k1, k2, k3⟩ := exportTable_ok hd ho h1
      split at h
      · rename_i w'' b2 h2
        obtain ⟨i1, i2, i3⟩ := writeAll_ok_cond l m hd ho es w' b2 (by rw [h2])
        refine ⟨fun x hx => ?_, fun x hx p hp => ?_, List.pairwise_cons.2 ⟨fun y hy p hp => (k2 p hp.1).2 (i2 y hy p hp.2), i3⟩⟩
        · rcases List.mem_cons.1 hx with rfl | hx
          · exact k1
          · exact i1 x hx
        · rcases List.mem_cons.1 hx with rfl | hx
          · exact (k2 p hp).1
          · by_contra hc
            exact k3 p hc (i2 x hx p hp)
      · cases h

/-- **C67 (6): when a run succeeds** without `--overwrite-results`, for predicates with tables: if and only if no file of an export exists, no two exports have the same file, and all writers
succeed. -/
theorem succeeds_iff (l : Lib) (m : Mgr) (w : World) (es : List (Exp Row × List Row)) (hd : m.disable = false) (ho : m.overwrite = false) :
    (∃ b, (run l m w (es.map (·.1)) (.ok (es.map fun x => some x.2))).2 = .ok b) ↔
      (∀ x ∈ es, (x.1.encode x.2).2 = true) ∧ (∀ x ∈ es, ∀ p, Target l m x.1 p → w.fs p = none) ∧ es.Pairwise fun x y => ∀ p, ¬ (Target l m x.1 p ∧ Target l m y.1 p) := by
  constructor
  · rintro ⟨b, h⟩
    have hz : (es.map (·.1)).zip (es.map fun x => some x.2) = es.map fun x => (x.1, some x.2) := by rw [List.zip_map']
    unfold run at h
    split at h
    · cases h
    · dsimp only at h
      rw [hd, if_neg (by simp), hz] at h
      obtain ⟨h1, h2, h3⟩ := writeAll_ok_cond l m hd ho _ w b h
      exact ⟨fun x hx => h1 (x.1, some x.2) (List.mem_map.2 ⟨x, hx, rfl⟩), fun x hx => h2 (x.1, some x.2) (List.mem_map.2 ⟨x, hx, rfl⟩), List.pairwise_map.1 h3⟩
  · rintro ⟨h1, h2, h3⟩
    obtain ⟨w', h4, -⟩ := exports_written_tables l m w es hd h1 h3 fun x hx p hp => .inl (h2 x hx p hp)
    exact ⟨_, by rw [h4]⟩

end Exporting
end Verif
