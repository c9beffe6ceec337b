import Verif.TableFiles
/-
C48: imports read exactly the well-formed rows; C32: exported tables read back.
-/

set_option linter.unusedVariables false
set_option linter.unusedSimpArgs false
set_option linter.unusedSectionVars false

namespace Verif.Lit
open Verif.Fn
variable {α : Type} [SVal α]

/-! ### Buffers -/

/-- A buffer between two rows, for rows of `b.input` values and patterns with `output` columns. -/
structure Between (b : PBuf DV α) (input : Nat) (ps : List (Pattern DV)) (output : Nat) : Prop where
  ready : b.Ready output
  input_eq : b.input = input
  patterns_eq : b.patterns = ps

/-- The patterns of an import: as in C33. -/
structure PatternsOK (input output : Nat) (ps : List (Pattern DV)) : Prop where
  each : ∀ p ∈ ps, PatternOK input output p
  none_ : ps = [] → output = input
  atomic : ∀ row : List DV, row.length = input → ∀ (i : Nat) p, ps[i]? = some p → i + 1 < ps.length → p.Atomic row

theorem patternsOK_nil (input : Nat) : PatternsOK input input [] where
  each := by simp
  none_ := fun _ => rfl
  atomic := by intro row _ i p h; simp at h

variable {input output : Nat} {ps : List (Pattern DV)}

theorem addRow (enc : DV → α) {b : PBuf DV α} (hb : Between b input ps output) (hi : 0 < input)
    (hp : PatternsOK input output ps) {row : List DV} (hr : row.length = input) :
    ∃ b' : PBuf DV α, b.addAll enc row = some b' ∧ Between b' input ps output ∧
      b'.buf.stored.Perm (((filterResult ps row).map (List.map enc)).toList ++ b.buf.stored) := by
  obtain ⟨b', h1, h2, h3, h4, h5⟩ := PBuf.addRow_spec enc hb.ready (by rw [hb.input_eq]; exact hi)
    (by rw [hb.input_eq, hb.patterns_eq]; exact hp.each) (by rw [hb.input_eq, hb.patterns_eq]; exact hp.none_) row
    (by rw [hb.input_eq]; exact hr) (by rw [hb.patterns_eq]; exact hp.atomic row hr) []
  rw [List.append_nil] at h1
  refine ⟨b', by rw [h1]; rfl, ⟨h2, h3.trans hb.input_eq, h4.trans hb.patterns_eq⟩, ?_⟩
  rw [← hb.patterns_eq]
  exact h5

theorem addPart (enc : DV → α) {b : PBuf DV α} (hb : Between b input ps output) {vs : List DV} (hr : vs.length < input) :
    ∃ b' : PBuf DV α, b.addAll enc vs = some b' ∧ Between b'.drop input ps output ∧ b'.drop.buf.stored = b.buf.stored := by
  have hdl : b.input ≤ b.data.length := by rw [hb.ready.length]; exact le_max_left _ _
  have := PBuf.addPrefix enc vs b [] (by rw [hb.ready.index, hb.input_eq]; omega) hdl
  rw [List.append_nil] at this
  refine ⟨_, this, ⟨⟨hb.ready.ok, hb.ready.cols, ?_, rfl⟩, hb.input_eq, hb.patterns_eq⟩, rfl⟩
  have hl := hb.ready.length
  have h1 := hb.ready.index
  have h2 := hb.input_eq
  simp only [PBuf.drop, List.length_append, List.length_take, List.length_drop, h1]
  rw [hl] at hdl ⊢
  omega

/-! ### Delimiter-separated values -/

/-- The number of columns that are read. -/
def kept (formats : List CellFormat) : Nat := (formats.filter (· ≠ .skip)).length

/-- **Specification.** The values of the cells that are not skipped, if all of them are well-formed. -/
def cellValues (L : Lib) : List CellFormat → Record → Option (List DV)
  | f :: fs, c :: cs =>
      if f = .skip then cellValues L fs cs
      else match f.parse L c with
        | .val v => (cellValues L fs cs).map (v :: ·)
        | _ => none
  | _, _ => some []

/-- **Specification.** The row of a record: it must have as many cells as there are formats, and those that
are not skipped must be well-formed. -/
def recordRow (L : Lib) (formats : List CellFormat) (r : Record) : Option (List DV) :=
  if r.length = formats.length then cellValues L formats r else none

/-- No cell panics (see `parse_panic`). -/
def NoPanic (L : Lib) (formats : List CellFormat) (r : Record) : Prop :=
  ∀ (i : Nat) f c, formats[i]? = some f → r[i]? = some c → f.parse L c ≠ .panic

theorem cellValues_length {L : Lib} : ∀ {formats : List CellFormat} {r : Record} {vs : List DV}, r.length = formats.length →
    cellValues L formats r = some vs → vs.length = kept formats
  | [], r, vs, hl, h => by
      cases r <;> simp [cellValues] at h <;> subst h <;> rfl
  | f :: fs, [], vs, hl, h => by simp at hl
  | f :: fs, c :: cs, vs, hl, h => by
      rw [cellValues] at h
      by_cases hf : f = .skip
      · rw [if_pos hf] at h
        have := cellValues_length (by simpa using hl) h
        simp [kept, hf] at this ⊢
        exact this
      · rw [if_neg hf] at h
        cases hv : f.parse L c with
        | val v =>
            rw [hv] at h
            simp only [Option.map_eq_some_iff] at h
            obtain ⟨us, h1, rfl⟩ := h
            have := cellValues_length (by simpa using hl) h1
            simp [kept, hf] at this ⊢
            exact this
        | undef => rw [hv] at h; simp at h
        | panic => rw [hv] at h; simp at h

theorem NoPanic.tail {L : Lib} {f : CellFormat} {fs : List CellFormat} {c : List Char} {cs : Record}
    (h : NoPanic L (f :: fs) (c :: cs)) : NoPanic L fs cs := fun i f' c' h1 h2 => h (i + 1) f' c' (by simpa using h1) (by simpa using h2)

/-- The cells of a record: all of them are added, or a proper prefix and then nothing. -/
theorem dsvCells_spec (L : Lib) (enc : DV → α) : ∀ {formats : List CellFormat} {r : Record} (b : PBuf DV α), r.length = formats.length →
    NoPanic L formats r →
    (∃ vs, cellValues L formats r = some vs ∧ dsvCells L enc b formats r = b.addAll enc vs) ∨
    (cellValues L formats r = none ∧ ∃ vs : List DV, vs.length < kept formats ∧
      dsvCells L enc b formats r = (b.addAll enc vs).map PBuf.drop)
  | [], r, b, hl, hn => by
      cases r
      · exact .inl ⟨[], rfl, rfl⟩
      · simp at hl
  | f :: fs, [], b, hl, hn => by simp at hl
  | f :: fs, c :: cs, b, hl, hn => by
      rw [dsvCells, cellValues]
      by_cases hf : f = .skip
      · rw [if_pos hf, if_pos hf]
        have hk : kept (f :: fs) = kept fs := by simp [kept, hf]
        rw [hk]
        exact dsvCells_spec L enc b (by simpa using hl) hn.tail
      · rw [if_neg hf, if_neg hf]
        have hk : kept (f :: fs) = kept fs + 1 := by simp [kept, hf]
        cases hv : f.parse L c with
        | val v =>
            dsimp only
            cases ha : b.add enc v with
            | none =>
                cases hc : cellValues L fs cs with
                | none => exact .inr ⟨rfl, [v], by
                    rcases dsvCells_spec L enc b (by simpa using hl : cs.length = fs.length) hn.tail with ⟨vs, h1, _⟩ | ⟨_, vs, h1, _⟩
                    · rw [hc] at h1; cases h1
                    · rw [hk]; simp only [List.length_singleton]; omega, by rw [PBuf.addAll, ha]; rfl⟩
                | some vs => exact .inl ⟨v :: vs, rfl, by rw [PBuf.addAll, ha]⟩
            | some b' =>
                dsimp only
                rcases dsvCells_spec L enc b' (by simpa using hl : cs.length = fs.length) hn.tail with ⟨vs, h1, h2⟩ | ⟨h1, vs, h2, h3⟩
                · exact .inl ⟨v :: vs, by rw [h1]; rfl, by rw [PBuf.addAll, ha, h2]⟩
                · exact .inr ⟨by rw [h1]; rfl, v :: vs, by rw [hk]; simp only [List.length_cons]; omega,
                    by rw [PBuf.addAll, ha, h3]⟩
        | undef => exact .inr ⟨rfl, [], by rw [hk]; simp, rfl⟩
        | panic => exact absurd hv (hn 0 f c rfl rfl)

theorem dsvRecord_spec (L : Lib) (enc : DV → α) {formats : List CellFormat} {b : PBuf DV α} (hb : Between b (kept formats) ps output)
    (hi : 0 < kept formats) (hp : PatternsOK (kept formats) output ps) {r : Record} (hl : r.length = formats.length)
    (hn : NoPanic L formats r) : ∃ b' : PBuf DV α, dsvCells L enc b formats r = some b' ∧ Between b' (kept formats) ps output ∧
      b'.buf.stored.Perm ((((recordRow L formats r).bind (filterResult ps)).map (List.map enc)).toList ++ b.buf.stored) := by
  rcases dsvCells_spec L enc b hl hn with ⟨vs, h1, h2⟩ | ⟨h1, vs, h2, h3⟩
  · rw [h2]
    unfold recordRow
    rw [if_pos hl, h1]
    exact addRow enc hb hi hp (cellValues_length hl h1)
  · obtain ⟨b', g1, g2, g3⟩ := addPart enc hb h2
    refine ⟨b'.drop, by rw [h3, g1]; rfl, g2, ?_⟩
    unfold recordRow
    rw [if_pos hl, h1, g3]
    simp

/-- **Specification.** A limit on a list; 0 is no limit. -/
def limited {γ : Type} (limit : Option Nat) (l : List γ) : List γ :=
  match limit with
  | none => l
  | some 0 => l
  | some n => l.take n

/-- The rows of records. -/
def recordRows (L : Lib) (enc : DV → α) (ps : List (Pattern DV)) (formats : List CellFormat) (rs : List Record) : List (List α) :=
  rs.filterMap fun r => ((recordRow L formats r).bind (filterResult ps)).map (List.map enc)

theorem dsvRecords_spec (L : Lib) (enc : DV → α) {formats : List CellFormat} (stop : Nat) (hi : 0 < kept formats)
    (hp : PatternsOK (kept formats) output ps) : ∀ (rs : List Record) (n : Nat) {b : PBuf DV α}, Between b (kept formats) ps output →
    (∀ r ∈ rs, NoPanic L formats r) → (n < stop ∨ stop = 0) →
    ∃ b' : PBuf DV α, dsvRecords L enc formats stop n b rs = some b' ∧ Between b' (kept formats) ps output ∧
      b'.buf.stored.Perm (recordRows L enc ps formats (limited (if stop = 0 then none else some (stop - n))
        (rs.filter fun r => r.length = formats.length)) ++ b.buf.stored)
  | [], n, b, hb, _, _ => ⟨b, rfl, hb, by
      have : limited (γ := Record) (if stop = 0 then none else some (stop - n)) [] = [] := by
        unfold limited
        split <;> simp
      simp [this, recordRows]⟩
  | r :: rs, n, b, hb, hn, hs => by
      rw [dsvRecords]
      by_cases hl : r.length = formats.length
      · rw [if_neg (by simpa using hl)]
        obtain ⟨b', h1, h2, h3⟩ := dsvRecord_spec L enc hb hi hp hl (hn r (by simp))
        rw [h1]
        dsimp only
        have hf : (r :: rs).filter (fun r => decide (r.length = formats.length)) =
            r :: rs.filter (fun r => decide (r.length = formats.length)) := List.filter_cons_of_pos (by simpa using hl)
        have hr : ∀ rs', recordRows L enc ps formats (r :: rs') =
            (((recordRow L formats r).bind (filterResult ps)).map (List.map enc)).toList ++ recordRows L enc ps formats rs' := by
          intro rs'
          unfold recordRows
          rw [List.filterMap_cons]
          cases ((recordRow L formats r).bind (filterResult ps)).map (List.map enc) <;> rfl
        rw [hf]
        by_cases he : n + 1 = stop
        · rw [if_pos he]
          refine ⟨b', rfl, h2, ?_⟩
          have h0 : stop ≠ 0 := by omega
          have h1' : ∀ l : List Record, limited (some 1) (r :: l) = [r] := fun l => rfl
          rw [if_neg h0, show stop - n = 1 by omega, h1', hr]
          simpa [recordRows] using h3
        · rw [if_neg he]
          obtain ⟨b2, g1, g2, g3⟩ := dsvRecords_spec L enc stop hi hp rs (n + 1) h2 (fun r h => hn r (by simp [h])) (by omega)
          refine ⟨b2, g1, g2, g3.trans ((List.Perm.append_left _ h3).trans ?_)⟩
          have hlim : limited (if stop = 0 then none else some (stop - n)) (r :: rs.filter (fun r => decide (r.length = formats.length))) =
              r :: limited (if stop = 0 then none else some (stop - (n + 1))) (rs.filter (fun r => decide (r.length = formats.length))) := by
            by_cases h0 : stop = 0
            · rw [if_pos h0, if_pos h0]; rfl
            · rw [if_neg h0, if_neg h0]
              obtain ⟨k, hk⟩ : ∃ k, stop - n = k + 2 := ⟨stop - n - 2, by omega⟩
              have hk' : stop - (n + 1) = k + 1 := by omega
              rw [hk, hk']
              rfl
          rw [hlim, hr, ← List.append_assoc, List.append_assoc]
          exact (List.perm_append_comm_assoc _ _ _).trans (by rw [← List.append_assoc])
      · rw [if_pos hl]
        have hf : (r :: rs).filter (fun r => decide (r.length = formats.length)) =
            rs.filter (fun r => decide (r.length = formats.length)) := List.filter_cons_of_neg (by simpa using hl)
        rw [hf]
        exact dsvRecords_spec L enc stop hi hp rs n hb (fun r h => hn r (by simp [h])) hs

theorem between_new (zero : DV) (hp : PatternsOK input output ps) (hpos : 0 < output) :
    Between (PBuf.new zero input ps : PBuf DV α) input ps output := by
  have hout := outputColumns_spec hp.each hp.none_
  refine ⟨⟨?_, ?_, ?_, rfl⟩, rfl, rfl⟩
  · unfold PBuf.new; dsimp only; rw [hout]; exact TBuf.ok_new hpos
  · unfold PBuf.new; dsimp only; rw [hout]; rfl
  · unfold PBuf.new; dsimp only; rw [hout]; simp

/-- **C48.** Importing a delimiter-separated file: the table consists exactly of the (filtered and
transformed) rows of the records with the right number of cells all of whose cells are well-formed; other
records are left out and do not influence other rows. A limit, unless it is 0, is the number of records
with the right number of cells that are considered. -/
theorem dsv_import (L : Lib) (enc : DV → α) (zero : DV) {formats : List CellFormat} (hi : 0 < kept formats) (hpos : 0 < output)
    (hp : PatternsOK (kept formats) output ps) (limit : Option Nat) (file : List Record) (hn : ∀ r ∈ file, NoPanic L formats r) :
    ∃ (b : PBuf DV α) (table : List (List α)), dsvRead L enc formats limit (PBuf.new zero (kept formats) ps) file = some b ∧
      b.buf.finalize = some table ∧ SortedRows table ∧
      ∀ x, x ∈ table ↔ ∃ r ∈ limited limit (file.filter fun r => r.length = formats.length), ∃ row, recordRow L formats r = some row ∧
        ∃ out, filterResult ps row = some out ∧ x = out.map enc := by
  obtain ⟨b, h1, h2, h3⟩ := dsvRecords_spec L enc (limit.getD 0) hi hp file 0 (between_new zero hp hpos) hn
    (by omega)
  obtain ⟨table, t1, t2, t3⟩ := TBuf.finalize_spec h2.ready.ok
  refine ⟨b, table, h1, t1, t2, fun x => ?_⟩
  have hlim : limited (if limit.getD 0 = 0 then none else some (limit.getD 0 - 0)) (file.filter fun r => decide (r.length = formats.length)) =
      limited limit (file.filter fun r => decide (r.length = formats.length)) := by
    cases limit with
    | none => rfl
    | some n => cases n <;> rfl
  rw [t3.mem_iff, h3.mem_iff, hlim]
  have : (PBuf.new zero (kept formats) ps : PBuf DV α).buf.stored = [] := rfl
  rw [this, List.append_nil]
  unfold recordRows
  rw [List.mem_filterMap]
  constructor
  · rintro ⟨r, g1, g2⟩
    simp only [Option.map_eq_some_iff, Option.bind_eq_some_iff] at g2
    obtain ⟨out, ⟨row, g3, g4⟩, rfl⟩ := g2
    exact ⟨r, g1, row, g3, out, g4, rfl⟩
  · rintro ⟨r, g1, row, g2, out, g3, rfl⟩
    exact ⟨r, g1, by simp [g2, g3]⟩

/-! ### Delimiter-separated values: export -/

theorem dsvLines_spec (X : FloatText) (formats : List CellFormat) (stop : Nat) : ∀ (rows : List (List DV)) (n : Nat),
    (n < stop ∨ stop = 0) → dsvLines X formats stop n rows =
      limited (if stop = 0 then none else some (stop - n)) (rows.filterMap (dsvLine X formats))
  | [], n, hs => by
      have : limited (γ := Record) (if stop = 0 then none else some (stop - n)) [] = [] := by
        unfold limited
        split <;> simp
      rw [List.filterMap_nil, this]
      rfl
  | row :: rows, n, hs => by
      rw [dsvLines, List.filterMap_cons]
      cases hr : dsvLine X formats row with
      | none => exact dsvLines_spec X formats stop rows n hs
      | some r =>
          dsimp only
          by_cases h0 : stop = 0
          · rw [if_neg (by omega), dsvLines_spec X formats stop rows (n + 1) (.inr h0), if_pos h0, if_pos h0]
            rfl
          · rw [if_neg h0]
            obtain ⟨k, hk⟩ : ∃ k, stop - n = k + 1 := ⟨stop - n - 1, by omega⟩
            rw [hk]
            by_cases he : n + 1 = stop
            · rw [if_pos he]
              have : k = 0 := by omega
              subst this
              rfl
            · rw [if_neg he, dsvLines_spec X formats stop rows (n + 1) (by omega), if_neg h0]
              obtain ⟨j, rfl⟩ : ∃ j, k = j + 1 := ⟨k - 1, by omega⟩
              rw [show stop - (n + 1) = j + 1 by omega]
              rfl

/-- **C48.** The exported records are those of the rows all of whose values can be written in the format of
their column, in order, up to the limit (unless it is 0). -/
theorem dsv_export (X : FloatText) (formats : List CellFormat) (limit : Option Nat) (rows : List (List DV)) :
    dsvWrite X formats limit rows = limited limit (rows.filterMap (dsvLine X formats)) := by
  unfold dsvWrite
  rw [dsvLines_spec X formats _ rows 0 (by omega)]
  cases limit with
  | none => rfl
  | some n => cases n <;> rfl

/-- The values that a column of the given format keeps. -/
def Keeps (L : Lib) : CellFormat → DV → Prop
  | .any, v => Survives L v
  | .string, v => ∃ s, v = .str s
  | .int, v => Survives L v ∧ ((∃ i, v = .long i) ∨ (∃ n, v = .ulong n) ∨ ∃ s, v = .other s (XSD ++ "integer"))
  | .double, v => ∃ f, v = .double f
  | .skip, v => False

theorem keeps_roundtrip (L : Lib) (X : FloatText) (hX : ∀ f, L.parseF64 (String.ofList (X.showF64 f)) = some f)
    {f : CellFormat} {v : DV} (h : Keeps L f v) : ∃ cell v', f.serialize X v = some cell ∧ f.parse L cell = .val v' ∧ DV.eq v' v = true := by
  cases f with
  | any =>
      obtain ⟨v', h1, h2⟩ := cell_roundtrip L X hX h
      exact ⟨_, v', rfl, h1, h2⟩
  | string =>
      obtain ⟨s, rfl⟩ := h
      exact ⟨s.toList, .str s, rfl, string_format L X rfl, by simp [DV.eq]⟩
  | int =>
      obtain ⟨hs, hk⟩ := h
      have : ∃ cell, CellFormat.serialize X .int v = some cell := by
        rcases hk with ⟨i, rfl⟩ | ⟨n, rfl⟩ | ⟨s, rfl⟩
        · exact ⟨_, rfl⟩
        · exact ⟨_, rfl⟩
        · exact ⟨s.toList, by simp [CellFormat.serialize, serializeInteger]⟩
      obtain ⟨cell, hc⟩ := this
      obtain ⟨v', h1, h2⟩ := int_format L X hs hc
      exact ⟨cell, v', hc, h1, h2⟩
  | double =>
      obtain ⟨g, rfl⟩ := h
      exact ⟨_, .double g, rfl, double_format L X hX rfl, by simp [DV.eq]⟩
  | skip => exact h.elim

/-- The rows that the columns keep. -/
def KeepsRow (L : Lib) : List CellFormat → List DV → Prop
  | [], [] => True
  | f :: fs, v :: vs => Keeps L f v ∧ KeepsRow L fs vs
  | _, _ => False

theorem row_roundtrip (L : Lib) (X : FloatText) (hX : ∀ f, L.parseF64 (String.ofList (X.showF64 f)) = some f) :
    ∀ {formats : List CellFormat} {row : List DV}, KeepsRow L formats row → ∃ r row', dsvLine X formats row = some r ∧
      r.length = formats.length ∧ cellValues L formats r = some row' ∧ NoPanic L formats r ∧
      List.Forall₂ (fun v' v => DV.eq v' v = true) row' row
  | [], [], _ => ⟨[], [], rfl, rfl, rfl, by intro i f c h; simp at h, .nil⟩
  | [], _ :: _, h => h.elim
  | _ :: _, [], h => h.elim
  | f :: fs, v :: vs, h => by
      obtain ⟨hf, ht⟩ := h
      obtain ⟨r, row', h1, h2, h3, h4, h5⟩ := row_roundtrip L X hX ht
      obtain ⟨cell, v', g1, g2, g3⟩ := keeps_roundtrip L X hX hf
      have hns : f ≠ .skip := by rintro rfl; exact hf
      refine ⟨cell :: r, v' :: row', ?_, by simp [h2], ?_, ?_, .cons g3 h5⟩
      · rw [dsvLine, if_neg hns, g1]
        simp [h1]
      · rw [cellValues, if_neg hns, g2]
        simp [h3]
      · intro i f' c' e1 e2
        cases i with
        | zero =>
            simp only [List.getElem?_cons_zero, Option.some.injEq] at e1 e2
            subst e1 e2
            rw [g2]
            simp
        | succ i => exact h4 i f' c' (by simpa using e1) (by simpa using e2)

theorem keepsRow_kept {L : Lib} : ∀ {formats : List CellFormat} {row : List DV}, KeepsRow L formats row → kept formats = formats.length
  | [], [], _ => rfl
  | [], _ :: _, h => h.elim
  | _ :: _, [], h => h.elim
  | f :: fs, v :: vs, h => by
      have hns : f ≠ .skip := by rintro rfl; exact h.1
      have := keepsRow_kept h.2
      simp [kept, hns] at this ⊢
      exact this

theorem enc_congr {enc : DV → α} (henc : ∀ v v', DV.eq v v' = true → enc v = enc v') : ∀ {row row' : List DV},
    List.Forall₂ (fun v' v => DV.eq v' v = true) row' row → row'.map enc = row.map enc
  | [], [], _ => rfl
  | v :: vs, v' :: vs', h => by
      cases h with
      | cons h1 h2 => rw [List.map_cons, List.map_cons, henc _ _ h1, enc_congr henc h2]

/-- **C32.** Exporting a table to a delimiter-separated file and importing the file again yields the same
table, if the columns keep the values of the table (and equal values are stored in the same way). -/
theorem dsv_roundtrip_partial (L : Lib) (X : FloatText) (hX : ∀ f, L.parseF64 (String.ofList (X.showF64 f)) = some f)
    (enc : DV → α) (henc : ∀ v v', DV.eq v v' = true → enc v = enc v') (zero : DV) {formats : List CellFormat}
    (hf : formats ≠ []) (hns : .skip ∉ formats) {rows : List (List DV)} (hr : ∀ row ∈ rows, KeepsRow L formats row) :
    ∃ (b : PBuf DV α) (table : List (List α)),
      dsvRead L enc formats none (PBuf.new zero (kept formats) []) (dsvWrite X formats none rows) = some b ∧
      b.buf.finalize = some table ∧ SortedRows table ∧ ∀ x, x ∈ table ↔ ∃ row ∈ rows, x = row.map enc := by
  have hk : kept formats = formats.length := by
    unfold kept
    rw [List.filter_eq_self.mpr]
    intro f hfm
    simp only [ne_eq, decide_not, Bool.not_eq_true', decide_eq_false_iff_not]
    rintro rfl
    exact hns hfm
  have hpos : 0 < kept formats := by rw [hk]; exact List.length_pos_iff.mpr hf
  rw [dsv_export]
  have hno : ∀ r ∈ limited none (rows.filterMap (dsvLine X formats)), NoPanic L formats r := by
    intro r hm
    obtain ⟨row, h1, h2⟩ := List.mem_filterMap.mp hm
    obtain ⟨r', row', g1, _, _, g4, _⟩ := row_roundtrip L X hX (hr row h1)
    rw [g1] at h2
    cases h2
    exact g4
  obtain ⟨b, table, h1, h2, h3, h4⟩ := dsv_import L enc zero hpos hpos (patternsOK_nil _) none _ hno
  refine ⟨b, table, h1, h2, h3, fun x => ?_⟩
  rw [h4]
  constructor
  · rintro ⟨r, m, row', e1, out, e2, rfl⟩
    obtain ⟨hm, _⟩ := List.mem_filter.mp m
    obtain ⟨row, k1, k2⟩ := List.mem_filterMap.mp hm
    obtain ⟨r', row'', g1, g2, g3, g4, g5⟩ := row_roundtrip L X hX (hr row k1)
    rw [g1] at k2
    cases k2
    unfold recordRow at e1
    rw [if_pos g2, g3] at e1
    cases e1
    simp only [filterResult, List.isEmpty_nil, if_true, Option.some.injEq] at e2
    subst e2
    exact ⟨row, k1, enc_congr henc g5⟩
  · rintro ⟨row, k1, rfl⟩
    obtain ⟨r, row', g1, g2, g3, g4, g5⟩ := row_roundtrip L X hX (hr row k1)
    refine ⟨r, List.mem_filter.mpr ⟨List.mem_filterMap.mpr ⟨row, k1, g1⟩, by simpa using g2⟩, row', ?_, row', rfl, (enc_congr henc g5).symm⟩
    unfold recordRow
    rw [if_pos g2, g3]

end Verif.Lit
