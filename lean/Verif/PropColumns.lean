import Verif.ColumnBuild

/-!
# Properties C01 and C02: columns store and seek faithfully

Bound used below: a column has fewer than `2^63` entries (a Rust `Vec` cannot be longer).
-/

set_option linter.unusedSimpArgs false

namespace Verif

/-- What C01 claims about a column holding `data`. -/
def Lossless {α Step : Type} [LinearOrder α] [DecidableEq Step] (r : RleOps α Step)
    (col : ColumnEnum α Step) (data : List α) : Prop :=
  col.len = data.length ∧
  (∀ i, i < data.length → col.get r i = data[i]?) ∧
  ∃ s, col.iter = some s ∧ collect (ColumnEnum.Scan.ops r) (data.length + 1) s = some data

theorem lossless_of_laws {α Step : Type} [LinearOrder α] [DecidableEq Step] {r : RleOps α Step}
    {safe : α → α → Prop} (L : RleLaws r safe) (t : DecisionThreshold) (m : Nat) (data : List α)
    (hlen : data.length < 2 ^ 63) :
    ∃ col, buildColumn r t m data = some col ∧ Lossless r col data := by
  obtain ⟨col, h1, h2⟩ := buildColumn_stores L t m data hlen
  obtain ⟨s, h3, h4⟩ := h2.iter
  exact ⟨col, h1, h2.len, fun i hi => h2.get L hlen hi, s, h3,
    collect_of_sim (ColumnEnum.Scan.Sim r data 0 data.length)
      (fun s c h => ColumnEnum.Scan.sim_next L hlen s c h) h4⟩

/-- **C01** for `u32`, `u64` and `usize` columns: whatever the decision threshold and the minimal run
length, building a column from any sequence of values succeeds, and length, random access and
iteration reproduce the sequence. -/
theorem C01_lossless_unsigned (w : Nat) (hw : w ≤ 64) (t : DecisionThreshold) (m : Nat)
    (data : List (UBits w)) (hlen : data.length < 2 ^ 63) :
    ∃ col, buildColumn (unsignedRle w) t m data = some col ∧ Lossless (unsignedRle w) col data :=
  lossless_of_laws (unsigned_laws w hw) t m data hlen

/-- **C01** for `i64` columns. -/
theorem C01_lossless_i64 (t : DecisionThreshold) (m : Nat) (data : List I64)
    (hlen : data.length < 2 ^ 63) :
    ∃ col, buildColumn i64Rle t m data = some col ∧ Lossless i64Rle col data :=
  lossless_of_laws i64_laws t m data hlen

/-- **C01** for floating point columns (values up to the equality of the type). -/
theorem C01_lossless_float (α : Type) [LinearOrder α] (zero : α) (t : DecisionThreshold) (m : Nat)
    (data : List α) (hlen : data.length < 2 ^ 63) :
    ∃ col, buildColumn (floatRle α zero) t m data = some col ∧ Lossless (floatRle α zero) col data :=
  lossless_of_laws (float_laws α zero) t m data hlen

/-- non-vacuity (a test): the builder keeps run-length blocks for one parameter choice -/
example : ∃ c, buildColumn (unsignedRle 32) .onFinalize 2 [3, 4, 5, 5, 5, 1] = some (.rle c) ∧
    c.endIndices = [3, 5, 6] := by
  refine ⟨_, rfl, ?_⟩
  decide

/-- What C02 claims: a cursor of the column narrowed to `a..b` answers every call sequence (whose
sought values satisfy `P`) like a cursor over that part of the column; after every such call sequence
`pos()` is `None` exactly if there is no current value, and otherwise is the index in the column of
the current value and of the values still ahead. -/
def SeeksWell {α Step : Type} [LinearOrder α] [DecidableEq Step] (r : RleOps α Step) (P : α → Prop)
    (data : List α) (a b : Nat) (s : ColumnEnum.Scan α Step) : Prop :=
  BehavesOn P (ColumnEnum.Scan.ops r) s (.fresh (slice data a b)) ∧
  ∀ t : List (Call α), (∀ v, Call.seek v ∈ t → P v) →
    ∃ s', exec (ColumnEnum.Scan.ops r) s t = some s' ∧
      ((s'.position = some none ∧ (specExec (.fresh (slice data a b)) t).current = none) ∨
       ∃ p, s'.position = some (some p) ∧ a ≤ p ∧ p < b ∧
        specExec (.fresh (slice data a b)) t = .at (slice data p b))

theorem seeksWell_of_laws {α Step : Type} [LinearOrder α] [DecidableEq Step] {r : RleOps α Step}
    {safe : α → α → Prop} (L : RleLaws r safe) (t : DecisionThreshold) (m : Nat) (data : List α)
    (hlen : data.length < 2 ^ 63) (a b : Nat) (ha : a ≤ data.length) (hb : b ≤ data.length)
    (hs : (slice data a b).Pairwise (· ≤ ·)) :
    ∃ col s0 s, buildColumn r t m data = some col ∧ col.iter = some s0 ∧ s0.narrow a b = some s ∧
      SeeksWell r (fun v => ∀ x ∈ data, safe v x) data a b s := by
  obtain ⟨col, h1, h2⟩ := buildColumn_stores L t m data hlen
  obtain ⟨s0, h3, h4⟩ := h2.iter
  obtain ⟨s, h5, h6⟩ := ColumnEnum.Scan.sim_narrow h4 ha hb
  refine ⟨col, s0, s, h1, h3, h5, ?_, fun t ht => ?_⟩
  · exact BehavesOn.of_sim (ColumnEnum.Scan.Sim r data a b) (fun s c h => ColumnEnum.Scan.sim_current s c h)
      (fun s c h => ColumnEnum.Scan.sim_next L hlen s c h)
      (fun s c v hv h => ColumnEnum.Scan.sim_seek L hlen hs s c v hv h) h6
  · obtain ⟨s', e1, e2⟩ := execOn_of_sim (P := fun v => ∀ x ∈ data, safe v x)
      (ColumnEnum.Scan.Sim r data a b)
      (fun s c h => ColumnEnum.Scan.sim_next L hlen s c h)
      (fun s c v hv h => ColumnEnum.Scan.sim_seek L hlen hs s c v hv h) h6 t ht
    exact ⟨s', e1, ColumnEnum.Scan.sim_position e2⟩

/-- **C02** for `u32`, `u64` and `usize` columns, all thresholds, all sorted intervals and all call
sequences. -/
theorem C02_seek_unsigned (w : Nat) (hw : w ≤ 64) (t : DecisionThreshold) (m : Nat)
    (data : List (UBits w)) (hlen : data.length < 2 ^ 63) (a b : Nat) (ha : a ≤ data.length)
    (hb : b ≤ data.length) (hs : (slice data a b).Pairwise (· ≤ ·)) :
    ∃ col s0 s, buildColumn (unsignedRle w) t m data = some col ∧ col.iter = some s0 ∧
      s0.narrow a b = some s ∧ SeeksWell (unsignedRle w) (fun _ => True) data a b s := by
  have := seeksWell_of_laws (unsigned_laws w hw) t m data hlen a b ha hb hs
  simpa using this

/-- **C02** for floating point columns. -/
theorem C02_seek_float (α : Type) [LinearOrder α] (zero : α) (t : DecisionThreshold) (m : Nat)
    (data : List α) (hlen : data.length < 2 ^ 63) (a b : Nat) (ha : a ≤ data.length)
    (hb : b ≤ data.length) (hs : (slice data a b).Pairwise (· ≤ ·)) :
    ∃ col s0 s, buildColumn (floatRle α zero) t m data = some col ∧ col.iter = some s0 ∧
      s0.narrow a b = some s ∧ SeeksWell (floatRle α zero) (fun _ => True) data a b s := by
  have := seeksWell_of_laws (float_laws α zero) t m data hlen a b ha hb hs
  simpa using this

/-- **C02** for `i64` columns, *partial*: the sought values must not lie exactly `2^63` above a value
of the column. Without this guard the statement is false, see `C02_seek_i64_panics`. -/
theorem C02_seek_i64_partial (t : DecisionThreshold) (m : Nat)
    (data : List I64) (hlen : data.length < 2 ^ 63) (a b : Nat) (ha : a ≤ data.length)
    (hb : b ≤ data.length) (hs : (slice data a b).Pairwise (· ≤ ·)) :
    ∃ col s0 s, buildColumn i64Rle t m data = some col ∧ col.iter = some s0 ∧
      s0.narrow a b = some s ∧
      SeeksWell i64Rle (fun v => ∀ x ∈ data, v.1 - x.1 ≠ 2 ^ 63) data a b s :=
  seeksWell_of_laws i64_laws t m data hlen a b ha hb hs

/-- non-vacuity (a test): the premises hold for a non-trivial column whose blocks descend between
intervals -/
example : (slice ([7, 2, 5, 9, 1] : List (UBits 32)) 1 4).Pairwise (· ≤ ·) := by decide

/-- the values of the witness: `-1`, `-2`, then `0, 1, …, 99` -/
def panicData : List I64 :=
  wrap64 (-1) :: wrap64 (-2) :: (List.range 100).map fun (n : Nat) => wrap64 (n : Int)

/-- **C02 fails for `i64`**: with the default parameters of the builder (threshold 100, minimal
average run length 50) the column `-1, -2, 0, 1, …, 99` is run-length encoded with a block `-1, -2` of
step `-1`. Seeking `i64::MAX` in the interval that only contains `-1` evaluates `i64::MIN / -1`, which
panics (column/rle.rs:341). -/
theorem C02_seek_i64_panics :
    ∃ col s0 s, buildColumn i64Rle (.numberOfRleElements 100) 50 panicData = some col ∧
      col.iter = some s0 ∧ s0.narrow 0 1 = some s ∧
      (ColumnEnum.Scan.ops i64Rle).seek s (wrap64 (2 ^ 63 - 1)) = none := by
  have h : (do
      let col ← buildColumn i64Rle (.numberOfRleElements 100) 50 panicData
      let s0 ← col.iter
      let s ← s0.narrow 0 1
      return ((ColumnEnum.Scan.ops i64Rle).seek s (wrap64 (2 ^ 63 - 1))).isNone) = some true := by
    decide +kernel
  cases h1 : buildColumn i64Rle (.numberOfRleElements 100) 50 panicData with
  | none => simp [h1] at h
  | some col =>
    cases h2 : col.iter with
    | none => simp [h1, h2] at h
    | some s0 =>
      cases h3 : s0.narrow 0 1 with
      | none => simp [h1, h2, h3] at h
      | some s =>
        refine ⟨col, s0, s, rfl, h2, h3, ?_⟩
        simpa [h1, h2, h3] using h

end Verif
