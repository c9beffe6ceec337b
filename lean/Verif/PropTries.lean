import Verif.TupleBuffer

/-!
# Properties of tables (C07, C08, C10)

The statements are about the operations on tables: writing rows into a buffer, building a table
from it, iterating over the rows, looking up a row, materializing the result of a table operation.
-/

set_option linter.unusedSimpArgs false
set_option linter.unusedSectionVars false

namespace Verif
variable {α : Type} [SVal α]

/-- The complete way from written values to a table: `TupleBuffer::new`, `add_tuple_value` for all
values, `finalize`, `Trie::from_tuple_buffer` (trie.rs:183-249). -/
def tableOf (m : Nat) (rows : List (List α)) : Option (Trie α) := do
  let buf ← (TBuf.new m).addAll rows.flatten
  let sorted ← buf.finalize
  Trie.fromSorted m sorted

theorem tableOf_rep {m : Nat} (hm : 0 < m) {rows : List (List α)} (hl : ∀ r ∈ rows, r.length = m) :
    ∃ t sorted, tableOf m rows = some t ∧ t.arity = m ∧ SortedRows sorted ∧ sorted.Perm rows ∧
      Rep t sorted := by
  obtain ⟨b, h1, h2, _, _, h3⟩ := TBuf.addRows_spec rows (TBuf.ok_new hm) rfl rfl hl
  obtain ⟨out, h4, h5, h6⟩ := TBuf.finalize_spec h2
  have hperm : out.Perm rows := by
    refine h6.trans (h3.trans ?_)
    simp [TBuf.stored, TBuf.new]
  obtain ⟨t, h7, h8, h9, _⟩ := Trie.fromSorted_rep h5 (m := m)
    (fun r hr => hl r (hperm.mem_iff.mp hr))
  exact ⟨t, out, by simp [tableOf, h1, h4, h7], h8, h5, hperm, h9⟩

/-- **C07.** A table contains exactly the rows that were written, each once, and its iterator returns
them in ascending order; the number of rows is the number of distinct rows. -/
theorem table_is_set_of_rows {m : Nat} (hm : 0 < m) {rows : List (List α)}
    (hl : ∀ r ∈ rows, r.length = m) (d : α) :
    ∃ t out, tableOf m rows = some t ∧ t.rowIterator d = some out ∧
      out.Pairwise (· < ·) ∧ (∀ r, r ∈ out ↔ r ∈ rows) ∧ t.numRows = out.length := by
  obtain ⟨t, sorted, h1, h2, h3, h4, h5⟩ := tableOf_rep hm hl
  have hl' : ∀ r ∈ sorted, r.length = t.arity := fun r hr => by rw [h2]; exact hl r (h4.mem_iff.mp hr)
  obtain ⟨out, h6, h7, h8⟩ := Trie.rowIterator_spec h3 h5 hl' (by omega) d
  refine ⟨t, out, h1, h6, h7, fun r => (h8 r).trans h4.mem_iff, ?_⟩
  rw [Trie.numRows_spec h5 (by omega)]
  congr 1
  refine asc_ext (level_sorted h3 _) h7 fun r => ?_
  rw [h8 r, Trie.level_rows (by omega) hl']

/-- The rows of a table do not depend on the order in which they were written, nor on repetitions. -/
theorem table_order_independent {m : Nat} (hm : 0 < m) {rows rows' : List (List α)}
    (hl : ∀ r ∈ rows, r.length = m) (hsame : ∀ r, r ∈ rows ↔ r ∈ rows') (d : α) :
    ∃ t t' out, tableOf m rows = some t ∧ tableOf m rows' = some t' ∧
      t.rowIterator d = some out ∧ t'.rowIterator d = some out := by
  obtain ⟨t, out, h1, h2, h3, h4, _⟩ := table_is_set_of_rows hm hl d
  obtain ⟨t', out', h1', h2', h3', h4', _⟩ :=
    table_is_set_of_rows hm (fun r hr => hl r ((hsame r).mpr hr)) d
  have : out = out' := asc_ext h3 h3' fun r => by rw [h4, h4', hsame]
  exact ⟨t, t', out, h1, h1', h2, this ▸ h2'⟩

/-- **C08.** `contains_row` answers whether the row was written. -/
theorem containsRow_iff {m : Nat} (hm : 0 < m) {rows : List (List α)}
    (hl : ∀ r ∈ rows, r.length = m) (r : List α) :
    ∃ t, tableOf m rows = some t ∧ t.containsRow r = some (decide (r ∈ rows)) := by
  obtain ⟨t, sorted, h1, h2, h3, h4, h5⟩ := tableOf_rep hm hl
  refine ⟨t, h1, ?_⟩
  rw [Trie.containsRow_spec h3 h5 (fun r hr => by rw [h2]; exact hl r (h4.mem_iff.mp hr)) (by omega)]
  simp [h4.mem_iff]

/-- **C08.** `row_position` returns a position exactly for the rows of the table. -/
theorem rowPosition_isSome_iff {m : Nat} (hm : 0 < m) {rows : List (List α)}
    (hl : ∀ r ∈ rows, r.length = m) (r : List α) :
    ∃ t o, tableOf m rows = some t ∧ t.rowPosition r = some o ∧ (o.isSome ↔ r ∈ rows) := by
  obtain ⟨t, sorted, h1, h2, h3, h4, h5⟩ := tableOf_rep hm hl
  rcases Trie.rowPosition_spec h3 h5 (fun r hr => by rw [h2]; exact hl r (h4.mem_iff.mp hr)) (by omega) r
    with ⟨h6, h7⟩ | ⟨h6, A, B, _, h7⟩
  · exact ⟨t, none, h1, h7, by simp; exact fun h => h6 (h4.mem_iff.mpr h)⟩
  · exact ⟨t, _, h1, h7, by simp; exact h4.mem_iff.mp h6⟩

/-- **C08, C27.** If the last values of all rows have the same storage type, then `row_position` is
the index of the row in the iterator; in particular different rows have different positions. -/
theorem rowPosition_index_partial {m : Nat} (hm : 0 < m) {rows : List (List α)}
    (hl : ∀ r ∈ rows, r.length = m) {τ : Ty} (hτ : ∀ r ∈ rows, lastTy r = τ) (d : α) {r : List α}
    (hr : r ∈ rows) :
    ∃ t out i, tableOf m rows = some t ∧ t.rowIterator d = some out ∧
      t.rowPosition r = some (some i) ∧ out[i]? = some r := by
  obtain ⟨t, sorted, h1, h2, h3, h4, h5⟩ := tableOf_rep hm hl
  have hl' : ∀ r ∈ sorted, r.length = t.arity := fun r hr => by rw [h2]; exact hl r (h4.mem_iff.mp hr)
  obtain ⟨out, h6, h7, h8⟩ := Trie.rowIterator_spec h3 h5 hl' (by omega) d
  have hout : level sorted t.arity = out := by
    refine asc_ext (level_sorted h3 _) h7 fun r => ?_
    rw [h8 r, Trie.level_rows (by omega) hl']
  rcases Trie.rowPosition_spec h3 h5 hl' (by omega) r with ⟨h9, _⟩ | ⟨_, A, B, h9, h10⟩
  · exact absurd (h4.mem_iff.mpr hr) h9
  · have hA : A.filter (lastTy · = lastTy r) = A := by
      rw [List.filter_eq_self]
      intro x hx
      have : x ∈ rows := by
        rw [← h4.mem_iff, ← Trie.level_rows (by omega : 0 < t.arity) hl', h9]; simp [hx]
      simp [hτ x this, hτ r hr]
    rw [hA] at h10
    exact ⟨t, out, A.length, h1, h6, h10, by rw [← hout, h9]; simp⟩

/-- **C10.** Materializing a partial trie scan: the new table contains exactly the rows of the scan,
restricted to the columns that are kept (a row is kept if it can be extended to a complete row of
the scan), each once and in ascending order. -/
theorem materialize_rows_partial {S : Type} {ops : TrieOps S α} {arity : Nat} {ch : List α → Ty → List α}
    {R : S → TPath α → Prop} (hS : Simulates ops arity ch R) {types : Nat → List Ty}
    (hT : TreeOK types ch arity) {s : S} (hs : R s []) (cut : Nat) (hcut : cut < arity) (d d' : α) :
    ∃ t out, materialize ops arity types s cut d = some t ∧ t.rowIterator d' = some out ∧
      out.Pairwise (· < ·) ∧
      (∀ r, r ∈ out ↔ r.length = arity - cut ∧ ∃ x, RowsOf ch arity (r ++ x)) := by
  obtain ⟨t, h1, h2, h3, _⟩ := materialize_rep hS hT hs cut hcut d
  have hsort := extRows_sorted hT (arity - cut) cut
  have hmem : ∀ r, r ∈ extRows types ch (arity - cut) cut ↔ _ :=
    fun r => mem_extRows hT (n := arity - cut) (e := cut) (by omega)
  rw [show arity - cut + cut = arity by omega] at hmem
  obtain ⟨out, h4, h5, h6⟩ := Trie.rowIterator_spec (hsort.imp le_of_lt) h3
    (fun r hr => by rw [h2]; exact ((hmem r).mp hr).1) (by omega) d'
  exact ⟨t, out, h1, h4, h5, fun r => (h6 r).trans (hmem r)⟩

/-- **C10.** Materializing the scan of a table gives back the table; cutting columns projects. -/
theorem materialize_table {m : Nat} (hm : 0 < m) {rows : List (List α)}
    (hl : ∀ r ∈ rows, r.length = m) (cut : Nat) (hcut : cut < m) (d d' : α) :
    ∃ t t' out, tableOf m rows = some t ∧
      materialize GScan.ops m t.possibleTypes (GScan.new t) cut d = some t' ∧
      t'.rowIterator d' = some out ∧ out.Pairwise (· < ·) ∧
      (∀ r, r ∈ out ↔ ∃ x ∈ rows, r = x.take (m - cut)) := by
  obtain ⟨t, sorted, h1, h2, h3, h4, h5⟩ := tableOf_rep hm hl
  have hl' : ∀ r ∈ sorted, r.length = t.arity := fun r hr => by rw [h2]; exact hl r (h4.mem_iff.mp hr)
  have hS := GScan.simulates h3 h5
  have hT := treeOK_chOf h3 h5
  rw [h2] at hS hT
  obtain ⟨t', out, e1, e2, e3, e4⟩ := materialize_rows_partial hS hT GScan.inv_new cut hcut d d'
  refine ⟨t, t', out, h1, e1, e2, e3, fun r => ?_⟩
  rw [e4 r]
  rw [h2] at hl'
  constructor
  · rintro ⟨hr, x, hx⟩
    refine ⟨r ++ x, h4.mem_iff.mp ((rowsOf_chOf hm hl').mp hx), ?_⟩
    rw [List.take_left' hr]
  · rintro ⟨x, hx, rfl⟩
    have := hl x hx
    refine ⟨by simp; omega, x.drop (m - cut), ?_⟩
    rw [List.take_append_drop]
    exact (rowsOf_chOf hm hl').mpr (h4.mem_iff.mpr hx)

/-! ## What does not hold for tables without columns -/

/-- `contains_row` of a table without columns and without rows answers `true` for the empty row. -/
theorem containsRow_zero_arity_wrong :
    (Trie.zeroArity false : Trie α).numRows = 0 ∧
      (Trie.zeroArity false : Trie α).containsRow [] = some true := by
  constructor <;> rfl

/-- Materializing a scan without columns (or cutting all columns) returns the table with one empty
row, even if the scan has no rows. -/
theorem materialize_zero_arity_wrong {S : Type} (ops : TrieOps S α) (arity : Nat)
    (types : Nat → List Ty) (s : S) (d : α) :
    ∃ t, materialize ops arity types s arity d = some t ∧ t.numRows = 1 := by
  refine ⟨Trie.zeroArity true, ?_, rfl⟩
  simp [materialize]

/-! ## Examples -/

/-- Natural numbers as storage values: below 10 of type 0, below 20 of type 1, and so on. -/
@[reducible] def natSVal : SVal Nat where
  ty n := ⟨min (n / 10) 4, by omega⟩
  ty_mono a b h := by
    show min (a / 10) 4 ≤ min (b / 10) 4
    have : a / 10 ≤ b / 10 := Nat.div_le_div_right h
    omega

section examples
attribute [local instance] natSVal

/-- written: (3,12), (1,2), (3,4), (1,2) — the table is (1,2), (3,4), (3,12) -/
example : ∃ t out, tableOf 2 [[3, 12], [1, 2], [3, 4], [1, 2]] = some t ∧ t.rowIterator 0 = some out ∧
    t.numRows = out.length ∧ out = [[1, 2], [3, 4], [3, 12]] := by
  obtain ⟨t, out, h1, h2, h3, h4, h5⟩ :=
    table_is_set_of_rows (m := 2) (by omega) (rows := [[3, 12], [1, 2], [3, 4], [1, 2]]) (by decide) 0
  refine ⟨t, out, h1, h2, h5, ?_⟩
  refine asc_ext h3 (by decide) fun r => ?_
  rw [h4]; simp; tauto

/-- Two different rows with the same position: the positions count within a storage type. -/
theorem rowPosition_collision : ∃ t : Trie Nat, tableOf 1 [[5], [15]] = some t ∧
    t.rowPosition [5] = some (some 0) ∧ t.rowPosition [15] = some (some 0) := by
  obtain ⟨t, sorted, h1, h2, h3, h4, h5⟩ :=
    tableOf_rep (m := 1) (by omega) (rows := [[5], [15]]) (by decide)
  have hl' : ∀ r ∈ sorted, r.length = t.arity := fun r hr => by
    rw [h2]
    have := h4.mem_iff.mp hr
    simp at this; rcases this with rfl | rfl <;> rfl
  have hlev : level sorted t.arity = [[5], [15]] := by
    refine asc_ext (level_sorted h3 _) (by decide) fun r => ?_
    rw [Trie.level_rows (by omega) hl', h4.mem_iff]
  refine ⟨t, h1, ?_, ?_⟩
  · rcases Trie.rowPosition_spec h3 h5 hl' (by omega) [5] with ⟨h, _⟩ | ⟨_, A, B, h6, h7⟩
    · exact absurd (h4.mem_iff.mpr (by simp)) h
    · rw [hlev] at h6
      have : A = [] := by
        rcases A with _ | ⟨a, _ | ⟨b, A⟩⟩
        · rfl
        · simp at h6
        · simp at h6
      rw [h7, this]; rfl
  · rcases Trie.rowPosition_spec h3 h5 hl' (by omega) [15] with ⟨h, _⟩ | ⟨_, A, B, h6, h7⟩
    · exact absurd (h4.mem_iff.mpr (by simp)) h
    · rw [hlev] at h6
      have : A = [[5]] := by
        rcases A with _ | ⟨a, _ | ⟨b, A⟩⟩
        · simp at h6
        · simp at h6; simp [h6.1]
        · simp at h6
      rw [h7, this]; decide

/-- projecting (1,2), (1,3), (4,5) to the first column -/
example : ∃ t t' out, tableOf 2 [[1, 2], [1, 3], [4, 5]] = some t ∧
    materialize GScan.ops 2 t.possibleTypes (GScan.new t) 1 0 = some t' ∧
    t'.rowIterator 0 = some out ∧ out = [[1], [4]] := by
  obtain ⟨t, t', out, h1, h2, h3, h4, h5⟩ :=
    materialize_table (m := 2) (by omega) (rows := [[1, 2], [1, 3], [4, 5]]) (by decide) 1 (by omega) 0 0
  refine ⟨t, t', out, h1, h2, h3, asc_ext h4 (by decide) fun r => ?_⟩
  rw [h5]; simp

example : ∃ t, tableOf 2 [[1, 2], [4, 15]] = some t ∧ t.containsRow [4, 15] = some true :=
  containsRow_iff (m := 2) (by omega) (rows := [[1, 2], [4, 15]]) (by decide) [4, 15]

end examples
end Verif
