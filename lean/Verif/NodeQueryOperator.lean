import Verif.NodeQueryExamples
import Verif.SingleOp

/-!
# Node queries with the operator that keeps one row

`GeneratorSingle` is a choice for which the theorem on node queries holds.
-/

set_option linter.unusedSimpArgs false
set_option linter.unusedSectionVars false

namespace Verif
namespace Trace.NodeQ

section
variable {α : Type} [SVal α] [Inhabited α] [Dom α]

/-- The result of the operator for the table of a relation: the table is stored as trie (the result of the rest of the plan is scanned in the same way, see C09), its scan is given to
`GeneratorSingle`, and the rows of the result are read. -/
def operatorRows (cols single : List Variable) (rows : List (List α)) : Option (List (List α)) := do
  let t ← tableOf cols.length rows
  let t' ← (GenSingle.new cols single).apply GScan.ops cols.length t.possibleTypes (GScan.new t) default
  t'.rowIterator default

/-- `GeneratorSingle` on relations.  (Tables without columns, and tables with rows of a wrong length, do not occur.) -/
def operator : Choice α := ⟨fun single R => ⟨R.cols,
  if R.cols = [] then R.rows else if R.rows.all fun r => r.length == R.cols.length then (operatorRows R.cols single R.rows).getD [] else []⟩⟩

/-- The operator does not panic: its result are rows of the table, for each row of the table one that agrees on the other columns, and no two that agree on them. -/
theorem operatorRows_spec {cols : List Variable} (single : List Variable) {rows : List (List α)} (h0 : cols ≠ []) (hl : ∀ r ∈ rows, r.length = cols.length) :
    ∃ out, operatorRows cols single rows = some out ∧ (∀ r ∈ out, r ∈ rows) ∧
      (∀ r ∈ rows, ∃ r' ∈ out, ∀ (i : Nat) (m : Variable), cols[i]? = some m → m ∉ single → r'[i]? = r[i]?) ∧
      (∀ r ∈ out, ∀ r' ∈ out, (∀ (i : Nat) (m : Variable), cols[i]? = some m → m ∉ single → r[i]? = r'[i]?) → r = r') := by
  have hpos : 0 < cols.length := List.length_pos_iff.2 h0
  obtain ⟨t, srt, h1, h2, h3, h4, h5⟩ := tableOf_rep hpos hl
  have hS := GScan.simulates h3 h5
  have hT := treeOK_chOf h3 h5
  rw [h2] at hS hT
  have hl' : ∀ r ∈ srt, r.length = cols.length := fun r hr => hl r (h4.mem_iff.1 hr)
  have hm : ∀ r, RowsOf (chOf srt) cols.length r ↔ r ∈ rows := fun r => by
    rw [rowsOf_chOf hpos hl', h4.mem_iff]
  obtain ⟨t', sorted, e1, e2, e3, e4, e5, e6, e7⟩ := GenSingle.single_spec cols single hS hT GScan.inv_new hpos default
  obtain ⟨out, f1, -, f3⟩ := Trie.rowIterator_spec e3 e4 (fun r hr => by rw [e2]; exact hl r ((hm r).1 (e5 r hr))) (by omega) default
  refine ⟨out, ?_, fun r hr => (hm r).1 (e5 r ((f3 r).1 hr)), fun r hr => ?_, fun r hr r' hr' h => e7 r ((f3 r).1 hr) r' ((f3 r').1 hr') h⟩
  · rw [operatorRows, h1]
    simp only [Option.bind_eq_bind, Option.bind_some]
    rw [e1]
    exact f1
  · obtain ⟨r', g1, g2⟩ := e6 r ((hm r).2 hr)
    exact ⟨r', (f3 r').2 g1, g2⟩

theorem operator_ok : (operator (α := α)).OK := by
  have hop : ∀ (vs : List Variable) (R : Rel α), R.cols ≠ [] → (∀ r ∈ R.rows, r.length = R.cols.length) →
      (operator.single vs R).rows = (operatorRows R.cols vs R.rows).getD [] := fun vs R h0 hl => by
    show (if R.cols = [] then R.rows else if R.rows.all fun r => r.length == R.cols.length then (operatorRows R.cols vs R.rows).getD [] else []) = _
    rw [if_neg h0, if_pos (by simpa using hl)]
  refine ⟨fun _ _ => rfl, fun vs R row h => ?_, fun vs R hw σ hσ => ?_⟩
  · by_cases h0 : R.cols = []
    · have h' : row ∈ (if R.cols = [] then R.rows else if R.rows.all fun r => r.length == R.cols.length then (operatorRows R.cols vs R.rows).getD [] else []) := h
      rwa [if_pos h0] at h'
    · by_cases hl : ∀ r ∈ R.rows, r.length = R.cols.length
      · rw [hop vs R h0 hl] at h
        obtain ⟨out, e1, e2, -⟩ := operatorRows_spec vs h0 hl
        rw [e1] at h
        exact e2 row h
      · have h' : row ∈ (if R.cols = [] then R.rows else if R.rows.all fun r => r.length == R.cols.length then (operatorRows R.cols vs R.rows).getD [] else []) := h
        rw [if_neg h0, if_neg (by simpa using hl)] at h'
        cases h'
  · by_cases h0 : R.cols = []
    · refine ⟨σ, fun _ _ _ => rfl, ?_⟩
      show R.cols.map σ ∈ (if R.cols = [] then R.rows else _)
      rw [if_pos h0]; exact hσ
    · obtain ⟨out, e1, e2, e3, -⟩ := operatorRows_spec vs h0 hw.len
      obtain ⟨r', g1, g2⟩ := e3 _ hσ
      have hlen := hw.len _ (e2 _ g1)
      refine ⟨assign R.cols r', fun v hv hvs => ?_, ?_⟩
      · obtain ⟨i, hi⟩ := List.mem_iff_getElem?.1 hv
        have h3 := g2 i v hi hvs
        have h4 : (R.cols.map (assign R.cols r'))[i]? = r'[i]? := by rw [map_assign hw.nodup hlen]
        rw [h3] at h4
        simpa [hi] using h4
      · show R.cols.map (assign R.cols r') ∈ (operator.single vs R).rows
        rw [map_assign hw.nodup hlen, hop vs R h0 hw.len, e1]
        exact g1

end

end Trace.NodeQ

namespace NodeQueryExample
open Trace.NodeQ TraceExample Example
attribute [local instance] natSVal

/-- The reachability example with the operator: paths that end with an allowed edge -/
theorem reachability_operator (edges : List (Nat × Nat)) (nodes : List Nat) (b : Nat) : ∃ cond fuel st out,
    CondOK cond ∧ Eng.execute cond prog cfgs [1, 3] fuel (Eng.init (input edges nodes)) = some (some st) ∧
    traceNode operator prog arity st (twoSteps b) 1 = some out ∧
    ∀ row, (∃ rows, ([], rows) ∈ out ∧ row ∈ rows) ↔ ∃ s, SatAt prog st (twoSteps b) 1 row s := by
  obtain ⟨cond, fuel, st, h1, h2, -, -⟩ := reachability edges nodes
  have hr := execute_reached h2
  have hna : ∀ r ∈ prog, r.containsAggregates = false := fun r hr => (TraceExample.prog_traceOK r hr).plain
  obtain ⟨out, e1, e2, -⟩ := node_query_partial prog_ok hna (input_ok edges nodes) hr operator_ok (by decide) (twoSteps_good b)
  exact ⟨cond, fuel, st, out, h1, h2, e1, e2⟩

end NodeQueryExample
end Verif
