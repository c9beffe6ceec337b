import Verif.PropImportRule
import Verif.PagingExamples
import Verif.EngineExamples
set_option maxRecDepth 100000
set_option linter.unusedSimpArgs false

/-!
# Examples and counterexamples for rules with import clauses

An example rule that satisfies the assumptions of `PropImportRule.lean` with a history in which rows are imported in two
steps, and rules that are evaluated wrongly because one of the assumptions does not hold.
-/

namespace Verif.Dem.Example
open Verif Verif.Example Verif.Dem

/-- a variable -/
abbrev W : Variable := .universal 3

/-- an external table that answers with the rows that agree with a combination of the bindings -/
def serve (ext : Tag → List (List Nat)) (p : Tag) (pb : ProductBindings Nat) : List (List Nat) :=
  (ext p).filter fun row => (combinations pb).any fun c => c.all fun b => b.rows.any fun t =>
    (b.positions.zip t).all fun x => decide (row[x.1]? = some x.2)

theorem serve_fetches (ext : Tag → List (List Nat)) : Fetches (serve ext) ext := by
  constructor
  · intro p pb row h
    exact (List.mem_filter.1 h).1
  · intro p pb row hs he hd
    obtain ⟨c, hc, hm⟩ := comb_of_demanded some hs hd
    refine List.mem_filter.2 ⟨he, ?_⟩
    rw [List.any_eq_true]
    refine ⟨c, hc, List.all_eq_true.2 fun b hb => ?_⟩
    obtain ⟨t, ht, hag⟩ := hm b hb
    refine List.any_eq_true.2 ⟨t, ht, List.all_eq_true.2 fun x hx => ?_⟩
    rcases hag x hx with h1 | ⟨u, h1, h2⟩
    · cases h1
    · simp only [Option.some.injEq] at h2
      subst h2
      simpa using h1

/-- The answer of the SPARQL reader: if it ends then it satisfies the contract for the given bindings. -/
theorem reader_fetches (ext : List (List Nat)) (fits : List (Bindings Nat) → Bool) (fuel : Nat) (pb : ProductBindings Nat)
    (hpos : SamePositions pb) (l : List (List Nat))
    (h : loadFromBindings fits (tableServer ext) fuel pb = some (.done l)) (row : List Nat) :
    (row ∈ l → row ∈ ext) ∧ (row ∈ ext → Demanded some pb row → row ∈ l) :=
  ⟨import_sound some (tableServer_serves ext) fits fuel pb l h row,
    import_complete_partial some (tableServer_serves ext) (by intro page; simp [tableServer]) fits fuel pb hpos l h row⟩

/-- names of the predicates with bindings -/
def names : BindTag := fun p n => 100 + 10 * p + n

/-! ## An example -/

/-- the condition `?v + ?v = n` -/
def twice (v : Variable) (n : Nat) : Operation Nat := .equal (.op 0 [.var v, .var v]) (.const n)

/-- `p(?x, ?w) :- q(?x), ~s(?x), imp1(?x, ?w), ~imp2(?x, ?z), ?w + ?w = 10, ?z + ?z = 6` with
`q = 0, s = 1, imp1 = 2, imp2 = 3` -/
def rule : IRule Nat :=
  ⟨⟨[⟨0, [X]⟩], [⟨1, [X]⟩], [twice W 10, twice Z 6], [⟨4, [.var X, .var W]⟩], none, [X, W, Z]⟩, [⟨2, [X, W]⟩], [⟨3, [X, Z]⟩]⟩

/-- the arities -/
def arity : Tag → Nat
  | 0 => 1 | 1 => 1 | 2 => 2 | 3 => 2 | 4 => 2
  | _ => 1

/-- the external tables -/
def ext : Tag → List (List Nat)
  | 2 => [[1, 5], [1, 6], [2, 5], [3, 5], [4, 5], [9, 5]]
  | 3 => [[1, 4], [2, 3], [8, 3]]
  | _ => []

theorem safe_iff {α : Type} (as : List BodyAtom) (os : List (Operation α)) (h : ∀ o ∈ os, o.variableAssignment = none)
    (v : Variable) : SafeVar as os v ↔ v ∈ atomVars as := by
  constructor
  · intro hv
    induction hv with
    | atom h1 h2 => exact List.mem_flatMap.2 ⟨_, h1, h2⟩
    | assign h1 h2 => rw [h _ h1] at h2; cases h2
  · intro hv
    obtain ⟨a, h1, h2⟩ := List.mem_flatMap.1 hv
    exact .atom h1 h2

/-- the assumptions of the theorems hold -/
theorem rule_ok : ImportOK rule arity := by
  have hna : ∀ o ∈ rule.base.operations, o.variableAssignment = none := by decide
  have hs := safe_iff rule.base.positive rule.base.operations hna
  have hp := safe_iff rule.plain.positive rule.base.operations hna
  have hp' := safe_iff rule.plain.positive rule.plain.operations hna
  refine ⟨⟨by decide, by decide, by decide, by decide, by decide, by decide, ?_, ?_, ?_⟩, ⟨[⟨0, [X]⟩], by decide⟩, ?_, ?_, ?_,
    ?_, ?_, ?_, by decide⟩
  · simp only [hp']; decide
  · simp only [hp']; decide
  · simp only [hp']; decide
  · intro o ho v e he
    rw [hna o ho] at he; cases he
  · simp only [hs]; decide
  · simp only [hs, hp]; decide
  · simp only [hs, hp]; decide
  · simp only [hs, hp]; decide
  · simp only [hs]; decide

theorem rule_names : Names rule names := ⟨by decide, by decide, by decide⟩

/-- the facts: `q(1)` and `q(2)` in step 0, `q(3)` and `q(4)` in step 1, and `s(4)` -/
def facts : List (Tag × Nat × List (List Nat)) := [(0, 0, [[1], [2]]), (0, 1, [[3], [4]]), (1, 0, [[4]])]

/-- the source for a list of tables -/
def source (l : List (Tag × Nat × List (List Nat))) : Source Nat := fun p lo hi =>
  (l.filter fun e => decide (e.1 = p ∧ lo ≤ e.2.1 ∧ e.2.1 < hi)).flatMap (·.2.2)

/-- the first application: step 1 -/
example : (evalImportBody (serve ext) names (source facts) 1 0 rule).1.rows = [[1, 5]] := by decide +kernel

/-- what is imported in the first application -/
def imported : List (Tag × Nat × List (List Nat)) := importTables (serve ext) names (source facts) 1 0 rule

example : imported = [(120, 1, [[1], [2]]), (2, 0, [[1, 5], [1, 6], [2, 5]]),
    (130, 1, [[1], [2]]), (3, 0, [[1, 4], [2, 3]])] := by decide +kernel

/-- the second application: step 2 -/
example : (evalImportBody (serve ext) names (source (facts ++ imported)) 2 1 rule).1.rows = [[3, 5]] ∧
    importTables (serve ext) names (source (facts ++ imported)) 2 1 rule =
      [(120, 2, [[3]]), (2, 1, [[3, 5]]), (130, 2, [[3]]), (3, 1, [])] := by decide +kernel

/-- the facts of a list of tables -/
def factsOf (l : List (Tag × Nat × List (List Nat))) (p : Tag) (s : Nat) (row : List Nat) : Prop :=
  ∃ e ∈ l, e.1 = p ∧ e.2.1 = s ∧ row ∈ e.2.2

theorem source_ok (l : List (Tag × Nat × List (List Nat))) (hl : ∀ e ∈ l, ∀ row ∈ e.2.2, row.length = arity e.1) (cur : Nat) :
    SrcOK (source l) (factsOf l) arity cur := by
  constructor
  · intro p lo hi row _
    simp only [source, List.mem_flatMap, List.mem_filter, decide_eq_true_eq, factsOf]
    constructor
    · rintro ⟨e, ⟨h1, h2, h3, h4⟩, h5⟩; exact ⟨e.2.1, h3, h4, e, h1, h2, rfl, h5⟩
    · rintro ⟨s, h3, h4, e, h1, h2, rfl, h5⟩; exact ⟨e, ⟨h1, h2, h3, h4⟩, h5⟩
  · rintro p s row ⟨e, h1, rfl, -, h5⟩
    exact hl e h1 row h5

/-- the state in which the rule is applied for the second time is a state of a history -/
theorem second_state : ImportRun (serve ext) names arity rule (factsOf (facts ++ imported)) 2 := by
  refine ImportRun.apply (at_ := factsOf facts) (cur := 1) (last := 0) (src := source facts)
    (.start (by decide) ?_) (source_ok facts (by decide) 1) (by decide) ?_
  · rintro p hp s row ⟨e, he, h1, -⟩
    have : ∀ e ∈ facts, e.1 ∉ rule.private names := by decide
    exact this e he (h1 ▸ hp)
  · intro p _ s row
    simp only [factsOf, List.mem_append]
    constructor
    · rintro ⟨e, h1 | h1, h2⟩
      · exact .inl ⟨e, h1, h2⟩
      · exact .inr ⟨e, h1, h2⟩
    · rintro (⟨e, h1, h2⟩ | ⟨e, h1, h2⟩)
      · exact ⟨e, .inl h1, h2⟩
      · exact ⟨e, .inr h1, h2⟩

/-- the theorem applies to the second application -/
example (σ : Variable → Nat) : (evalImportBody (serve ext) names (source (facts ++ imported)) 2 1 rule).1.Holds σ ↔
    BodyHolds rule.plain (Loaded rule ext (Before (factsOf (facts ++ imported)) 2))
      (Loaded rule ext (Before (factsOf (facts ++ imported)) 2)) σ ∧
    UsesNew rule.base (factsOf (facts ++ imported)) 1 2 σ :=
  (import_rule_partial (serve_fetches ext) rule_ok rule_names (by decide) second_state
    (source_ok _ (by decide +kernel) 2) (by decide)).2.1 σ

/-! ## Counterexamples -/

/-- The facts if the external tables are loaded completely in step 0 -/
def loaded (ext : List (Tag × List (List Nat))) (l : List (Tag × Nat × List (List Nat))) : Source Nat :=
  source (l ++ ext.map fun e => (e.1, 0, e.2))

/-- a table as a function -/
def tableOf (ext : List (Tag × List (List Nat))) (p : Tag) : List (List Nat) := (ext.filter fun e => e.1 = p).flatMap (·.2)

/-- the rows of the rule in step 1, with import clauses and with loaded tables, for the given output variables -/
def both (r : IRule Nat) (ext : List (Tag × List (List Nat))) (l : List (Tag × Nat × List (List Nat))) (out : List Variable) :
    List (List Nat) × List (List Nat) :=
  (((evalImportBody (serve (tableOf ext)) names (source l) 1 0 r).1.project out).rows,
   ((evalBody (loaded ext l) 1 0 r.plain).1.project out).rows)

/-- **Counterexample to C57 (`negBase`)**: `p(?x, ?w) :- q(?x), imp(?x, ?w), ~s(?x, ?w)`.  The negated atom is evaluated
before the import (join_cartesian.rs:71-77), as if it was `~∃ ?w s(?x, ?w)`: with `q(1)`, `s(1, 7)` and `imp(1, 5)` the
fact `p(1, 5)` is missing. -/
theorem negation_before_import :
    both ⟨⟨[⟨0, [X]⟩], [⟨1, [X, W]⟩], [], [], none, [X, W]⟩, [⟨2, [X, W]⟩], []⟩ [(2, [[1, 5]])]
      [(0, 0, [[1]]), (1, 0, [[1, 7]])] [X, W] = ([], [[1, 5]]) := by decide +kernel

/-- **Counterexample to C57 (`negImportOps`)**: `p(?x, ?w) :- q(?x), imp1(?x, ?w), ~imp2(?x, ?w), ?w + ?w = 10`.  The
condition only restricts the negated import (join_imports_simple.rs:75-83): with `q(1)`, `imp1(1, 6)` and no row in
`imp2` the fact `p(1, 6)` is derived. -/
theorem condition_lost :
    both ⟨⟨[⟨0, [X]⟩], [], [twice W 10], [], none, [X, W]⟩, [⟨2, [X, W]⟩], [⟨3, [X, W]⟩]⟩ [(2, [[1, 5], [1, 6]])]
      [(0, 0, [[1]])] [X, W] = ([[1, 5], [1, 6]], [[1, 5]]) := by decide +kernel

/-- **Counterexample to C57 (`noConst`)**: `p(?x, ?w) :- q(?x), imp(?x, ?w), ?z = 5, ?w + ?z = 10`.  The
assignment of a constant is evaluated in a table of its own that is not joined with the others
(join_cartesian.rs:54-60, 220-258), `?z` has no column in the result and conditions with `?z` are not evaluated. -/
theorem constant_lost :
    let r : IRule Nat := ⟨⟨[⟨0, [X]⟩], [], [.equal (.var Z) (.const 5), .equal (.op 0 [.var W, .var Z]) (.const 10)], [], none,
      [X, W, Z]⟩, [⟨2, [X, W]⟩], []⟩
    both r [(2, [[1, 5], [1, 6]])] [(0, 0, [[1]])] [X, W] = ([[1, 5], [1, 6]], [[1, 5]]) ∧
    (evalImportBody (serve (tableOf [(2, [[1, 5], [1, 6]])])) names (source [(0, 0, [[1]])]) 1 0 r).1.cols = [X, W] ∧
    (evalBody (loaded [(2, [[1, 5], [1, 6]])] [(0, 0, [[1]])]) 1 0 r.plain).1.cols = [X, W, Z] := by decide +kernel

/-- **Counterexample to C57 (`bound`, `factor`)**: `p(?w) :- q(?x), r(?y), ?z = ?x + ?y, imp(?z, ?w)`.  No factor has a
column for `?z`, so nothing is imported: with `q(1)`, `r(2)` and `imp(3, 7)` the fact `p(7)` is missing. -/
theorem computed_not_bound :
    both ⟨⟨[⟨0, [X]⟩, ⟨1, [Y]⟩], [], [.equal (.var Z) (.op 0 [.var X, .var Y])], [], none, [X, Y, Z, W]⟩, [⟨2, [Z, W]⟩], []⟩
      [(2, [[3, 7]])] [(0, 0, [[1]]), (1, 0, [[2]])] [W] = ([], [[7]]) := by decide +kernel

/-- **Counterexample to C57 (`factor`)**: `p(?y, ?w) :- q(?x), r(?y), imp(?x, ?w), ~s(?x, ?y)`.  The negated atom is also
used to restrict the bindings of the first factor, as if it was `~∃ ?y s(?x, ?y)`: with `q(1)`, `r(2)`, `s(1, 3)` and
`imp(1, 7)` nothing is imported and the fact `p(2, 7)` is missing. -/
theorem negation_over_factors :
    both ⟨⟨[⟨0, [X]⟩, ⟨1, [Y]⟩], [⟨4, [X, Y]⟩], [], [], none, [X, Y, W]⟩, [⟨2, [X, W]⟩], []⟩
      [(2, [[1, 7]])] [(0, 0, [[1]]), (1, 0, [[2]]), (4, 0, [[1, 3]])] [Y, W] = ([], [[2, 7]]) := by decide +kernel

/-- **Counterexample to C57 (`negImport`)**: `p(?x) :- q(?x), imp1(?x, ?w), ?z = ?w + ?w, ~imp2(?x, ?z)`.  The negated
import is subtracted before `?z` is computed, as if it was `~∃ ?z imp2(?x, ?z)`: with `q(1)`, `imp1(1, 5)` and
`imp2(1, 7)` the fact `p(1)` is missing. -/
theorem negation_before_function :
    both ⟨⟨[⟨0, [X]⟩], [], [.equal (.var Z) (.op 0 [.var W, .var W])], [], none, [X, W, Z]⟩, [⟨2, [X, W]⟩], [⟨3, [X, Z]⟩]⟩
      [(2, [[1, 5]]), (3, [[1, 7]])] [(0, 0, [[1]])] [X] = ([], [[1]]) := by decide +kernel

end Verif.Dem.Example
