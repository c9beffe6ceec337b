import Verif.PropNodeQuery
import Verif.TraceExamples

/-!
# Node queries: examples and counterexamples
-/

set_option linter.unusedSimpArgs false
set_option maxRecDepth 100000

namespace Verif.NodeQueryExample
open Trace.NodeQ TraceExample Example
open Trace (lookup)

/-- Keep the first row for the values of the other columns. -/
def firstRows (cols : List Variable) (full : List Variable) : List (List Nat) → List (List Nat) → List (List Nat)
  | [], _ => []
  | row :: rows, seen =>
    let key := full.map (assign cols row)
    if key ∈ seen then firstRows cols full rows seen else row :: firstRows cols full rows (key :: seen)

/-- A possible choice -/
def keepFirst : Choice Nat := ⟨fun s R => ⟨R.cols, firstRows R.cols (R.cols.filter fun v => decide (v ∉ s)) R.rows []⟩⟩

/-- The addresses of the nodes and their facts, after the rules have been applied in the given order -/
def shown (arity : Tag → Nat) (rules : List (NRule Nat)) (is : List Nat) (edb : List (Tag × List (List Nat))) (q : Query Nat) (p : Tag) :
    Option (List (List Nat × List (List Nat))) :=
  (run rules is (Eng.init edb)).bind fun st => traceNode keepFirst rules arity st q p

/-- `t(?x, ?y) :- e(?x, ?y).` and `t(?x, ?z) :- e(?x, ?y), t(?y, ?z).` -/
def paths : List (NRule Nat) := [⟨[⟨0, [X, Y]⟩], [], [], [⟨1, [.var X, .var Y]⟩], none, [X, Y]⟩,
  ⟨[⟨0, [X, Y]⟩, ⟨1, [Y, Z]⟩], [], [], [⟨1, [.var X, .var Z]⟩], none, [X, Y, Z]⟩]

/-- A path of length two, and the facts that it is derived from -/
def length2 : Query Nat := .node [] 1 0 [.leaf [], .node [] 0 0 [.leaf []]]

theorem length2_shown : shown (fun _ => 2) paths [0, 1, 1] [(0, [[1, 2], [2, 3], [3, 4]])] length2 1 =
    some [([], [[1, 3], [2, 4]]), ([0], [[1, 2], [2, 3]]), ([1], [[2, 3], [3, 4]]), ([1, 0], [[2, 3], [3, 4]])] := by decide +kernel

/-- `p1(?x) :- p0(?x).` -/
def copy : NRule Nat := ⟨[⟨0, [X]⟩], [], [], [⟨1, [.var X]⟩], none, [X]⟩

/-- **Counterexample**: a node that is restricted to the fact `p1(1)` shows other facts. -/
theorem restriction_ignored : shown (fun _ => 1) [copy] [0] [(0, [[1], [2]])] (.node [[1]] 0 0 [.leaf []]) 1 = some [([], [[1], [2]]), ([0], [[1]])] := by decide +kernel

/-- `p1(?x) :- p0(?x, ?y).` -/
def projection : NRule Nat := ⟨[⟨0, [X, Y]⟩], [], [], [⟨1, [.var X]⟩], none, [X, Y]⟩

/-- **Counterexample**: a leaf that is restricted to a fact that is not stored shows all facts, and so does the root. -/
theorem leaf_unrestricted : shown (fun p => if p = 0 then 2 else 1) [projection] [0] [(0, [[1, 5], [2, 6]])] (.node [] 0 0 [.leaf [[9, 9]]]) 1 =
    some [([], [[1], [2]]), ([0], [[1, 5], [2, 6]])] := by decide +kernel

/-- `p1(7) :- p0(?x), p2(?x).` -/
def constant : NRule Nat := ⟨[⟨0, [X]⟩, ⟨2, [X]⟩], [], [], [⟨1, [.const 7]⟩], none, [X]⟩

/-- **Counterexample**: `p0(1)` is shown although `p2(1)` is false, and `p1(7)` is shown although it does not follow from `p0(1)`. -/
theorem disjoint_unjoined : shown (fun _ => 1) [constant] [0] [(0, [[1], [2]]), (2, [[2]])] (.node [] 0 0 [.leaf [[1]], .leaf []]) 1 =
    some [([], [[7]]), ([0], [[1]]), ([1], [[2]])] := by decide +kernel

/-- `p1(?x), p1(5) :- p0(?x).` -/
def twoHeads : NRule Nat := ⟨[⟨0, [X]⟩], [], [], [⟨1, [.var X]⟩, ⟨1, [.const 5]⟩], none, [X]⟩

/-- **Counterexample**: the facts for the head atom `p1(5)` contain `p1(1)`. -/
theorem other_head : shown (fun _ => 1) [twoHeads] [0] [(0, [[1]])] (.node [] 0 1 [.leaf []]) 1 = some [([], [[1], [5]]), ([0], [[1]])] := by decide +kernel

/-- `p1(?x) :- p0(?x).` and `p1(?x) :- p2(?x).` -/
def twoRules : List (NRule Nat) := [copy, ⟨[⟨2, [X]⟩], [], [], [⟨1, [.var X]⟩], none, [X]⟩]

/-- **Only the rule that derived a fact first is considered**: `p1(1)` follows from `p2(1)` by the second rule, but it is not shown. -/
theorem first_rule_only : shown (fun _ => 1) twoRules [0, 1] [(0, [[1]]), (2, [[1], [2]])] (.node [] 1 0 [.leaf []]) 1 = some [([], [[2]]), ([0], [[2]])] := by decide +kernel

/-! ## The theorem for reachability -/

theorem firstRows_sub (cols full : List Variable) : ∀ (rows seen : List (List Nat)), ∀ row ∈ firstRows cols full rows seen, row ∈ rows
  | [], _, row, h => by rw [firstRows] at h; cases h
  | r :: rows, seen, row, h => by
    rw [firstRows] at h
    split at h
    · exact List.mem_cons_of_mem _ (firstRows_sub cols full rows seen row h)
    · rcases List.mem_cons.1 h with rfl | h
      · simp
      · exact List.mem_cons_of_mem _ (firstRows_sub cols full rows _ row h)

theorem firstRows_kept (cols full : List Variable) : ∀ (rows seen : List (List Nat)), ∀ row ∈ rows, full.map (assign cols row) ∉ seen →
    ∃ row' ∈ firstRows cols full rows seen, full.map (assign cols row') = full.map (assign cols row)
  | [], _, row, h, _ => by cases h
  | r :: rows, seen, row, h, hn => by
    rw [firstRows]
    by_cases hr : full.map (assign cols r) ∈ seen
    · simp only [hr, if_true]
      rcases List.mem_cons.1 h with rfl | h
      · exact absurd hr hn
      · exact firstRows_kept cols full rows seen row h hn
    · simp only [hr, if_false]
      by_cases he : full.map (assign cols r) = full.map (assign cols row)
      · exact ⟨r, by simp, he⟩
      · rcases List.mem_cons.1 h with rfl | h
        · exact absurd rfl he
        · obtain ⟨row', h1, h2⟩ := firstRows_kept cols full rows (full.map (assign cols r) :: seen) row h (by
            simp only [List.mem_cons, not_or]
            exact ⟨fun hc => he hc.symm, hn⟩)
          exact ⟨row', List.mem_cons_of_mem _ h1, h2⟩

theorem keepFirst_ok : keepFirst.OK := by
  refine ⟨fun _ _ => rfl, fun vs R row h => firstRows_sub _ _ _ _ row h, fun vs R hw σ hσ => ?_⟩
  obtain ⟨row', h1, h2⟩ := firstRows_kept R.cols (R.cols.filter fun v => decide (v ∉ vs)) R.rows [] _ hσ (by simp)
  refine ⟨assign R.cols row', fun v hv hvs => ?_, ?_⟩
  · have h3 := List.map_eq_map_iff.1 h2 v (by simp [hv, hvs])
    rw [h3, assign_map R.cols σ hv]
  · have h4 : R.cols.map (assign R.cols row') = row' := map_assign hw.nodup (hw.len _ (firstRows_sub _ _ _ _ _ h1))
    show R.cols.map (assign R.cols row') ∈ firstRows R.cols _ R.rows []
    rw [h4]; exact h1

/-- Paths that end with an edge to node `b`, after a path of one edge -/
def twoSteps (b : Nat) : Query Nat := .node [] 1 0 [.node [] 0 0 [.leaf []], .leaf [[0, b], [1, b]]]

theorem twoSteps_good (b : Nat) : Good prog (twoSteps b) 1 := by
  refine .node (r := Example.trans) (hd := ⟨1, [.var X, .var Z]⟩) (vars := [X, Z]) rfl rfl rfl rfl (by decide) (by decide) (by decide) (by decide) rfl (by decide) (.inl rfl) ?_
  intro j a q hj hq
  match j with
  | 0 =>
    simp only [Example.trans, List.getElem?_cons_zero, Option.some.injEq] at hj hq
    subst hj hq
    refine .node (r := base) (hd := ⟨1, [.var X, .var Y]⟩) (vars := [X, Y]) rfl rfl rfl rfl (by decide) (by decide) (by decide) (by decide) rfl (by decide) (.inl rfl) ?_
    intro j a q hj hq
    match j with
    | 0 =>
      simp only [List.getElem?_cons_zero, Option.some.injEq] at hq
      subst hq; exact .leaf
    | j + 1 => simp at hq
  | 1 =>
    simp only [List.getElem?_cons_succ, List.getElem?_cons_zero, Option.some.injEq] at hq
    subst hq; exact .leaf
  | j + 2 => simp at hq

/-- **The hypotheses are met**, for every graph: the answer at the root are paths `path(a, b)` that are derived in the second way from `path(a, x)`, an edge, and an edge from `x` to `b`
that is allowed. -/
theorem reachability_query (edges : List (Nat × Nat)) (nodes : List Nat) (b : Nat) : ∃ cond fuel st out,
    CondOK cond ∧ Eng.execute cond prog cfgs [1, 3] fuel (Eng.init (input edges nodes)) = some (some st) ∧
    traceNode keepFirst prog arity st (twoSteps b) 1 = some out ∧
    ∀ row rows, ([], rows) ∈ out → row ∈ rows → Form prog st.answers (twoSteps b) 1 row := by
  obtain ⟨cond, fuel, st, h1, h2, -, -⟩ := reachability edges nodes
  have hr := execute_reached h2
  have hna : ∀ r ∈ prog, r.containsAggregates = false := fun r hr => (TraceExample.prog_traceOK r hr).plain
  obtain ⟨out, e1, e2, -⟩ := node_query_partial prog_ok hna (input_ok edges nodes) hr keepFirst_ok (by decide) (twoSteps_good b)
  refine ⟨cond, fuel, st, out, h1, h2, e1, fun row rows h3 h4 => ?_⟩
  obtain ⟨s, hs⟩ := (e2 row).1 ⟨rows, h3, h4⟩
  exact satAt_form h1 prog_ok TraceExample.prog_traceOK (input_ok edges nodes) hr (by decide) hs

end Verif.NodeQueryExample
