import Verif.PropTreeQuery
import Verif.TraceExamples

/-!
# Examples for C65, and queries with empty or wrong responses
-/

set_option maxRecDepth 100000
set_option linter.unusedSimpArgs false

namespace Verif.TreeExample
open Trace Example

/-- the choices of an implementation: orders are kept -/
def asIs : TreeQ.Choice Nat := ⟨id, id⟩

theorem asIs_ok : asIs.OK := ⟨fun g => List.Perm.refl g, fun _ _ => Iff.rfl⟩

/-- **Reachability is explained for several facts at once**, for every graph and every list of pairs: there is a response for the facts `path(a,b)` of the pairs iff all of them are
reachable, and then it is genuine. -/
theorem reachability_tree (edges : List (Nat × Nat)) (nodes : List Nat) : ∃ cond fuel st,
    CondOK cond ∧ Eng.execute cond prog cfgs [1, 3] fuel (Eng.init (input edges nodes)) = some (some st) ∧
    ∀ pairs : List (Nat × Nat), pairs ≠ [] →
      ∃ x, TreeQ.traceTree asIs prog some st st.cur ((pairs.map fun e => [e.1, e.2]).map fun row => (1, row)) = some x ∧
        ((∀ e ∈ pairs, Relation.TransGen (fun u v => (u, v) ∈ edges) e.1 e.2) ↔
          ∃ y, x = some y ∧ TreeQ.Explains prog st.answers (TreeQ.Stop st (edbFacts (input edges nodes))) y 1 (pairs.map fun e => [e.1, e.2])) := by
  obtain ⟨cond, fuel, st, h1, h2, h3, -⟩ := reachability edges nodes
  refine ⟨cond, fuel, st, h1, h2, fun pairs hne => ?_⟩
  have hr := execute_reached h2
  obtain ⟨x, e1, e2, e3, e4⟩ := TreeQ.tree_genuine_partial h1 prog_ok TraceExample.prog_traceOK (input_ok edges nodes) hr asIs_ok (norm := some) (fun i _ => rfl) le_rfl 1
    (pairs.map fun e => [e.1, e.2])
  refine ⟨x, e1, fun hall => ?_, ?_⟩
  · have := e3 (by simpa using hne) (fun row hrow => by
      obtain ⟨e, he, rfl⟩ := List.mem_map.1 hrow
      exact (h3 _ _).2 (hall e he)) (.inl fun r hr => by
      simp only [prog, List.mem_cons, List.not_mem_nil, or_false] at hr
      rcases hr with rfl | rfl | rfl <;> decide)
    cases x with
    | none => exact absurd rfl this
    | some y => exact ⟨y, rfl, e2 y rfl⟩
  · rintro ⟨y, rfl, -⟩ e he
    by_contra hno
    have := e4 [e.1, e.2] (List.mem_map_of_mem he) fun h => hno ((h3 _ _).1 h)
    cases this

/-! ## Concrete runs -/

/-- a line of a response: depth, predicate, entries, and rule and head atom -/
structure Line where
  depth : Nat
  pred : Nat
  entries : List (List Nat)
  rule : Option (Nat × Nat)
deriving DecidableEq

/-- the response as a list of lines -/
def lines : Nat → Nat → TreeQ.Resp Nat → List Line
  | 0, _, _ => []
  | _ + 1, d, .leaf p rows => [⟨d, p, rows, none⟩]
  | n + 1, d, .node p rows i k cs => ⟨d, p, rows, some (i, k)⟩ :: cs.flatMap (lines n (d + 1))

/-- the response after a run -/
def response (rules : List (NRule Nat)) (norm : Nat → Option Nat) (is : List Nat) (edb : List (Tag × List (List Nat))) (fs : List (GAtom Nat)) : Option (Option (List Line)) :=
  ((TraceExample.run rules is (Eng.init edb)).bind fun st => TreeQ.traceTree asIs rules norm st (st.cur + 1) fs).map fun x => x.map (lines 9 0)

/-- `p1(?x) :- p0(?x,?y), ~p2(?y).` -/
def guarded : NRule Nat := ⟨[⟨0, [X, Y]⟩], [⟨2, [Y]⟩], [], [⟨1, [.var X]⟩], none, [X, Y]⟩

/-- Two facts, their matches, and the table of the negated predicate -/
theorem guarded_response : response [guarded] some [0] [(0, [[1, 5], [2, 6], [3, 7]]), (2, [[7]])] [(1, [2]), (1, [1])] =
    some (some [⟨0, 1, [[2], [1]], some (0, 0)⟩, ⟨1, 0, [[2, 6], [1, 5]], none⟩, ⟨1, 2, [[7]], none⟩]) := by decide +kernel

/-- `p1(?x), p1(?y) :- p0(?x,?y).` -/
def ends : NRule Nat := ⟨[⟨0, [X, Y]⟩], [], [], [⟨1, [.var X]⟩, ⟨1, [.var Y]⟩], none, [X, Y]⟩

/-- **No response for facts that were derived**: each of the two facts has a response, but for both together there is none (as if they were not true), since no head atom is
right for both. -/
theorem no_response :
    TraceExample.facts [ends] [0] [(0, [[1, 2]])] 1 = some [[1], [2]] ∧
    response [ends] some [0] [(0, [[1, 2]])] [(1, [1])] = some (some [⟨0, 1, [[1]], some (0, 0)⟩, ⟨1, 0, [[1, 2]], none⟩]) ∧
    response [ends] some [0] [(0, [[1, 2]])] [(1, [2])] = some (some [⟨0, 1, [[2]], some (0, 1)⟩, ⟨1, 0, [[1, 2]], none⟩]) ∧
    response [ends] some [0] [(0, [[1, 2]])] [(1, [1]), (1, [2])] = some none := by
  refine ⟨?_, ?_, ?_, ?_⟩ <;> decide +kernel

/-- `p3(?x) :- p1(?x).` -/
def plain : NRule Nat := ⟨[⟨1, [X]⟩], [], [], [⟨3, [.var X]⟩], none, [X]⟩

/-- The translation of ids for a program in which the first of three rules was removed: the indices 1 and 2 become 0 and 1. -/
def removed : Nat → Option Nat
  | 0 => none
  | n + 1 => if n < 2 then some n else none

/-- **The wrong rule is shown** if rules were removed before the execution: `p3(1)` is derived by the rule with index 2 of the program, but the response has the index 1, which is the other rule;
so the table of a negated atom of that rule is shown. -/
theorem wrong_rule :
    TraceExample.facts [guarded, plain] [1] [(0, [[1, 5]]), (1, [[1]]), (2, [[7]])] 3 = some [[1]] ∧
    response [guarded, plain] removed [1] [(0, [[1, 5]]), (1, [[1]]), (2, [[7]])] [(3, [1])] =
      some (some [⟨0, 3, [[1]], some (1, 0)⟩, ⟨1, 1, [[1]], none⟩, ⟨1, 2, [[7]], none⟩]) := by
  constructor <;> decide +kernel

/-- **A query fails** if the first rule was removed before the execution. -/
theorem query_fails :
    TraceExample.facts [plain] [0] [(1, [[1]])] 3 = some [[1]] ∧ response [plain] removed [0] [(1, [[1]])] [(3, [1])] = none ∧
    response [plain] some [0] [(1, [[1]])] [(3, [1])] = some (some [⟨0, 3, [[1]], some (0, 0)⟩, ⟨1, 1, [[1]], none⟩]) := by
  refine ⟨?_, ?_, ?_⟩ <;> decide +kernel

end Verif.TreeExample
