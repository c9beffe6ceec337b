import Verif.PropRevision

/-!
# Versions of a program: examples and counterexamples
-/

set_option linter.unusedSimpArgs false
set_option maxRecDepth 100000

namespace Verif.RevExample
open Rev

/-- A component without children; its id is assigned later -/
def leaf (s : String) : Tree String := .node s unassigned []

/-- `q(?x) :- p(?x), r(?y)` with its three atoms -/
def rule1 : Tree String := .node "q(?x) :- p(?x), r(?y)" unassigned [leaf "q(?x)", leaf "p(?x)", leaf "r(?y)"]

def fact1 : Tree String := .node "p(1)" unassigned [leaf "1"]

def rule2 : Tree String := .node "q(?x) :- p(?x)" unassigned [leaf "q(?x)", leaf "p(?x)"]

/-- A program with a fact and a rule (handle 0); in a first commit the rule is replaced (handle 1), while a second commit for handle 0 removes
the fact (handle 2); a third commit contains an error. -/
def ops : List (Op String) := [.add 0 .fact fact1, .add 0 .rule rule1, .submit 0,
  .fork 0, .fork 0, .addFrom 1 0 1 rule2, .keep 2 0 1, .keep 1 0 0, .submit 1, .submit 2,
  .forkFull 1, .error 3 7, .submit 3]

/-- What the programs of the three handles are -/
theorem ops_handles : (SWorld.new.run ops).handles.map (fun h => h.1.map fun d => (d.kind, d.shape)) =
    [[(.fact, fact1.shape), (.rule, rule1.shape)], [(.rule, rule2.shape), (.fact, fact1.shape)], [(.rule, rule1.shape)]] := rfl

theorem ops_model (h : Nat) (hh : h < 3) : (((World.new 5).run ops).pipeline.handleStatements h).isSome := by
  have : ((World.new 5).run ops).pipeline.revisions.length = 3 := rfl
  unfold Pipeline.handleStatements
  rw [List.getElem?_eq_getElem (by omega)]
  rfl

/-- The new rule is displayed as the rule that it was made from. -/
theorem ops_root : (SWorld.new.run ops).at 1 0 = some ⟨.rule, rule2.shape, rule1.shape⟩ ∧
    ((World.new 5).run ops).pipeline.resolve ((World.new 5).run ops).pipeline.statements.length (newStatementId ⟨5, 2⟩) = some (newStatementId ⟨5, 1⟩) := ⟨rfl, rfl⟩

/-- Both commits to the first handle are returned as different handles. -/
theorem ops_submit : ∃ k k', ((World.new 5).run (ops.take 8)).commits[1]? = some (some k) ∧ (k.submit ((World.new 5).run (ops.take 8)).pipeline).2 = some 1 ∧
    ((World.new 5).run (ops.take 9)).commits[2]? = some (some k') ∧ (k'.submit ((World.new 5).run (ops.take 9)).pipeline).2 = some 2 := ⟨_, _, rfl, rfl, rfl, rfl⟩

/-- **Counterexample**: all three atoms of the rule have the same id, and looking for this id gives the last one. -/
theorem component_wrong : ∃ s, ((World.new 5).run ops).pipeline.statementAt 0 1 = some s ∧
    s.tree.children.map Tree.id = [⟨some ⟨5, 1⟩, 1⟩, ⟨some ⟨5, 1⟩, 1⟩, ⟨some ⟨5, 1⟩, 1⟩] ∧
    (((World.new 5).run ops).pipeline.findComponent ⟨some ⟨5, 1⟩, 1⟩).map (Option.map Tree.shape) = some (some (leaf "r(?y)").shape) := ⟨_, rfl, rfl, rfl⟩

/-- A statement whose first component has a component, and whose second component has none -/
def rule3 : Tree String := .node "q(f(?x)) :- p" unassigned [.node "q(f(?x))" unassigned [leaf "f(?x)"], leaf "p"]

/-- **Counterexample**: a component of the program is not found at all. -/
theorem component_lost : ∃ s c, ((World.new 5).run [.add 0 .rule rule3, .submit 0]).pipeline.statementAt 0 0 = some s ∧ At 2 s.tree c ∧ c.shape = (leaf "f(?x)").shape ∧
    ((World.new 5).run [.add 0 .rule rule3, .submit 0]).pipeline.findComponent c.id = some none :=
  ⟨_, .node "f(?x)" ⟨some ⟨5, 0⟩, 2⟩ [], rfl, .child (c := .node "q(f(?x))" ⟨some ⟨5, 0⟩, 1⟩ [.node "f(?x)" ⟨some ⟨5, 0⟩, 2⟩ []]) List.mem_cons_self (.child List.mem_cons_self .here), rfl, rfl⟩

/-- **Counterexample**: after exports are removed from a program, reading its rules panics, or gives other rules. -/
theorem cleared_panics : ((materialize id [Kind.exp, .rule]).clearExports id).rulesOf id = [none] := rfl

theorem cleared_other : ((materialize (fun x : Kind × Nat => x.1) [(.exp, 0), (.rule, 1), (.rule, 2)]).clearExports fun x => x.1).rulesOf (fun x => x.1) =
    [some (.rule, 2), none] := rfl

end Verif.RevExample
