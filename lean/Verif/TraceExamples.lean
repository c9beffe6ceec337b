import Verif.PropTrace
import Verif.EngineExamples

/-!
# Examples for tracing, and rules that cannot be traced
-/

set_option linter.unusedSimpArgs false
set_option linter.unusedSectionVars false

namespace Verif.TraceExample
open Trace Example

theorem prog_traceOK : ∀ r ∈ prog, TraceOK r := by
  intro r hr
  simp only [prog, List.mem_cons, List.not_mem_nil, or_false] at hr
  rcases hr with rfl | rfl | rfl
  · have hX : SafeVar base.positive base.operations X := safe_of_mem ⟨0, [X, Y]⟩ (by simp [base]) (by simp)
    exact ⟨rfl, by simp [base], ⟨X, hX⟩, ⟨[X, Y], [], rfl, by decide, by simp⟩, fun v hv => by
      cases hv with
      | atom ha hv =>
        simp only [base, List.mem_cons, List.not_mem_nil, or_false] at ha
        subst ha; simpa [base] using hv
      | assign ho => simp [base] at ho⟩
  · have hX : SafeVar trans.positive trans.operations X := safe_of_mem ⟨1, [X, Y]⟩ (by simp [Example.trans]) (by simp)
    exact ⟨rfl, by simp [Example.trans], ⟨X, hX⟩, ⟨[X, Y, Z], [], rfl, by decide, by simp⟩, fun v hv => by
      cases hv with
      | atom ha hv =>
        simp only [Example.trans, List.mem_cons, List.not_mem_nil, or_false] at ha
        rcases ha with rfl | rfl <;> simp [Example.trans] at hv ⊢ <;> tauto
      | assign ho => simp [Example.trans] at ho⟩
  · have hX : SafeVar compl.positive compl.operations X := safe_of_mem ⟨2, [X]⟩ (by simp [Example.compl]) (by simp)
    exact ⟨rfl, by simp [Example.compl], ⟨X, hX⟩, ⟨[X, Y], [], rfl, by decide, by simp⟩, fun v hv => by
      cases hv with
      | atom ha hv =>
        simp only [Example.compl, List.mem_cons, List.not_mem_nil, or_false] at ha
        rcases ha with rfl | rfl <;> simp [Example.compl] at hv ⊢ <;> tauto
      | assign ho => simp [Example.compl] at ho⟩

/-- the choices of an implementation: the order of insertion, and the first row -/
def first : Choice Nat := ⟨id, List.head?⟩

theorem first_ok : first.OK :=
  ⟨fun g => List.Perm.refl g, fun _ _ h => List.mem_of_mem_head? h, fun rows h => ⟨rows.head h, List.head?_eq_some_head h⟩⟩

/-- **Reachability is explained**, for every graph: there is a trace for `path(a,b)` iff `b` is reachable from `a`, and a
trace for `nopath(a,b)` iff it is not. -/
theorem reachability_explained (edges : List (Nat × Nat)) (nodes : List Nat) : ∃ cond fuel st,
    CondOK cond ∧ Eng.execute cond prog cfgs [1, 3] fuel (Eng.init (input edges nodes)) = some (some st) ∧
    ∀ a b, ∃ t k k', traceFacts first prog st st.cur [(1, [a, b]), (3, [a, b])] = some (t, [k, k']) ∧
      (Relation.TransGen (fun u v => (u, v) ∈ edges) a b ↔
        ∃ T, tree t st.cur k = some T ∧ Genuine prog (edbFacts (input edges nodes)) st.answers T 1 [a, b]) ∧
      (a ∈ nodes ∧ b ∈ nodes ∧ ¬ Relation.TransGen (fun u v => (u, v) ∈ edges) a b ↔
        ∃ T, tree t st.cur k' = some T ∧ Genuine prog (edbFacts (input edges nodes)) st.answers T 3 [a, b]) := by
  obtain ⟨cond, fuel, st, h1, h2, h3, h4⟩ := reachability edges nodes
  refine ⟨cond, fuel, st, h1, h2, fun a b => ?_⟩
  have hr := execute_reached h2
  obtain ⟨t, hs, e1, e2⟩ := trace_genuine_partial h1 prog_ok prog_traceOK (input_ok edges nodes) hr first_ok le_rfl [(1, [a, b]), (3, [a, b])]
  match hs, e2 with
  | [k, k'], .cons e2 (.cons e3 .nil) =>
    refine ⟨t, k, k', e1, ?_, ?_⟩
    · rw [← h3]
      constructor
      · exact e2.1
      · rintro ⟨T, g1, -⟩
        by_contra hn
        rw [e2.2 hn] at g1; cases g1
    · rw [← h4]
      constructor
      · exact e3.1
      · rintro ⟨T, g1, -⟩
        by_contra hn
        rw [e3.2 hn] at g1; cases g1

/-! ## Rules that cannot be traced, and wrong traces -/

/-- Apply the rules in the given order. -/
def run (rules : List (NRule Nat)) : List Nat → Eng Nat → Option (Eng Nat)
  | [], st => some st
  | i :: is, st => ((st.iterate rules (rules.map fun _ => ⟨99, [], false⟩) i).bind fun x => run rules is x.1)

/-- the facts of a predicate after the run -/
def facts (rules : List (NRule Nat)) (is : List Nat) (edb : List (Tag × List (List Nat))) (p : Tag) : Option (List (List Nat)) :=
  (run rules is (Eng.init edb)).map fun st => st.predicateRows p

/-- the trace of a fact after the run, as a handle and a store -/
def traced (rules : List (NRule Nat)) (is : List Nat) (edb : List (Tag × List (List Nat))) (fs : List (GAtom Nat)) :
    Option (Store Nat × List Nat) :=
  (run rules is (Eng.init edb)).bind fun st => traceFacts first rules st (st.cur + 1) fs

/-- the fact is explained -/
def explained (rules : List (NRule Nat)) (is : List Nat) (edb : List (Tag × List (List Nat))) (f : GAtom Nat) : Option Bool :=
  (traced rules is edb [f]).map fun x => x.2.all fun h => (tree x.1 9 h).isSome

/-- the values that are shown for the variables of the rule -/
def shown (rules : List (NRule Nat)) (is : List Nat) (edb : List (Tag × List (List Nat))) (f : GAtom Nat) :
    Option (List (Variable × Nat)) :=
  (traced rules is edb [f]).bind fun x => x.2.head?.bind fun h => match x.1[h]? with
    | some ⟨_, .success (.derived _ asg _ _)⟩ => some asg
    | _ => none

/-- `p1(?x) :- ?x = 5.` -/
def emptyBody : NRule Nat := ⟨[], [], [.equal (.var X) (.const 5)], [⟨1, [.var X]⟩], none, [X]⟩

/-- **A fact derived by a rule without positive atoms has no trace.** -/
theorem empty_body_untraced :
    facts [emptyBody] [0] [] 1 = some [[5]] ∧ explained [emptyBody] [0] [] (1, [5]) = some false := by
  constructor <;> decide +kernel

/-- `p1(7) :- p0().` -/
def nullary : NRule Nat := ⟨[⟨0, []⟩], [], [], [⟨1, [.const 7]⟩], none, []⟩

/-- **A fact derived by a rule without variables has no trace.** -/
theorem nullary_untraced :
    facts [nullary] [0] [(0, [[]])] 1 = some [[7]] ∧ explained [nullary] [0] [(0, [[]])] (1, [7]) = some false := by
  constructor <;> decide +kernel

/-- `p1(?z,?y) :- p0(?x), ?y = ?x + 1, ?z = ?x + 2.`, with the variable order that is computed for it -/
def swapped : NRule Nat := ⟨[⟨0, [X]⟩], [], [.equal (.var Y) (.op 0 [.var X, .const 1]), .equal (.var Z) (.op 0 [.var X, .const 2])],
  [⟨1, [.var Z, .var Y]⟩], none, [X, Z, Y]⟩

/-- the order is the one of the program -/
theorem swapped_order : (VarOrder.setOrders [0] [{ swapped with order := [] }]).map (·.map (·.order)) = some [[X, Z, Y]] := by
  decide +kernel

/-- **The trace shows wrong values for computed variables**: in the derivation of `p1(7,6)` from `p0(5)`, the value of
`?y` is 6, and that of `?z` is 7. -/
theorem assignment_swapped :
    facts [swapped] [0] [(0, [[5]])] 1 = some [[7, 6]] ∧
    shown [swapped] [0] [(0, [[5]])] (1, [7, 6]) = some [(X, 5), (Z, 6), (Y, 7)] := by
  constructor <;> decide +kernel

/-- `p1(?x,?y) :- p0(?x,?y).` and the fact `p1(3,4)` is not derived -/
def copy : NRule Nat := ⟨[⟨0, [X, Y]⟩], [], [], [⟨1, [.var X, .var Y]⟩], none, [X, Y]⟩

/-- the final conclusions and the number of inferences -/
def concluded (rules : List (NRule Nat)) (is : List Nat) (edb : List (Tag × List (List Nat))) (fs : List (GAtom Nat)) :
    Option (List (GAtom Nat) × List (GAtom Nat)) :=
  (traced rules is edb fs).bind fun x => (listOfInferences x.1 20 x.2).map fun y => (y.1, y.2.map (·.conclusion))

/-- **The list of inferences for a fact that is true and one that is not** names the wrong one as final conclusion: `p1(3,4)`
is not derived, and there is no inference for it. -/
theorem wrong_conclusion :
    concluded [copy] [0] [(0, [[1, 2]])] [(1, [1, 2]), (1, [3, 4])] = some ([(1, [3, 4])], [(1, [1, 2]), (0, [1, 2])]) := by
  decide +kernel

/-- `p1(?x,#count(?y)), p1(?x,?y) :- p0(?x,?y).` where `?z` stands for the value of the aggregate -/
def counted : NRule Nat := ⟨[⟨0, [X, Y]⟩], [], [], [⟨1, [.var X, .var Z]⟩, ⟨1, [.var X, .var Y]⟩],
  some (⟨0, Y, Z, [], [X]⟩, 0), [X, Y, Z]⟩

/-- the head atom that is shown -/
def shownHead (rules : List (NRule Nat)) (is : List Nat) (edb : List (Tag × List (List Nat))) (f : GAtom Nat) : Option Nat :=
  (traced rules is edb [f]).bind fun x => x.2.head?.bind fun h => match x.1[h]? with
    | some ⟨_, .success (.derived _ _ k _)⟩ => some k
    | _ => none

/-- **The value of an aggregate is not checked**: the trace of `p1(1,5)`, which is derived by the second head atom from `p0(1,5)`,
shows the first head atom, with the value 5 for the number of the values 5 and 6. -/
theorem aggregate_unchecked :
    facts [counted] [0] [(0, [[1, 5], [1, 6]])] 1 = some [[1, 2], [1, 5], [1, 6]] ∧
    shownHead [counted] [0] [(0, [[1, 5], [1, 6]])] (1, [1, 5]) = some 0 ∧
    shown [counted] [0] [(0, [[1, 5], [1, 6]])] (1, [1, 5]) = some [(X, 1), (Y, 5), (Z, 5)] := by
  refine ⟨?_, ?_, ?_⟩ <;> decide +kernel

end Verif.TraceExample
