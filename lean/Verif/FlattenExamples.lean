import Verif.PropFlattenMore
import Verif.NormalizeExamples

/-!
# Flattening: examples
-/

set_option linter.unusedSimpArgs false
set_option maxRecDepth 100000

namespace Verif.FlattenExample
open SourceExample

theorem plain {s : String} (h : s.toList.head? ≠ some '_') : (Variable.named s).Plain := by
  intro k hk
  have := congrArg String.toList (named_inj hk)
  rw [this] at h
  simp [String.toList_append] at h

/-- `loop(?x) :- edge(?x, 5, ?x), ~bad(?x, 7, _)` and `cnt(?x, #count(?y)) :- ~loop(?x), edge(?x, _, ?y)` -/
def lprog : List (WRule Nat) :=
  [⟨[⟨2, [.var x]⟩], [.positive ⟨0, [.var x, .const 5, .var x]⟩, .negative ⟨1, [.var x, .const 7, .anon]⟩]⟩,
   ⟨[⟨3, [.var x, .agg 0 (.var y) []]⟩], [.negative ⟨2, [.var x]⟩, .positive ⟨0, [.var x, .anon, .var y]⟩]⟩]

theorem lprog_source : lprog.map WRule.toS = prog := rfl

/-- The first rule becomes `loop(?x) :- ?_0 = 5, edge(?x, ?_0, ?x), ~bad(?x, 7, _)`; the second one is not changed. -/
theorem lprog_flat : (flatProgram lprog).map WRule.toS =
    [⟨[⟨0, [.var x, .var (tmpVar 0), .var x]⟩], [⟨1, [.var x, .const 7, .anon]⟩], [.equal (.var (tmpVar 0)) (.const 5)], [⟨2, [.var x]⟩]⟩,
      cntRule] := rfl

theorem lprog_plain : ∀ r ∈ lprog, ∀ v ∈ r.toS.vars, v.Plain := by
  intro r hr v hv
  have : v = x ∨ v = y := by
    simp only [lprog, List.mem_cons, List.not_mem_nil, or_false] at hr
    rcases hr with rfl | rfl
    · left; simpa [SRule.vars, WRule.toS, LLit.positive?, LLit.negative?, LLit.operation?, HTerm.varsList, HTerm.vars, List.filterMap_cons] using hv
    · simp [SRule.vars, WRule.toS, LLit.positive?, LLit.negative?, LLit.operation?, HTerm.varsList, HTerm.vars, Operation.vars,
        List.filterMap_cons] at hv
      tauto
  rcases this with rfl | rfl <;> exact plain (by decide)

/-- The hypotheses of `flat_stable`, `flat_model`, `flat_validate` and `execute_flat_stable_partial` hold for this program. -/
theorem lprog_ok : (∀ r ∈ lprog, Flattenable r) ∧ (∀ r ∈ lprog, SValid r.toS) ∧ (∀ r ∈ lprog, SRuleOK r.toS arity) ∧
    ∀ r ∈ lprog, ∀ a ∈ r.toS.positive, ∀ v, .oper (.var v) ∉ a.terms := by
  have h1 : ∀ r ∈ lprog, SValid r.toS := fun r hr => prog_valid _ (lprog_source ▸ List.mem_map_of_mem hr)
  refine ⟨fun r hr => (h1 r hr).flattenable (lprog_plain r hr), h1, fun r hr => prog_ok _ (lprog_source ▸ List.mem_map_of_mem hr), ?_⟩
  intro r hr a ha v
  simp only [lprog, List.mem_cons, List.not_mem_nil, or_false] at hr
  rcases hr with rfl | rfl <;>
  · simp only [WRule.toS, LLit.positive?, List.filterMap_cons, List.filterMap_nil, List.mem_singleton] at ha
    subst ha
    simp

/-- The flattened program is executed, and the answers are the stable model of the program as it is written. -/
theorem lprog_stable (edges bad : List (Nat × Nat × Nat)) {cond : Nat → List (Nat × Nat) → List (List Nat)} (hcond : CondOK cond)
    {rules : List (NRule Nat)} (h : normalizeProgram [0, 1] ((flatProgram lprog).map WRule.toS) = some rules) {fuel : Nat} {st : Eng Nat}
    (hx : Eng.execute cond rules cfgs [] fuel (Eng.init (input edges bad)) = some (some st)) :
    SIsStable prog (edbFacts (input edges bad)) st.answers :=
  execute_flat_stable_partial (rs := lprog) hcond h lprog_plain lprog_ok.2.1 lprog_ok.2.2.1 rfl (input_ok edges bad) hx

/-- `p(?x) :- q(?x, ?y + 1)` (an operation in an atom) is not accepted before and after flattening: `?y` has no value. -/
def open1 : WRule Nat := ⟨[⟨1, [.var x]⟩], [.positive ⟨0, [.var x, .oper (.op 0 [.var y, .const 1])]⟩]⟩
/-- `p(?x) :- q(?x, ?x + 1)` is accepted before and after flattening. -/
def closed1 : WRule Nat := ⟨[⟨1, [.var x]⟩], [.positive ⟨0, [.var x, .oper (.op 0 [.var x, .const 1])]⟩]⟩

theorem open_rejected : open1.toS.validate = false ∧ (flatRule open1 0).1.toS.validate = false := by decide +kernel
theorem closed_accepted : closed1.toS.validate = true ∧ (flatRule closed1 0).1.toS.validate = true := by decide +kernel

end Verif.FlattenExample
