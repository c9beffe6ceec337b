import Verif.PropGlobal

/-!
# Examples for global parameters

Operations on numbers: 0 is the sum, 1 is the difference, which is undefined if it is negative.
-/

set_option maxRecDepth 100000

namespace Verif.Glob

/-- Sums and differences of natural numbers -/
def arith : Meaning Nat where
  op f xs := match f, xs with
    | 0, [a, b] => some (a + b)
    | 1, [a, b] => if b ≤ a then some (a - b) else none
    | _, _ => none
  other _ _ := none

/-- `@parameter $0 = $1 + 1. @parameter $1 = $2 + $3. @parameter $2 = 7. @parameter $3.` with `$3` from outside, a rule
`h(?5, $0) :- b(?5, $1 + ?5).` and a fact without parameters -/
def progG : List (GStmt Nat) :=
  [.parameter ⟨0, some (.op 0 [.global 1, .ground 1])⟩, .parameter ⟨1, some (.op 0 [.global 2, .global 3])⟩, .parameter ⟨2, some (.ground 7)⟩,
    .parameter ⟨3, none⟩, .statement [.var 5, .global 0, .var 5, .op 0 [.global 1, .var 5]], .statement [.ground 4]]

theorem progG_names : (([(3, 10)] : List (Nat × Nat)).map Prod.fst).Nodup := by decide

theorem progG_expressions : ∀ p ∈ parameters progG, ∀ e, p.expression = some e → e.vars = [] := by
  intro p hp e he
  simp only [parameters, progG, List.filterMap_cons, List.filterMap_nil, List.mem_cons, List.not_mem_nil, or_false] at hp
  rcases hp with rfl | rfl | rfl | rfl <;> simp only [Option.some.injEq, reduceCtorEq] at he <;> subst he <;> rfl

theorem progG_accepted : validateParameters [3] (parameters progG) = some [] := by decide +kernel

/-- The sum `7 + 10` that stands for `$1` -/
def sumG : Tm Nat := .op 0 [.ground 7, .ground 10]

/-- The substitution is found in three rounds. -/
theorem progG_transform : transform [(3, 10)] progG = some
    [.parameter ⟨0, some (.op 0 [.global 1, .ground 1])⟩, .parameter ⟨1, some (.op 0 [.global 2, .global 3])⟩, .parameter ⟨2, some (.ground 7)⟩,
      .parameter ⟨3, none⟩, .statement [.var 5, .op 0 [sumG, .ground 1], .var 5, .op 0 [sumG, .var 5]], .statement [.ground 4]] := rfl

/-- The hypotheses of `substitution_solution` and `transform_meaning_partial` hold, and the solution is the expected one. -/
theorem progG_values : ∀ γ, Solution arith [(3, 10)] (parameters progG) γ → γ 0 = some 18 ∧ γ 1 = some 17 ∧ γ 2 = some 7 ∧ γ 3 = some 10 := by
  obtain ⟨s, h1, -, -, -, h2⟩ := substitution_solution arith progG_names progG_expressions progG_accepted
  have h3 : substitution [(3, 10)] (parameters progG) = some [(0, .op 0 [sumG, .ground 1]), (1, sumG), (2, .ground 7), (3, .ground 10)] := rfl
  rw [h1] at h3
  obtain rfl := Option.some.inj h3
  intro γ hγ
  refine ⟨(h2 γ hγ 0 (.inl ⟨_, List.mem_cons_self, rfl⟩)).trans rfl, (h2 γ hγ 1 (.inl ⟨_, List.mem_cons_of_mem _ List.mem_cons_self, rfl⟩)).trans rfl,
    (h2 γ hγ 2 (.inl ⟨_, List.mem_cons_of_mem _ (List.mem_cons_of_mem _ List.mem_cons_self), rfl⟩)).trans rfl, (h2 γ hγ 3 (.inr (by simp))).trans rfl⟩

theorem progG_meaning : ∃ ts, transform [(3, 10)] progG = some ts ∧ ∀ γ, Solution arith [(3, 10)] (parameters progG) γ → ts.length = 6 := by
  obtain ⟨ts, h1, h2⟩ := transform_meaning_partial arith progG_names progG_expressions progG_accepted
  exact ⟨ts, h1, fun γ hγ => (h2 γ hγ).length_eq.symm⟩

/-- Declarations that depend on each other are rejected. -/
theorem cyclic_rejected : validateParameters ([] : List Nat) [(⟨0, some (.op 0 [.global 1, .ground 1])⟩ : Param Nat), ⟨1, some (.op 0 [.global 0, .ground 1])⟩] = some [.cyclic 0] := by
  decide +kernel

/-- A value from outside replaces the expression, so that the cycle is not there. -/
theorem cyclic_external : validateParameters [1] [(⟨0, some (.op 0 [.global 1, .ground 1])⟩ : Param Nat), ⟨1, some (.op 0 [.global 0, .ground 1])⟩] = some [] := by
  decide +kernel

theorem missing_rejected : validateParameters ([] : List Nat) [(⟨0, none⟩ : Param Nat)] = some [.missing 0] := by decide +kernel
theorem redefinition_rejected : validateParameters ([] : List Nat) [(⟨0, some (.ground 1)⟩ : Param Nat), ⟨0, some (.ground 2)⟩] = some [.redefinition 0] := by
  decide +kernel

/-! ## Where the code differs -/

/-- `@parameter $0 = 1 + ($1 + ?x). @parameter $1 = 2.` -/
def nested : List (Param Nat) := [⟨0, some (.op 0 [.ground 1, .op 0 [.global 1, .var 9]])⟩, ⟨1, some (.ground 2)⟩]

/-- **The declarations are accepted although an expression contains an ordinary variable**: `is_resolvable` skips each subterm that contains a global
variable (operation.rs:139-141).  The parameter then has no value, and the statements keep it. -/
theorem nested_accepted : validateParameters [] nested = some [] ∧ (nested.all fun p => (p.expression.map (Tm.isResolvable arith)).getD true) = true ∧
    (substitution [] nested).map (fun s => (s.get 0).isSome) = some false := by
  refine ⟨by decide +kernel, by decide +kernel, by decide +kernel⟩

/-- Without the inner global variable the same mistake is noticed. -/
theorem direct_rejected : (Tm.op 0 [.ground 1, .op 0 [.ground 2, .var 9]] : Tm Nat).isResolvable arith = false := by decide +kernel

/-- **A parameter cannot be the copy of another one**: `@parameter $0 = $1.` is rejected, `@parameter $0 = $1 + 0.` is not. -/
theorem alias_rejected : (Tm.global 1 : Tm Nat).isResolvable arith = false ∧ (Tm.op 0 [.global 1, .ground 0] : Tm Nat).isResolvable arith = true := by
  decide +kernel

/-- **An undefined intermediate value is noticed only without parameters**: `1 - 2` is rejected, `1 - $1` with `$1 = 2` is not, and then `$0` has no value. -/
theorem undefined_accepted : (Tm.op 1 [.ground 1, .ground 2] : Tm Nat).isResolvable arith = false ∧ (Tm.op 1 [.ground 1, .global 1] : Tm Nat).isResolvable arith = true ∧
    validateParameters [] [(⟨0, some (.op 1 [.ground 1, .global 1])⟩ : Param Nat), ⟨1, some (.ground 2)⟩] = some [] ∧
    ∀ γ, Solution arith [] [(⟨0, some (.op 1 [.ground 1, .global 1])⟩ : Param Nat), ⟨1, some (.ground 2)⟩] γ → γ 0 = none := by
  refine ⟨by decide +kernel, by decide +kernel, by decide +kernel, fun γ h => ?_⟩
  have h1 := h.2 _ (List.mem_cons_of_mem _ List.mem_cons_self) (by simp) _ rfl
  have h0 := h.2 _ List.mem_cons_self (by simp) _ rfl
  rw [h0]
  simp only [Tm.eval, evalAll] at h1 ⊢
  rw [h1]
  rfl

/-- **A fact with a parameter that is not declared is accepted and then makes the program panic** (fact.rs:207-210, atom/ground.rs:93). -/
theorem undeclared_fact : factValid [(Tm.global 0 : Tm Nat)] = true ∧
    ((transform [] [GStmt.statement [(Tm.global 0 : Tm Nat)]]).map fun ss => ss.map fun s => normalizeFact arith s.terms) = some [none] := by
  constructor
  · decide +kernel
  · rfl

end Verif.Glob
