import Verif.PropArity

/-!
# Examples for arities
-/

set_option maxRecDepth 100000

namespace Verif.Ar

/-- `@import 1 :- csv{..}. 0(a, b). 2(?x, ?y) :- 0(?x, ?y), ~1(?y). 3(?x) :- 2(?x, ?y), 2(?y, ?x). 4(?x) :- 3(?x). @export 3 :- csv{..}. @import 5 :- csv{..}.
@import 6 :- csv{format=(any,any)}. @export 6 :- csv{..}.`  The predicate `4` is not needed, `5` not used. -/
def progA : List St :=
  [.imprt 1 none, .fact 0 2 true, .rule [(2, 2)] [(0, 2), (1, 1)], .rule [(3, 1)] [(2, 2), (2, 2)], .rule [(4, 1)] [(3, 1)], .exprt 3 none, .imprt 5 none,
    .imprt 6 (some 2), .exprt 6 none]

theorem progA_accepted : validateArity progA = some [] := by decide +kernel

theorem progA_active : active progA = some
    [.imprt 1 none, .fact 0 2 true, .rule [(2, 2)] [(0, 2), (1, 1)], .rule [(3, 1)] [(2, 2), (2, 2)], .exprt 3 none, .imprt 6 (some 2), .exprt 6 none] := by
  decide +kernel

/-- The hypotheses of `accepted_normalizes_partial` hold. -/
theorem progA_normalizes : ∃ ss' m, active progA = some ss' ∧ normalizeArities ss' = some m ∧ ∀ p n, m.lookup p = some n → Declares progA p n ∧ ∀ k, Declares progA p k → k = n := by
  refine accepted_normalizes_partial progA_accepted (fun p hi ho => ?_) (fun p he => ?_)
  · exfalso
    simp [progA] at hi ho
    omega
  · simp only [progA, List.mem_cons, St.exprt.injEq, reduceCtorEq, false_or, or_false, and_true, List.not_mem_nil] at he
    rcases he with rfl | rfl
    · exact .inr (.inl ⟨[(3, 1)], [(2, 2), (2, 2)], 1, by decide, by decide⟩)
    · exact .inr (.inr ⟨2, by decide⟩)

/-- The arities in the normalized program -/
theorem progA_arities : ((active progA).bind normalizeArities).map (fun m => [0, 1, 2, 3, 4, 5, 6].map fun p => m.lookup p) =
    some [some 2, some 1, some 2, some 1, none, none, some 2] := by decide +kernel

theorem inconsistent_rejected : validateArity [.fact 0 2 true, .rule [(1, 1)] [(0, 3)]] = some [.inconsistent 0 3] := by decide +kernel
theorem unknown_rejected : validateArity [.imprt 0 none, .output 0] = some [.unknown 0] := by decide +kernel

/-- Imports that are not used are not checked, and they are removed. -/
theorem unused_accepted : validateArity [.imprt 0 none, .fact 1 1 true] = some [] ∧ active [.imprt 0 none, .fact 1 1 true] = some [] := by decide +kernel

/-! ## Where the code fails -/

/-- `@import 0 :- csv{..}. 1(?x) :- 0(?x). @output 0.` -/
def lostRule : List St := [.imprt 0 none, .rule [(1, 1)] [(0, 1)], .output 0]

/-- **The arity of an import may be known only from a rule that is then removed**: the program is accepted, but then it panics ("predicate has unknown
arity", import.rs:67-70). -/
theorem lostRule_panics : validateArity lostRule = some [] ∧ active lostRule = some [.imprt 0 none, .output 0] ∧ (active lostRule).bind normalizeArities = none := by
  decide +kernel

/-- `0(1 / 0). @export 0 :- csv{..}.` -/
def undefinedFact : List St := [.fact 0 1 false, .exprt 0 none]

/-- **The arity may be known only from a fact that has an undefined value and is dropped**: again the program is accepted and then panics (export.rs:67-70). -/
theorem undefinedFact_panics : validateArity undefinedFact = some [] ∧ (active undefinedFact).bind normalizeArities = none := by decide +kernel

/-- **The same import is accepted or rejected depending on the order**: an import without an arity is accepted after but not before another one of the same
predicate that has one. -/
theorem import_order : validateArity [.imprt 0 (some 2), .imprt 0 none, .output 0] = some [] ∧ validateArity [.imprt 0 none, .imprt 0 (some 2), .output 0] = some [.unknown 0] := by
  decide +kernel

/-- An arity that an export declares is not used for imports. -/
theorem export_not_used : validateArity [.exprt 0 (some 2), .imprt 0 none] = some [.unknown 0] := by decide +kernel

end Verif.Ar
