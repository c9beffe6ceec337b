import Verif.ImportPattern
import Verif.NormalizeProg
import Verif.EngineSafety

/-!
# Rules that are evaluated while importing (C46)

Model of `TransformationFilterImports` (/repo/nemo/src/rule_model/pipeline/transformations/filter_imports.rs), which removes
rules with a single body atom for an imported predicate from the program and applies them to the tuples of the import.
-/

set_option linter.unusedSimpArgs false
set_option linter.unusedSectionVars false

namespace Verif
variable {α : Type}

/-! ## Model -/

/-- `Literal` (/repo/nemo/src/rule_model/components/literal.rs) -/
inductive SLit (α : Type)
  | pos (a : SAtom α)
  | neg (a : SAtom α)
  | oper (o : Operation α)

/-- `Rule` (/repo/nemo/src/rule_model/components/rule.rs:38-60) with the order of the body literals -/
structure LRule (α : Type) where
  body : List (SLit α)
  head : List (SHead α)

namespace LRule
/-- `body_positive` (rule.rs:129-134) -/
def positive (r : LRule α) : List (SAtom α) := r.body.filterMap fun | .pos a => some a | _ => none
/-- `body_negative` (rule.rs:137-142) -/
def negative (r : LRule α) : List (SAtom α) := r.body.filterMap fun | .neg a => some a | _ => none
/-- `body_operations` (rule.rs:145-150) -/
def operations (r : LRule α) : List (Operation α) := r.body.filterMap fun | .oper o => some o | _ => none
/-- the rule without the order of literals of different kinds -/
def toSRule (r : LRule α) : SRule α := ⟨r.positive, r.negative, r.operations, r.head⟩
/-- the predicates of the rule -/
def preds (r : LRule α) : List Tag := r.head.map (·.pred) ++ r.positive.map (·.pred) ++ r.negative.map (·.pred)
end LRule

/-- `is_aggregate` or `is_existential_variable` (/repo/nemo/src/rule_model/components/term.rs:112-114, 142-147) -/
def HTerm.special : HTerm α → Bool
  | .agg _ _ _ => true
  | .var v => v.isExistential
  | _ => false

/-- `check_rule` (filter_imports.rs:52-83) -/
def LRule.check (r : LRule α) : Option Tag :=
  if r.negative.isEmpty then
    match r.positive with
    | [a] =>
      if (r.head.map (·.pred)).dedup.length = 1 then
        if r.head.any fun h => h.terms.any HTerm.special then none else some a.pred
      else none
    | _ => none
  else none

/-- `ImportDirective` (/repo/nemo/src/rule_model/components/import_export.rs:60-90): `skippable` is true for formats that support
skipping columns (DSV and RDF), `formats` tells for each column of the file whether it is skipped (if it is given),
`source` is the content of the file, `rules` are the filter rules. -/
structure FImport (α : Type) where
  pred : Tag
  skippable : Bool
  formats : Option (List Bool)
  source : List (List α)
  rules : List (LRule α)

/-- `Statement` (/repo/nemo/src/rule_model/components/statement.rs), without parameters -/
inductive FStmt (α : Type)
  | rule (r : LRule α)
  | fact (p : Tag) (row : List α)
  | imp (i : FImport α)
  | exp (p : Tag)
  | out (p : Tag)

/-- `forbidden_predicates` (filter_imports.rs:96-126) -/
def forbidden (prog : List (FStmt α)) : List Tag :=
  prog.flatMap fun
    | .rule r => if r.check.isNone then r.preds else []
    | .fact p _ => [p]
    | .imp _ => []
    | .exp p => [p]
    | .out p => [p]

/-- the rules that can be internalized into an import of the predicate (filter_imports.rs:154-165) -/
def rulesFor (prog : List (FStmt α)) (q : Tag) : List (LRule α) :=
  prog.filterMap fun
    | .rule r => if r.check = some q then some r else none
    | _ => none

/-- `same_head_predicate` (filter_imports.rs:86-93) -/
def sameHead (rules : List (LRule α)) : Bool := (rules.flatMap fun r => r.head.map (·.pred)).dedup.length = 1

/-- Whether there is an import for the predicate into which rules are internalized (`import_rules`, filter_imports.rs:130-175) -/
def isInternal (prog : List (FStmt α)) (q : Tag) : Bool :=
  decide (q ∉ forbidden prog) && (prog.any fun | .imp i => i.pred = q | _ => false) && sameHead (rulesFor prog q)

/-! ### Projections -/

/-- the variables of the operations that define a variable (filter_imports.rs:249-259) -/
def bindingVars (r : LRule α) : List Variable :=
  (r.operations.filter fun o => o.variableAssignment.isSome).flatMap Operation.vars

/-- the variables of the first head atom (filter_imports.rs:248) -/
def headVars0 (r : LRule α) : List Variable := (r.head.take 1).flatMap fun h => h.terms.flatMap HTerm.vars

/-- whether a position of the body atom is used (filter_imports.rs:263-271) -/
def posUsed (r : LRule α) : BTerm α → Bool
  | .var v => decide (v ∈ headVars0 r ∨ v ∈ bindingVars r)
  | .const _ => true
  | _ => false

/-- Extend the list of used positions (filter_imports.rs:261-271) -/
def mergePos : List Bool → List Bool → List Bool
  | [], l => l
  | l, [] => l
  | a :: as, b :: bs => (a || b) :: mergePos as bs

/-- Set the formats of positions that are not used to "skip" (filter_imports.rs:275-293); `none` is a panic (an index that is out
of range). -/
def setFormats (positions : List Bool) : Option (List Bool) → Option (List Bool)
  | none => some (positions.map not)
  | some fs => if fs.length ≤ positions.length then some ((fs.zip positions).map fun x => if x.2 then x.1 else true) else none

/-- the variables of the first literal, if all of its terms are variables (`none` for anonymous variables, which are different
from all variables of the head) (filter_imports.rs:298, 304-312) -/
def firstVars (r : LRule α) : Option (List (Option Variable)) :=
  match r.body with
  | .pos a :: _ => a.terms.mapM fun | .var v => some (some v) | .anon => some none | _ => none
  | .neg a :: _ => a.terms.mapM fun | .var v => some (some v) | .anon => some none | _ => none
  | .oper (.equal (.var v) (.var w)) :: _ => some [some v, some w]
  | .oper (.op _ ts) :: _ => ts.mapM fun | .var v => some (some v) | _ => none
  | _ => none

/-- the terms of the first head atom, if all are variables (filter_imports.rs:297, 303) -/
def headVarTerms (r : LRule α) : Option (List Variable) :=
  match r.head with
  | h :: _ => h.terms.mapM fun | .var v => some v | _ => none
  | [] => none

/-- the used variables of the first literal (filter_imports.rs:304-312) -/
def usedVars (positions : List Bool) (vs : List (Option Variable)) : List (Option Variable) :=
  ((vs.zip positions).filter fun x => x.2).map fun x => x.1

/-- whether the rule is not needed after the projection (filter_imports.rs:296-320) -/
def isObsolete (positions : List Bool) (r : LRule α) : Bool :=
  match headVarTerms r, firstVars r with
  | some hs, some vs => (hs.zip (usedVars positions vs)).all fun x => decide (some x.1 = x.2)
  | _, _ => false

/-- the state of the loop over the rules -/
structure PushSt where
  positions : List Bool
  formats : Option (List Bool)
  obsolete : List Nat

/-- the loop over the rules (filter_imports.rs:243-323) -/
def pushLoop (all : List (LRule α)) : List (LRule α) → PushSt → Option PushSt
  | [], st => some st
  | r :: rs, st =>
    let positions := mergePos st.positions ((r.positive.take 1).flatMap fun a => a.terms.map (posUsed r))
    if positions.any not then
      (setFormats positions st.formats).bind fun fs =>
        pushLoop all rs ⟨positions, some fs, st.obsolete ++ (all.zipIdx.filter fun x => isObsolete positions x.1).map fun x => x.2⟩
    else pushLoop all rs { st with positions := positions }

/-- remove the obsolete rules (filter_imports.rs:325-327) -/
def removeRules : List Nat → List (LRule α) → Option (List (LRule α))
  | [], rules => some rules
  | i :: is, rules => if i < rules.length then removeRules is (rules.eraseIdx i) else none

/-- `push_projections_and_filters` (filter_imports.rs:228-333) -/
def pushImport (i : FImport α) (rules : List (LRule α)) : Option (FImport α) :=
  if i.skippable then
    (pushLoop rules rules ⟨[], i.formats, []⟩).bind fun st =>
      (removeRules st.obsolete rules).map fun rs => { i with formats := st.formats, rules := i.rules ++ rs }
  else some { i with rules := i.rules ++ rules }

/-- the arity of the first head atom -/
def headArity (r : LRule α) : Nat := ((r.head.take 1).flatMap fun h => h.terms).length

/-- the predicate of the first head atom -/
def headPred0 (rules : List (LRule α)) (d : Tag) : Tag :=
  match rules with
  | r :: _ => match r.head with
    | h :: _ => h.pred
    | [] => d
  | [] => d

/-- the import that replaces an import (filter_imports.rs:191-217) -/
def newImport (prog : List (FStmt α)) (i : FImport α) : Option (FImport α) :=
  if isInternal prog i.pred then
    if (rulesFor prog i.pred).all fun r => decide (headArity r = ((rulesFor prog i.pred).head?.map headArity).getD 0) then
      pushImport { i with pred := headPred0 (rulesFor prog i.pred) i.pred } (rulesFor prog i.pred)
    else some i
  else some i

/-- Whether a rule is removed from the program (filter_imports.rs:186-190) -/
def removed (prog : List (FStmt α)) (r : LRule α) : Bool :=
  match r.check with
  | some q => isInternal prog q
  | none => false

/-- the statements that replace a statement (filter_imports.rs:184-222) -/
def filterStmt (prog : List (FStmt α)) : FStmt α → Option (List (FStmt α))
  | .rule r => some (if removed prog r then [] else [.rule r])
  | .imp i => (newImport prog i).map fun i' => [.imp i']
  | s => some [s]

/-- `TransformationFilterImports::apply` (filter_imports.rs:179-225) -/
def filterImports (prog : List (FStmt α)) : Option (List (FStmt α)) :=
  (prog.mapM (filterStmt prog)).map List.flatten

/-! ## Specification: the meaning of a program with imports -/

section semantics
variable [DecidableEq α] [Dom α]

/-- the skipped columns of an import -/
def FImport.skips (i : FImport α) : List Bool := i.formats.getD []

/-- the tuple that is read from a row of the file -/
def FImport.columns (i : FImport α) (row : List α) : List α :=
  match i.formats with
  | none => row
  | some fs => keepCols fs row

/-- The patterns of an import (`build_import`, /repo/nemo/src/io/format_builder.rs:693-696, and the readers, dsv/reader.rs:60-70);
`ord` are the variable orders, which have no influence. -/
def FImport.patterns (ord : LRule α → List Variable) (i : FImport α) : Option (List (Pattern α)) :=
  (i.rules.mapM fun r => (normalizeRule r.toSRule (ord r)).importPattern).map fun ps =>
    (ps.filterMap id).map fun p => (p.withSkips i.skips).toPattern

/-- The table of an import: the results of the patterns (see `PBuf.import_spec_partial`) -/
def FImport.read (ord : LRule α → List Variable) (i : FImport α) : Option (List (List α)) :=
  (i.patterns ord).map fun ps => i.source.filterMap fun row => filterResult ps (i.columns row)

/-- The facts of a program -/
def progEdb (ord : LRule α → List Variable) (prog : List (FStmt α)) : Interp α := fun p row =>
  .fact p row ∈ prog ∨ ∃ i, .imp i ∈ prog ∧ i.pred = p ∧ ∃ rows, i.read ord = some rows ∧ row ∈ rows

/-- The rules of a program -/
def progRules (ord : LRule α → List Variable) (prog : List (FStmt α)) : List (NRule α) :=
  prog.filterMap fun
    | .rule r => some (normalizeRule r.toSRule (ord r))
    | _ => none

end semantics

/-! ## Removing predicates that are only imported -/

section core
variable [DecidableEq α] [Dom α]

/-- A division of the rules: the rules in `inner` are only applied to the facts for the predicates `Q`, which are not derived, and
the rules in `outer` do not use these predicates. -/
structure Internalize (Q : Tag → Prop) (outer inner : List (NRule α)) : Prop where
  outerPos : ∀ r ∈ outer, ∀ p ∈ r.predsPositive, ¬ Q p
  outerNeg : ∀ r ∈ outer, ∀ p ∈ r.predsNegative, ¬ Q p
  outerHead : ∀ r ∈ outer, ∀ p ∈ r.predsHead, ¬ Q p
  innerPos : ∀ r ∈ inner, ∀ p ∈ r.predsPositive, Q p
  innerNeg : ∀ r ∈ inner, r.negative = []
  innerAgg : ∀ r ∈ inner, r.aggregation = none
  innerHead : ∀ r ∈ inner, ∀ p ∈ r.predsHead, ¬ Q p

/-- the facts after the rules in `inner` were applied -/
def innerEdb (Q : Tag → Prop) (inner : List (NRule α)) (edb : Interp α) : Interp α := fun p row =>
  ¬ Q p ∧ (edb p row ∨ ∃ r ∈ inner, Derives r edb edb p row)

theorem Derives.head_mem {r : NRule α} {P N : Interp α} {p : Tag} {row : List α} (h : Derives r P N p row) : p ∈ r.predsHead := by
  unfold Derives at h
  cases h with
  | plain _ h2 _ => exact List.mem_map.2 ⟨_, List.mem_of_getElem? h2, rfl⟩
  | agg _ _ h2 => exact List.mem_map.2 ⟨_, List.mem_of_getElem? h2, rfl⟩

theorem predsStrict_of_no_agg {r : NRule α} (h1 : r.negative = []) (h2 : r.aggregation = none) : r.predsStrict = [] := by
  unfold NRule.predsStrict NRule.containsAggregates NRule.predsNegative
  rw [h1, h2]; rfl

theorem predsStrict_sub {r : NRule α} {p : Tag} (h : p ∈ r.predsStrict) : p ∈ r.predsPositive ∨ p ∈ r.predsNegative := by
  unfold NRule.predsStrict at h
  split at h
  · exact (List.mem_append.1 h).symm
  · right; simpa using h

/-- The least models agree. -/
theorem internalize_least {Q : Tag → Prop} {outer inner : List (NRule α)} (hi : Internalize Q outer inner) {edb edb' N N' : Interp α}
    (he : ∀ p row, edb' p row ↔ innerEdb Q inner edb p row) (hN : ∀ p row, ¬ Q p → (N p row ↔ N' p row)) (rules : List (NRule α))
    (hr : ∀ r, r ∈ rules ↔ r ∈ outer ∨ r ∈ inner) (p : Tag) (row : List α) :
    LeastModel rules edb N p row ↔ (Q p ∧ edb p row) ∨ (¬ Q p ∧ LeastModel outer edb' N' p row) := by
  -- the inner rules do not depend on the negated facts
  have hin : ∀ r ∈ inner, ∀ P N₁ N₂ : Interp α, ∀ p row, Derives r P N₁ p row ↔ Derives r P N₂ p row := by
    intro r hr P N₁ N₂ p row
    refine Derives.congr (fun _ _ _ => Iff.rfl) ?_ p row
    rw [predsStrict_of_no_agg (hi.innerNeg r hr) (hi.innerAgg r hr)]; simp
  constructor
  · intro h
    refine h (fun p row => (Q p ∧ edb p row) ∨ (¬ Q p ∧ LeastModel outer edb' N' p row)) ⟨?_, ?_⟩
    · intro p row hp
      by_cases hQ : Q p
      · exact .inl ⟨hQ, hp⟩
      · exact .inr ⟨hQ, fun I hI => hI.1 p row ((he p row).2 ⟨hQ, .inl hp⟩)⟩
    · intro r hrr p row hd
      rcases (hr r).1 hrr with ho | hin'
      · have hQ : ¬ Q p := hi.outerHead r ho p hd.head_mem
        refine .inr ⟨hQ, fun I hI => hI.2 r ho p row ?_⟩
        refine Derives.mono_on (P := LeastModel outer edb' N') (fun q _ row h => h I hI) p row ?_
        refine (Derives.congr (fun q hq row => ?_) (fun q hq row => ?_) p row).1 hd
        · have := hi.outerPos r ho q hq
          simp [this]
        · rcases predsStrict_sub hq with hq | hq
          · exact hN q row (hi.outerPos r ho q hq)
          · exact hN q row (hi.outerNeg r ho q hq)
      · have hQ : ¬ Q p := hi.innerHead r hin' p hd.head_mem
        refine .inr ⟨hQ, fun I hI => hI.1 p row ((he p row).2 ⟨hQ, .inr ⟨r, hin', ?_⟩⟩)⟩
        rw [hin r hin' edb edb N]
        refine (Derives.congr (fun q hq row => ?_) (fun _ _ _ => Iff.rfl) p row).1 hd
        have := hi.innerPos r hin' q hq
        simp [this]
  · rintro (⟨-, h⟩ | ⟨hQ, h⟩)
    · exact fun I hI => hI.1 p row h
    · intro I hI
      refine h I ⟨?_, ?_⟩
      · intro p row hp
        rcases (he p row).1 hp with ⟨-, hp | ⟨r, hr', hd⟩⟩
        · exact hI.1 p row hp
        · refine hI.2 r ((hr r).2 (.inr hr')) p row ?_
          rw [hin r hr' I N edb]
          exact Derives.mono hI.1 p row hd
      · intro r hr' p row hd
        refine hI.2 r ((hr r).2 (.inl hr')) p row ?_
        refine (Derives.congr (fun _ _ _ => Iff.rfl) (fun q hq row => ?_) p row).1 hd
        rcases predsStrict_sub hq with hq | hq
        · exact (hN q row (hi.outerPos r hr' q hq)).symm
        · exact (hN q row (hi.outerNeg r hr' q hq)).symm

/-- **The meaning of the program is not changed.**  Each stable model of the program agrees with a stable model of the program in which
the inner rules were applied to the facts, and vice versa. -/
theorem internalize_stable {Q : Tag → Prop} {outer inner : List (NRule α)} (hi : Internalize Q outer inner) {edb edb' : Interp α}
    (he : ∀ p row, edb' p row ↔ innerEdb Q inner edb p row) (rules : List (NRule α)) (hr : ∀ r, r ∈ rules ↔ r ∈ outer ∨ r ∈ inner) :
    (∀ M, IsStable rules edb M → ∃ M', IsStable outer edb' M' ∧ ∀ p row, ¬ Q p → (M p row ↔ M' p row)) ∧
    ∀ M', IsStable outer edb' M' → ∃ M, IsStable rules edb M ∧ ∀ p row, ¬ Q p → (M p row ↔ M' p row) := by
  have hno : ∀ (N' : Interp α) p row, LeastModel outer edb' N' p row → ¬ Q p := by
    intro N' p row h
    refine h (fun p _ => ¬ Q p) ⟨fun p row hp => ((he p row).1 hp).1, fun r hr' p row hd => hi.outerHead r hr' p hd.head_mem⟩
  constructor
  · intro M hM
    refine ⟨fun p row => ¬ Q p ∧ M p row, ?_, fun p row hQ => by simp [hQ]⟩
    have key := internalize_least hi he (N := M) (N' := fun p row => ¬ Q p ∧ M p row) (fun p row hQ => by simp [hQ]) rules hr
    have hM' : ∀ p row, M p row ↔ LeastModel rules edb M p row := fun p row => by
      have := congrFun (congrFun hM p) row
      exact iff_of_eq this
    funext p row
    apply propext
    constructor
    · rintro ⟨hQ, hm⟩
      rcases (key p row).1 ((hM' p row).1 hm) with ⟨h, -⟩ | ⟨-, h⟩
      · exact absurd h hQ
      · exact h
    · intro h
      have hQ := hno _ p row h
      exact ⟨hQ, (hM' p row).2 ((key p row).2 (.inr ⟨hQ, h⟩))⟩
  · intro M' hM
    have hM' : ∀ p row, M' p row ↔ LeastModel outer edb' M' p row := fun p row => by
      have := congrFun (congrFun hM p) row
      exact iff_of_eq this
    refine ⟨fun p row => (Q p ∧ edb p row) ∨ (¬ Q p ∧ M' p row), ?_, fun p row hQ => by simp [hQ]⟩
    have key := internalize_least hi he (N := fun p row => (Q p ∧ edb p row) ∨ (¬ Q p ∧ M' p row)) (N' := M')
      (fun p row hQ => by simp [hQ]) rules hr
    funext p row
    apply propext
    rw [key]
    exact or_congr Iff.rfl (and_congr Iff.rfl (hM' p row))

end core

end Verif
