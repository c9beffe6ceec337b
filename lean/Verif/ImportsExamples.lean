import Verif.PropImports
import Verif.NormalizeExamples

/-!
# Examples for C46

A program to which the theorem applies, and programs for which the transformation changes the result.
-/

set_option linter.unusedSimpArgs false
set_option linter.unusedVariables false
set_option linter.unusedSectionVars false

namespace Verif

/-- A fact of a stable model is given or derived by a rule. -/
theorem stable_supported {α : Type} [DecidableEq α] [Dom α] {rules : List (NRule α)} {edb M : Interp α} (h : IsStable rules edb M)
    {p : Tag} {row : List α} (hm : M p row) : edb p row ∨ ∃ r ∈ rules, Derives r M M p row := by
  by_contra hc
  push Not at hc
  obtain ⟨h1, h2⟩ := hc
  have hM : ∀ p row, M p row ↔ LeastModel rules edb M p row := fun p row => iff_of_eq (congrFun (congrFun h p) row)
  have hclosed : ∀ q row', LeastModel rules edb M q row' → M q row' := fun q row' hl => (hM q row').2 hl
  have := (hM p row).1 hm (fun q row' => M q row' ∧ ¬ (q = p ∧ row' = row)) ⟨?_, ?_⟩
  · exact this.2 ⟨rfl, rfl⟩
  · intro q row' he
    refine ⟨(hM q row').2 fun I hI => hI.1 q row' he, ?_⟩
    rintro ⟨rfl, rfl⟩
    exact h1 he
  · intro r hr q row' hd
    have hd' : Derives r M M q row' := Derives.mono (fun q row h => h.1) q row' hd
    refine ⟨(hM q row').2 fun I hI => hI.2 r hr q row' ?_, ?_⟩
    · exact Derives.mono_on (fun q _ row h => (hM q row).1 h I hI) q row' hd'
    · rintro ⟨rfl, rfl⟩
      exact h2 r hr hd'

/-- The facts of a program are in each of its stable models. -/
theorem stable_edb {α : Type} [DecidableEq α] [Dom α] {rules : List (NRule α)} {edb M : Interp α} (h : IsStable rules edb M)
    {p : Tag} {row : List α} (he : edb p row) : M p row := by
  have : M p row = LeastModel rules edb M p row := congrFun (congrFun h p) row
  rw [this]
  exact fun I hI => hI.1 p row he

namespace FilterExample

/-- variables -/
abbrev X : Variable := .universal 0
abbrev Y : Variable := .universal 1
abbrev Z : Variable := .universal 2

/-- the order of the variables has no influence -/
def ord : LRule Nat → List Variable := fun _ => []

/-! ## A condition is lost -/

/-- `P(?x) :- E(?x, ?y), ?x = 6` (E = 0, P = 1) -/
def lostRule : LRule Nat := ⟨[.pos ⟨0, [.var X, .var Y]⟩, .oper (.equal (.var X) (.const 6))], [⟨1, [.var X]⟩]⟩
/-- the import of `E` -/
def importE : FImport Nat := ⟨0, true, none, [[1, 2], [6, 7]], []⟩
/-- the program -/
def lostProg : List (FStmt Nat) := [.imp importE, .rule lostRule, .out 1]

/-- the rule is normalized to itself -/
theorem lost_norm : normalizeRule lostRule.toSRule [] = ⟨[⟨0, [X, Y]⟩], [], [.equal (.var X) (.const 6)], [⟨1, [.var X]⟩], none, []⟩ := rfl

/-- **Defect.**  For an import that can skip columns, the condition of the rule `P(?x) :- E(?x, ?y), ?x = 6` is lost: the rule is
removed since the head is a projection of the body atom.  The fact `P(1)` is in all stable models of the transformed
program, but in no stable model of the program. -/
theorem condition_lost : ∃ prog', filterImports lostProg = some prog' ∧
    (∀ M, IsStable (progRules ord lostProg) (progEdb ord lostProg) M → ¬ M 1 [1]) ∧
    ∀ M', IsStable (progRules ord prog') (progEdb ord prog') M' → M' 1 [1] := by
  refine ⟨[.imp ⟨1, true, some [false, true], [[1, 2], [6, 7]], []⟩, .out 1], rfl, ?_, ?_⟩
  · intro M hM hm
    rcases stable_supported hM hm with h | ⟨r, hr, hd⟩
    · rcases h with h | ⟨i, hi, hp, -⟩
      · simp [lostProg] at h
      · simp only [lostProg, List.mem_cons, FStmt.imp.injEq, reduceCtorEq, List.not_mem_nil, or_false] at hi
        subst hi
        simp [importE] at hp
    · have hr' : r = normalizeRule lostRule.toSRule [] := by simpa [progRules, lostProg, ord] using hr
      rw [hr', lost_norm] at hd
      unfold Derives at hd
      generalize hB : BodyHolds (α := Nat) _ _ _ = B at hd
      have key : ∀ (q : Tag) (row : List Nat), row = [1] → DerivesWith (⟨[⟨0, [X, Y]⟩], [], [.equal (.var X) (.const 6)], [⟨1, [.var X]⟩], none, []⟩ : NRule Nat)
          B q row → False := by
       intro q row hrow hd
       cases hd with
       | @plain σ h' i hb hh hna =>
        subst hB
        rcases i with _ | i
        · cases hh
          have h1 := hb.ops (.equal (.var X) (.const 6)) (by simp) (by
            intro v hv
            simp [Operation.vars] at hv
            subst hv
            exact .atom (a := ⟨0, [X, Y]⟩) (by simp) (by simp))
          simp [HeadAtom.inst, Primitive.inst] at hrow
          simp [Operation.eval, hrow] at h1
        · simp at hh
       | agg _ ha _ => cases ha
      exact key _ _ rfl hd
  · intro M' hM
    refine stable_edb hM (.inr ⟨_, List.mem_cons_self, rfl, _, read_nil ord rfl, ?_⟩)
    decide

/-! ## Facts that are derived by other rules are lost -/

/-- `P(?x) :- E(?x, ?y)` -/
def projRule : LRule Nat := ⟨[.pos ⟨0, [.var X, .var Y]⟩], [⟨1, [.var X]⟩]⟩
/-- `E(?x, ?y) :- F(?x, ?y, ?z)` (F = 2) -/
def feedRule : LRule Nat := ⟨[.pos ⟨2, [.var X, .var Y, .var Z]⟩], [⟨0, [.var X, .var Y]⟩]⟩
/-- the import of `F` -/
def importF : FImport Nat := ⟨2, true, none, [[8, 9, 3]], []⟩
/-- the program -/
def feedProg : List (FStmt Nat) := [.imp importE, .imp importF, .rule projRule, .rule feedRule, .out 1]

theorem proj_norm : normalizeRule projRule.toSRule [] = ⟨[⟨0, [X, Y]⟩], [], [], [⟨1, [.var X]⟩], none, []⟩ := rfl
theorem feed_norm : normalizeRule feedRule.toSRule [] = ⟨[⟨2, [X, Y, Z]⟩], [], [], [⟨0, [.var X, .var Y]⟩], none, []⟩ := rfl

/-- **Defect.**  If an imported predicate is also derived by a rule with a single body atom, then a rule that uses it is only
applied to the imported tuples: `P(8)` is in all stable models of the program, but in no stable model of the transformed program. -/
theorem derived_facts_lost : ∃ prog', filterImports feedProg = some prog' ∧
    (∀ M, IsStable (progRules ord feedProg) (progEdb ord feedProg) M → M 1 [8]) ∧
    ∀ M', IsStable (progRules ord prog') (progEdb ord prog') M' → ¬ M' 1 [8] := by
  refine ⟨[.imp ⟨1, true, some [false, true], [[1, 2], [6, 7]], []⟩, .imp ⟨0, true, some [false, false, true], [[8, 9, 3]], []⟩, .out 1],
    rfl, ?_, ?_⟩
  · intro M hM
    have hcl : ∀ r ∈ progRules ord feedProg, ∀ p row, Derives r M M p row → M p row := by
      intro r hr p row hd
      have hM' : ∀ p row, M p row ↔ LeastModel (progRules ord feedProg) (progEdb ord feedProg) M p row :=
        fun p row => iff_of_eq (congrFun (congrFun hM p) row)
      exact (hM' p row).2 fun I hI => hI.2 r hr p row (Derives.mono_on (fun q _ row h => (hM' q row).1 h I hI) p row hd)
    have h1 : M 2 [8, 9, 3] := stable_edb hM (.inr ⟨importF, by simp [feedProg], rfl, _, read_nil ord rfl, by decide⟩)
    let σ : Variable → Nat := fun v => if v = X then 8 else if v = Y then 9 else 3
    have h2 : M 0 [8, 9] := by
      refine hcl (normalizeRule feedRule.toSRule []) (by simp [progRules, feedProg, ord]) 0 [8, 9] ?_
      rw [feed_norm]
      refine DerivesWith.plain (h := ⟨0, [.var X, .var Y]⟩) (i := 0) (σ := σ) ⟨?_, by simp, by simp⟩ rfl (by simp)
      intro a ha
      simp only [List.mem_singleton] at ha
      subst ha
      exact h1
    refine hcl (normalizeRule projRule.toSRule []) (by simp [progRules, feedProg, ord]) 1 [8] ?_
    rw [proj_norm]
    refine DerivesWith.plain (h := ⟨1, [.var X]⟩) (i := 0) (σ := σ) ⟨?_, by simp, by simp⟩ rfl (by simp)
    intro a ha
    simp only [List.mem_singleton] at ha
    subst ha
    exact h2
  · intro M' hM hm
    rcases stable_supported hM hm with h | ⟨r, hr, hd⟩
    · rcases h with h | ⟨i, hi, hp, rows, hrows, hrow⟩
      · simp at h
      · simp only [List.mem_cons, FStmt.imp.injEq, reduceCtorEq, List.not_mem_nil, or_false] at hi
        rcases hi with rfl | rfl
        · rw [read_nil ord rfl] at hrows
          cases hrows
          revert hrow
          decide
        · simp at hp
    · simp [progRules] at hr

/-! ## Wrong arity -/

/-- `P(?x) :- E(?x, ?x, ?y)` -/
def repRule : LRule Nat := ⟨[.pos ⟨0, [.var X, .var X, .var Y]⟩], [⟨1, [.var X]⟩]⟩
/-- the program -/
def repProg : List (FStmt Nat) := [.imp ⟨0, true, none, [[1, 2, 3]], []⟩, .rule repRule, .out 1]

/-- **Defect.**  The rule `P(?x) :- E(?x, ?x, ?y)` is removed although it is not a projection: from the tuple `(1, 2, 3)`, the fact
`P(1, 2)` is imported, which does not satisfy the condition and has the wrong arity. -/
theorem repeated_variable_wrong : ∃ prog', filterImports repProg = some prog' ∧ progEdb ord prog' 1 [1, 2] := by
  refine ⟨[.imp ⟨1, true, some [false, false, true], [[1, 2, 3]], []⟩, .out 1], rfl, ?_⟩
  exact .inr ⟨_, List.mem_cons_self, rfl, _, read_nil ord rfl, by decide⟩

/-! ## A panic -/

/-- `P(?x) :- E(?x, ?z)` -/
def projRule2 : LRule Nat := ⟨[.pos ⟨0, [.var X, .var Z]⟩], [⟨1, [.var X]⟩]⟩

/-- **Defect.**  If two rules are obsolete, then their indices are collected twice, and the removal of the rules panics. -/
theorem two_obsolete_panic : filterImports [.imp importE, .rule projRule, .rule projRule2, .out 1] = none := rfl

/-! ## Only the first rule is applied -/

/-- `P(?x, ?y) :- E(?x, ?y)` -/
def copyRule : LRule Nat := ⟨[.pos ⟨0, [.var X, .var Y]⟩], [⟨1, [.var X, .var Y]⟩]⟩
/-- `P(?y, ?x) :- E(?x, ?y)` -/
def swapRule : LRule Nat := ⟨[.pos ⟨0, [.var X, .var Y]⟩], [⟨1, [.var Y, .var X]⟩]⟩
/-- the program -/
def unionProg : List (FStmt Nat) := [.imp importE, .rule copyRule, .rule swapRule, .out 1]

theorem inlineLoop_nil : inlineLoop ([] : List (Variable × Operation Nat)) = some [] := by
  rw [inlineLoop]; rfl

theorem copy_norm : normalizeRule copyRule.toSRule [] = ⟨[⟨0, [X, Y]⟩], [], [], [⟨1, [.var X, .var Y]⟩], none, []⟩ := rfl
theorem swap_norm : normalizeRule swapRule.toSRule [] = ⟨[⟨0, [X, Y]⟩], [], [], [⟨1, [.var Y, .var X]⟩], none, []⟩ := rfl

theorem copy_pattern : (normalizeRule copyRule.toSRule []).importPattern =
    some (some ⟨[], [.var X, .var Y], markerColumn [X, Y] ([] : List (Operation Nat))⟩) := by
  rw [copy_norm]
  have : (genFunction (atomVars [(⟨0, [X, Y]⟩ : BodyAtom)]) ([] : List (Operation Nat))) = (⟨[X, Y], []⟩, []) := by
    unfold genFunction; rw [FnSt.loop]; rfl
  unfold NRule.importPattern
  dsimp only
  rw [this, inlineLoop_nil]
  rfl

theorem swap_pattern : (normalizeRule swapRule.toSRule []).importPattern =
    some (some ⟨[], [.var Y, .var X], markerColumn [X, Y] ([] : List (Operation Nat))⟩) := by
  rw [swap_norm]
  have : (genFunction (atomVars [(⟨0, [X, Y]⟩ : BodyAtom)]) ([] : List (Operation Nat))) = (⟨[X, Y], []⟩, []) := by
    unfold genFunction; rw [FnSt.loop]; rfl
  unfold NRule.importPattern
  dsimp only
  rw [this, inlineLoop_nil]
  rfl

/-- the transformed import -/
def unionImport : FImport Nat := ⟨1, true, none, [[1, 2], [6, 7]], [copyRule, swapRule]⟩

theorem union_read : unionImport.read ord = some [[1, 2], [6, 7]] := by
  unfold FImport.read FImport.patterns unionImport ord
  simp only [List.mapM_cons, List.mapM_nil, copy_pattern, swap_pattern]
  decide +kernel

/-- **Defect.**  If several rules are applied to an import, then only the first pattern that accepts a tuple is used: from
`P(?x, ?y) :- E(?x, ?y)` and `P(?y, ?x) :- E(?x, ?y)`, the second has no effect. -/
theorem union_lost : ∃ prog', filterImports unionProg = some prog' ∧
    (∀ M, IsStable (progRules ord unionProg) (progEdb ord unionProg) M → M 1 [2, 1]) ∧
    ∀ M', IsStable (progRules ord prog') (progEdb ord prog') M' → ¬ M' 1 [2, 1] := by
  refine ⟨[.imp unionImport, .out 1], rfl, ?_, ?_⟩
  · intro M hM
    have hcl : ∀ r ∈ progRules ord unionProg, ∀ p row, Derives r M M p row → M p row := by
      intro r hr p row hd
      have hM' : ∀ p row, M p row ↔ LeastModel (progRules ord unionProg) (progEdb ord unionProg) M p row :=
        fun p row => iff_of_eq (congrFun (congrFun hM p) row)
      exact (hM' p row).2 fun I hI => hI.2 r hr p row (Derives.mono_on (fun q _ row h => (hM' q row).1 h I hI) p row hd)
    have h1 : M 0 [1, 2] := stable_edb hM (.inr ⟨importE, by simp [unionProg], rfl, _, read_nil ord rfl, by decide⟩)
    refine hcl (normalizeRule swapRule.toSRule []) (by simp [progRules, unionProg, ord]) 1 [2, 1] ?_
    rw [swap_norm]
    refine DerivesWith.plain (h := ⟨1, [.var Y, .var X]⟩) (i := 0) (σ := fun v => if v = X then 1 else 2) ⟨?_, by simp, by simp⟩ rfl (by simp)
    intro a ha
    simp only [List.mem_singleton] at ha
    subst ha
    exact h1
  · intro M' hM hm
    rcases stable_supported hM hm with h | ⟨r, hr, hd⟩
    · rcases h with h | ⟨i, hi, hp, rows, hrows, hrow⟩
      · simp at h
      · simp only [List.mem_cons, FStmt.imp.injEq, reduceCtorEq, List.not_mem_nil, or_false] at hi
        subst hi
        rw [union_read] at hrows
        cases hrows
        revert hrow
        decide
    · simp [progRules] at hr

/-! ## Skipped columns -/

/-- an import whose first column is skipped -/
def skipImport : FImport Nat := ⟨1, true, some [true, false, false], [[1, 2, 3]], [copyRule]⟩
/-- the program: the tuples of `E` are `(2, 3)` -/
def skipProg : List (FStmt Nat) := [.imp ⟨0, true, some [true, false, false], [[1, 2, 3]], []⟩, .rule copyRule, .out 1]

/-- **Defect.**  If a column of the file is skipped by the user, then the columns of the rule are renamed as if they were columns
of the file: instead of `P(2, 3)`, the rule `P(?x, ?y) :- E(?x, ?y)` yields `P(2, 2)`. -/
theorem skipped_columns_wrong : progEdb ord skipProg 0 [2, 3] ∧ filterImports skipProg = some [.imp skipImport, .out 1] ∧
    skipImport.read ord = some [[2, 2]] := by
  refine ⟨.inr ⟨_, List.mem_cons_self, rfl, _, read_nil ord rfl, by decide⟩, rfl, ?_⟩
  rw [read_single ord (r := copyRule) rfl copy_pattern]
  decide +kernel

/-! ## A program to which the theorem applies -/

open SourceExample (x y user_x user_y x_ne_y y_ne_x)

/-- the body atom of the first rule -/
def atomE : SAtom Nat := ⟨0, [.var x, .anon, .var y]⟩
/-- its head -/
def headP : SHead Nat := ⟨1, [.var y, .op 0 [.var x, .const 1]]⟩
/-- `P(?y, ?x + 1) :- E(?x, _, ?y), ?y = 5` -/
def shiftRule : LRule Nat := ⟨[.pos atomE, .oper (.equal (.var y) (.const 5))], [headP]⟩
/-- the body atom of the second rule -/
def atomF : SAtom Nat := ⟨2, [.var x, .var y]⟩
/-- its head -/
def headQ : SHead Nat := ⟨3, [.var x]⟩
/-- `Q(?x) :- F(?x, ?y)` -/
def firstRule : LRule Nat := ⟨[.pos atomF], [headQ]⟩
/-- `R(?x) :- Q(?x), P(?x, ?y)` -/
def joinRule : LRule Nat := ⟨[.pos ⟨3, [.var x]⟩, .pos ⟨1, [.var x, .var y]⟩], [⟨4, [.var x]⟩]⟩
/-- The program: the first import is a CSV file, the second one as well, with formats. -/
def goodProg (rowsE : List (Nat × Nat × Nat)) (rowsF : List (Nat × Nat)) : List (FStmt Nat) :=
  [.imp ⟨0, true, none, rowsE.map fun r => [r.1, r.2.1, r.2.2], []⟩, .imp ⟨2, true, some [false, false], rowsF.map fun r => [r.1, r.2], []⟩,
    .rule shiftRule, .rule firstRule, .rule joinRule, .out 4]

theorem shift_push : PushRule shiftRule.toSRule atomE headP where
  positive := rfl
  negative := rfl
  head := rfl
  valid := by
    have hx : SSafe shiftRule.toSRule x := .atom (a := atomE) (by simp [LRule.toSRule, LRule.positive, shiftRule]) (by simp [atomE])
    have hy : SSafe shiftRule.toSRule y := .atom (a := atomE) (by simp [LRule.toSRule, LRule.positive, shiftRule]) (by simp [atomE])
    refine ⟨?_, ?_, ?_, ?_, ?_, ?_, ?_, ?_, ?_⟩
    · intro v hv
      have : v = x ∨ v = y := by
        simp [SRule.vars, LRule.toSRule, LRule.positive, LRule.negative, LRule.operations, shiftRule, atomE, headP, HTerm.varsList,
          HTerm.vars, Operation.vars] at hv
        tauto
      rcases this with rfl | rfl
      · exact user_x
      · exact user_y
    · simp [LRule.toSRule, LRule.positive, LRule.negative, shiftRule, atomE]
    · intro o ho
      have : o = .equal (.var y) (.const 5) := by simpa [LRule.toSRule, LRule.operations, shiftRule] using ho
      subst this
      left
      intro v hv
      simp [Operation.vars] at hv
      subst hv
      exact hy
    · intro h hh v hv _
      have : h = headP := by simpa [LRule.toSRule, shiftRule] using hh
      subst this
      have : v = x ∨ v = y := by
        simp [headP, HTerm.varsList, HTerm.vars] at hv
        tauto
      rcases this with rfl | rfl
      · exact hx
      · exact hy
    · intro h hh t ht _ v hv
      have : h = headP := by simpa [LRule.toSRule, shiftRule] using hh
      subst this
      have : v = x ∨ v = y := by
        simp [headP] at ht
        rcases ht with rfl | rfl <;> simp [HTerm.varsList, HTerm.vars] at hv <;> simp [hv]
      rcases this with rfl | rfl <;> rfl
    · intro i j h h' hi hj _ _
      have hi' := (List.getElem?_eq_some_iff.1 hi).1
      have hj' := (List.getElem?_eq_some_iff.1 hj).1
      simp [LRule.toSRule, shiftRule] at hi' hj'
      omega
    · simp [LRule.toSRule, shiftRule, headP, HTerm.aggCountList, HTerm.aggCount]
    · simp [LRule.toSRule, shiftRule, headP, HTerm.aggCountList, HTerm.aggCount]
    · simp [LRule.toSRule, LRule.negative, shiftRule]
  simple := by simp [atomE]
  headNonempty := by simp [headP]
  noAgg := by simp [headP, HTerm.aggCount, HTerm.aggCountList]
  universal := by simp [headP, HTerm.varsList, HTerm.vars, Variable.named, Variable.isExistential]
  ops := by
    intro o ho
    have : o = .equal (.var y) (.const 5) := by simpa [LRule.toSRule, LRule.operations, shiftRule] using ho
    subst this
    left
    intro v hv
    simp [Operation.vars] at hv
    subst hv
    simp [atomE]
  used := by
    intro v hv
    left
    cases hv with
    | @atom a v ha hv =>
      have : a = atomE := by simpa [LRule.toSRule, LRule.positive, shiftRule] using ha
      subst this; exact hv
    | @assign o e v ho hs _ =>
      have : o = .equal (.var y) (.const 5) := by simpa [LRule.toSRule, LRule.operations, shiftRule] using ho
      subst this
      cases hs
      simp [atomE]

theorem first_push : PushRule firstRule.toSRule atomF headQ where
  positive := rfl
  negative := rfl
  head := rfl
  valid := by
    have hx : SSafe firstRule.toSRule x := .atom (a := atomF) (by simp [LRule.toSRule, LRule.positive, firstRule]) (by simp [atomF])
    refine ⟨?_, ?_, ?_, ?_, ?_, ?_, ?_, ?_, ?_⟩
    · intro v hv
      have : v = x ∨ v = y := by
        simp [SRule.vars, LRule.toSRule, LRule.positive, LRule.negative, LRule.operations, firstRule, atomF, headQ, HTerm.varsList,
          HTerm.vars, Operation.vars] at hv
        tauto
      rcases this with rfl | rfl
      · exact user_x
      · exact user_y
    · simp [LRule.toSRule, LRule.positive, LRule.negative, firstRule, atomF]
    · simp [LRule.toSRule, LRule.operations, firstRule]
    · intro h hh v hv _
      have : h = headQ := by simpa [LRule.toSRule, firstRule] using hh
      subst this
      have : v = x := by simpa [headQ, HTerm.varsList, HTerm.vars] using hv
      subst this
      exact hx
    · intro h hh t ht hn
      have : h = headQ := by simpa [LRule.toSRule, firstRule] using hh
      subst this
      simp only [headQ, List.mem_singleton] at ht
      exact absurd ht (hn _)
    · intro i j h h' hi hj _ _
      have hi' := (List.getElem?_eq_some_iff.1 hi).1
      have hj' := (List.getElem?_eq_some_iff.1 hj).1
      simp [LRule.toSRule, firstRule] at hi' hj'
      omega
    · simp [LRule.toSRule, firstRule, headQ, HTerm.aggCountList, HTerm.aggCount]
    · simp [LRule.toSRule, firstRule, headQ, HTerm.aggCountList, HTerm.aggCount]
    · simp [LRule.toSRule, LRule.negative, firstRule]
  simple := by simp [atomF]
  headNonempty := by simp [headQ]
  noAgg := by simp [headQ, HTerm.aggCount, HTerm.aggCountList]
  universal := by simp [headQ, HTerm.varsList, HTerm.vars, Variable.named, Variable.isExistential]
  ops := by simp [LRule.toSRule, LRule.operations, firstRule]
  used := by
    intro v hv
    left
    cases hv with
    | @atom a v ha hv =>
      have : a = atomF := by simpa [LRule.toSRule, LRule.positive, firstRule] using ha
      subst this; exact hv
    | @assign o e v ho hs _ => simp [LRule.toSRule, LRule.operations, firstRule] at ho

/-- **The conditions of the theorem hold for this program**, for all contents of the files. -/
theorem good_ok (rowsE : List (Nat × Nat × Nat)) (rowsF : List (Nat × Nat)) : FilterOK (goodProg rowsE rowsF) where
  imports := by
    intro i hi
    simp [goodProg] at hi
    rcases hi with rfl | rfl <;> rfl
  rule := by
    intro q hq
    have : q = 0 ∨ q = 2 := by
      unfold isInternal at hq
      simp only [Bool.and_eq_true] at hq
      have := hq.1.2
      simp [goodProg] at this
      exact this.imp Eq.symm Eq.symm
    rcases this with rfl | rfl
    · refine ⟨shiftRule, atomE, headP, rfl, shift_push, ?_, ?_⟩
      · simp [SAtom.Distinct, atomE, x_ne_y]
      · intro i hi hp
        simp [goodProg] at hi
        rcases hi with rfl | rfl
        · refine ⟨?_, .inl rfl, fun _ => ⟨?_, fun _ h => ?_⟩⟩
          · intro row hrow
            obtain ⟨_, -, rfl⟩ := List.mem_map.1 hrow
            rfl
          · intro o ho v hv _
            have : o = .equal (.var y) (.const 5) := by simpa [LRule.operations, shiftRule] using ho
            subst this
            simp [Operation.vars] at hv
            subst hv
            left
            simp [headP, HTerm.varsList, HTerm.vars]
          · cases h
        · simp at hp
    · refine ⟨firstRule, atomF, headQ, rfl, first_push, ?_, ?_⟩
      · simp [SAtom.Distinct, atomF, x_ne_y]
      · intro i hi hp
        simp [goodProg] at hi
        rcases hi with rfl | rfl
        · simp at hp
        · refine ⟨?_, .inr rfl, fun _ => ⟨?_, fun _ _ => ⟨rfl, ?_⟩⟩⟩
          · intro row hrow
            obtain ⟨_, -, rfl⟩ := List.mem_map.1 hrow
            rfl
          · intro o ho
            simp [LRule.operations, firstRule] at ho
          · simp [headQ, HTerm.varsList, HTerm.vars]
  underived := by
    intro q hq r hr h hh he
    have hq' : q = 0 ∨ q = 2 := by
      unfold isInternal at hq
      simp only [Bool.and_eq_true] at hq
      have := hq.1.2
      simp [goodProg] at this
      exact this.imp Eq.symm Eq.symm
    simp [goodProg] at hr
    rcases hr with rfl | rfl | rfl
    · have : h = headP := by simpa [shiftRule] using hh
      subst this; rcases hq' with rfl | rfl <;> simp [headP] at he
    · have : h = headQ := by simpa [firstRule] using hh
      subst this; rcases hq' with rfl | rfl <;> simp [headQ] at he
    · simp [joinRule] at hh
      subst hh; rcases hq' with rfl | rfl <;> simp at he

/-- Both predicates are internalized. -/
theorem good_internal : isInternal (goodProg [(1, 2, 5)] [(5, 7)]) 0 = true ∧ isInternal (goodProg [(1, 2, 5)] [(5, 7)]) 2 = true :=
  ⟨rfl, rfl⟩

end FilterExample
end Verif
