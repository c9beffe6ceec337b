import Verif.NormalizeTerm

/-!
# Examples for C43

A program with constants, repeated and anonymous variables, negation and an aggregate, and what happens to accepted rules that do
not satisfy the conditions `SExtra` that the validation does not check.
-/

set_option linter.unusedSimpArgs false
set_option linter.unusedVariables false

namespace Verif.SourceExample

theorem not_reserved {s : String} (h : s.toList.head? ≠ some '_') : ¬ (Variable.named s).Reserved := by
  intro hr
  obtain ⟨t, ht⟩ := hr.underscore
  have := congrArg String.toList (named_inj ht)
  rw [this] at h
  simp [String.toList_append] at h

/-- variables -/
abbrev x : Variable := .named "x"
abbrev y : Variable := .named "y"
abbrev z : Variable := .named "z"

theorem user_x : ¬ x.Reserved := not_reserved (by decide)
theorem user_y : ¬ y.Reserved := not_reserved (by decide)
theorem user_z : ¬ z.Reserved := not_reserved (by decide)
theorem x_ne_y : x ≠ y := fun h => by simpa using named_inj h
theorem y_ne_x : y ≠ x := fun h => by simpa using named_inj h

/-- `loop(?x) :- edge(?x, 5, ?x), ~bad(?x, 7, _)` (edge = 0, bad = 1, loop = 2, cnt = 3) -/
def loopRule : SRule Nat :=
  ⟨[⟨0, [.var x, .const 5, .var x]⟩], [⟨1, [.var x, .const 7, .anon]⟩], [], [⟨2, [.var x]⟩]⟩
/-- `cnt(?x, #count(?y)) :- edge(?x, _, ?y), ~loop(?x)` -/
def cntRule : SRule Nat :=
  ⟨[⟨0, [.var x, .anon, .var y]⟩], [⟨2, [.var x]⟩], [], [⟨3, [.var x, .agg 0 (.var y) []]⟩]⟩
/-- the program -/
def prog : List (SRule Nat) := [loopRule, cntRule]
/-- the arities -/
def arity : Tag → Nat := fun p => if p = 2 then 1 else if p = 3 then 2 else 3

theorem loop_safe : SSafe loopRule x := .atom (a := ⟨0, [.var x, .const 5, .var x]⟩) (by simp [loopRule]) (by simp)
theorem cnt_safe : SSafe cntRule x ∧ SSafe cntRule y :=
  ⟨.atom (a := ⟨0, [.var x, .anon, .var y]⟩) (by simp [cntRule]) (by simp),
    .atom (a := ⟨0, [.var x, .anon, .var y]⟩) (by simp [cntRule]) (by simp)⟩

theorem loop_validate : loopRule.validate = true := by decide +kernel
theorem cnt_validate : cntRule.validate = true := by decide +kernel

theorem prog_valid : ∀ S ∈ prog, SValid S := by
  intro S hS
  simp only [prog, List.mem_cons, List.not_mem_nil, or_false] at hS
  rcases hS with rfl | rfl
  · refine validate_valid_partial loop_validate ?_ ⟨?_, ?_, ?_⟩
    · intro v hv
      have : v = x := by simpa [SRule.vars, loopRule, HTerm.varsList, HTerm.vars] using hv
      rw [this]; exact user_x
    · simp [loopRule]
    · intro i j h h' hi hj _ _
      have hi' := (List.getElem?_eq_some_iff.1 hi).1
      have hj' := (List.getElem?_eq_some_iff.1 hj).1
      simp [loopRule] at hi' hj'
      omega
    · simp [loopRule]
  · refine validate_valid_partial cnt_validate ?_ ⟨?_, ?_, ?_⟩
    · intro v hv
      have : v = x ∨ v = y := by
        simp [SRule.vars, cntRule, HTerm.varsList, HTerm.vars, Operation.vars] at hv
        tauto
      rcases this with rfl | rfl
      · exact user_x
      · exact user_y
    · simp [cntRule]
    · intro i j h h' hi hj _ _
      have hi' := (List.getElem?_eq_some_iff.1 hi).1
      have hj' := (List.getElem?_eq_some_iff.1 hj).1
      simp [cntRule] at hi' hj'
      omega
    · simp [cntRule, HTerm.vars, Operation.vars, Variable.named, Variable.isExistential]

theorem prog_ok : ∀ S ∈ prog, SRuleOK S arity := by
  intro S hS
  simp only [prog, List.mem_cons, List.not_mem_nil, or_false] at hS
  rcases hS with rfl | rfl
  · refine ⟨by simp [loopRule, arity], by simp [loopRule, arity], ?_, ?_, by simp [loopRule]⟩
    · simp [loopRule, HTerm.varsList, HTerm.vars, Variable.named, Variable.isExistential]
    · intro a ha
      simp only [loopRule, List.mem_cons, List.not_mem_nil, or_false] at ha
      subst ha
      exact .inl ⟨x, by simp, loop_safe⟩
  · refine ⟨by simp [cntRule, arity], by simp [cntRule, arity], ?_, ?_, by simp [cntRule]⟩
    · simp [cntRule, HTerm.varsList, HTerm.vars, Operation.vars, Variable.named, Variable.isExistential]
    · intro a ha
      simp only [cntRule, List.mem_cons, List.not_mem_nil, or_false] at ha
      subst ha
      exact .inl ⟨x, by simp, cnt_safe.1⟩

theorem prog_functionFree : ∀ S ∈ prog, SFunctionFree S := by
  intro S hS
  simp only [prog, List.mem_cons, List.not_mem_nil, or_false] at hS
  rcases hS with rfl | rfl
  · refine ⟨by simp [loopRule], by simp [loopRule], by simp [loopRule, HTerm.isOper], by simp [loopRule, HTerm.agg?]⟩
  · refine ⟨by simp [cntRule], by simp [cntRule], by simp [cntRule, HTerm.isOper], ?_⟩
    intro h hh t ht k i d ha
    simp only [cntRule, List.mem_cons, List.not_mem_nil, or_false] at hh
    subst hh
    simp only [List.mem_cons, List.not_mem_nil, or_false] at ht
    rcases ht with rfl | rfl
    · simp [HTerm.agg?] at ha
    · simp only [HTerm.agg?, Option.some.injEq, Prod.mk.injEq] at ha
      obtain ⟨-, rfl, -⟩ := ha
      trivial

theorem prog_stratifiable : SIsStratifiable prog := by
  refine ⟨fun p => p, ?_⟩
  intro S hS
  simp only [prog, List.mem_cons, List.not_mem_nil, or_false] at hS
  rcases hS with rfl | rfl <;> simp [loopRule, cntRule]

/-- the input -/
def input (edges bad : List (Nat × Nat × Nat)) : List (Tag × List (List Nat)) :=
  [(0, edges.map fun e => [e.1, e.2.1, e.2.2]), (1, bad.map fun e => [e.1, e.2.1, e.2.2])]

theorem input_ok (edges bad : List (Nat × Nat × Nat)) : EdbOK (input edges bad) arity := by
  refine ⟨by simp [input], ?_⟩
  intro x hx row hrow
  simp only [input, List.mem_cons, List.not_mem_nil, or_false] at hx
  rcases hx with rfl | rfl <;> obtain ⟨e, -, rfl⟩ := List.mem_map.1 hrow <;> rfl

/-- the parameters of the rules, which are only used for existential rules -/
def cfgs : List RuleCfg := List.replicate 2 ⟨9, [], false⟩

theorem loop_noAgg : ¬ loopRule.HasAgg := by simp [SRule.HasAgg, loopRule, HTerm.aggCount]
theorem cnt_agg : cntRule.HasAgg := ⟨⟨3, [.var x, .agg 0 (.var y) []]⟩, by simp [cntRule], .agg 0 (.var y) [], by simp, by simp [HTerm.aggCount]⟩

/-- when the first rule is applicable -/
theorem loop_body (P N : Interp Nat) (σ : Variable → Nat) : SBody loopRule P N σ ↔
    P 0 [σ x, 5, σ x] ∧ ∀ c, ¬ N 1 [σ x, 7, c] := by
  constructor
  · intro h
    constructor
    · obtain ⟨row, h1, h2⟩ := h.pos ⟨0, [.var x, .const 5, .var x]⟩ (by simp [loopRule])
      simp only [SAtom.Matches, List.forall₂_cons_left_iff, List.forall₂_nil_left_iff, BTerm.Matches] at h2
      obtain ⟨_, _, rfl, ⟨_, _, rfl, ⟨_, _, rfl, rfl, rfl⟩, rfl⟩, rfl⟩ := h2
      exact h1
    · intro c hc
      exact h.neg ⟨1, [.var x, .const 7, .anon]⟩ (by simp [loopRule]) ⟨σ, [σ x, 7, c], fun _ _ => rfl, hc,
        by simp [SAtom.Matches, BTerm.Matches], by simp [loopRule]⟩
  · rintro ⟨h1, h2⟩
    refine ⟨?_, by simp [loopRule], ?_, ⟨by simp [loopRule], by simp [loopRule, HTerm.value], by simp [loopRule, HTerm.agg?]⟩⟩
    · intro a ha
      simp only [loopRule, List.mem_cons, List.not_mem_nil, or_false] at ha
      subst ha
      exact ⟨_, h1, by simp [SAtom.Matches, BTerm.Matches]⟩
    · intro a ha
      simp only [loopRule, List.mem_cons, List.not_mem_nil, or_false] at ha
      subst ha
      rintro ⟨τ, row, g1, g2, g3, -⟩
      simp only [SAtom.Matches, List.forall₂_cons_left_iff, List.forall₂_nil_left_iff, BTerm.Matches] at g3
      obtain ⟨_, _, rfl, ⟨_, _, rfl, ⟨c, _, -, rfl, rfl⟩, rfl⟩, rfl⟩ := g3
      rw [g1 x loop_safe] at g2
      exact h2 _ g2

/-- when the second rule is applicable -/
theorem cnt_body (P N : Interp Nat) (σ : Variable → Nat) : SBody cntRule P N σ ↔
    (∃ c, P 0 [σ x, c, σ y]) ∧ ¬ N 2 [σ x] := by
  constructor
  · intro h
    constructor
    · obtain ⟨row, h1, h2⟩ := h.pos ⟨0, [.var x, .anon, .var y]⟩ (by simp [cntRule])
      simp only [SAtom.Matches, List.forall₂_cons_left_iff, List.forall₂_nil_left_iff, BTerm.Matches] at h2
      obtain ⟨_, _, rfl, ⟨c, _, _, ⟨_, _, rfl, rfl, rfl⟩, rfl⟩, rfl⟩ := h2
      exact ⟨c, h1⟩
    · intro hc
      exact h.neg ⟨2, [.var x]⟩ (by simp [cntRule]) ⟨σ, [σ x], fun _ _ => rfl, hc,
        by simp [SAtom.Matches, BTerm.Matches], by simp [cntRule]⟩
  · rintro ⟨⟨c, h1⟩, h2⟩
    refine ⟨?_, by simp [cntRule], ?_, ⟨by simp [cntRule], by simp [cntRule, HTerm.value], ?_⟩⟩
    · intro a ha
      simp only [cntRule, List.mem_cons, List.not_mem_nil, or_false] at ha
      subst ha
      exact ⟨_, h1, by simp [SAtom.Matches, BTerm.Matches]⟩
    · intro a ha
      simp only [cntRule, List.mem_cons, List.not_mem_nil, or_false] at ha
      subst ha
      rintro ⟨τ, row, g1, g2, g3, -⟩
      simp only [SAtom.Matches, List.forall₂_cons_left_iff, List.forall₂_nil_left_iff, BTerm.Matches] at g3
      obtain ⟨_, _, rfl, rfl, rfl⟩ := g3
      rw [g1 x cnt_safe.1] at g2
      exact h2 g2
    · simp only [cntRule, List.mem_cons, List.not_mem_nil, or_false, forall_eq_or_imp, forall_eq, HTerm.agg?, Option.some.injEq,
        Prod.mk.injEq, reduceCtorEq, false_imp_iff, implies_true, true_and]
      rintro k i d ⟨-, rfl, -⟩
      simp [Operation.eval]

/-- the facts that the first rule derives -/
theorem loop_derives (P N : Interp Nat) (p : Tag) (row : List Nat) : SDerives loopRule P N p row ↔
    p = 2 ∧ ∃ a, row = [a] ∧ P 0 [a, 5, a] ∧ ∀ c, ¬ N 1 [a, 7, c] := by
  simp only [SDerives, loop_noAgg, not_false_eq_true, true_and, false_and, or_false]
  constructor
  · intro h
    cases h with
    | plain hb hh ht hr =>
      simp only [loopRule, List.mem_cons, List.not_mem_nil, or_false] at hh
      subst hh
      have := hr 0
      simp only [List.forall₂_cons_left_iff, List.forall₂_nil_left_iff, HTerm.value, Option.some.injEq] at this
      obtain ⟨_, _, rfl, rfl, rfl⟩ := this
      exact ⟨rfl, _, rfl, (loop_body P N _).1 hb⟩
    | agg hb hh ht ha =>
      exact absurd ⟨_, hh, _, ht, by rw [ne_eq, ← HTerm.agg?_none, ha]; simp⟩ loop_noAgg
  · rintro ⟨rfl, a, rfl, h1, h2⟩
    exact .plain (σ := fun _ => a) (h := ⟨2, [.var x]⟩) ((loop_body P N _).2 ⟨h1, h2⟩) (by simp [loopRule])
      (by simp [HTerm.aggCount]) (by simp [HTerm.value])

/-- the facts that the second rule derives -/
theorem cnt_derives (P N : Interp Nat) (p : Tag) (row : List Nat) : SDerives cntRule P N p row ↔
    p = 3 ∧ ∃ a, ∃ l : List Nat, (∀ b, b ∈ l ↔ ∃ c, N 0 [a, c, b]) ∧ l ≠ [] ∧ ¬ N 2 [a] ∧ row = [a, l.dedup.length] := by
  simp only [SDerives, cnt_agg, not_true_eq_false, false_and, true_and, false_or]
  constructor
  · intro h
    cases h with
    | plain hb hh ht hr =>
      simp only [cntRule, List.mem_cons, List.not_mem_nil, or_false] at hh
      subst hh
      have := ht (.agg 0 (.var y) []) (by simp)
      simp [HTerm.aggCount] at this
    | @agg τ h t k i d l n row hb hh ht ha hl hn hr =>
      simp only [cntRule, List.mem_cons, List.not_mem_nil, or_false] at hh
      subst hh
      simp only [List.mem_cons, List.not_mem_nil, or_false] at ht
      rcases ht with rfl | rfl
      · simp [HTerm.agg?] at ha
      simp only [HTerm.agg?, Option.some.injEq, Prod.mk.injEq] at ha
      obtain ⟨rfl, rfl, rfl⟩ := ha
      have hn' : n = l.dedup.length := (Option.some.inj hn).symm
      have hl' : ∀ w, w ∈ l ↔ ∃ b c, N 0 [τ x, c, b] ∧ ¬ N 2 [τ x] ∧ w = [b] := by
        intro w
        rw [hl]
        constructor
        · rintro ⟨τ', b, h1, h2, h3, rfl⟩
          have := ((h2 (.var x) (by simp)).1 rfl 0)
          simp only [HTerm.value, Option.some.injEq] at this
          obtain ⟨⟨c, g1⟩, g2⟩ := (cnt_body N N τ').1 h1
          simp only [Operation.eval, Option.some.injEq] at h3
          rw [this, h3] at g1
          rw [this] at g2
          exact ⟨b, c, g1, g2, by simp⟩
        · rintro ⟨b, c, h1, h2, rfl⟩
          refine ⟨fun v => if v = y then b else τ v, b, (cnt_body N N _).2 ?_, ?_, by simp [Operation.eval], by simp⟩
          · simp only [x_ne_y, if_false, if_true]
            exact ⟨⟨c, h1⟩, h2⟩
          · intro t ht
            simp only [List.mem_cons, List.not_mem_nil, or_false] at ht
            rcases ht with rfl | rfl
            · simp [HTerm.value, x_ne_y, HTerm.aggCount]
            · simp [HTerm.aggCount, HTerm.outerVars]
      simp only [List.forall₂_cons_left_iff, List.forall₂_nil_left_iff, HTerm.value, Option.some.injEq] at hr
      obtain ⟨_, _, rfl, ⟨_, _, rfl, rfl, rfl⟩, rfl⟩ := hr
      obtain ⟨⟨c0, g1⟩, g2⟩ := (cnt_body N N τ).1 hb
      have hmap : l = (l.map (·.headD 0)).map fun b => [b] := by
        rw [List.map_map]
        conv_lhs => rw [← List.map_id l]
        refine List.map_congr_left fun w hw => ?_
        obtain ⟨b, c, -, -, rfl⟩ := (hl' w).1 hw
        rfl
      refine ⟨rfl, τ x, l.map (·.headD 0), ?_, ?_, g2, ?_⟩
      · intro b
        rw [List.mem_map]
        constructor
        · rintro ⟨w, hw, rfl⟩
          obtain ⟨b, c, h1, -, rfl⟩ := (hl' w).1 hw
          exact ⟨c, h1⟩
        · rintro ⟨c, hc⟩
          exact ⟨[b], (hl' _).2 ⟨b, c, hc, g2, rfl⟩, rfl⟩
      · intro hc
        have : [τ y] ∈ l := (hl' _).2 ⟨τ y, c0, g1, g2, rfl⟩
        rw [List.map_eq_nil_iff] at hc
        rw [hc] at this; cases this
      · rw [hn']
        conv_lhs => rw [hmap]
        rw [List.dedup_map_of_injective (fun a b h => by simpa using h), List.length_map]
  · rintro ⟨rfl, a, l, h1, h2, h3, rfl⟩
    obtain ⟨b0, hb0⟩ := List.exists_mem_of_ne_nil _ h2
    obtain ⟨c0, hc0⟩ := (h1 b0).1 hb0
    refine .agg (τ := fun v => if v = y then b0 else a) (h := ⟨3, [.var x, .agg 0 (.var y) []]⟩) (t := .agg 0 (.var y) [])
      (k := 0) (i := .var y) (d := []) (l := l.map fun b => [b]) (x := l.dedup.length) ((cnt_body N N _).2 ?_) (by simp [cntRule])
      (by simp) rfl ?_ ?_ ?_
    · simp only [x_ne_y, if_false, if_true]; exact ⟨⟨c0, hc0⟩, h3⟩
    · intro w
      rw [List.mem_map]
      constructor
      · rintro ⟨b, hb, rfl⟩
        obtain ⟨c, hc⟩ := (h1 b).1 hb
        refine ⟨fun v => if v = y then b else a, b, (cnt_body N N _).2 ?_, ?_, by simp [Operation.eval], by simp⟩
        · simp only [x_ne_y, if_false, if_true]; exact ⟨⟨c, hc⟩, h3⟩
        · intro t ht
          simp only [List.mem_cons, List.not_mem_nil, or_false] at ht
          rcases ht with rfl | rfl
          · simp [HTerm.value, x_ne_y, HTerm.aggCount]
          · simp [HTerm.aggCount, HTerm.outerVars]
      · rintro ⟨τ', b, g1, g2, g3, rfl⟩
        have := ((g2 (.var x) (by simp)).1 rfl 0)
        simp only [HTerm.value, Option.some.injEq, x_ne_y, if_false] at this
        obtain ⟨⟨c, g4⟩, -⟩ := (cnt_body N N τ').1 g1
        simp only [Operation.eval, Option.some.injEq] at g3
        rw [this, g3] at g4
        exact ⟨b, (h1 b).2 ⟨c, g4⟩, by simp⟩
    · show some (l.map fun b => [b]).dedup.length = some l.dedup.length
      rw [List.dedup_map_of_injective (fun a b h => by simpa using h), List.length_map]
    · simp [HTerm.value, x_ne_y]

/-- **The program computes what it says**, for every input: the nodes with a loop labelled 5 that are not excluded, and the number of
neighbours of the other nodes. -/
theorem prog_result (edges bad : List (Nat × Nat × Nat)) : ∃ cond rules fuel st, CondOK cond ∧
    normalizeProgram [0, 1] prog = some rules ∧
    Eng.execute cond rules cfgs [2, 3] fuel (Eng.init (input edges bad)) = some (some st) ∧
    (∀ a, [a] ∈ st.predicateRows 2 ↔ (a, 5, a) ∈ edges ∧ ∀ c, (a, 7, c) ∉ bad) ∧
    (∀ a n, [a, n] ∈ st.predicateRows 3 ↔ ¬ ((a, 5, a) ∈ edges ∧ ∀ c, (a, 7, c) ∉ bad) ∧
      n = ((edges.filter fun e => e.1 = a).map fun e => e.2.2).dedup.length ∧ 0 < n) := by
  obtain ⟨cond, hcond⟩ := exists_condOK
  obtain ⟨rules, hr, -⟩ := normalizeProgram_spec [0, 1] prog
  obtain ⟨fuel, st, h⟩ := execute_source_terminates hcond hr prog_valid prog_ok (cfgs := cfgs) rfl (input_ok edges bad)
    prog_stratifiable prog_functionFree [2, 3]
  have hst := execute_source_stable_partial hcond hr prog_valid prog_ok rfl (input_ok edges bad) h
  obtain ⟨hc1, hc2⟩ := execute_source_closed hcond hr prog_valid prog_ok rfl (input_ok edges bad) h
  have hedb : ∀ p row, edbFacts (input edges bad) p row ↔ (p = 0 ∧ ∃ e ∈ edges, row = [e.1, e.2.1, e.2.2]) ∨
      (p = 1 ∧ ∃ e ∈ bad, row = [e.1, e.2.1, e.2.2]) := by
    intro p row
    constructor
    · rintro ⟨rows, h1, h2⟩
      simp only [input, List.mem_cons, List.not_mem_nil, or_false, Prod.mk.injEq] at h1
      rcases h1 with ⟨rfl, rfl⟩ | ⟨rfl, rfl⟩ <;> obtain ⟨e, he, rfl⟩ := List.mem_map.1 h2
      · exact .inl ⟨rfl, e, he, rfl⟩
      · exact .inr ⟨rfl, e, he, rfl⟩
    · rintro (⟨rfl, e, he, rfl⟩ | ⟨rfl, e, he, rfl⟩)
      · exact ⟨edges.map fun e => [e.1, e.2.1, e.2.2], by simp [input], List.mem_map.2 ⟨e, he, rfl⟩⟩
      · exact ⟨bad.map fun e => [e.1, e.2.1, e.2.2], by simp [input], List.mem_map.2 ⟨e, he, rfl⟩⟩
  have hsound : ∀ p row, st.answers p row → edbFacts (input edges bad) p row ∨
      ∃ S ∈ prog, SDerives S st.answers st.answers p row := by
    intro p row hp
    rw [hst] at hp
    refine hp (fun p row => st.answers p row ∧ (edbFacts (input edges bad) p row ∨
      ∃ S ∈ prog, SDerives S st.answers st.answers p row)) ⟨fun p row he => ⟨hc1 p row he, .inl he⟩, ?_⟩ |>.2
    intro S hS p row hd
    have : SDerives S st.answers st.answers p row := by
      have hS' := hS
      simp only [prog, List.mem_cons, List.not_mem_nil, or_false] at hS
      rcases hS with rfl | rfl
      · rw [loop_derives] at hd ⊢
        obtain ⟨h1, a, h2, h3, h4⟩ := hd
        exact ⟨h1, a, h2, h3.1, h4⟩
      · rw [cnt_derives] at hd ⊢
        exact hd
    exact ⟨hc2 S hS p row this, .inr ⟨S, hS, this⟩⟩
  have edge : ∀ a b c, st.answers 0 [a, b, c] ↔ (a, b, c) ∈ edges := by
    intro a b c
    constructor
    · intro h
      rcases hsound 0 _ h with h | ⟨S, hS, h⟩
      · rcases (hedb _ _).1 h with ⟨-, e, he, h⟩ | ⟨h, -⟩
        · simp only [List.cons.injEq, and_true] at h
          obtain ⟨rfl, rfl, rfl⟩ := h; exact he
        · cases h
      · simp only [prog, List.mem_cons, List.not_mem_nil, or_false] at hS
        rcases hS with rfl | rfl
        · rw [loop_derives] at h; cases h.1
        · rw [cnt_derives] at h; cases h.1
    · exact fun h => hc1 _ _ ((hedb _ _).2 (.inl ⟨rfl, _, h, rfl⟩))
  have hbad : ∀ a b c, st.answers 1 [a, b, c] ↔ (a, b, c) ∈ bad := by
    intro a b c
    constructor
    · intro h
      rcases hsound 1 _ h with h | ⟨S, hS, h⟩
      · rcases (hedb _ _).1 h with ⟨h, -⟩ | ⟨-, e, he, h⟩
        · cases h
        · simp only [List.cons.injEq, and_true] at h
          obtain ⟨rfl, rfl, rfl⟩ := h; exact he
      · simp only [prog, List.mem_cons, List.not_mem_nil, or_false] at hS
        rcases hS with rfl | rfl
        · rw [loop_derives] at h; cases h.1
        · rw [cnt_derives] at h; cases h.1
    · exact fun h => hc1 _ _ ((hedb _ _).2 (.inr ⟨rfl, _, h, rfl⟩))
  have hloop : ∀ a, st.answers 2 [a] ↔ (a, 5, a) ∈ edges ∧ ∀ c, (a, 7, c) ∉ bad := by
    intro a
    simp only [← edge, ← hbad]
    constructor
    · intro h
      rcases hsound 2 _ h with h | ⟨S, hS, h⟩
      · rcases (hedb _ _).1 h with ⟨h, -⟩ | ⟨h, -⟩ <;> cases h
      · simp only [prog, List.mem_cons, List.not_mem_nil, or_false] at hS
        rcases hS with rfl | rfl
        · obtain ⟨-, b, h1, h2⟩ := (loop_derives _ _ _ _).1 h
          cases h1; exact h2
        · rw [cnt_derives] at h; cases h.1
    · exact fun h => hc2 loopRule (by simp [prog]) _ _ ((loop_derives _ _ _ _).2 ⟨rfl, a, rfl, h⟩)
  have hcnt : ∀ a n, st.answers 3 [a, n] ↔ ∃ l : List Nat, (∀ b, b ∈ l ↔ ∃ c, st.answers 0 [a, c, b]) ∧ l ≠ [] ∧
      ¬ st.answers 2 [a] ∧ n = l.dedup.length := by
    intro a n
    constructor
    · intro h
      rcases hsound 3 _ h with h | ⟨S, hS, h⟩
      · rcases (hedb _ _).1 h with ⟨h, -⟩ | ⟨h, -⟩ <;> cases h
      · simp only [prog, List.mem_cons, List.not_mem_nil, or_false] at hS
        rcases hS with rfl | rfl
        · rw [loop_derives] at h; cases h.1
        · obtain ⟨-, a', l, h1, h2, h3, h4⟩ := (cnt_derives _ _ _ _).1 h
          cases h4; exact ⟨l, h1, h2, h3, rfl⟩
    · rintro ⟨l, h1, h2, h3, rfl⟩
      exact hc2 cntRule (by simp [prog]) _ _ ((cnt_derives _ _ _ _).2 ⟨rfl, a, l, h1, h2, h3, rfl⟩)
  refine ⟨cond, rules, fuel, st, hcond, hr, h, hloop, fun a n => ?_⟩
  have hmem : ∀ b, b ∈ (edges.filter fun e => e.1 = a).map (fun e => e.2.2) ↔ ∃ c, st.answers 0 [a, c, b] := by
    intro b
    simp only [edge, List.mem_map, List.mem_filter, decide_eq_true_eq]
    constructor
    · rintro ⟨⟨u, c, v⟩, ⟨h1, rfl⟩, rfl⟩; exact ⟨c, h1⟩
    · rintro ⟨c, h1⟩; exact ⟨_, ⟨h1, rfl⟩, rfl⟩
  refine (hcnt a n).trans ?_
  rw [hloop]
  constructor
  · rintro ⟨l, h1, h2, h3, rfl⟩
    refine ⟨h3, ?_, ?_⟩
    · exact ((List.perm_ext_iff_of_nodup (List.nodup_dedup _) (List.nodup_dedup _)).2 fun b => by
        rw [List.mem_dedup, List.mem_dedup, h1, hmem]).length_eq
    · exact List.length_pos_iff.2 fun hc => h2 (List.dedup_eq_nil l |>.1 hc)
  · rintro ⟨h1, rfl, h2⟩
    refine ⟨_, hmem, fun hc => ?_, h1, rfl⟩
    rw [hc] at h2; simp at h2

/-! ## Expressions -/

/-- `sum(?x, ?x + ?z) :- edge(?x, ?y + 1, ?y), ~bad(?x, ?z, ?y), ?z = ?x + ?y, ?x + ?y` (in this domain, the value of the condition
has to be 1) -/
def sumRule : SRule Nat :=
  ⟨[⟨0, [.var x, .oper (.op 0 [.var y, .const 1]), .var y]⟩], [⟨1, [.var x, .var z, .var y]⟩],
    [.equal (.var z) (.op 0 [.var x, .var y]), .op 0 [.var x, .var y]], [⟨2, [.var x, .op 0 [.var x, .var z]]⟩]⟩

theorem sum_safe : SSafe sumRule x ∧ SSafe sumRule y ∧ SSafe sumRule z := by
  have h1 : SSafe sumRule x := .atom (a := ⟨0, [.var x, .oper (.op 0 [.var y, .const 1]), .var y]⟩) (by simp [sumRule]) (by simp)
  have h2 : SSafe sumRule y := .atom (a := ⟨0, [.var x, .oper (.op 0 [.var y, .const 1]), .var y]⟩) (by simp [sumRule]) (by simp)
  refine ⟨h1, h2, .assign (o := .equal (.var z) (.op 0 [.var x, .var y])) (by simp [sumRule]) rfl ?_⟩
  intro w hw
  simp only [Operation.vars, Operation.varsList, List.cons_append, List.nil_append, List.append_nil, List.mem_cons,
    List.not_mem_nil, or_false] at hw
  rcases hw with rfl | rfl
  · exact h1
  · exact h2

theorem sum_valid : SValid sumRule := by
  have hvars : ∀ v ∈ sumRule.vars, v = x ∨ v = y ∨ v = z := by
    intro v hv
    simp [SRule.vars, sumRule, HTerm.varsList, HTerm.vars, Operation.vars, Operation.varsList] at hv
    tauto
  refine validate_valid_partial (by decide +kernel) ?_ ⟨?_, ?_, ?_⟩
  · intro v hv
    rcases hvars v hv with rfl | rfl | rfl
    · exact user_x
    · exact user_y
    · exact user_z
  · intro o ho
    left
    intro v hv
    have : v ∈ sumRule.vars := List.mem_append_left _ (List.mem_append_right _ (List.mem_flatMap.2 ⟨o, ho, hv⟩))
    rcases hvars v this with rfl | rfl | rfl
    · exact sum_safe.1
    · exact sum_safe.2.1
    · exact sum_safe.2.2
  · intro i j h h' hi hj _ _
    have hi' := (List.getElem?_eq_some_iff.1 hi).1
    have hj' := (List.getElem?_eq_some_iff.1 hj).1
    simp [sumRule] at hi' hj'
    omega
  · simp [sumRule, HTerm.vars, HTerm.varsList, Variable.named, Variable.isExistential]

/-- The rule is normalized to one that derives `sum(1, 2)` from `edge(1, 1, 0)`: here ?x = 1, ?y = 0, ?z = 1. -/
theorem sum_derives (order : List Variable) :
    Derives (normalizeRule sumRule order) (fun p row => p = 0 ∧ row = [1, 1, 0]) (fun _ _ => False) 2 [1, 2] := by
  rw [derives_norm_partial order sum_valid]
  have hz : z ≠ y := fun h => by simpa using named_inj h
  refine .inl ⟨by simp [SRule.HasAgg, sumRule, HTerm.aggCount, HTerm.aggCountList],
    .plain (σ := fun v => if v = y then 0 else 1) (h := ⟨2, [.var x, .op 0 [.var x, .var z]]⟩) ?_ (by simp [sumRule])
      (by simp [HTerm.aggCount, HTerm.aggCountList]) (by simp [HTerm.value, HTerm.valueList, x_ne_y, hz, Dom.app])⟩
  refine ⟨?_, ?_, ?_, ?_⟩
  · intro a ha
    simp only [sumRule, List.mem_cons, List.not_mem_nil, or_false] at ha
    subst ha
    exact ⟨_, ⟨rfl, rfl⟩, by simp [SAtom.Matches, BTerm.Matches, Operation.eval, Operation.evalList, x_ne_y, Dom.app]⟩
  · intro o ho _
    simp only [sumRule, List.mem_cons, List.not_mem_nil, or_false] at ho
    rcases ho with rfl | rfl <;> simp [Operation.eval, Operation.evalList, x_ne_y, hz, Dom.app, Dom.tru]
  · rintro a - ⟨_, _, _, h, _⟩
    exact h
  · exact ⟨by simp [sumRule], by simp [sumRule, HTerm.value, HTerm.valueList, Dom.app], by simp [sumRule, HTerm.agg?, HTerm.aggList?]⟩

/-! ## What the validation does not notice -/

/-- `p(?x) :- q(?x), ?y + ?y` (q = 0, p = 1): the condition is about a variable that has no value. -/
def unsafeRule : SRule Nat := ⟨[⟨0, [.var x]⟩], [], [.op 0 [.var y, .var y]], [⟨1, [.var x]⟩]⟩

/-- **Finding: a condition with a variable that occurs nowhere else is accepted and ignored.**  The validation only looks at
operations that are nested in other terms (rule.rs:462-465).  In the example, there is no valuation for which the condition is
true, but `p(7)` is derived from `q(7)`. -/
theorem unsafe_condition_ignored : unsafeRule.validate = true ∧ (∀ σ, ∀ o ∈ unsafeRule.operations, o.eval σ ≠ some Dom.tru) ∧
    ∃ rules, normalizeProgram [0] [unsafeRule] = some rules ∧
      ∃ st b, (Eng.init [(0, [[7]])] : Eng Nat).iterate rules [⟨9, [], false⟩] 0 = some (st, b) ∧ [7] ∈ st.predicateRows 1 := by
  refine ⟨by decide +kernel, ?_, ?_⟩
  · intro σ o ho
    simp only [unsafeRule, List.mem_cons, List.not_mem_nil, or_false] at ho
    subst ho
    simp only [Operation.eval, Operation.evalList, Dom.app, Dom.tru, Option.bind_eq_bind, Option.bind_some, Option.pure_def,
      ne_eq, Option.some.injEq]
    omega
  · obtain ⟨rules, hr, -⟩ := normalizeProgram_spec [0] [unsafeRule]
    refine ⟨rules, hr, ?_⟩
    have h : ((normalizeProgram [0] [unsafeRule]).bind fun r =>
        ((Eng.init [(0, [[7]])] : Eng Nat).iterate r [⟨9, [], false⟩] 0)).map (fun s => s.1.predicateRows 1) = some [[7]] := by
      decide +kernel
    rw [hr, Option.bind_some, Option.map_eq_some_iff] at h
    obtain ⟨⟨st, b⟩, h1, h2⟩ := h
    exact ⟨st, b, h1, by dsimp only at h2; rw [h2]; simp⟩

/-- `p(?x, #count(?y)), q(?x, #count(?z)) :- r(?x, ?y, ?z)` (r = 0, p = 1, q = 2) -/
def twoAggregates : SRule Nat := ⟨[⟨0, [.var x, .var y, .var z]⟩], [], [],
  [⟨1, [.var x, .agg 0 (.var y) []]⟩, ⟨2, [.var x, .agg 0 (.var z) []]⟩]⟩

/-- **Finding: aggregates in two head atoms are accepted, but only the last one is computed** (normalization/rule.rs:511-523): both
head atoms of the normalized rule contain the result, which is the number of values of `?z`. -/
theorem two_aggregates_lost (order : List Variable) : twoAggregates.validate = true ∧
    (normalizeRule twoAggregates order).aggregation = some (⟨0, z, aggOut, [], [x]⟩, 1) ∧
    (normalizeRule twoAggregates order).head.map (·.vars) = [[x, aggOut], [x, aggOut]] := by
  refine ⟨by decide +kernel, ?_, ?_⟩ <;>
  simp [normalizeRule, twoAggregates, normHeadAtoms, normHeadAtom, normHeadLoop, groupByVars, normAggInput, HeadAtom.vars,
    Primitive.var?, List.zipIdx, List.Nodup.dedup]

/-- `p(?x, !v + 1) :- q(?x)` -/
def existentialTerm : SRule Nat :=
  ⟨[⟨0, [.var x]⟩], [], [], [⟨1, [.var x, .op 0 [.var (.existential 0), .const 1]]⟩]⟩

/-- **Finding: an existential variable inside an expression in the head is accepted, but no null is created for it**: the normalized rule
is not recognized as existential, and the value of the expression is not computed. -/
theorem existential_term_lost (order : List Variable) : existentialTerm.validate = true ∧
    (normalizeRule existentialTerm order).isExistential = false ∧
    ∃ v, (normalizeRule existentialTerm order).head.map (·.vars) = [[x, v]] ∧ ¬ SafeVar (normalizeRule existentialTerm order).positive
      (normalizeRule existentialTerm order).operations v := by
  have e : normalizeRule existentialTerm order = ⟨[⟨0, [x]⟩], [], [.equal (.var (freshVar "HEAD" 1)) (.op 0 [.var (.existential 0),
      .const 1])], [⟨1, [.var x, .var (freshVar "HEAD" 1)]⟩], none, order⟩ := by
    simp [normalizeRule, existentialTerm, normHeadAtoms, normHeadAtom, normHeadLoop, normBodyAtoms, normBodyTerms, normHeadOper,
      HTerm.norm, HTerm.normList, HTerm.agg?, HTerm.aggList?]
  refine ⟨by decide +kernel, ?_, freshVar "HEAD" 1, ?_, ?_⟩
  · rw [e]; rfl
  · rw [e]; rfl
  · rw [e]
    have key : ∀ v, SafeVar [⟨0, [x]⟩] [Operation.equal (.var (freshVar "HEAD" 1)) (.op 0 [.var (.existential 0),
      (.const 1 : Operation Nat)])] v → v = x := by
      intro v hv
      induction hv with
      | atom ha hv =>
        simp only [List.mem_cons, List.not_mem_nil, or_false] at ha
        subst ha
        simpa using hv
      | assign ho he _ ih =>
        simp only [List.mem_cons, List.not_mem_nil, or_false] at ho
        subst ho
        simp only [Operation.variableAssignment, Option.some.injEq, Prod.mk.injEq] at he
        obtain ⟨-, rfl⟩ := he
        have := ih (.existential 0) (by simp [Operation.vars, Operation.varsList])
        cases this
    intro hs
    exact user_x (key _ hs ▸ head_reserved _)

end Verif.SourceExample
