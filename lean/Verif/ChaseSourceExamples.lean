import Verif.ChaseSource
import Verif.ChaseExamples
import Verif.NormalizeExamples

/-!
# Existential rules as they are written: an example, and facts for helper predicates
-/

set_option linter.unusedSimpArgs false
set_option linter.unusedVariables false
set_option maxRecDepth 100000

namespace Verif.ChaseSourceExample
open SourceExample (x y user_x user_y)

/-- Values -/
abbrev D := Nat ⊕ Nat
/-- `!v` -/
abbrev v : Variable := .existential 2

/-- `parent(?x, !v) :- person(?x)` (person = 0, parent = 1, child = 2) -/
def parentRule : SRule D := ⟨[⟨0, [.var x]⟩], [], [], [⟨1, [.var x, .var v]⟩]⟩
/-- `child(?x, 3) :- parent(?x, ?y)` -/
def childRule : SRule D := ⟨[⟨1, [.var x, .var y]⟩], [], [], [⟨2, [.var x, .const (.inl 3)]⟩]⟩
/-- the program -/
def prog : List (SRule D) := [parentRule, childRule]
/-- the input -/
def input : List (Tag × List (List D)) := [(0, [[.inl 5], [.inl 6]])]
/-- the helper predicates -/
def sat (i : Nat) : Tag := i + 10

theorem prog_ok : SXProgOK prog sat (fun p => if p = 0 then 1 else 2) := by
  have cases2 : ∀ {P : SRule D → Prop}, P parentRule → P childRule → ∀ S ∈ prog, P S := by
    intro P h1 h2 S hS
    simp only [prog, List.mem_cons, List.not_mem_nil, or_false] at hS
    rcases hS with rfl | rfl
    · exact h1
    · exact h2
  have s1 : SSafe parentRule x := .atom (a := ⟨0, [.var x]⟩) (by simp [parentRule]) (by simp)
  have s2 : SSafe childRule x := .atom (a := ⟨1, [.var x, .var y]⟩) (by simp [childRule]) (by simp)
  refine ⟨cases2 ?_ ?_, cases2 ?_ ?_, cases2 ?_ ?_, cases2 ?_ ?_, cases2 ?_ ?_, fun i j h => by simpa [sat] using h, fun i => cases2 ?_ ?_⟩
  · refine ⟨?_, by simp [parentRule], by simp [parentRule], ?_, ?_, ?_, by simp [parentRule, HTerm.aggCountList, HTerm.aggCount],
      by simp [parentRule, HTerm.aggCount], by simp [parentRule]⟩
    · intro w hw
      have : w = x ∨ w = v := by
        simp [SRule.vars, parentRule, HTerm.varsList, HTerm.vars] at hw
        tauto
      rcases this with rfl | rfl
      · exact user_x
      · intro hr
        obtain ⟨s, hs⟩ := hr.underscore
        cases hs
    · simp only [parentRule, List.mem_singleton, HTerm.varsList, HTerm.vars, forall_eq, List.append_nil, List.mem_append]
      rintro w (h | h) hu
      · rw [h]; exact s1
      · rw [h] at hu; cases hu
    · simp [parentRule]
    · intro i j h h' hi hj ⟨t, ht, hc⟩
      have := List.mem_of_getElem? hi
      simp only [parentRule, List.mem_singleton] at this
      subst this
      simp only [List.mem_cons, List.not_mem_nil, or_false] at ht
      rcases ht with rfl | rfl <;> exact absurd rfl hc
  · refine ⟨?_, by simp [childRule], by simp [childRule], ?_, by simp [childRule, HTerm.vars], ?_,
      by simp [childRule, HTerm.aggCountList, HTerm.aggCount], by simp [childRule, HTerm.aggCount], by simp [childRule]⟩
    · intro w hw
      have : w = x ∨ w = y := by
        simp [SRule.vars, childRule, HTerm.varsList, HTerm.vars] at hw
        tauto
      rcases this with rfl | rfl
      · exact user_x
      · exact user_y
    · intro h hh w hw hu
      simp only [childRule, List.mem_singleton] at hh
      subst hh
      have h : w ∈ [x] := hw
      have : w = x := by simpa using h
      rw [this]; exact s2
    · intro i j h h' hi hj ⟨t, ht, hc⟩
      have := List.mem_of_getElem? hi
      simp only [childRule, List.mem_singleton] at this
      subst this
      simp only [List.mem_cons, List.not_mem_nil, or_false] at ht
      rcases ht with rfl | rfl <;> exact absurd rfl hc
  · exact ⟨by simp [parentRule], by simp [parentRule], by simp [parentRule]⟩
  · exact ⟨by simp [childRule], by simp [childRule], by simp [childRule]⟩
  · simp [parentRule]
  · simp [childRule]
  · exact ⟨by simp [parentRule], by simp [parentRule, Dom.null], by simp [parentRule], by simp [parentRule, HTerm.norm, Operation.consts],
      by simp [parentRule, HTerm.agg?]⟩
  · exact ⟨by simp [childRule], by simp [childRule], by simp [childRule], by simp [childRule, HTerm.norm, Operation.consts, Dom.null],
      by simp [childRule, HTerm.agg?]⟩
  · intro _
    refine ⟨?_, ?_⟩
    · intro h hh t ht
      simp only [parentRule, List.mem_singleton] at hh
      subst hh
      simp only [List.mem_cons, List.not_mem_nil, or_false] at ht
      rcases ht with rfl | rfl
      · exact .inr ⟨x, rfl, .inr ⟨⟨0, [.var x]⟩, by simp [parentRule], by simp⟩⟩
      · exact .inr ⟨v, rfl, .inl rfl⟩
    · simp [parentRule, Variable.named, Variable.isExistential]
  · rintro ⟨h, hh, w, hw, he⟩
    simp only [childRule, List.mem_singleton] at hh
    subst hh
    simp only [HTerm.varsList, HTerm.vars, List.append_nil, List.mem_singleton] at hw
    subst hw; cases he
  · simp [parentRule, sat]
  · simp [childRule, sat]

theorem positive : ∀ S ∈ prog, SPositive S := by
  have hv : ∀ w : Variable, HomStable (α := D) fun σ => (HTerm.var w).norm.eval σ := by
    intro w h hh σ a ha
    simp only [HTerm.norm, Operation.eval, Option.some.injEq] at ha ⊢
    subst ha; rfl
  intro S hS
  simp only [prog, List.mem_cons, List.not_mem_nil, or_false] at hS
  rcases hS with rfl | rfl
  · refine ⟨rfl, by simp [SRule.HasAgg, parentRule, HTerm.aggCount], by simp [parentRule], by simp [parentRule], ?_⟩
    intro h hh t ht
    simp only [parentRule, List.mem_singleton] at hh
    subst hh
    simp only [List.mem_cons, List.not_mem_nil, or_false] at ht
    rcases ht with rfl | rfl <;> exact hv _
  · refine ⟨rfl, by simp [SRule.HasAgg, childRule, HTerm.aggCount], by simp [childRule], by simp [childRule], ?_⟩
    intro h hh t ht
    simp only [childRule, List.mem_singleton] at hh
    subst hh
    simp only [List.mem_cons, List.not_mem_nil, or_false] at ht
    rcases ht with rfl | rfl
    · exact hv _
    · intro f hf σ a ha
      simp only [HTerm.norm, Operation.eval, Option.some.injEq] at ha ⊢
      subst ha
      exact (hf _ (fun n hn => by cases hn)).symm

theorem input_ok : SEdbOK input sat (fun p => if p = 0 then 1 else 2) := by
  refine ⟨⟨by decide, by decide +kernel⟩, ?_, by simp [input, sat]⟩
  rintro p row ⟨t, ht, hr⟩ a ha n rfl
  simp only [input, List.mem_singleton, Prod.mk.injEq] at ht
  obtain ⟨-, rfl⟩ := ht
  simp only [List.mem_cons, List.not_mem_nil, or_false] at hr
  rcases hr with rfl | rfl <;> simp [Dom.null] at ha


/-! ## The run -/

theorem two_orders {a b : Variable} (hab : a ≠ b) {l : List Variable} (hn : l.Nodup) (hm : ∀ w, w ∈ l ↔ w = a ∨ w = b) :
    l = [a, b] ∨ l = [b, a] := by
  have hp : l.Perm [a, b] := (List.perm_ext_iff_of_nodup hn (by simp [hab])).2 (by simpa using hm)
  match l, hp.length_eq with
  | [c, d], _ =>
    have hc := (hm c).1 (by simp)
    have hd := (hm d).1 (by simp)
    have hcd : c ≠ d := by simpa using hn
    rcases hc with rfl | rfl <;> rcases hd with rfl | rfl
    · exact absurd rfl hcd
    · exact .inl rfl
    · exact .inr rfl
    · exact absurd rfl hcd

/-- The normalized rules and the parameters are determined up to the order of the variables. -/
theorem prog_norm {rules : List (NRule D)} {cfgs : List RuleCfg} (h : normalizeProgram [0] prog = some rules)
    (hc : ruleCfgs [0] [0] 99 sat rules = some cfgs) :
    ∃ o1 o2 o3, rules = [normalizeRule parentRule o1, normalizeRule childRule o2] ∧
      cfgs = [⟨10, o3, false⟩, ⟨11, [], false⟩] ∧ (o1 = [x, v] ∨ o1 = [v, x]) ∧ (o2 = [x, y] ∨ o2 = [y, x]) ∧
      (o3 = [x, v] ∨ o3 = [v, x]) := by
  obtain ⟨rules', h1, h2, h3⟩ := VarOrder.setOrders_spec [0] (prog.map fun S => normalizeRule S [])
  have h' : VarOrder.setOrders [0] (prog.map fun S => normalizeRule S []) = some rules := h
  rw [h'] at h1; cases h1
  obtain ⟨o1, a1, a2, a3⟩ := h3 0 (normalizeRule parentRule []) rfl
  obtain ⟨o2, b1, b2, b3⟩ := h3 1 (normalizeRule childRule []) rfl
  have hr : rules = [normalizeRule parentRule o1, normalizeRule childRule o2] := by
    match rules, h2 with
    | [r1, r2], _ =>
      simp only [List.getElem?_cons_zero, Option.some.injEq, List.getElem?_cons_succ] at a1 b1
      rw [a1, b1]; rfl
  obtain ⟨cfgs', c1, c2, c3⟩ := ruleCfgs_spec [0] [0] 99 sat rules
  rw [hc] at c1; cases c1
  rw [hr] at c2 c3
  match cfgs, c2 with
  | [g1, g2], _ =>
    obtain ⟨d1, d2, d3, -⟩ := c3 0 _ g1 rfl rfl
    obtain ⟨e1, e2, -, e4⟩ := c3 1 _ g2 rfl rfl
    have hx : (normalizeRule parentRule o1).isExistential = true := by
      have : (normalizeRule parentRule o1).isExistential = (normalizeRule parentRule []).isExistential := rfl
      rw [this]; decide +kernel
    have hx' : (normalizeRule childRule o2).isExistential = false := by
      have : (normalizeRule childRule o2).isExistential = (normalizeRule childRule []).isExistential := rfl
      rw [this]; decide +kernel
    have xv : x ≠ v := fun h => by cases h
    have xy : x ≠ y := SourceExample.x_ne_y
    have v1 : (normalizeRule parentRule []).vars = [x, v, x] := by decide +kernel
    have v2 : (normalizeRule childRule []).vars = [x, x, y] := by decide +kernel
    have v3 : (normalizeRule parentRule o1).head.flatMap (·.vars) = [x, v] := by
      have : (normalizeRule parentRule o1).head = (normalizeRule parentRule []).head := rfl
      rw [this]; decide +kernel
    refine ⟨o1, o2, g1.exOrder, hr, ?_, two_orders xv a2 fun w => ?_, two_orders xy b2 fun w => ?_,
      two_orders xv (d3 hx).1 fun w => ?_⟩
    · have f1 : g1.hasFacts = false := by
        rw [d2]
        have : (normalizeRule parentRule o1).predsHead = (normalizeRule parentRule []).predsHead := rfl
        rw [this]; decide +kernel
      have f2 : g2.hasFacts = false := by
        rw [e2]
        have : (normalizeRule childRule o2).predsHead = (normalizeRule childRule []).predsHead := rfl
        rw [this]; decide +kernel
      cases g1; cases g2
      simp only at d1 e1 f1 f2 e4
      rw [d1, e1, f1, f2, e4 hx']; rfl
    · rw [a3, v1]; simp; tauto
    · rw [b3, v2]; simp
    · rw [(d3 hx).2, v3]; simp

/-- What the engine derives. -/
theorem prog_run {rules : List (NRule D)} {cfgs : List RuleCfg} (h : normalizeProgram [0] prog = some rules)
    (hc : ruleCfgs [0] [0] 99 sat rules = some cfgs) :
    ∃ st, Eng.execute (ChaseExample.condFor 2 [(0, 1)] [[0], [1]]) rules cfgs [1] 20 (Eng.init input) = some (some st) ∧
      st.predicateRows 1 = [[.inl 5, .inr 0], [.inl 6, .inr 1]] ∧ st.predicateRows 2 = [[.inl 5, .inl 3], [.inl 6, .inl 3]] := by
  obtain ⟨o1, o2, o3, rfl, rfl, p1, p2, p3⟩ := prog_norm h hc
  clear h hc
  have key : ∀ rs : List (NRule D), ∀ cs : List RuleCfg, rs.length = 2 →
      stratify (negationGraph rs) (ChaseExample.condFor 2 [(0, 1)] [[0], [1]] rs.length
        ((negationGraph rs).map fun e => (e.1, e.2.1))) = some [[0, 1]] →
      ChaseExample.condFor 2 [(0, 1)] [[0], [1]] 2 (positiveGraph ([0, 1].filterMap fun i => rs[i]?)) = [[0], [1]] →
      ((execLoop defaultNext rs cs 20 (newStratified (rs.map (·.isRecursive)) [([0, 1], [[0], [1]])]) none
      ([1].foldl Eng.combinePredicate (Eng.init input))).map fun s => (s.predicateRows 1, s.predicateRows 2)) =
      some ([[.inl 5, .inr 0], [.inl 6, .inr 1]], [[.inl 5, .inl 3], [.inl 6, .inl 3]]) →
      ∃ st, Eng.execute (ChaseExample.condFor 2 [(0, 1)] [[0], [1]]) rs cs [1] 20 (Eng.init input) = some (some st) ∧
      st.predicateRows 1 = [[.inl 5, .inr 0], [.inl 6, .inr 1]] ∧ st.predicateRows 2 = [[.inl 5, .inl 3], [.inl 6, .inl 3]] := by
    intro rs cs hl h1 h3 h
    have hs : newStrategy (ChaseExample.condFor 2 [(0, 1)] [[0], [1]]) rs = some [([0, 1], [[0], [1]])] := by
      have h2 : [0, 1].mergeSort (fun a b => decide (a ≤ b)) = [0, 1] := List.mergeSort_of_pairwise (by decide)
      unfold newStrategy
      simp only [h1, Option.bind_eq_bind, Option.bind_some, List.map_cons, List.map_nil, h2]
      exact congrArg (fun x => some [([0, 1], x)]) h3
    simp only [Option.map_eq_some_iff, Prod.mk.injEq] at h
    obtain ⟨st, h1, h2, h3⟩ := h
    refine ⟨st, ?_, h2, h3⟩
    unfold Eng.execute
    rw [hs, Option.map_some, h1]
  rcases p1 with rfl | rfl <;> rcases p2 with rfl | rfl <;> rcases p3 with rfl | rfl <;>
    exact key _ _ rfl (by decide +kernel) (by decide +kernel) (by decide +kernel)

/-- **The assumptions of the theorems are met**: in every model of the rules, `child(5, 3)` is true, 5 has a parent, and no other person
is known to be a child. -/
theorem prog_certain : (∀ M, SIsModel prog (edbFacts input) M → M 2 [.inl 5, .inl 3] ∧ ∃ a, M 1 [.inl 5, a]) ∧
    ∃ M, SIsModel prog (edbFacts input) M ∧ ¬ M 2 [.inl 7, .inl 3] := by
  obtain ⟨rules, h, -⟩ := normalizeProgram_spec [0] prog
  obtain ⟨cfgs, hc, -⟩ := ruleCfgs_spec [0] [0] 99 sat rules
  obtain ⟨st, r1, r2, r3⟩ := prog_run h hc
  have hcond := ChaseExample.condFor_ok ChaseExample.chain_topo
  have hcert := fun row (hrow : ∀ a ∈ row, ∀ n, a ≠ Dom.null n) =>
    execute_source_certain (p := 2) hcond h hc prog_ok input_ok positive r1 (by simp [sat]) hrow
  refine ⟨fun M hM => ⟨?_, ?_⟩, ?_⟩
  · exact (hcert [.inl 5, .inl 3] (by simp [Dom.null])).1 (by rw [r3]; simp) M hM
  · obtain ⟨f, f1, f2⟩ := execute_source_universal h hc prog_ok input_ok positive r1 hM
    have := f2 1 (by simp [sat]) [.inl 5, .inr 0] (by rw [r2]; simp)
    simp only [List.map_cons, List.map_nil] at this
    rw [f1 (.inl 5) (fun n hn => by cases hn)] at this
    exact ⟨_, this⟩
  · by_contra hno
    push Not at hno
    have := (hcert [.inl 7, .inl 3] (by simp [Dom.null])).2 hno
    rw [r3] at this
    simp at this

/-! ## Facts for helper predicates

The names of the helper predicates are `_SATISFIED_i`.  Such a predicate can be written as an IRI (`<_SATISFIED_0>(5) .`,
/repo/nemo/src/parser/ast/token.rs:406).  Before rules are applied, helper predicates are registered, which removes all of their tables. -/

/-- `register_predicate` (/repo/nemo/src/table_manager.rs:468-482); the check of the arity is not modelled. -/
def register (st : Eng D) (p : Tag) : Eng D := { st with handlers := fun q => if q = p then ⟨[], []⟩ else st.handlers q }

/-- `execute` (execution_engine.rs:316-321): the helper predicates of existential rules are registered. -/
def registerHelpers (rules : List (NRule D)) (cfgs : List RuleCfg) (st : Eng D) : Eng D :=
  ((rules.zip cfgs).filter fun z => z.1.isExistential).foldl (fun s z => register s z.2.sat) st

/-- For programs that do not use the helper predicates, registering them changes nothing, so it is omitted in `Eng.execute`. -/
theorem registerHelpers_id (rules : List (NRule D)) (cfgs : List RuleCfg) (st : Eng D)
    (h : ∀ cfg ∈ cfgs, st.handlers cfg.sat = ⟨[], []⟩) : registerHelpers rules cfgs st = st := by
  have step : ∀ p, st.handlers p = ⟨[], []⟩ → register st p = st := by
    intro p hp
    have : (fun q => if q = p then ⟨[], []⟩ else st.handlers q) = st.handlers := by
      funext q
      split
      · rename_i hq; rw [hq, hp]
      · rfl
    unfold register
    rw [this]
  have key : ∀ l : List (NRule D × RuleCfg), (∀ z ∈ l, z.2 ∈ cfgs) → l.foldl (fun s z => register s z.2.sat) st = st := by
    intro l
    induction l with
    | nil => intro _; rfl
    | cons z l ih =>
      intro hl
      rw [List.foldl_cons, step _ (h _ (hl z List.mem_cons_self))]
      exact ih fun w hw => hl w (List.mem_cons_of_mem _ hw)
  refine key _ fun z hz => ?_
  exact (List.of_mem_zip (List.mem_filter.1 hz).1).2

/-- `person(5)`, `<_SATISFIED_0>(5)` -/
def clash : List (Tag × List (List D)) := [(0, [[.inl 5]]), (10, [[.inl 5]])]

/-- **Facts for helper predicates are lost**: the fact is stored when the program is loaded, but not any more when the rules are
applied. -/
theorem helper_facts_lost :
    (Eng.init clash).predicateRows 10 = [[.inl 5]] ∧
    (registerHelpers [normalizeRule parentRule [x, v]] [⟨10, [x, v], false⟩] (Eng.init clash)).predicateRows 10 = [] := by
  constructor <;> decide +kernel

end Verif.ChaseSourceExample
