import Verif.ChaseRestricted
import Verif.EngineExamples

/-!
# Existential rules: examples and counterexamples (C25)

* `SimpleProg` is a decidable sufficient condition for the assumptions of the theorems on existential rules.
* `chain_certain`: a program that meets all assumptions, with its run.
* `empty_match_redundant`, `import_redundant`, `several_atoms_redundant`: runs in which the engine creates a null although the
  head is already satisfied.
-/

set_option linter.unusedSimpArgs false
set_option linter.unusedSectionVars false

namespace Verif

/-! ## A domain with nulls -/

/-- Values are numbers (`inl`) or nulls (`inr`); function 0 is addition of numbers, the aggregate counts rows. -/
instance sumDom : Dom (Nat ⊕ Nat) where
  tru := .inl 1
  fls := .inl 0
  tru_ne_fls := by decide
  null n := .inr n
  app k l := match k, l with
    | 0, [.inl a, .inl b] => some (.inl (a + b))
    | _, _ => none
  agg _ l := some (.inl l.dedup.length)
  agg_set k l l' h := by
    have hp : l.dedup.Perm l'.dedup :=
      (List.perm_ext_iff_of_nodup (List.nodup_dedup _) (List.nodup_dedup _)).2 (by simpa using h)
    rw [hp.length_eq]

instance sumNullDom : NullDom (Nat ⊕ Nat) where
  null_inj m n h := by simpa using (Sum.inr.inj h)
  tru_ne n h := by cases h
  fls_ne n h := by cases h
  app_null k l n h := by
    simp only [Dom.app] at h
    split at h
    · cases h
    · cases h
  agg_null k l n h := by cases h

/-- Addition may be used in conditions of `XPositive` rules. -/
theorem sum_homSafe (v x y : Variable) : HomSafe (α := Nat ⊕ Nat) (.equal (.var v) (.op 0 ([x, y].map .var))) := by
  refine homSafe_app v 0 [x, y] fun l a h => ?_
  simp only [Dom.app] at h
  split at h
  · cases h
    refine ⟨?_, fun n hn => by cases hn⟩
    intro b hb n hn
    simp only [List.mem_cons, List.not_mem_nil, or_false] at hb
    rcases hb with rfl | rfl <;> cases hn
  · cases h

section simple
variable {α : Type} [DecidableEq α] [Dom α]

/-- Rules without conditions, negation, aggregates, and constants. -/
def simpleRule (arity : Tag → Nat) (r : NRule α) : Prop :=
  r.operations = [] ∧ r.negative = [] ∧ r.aggregation = none ∧
  (∀ a ∈ r.positive, a.terms.Nodup ∧ a.terms.length = arity a.pred) ∧ r.order.Nodup ∧
  (∀ v ∈ atomVars r.positive, v ∈ r.order ∧ v.isExistential = false) ∧
  ∀ h ∈ r.head, h.terms.length = arity h.pred ∧ (∀ t ∈ h.terms, t.var?.isSome = true) ∧
    ∀ v ∈ h.vars, v.isExistential = false → v ∈ atomVars r.positive

/-- The parameters of an existential rule fit the rule. -/
def simpleEx (arity : Tag → Nat) (r : NRule α) (cfg : RuleCfg) : Prop :=
  cfg.exOrder.Nodup ∧ (∀ h ∈ r.head, ∀ v ∈ h.vars, v ∈ cfg.exOrder) ∧
  arity cfg.sat = (cfg.exOrder.filter r.inFrontier).length ∧ cfg.sat ∉ r.predsHead

/-- A decidable condition for `XProgOK`. -/
structure SimpleProg (rules : List (NRule α)) (cfgs : List RuleCfg) (arity : Tag → Nat) : Prop where
  len : cfgs.length = rules.length
  rule : ∀ r ∈ rules, simpleRule arity r
  ex : ∀ x ∈ rules.zip cfgs, x.1.isExistential = true → simpleEx arity x.1 x.2
  fresh : ∀ cfg ∈ cfgs, ∀ r ∈ rules, cfg.sat ∉ r.predsHead ∧ cfg.sat ∉ r.predsPositive ∧ cfg.sat ∉ r.predsNegative
  inj : (cfgs.map (·.sat)).Nodup

theorem SimpleProg.ok {rules : List (NRule α)} {cfgs : List RuleCfg} {arity : Tag → Nat} (h : SimpleProg rules cfgs arity) :
    XProgOK rules cfgs arity := by
  refine ⟨h.len, fun r hr => ?_, fun r hr hex => ?_, fun i r cfg hr hc hex => ?_, h.fresh, ?_⟩
  · obtain ⟨h1, h2, h3, h4, h5, h6, h7⟩ := h.rule r hr
    refine ⟨⟨fun a ha => (h4 a ha).1, by simp [h2], fun a ha => (h4 a ha).2, by simp [h2], h5, fun v hv => (h6 v hv).1,
      by simp [h2], by simp [h2], by simp [h2]⟩, ⟨by simp [h1], fun hd hm c hc n => ?_⟩⟩
    have := (h7 hd hm).2.1 _ hc
    simp [Primitive.var?] at this
  · obtain ⟨h1, h2, h3, h4, h5, h6, h7⟩ := h.rule r hr
    refine ⟨fun hd hm => (h7 hd hm).1, fun i hd hi _ v hv hve => ?_, by simp [h3], by simp [h3]⟩
    obtain ⟨a, ha, hva⟩ := List.mem_flatMap.1 ((h7 hd (List.mem_of_getElem? hi)).2.2 v hv hve)
    exact .atom ha hva
  · obtain ⟨h1, h2, h3, h4, h5, h6, h7⟩ := h.rule r (List.mem_of_getElem? hr)
    have hz : (rules.zip cfgs)[i]? = some (r, cfg) := List.getElem?_zip_eq_some.2 ⟨hr, hc⟩
    obtain ⟨e1, e2, e3, e4⟩ := h.ex _ (List.mem_of_getElem? hz) hex
    exact ⟨h3, fun hd hm => (h7 hd hm).1, fun hd hm v hv hve => (h7 hd hm).2.2 v hv hve, fun v hv => (h6 v hv).2, e1, e2, e3, e4⟩
  · intro i j cfg cfg' hi hj he
    have hi' := (List.getElem?_eq_some_iff.1 hi).1
    have e : (cfgs.map (·.sat))[i]? = (cfgs.map (·.sat))[j]? := by
      rw [List.getElem?_map, List.getElem?_map, hi, hj]; simp [he]
    exact (List.getElem?_inj (by simpa using hi') h.inj).1 e

/-- A decidable condition for `XEdbOK`. -/
theorem simpleEdb {edb : List (Tag × List (List (Nat ⊕ Nat)))} {cfgs : List RuleCfg} {arity : Tag → Nat}
    (h : EdbOK edb arity ∧ (∀ x ∈ edb, ∀ row ∈ x.2, ∀ a ∈ row, a.isLeft = true) ∧ ∀ x ∈ edb, ∀ cfg ∈ cfgs, x.1 ≠ cfg.sat) :
    XEdbOK edb cfgs arity := by
  refine ⟨h.1, ?_, ?_⟩
  · rintro p row ⟨t, ht, hr⟩ a ha n rfl
    have := h.2.1 _ ht row hr _ ha
    cases this
  · rintro p row ⟨t, ht, hr⟩ ⟨cfg, hc, he⟩
    exact h.2.2 _ ht cfg hc he

/-- Simple rules are positive. -/
theorem SimpleProg.positive {rules : List (NRule α)} {cfgs : List RuleCfg} {arity : Tag → Nat} (h : SimpleProg rules cfgs arity) :
    ∀ r ∈ rules, XPositive r := by
  intro r hr
  obtain ⟨h1, h2, h3, -⟩ := h.rule r hr
  exact ⟨h2, h3, by simp [h1]⟩

end simple

namespace ChaseExample

/-- variables -/
abbrev X : Variable := .universal 0
abbrev Y : Variable := .universal 1
abbrev V : Variable := .existential 2
abbrev W : Variable := .existential 3

/-- Values -/
abbrev D := Nat ⊕ Nat

/-- Any ordering of the components that agrees with the given one for the program at hand. -/
noncomputable def condFor (n : Nat) (e : List (Nat × Nat)) (l : List (List Nat)) : Nat → List (Nat × Nat) → List (List Nat) :=
  fun n' e' => if n' = n ∧ e' = e then l else Classical.choose (exists_topoCond n' e')

theorem condFor_ok {n : Nat} {e : List (Nat × Nat)} {l : List (List Nat)} (h : IsTopoCond n e l) : CondOK (condFor n e l) := by
  intro n' e' _
  unfold condFor
  split
  · rename_i he; obtain ⟨rfl, rfl⟩ := he; exact h
  · exact Classical.choose_spec (exists_topoCond n' e')

/-! ## A program that meets all assumptions -/

/-- `parent(?x, !v) :- person(?x)` (person = 0, parent = 1, child = 2) -/
def parentRule : NRule D := ⟨[⟨0, [X]⟩], [], [], [⟨1, [.var X, .var V]⟩], none, [X]⟩
/-- `child(?x) :- parent(?x, ?y)` -/
def childRule : NRule D := ⟨[⟨1, [X, Y]⟩], [], [], [⟨2, [.var X]⟩], none, [X, Y]⟩

/-- the program -/
def chain : List (NRule D) := [parentRule, childRule]
/-- the parameters; predicates 9 and 10 are the helper predicates -/
def chainCfg : List RuleCfg := [⟨9, [X, V], false⟩, ⟨10, [], false⟩]
/-- the arities -/
def chainArity : Tag → Nat := fun p => if p = 1 then 2 else 1
/-- two persons -/
def chainInput : List (Tag × List (List D)) := [(0, [[.inl 5], [.inl 6]])]

instance (arity : Tag → Nat) (r : NRule D) : Decidable (simpleRule arity r) := by
  unfold simpleRule
  have h1 : Decidable (r.operations = []) := decidable_of_iff (r.operations.isEmpty = true) List.isEmpty_iff
  have h2 : Decidable (r.negative = []) := decidable_of_iff (r.negative.isEmpty = true) List.isEmpty_iff
  have h3 : Decidable (r.aggregation = none) := decidable_of_iff (r.aggregation.isNone = true) Option.isNone_iff_eq_none
  infer_instance

instance (arity : Tag → Nat) (r : NRule D) (cfg : RuleCfg) : Decidable (simpleEx arity r cfg) := by
  unfold simpleEx; infer_instance

theorem chain_ok : SimpleProg chain chainCfg chainArity :=
  ⟨by decide, by decide +kernel, by decide +kernel, by decide +kernel, by decide +kernel⟩

theorem chain_input_ok : XEdbOK chainInput chainCfg chainArity :=
  simpleEdb ⟨⟨by decide, by decide +kernel⟩, by decide +kernel, by decide +kernel⟩

/-- the order of the components of `chain` -/
theorem chain_topo : IsTopoCond 2 [(0, 1)] [[0], [1]] := by
  refine ⟨by decide, by decide, ?_, ?_⟩
  · intro scc hs u hu v hv
    simp only [List.mem_cons, List.not_mem_nil, or_false] at hs
    rcases hs with rfl | rfl <;>
    · rw [List.mem_singleton] at hu hv; subst hu; subst hv; exact Relation.ReflTransGen.refl
  · intro u v huv i j a b hi hj hu hv
    simp only [List.mem_singleton, Prod.mk.injEq] at huv
    obtain ⟨rfl, rfl⟩ := huv
    match i, hi with
    | 0, _ => omega
    | 1, hi => simp at hi; subst hi; simp at hu
    | i + 2, hi => simp at hi

/-- The run of the program: each person gets one null. -/
theorem chain_run : ∃ st, Eng.execute (condFor 2 [(0, 1)] [[0], [1]]) chain chainCfg [1] 20 (Eng.init chainInput) = some (some st) ∧
    st.predicateRows 1 = [[.inl 5, .inr 0], [.inl 6, .inr 1]] ∧ st.predicateRows 2 = [[.inl 5], [.inl 6]] := by
  have hs : newStrategy (condFor 2 [(0, 1)] [[0], [1]]) chain = some [([0, 1], [[0], [1]])] := by
    have h1 : stratify (negationGraph chain) (condFor 2 [(0, 1)] [[0], [1]] chain.length
        ((negationGraph chain).map fun e => (e.1, e.2.1))) = some [[0, 1]] := by decide +kernel
    have h2 : [0, 1].mergeSort (fun a b => decide (a ≤ b)) = [0, 1] := List.mergeSort_of_pairwise (by decide)
    have h3 : condFor 2 [(0, 1)] [[0], [1]] 2 (positiveGraph ([0, 1].filterMap fun i => chain[i]?)) = [[0], [1]] := by
      decide +kernel
    unfold newStrategy
    simp only [h1, Option.bind_eq_bind, Option.bind_some, List.map_cons, List.map_nil, h2]
    exact congrArg (fun x => some [([0, 1], x)]) h3
  have h : ((execLoop defaultNext chain chainCfg 20 (newStratified (chain.map (·.isRecursive)) [([0, 1], [[0], [1]])]) none
      ([1].foldl Eng.combinePredicate (Eng.init chainInput))).map fun s => (s.predicateRows 1, s.predicateRows 2)) =
      some ([[.inl 5, .inr 0], [.inl 6, .inr 1]], [[.inl 5], [.inl 6]]) := by decide +kernel
  simp only [Option.map_eq_some_iff, Prod.mk.injEq] at h
  obtain ⟨st, h1, h2, h3⟩ := h
  refine ⟨st, ?_, h2, h3⟩
  unfold Eng.execute
  rw [hs, Option.map_some, h1]

/-- **The assumptions of the theorems are met**: in every model of the program, `child(5)` is true, and the nulls can be
replaced by parents. -/
theorem chain_certain (M : Interp D) (hM : IsModel chain (edbFacts chainInput) M) :
    M 2 [.inl 5] ∧ ∃ a, M 1 [.inl 5, a] := by
  obtain ⟨st, h1, h2, h3⟩ := chain_run
  refine ⟨(execute_certain (condFor_ok chain_topo) chain_ok.ok chain_input_ok chain_ok.positive h1 (by decide) ?_).1
    (by rw [h3]; simp) M hM, ?_⟩
  · intro a ha n hn
    rw [List.mem_singleton] at ha; subst ha; cases hn
  · obtain ⟨f, f1, f2⟩ := execute_universal chain_ok.ok chain_input_ok chain_ok.positive h1 hM
    have := f2 1 (by decide) [.inl 5, .inr 0] (by rw [h2]; simp)
    simp only [List.map_cons, List.map_nil] at this
    rw [f1 (.inl 5) (fun n hn => by cases hn)] at this
    exact ⟨_, this⟩

/-- The program meets the conditions of `exclusive_restricted_partial`. -/
theorem chain_exclusive : ∀ (i : Nat) r, chain[i]? = some r → r.isExistential = true →
    Exclusive (edbFacts chainInput) chain i r := by
  intro i r hr hex
  match i, hr with
  | 0, hr =>
    simp [chain] at hr
    subst hr
    refine ⟨⟨1, [.var X, .var V]⟩, rfl, ?_, ?_⟩
    · rintro row ⟨t, ht, -⟩
      simp [chainInput] at ht
    · intro j r' hr' hj
      match j, hr' with
      | 0, _ => exact absurd rfl hj
      | 1, hr' => simp [chain] at hr'; subst hr'; decide +kernel
      | j + 2, hr' => simp [chain] at hr'
  | 1, hr =>
    simp [chain] at hr
    subst hr
    exact absurd hex (by decide +kernel)
  | i + 2, hr => simp [chain] at hr

/-! ## Runs with redundant nulls -/

/-- Apply rules in the given order. -/
def run (rules : List (NRule D)) (cfgs : List RuleCfg) : List Nat → Eng D → Option (Eng D)
  | [], st => some st
  | i :: l, st => (st.iterate rules cfgs i).bind fun x => run rules cfgs l x.1

theorem run_exec {rules : List (NRule D)} {cfgs : List RuleCfg} {l : List Nat} {st st' : Eng D}
    (h : run rules cfgs l st = some st') : ∃ tr, Exec rules cfgs st tr st' := by
  induction l generalizing st with
  | nil => simp only [run, Option.some.injEq] at h; subst h; exact ⟨_, .nil⟩
  | cons i l ih =>
    simp only [run, Option.bind_eq_some_iff] at h
    obtain ⟨⟨s, d⟩, h1, h2⟩ := h
    obtain ⟨tr, h3⟩ := ih h2
    exact ⟨_, .cons h1 h3⟩

/-- A fact with a new null is not needed if all matches that could derive it are satisfied already. -/
theorem not_needed {rules : List (NRule D)} {cfgs : List RuleCfg} {st st' : Eng D} {p : Tag} {row : List D}
    (h1 : ¬ IsHelper cfgs p) (h2 : st'.Facts p row) (h3 : ∃ n, st.nextNull ≤ n ∧ (Dom.null n : D) ∈ row)
    (h4 : ∀ r ∈ rules, ∀ hd ∈ r.head, p = hd.pred → ∀ σ τ : Variable → D, BodyHolds r st.Facts st.Facts σ →
      (∀ v, v.isExistential = false → τ v = σ v) → row = hd.inst τ → HeadSat r st.Facts σ) :
    ¬ NullsNeeded rules st st' (IsHelper cfgs) := by
  intro h
  obtain ⟨r, hr, σ, q1, q2, τ, q3, hd, q4, q5, q6⟩ := h p row h1 h2 h3
  exact q2 (h4 r hr hd q4 q5 σ τ q1 q3 q6)

/-- The states before and after the last application of a run. -/
theorem run_states {rules : List (NRule D)} {cfgs : List RuleCfg} {arity : Tag → Nat} {edb : List (Tag × List (List D))}
    (hp : SimpleProg rules cfgs arity) (he : XEdbOK edb cfgs arity) {l : List Nat} {i : Nat} {ps : List Tag}
    {rows rows' : List (List (List D))} {n : Nat}
    (h : ((run rules cfgs l (Eng.init edb)).bind fun s => (s.iterate rules cfgs i).map fun s' =>
      (ps.map s.predicateRows, ps.map s'.1.predicateRows, s.nextNull)) = some (rows, rows', n)) :
    ∃ st st' tr b, Exec rules cfgs (Eng.init edb) tr st ∧ st.iterate rules cfgs i = some (st', b) ∧ st.nextNull = n ∧
      (∀ (k : Nat) p rs, ps[k]? = some p → rows[k]? = some rs → ∀ row, st.Facts p row ↔ row ∈ rs) ∧
      (∀ (k : Nat) p rs, ps[k]? = some p → rows'[k]? = some rs → ∀ row, st'.Facts p row ↔ row ∈ rs) := by
  simp only [Option.bind_eq_some_iff, Option.map_eq_some_iff, Prod.mk.injEq] at h
  obtain ⟨st, h1, ⟨st', b⟩, h2, h3, h4, h5⟩ := h
  obtain ⟨tr, h6⟩ := run_exec h1
  obtain ⟨s1, s2, -⟩ := start_spec (outs := []) (rules := rules) he
  obtain ⟨o1, o2⟩ := Exec.ok_fresh hp.ok h6 s1 s2
  obtain ⟨o3, o4⟩ := Exec.ok_fresh hp.ok (.cons h2 .nil) o1 o2
  have key : ∀ (s : Eng D), s.OK arity → ∀ (k : Nat) p rs, ps[k]? = some p → (ps.map s.predicateRows)[k]? = some rs → ∀ row,
      s.Facts p row ↔ row ∈ rs := by
    intro s hs k p rs hk hr row
    rw [List.getElem?_map, hk, Option.map_some, Option.some.injEq] at hr
    rw [← hr]
    exact ((Eng.predicateRows_spec hs p).1 row).symm
  exact ⟨st, st', tr, b, h6, h2, h5, h3 ▸ key st o1, h4 ▸ key st' o3⟩

instance decRow : DecidableEq (List D) := inferInstance
instance decRows : DecidableEq (List (List D)) := instDecidableEqList
instance decTables : DecidableEq (List (List (List D))) := instDecidableEqList

/-- `person(?x) :- parent(?x, ?y)` -/
def personRule : NRule D := ⟨[⟨1, [X, Y]⟩], [], [], [⟨0, [.var X]⟩], none, [X, Y]⟩

/-- `parent(?x, !v) :- person(?x)` and `person(?x) :- parent(?x, ?y)` -/
def cyclic : List (NRule D) := [parentRule, personRule]
/-- the parameters: `parent` has facts in the program -/
def cyclicCfg : List RuleCfg := [⟨9, [X, V], true⟩, ⟨10, [], false⟩]
/-- the same, but the facts are imported from a file and thus not known when the rules are analysed -/
def importCfg : List RuleCfg := [⟨9, [X, V], false⟩, ⟨10, [], false⟩]
/-- `parent(5, 6)` -/
def cyclicInput : List (Tag × List (List D)) := [(1, [[.inl 5, .inl 6]])]
/-- `person(5)`, `parent(5, 6)` -/
def importInput : List (Tag × List (List D)) := [(0, [[.inl 5]]), (1, [[.inl 5, .inl 6]])]

theorem cyclic_ok : SimpleProg cyclic cyclicCfg chainArity :=
  ⟨by decide, by decide +kernel, by decide +kernel, by decide +kernel, by decide +kernel⟩
theorem import_ok : SimpleProg cyclic importCfg chainArity :=
  ⟨by decide, by decide +kernel, by decide +kernel, by decide +kernel, by decide +kernel⟩

/-- The head of `parentRule` is satisfied for 5 if `parent(5, 6)` is known. -/
theorem parent_sat {st : Eng D} (h : st.Facts 1 [.inl 5, .inl 6]) : ∀ r ∈ cyclic, ∀ hd ∈ r.head, (1 : Tag) = hd.pred →
    ∀ σ τ : Variable → D, BodyHolds r st.Facts st.Facts σ → (∀ v, v.isExistential = false → τ v = σ v) →
    [.inl 5, .inr 0] = hd.inst τ → HeadSat r st.Facts σ := by
  intro r hr hd hm hpe σ τ _ hag hrow
  simp only [cyclic, List.mem_cons, List.not_mem_nil, or_false] at hr
  rcases hr with rfl | rfl
  · simp only [parentRule, List.mem_singleton] at hm
    subst hm
    have hx : σ X = .inl 5 := by
      have := (List.cons.inj hrow).1
      rw [← hag X rfl]
      exact this.symm
    refine ⟨fun v => if v.isExistential then .inl 6 else σ v, fun v hv => by simp [hv], ?_⟩
    intro hd' hm'
    simp only [parentRule, List.mem_singleton] at hm'
    subst hm'
    show st.Facts 1 [σ X, .inl 6]
    rw [hx]
    exact h
  · simp only [personRule, List.mem_singleton] at hm
    subst hm
    cases hpe

/-- **C25 does not hold in general**: the existential rule is first applied without a match; then the fact `parent(5, 6)` is not
recorded as satisfying the head, but counts as old for the next application.  So `parent(5, 6)` does not prevent a new null for
the parent of 5 (restricted.rs:81-129 is not reached if the body has no match, body.rs / forward.rs; the application still
counts as the last one, execution_engine.rs:253). -/
theorem empty_match_redundant : ∃ st st' tr b, Exec cyclic cyclicCfg (Eng.init cyclicInput) tr st ∧
    st.iterate cyclic cyclicCfg 0 = some (st', b) ∧ st.Facts 1 [.inl 5, .inl 6] ∧ st'.Facts 1 [.inl 5, .inr 0] ∧
    ¬ NullsNeeded cyclic st st' (IsHelper cyclicCfg) := by
  obtain ⟨st, st', tr, b, h1, h2, h3, h4, h5⟩ := run_states (l := [0, 1]) (i := 0) (ps := [1])
    (rows := [[[.inl 5, .inl 6]]]) (rows' := [[[.inl 5, .inl 6], [.inl 5, .inr 0]]]) (n := 0) cyclic_ok
    (simpleEdb (edb := cyclicInput) ⟨⟨by decide, by decide +kernel⟩, by decide +kernel, by decide +kernel⟩) (by decide +kernel)
  have k1 : st.Facts 1 [.inl 5, .inl 6] := (h4 0 1 _ rfl rfl _).2 (by simp)
  have k2 : st'.Facts 1 [.inl 5, .inr 0] := (h5 0 1 _ rfl rfl _).2 (by simp)
  refine ⟨st, st', tr, b, h1, h2, k1, k2, not_needed ?_ k2 ⟨0, by omega, List.mem_cons_of_mem _ (List.mem_singleton_self _)⟩ (parent_sat k1)⟩
  rintro ⟨cfg, hc, he⟩
  simp only [cyclicCfg, List.mem_cons, List.not_mem_nil, or_false] at hc
  rcases hc with rfl | rfl <;> cases he

/-- **C25 does not hold for imported facts**: whether the head predicates have facts is decided by the facts written in the
program (forward.rs:87-95), so imported facts are not noticed by the first application. -/
theorem import_redundant : ∃ st st' tr b, Exec cyclic importCfg (Eng.init importInput) tr st ∧
    st.iterate cyclic importCfg 0 = some (st', b) ∧ st.Facts 1 [.inl 5, .inl 6] ∧ st'.Facts 1 [.inl 5, .inr 0] ∧
    ¬ NullsNeeded cyclic st st' (IsHelper importCfg) := by
  obtain ⟨st, st', tr, b, h1, h2, h3, h4, h5⟩ := run_states (l := []) (i := 0) (ps := [1])
    (rows := [[[.inl 5, .inl 6]]]) (rows' := [[[.inl 5, .inl 6], [.inl 5, .inr 0]]]) (n := 0) import_ok
    (simpleEdb (edb := importInput) ⟨⟨by decide, by decide +kernel⟩, by decide +kernel, by decide +kernel⟩) (by decide +kernel)
  have k1 : st.Facts 1 [.inl 5, .inl 6] := (h4 0 1 _ rfl rfl _).2 (by simp)
  have k2 : st'.Facts 1 [.inl 5, .inr 0] := (h5 0 1 _ rfl rfl _).2 (by simp)
  refine ⟨st, st', tr, b, h1, h2, k1, k2, not_needed ?_ k2 ⟨0, by omega, List.mem_cons_of_mem _ (List.mem_singleton_self _)⟩ (parent_sat k1)⟩
  rintro ⟨cfg, hc, he⟩
  simp only [importCfg, List.mem_cons, List.not_mem_nil, or_false] at hc
  rcases hc with rfl | rfl <;> cases he

/-- `parent(?x, !v), likes(?y, !w) :- pair(?x, ?y)` (pair = 0, parent = 1, likes = 2) -/
def twoRule : NRule D := ⟨[⟨0, [X, Y]⟩], [], [], [⟨1, [.var X, .var V]⟩, ⟨2, [.var Y, .var W]⟩], none, [X, Y]⟩
/-- `pair(?x, ?y) :- later(?x, ?y), parent(?x, ?z)` (later = 3) -/
def laterRule : NRule D :=
  ⟨[⟨3, [X, Y]⟩, ⟨1, [X, .universal 7]⟩], [], [], [⟨0, [.var X, .var Y]⟩], none, [X, Y, .universal 7]⟩
/-- the program -/
def two : List (NRule D) := [twoRule, laterRule]
/-- the parameters -/
def twoCfg : List RuleCfg := [⟨9, [X, V, Y, W], false⟩, ⟨10, [], false⟩]
/-- `pair(5, 6)`, `pair(7, 8)`, `later(5, 8)` -/
def twoInput : List (Tag × List (List D)) := [(0, [[.inl 5, .inl 6], [.inl 7, .inl 8]]), (3, [[.inl 5, .inl 8]])]

theorem two_ok : SimpleProg two twoCfg (fun _ => 2) :=
  ⟨by decide, by decide +kernel, by decide +kernel, by decide +kernel, by decide +kernel⟩

/-- **C25 does not hold for heads with several atoms**: the first application creates parents for 5 and 7, and something that 6 and
8 like.  This satisfies the head for 5 and 8, which is not noticed, because the facts of the last application are not
considered to be new (restricted_head.rs:78-91). -/
theorem several_atoms_redundant : ∃ st st' tr b, Exec two twoCfg (Eng.init twoInput) tr st ∧
    st.iterate two twoCfg 0 = some (st', b) ∧ st.Facts 1 [.inl 5, .inr 0] ∧ st.Facts 2 [.inl 8, .inr 3] ∧
    st'.Facts 1 [.inl 5, .inr 4] ∧ ¬ NullsNeeded two st st' (IsHelper twoCfg) := by
  obtain ⟨st, st', tr, b, h1, h2, h3, h4, h5⟩ := run_states (l := [0, 1]) (i := 0) (ps := [1, 2, 0])
    (rows := [[[.inl 5, .inr 0], [.inl 7, .inr 2]], [[.inl 6, .inr 1], [.inl 8, .inr 3]],
      [[.inl 5, .inl 6], [.inl 7, .inl 8], [.inl 5, .inl 8]]])
    (rows' := [[[.inl 5, .inr 0], [.inl 7, .inr 2], [.inl 5, .inr 4]], [[.inl 6, .inr 1], [.inl 8, .inr 3], [.inl 8, .inr 5]],
      [[.inl 5, .inl 6], [.inl 7, .inl 8], [.inl 5, .inl 8]]]) (n := 4) two_ok
    (simpleEdb (edb := twoInput) ⟨⟨by decide, by decide +kernel⟩, by decide +kernel, by decide +kernel⟩) (by decide +kernel)
  have k1 : st.Facts 1 [.inl 5, .inr 0] := (h4 0 1 _ rfl rfl _).2 (by simp)
  have k2 : ∀ y : D, y = .inl 6 ∨ y = .inl 8 → ∃ w, st.Facts 2 [y, w] := by
    rintro y (rfl | rfl)
    · exact ⟨.inr 1, (h4 1 2 _ rfl rfl _).2 (by simp)⟩
    · exact ⟨.inr 3, (h4 1 2 _ rfl rfl _).2 (by simp)⟩
  have k3 : st'.Facts 1 [.inl 5, .inr 4] := (h5 0 1 _ rfl rfl _).2 (by simp)
  refine ⟨st, st', tr, b, h1, h2, k1, (h4 1 2 _ rfl rfl _).2 (by simp), k3,
    not_needed ?_ k3 ⟨4, by omega, List.mem_cons_of_mem _ (List.mem_singleton_self _)⟩ ?_⟩
  · rintro ⟨cfg, hc, he⟩
    simp only [twoCfg, List.mem_cons, List.not_mem_nil, or_false] at hc
    rcases hc with rfl | rfl <;> cases he
  · intro r hr hd hm hpe σ τ hb hag hrow
    simp only [two, List.mem_cons, List.not_mem_nil, or_false] at hr
    rcases hr with rfl | rfl
    · simp only [twoRule, List.mem_cons, List.not_mem_nil, or_false] at hm
      rcases hm with rfl | rfl
      · have hx : σ X = .inl 5 := by
          have := (List.cons.inj hrow).1
          rw [← hag X rfl]
          exact this.symm
        have hy : σ Y = .inl 6 ∨ σ Y = .inl 8 := by
          have hp : st.Facts 0 [σ X, σ Y] := hb.pos ⟨0, [X, Y]⟩ (by simp [twoRule])
          rw [hx] at hp
          have := (h4 2 0 _ rfl rfl _).1 hp
          simpa using this
        obtain ⟨w, hw⟩ := k2 _ hy
        refine ⟨fun v => if v = V then .inr 0 else if v = W then w else σ v, ?_, ?_⟩
        · intro v hv
          have h1 : v ≠ V := by rintro rfl; cases hv
          have h2 : v ≠ W := by rintro rfl; cases hv
          simp [h1, h2]
        · intro hd' hm'
          simp only [twoRule, List.mem_cons, List.not_mem_nil, or_false] at hm'
          rcases hm' with rfl | rfl
          · show st.Facts 1 [σ X, .inr 0]
            rw [hx]; exact k1
          · exact hw
      · cases hpe
    · simp only [laterRule, List.mem_singleton] at hm
      subst hm
      cases hpe

end ChaseExample
end Verif
