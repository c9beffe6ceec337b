import Verif.EngineSafety

/-!
# Other strategies, and examples

* Programs without negation can also be evaluated with the other strategies, with the same result.
* A concrete program (reachability and its complement) that satisfies the assumptions of the theorems in
  `PropEngine.lean`; the theorems determine its result for every input.
* A rule that is accepted but evaluated wrongly (`negated_atom_ignored`).
-/

set_option linter.unusedSimpArgs false
set_option linter.unusedSectionVars false

namespace Verif

section strategies
variable {α : Type} [DecidableEq α] [Dom α]

theorem predsStrict_positive {rules : List (NRule α)} (h : IsPositive rules) {r : NRule α} (hr : r ∈ rules) :
    r.predsStrict = [] := by
  obtain ⟨h1, h2⟩ := h r hr
  simp [NRule.predsStrict, NRule.predsNegative, h1, NRule.containsAggregates, h2]

/-- Programs without negation are stratifiable. -/
theorem IsPositive.stratifiable {rules : List (NRule α)} (h : IsPositive rules) : IsStratifiable rules := by
  refine ⟨fun _ => 0, fun r hr q _ => ⟨fun _ _ => le_rfl, ?_, ?_⟩⟩
  · intro p hp; obtain ⟨h1, -⟩ := h r hr; simp [NRule.predsNegative, h1] at hp
  · intro ha; obtain ⟨-, h2⟩ := h r hr; simp [NRule.containsAggregates, h2] at ha

/-- **C18/C24: round robin over all rules** (`StrategyRoundRobin` as the only strategy): when it stops, the facts are the least
model, so the result is the same as with the default strategy. -/
theorem roundRobin_stable {rules : List (NRule α)} {cfgs : List RuleCfg} {arity : Tag → Nat}
    (hp : ProgOK rules cfgs arity) (hpos : IsPositive rules) {edb : List (Tag × List (List α))} (he : EdbOK edb arity)
    {fuel : Nat} {st : Eng α}
    (h : execLoop RoundRobin.next rules cfgs fuel (RoundRobin.new (rules.map (·.isRecursive))) none (Eng.init edb) = some st) :
    IsStable rules (edbFacts edb) st.answers := by
  obtain ⟨tr, h1, h2⟩ := execLoop_exec h
  have h3 := rr_trace h1
  rw [List.length_map] at h3
  obtain ⟨i1, i2, i3⟩ := Eng.init_spec (arity := arity) edb he.preds he.rows
  have hph : PhasesOK rules [List.range rules.length] := by
    refine ⟨?_, by simp, by simp⟩
    intro ph hm
    rw [List.mem_singleton] at hm
    subst hm
    refine ⟨fun i hi => List.mem_range.1 hi, ?_⟩
    intro i _ j _ r r' _ hr' p _
    rw [predsStrict_positive hpos (List.mem_of_getElem? hr')]; simp
  obtain ⟨r1, r2⟩ := engine_stable hp hph (fun i hi => ⟨_, List.mem_singleton_self _, List.mem_range.2 hi⟩)
    ⟨[tr], .cons h3 .nil, by simp⟩ i1 i3 h2
  rw [answers_eq r1]
  have hf : (Eng.init edb).Facts = edbFacts edb := by funext p row; exact propext (i2 p row)
  rw [hf] at r2
  exact r2

/-- **C24: round robin and the default strategy have the same result.** -/
theorem strategy_independent {cond : Nat → List (Nat × Nat) → List (List Nat)} (hcond : CondOK cond)
    {rules : List (NRule α)} {cfgs : List RuleCfg} {arity : Tag → Nat}
    (hp : ProgOK rules cfgs arity) (hpos : IsPositive rules) {edb : List (Tag × List (List α))} (he : EdbOK edb arity)
    {fuel fuel' : Nat} {outs : List Tag} {st st' : Eng α}
    (h : execLoop RoundRobin.next rules cfgs fuel (RoundRobin.new (rules.map (·.isRecursive))) none (Eng.init edb) = some st)
    (h' : Eng.execute cond rules cfgs outs fuel' (Eng.init edb) = some (some st')) (p : Tag) (row : List α) :
    row ∈ st.predicateRows p ↔ row ∈ st'.predicateRows p := by
  have := stable_unique hpos.stratifiable (roundRobin_stable hp hpos he h) (execute_stable hcond hp he h')
  show st.answers p row ↔ st'.answers p row
  rw [this]

/-- **C18: the default strategy stops only at a fixpoint**: when no rule is left, applying any rule to the facts derives
nothing new. -/
theorem stops_at_fixpoint {cond : Nat → List (Nat × Nat) → List (List Nat)} (hcond : CondOK cond)
    {rules : List (NRule α)} {cfgs : List RuleCfg} {arity : Tag → Nat}
    (hp : ProgOK rules cfgs arity) {edb : List (Tag × List (List α))} (he : EdbOK edb arity)
    {fuel : Nat} {outs : List Tag} {st : Eng α}
    (h : Eng.execute cond rules cfgs outs fuel (Eng.init edb) = some (some st))
    {r : NRule α} (hr : r ∈ rules) {p : Tag} {row : List α} (hd : Derives r st.answers st.answers p row) :
    row ∈ st.predicateRows p :=
  (execute_complete hcond hp he h).2 r hr p row hd

end strategies

/-! ## Example: reachability and its complement -/

/-- A domain: natural numbers, with addition as function 0, and the number of different rows as aggregate. -/
instance natDom : Dom Nat where
  tru := 1
  fls := 0
  tru_ne_fls := by decide
  null n := n
  app k l := match k, l with
    | 0, [a, b] => some (a + b)
    | _, _ => none
  agg _ l := some l.dedup.length
  agg_set k l l' h := by
    have hp : l.dedup.Perm l'.dedup :=
      (List.perm_ext_iff_of_nodup (List.nodup_dedup _) (List.nodup_dedup _)).2 (by simpa using h)
    rw [hp.length_eq]

namespace Example

/-- variables -/
abbrev X : Variable := .universal 0
abbrev Y : Variable := .universal 1
abbrev Z : Variable := .universal 2

/-- `path(?x, ?y) :- edge(?x, ?y)` (edge = 0, path = 1, node = 2, nopath = 3) -/
def base : NRule Nat := ⟨[⟨0, [X, Y]⟩], [], [], [⟨1, [.var X, .var Y]⟩], none, [X, Y]⟩
/-- `path(?x, ?z) :- path(?x, ?y), edge(?y, ?z)` -/
def trans : NRule Nat := ⟨[⟨1, [X, Y]⟩, ⟨0, [Y, Z]⟩], [], [], [⟨1, [.var X, .var Z]⟩], none, [X, Y, Z]⟩
/-- `nopath(?x, ?y) :- node(?x), node(?y), ~path(?x, ?y)` -/
def compl : NRule Nat := ⟨[⟨2, [X]⟩, ⟨2, [Y]⟩], [⟨1, [X, Y]⟩], [], [⟨3, [.var X, .var Y]⟩], none, [X, Y]⟩

/-- the program -/
def prog : List (NRule Nat) := [base, trans, compl]
/-- the parameters of the rules, which are only used for existential rules -/
def cfgs : List RuleCfg := List.replicate 3 ⟨9, [], false⟩
/-- the arities -/
def arity : Tag → Nat := fun p => if p = 2 then 1 else 2

theorem safe_of_mem {r : NRule Nat} {v : Variable} (a : BodyAtom) (ha : a ∈ r.positive) (hv : v ∈ a.terms) :
    SafeVar r.positive r.operations v := .atom ha hv

theorem prog_ok : ProgOK prog cfgs arity := by
  refine ⟨?_, by simp [prog, cfgs]⟩
  intro r hr
  simp only [prog, List.mem_cons, List.not_mem_nil, or_false] at hr
  have hagg : r.aggregation = none := by rcases hr with rfl | rfl | rfl <;> rfl
  have hops : r.operations = [] := by rcases hr with rfl | rfl | rfl <;> rfl
  refine ⟨⟨?_, ?_, ?_, ?_, ?_, ?_, ?_, by simp [hops], ?_⟩, ⟨?_, ?_, by simp [hagg], by simp [hagg]⟩, ?_⟩
  · rcases hr with rfl | rfl | rfl <;> decide
  · rcases hr with rfl | rfl | rfl <;> decide
  · rcases hr with rfl | rfl | rfl <;> decide
  · rcases hr with rfl | rfl | rfl <;> decide
  · rcases hr with rfl | rfl | rfl <;> decide
  · rcases hr with rfl | rfl | rfl <;> decide
  · rcases hr with rfl | rfl | rfl
    · simp [base]
    · simp [trans]
    · intro a ha
      simp only [compl, List.mem_cons, List.not_mem_nil, or_false] at ha
      subst ha
      exact ⟨X, by simp, safe_of_mem ⟨2, [X]⟩ (by simp [compl]) (by simp)⟩
  · rcases hr with rfl | rfl | rfl
    · simp [base]
    · simp [trans]
    · simp [compl]
  · rcases hr with rfl | rfl | rfl
    · simp [base, arity]
    · simp [trans, arity]
    · simp [compl, arity]
  · intro i h hi _ v hv _
    have hm := List.mem_of_getElem? hi
    rcases hr with rfl | rfl | rfl
    · simp only [base, List.mem_cons, List.not_mem_nil, or_false] at hm
      subst hm
      refine safe_of_mem ⟨0, [X, Y]⟩ (by simp [base]) ?_
      simpa [HeadAtom.vars, Primitive.var?] using hv
    · simp only [trans, List.mem_cons, List.not_mem_nil, or_false] at hm
      subst hm
      have : v = X ∨ v = Z := by simpa [HeadAtom.vars, Primitive.var?] using hv
      rcases this with rfl | rfl
      · exact safe_of_mem ⟨1, [X, Y]⟩ (by simp [trans]) (by simp)
      · exact safe_of_mem ⟨0, [Y, Z]⟩ (by simp [trans]) (by simp)
    · simp only [compl, List.mem_cons, List.not_mem_nil, or_false] at hm
      subst hm
      have : v = X ∨ v = Y := by simpa [HeadAtom.vars, Primitive.var?] using hv
      rcases this with rfl | rfl
      · exact safe_of_mem ⟨2, [X]⟩ (by simp [compl]) (by simp)
      · exact safe_of_mem ⟨2, [Y]⟩ (by simp [compl]) (by simp)
  · rcases hr with rfl | rfl | rfl <;> decide

theorem prog_stratifiable : IsStratifiable prog := by
  refine ⟨fun p => if p = 3 then 1 else 0, ?_⟩
  intro r hr
  simp only [prog, List.mem_cons, List.not_mem_nil, or_false] at hr
  rcases hr with rfl | rfl | rfl <;> decide

theorem prog_functionFree : ∀ r ∈ prog, FunctionFree r := by
  intro r hr
  have hops : r.operations = [] := by
    simp only [prog, List.mem_cons, List.not_mem_nil, or_false] at hr
    rcases hr with rfl | rfl | rfl <;> rfl
  exact ⟨by simp [hops], fun o _ _ h => by simp [NRule.Remaining, hops] at h⟩

/-- the input -/
def input (edges : List (Nat × Nat)) (nodes : List Nat) : List (Tag × List (List Nat)) :=
  [(0, edges.map fun e => [e.1, e.2]), (2, nodes.map fun n => [n])]

theorem input_ok (edges : List (Nat × Nat)) (nodes : List Nat) : EdbOK (input edges nodes) arity := by
  refine ⟨by simp [input], ?_⟩
  intro x hx row hrow
  simp only [input, List.mem_cons, List.not_mem_nil, or_false] at hx
  rcases hx with rfl | rfl
  · obtain ⟨e, -, rfl⟩ := List.mem_map.1 hrow; rfl
  · obtain ⟨e, -, rfl⟩ := List.mem_map.1 hrow; rfl

/-- **The program computes reachability and its complement**, for every graph. -/
theorem reachability (edges : List (Nat × Nat)) (nodes : List Nat) : ∃ cond fuel st,
    CondOK cond ∧ Eng.execute cond prog cfgs [1, 3] fuel (Eng.init (input edges nodes)) = some (some st) ∧
    (∀ a b, [a, b] ∈ st.predicateRows 1 ↔ Relation.TransGen (fun u v => (u, v) ∈ edges) a b) ∧
    (∀ a b, [a, b] ∈ st.predicateRows 3 ↔ a ∈ nodes ∧ b ∈ nodes ∧ ¬ Relation.TransGen (fun u v => (u, v) ∈ edges) a b) := by
  obtain ⟨cond, hcond⟩ := exists_condOK
  obtain ⟨fuel, st, h⟩ := execute_terminates (outs := [1, 3]) hcond prog_ok (input_ok edges nodes) prog_stratifiable prog_functionFree
  refine ⟨cond, fuel, st, hcond, h, ?_⟩
  obtain ⟨c1, c2⟩ := execute_complete hcond prog_ok (input_ok edges nodes) h
  have hsound := execute_sound hcond prog_ok (input_ok edges nodes) h
  have hedge : ∀ a b, (a, b) ∈ edges → st.answers 0 [a, b] := fun a b hab =>
    c1 0 _ ⟨edges.map fun e => [e.1, e.2], by simp [input], List.mem_map.2 ⟨(a, b), hab, rfl⟩⟩
  have hnode : ∀ a, a ∈ nodes → st.answers 2 [a] := fun a ha =>
    c1 2 _ ⟨nodes.map fun n => [n], by simp [input], List.mem_map.2 ⟨a, ha, rfl⟩⟩
  -- a valuation for the variables
  let val : Nat → Nat → Nat → Variable → Nat := fun a b c v => if v = X then a else if v = Y then b else c
  have path1 : ∀ a b, Relation.TransGen (fun u v => (u, v) ∈ edges) a b → st.answers 1 [a, b] := by
    intro a b hab
    induction hab with
    | @single b hb =>
      have := c2 base (by simp [prog]) 1 [a, b] (DerivesWith.plain (σ := val a b 0) (h := ⟨1, [.var X, .var Y]⟩) (i := 0)
        ⟨?_, by simp [base], by simp [base]⟩ rfl (by simp [base]))
      · exact this
      · intro x hx
        simp only [base, List.mem_cons, List.not_mem_nil, or_false] at hx
        subst hx
        exact hedge a b hb
    | @tail b c _ hbc ih =>
      have := c2 trans (by simp [prog]) 1 [a, c] (DerivesWith.plain (σ := val a b c) (h := ⟨1, [.var X, .var Z]⟩) (i := 0)
        ⟨?_, by simp [trans], by simp [trans]⟩ rfl (by simp [trans]))
      · exact this
      · intro x hx
        simp only [trans, List.mem_cons, List.not_mem_nil, or_false] at hx
        rcases hx with rfl | rfl
        · exact ih
        · exact hedge b c hbc
  have hI := hsound (fun p row => (p = 0 → ∃ u v, (u, v) ∈ edges ∧ row = [u, v]) ∧ (p = 2 → ∃ u ∈ nodes, row = [u]) ∧
    (p = 1 → ∃ u v, Relation.TransGen (fun u v => (u, v) ∈ edges) u v ∧ row = [u, v]) ∧
    (p = 3 → ∃ u v, u ∈ nodes ∧ v ∈ nodes ∧ ¬ st.answers 1 [u, v] ∧ row = [u, v])) ?_
  · have path2 : ∀ a b, st.answers 1 [a, b] → Relation.TransGen (fun u v => (u, v) ∈ edges) a b := by
      intro a b hab
      obtain ⟨u, v, h1, h2⟩ := (hI 1 [a, b] hab).2.2.1 rfl
      simp only [List.cons.injEq, and_true] at h2
      obtain ⟨rfl, rfl⟩ := h2
      exact h1
    refine ⟨fun a b => ⟨path2 a b, path1 a b⟩, fun a b => ⟨fun hab => ?_, ?_⟩⟩
    · obtain ⟨u, v, h1, h2, h3, h4⟩ := (hI 3 [a, b] hab).2.2.2 rfl
      simp only [List.cons.injEq, and_true] at h4
      obtain ⟨rfl, rfl⟩ := h4
      exact ⟨h1, h2, fun hc => h3 (path1 _ _ hc)⟩
    · rintro ⟨ha, hb, hn⟩
      have := c2 compl (by simp [prog]) 3 [a, b] (DerivesWith.plain (σ := val a b 0) (h := ⟨3, [.var X, .var Y]⟩) (i := 0)
        ⟨?_, by simp [compl], ?_⟩ rfl (by simp [compl]))
      · exact this
      · intro x hx
        simp only [compl, List.mem_cons, List.not_mem_nil, or_false] at hx
        rcases hx with rfl | rfl
        · exact hnode a ha
        · exact hnode b hb
      · intro x hx
        simp only [compl, List.mem_cons, List.not_mem_nil, or_false] at hx
        subst hx
        rintro ⟨τ, t1, t2, -⟩
        have hX := t1 X (safe_of_mem ⟨2, [X]⟩ (by simp [compl]) (by simp))
        have hY := t1 Y (safe_of_mem ⟨2, [Y]⟩ (by simp [compl]) (by simp))
        simp only [List.map_cons, List.map_nil, hX, hY] at t2
        exact hn (path2 a b t2)
  · refine ⟨?_, ?_⟩
    · rintro p row ⟨t, ht, hrow⟩
      simp only [input, List.mem_cons, Prod.mk.injEq, List.not_mem_nil, or_false] at ht
      rcases ht with ⟨rfl, rfl⟩ | ⟨rfl, rfl⟩
      · obtain ⟨e, he, rfl⟩ := List.mem_map.1 hrow
        exact ⟨fun _ => ⟨e.1, e.2, he, rfl⟩, by intro hh; simp at hh, by intro hh; simp at hh, by intro hh; simp at hh⟩
      · obtain ⟨e, he, rfl⟩ := List.mem_map.1 hrow
        exact ⟨by intro hh; simp at hh, fun _ => ⟨e, he, rfl⟩, by intro hh; simp at hh, by intro hh; simp at hh⟩
    · intro r hr p row hd
      simp only [prog, List.mem_cons, List.not_mem_nil, or_false] at hr
      rcases hr with rfl | rfl | rfl
      · cases hd with
        | agg _ h2 _ => simp [base] at h2
        | @plain σ hh i hb hi _ =>
          have hm := List.mem_of_getElem? hi
          simp only [base, List.mem_cons, List.not_mem_nil, or_false] at hm
          subst hm
          refine ⟨by intro hh; simp at hh, by intro hh; simp at hh, fun _ => ?_, by intro hh; simp at hh⟩
          obtain ⟨u, v, h1, h2⟩ := (hb.pos ⟨0, [X, Y]⟩ (by simp [base])).1 rfl
          simp only [List.map_cons, List.map_nil, List.cons.injEq, and_true] at h2
          exact ⟨u, v, .single h1, by simp [HeadAtom.inst, Primitive.inst, h2.1, h2.2]⟩
      · cases hd with
        | agg _ h2 _ => simp [trans] at h2
        | @plain σ hh i hb hi _ =>
          have hm := List.mem_of_getElem? hi
          simp only [trans, List.mem_cons, List.not_mem_nil, or_false] at hm
          subst hm
          refine ⟨by intro hh; simp at hh, by intro hh; simp at hh, fun _ => ?_, by intro hh; simp at hh⟩
          obtain ⟨u, v, h1, h2⟩ := (hb.pos ⟨1, [X, Y]⟩ (by simp [trans])).2.2.1 rfl
          obtain ⟨v', w, h3, h4⟩ := (hb.pos ⟨0, [Y, Z]⟩ (by simp [trans])).1 rfl
          simp only [List.map_cons, List.map_nil, List.cons.injEq, and_true] at h2 h4
          have : v = v' := by rw [← h2.2, ← h4.1]
          subst this
          exact ⟨u, w, h1.tail h3, by simp [HeadAtom.inst, Primitive.inst, h2.1, h4.2]⟩
      · cases hd with
        | agg _ h2 _ => simp [compl] at h2
        | @plain σ hh i hb hi _ =>
          have hm := List.mem_of_getElem? hi
          simp only [compl, List.mem_cons, List.not_mem_nil, or_false] at hm
          subst hm
          refine ⟨by intro hh; simp at hh, by intro hh; simp at hh, by intro hh; simp at hh, fun _ => ?_⟩
          obtain ⟨u, h1, h2⟩ := (hb.pos ⟨2, [X]⟩ (by simp [compl])).2.1 rfl
          obtain ⟨v, h3, h4⟩ := (hb.pos ⟨2, [Y]⟩ (by simp [compl])).2.1 rfl
          simp only [List.map_cons, List.map_nil, List.cons.injEq, and_true] at h2 h4
          refine ⟨u, v, h1, h3, fun hc => ?_, by simp [HeadAtom.inst, Primitive.inst, h2, h4]⟩
          exact hb.neg ⟨1, [X, Y]⟩ (by simp [compl]) ⟨σ, fun _ _ => rfl, by simpa [h2, h4] using hc, by simp [compl]⟩

end Example

/-! ## A rule that is accepted but evaluated wrongly -/

theorem genNegation_filter {α : Type} (vars : List Variable) (neg : List BodyAtom) (os : List (Operation α)) :
    genNegation vars neg os = genNegation vars (neg.filter fun a => a.terms.any (decide <| · ∈ vars)) os := by
  induction neg generalizing os with
  | nil => rfl
  | cons a neg ih =>
    by_cases h : ∀ v ∈ a.terms, v ∉ vars
    · have : (a.terms.any (decide <| · ∈ vars)) = false := by simpa using h
      rw [genNegation, if_pos h, List.filter_cons, this, ih]; rfl
    · have h' : (a.terms.any (decide <| · ∈ vars)) = true := by
        push Not at h
        obtain ⟨v, h1, h2⟩ := h
        exact List.any_eq_true.2 ⟨v, h1, by simpa using h2⟩
      rw [genNegation, if_neg h, List.filter_cons, if_pos h', genNegation, if_neg h]
      simp only [ih]

/-- The rule `p1(?x) :- p0(?x), ~p2(?y)`: it is accepted (`?y` occurs in only one negated atom), and means
that no fact for `p2` exists. -/
def ignoredRule : NRule Nat :=
  ⟨[⟨0, [.universal 0]⟩], [⟨2, [.universal 1]⟩], [], [⟨1, [.var (.universal 0)]⟩], none, [.universal 0]⟩

/-- The same rule without the negated atom. -/
def plainRule : NRule Nat := { ignoredRule with negative := [] }

theorem evalBody_ignored (src : Source Nat) (cur last : Nat) :
    evalBody src cur last ignoredRule = evalBody src cur last plainRule := by
  have h1 : (genSeminaive src cur last true ignoredRule.order ignoredRule.positive).cols = [.universal 0] := by
    simp [genSeminaive, ignoredRule, Rel.union, restrictOrder, atomVars]
  have h2 : genFunction (α := Nat) [.universal 0] [] = (⟨[.universal 0], []⟩, []) := by
    rw [genFunction, FnSt.loop]; simp [FnSt.pass]
  have h3 : plainRule.operations = [] := rfl
  have h4 : ignoredRule.operations = [] := rfl
  unfold evalBody genFFN
  rw [show plainRule.order = ignoredRule.order from rfl, show plainRule.positive = ignoredRule.positive from rfl, h1, h3, h4, h2]
  dsimp only
  rw [genNegation_filter]
  rfl

/-- **Negated atoms without shared variables are ignored** (negation.rs:43-50; a defect of the code that restricts C21):
the engine treats the rule exactly like the rule without the negated atom, but with the facts `p0(5)` and
`p2(7)` only the latter derives `p1(5)`. -/
theorem negated_atom_ignored :
    (∀ (st : Eng Nat) (cfg : RuleCfg) (i : Nat), st.iterate [ignoredRule] [cfg] i = st.iterate [plainRule] [cfg] i) ∧
    let input : List (Tag × List (List Nat)) := [(0, [[5]]), (2, [[7]])]
    Derives plainRule (edbFacts input) (edbFacts input) 1 [5] ∧
    ¬ Derives ignoredRule (edbFacts input) (edbFacts input) 1 [5] := by
  refine ⟨?_, ?_, ?_⟩
  · intro st cfg i
    unfold Eng.iterate Eng.step
    cases i with
    | succ i => simp
    | zero =>
      have : ∀ src cur last next, executeRule src cur last ignoredRule cfg next = executeRule src cur last plainRule cfg next := by
        intro src cur last next
        unfold executeRule
        rw [evalBody_ignored]
        rfl
      simp only [List.getElem?_cons_zero, Option.bind_eq_bind, Option.bind_some, this]
  · refine DerivesWith.plain (σ := fun _ => 5) (h := ⟨1, [.var (.universal 0)]⟩) (i := 0) ⟨?_, ?_, ?_⟩ rfl (by simp [plainRule, ignoredRule])
    · intro a ha
      simp only [plainRule, ignoredRule, List.mem_cons, List.not_mem_nil, or_false] at ha
      subst ha
      exact ⟨[[5]], by simp, by simp⟩
    · simp [plainRule, ignoredRule]
    · simp [plainRule]
  suffices hs : ∀ p row, ¬ Derives ignoredRule (edbFacts [(0, [[5]]), (2, [[7]])]) (edbFacts [(0, [[5]]), (2, [[7]])]) p row from hs 1 [5]
  intro p row h
  cases h with
  | agg _ h2 _ => simp [ignoredRule] at h2
  | @plain σ hd i hb hi _ =>
    refine hb.neg ⟨2, [.universal 1]⟩ (by simp [ignoredRule]) ⟨fun v => if v = .universal 1 then 7 else σ v, ?_, ?_, ?_⟩
    · intro v hv
      cases hv with
      | atom ha hm =>
        simp only [ignoredRule, List.mem_cons, List.not_mem_nil, or_false] at ha
        subst ha
        simp only [List.mem_cons, List.not_mem_nil, or_false] at hm
        subst hm
        simp
      | assign ho _ _ => simp [ignoredRule] at ho
    · exact ⟨[[7]], by simp, by simp⟩
    · simp [ignoredRule]

end Verif
