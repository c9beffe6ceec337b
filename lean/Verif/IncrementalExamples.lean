import Verif.PropIncrementalMore
import Verif.NormalizeExamples

/-!
# Import clauses instead of imports: examples and counterexamples
-/

set_option linter.unusedSimpArgs false
set_option maxRecDepth 100000

namespace Verif.IncExample
open SourceExample Inc

/-- the imported predicates, and another one -/
def w : Tag := nameCode "w"
def u : Tag := nameCode "u"
def p : Tag := nameCode "p"
def q : Tag := nameCode "q"

theorem w_u : w ≠ u := fun h => absurd (nameCode_inj h) (by decide)
theorem w_p : w ≠ p := fun h => absurd (nameCode_inj h) (by decide)
theorem w_q : w ≠ q := fun h => absurd (nameCode_inj h) (by decide)
theorem u_p : u ≠ p := fun h => absurd (nameCode_inj h) (by decide)
theorem u_q : u ≠ q := fun h => absurd (nameCode_inj h) (by decide)
theorem p_q : p ≠ q := fun h => absurd (nameCode_inj h) (by decide)

/-- `q(?x, ?y) :- p(?x), w(?x, ?y), ~w(?y, 5)` -/
def rule1 : WRule Nat := ⟨[⟨q, [.var x, .var y]⟩], [.positive ⟨p, [.var x]⟩, .positive ⟨w, [.var x, .var y]⟩, .negative ⟨w, [.var y, .const 5]⟩]⟩

/-- A program with an import of `w` -/
def prog1 : List (Stmt Nat (WRule Nat)) := [.imp ⟨w, some 0, [[1, 2], [1, 3], [3, 5]]⟩, .fact p [1], .rule rule1, .output q]

theorem prog1_inc : incrementalPredicates prog1 = [⟨w, some 0, [[1, 2], [1, 3], [3, 5]]⟩] := by decide +kernel

/-- The rule becomes `q(?x, ?y) :- p(?x), _w_0(?x, ?y), ~_w_1(?y, ?N), ?N = 5`. -/
theorem prog1_new : incProgram prog1 = [.fact p [1],
    .rule ⟨⟨[⟨q, [.var x, .var y]⟩], [.positive ⟨p, [.var x]⟩, .operation (.equal (.var (importVar w 1)) (.const 5))]⟩,
      [⟨true, w, privTag w 0, [[1, 2], [1, 3], [3, 5]], [x, y]⟩, ⟨false, w, privTag w 1, [[1, 2], [1, 3], [3, 5]], [y, importVar w 1]⟩]⟩, .output q] := by
  unfold incProgram
  rw [prog1_inc]
  rfl

theorem ordinary {s : String} (h : s.toList.head? ≠ some '_') : Ordinary (.named s) := by
  refine ordinary_named fun hp => h ?_
  obtain ⟨t, ht⟩ := hp
  rw [← ht]
  rfl

theorem priv_ne {s : String} (h : s.toList.head? ≠ some '_') (k : Tag) (i : Nat) : nameCode s ≠ privTag k i := by
  intro he
  have := congrArg String.toList (nameCode_inj he)
  rw [this] at h
  simp [String.toList_append] at h

theorem rule1_positive : rule1.toS.positive = [⟨p, [.var x]⟩, ⟨w, [.var x, .var y]⟩] := rfl
theorem rule1_negative : rule1.toS.negative = [⟨w, [.var y, .const 5]⟩] := rfl

/-- The hypotheses of `incremental_stable_partial` hold for this program. -/
theorem prog1_ok : ProgramOK prog1 := by
  have hr : ∀ r, .rule r ∈ prog1 → r = rule1 := by intro r h; simpa [prog1] using h
  refine ⟨fun r h => ?_, fun r h => ?_, fun r h => ?_⟩ <;> obtain rfl := hr r h
  · refine ⟨fun v hv => ?_, fun a ha o ho => ?_, fun a ha _ => ?_, fun a ha b hb hi hp i t t' ht ht' h1 h2 => ?_, fun a ha _ i j h1 => ?_, fun a ha b hb _ _ h => ?_,
      fun a ha b hb _ _ h => ?_⟩
    · have : v = x ∨ v = y := by
        simp [SRule.vars, rule1, WRule.toS, LLit.positive?, LLit.negative?, LLit.operation?, HTerm.varsList, HTerm.vars, List.filterMap_cons] at hv
        tauto
      rcases this with rfl | rfl <;> exact ordinary (by decide)
    all_goals
      rw [rule1_positive] at ha
      try rw [rule1_negative] at ha
      simp only [List.cons_append, List.nil_append, List.mem_cons, List.not_mem_nil, or_false] at ha
    · rcases ha with rfl | rfl | rfl <;> simp at ho
    · rcases ha with rfl | rfl | rfl
      · exact ⟨_, rfl⟩
      · exact ⟨_, rfl⟩
      · exact ⟨_, rfl⟩
    · rw [rule1_positive, rule1_negative] at hb
      simp only [List.cons_append, List.nil_append, List.mem_cons, List.not_mem_nil, or_false] at hb
      have ha' : t = .const 5 := by
        have := List.mem_of_getElem? ht
        rcases ha with rfl | rfl | rfl <;> simp at this <;> (try (rcases this with rfl | rfl)) <;> (try subst this) <;> simp_all [isVar]
      have hb' : t' = .const 5 := by
        have := List.mem_of_getElem? ht'
        rcases hb with rfl | rfl | rfl <;> simp at this <;> (try (rcases this with rfl | rfl)) <;> (try subst this) <;> simp_all [isVar]
      rw [ha', hb']
    · have := List.mem_of_getElem? h1
      rcases ha with rfl | rfl | rfl <;> simp at this
    · rcases ha with rfl | rfl <;> simp at h
    · rcases ha with rfl | rfl <;> simp at h
  · intro a _ b _ d e hd he _ _
    simp [prog1] at hd he
    rw [hd, he]
  · intro a ha
    rw [rule1_positive, rule1_negative] at ha
    simp only [List.cons_append, List.nil_append, List.mem_cons, List.not_mem_nil, or_false] at ha
    rcases ha with rfl | rfl | rfl <;> exact priv_ne (by decide)

/-- The import of `w` is restricted by `p(?x)`. -/
theorem prog1_restricted : Restricted rule1 (incrementalPredicates prog1) ⟨w, [.var x, .var y]⟩ := by
  refine (incremental_restricted_partial (ss := prog1) (r := rule1) (by simp [prog1]) (fun a ha _ h => ?_) (a := ⟨w, [.var x, .var y]⟩)
    (by simp [rule1_positive]) (by rw [prog1_inc]; simp [isInc])).resolve_left (by simp [isVar])
  rw [rule1_positive] at ha
  simp only [List.mem_cons, List.not_mem_nil, or_false] at ha
  rcases ha with rfl | rfl <;> simp [atomVariables, termVars] at h
  · exact anonVar_not_named _ h
  · rcases h with h | h <;> exact anonVar_not_named _ h

/-! ## Counterexamples -/

section
variable {ss : List (Stmt Nat (CRule Nat))}

/-- If no rule is applicable then nothing is derived. -/
theorem nothing {r : CRule Nat} (h : ∀ P N σ, ¬ SBody r.toS (r.load P) N σ) (P N : Interp Nat) (t : Tag) (row : List Nat) : ¬ CDerives r P N t row := by
  rintro (⟨-, h1⟩ | ⟨-, h1⟩) <;> cases h1 with
  | plain hb => exact h _ _ _ hb
  | agg hb => exact h _ _ _ hb

end

/-- `q(?x) :- p(?x), w(?x, ?y), u(?x, ?z)`, where `w` and `u` are imported from different endpoints -/
def rule2 : WRule Nat := ⟨[⟨q, [.var x]⟩], [.positive ⟨p, [.var x]⟩, .positive ⟨w, [.var x, .var y]⟩, .positive ⟨u, [.var x, .var (.named "z")]⟩]⟩
def prog2 : List (Stmt Nat (WRule Nat)) := [.imp ⟨w, some 0, [[1, 2]]⟩, .imp ⟨u, some 1, [[1, 3]]⟩, .fact p [1], .rule rule2, .output q]

theorem prog2_inc : incrementalPredicates prog2 = [⟨w, some 0, [[1, 2]]⟩, ⟨u, some 1, [[1, 3]]⟩] := by decide +kernel

/-- The imports are removed, but the rule is not changed. -/
theorem prog2_new : incProgram prog2 = [.fact p [1], .rule ⟨rule2, []⟩, .output q] := by
  unfold incProgram
  rw [prog2_inc]
  rfl

/-- **Counterexample**: the program has the answer `q(1)`, the transformed program does not have answers for `q`. -/
theorem two_endpoints_lost (N : Interp Nat) : SLeastModel ((rulesOf prog2).map WRule.toS) (given prog2) N q [1] ∧
    ¬ CLeastModel (rulesOf (incProgram prog2)) (given (incProgram prog2)) N q [1] := by
  constructor
  · intro I hI
    refine hI.2 rule2.toS (by simp [prog2, rulesOf]) q [1] (.inl ⟨?_, .plain (σ := fun v => if v = x then 1 else if v = y then 2 else 3) (h := ⟨q, [.var x]⟩) ⟨?_, ?_, ?_, ?_⟩ (by simp [rule2, WRule.toS])
      (by simp [HTerm.aggCount]) (by simp [HTerm.value])⟩)
    · simp [SRule.HasAgg, rule2, WRule.toS, HTerm.aggCount]
    · intro a ha
      simp [rule2, WRule.toS, LLit.positive?, List.filterMap_cons] at ha
      rcases ha with rfl | rfl | rfl
      · exact ⟨[1], hI.1 _ _ (.inl (by simp [prog2])), by simp [SAtom.Matches, BTerm.Matches]⟩
      · exact ⟨[1, 2], hI.1 _ _ (.inr ⟨⟨w, some 0, [[1, 2]]⟩, by simp [prog2], rfl, by simp⟩), by simp [SAtom.Matches, BTerm.Matches]; decide⟩
      · exact ⟨[1, 3], hI.1 _ _ (.inr ⟨⟨u, some 1, [[1, 3]]⟩, by simp [prog2], rfl, by simp⟩), by simp [SAtom.Matches, BTerm.Matches]; decide⟩
    · simp [rule2, WRule.toS, LLit.operation?, List.filterMap_cons]
    · simp [rule2, WRule.toS, LLit.negative?, List.filterMap_cons]
    · refine ⟨by simp [rule2, WRule.toS, LLit.negative?, List.filterMap_cons], by simp [rule2, WRule.toS, HTerm.value], by simp [rule2, WRule.toS, HTerm.agg?]⟩
  · intro h
    rw [prog2_new] at h
    have := h (fun t _ => t = p) ⟨fun t row ht => ?_, fun r hr t row hd => ?_⟩
    · exact p_q this.symm
    · simp [given] at ht
      exact ht.1
    · simp [rulesOf] at hr
      subst hr
      exfalso
      have hb : ∃ (σ : Variable → Nat) (P : Interp Nat), P w = (fun _ => False) ∧ SBody rule2.toS P (CRule.load ⟨rule2, []⟩ N) σ := by
        have hS : (⟨rule2, []⟩ : CRule Nat).toS = rule2.toS := by simp [CRule.toS]
        rcases hd with ⟨-, h1⟩ | ⟨h1, -⟩
        · rw [hS] at h1
          cases h1 with
          | plain hb => exact ⟨_, _, by funext row; simp [CRule.load, w_p], hb⟩
          | agg hb => exact ⟨_, _, by funext row; simp [CRule.load, w_p], hb⟩
        · simp [SRule.HasAgg, CRule.toS, rule2, WRule.toS, HTerm.aggCount] at h1
      obtain ⟨σ, P, h1, h2⟩ := hb
      obtain ⟨row, h3, -⟩ := h2.pos ⟨w, [.var x, .var y]⟩ (by simp [rule2, WRule.toS, LLit.positive?, List.filterMap_cons])
      simp only [h1] at h3

/-- `q(?x) :- p(?x), ~w(?x, 5), ~w(?x, 6)` -/
def rule3 : WRule Nat := ⟨[⟨q, [.var x]⟩], [.positive ⟨p, [.var x]⟩, .negative ⟨w, [.var x, .const 5]⟩, .negative ⟨w, [.var x, .const 6]⟩]⟩
def prog3 : List (Stmt Nat (WRule Nat)) := [.imp ⟨w, some 0, [[2, 5]]⟩, .fact p [1], .rule rule3, .output q]

theorem prog3_inc : incrementalPredicates prog3 = [⟨w, some 0, [[2, 5]]⟩] := by decide +kernel

/-- The rule becomes `q(?x) :- p(?x), ~_w_0(?x, ?N), ~_w_1(?x, ?N), ?N = 5, ?N = 6`. -/
theorem prog3_new : incProgram prog3 = [.fact p [1],
    .rule ⟨⟨[⟨q, [.var x]⟩], [.positive ⟨p, [.var x]⟩, .operation (.equal (.var (importVar w 1)) (.const 5)),
        .operation (.equal (.var (importVar w 1)) (.const 6))]⟩,
      [⟨false, w, privTag w 0, [[2, 5]], [x, importVar w 1]⟩, ⟨false, w, privTag w 1, [[2, 5]], [x, importVar w 1]⟩]⟩, .output q] := by
  unfold incProgram
  rw [prog3_inc]
  rfl

/-- **Counterexample**: the program has the answer `q(1)`, the transformed program does not have answers for `q`. -/
theorem same_variable_lost : SLeastModel ((rulesOf prog3).map WRule.toS) (given prog3) (given prog3) q [1] ∧
    ∀ N, ¬ CLeastModel (rulesOf (incProgram prog3)) (given (incProgram prog3)) N q [1] := by
  constructor
  · intro I hI
    refine hI.2 rule3.toS (by simp [prog3, rulesOf]) q [1] (.inl ⟨?_, .plain (σ := fun _ => 1) (h := ⟨q, [.var x]⟩) ⟨?_, ?_, ?_, ?_⟩ (by simp [rule3, WRule.toS])
      (by simp [HTerm.aggCount]) (by simp [HTerm.value])⟩)
    · simp [SRule.HasAgg, rule3, WRule.toS, HTerm.aggCount]
    · intro a ha
      simp [rule3, WRule.toS, LLit.positive?, List.filterMap_cons] at ha
      subst ha
      exact ⟨[1], hI.1 _ _ (.inl (by simp [prog3])), by simp [SAtom.Matches, BTerm.Matches]⟩
    · simp [rule3, WRule.toS, LLit.operation?, List.filterMap_cons]
    · intro a ha
      have hx : SSafe rule3.toS x := .atom (a := ⟨p, [.var x]⟩) (by simp [rule3, WRule.toS, LLit.positive?, List.filterMap_cons]) (by simp)
      rintro ⟨τ, row, h1, h2, h3, -⟩
      have hw : row = [2, 5] := by
        have : a.pred = w := by
          simp [rule3, WRule.toS, LLit.negative?, List.filterMap_cons] at ha
          rcases ha with rfl | rfl <;> rfl
        rw [this] at h2
        simpa [given, prog3, w_p] using h2
      subst hw
      simp [rule3, WRule.toS, LLit.negative?, List.filterMap_cons] at ha
      rcases ha with rfl | rfl <;> simp [SAtom.Matches, BTerm.Matches, h1 x hx] at h3
    · refine ⟨?_, by simp [rule3, WRule.toS, HTerm.value], by simp [rule3, WRule.toS, HTerm.agg?]⟩
      intro a ha o ho
      simp [rule3, WRule.toS, LLit.negative?, List.filterMap_cons] at ha
      rcases ha with rfl | rfl <;> simp at ho
  · intro N h
    rw [prog3_new] at h
    have := h (fun t _ => t = p) ⟨fun t row ht => ?_, fun r hr t row hd => ?_⟩
    · exact p_q this.symm
    · simp [given] at ht
      exact ht.1
    · simp [rulesOf] at hr
      subst hr
      refine absurd hd (nothing (fun P N σ hb => ?_) _ _ _ _)
      have hs : ∀ c, (.equal (.var (importVar w 1)) (.const c) : Operation Nat) ∈ [.equal (.var (importVar w 1)) (.const 5), .equal (.var (importVar w 1)) (.const 6)] →
          σ (importVar w 1) = c := by
        intro c hc
        have ho := hb.ops (.equal (.var (importVar w 1)) (.const c)) (by
          simpa [CRule.toS, WRule.toS, LLit.operation?, List.filterMap_cons] using hc) (fun v hv => ?_)
        · simpa [Operation.eval, eq_comm] using (eval_assign σ (importVar w 1) (.const c)).1 ho
        · simp only [Operation.vars, List.append_nil, List.mem_singleton] at hv
          subst hv
          exact .assign (o := .equal (.var (importVar w 1)) (.const 5)) (e := .const 5) (by simp [CRule.toS, WRule.toS, LLit.operation?, List.filterMap_cons]) rfl (by simp [Operation.vars])
      have h5 := hs 5 (by simp)
      have h6 := hs 6 (by simp)
      omega

/-- `q(?x) :- p(?x), w(?x, _), u(?x, _)` -/
def rule4 : WRule Nat := ⟨[⟨q, [.var x]⟩], [.positive ⟨p, [.var x]⟩, .positive ⟨w, [.var x, .anon]⟩, .positive ⟨u, [.var x, .anon]⟩]⟩
def prog4 : List (Stmt Nat (WRule Nat)) := [.imp ⟨w, some 0, [[1, 2]]⟩, .imp ⟨u, some 0, [[1, 3]]⟩, .fact p [1], .rule rule4, .output q]

theorem prog4_inc : incrementalPredicates prog4 = [⟨w, some 0, [[1, 2]]⟩, ⟨u, some 0, [[1, 3]]⟩] := by decide +kernel

/-- Both clauses have the same (anonymous) variable. -/
theorem prog4_new : incProgram prog4 = [.fact p [1],
    .rule ⟨⟨[⟨q, [.var x]⟩], [.positive ⟨p, [.var x]⟩]⟩, [⟨true, w, privTag w 0, [[1, 2]], [x, anonVar]⟩, ⟨true, u, privTag u 1, [[1, 3]], [x, anonVar]⟩]⟩, .output q] := by
  unfold incProgram
  rw [prog4_inc]
  rfl

/-- **Counterexample**: the program has the answer `q(1)`, the transformed program does not have answers for `q`. -/
theorem anonymous_joined (N : Interp Nat) : SLeastModel ((rulesOf prog4).map WRule.toS) (given prog4) N q [1] ∧
    ¬ CLeastModel (rulesOf (incProgram prog4)) (given (incProgram prog4)) N q [1] := by
  constructor
  · intro I hI
    refine hI.2 rule4.toS (by simp [prog4, rulesOf]) q [1] (.inl ⟨?_, .plain (σ := fun _ => 1) (h := ⟨q, [.var x]⟩) ⟨?_, ?_, ?_, ?_⟩ (by simp [rule4, WRule.toS])
      (by simp [HTerm.aggCount]) (by simp [HTerm.value])⟩)
    · simp [SRule.HasAgg, rule4, WRule.toS, HTerm.aggCount]
    · intro a ha
      simp [rule4, WRule.toS, LLit.positive?, List.filterMap_cons] at ha
      rcases ha with rfl | rfl | rfl
      · exact ⟨[1], hI.1 _ _ (.inl (by simp [prog4])), by simp [SAtom.Matches, BTerm.Matches]⟩
      · exact ⟨[1, 2], hI.1 _ _ (.inr ⟨⟨w, some 0, [[1, 2]]⟩, by simp [prog4], rfl, by simp⟩), by simp [SAtom.Matches, BTerm.Matches]⟩
      · exact ⟨[1, 3], hI.1 _ _ (.inr ⟨⟨u, some 0, [[1, 3]]⟩, by simp [prog4], rfl, by simp⟩), by simp [SAtom.Matches, BTerm.Matches]⟩
    · simp [rule4, WRule.toS, LLit.operation?, List.filterMap_cons]
    · simp [rule4, WRule.toS, LLit.negative?, List.filterMap_cons]
    · refine ⟨by simp [rule4, WRule.toS, LLit.negative?, List.filterMap_cons], by simp [rule4, WRule.toS, HTerm.value], by simp [rule4, WRule.toS, HTerm.agg?]⟩
  · intro h
    rw [prog4_new] at h
    have := h (fun t _ => t = p) ⟨fun t row ht => ?_, fun r hr t row hd => ?_⟩
    · exact p_q this.symm
    · simp [given] at ht
      exact ht.1
    · simp [rulesOf] at hr
      subst hr
      refine absurd hd (nothing (fun P N σ hb => ?_) _ _ _ _)
      have hne : privTag u 1 ≠ privTag w 0 := fun h => absurd (privTag_inj h) (by decide)
      obtain ⟨row1, h1, h2⟩ := hb.pos ⟨privTag w 0, [.var x, .var anonVar]⟩ (by simp [CRule.toS, WRule.toS, Clause.atom])
      obtain ⟨row2, h3, h4⟩ := hb.pos ⟨privTag u 1, [.var x, .var anonVar]⟩ (by simp [CRule.toS, WRule.toS, Clause.atom])
      simp [CRule.load, hne] at h1
      simp [CRule.load, hne.symm] at h3
      subst h1 h3
      simp [SAtom.Matches, BTerm.Matches] at h2 h4
      omega

/-- `q(?y) :- p(?x, _), w(?y, _)`: the import is regarded as restricted because of the anonymous variables, although it shares no variable
with the rest of the rule. -/
def rule5 : WRule Nat := ⟨[⟨q, [.var y]⟩], [.positive ⟨p, [.var x, .anon]⟩, .positive ⟨w, [.var y, .anon]⟩]⟩
def prog5 : List (Stmt Nat (WRule Nat)) := [.imp ⟨w, some 0, [[1, 2]]⟩, .fact p [1, 1], .rule rule5, .output q]

theorem prog5_inc : incrementalPredicates prog5 = [⟨w, some 0, [[1, 2]]⟩] := by decide +kernel

/-- **Counterexample**: an import clause that is not restricted -/
theorem anonymous_unrestricted : isInc (incrementalPredicates prog5) w = true ∧ ¬ Restricted rule5 (incrementalPredicates prog5) ⟨w, [.var y, .anon]⟩ := by
  rw [prog5_inc]
  refine ⟨by simp [isInc], fun h => ?_⟩
  have hB : ∀ v, Bound rule5 [⟨w, some 0, [[1, 2]]⟩] v → v = x ∨ v = anonVar := by
    intro v hv
    cases hv with
    | @atom a v h1 h2 h3 =>
      simp [rule5, WRule.toS, LLit.positive?, List.filterMap_cons] at h1
      rcases h1 with rfl | rfl
      · simpa [atomVariables, termVars] using h3
      · simp [isInc] at h2
    | assign h1 => simp [rule5, WRule.toS, LLit.operation?, List.filterMap_cons] at h1
  generalize ha : (⟨w, [.var y, .anon]⟩ : SAtom Nat) = a at h
  induction h with
  | @bound a v h1 h2 h3 =>
    subst ha
    simp [atomVariables, termVars] at h1
    rcases h1 with rfl | rfl
    · rcases hB _ h3 with h | h
      · exact absurd (named_inj h) (by decide)
      · exact anonVar_not_named _ h.symm
    · exact h2 rfl
  | @merged a b v h1 h2 h3 h4 h5 h6 ih =>
    subst ha
    simp [rule5, WRule.toS, LLit.positive?, List.filterMap_cons] at h1
    rcases h1 with rfl | rfl
    · exact w_p h2.symm
    · exact ih rfl

end Verif.IncExample
