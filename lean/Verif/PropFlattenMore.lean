import Verif.PropFlatten
import Verif.TextChase

/-!
# Flattening does not change which rules are accepted, nor the meaning of program texts (C58)
-/

set_option linter.unusedSimpArgs false
set_option linter.unusedSectionVars false

namespace Verif
variable {α : Type} [DecidableEq α] [Dom α]

/-! ## Validation -/

theorem checkOper_congr {safe safe' : List Variable} {o : Operation α} (h : ∀ v ∈ o.vars, v ∈ safe' ↔ v ∈ safe) :
    checkOper safe' o = checkOper safe o := by
  rw [checkOper, checkOper, Bool.eq_iff_iff, List.all_eq_true, List.all_eq_true]
  exact forall₂_congr fun v hv => by simp only [h v hv]

theorem checkBodyTerm_congr {safe safe' : List Variable} {t : BTerm α} (h : ∀ o, t = .oper o → ∀ v ∈ o.vars, v ∈ safe' ↔ v ∈ safe) :
    checkBodyTerm safe' t = checkBodyTerm safe t := by
  cases t with
  | oper o => exact checkOper_congr (h o rfl)
  | _ => rfl

theorem checkOperand_congr {safe safe' : List Variable} {o : Operation α} (h : ∀ v ∈ o.vars, v ∈ safe' ↔ v ∈ safe) :
    checkOperand safe' o = checkOperand safe o := by
  cases o with
  | var v => rfl
  | const c => rfl
  | equal l r => exact checkOper_congr h
  | op k ts => exact checkOper_congr h

theorem operand_vars {o p : Operation α} (h : p ∈ o.operands) {v : Variable} (hv : v ∈ p.vars) : v ∈ o.vars := by
  cases o with
  | var v => simp [Operation.operands] at h
  | const c => simp [Operation.operands] at h
  | equal l r =>
    simp only [Operation.operands, List.mem_cons, List.not_mem_nil, or_false] at h
    simp only [Operation.vars, List.mem_append]
    rcases h with rfl | rfl
    · exact .inl hv
    · exact .inr hv
  | op k ts =>
    simp only [Operation.operands] at h
    simp only [Operation.vars]
    induction ts with
    | nil => cases h
    | cons t ts ih =>
      simp only [Operation.varsList, List.mem_append]
      rcases List.mem_cons.1 h with rfl | h
      · exact .inl hv
      · exact .inr (ih h)

theorem checkNegative_congr {safe safe' : List Variable} {as : List (SAtom α)} {seen : List Variable}
    (h : ∀ a ∈ as, ∀ v, .var v ∈ a.terms → (v ∈ safe' ↔ v ∈ safe)) : checkNegative safe' as seen = checkNegative safe as seen := by
  induction as generalizing seen with
  | nil => rfl
  | cons a as ih =>
    have e : unsafeVars safe' a = unsafeVars safe a := by
      refine List.filter_congr fun v hv => ?_
      rw [mem_termVars] at hv
      simp only [h a (.head _) v hv]
    rw [checkNegative, checkNegative, e, ih fun b hb => h b (.tail _ hb)]

theorem checkHeadAtom_congr {safe safe' : List Variable} {b : Bool} {x : SHead α} (h : ∀ v ∈ HTerm.varsList x.terms, v ∈ safe' ↔ v ∈ safe) :
    checkHeadAtom safe' b x = checkHeadAtom safe b x := by
  have e : (HTerm.varsList x.terms).all (fun v => v.isExistential || decide (v ∈ safe')) =
      (HTerm.varsList x.terms).all (fun v => v.isExistential || decide (v ∈ safe)) := by
    rw [Bool.eq_iff_iff, List.all_eq_true, List.all_eq_true]
    exact forall₂_congr fun v hv => by simp only [h v hv]
  rw [checkHeadAtom, checkHeadAtom, e]

theorem assigned_operand {o e : Operation α} {v : Variable} (h : o.variableAssignment = some (v, e)) : .var v ∈ o.operands := by
  unfold Operation.variableAssignment at h
  split at h
  · cases h; simp [Operation.operands]
  · cases h; simp [Operation.operands]
  · cases h

/-- No existential variables are accepted in bodies. -/
theorem validate_universal {S : SRule α} (h : S.validate = true) :
    (∀ a ∈ S.positive, ∀ v, .var v ∈ a.terms → v.isExistential = false) ∧
    ∀ o ∈ S.operations, ∀ v e, o.variableAssignment = some (v, e) → v.isExistential = false := by
  simp only [SRule.validate, Bool.and_eq_true, List.all_eq_true, Bool.not_eq_true'] at h
  obtain ⟨⟨⟨-, h3⟩, h4⟩, -⟩ := h
  refine ⟨fun a ha v hv => ?_, fun o ho v e he => ?_⟩
  · simpa [checkBodyTerm] using (h3 a (List.mem_append_left _ ha)).2 _ hv
  · simpa [checkOperand] using h4 o ho _ (assigned_operand he)

section
variable {r : WRule α} {g : Nat}

theorem flat_positive_isEmpty : (flatRule r g).1.toS.positive.isEmpty = r.toS.positive.isEmpty := by
  rw [Bool.eq_iff_iff, List.isEmpty_iff, List.isEmpty_iff, List.eq_nil_iff_forall_not_mem, List.eq_nil_iff_forall_not_mem]
  constructor
  · intro h a ha
    obtain ⟨k, hk⟩ := exists_flatAt g ha
    exact h _ (mem_flat_positive.2 ⟨a, k, hk, rfl⟩)
  · intro h a ha
    obtain ⟨b, k, hk, rfl⟩ := mem_flat_positive.1 ha
    exact h _ hk.mem

/-- **Flattening does not change whether a rule is accepted by the validation.**  (In the last condition, `o` stands for
an operation that is written in an atom; variables are terms of their own.) -/
theorem flat_validate (hu : ∀ v ∈ r.toS.vars, v.Plain) (ho : ∀ a ∈ r.toS.positive, ∀ v, .oper (.var v) ∉ a.terms) :
    (flatRule r g).1.toS.validate = r.toS.validate := by
  -- existential variables are not accepted before and after flattening
  have hex : (flatRule r g).1.toS.validate = true ∨ r.toS.validate = true →
      ((∀ a ∈ r.toS.positive, ∀ v, .var v ∈ a.terms → v.isExistential = false) ∧
        ∀ o ∈ r.toS.operations, ∀ v e, o.variableAssignment = some (v, e) → v.isExistential = false) := by
    rintro (h | h)
    · obtain ⟨h1, h2⟩ := validate_universal h
      refine ⟨fun a ha v hv => ?_, fun o ho => h2 o (mem_flat_operations.2 (.inl ho))⟩
      obtain ⟨k, hk⟩ := exists_flatAt g ha
      exact h1 _ (mem_flat_positive.2 ⟨a, k, hk, rfl⟩) v ((mem_flatTerms_var _ _ _).2 (.inl hv))
    · exact validate_universal h
  have key : (∀ a ∈ r.toS.positive, ∀ v, .var v ∈ a.terms → v.isExistential = false) →
      (∀ o ∈ r.toS.operations, ∀ v e, o.variableAssignment = some (v, e) → v.isExistential = false) →
      (flatRule r g).1.toS.validate = r.toS.validate := by
    intro h1 h2
    have hsafe : ∀ v, v.Plain → (v ∈ (flatRule r g).1.toS.safeVars ↔ v ∈ r.toS.safeVars) := by
      intro v hv
      rw [mem_safeVars _ h1 h2, mem_safeVars, flat_safe_iff hu hv]
      · intro x hx w hw
        obtain ⟨a, k, hk, rfl⟩ := mem_flat_positive.1 hx
        rcases (mem_flatTerms_var _ _ _).1 hw with h | ⟨o, h⟩
        · exact h1 a hk.mem w h
        · obtain ⟨i, h, -⟩ := flatTerms_range _ _ h
          rw [show w = _ from h]; exact tmpVar_universal i
      · intro o ho w e he
        rcases mem_flat_operations.1 ho with ho | ⟨a, k, hk, x, hx, rfl⟩
        · exact h2 o ho w e he
        · simp only [equality, Operation.variableAssignment, Option.some.injEq, Prod.mk.injEq] at he
          obtain ⟨i, h, -⟩ := flatTerms_range _ _ hx
          rw [← he.1, h]; exact tmpVar_universal i
    have hv : ∀ v ∈ r.toS.vars, v ∈ (flatRule r g).1.toS.safeVars ↔ v ∈ r.toS.safeVars := fun v hv => hsafe v (hu v hv)
    have e1 : (flatRule r g).1.toS.head.all (checkHeadAtom (flatRule r g).1.toS.safeVars
          ((flatRule r g).1.toS.head.any fun h => (HTerm.varsList h.terms).any Variable.isExistential)) =
        r.toS.head.all (checkHeadAtom r.toS.safeVars (r.toS.head.any fun h => (HTerm.varsList h.terms).any Variable.isExistential)) := by
      rw [Bool.eq_iff_iff, List.all_eq_true, List.all_eq_true, flat_head]
      exact forall₂_congr fun x hx => by
        rw [checkHeadAtom_congr fun v hv' => hv v (SRule.mem_vars_head (S := r.toS) hx hv')]
    have e2 : checkNegative (flatRule r g).1.toS.safeVars (flatRule r g).1.toS.negative [] =
        checkNegative r.toS.safeVars r.toS.negative [] := by
      rw [flat_negative]
      exact checkNegative_congr fun a ha v hv' => hv v (SRule.mem_vars_var (List.mem_append_right _ ha) hv')
    have e3 : ((flatRule r g).1.toS.positive ++ (flatRule r g).1.toS.negative).all
          (fun a => !a.terms.isEmpty && a.terms.all (checkBodyTerm (flatRule r g).1.toS.safeVars)) = true ∧
        (flatRule r g).1.toS.operations.all (fun o => o.operands.all (checkOperand (flatRule r g).1.toS.safeVars)) = true ↔
        (r.toS.positive ++ r.toS.negative).all (fun a => !a.terms.isEmpty && a.terms.all (checkBodyTerm r.toS.safeVars)) = true ∧
        r.toS.operations.all (fun o => o.operands.all (checkOperand r.toS.safeVars)) = true := by
      simp only [List.all_append, Bool.and_eq_true, List.all_eq_true, flat_negative]
      have hneg : ∀ a ∈ r.toS.negative, ∀ t ∈ a.terms, checkBodyTerm (flatRule r g).1.toS.safeVars t = checkBodyTerm r.toS.safeVars t :=
        fun a ha t ht => checkBodyTerm_congr fun o e v hv' => hv v (SRule.mem_vars_oper (List.mem_append_right _ ha) (e ▸ ht) hv')
      have hop : ∀ o ∈ r.toS.operations, ∀ p ∈ o.operands, checkOperand (flatRule r g).1.toS.safeVars p =
          checkOperand r.toS.safeVars p :=
        fun o ho p hp => checkOperand_congr fun v hv' => hv v (SRule.mem_vars_op ho (operand_vars hp hv'))
      have hlen : ∀ (a : SAtom α) k, (flatTerms a.terms k).1.isEmpty = a.terms.isEmpty := by
        intro a k
        rw [Bool.eq_iff_iff, List.isEmpty_iff, List.isEmpty_iff, ← List.length_eq_zero_iff, flatTerms_length, List.length_eq_zero_iff]
      have hope : ∀ a ∈ r.toS.positive, ∀ o, .oper o ∈ a.terms → checkOperand (flatRule r g).1.toS.safeVars o =
          checkOper r.toS.safeVars o := by
        intro a ha o h
        rw [← checkOper_congr fun v hv' => hv v (SRule.mem_vars_oper (List.mem_append_left _ ha) h hv')]
        cases o with
        | var v => exact absurd h (ho a ha v)
        | const c => rfl
        | equal l r => rfl
        | op k ts => rfl
      constructor
      · rintro ⟨⟨k1, k2⟩, k3⟩
        refine ⟨⟨fun a ha => ?_, fun a ha => ⟨(k2 a ha).1, fun t ht => hneg a ha t ht ▸ (k2 a ha).2 t ht⟩⟩,
          fun o ho p hp => hop o ho p hp ▸ k3 o (mem_flat_operations.2 (.inl ho)) p hp⟩
        obtain ⟨k, hk⟩ := exists_flatAt g ha
        have := (k1 _ (mem_flat_positive.2 ⟨a, k, hk, rfl⟩)).1
        rw [hlen] at this
        refine ⟨this, fun t ht => ?_⟩
        cases t with
        | var v => simpa [checkBodyTerm] using h1 a ha v ht
        | anon => rfl
        | const c => rfl
        | oper o =>
          obtain ⟨v, hv'⟩ := flatTerms_oper a.terms k ht
          rw [checkBodyTerm, ← hope a ha o ht]
          exact k3 _ (mem_flat_operations.2 (.inr ⟨a, k, hk, _, hv', rfl⟩)) o (by simp [equality, Operation.operands])
      · rintro ⟨⟨k1, k2⟩, k3⟩
        refine ⟨⟨fun x hx => ?_, fun a ha => ⟨(k2 a ha).1, fun t ht => hneg a ha t ht ▸ (k2 a ha).2 t ht⟩⟩, fun o ho p hp => ?_⟩
        · obtain ⟨a, k, hk, rfl⟩ := mem_flat_positive.1 hx
          refine ⟨by rw [hlen]; exact (k1 a hk.mem).1, fun t ht => ?_⟩
          rcases flatTerms_simple _ _ ht with rfl | ⟨v, rfl⟩
          · rfl
          · rcases (mem_flatTerms_var _ _ _).1 ht with h | ⟨o, h⟩
            · simpa [checkBodyTerm] using h1 a hk.mem v h
            · obtain ⟨i, h, -⟩ := flatTerms_range _ _ h
              rw [show v = _ from h]; rfl
        · rcases mem_flat_operations.1 ho with ho' | ⟨a, k, hk, x, hx, rfl⟩
          · rw [hop o ho' p hp]; exact k3 o ho' p hp
          · simp only [equality, Operation.operands, List.mem_cons, List.not_mem_nil, or_false] at hp
            rcases hp with rfl | rfl
            · obtain ⟨i, h, -⟩ := flatTerms_range _ _ hx
              rw [h]; rfl
            · rcases flatTerms_origin _ _ hx with ⟨c, -, h⟩ | h
              · rw [h]; rfl
              · rw [hope a hk.mem _ h]
                exact (k1 a hk.mem).2 _ h
    rw [Bool.eq_iff_iff]
    simp only [SRule.validate, e1, e2, flat_positive_isEmpty, Bool.and_eq_true]
    constructor
    · rintro ⟨⟨⟨⟨q1, q2⟩, q3⟩, q4⟩, q5⟩
      obtain ⟨q3, q4⟩ := e3.1 ⟨q3, q4⟩
      exact ⟨⟨⟨⟨q1, q2⟩, q3⟩, q4⟩, q5⟩
    · rintro ⟨⟨⟨⟨q1, q2⟩, q3⟩, q4⟩, q5⟩
      obtain ⟨q3, q4⟩ := e3.2 ⟨q3, q4⟩
      exact ⟨⟨⟨⟨q1, q2⟩, q3⟩, q4⟩, q5⟩
  by_cases h : (flatRule r g).1.toS.validate = true ∨ r.toS.validate = true
  · exact key (hex h).1 (hex h).2
  · rw [not_or, Bool.not_eq_true, Bool.not_eq_true] at h
    rw [h.1, h.2]

end

/-! ## Programs with existential rules -/

/-- Flattening keeps the conditions on programs. -/
theorem flat_xok {rs : List (WRule α)} {sat : Nat → Tag} {arity : Tag → Nat} (h : SXProgOK (rs.map WRule.toS) sat arity)
    (hp : ∀ r ∈ rs, ∀ v ∈ r.toS.vars, v.Plain) : SXProgOK ((flatProgram rs).map WRule.toS) sat arity := by
  have hV : ∀ r ∈ rs, SValid r.toS := fun r hr => h.valid _ (List.mem_map_of_mem hr)
  have hf : ∀ r ∈ rs, Flattenable r := fun r hr => (hV r hr).flattenable (hp r hr)
  refine ⟨fun S hS => ?_, fun S hS => ?_, fun S hS => ?_, fun S hS => ?_, fun S hS hx => ?_, h.satInj, fun i S hS => ?_⟩ <;>
    obtain ⟨r, hr, k, rfl⟩ := mem_flatProgram hS
  · exact flat_valid (hV r hr)
  · exact flat_bodyOK (hf r hr).plain (hf r hr).safe (h.body _ (List.mem_map_of_mem hr))
  · exact h.headArity r.toS (List.mem_map_of_mem hr)
  · exact flat_noNulls (h.noNulls _ (List.mem_map_of_mem hr))
  · exact flat_exOK (h.ex r.toS (List.mem_map_of_mem hr) hx)
  · obtain ⟨h1, h2⟩ := h.satFresh i r.toS (List.mem_map_of_mem hr)
    refine ⟨fun a ha => ?_, h2⟩
    rcases List.mem_append.1 ha with ha | ha
    · obtain ⟨b, i, hi, rfl⟩ := mem_flat_positive.1 ha
      exact h1 b (List.mem_append_left _ hi.mem)
    · exact h1 a (List.mem_append_right _ (mem_flat_negative.1 ha))

end Verif

/-! ## Program texts -/

namespace Verif.Tr
open Parse (Str ProgramAst StmtAst RuleAst)
variable {α : Type} [DecidableEq α] [Dom α]

section model
variable (el : DV → α)

/-- A body literal.  As in `sourceBody`, atoms and operations are represented as in `Verif.Source`. -/
def sourceLit : Literal → Option (LLit α)
  | .pos a => (bodyAtom el a).map .positive
  | .neg a => (bodyAtom el a).map .negative
  | .oper k ts => (operation el (.op k ts)).map .operation

/-- The rule with its literals in the order in which they are written. -/
def sourceL (R : Rule) : Option (WRule α) := do
  let hs ← collect (sourceHead el) R.head
  let ls ← collect (sourceLit el) R.body
  some ⟨hs, ls⟩

/-- The rules of a program before they are flattened. -/
def sourceLRules (items : List Item) : Option (List (WRule α)) := collect (sourceL el) (items.filterMap Item.rule?)

end model

variable {L : Fn.Lib} {el : DV → α}

theorem sourceRule_lits {R : Rule} {S : SRule α} (h : sourceRule el R = some S) : ∃ r, sourceL el R = some r ∧ r.toS = S := by
  have key : ∀ (hs : List (SHead α)) (ls : List Literal) (S : SRule α), sourceBody el hs ls = some S →
      ∃ ls', collect (sourceLit el) ls = some ls' ∧ (⟨hs, ls'⟩ : WRule α).toS = S := by
    intro hs ls
    induction ls with
    | nil => intro S h; cases h; exact ⟨[], rfl, rfl⟩
    | cons l ls ih =>
      intro S h
      cases l with
      | pos a =>
        simp only [sourceBody, Option.bind_eq_bind, Option.bind_eq_some_iff, Option.some.injEq] at h
        obtain ⟨b, h1, S', h2, rfl⟩ := h
        obtain ⟨ls', h3, rfl⟩ := ih _ h2
        exact ⟨.positive b :: ls', by simp [collect, sourceLit, h1, h3], rfl⟩
      | neg a =>
        simp only [sourceBody, Option.bind_eq_bind, Option.bind_eq_some_iff, Option.some.injEq] at h
        obtain ⟨b, h1, S', h2, rfl⟩ := h
        obtain ⟨ls', h3, rfl⟩ := ih _ h2
        exact ⟨.negative b :: ls', by simp [collect, sourceLit, h1, h3], rfl⟩
      | oper k ts =>
        simp only [sourceBody, Option.bind_eq_bind, Option.bind_eq_some_iff, Option.some.injEq] at h
        obtain ⟨b, h1, S', h2, rfl⟩ := h
        obtain ⟨ls', h3, rfl⟩ := ih _ h2
        exact ⟨.operation b :: ls', by simp [collect, sourceLit, h1, h3], rfl⟩
  simp only [sourceRule, Option.bind_eq_bind, Option.bind_eq_some_iff] at h
  obtain ⟨hs, h1, h2⟩ := h
  obtain ⟨ls, h3, h4⟩ := key _ _ _ h2
  exact ⟨⟨hs, ls⟩, by simp [sourceL, h1, h3], h4⟩

theorem sourceRules_lits {items : List Item} {Ss : List (SRule α)} (h : sourceRules el items = some Ss) :
    ∃ rs, sourceLRules el items = some rs ∧ rs.map WRule.toS = Ss := by
  unfold sourceRules at h
  unfold sourceLRules
  generalize items.filterMap Item.rule? = Rs at h ⊢
  have := collect_eq.1 h
  clear h
  induction this with
  | nil => exact ⟨[], rfl, rfl⟩
  | @cons R S Rs Ss h1 _ ih =>
    obtain ⟨rs, h2, rfl⟩ := ih
    obtain ⟨r, h3, rfl⟩ := sourceRule_lits h1
    exact ⟨r :: rs, by simp [collect, h2, h3], rfl⟩

theorem ProgramFor.plain {c : Ctx} {ss : List StmtAst} {rs : List (WRule α)} {fs : List (Verif.Tag × List α)} {arity : Str → Nat}
    (h : ProgramFor L el c ss (rs.map WRule.toS) fs arity) : ∀ r ∈ rs, ∀ v ∈ r.toS.vars, v.Plain := by
  intro r hr v hv k
  obtain ⟨_, _, _, _, h1, h2⟩ := h.rule (List.mem_map_of_mem hr)
  exact var_names h1 h2 hv (toString k)

/-- **C51, C58.**  If a program text is read without an error, its rules are flattened, normalized and executed, and the answers are what
the text means. -/
theorem text_flat_answers_partial {s : Str} {p : ProgramAst} (hparse : Parse.parse s = .ok p) {items : List Item}
    (hread : readProgram L s = .ok items) {N : Names} (hN : Declared p.statements N) {arity : Str → Nat}
    (hcov : Covered N p.statements arity) (hno : ∀ s ∈ p.statements, ∀ r, s.kind = .rule r → NoExistential r) :
    ∃ (rs : List (WRule α)) (fs : List (Verif.Tag × List α)), sourceLRules el items = some rs ∧ sourceFacts el items = some fs ∧
      ∀ (imported : List (Str × List α)) (given : List Verif.Tag) (rules : List (NRule α))
        (cond : Nat → List (Nat × Nat) → List (List Nat)) (cfgs : List RuleCfg) (outs : List Verif.Tag) (fuel : Nat) (st : Eng α),
        (∀ x ∈ imported, x.2.length = arity x.1) → normalizeProgram given ((flatProgram rs).map WRule.toS) = some rules → CondOK cond →
        cfgs.length = rs.length →
        Eng.execute cond rules cfgs outs fuel (Eng.init (inputs fs imported)) = some (some st) →
        Meaning L el N p.statements (fun n row => (n, row) ∈ imported) fun n row => st.answers (code n) row := by
  have htr : translate L p = .ok items := by rw [readProgram, hparse] at hread; exact hread
  obtain ⟨Ss, fs, c, rfl, hSs, hfs, h⟩ := program_for (el := el) htr hN hcov
  obtain ⟨rs, hrs, rfl⟩ := sourceRules_lits hSs
  exact ⟨rs, fs, hrs, hfs, fun imported given rules cond cfgs outs fuel st himp hnorm hcond hlen hx =>
    h.meaning hno imported (execute_flat_stable_partial hcond hnorm h.plain (fun r hr => h.valid _ (List.mem_map_of_mem hr))
      (fun r hr => h.ok hno _ (List.mem_map_of_mem hr)) hlen (h.edb himp) hx)⟩

/-- **The program is rejected exactly if negation and aggregation are not stratified in the text.** -/
theorem text_flat_rejected_partial {s : Str} {p : ProgramAst} (hparse : Parse.parse s = .ok p) {items : List Item}
    (hread : readProgram L s = .ok items) {N : Names} (hN : Declared p.statements N) {arity : Str → Nat}
    (hcov : Covered N p.statements arity) :
    ∃ (rs : List (WRule α)) (fs : List (Verif.Tag × List α)), sourceLRules el items = some rs ∧ sourceFacts el items = some fs ∧
      ∀ (given : List Verif.Tag) (rules : List (NRule α)) (cond : Nat → List (Nat × Nat) → List (List Nat)) (cfgs : List RuleCfg)
        (outs : List Verif.Tag) (fuel : Nat) (st : Eng α), normalizeProgram given ((flatProgram rs).map WRule.toS) = some rules → CondOK cond →
        (Eng.execute cond rules cfgs outs fuel st = none ↔ ¬ Stratified N p.statements) := by
  have htr : translate L p = .ok items := by rw [readProgram, hparse] at hread; exact hread
  obtain ⟨Ss, fs, c, rfl, hSs, hfs, h⟩ := program_for (el := el) htr hN hcov
  obtain ⟨rs, hrs, rfl⟩ := sourceRules_lits hSs
  exact ⟨rs, fs, hrs, hfs, fun given rules cond cfgs outs fuel st hnorm hcond => by
    rw [execute_source_rejects hcond hnorm, flat_stratifiable, h.stratified]⟩

section
variable [NullDom α]

/-- **C54, C58: when the engine stops, the facts satisfy the program text**, also for programs with existential rules. -/
theorem text_flat_model_partial {s : Str} {p : ProgramAst} (hparse : Parse.parse s = .ok p) {items : List Item}
    (hread : readProgram L s = .ok items) {N : Names} (hN : Declared p.statements N) {arity : Str → Nat}
    (hcov : Covered N p.statements arity) (hel : ∀ v n, el v ≠ Dom.null n)
    (hpe : ∀ s ∈ p.statements, ∀ r, s.kind = .rule r → ¬ NoExistential r → PlainExistential r) (hsat : NoHelpers N p.statements) :
    ∃ (rs : List (WRule α)) (fs : List (Verif.Tag × List α)), sourceLRules el items = some rs ∧ sourceFacts el items = some fs ∧
      ∀ (imported : List (Str × List α)) (given facts : List Verif.Tag) (aux : Verif.Tag) (rules : List (NRule α))
        (cond : Nat → List (Nat × Nat) → List (List Nat)) (cfgs : List RuleCfg) (outs : List Verif.Tag) (fuel : Nat) (st : Eng α),
        (∀ x ∈ imported, x.2.length = arity x.1 ∧ (∀ a ∈ x.2, ∀ n, a ≠ Dom.null n) ∧ ∀ i, x.1 ≠ satisfiedName i) →
        normalizeProgram given ((flatProgram rs).map WRule.toS) = some rules → CondOK cond →
        ruleCfgs given facts aux satCode rules = some cfgs →
        Eng.execute cond rules cfgs outs fuel (Eng.init (inputs fs imported)) = some (some st) →
        Model L el N p.statements (fun n row => (n, row) ∈ imported) fun n row => st.answers (code n) row := by
  have htr : translate L p = .ok items := by rw [readProgram, hparse] at hread; exact hread
  obtain ⟨Ss, fs, c, rfl, hSs, hfs, h⟩ := program_for (el := el) htr hN hcov
  have hsrc : ∀ S ∈ Ss, ∃ R, sourceRule el R = some S := fun S hS =>
    (forall₂_right (collect_eq.1 hSs) hS).imp fun _ h => h.2
  obtain ⟨rs, hrs, rfl⟩ := sourceRules_lits hSs
  refine ⟨rs, fs, hrs, hfs, fun imported given facts aux rules cond cfgs outs fuel st himp hnorm hcond hcfg hx => ?_⟩
  have hf : ∀ r ∈ rs, Flattenable r := fun r hr => (h.valid _ (List.mem_map_of_mem hr)).flattenable (h.plain r hr)
  exact (h.model imported _).1 ((flat_model hf _ _).1 (execute_source_model hcond hnorm hcfg
    (flat_xok (h.xok hel hsrc hpe hsat) h.plain)
    (h.sedb (groundFacts_nulls hel hfs) hsat (fun x hx => (himp x hx).1) (fun x hx => (himp x hx).2.1) fun x hx => (himp x hx).2.2) hx))

/-- **C54, C58: the answers without nulls are the certain answers.** -/
theorem text_flat_certain_partial {s : Str} {p : ProgramAst} (hparse : Parse.parse s = .ok p) {items : List Item}
    (hread : readProgram L s = .ok items) {N : Names} (hN : Declared p.statements N) {arity : Str → Nat}
    (hcov : Covered N p.statements arity) (hel : ∀ v n, el v ≠ Dom.null n)
    (hpe : ∀ s ∈ p.statements, ∀ r, s.kind = .rule r → ¬ NoExistential r → PlainExistential r) (hsat : NoHelpers N p.statements)
    (hpos : ∀ s ∈ p.statements, ∀ r, s.kind = .rule r → PositiveRule L el N r) :
    ∃ (rs : List (WRule α)) (fs : List (Verif.Tag × List α)), sourceLRules el items = some rs ∧ sourceFacts el items = some fs ∧
      ∀ (imported : List (Str × List α)) (given facts : List Verif.Tag) (aux : Verif.Tag) (rules : List (NRule α))
        (cond : Nat → List (Nat × Nat) → List (List Nat)) (cfgs : List RuleCfg) (outs : List Verif.Tag) (fuel : Nat) (st : Eng α),
        (∀ x ∈ imported, x.2.length = arity x.1 ∧ (∀ a ∈ x.2, ∀ n, a ≠ Dom.null n) ∧ ∀ i, x.1 ≠ satisfiedName i) →
        normalizeProgram given ((flatProgram rs).map WRule.toS) = some rules → CondOK cond →
        ruleCfgs given facts aux satCode rules = some cfgs →
        Eng.execute cond rules cfgs outs fuel (Eng.init (inputs fs imported)) = some (some st) →
        ∀ n, (∀ i, n ≠ satisfiedName i) → ∀ row : List α, (∀ a ∈ row, ∀ m, a ≠ Dom.null m) →
          (row ∈ st.predicateRows (code n) ↔
            ∀ M : Facts α, Model L el N p.statements (fun n row => (n, row) ∈ imported) M → M n row) := by
  have htr : translate L p = .ok items := by rw [readProgram, hparse] at hread; exact hread
  obtain ⟨Ss, fs, c, rfl, hSs, hfs, h⟩ := program_for (el := el) htr hN hcov
  have hsrc : ∀ S ∈ Ss, ∃ R, sourceRule el R = some S := fun S hS =>
    (forall₂_right (collect_eq.1 hSs) hS).imp fun _ h => h.2
  obtain ⟨rs, hrs, rfl⟩ := sourceRules_lits hSs
  refine ⟨rs, fs, hrs, hfs, fun imported given facts aux rules cond cfgs outs fuel st himp hnorm hcond hcfg hx n hn row hrow => ?_⟩
  have hf : ∀ r ∈ rs, Flattenable r := fun r hr => (h.valid _ (List.mem_map_of_mem hr)).flattenable (h.plain r hr)
  have hok := h.xok hel hsrc hpe hsat
  have hpos' : ∀ S ∈ (flatProgram rs).map WRule.toS, SPositive S := fun S hS => by
    obtain ⟨r, hr, k, rfl⟩ := mem_flatProgram hS
    exact flat_positive (h.positive hpos _ (List.mem_map_of_mem hr)) (hok.noNulls _ (List.mem_map_of_mem hr))
  rw [execute_source_certain hcond hnorm hcfg (flat_xok hok h.plain)
    (h.sedb (groundFacts_nulls hel hfs) hsat (fun x hx => (himp x hx).1) (fun x hx => (himp x hx).2.1) fun x hx => (himp x hx).2.2)
    hpos' hx (fun i hi => hn i (code_inj hi)) hrow]
  constructor
  · intro hall M hM
    have := hall (up M) ((flat_model hf _ _).2 ((h.model imported _).2 (by rw [up_code]; exact hM)))
    rwa [show up M (code n) = M n from congrFun (up_code M) n] at this
  · exact fun hall M hM => hall (fun n => M (code n)) ((h.model imported M).1 ((flat_model hf _ _).1 hM))

end
end Verif.Tr
