import Verif.NormalizeProg

/-!
# The validation of rules

Model of `Rule::validate` (/repo/nemo/src/rule_model/components/rule.rs:377-501) and of the functions that it uses.
`validate_valid_partial` shows which of the assumptions of `derives_norm_partial` (C43) are guaranteed for rules that are accepted.  The
remaining ones (`SExtra`) are not checked; `NormalizeExamples.lean` shows what happens to accepted rules without them.
-/

set_option linter.unusedSimpArgs false
set_option linter.unusedSectionVars false

namespace Verif
variable {α : Type}

/-! ## Model -/

/-- One pass of the loop of `Rule::safe_variables` over the operations (rule.rs:243-252) -/
def safePass : List (Operation α) → List Variable → List Variable
  | [], acc => acc
  | o :: os, acc =>
    match o.variableAssignment with
    | none => safePass os acc
    | some (v, e) =>
      if v.isExistential = false ∧ v ∉ acc ∧ ∀ w ∈ e.vars, w ∈ acc then safePass os (acc ++ [v]) else safePass os acc

/-- the variables to which a value is assigned -/
def assigned (ops : List (Operation α)) : List Variable := ops.filterMap fun o => o.variableAssignment.map (·.1)

theorem safePass_sub (ops : List (Operation α)) (acc : List Variable) {v : Variable} (h : v ∈ acc) : v ∈ safePass ops acc := by
  induction ops generalizing acc with
  | nil => exact h
  | cons o os ih =>
    rw [safePass]
    split
    · exact ih _ h
    · split
      · exact ih _ (List.mem_append_left _ h)
      · exact ih _ h

theorem safePass_new (ops : List (Operation α)) (acc : List Variable) (h : (safePass ops acc).length ≠ acc.length) :
    ∃ v ∈ assigned ops, v ∉ acc ∧ v ∈ safePass ops acc := by
  induction ops generalizing acc with
  | nil => exact absurd rfl h
  | cons o os ih =>
    rw [safePass] at h ⊢
    cases ha : o.variableAssignment with
    | none =>
      rw [ha] at h
      obtain ⟨v, h1, h2⟩ := ih _ h
      exact ⟨v, by simpa [assigned, ha] using h1, h2⟩
    | some x =>
      obtain ⟨v, e⟩ := x
      rw [ha] at h
      dsimp only at h ⊢
      split at h
      · rename_i hc
        rw [if_pos hc]
        exact ⟨v, by simp [assigned, ha], hc.2.1, safePass_sub _ _ (by simp)⟩
      · rename_i hc
        rw [if_neg hc]
        obtain ⟨v, h1, h2⟩ := ih _ h
        refine ⟨v, ?_, h2⟩
        simp only [assigned, List.filterMap_cons, ha, Option.map_some]
        exact List.mem_cons_of_mem _ h1

theorem safe_decreases {l a b : List Variable} {v : Variable} (hl : v ∈ l) (ha : v ∉ a) (hb : v ∈ b) (h : ∀ w ∈ a, w ∈ b) :
    (l.filter fun w => decide (w ∉ b)).length < (l.filter fun w => decide (w ∉ a)).length := by
  have hsub : (l.filter fun w => decide (w ∉ b)) = (l.filter fun w => decide (w ∉ a)).filter fun w => decide (w ∉ b) := by
    rw [List.filter_filter]
    congr 1
    funext w
    by_cases hw : w ∈ b
    · simp [hw]
    · have : w ∉ a := fun hc => hw (h w hc)
      simp [hw, this]
  rw [hsub]
  apply List.length_filter_lt_length_iff_exists.2
  exact ⟨v, by simp [hl, ha], by simpa using hb⟩

/-- The loop of `Rule::safe_variables` (rule.rs:240-257) -/
def safeLoop (ops : List (Operation α)) (acc : List Variable) : List Variable :=
  if (safePass ops acc).length = acc.length then acc else safeLoop ops (safePass ops acc)
termination_by ((assigned ops).filter fun w => decide (w ∉ acc)).length
decreasing_by
  rename_i h
  obtain ⟨v, h1, h2, h3⟩ := safePass_new ops acc h
  exact safe_decreases h1 h2 h3 fun w hw => safePass_sub _ _ hw

/-- the variable of a body term -/
def BTerm.var? : BTerm α → Option Variable
  | .var v => some v
  | _ => none

/-- `Rule::positive_variables` (rule.rs:200-217) -/
def SRule.positiveVars (S : SRule α) : List Variable :=
  (S.positive.flatMap fun a => a.terms.filterMap BTerm.var?).filter fun v => !v.isExistential

/-- `Rule::safe_variables` (rule.rs:233-260), without import clauses -/
def SRule.safeVars (S : SRule α) : List Variable := safeLoop S.operations S.positiveVars

/-- The variable of a term that is a variable -/
def Operation.var? : Operation α → Option Variable
  | .var v => some v
  | _ => none

mutual
/-- `Rule::validate_term_head` (rule.rs:266-306) together with `Aggregate::validate` (term/aggregate.rs:277-343, without the check of
types): whether no error is reported, and whether there is an aggregate. -/
def checkHead (group : List Variable) : HTerm α → Bool × Bool
  | .var _ => (true, false)
  | .const _ => (true, false)
  | .equal l r => ((checkHead group l).1 && ((checkHead group r).1 && !((checkHead group r).2 && (checkHead group l).2)),
      (checkHead group l).2 || (checkHead group r).2)
  | .op _ ts => checkHeadList group ts false
  | .agg _ i d => (i.var?.all (fun v => decide (v ∉ group)) && d.all (fun v => !v.isExistential) &&
      decide (i.var?.toList ++ d).Nodup, true)
/-- the loop over the subterms (rule.rs:295-303), which is the same as the loop over the terms of an atom (rule.rs:444-457) -/
def checkHeadList (group : List Variable) : List (HTerm α) → Bool → Bool × Bool
  | [], first => (true, first)
  | t :: ts, first =>
    let c := checkHead group t
    let r := checkHeadList group ts (first || c.2)
    (c.1 && !(c.2 && first) && r.1, r.2)
end

/-- The variable of a head term that is a variable -/
def HTerm.var? : HTerm α → Option Variable
  | .var v => some v
  | _ => none

/-- The checks for a head atom (rule.rs:411-458, atom.rs:185-206) -/
def checkHeadAtom (safe : List Variable) (existential : Bool) (h : SHead α) : Bool :=
  (HTerm.varsList h.terms).all (fun v => v.isExistential || decide (v ∈ safe)) &&
  (checkHeadList (h.terms.filterMap HTerm.var?) h.terms false).1 &&
  !((checkHeadList (h.terms.filterMap HTerm.var?) h.terms false).2 && existential) && !h.terms.isEmpty

/-- `Rule::validate_term_body` (rule.rs:314-358) for an operation -/
def checkOper (safe : List Variable) (o : Operation α) : Bool :=
  o.vars.all fun v => !v.isExistential && decide (v ∈ safe)

/-- `Rule::validate_term_body` (rule.rs:314-358) for a term of a body atom -/
def checkBodyTerm (safe : List Variable) : BTerm α → Bool
  | .var v => !v.isExistential
  | .anon => true
  | .const _ => true
  | .oper o => checkOper safe o

/-- `Rule::validate_term_body` (rule.rs:314-358) for a subterm of an operation that is a body literal -/
def checkOperand (safe : List Variable) : Operation α → Bool
  | .var v => !v.isExistential
  | .const _ => true
  | .equal l r => checkOper safe (.equal l r)
  | .op k ts => checkOper safe (.op k ts)

/-- the subterms of an operation (literal.rs, `terms`) -/
def Operation.operands : Operation α → List (Operation α)
  | .var _ => []
  | .const _ => []
  | .equal l r => [l, r]
  | .op _ ts => ts

/-- the variables of a negated atom that are not safe (rule.rs:467-477) -/
def unsafeVars (safe : List Variable) (a : SAtom α) : List Variable :=
  (a.terms.filterMap BTerm.var?).filter fun v => decide (v ∉ safe)

/-- the loop over the negated atoms (rule.rs:460-498) -/
def checkNegative (safe : List Variable) : List (SAtom α) → List Variable → Bool
  | [], _ => true
  | a :: as, seen => (unsafeVars safe a).all (fun v => decide (v ∉ seen)) && checkNegative safe as (seen ++ unsafeVars safe a)

/-- `Rule::validate` (rule.rs:377-501): whether no error is reported.  The checks of the terms of the rule that cannot be expressed
in the syntax of `Source.lean` (aggregates in the body, anonymous variables in the head, maps, tuples, functions), display
attributes, and the checks of types and numbers of arguments are left out. -/
def SRule.validate (S : SRule α) : Bool :=
  !S.positive.isEmpty &&
  S.head.all (checkHeadAtom S.safeVars (S.head.any fun h => (HTerm.varsList h.terms).any Variable.isExistential)) &&
  (S.positive ++ S.negative).all (fun a => !a.terms.isEmpty && a.terms.all (checkBodyTerm S.safeVars)) &&
  S.operations.all (fun o => o.operands.all (checkOperand S.safeVars)) &&
  checkNegative S.safeVars S.negative []

/-! ## Specification: what the validation does not check -/

/-- Conditions that the validation does not check: a condition is about safe variables and the variables of one negated atom, only one
head atom contains an aggregate, and there are no existential variables in expressions in the head. -/
structure SExtra (S : SRule α) : Prop where
  opsScoped : ∀ o ∈ S.operations, (∀ v ∈ o.vars, SSafe S v) ∨
    ∃ a ∈ S.negative, ∀ v ∈ o.vars, SSafe S v ∨ .var v ∈ a.terms
  oneAggAtom : ∀ (i j : Nat) h h', S.head[i]? = some h → S.head[j]? = some h' → (∃ t ∈ h.terms, t.aggCount ≠ 0) →
    (∃ t ∈ h'.terms, t.aggCount ≠ 0) → i = j
  headPlain : ∀ h ∈ S.head, ∀ t ∈ h.terms, (∀ v, t ≠ .var v) → ∀ v ∈ t.vars, v.isExistential = false

/-! ## Proofs -/

theorem BTerm.var?_eq {t : BTerm α} {v : Variable} : t.var? = some v ↔ t = .var v := by
  cases t <;> simp [BTerm.var?]

theorem mem_termVars {ts : List (BTerm α)} {v : Variable} : v ∈ ts.filterMap BTerm.var? ↔ .var v ∈ ts := by
  simp only [List.mem_filterMap, BTerm.var?_eq, exists_eq_right]

theorem safePass_sound (S : SRule α) (ops : List (Operation α)) (ho : ∀ o ∈ ops, o ∈ S.operations) (acc : List Variable)
    (h : ∀ v ∈ acc, SSafe S v) : ∀ v ∈ safePass ops acc, SSafe S v := by
  induction ops generalizing acc with
  | nil => exact h
  | cons o os ih =>
    rw [safePass]
    cases ha : o.variableAssignment with
    | none => exact ih (fun o h => ho o (List.mem_cons_of_mem _ h)) _ h
    | some x =>
      obtain ⟨v, e⟩ := x
      dsimp only
      split
      · rename_i hc
        refine ih (fun o h => ho o (List.mem_cons_of_mem _ h)) _ fun w hw => ?_
        rcases List.mem_append.1 hw with hw | hw
        · exact h w hw
        · rw [List.mem_singleton.1 hw]
          exact .assign (ho o List.mem_cons_self) ha fun u hu => h u (hc.2.2 u hu)
      · exact ih (fun o h => ho o (List.mem_cons_of_mem _ h)) _ h

theorem safePass_length (ops : List (Operation α)) (acc : List Variable) : acc.length ≤ (safePass ops acc).length := by
  induction ops generalizing acc with
  | nil => exact le_refl _
  | cons o os ih =>
    rw [safePass]
    split
    · exact ih _
    · split
      · exact le_trans (by simp) (ih _)
      · exact ih _

/-- if nothing is added, all assignments are satisfied -/
theorem safePass_closed (ops : List (Operation α)) (acc : List Variable) (h : (safePass ops acc).length = acc.length) :
    ∀ o ∈ ops, ∀ v e, o.variableAssignment = some (v, e) → v.isExistential = false → (∀ w ∈ e.vars, w ∈ acc) → v ∈ acc := by
  induction ops generalizing acc with
  | nil => intro o ho; cases ho
  | cons o os ih =>
    rw [safePass] at h
    have key : (safePass os acc).length = acc.length ∧ ∀ v e, o.variableAssignment = some (v, e) → v.isExistential = false →
        (∀ w ∈ e.vars, w ∈ acc) → v ∈ acc := by
      cases ha : o.variableAssignment with
      | none => rw [ha] at h; exact ⟨h, by simp⟩
      | some x =>
        obtain ⟨v, e⟩ := x
        rw [ha] at h
        dsimp only at h
        split at h
        · have := safePass_length os (acc ++ [v])
          rw [h] at this
          simp at this
        · rename_i hc
          refine ⟨h, fun v' e' he h1 h2 => ?_⟩
          cases he
          by_contra hv
          exact hc ⟨h1, hv, h2⟩
    intro o' ho'
    rcases List.mem_cons.1 ho' with rfl | ho'
    · exact key.2
    · exact ih _ key.1 o' ho'

theorem safeLoop_spec (S : SRule α) (acc : List Variable) (h : ∀ v ∈ acc, SSafe S v) :
    (∀ v ∈ safeLoop S.operations acc, SSafe S v) ∧ (∀ v ∈ acc, v ∈ safeLoop S.operations acc) ∧
    ∀ o ∈ S.operations, ∀ v e, o.variableAssignment = some (v, e) → v.isExistential = false →
      (∀ w ∈ e.vars, w ∈ safeLoop S.operations acc) → v ∈ safeLoop S.operations acc := by
  fun_induction safeLoop S.operations acc with
  | case1 acc hl => exact ⟨h, fun _ => id, safePass_closed _ _ hl⟩
  | case2 acc hl ih =>
    obtain ⟨h1, h2, h3⟩ := ih (safePass_sound S _ (fun _ => id) _ h)
    exact ⟨h1, fun v hv => h2 v (safePass_sub _ _ hv), h3⟩

theorem mem_positiveVars (S : SRule α) (v : Variable) : v ∈ S.positiveVars ↔ v.isExistential = false ∧
    ∃ a ∈ S.positive, .var v ∈ a.terms := by
  simp only [SRule.positiveVars, List.mem_filter, List.mem_flatMap, mem_termVars, Bool.not_eq_true', and_comm]

/-- **The safe variables are exactly those that get a value from the positive body atoms**, if the body contains no existential
variables. -/
theorem mem_safeVars (S : SRule α) (hu : ∀ a ∈ S.positive, ∀ v, .var v ∈ a.terms → v.isExistential = false)
    (ho : ∀ o ∈ S.operations, ∀ v e, o.variableAssignment = some (v, e) → v.isExistential = false) (v : Variable) :
    v ∈ S.safeVars ↔ SSafe S v := by
  obtain ⟨h1, h2, h3⟩ := safeLoop_spec S S.positiveVars fun v hv => by
    obtain ⟨-, a, ha, hv⟩ := (mem_positiveVars S v).1 hv
    exact .atom ha hv
  refine ⟨h1 v, fun h => ?_⟩
  induction h with
  | atom ha hv => exact h2 _ ((mem_positiveVars S _).2 ⟨hu _ ha _ hv, _, ha, hv⟩)
  | assign hop he _ ih => exact h3 _ hop _ _ he (ho _ hop _ _ he) ih

theorem safeVars_sub (S : SRule α) {v : Variable} (h : v ∈ S.safeVars) : SSafe S v :=
  (safeLoop_spec S S.positiveVars fun v hv => by
    obtain ⟨-, a, ha, hv⟩ := (mem_positiveVars S v).1 hv
    exact .atom ha hv).1 v h

mutual
theorem checkHead_spec (group : List Variable) : ∀ t : HTerm α, ((checkHead group t).2 = true ↔ t.aggCount ≠ 0) ∧
    ((checkHead group t).1 = true → t.aggCount ≤ 1)
  | .var _ => by simp [checkHead, HTerm.aggCount]
  | .const _ => by simp [checkHead, HTerm.aggCount]
  | .equal l r => by
    have hl := checkHead_spec group l
    have hr := checkHead_spec group r
    simp only [checkHead, checkHeadList, HTerm.aggCount, Bool.false_or, Bool.and_false, Bool.not_false, Bool.and_true,
      Bool.or_eq_true, Bool.and_eq_true, Bool.not_eq_true', Bool.and_eq_false_iff]
    constructor
    · rw [hl.1, hr.1]; omega
    · rintro ⟨h1, h2, h3⟩
      have a1 := hl.2 h1
      have a2 := hr.2 h2
      rcases h3 with h3 | h3
      · have : ¬ r.aggCount ≠ 0 := fun hc => by rw [hr.1.2 hc] at h3; cases h3
        omega
      · have : ¬ l.aggCount ≠ 0 := fun hc => by rw [hl.1.2 hc] at h3; cases h3
        omega
  | .op _ ts => by
    have h := checkHeadList_spec group ts false
    simp only [checkHead, HTerm.aggCount]
    refine ⟨by simpa using h.1, fun hc => (h.2 hc).1⟩
  | .agg _ _ _ => by simp [checkHead, HTerm.aggCount]
theorem checkHeadList_spec (group : List Variable) : ∀ (ts : List (HTerm α)) (first : Bool),
    ((checkHeadList group ts first).2 = true ↔ first = true ∨ HTerm.aggCountList ts ≠ 0) ∧
    ((checkHeadList group ts first).1 = true → HTerm.aggCountList ts ≤ 1 ∧ (first = true → HTerm.aggCountList ts = 0))
  | [], first => by simp [checkHeadList, HTerm.aggCountList]
  | t :: ts, first => by
    have ht := checkHead_spec group t
    have hts := checkHeadList_spec group ts (first || (checkHead group t).2)
    simp only [checkHeadList, HTerm.aggCountList]
    constructor
    · rw [hts.1, Bool.or_eq_true, ht.1]
      constructor
      · rintro ((h | h) | h)
        · exact .inl h
        · right; omega
        · right; omega
      · rintro (h | h)
        · exact .inl (.inl h)
        · by_cases h0 : t.aggCount = 0
          · right; omega
          · exact .inl (.inr h0)
    · intro h
      simp only [Bool.and_eq_true, Bool.not_eq_true', Bool.and_eq_false_iff] at h
      obtain ⟨⟨h1, h2⟩, h3⟩ := h
      have a1 := ht.2 h1
      obtain ⟨b1, b2⟩ := hts.2 h3
      have b3 : t.aggCount ≠ 0 → HTerm.aggCountList ts = 0 := fun hc => b2 (by rw [ht.1.2 hc]; simp)
      have b4 : first = true → HTerm.aggCountList ts = 0 := fun hc => b2 (by rw [hc]; simp)
      refine ⟨by omega, fun hf => ?_⟩
      have : t.aggCount = 0 := by
        by_contra hc
        rcases h2 with h2 | h2
        · rw [ht.1.2 hc] at h2; cases h2
        · rw [hf] at h2; cases h2
      rw [this, b4 hf]
end

theorem checkNegative_spec (safe : List Variable) : ∀ (as : List (SAtom α)) (seen : List Variable), checkNegative safe as seen = true →
    (∀ a ∈ as, ∀ v ∈ unsafeVars safe a, v ∉ seen) ∧
    as.Pairwise fun a b => ∀ v, .var v ∈ a.terms → .var v ∈ b.terms → v ∈ safe
  | [], _, _ => ⟨by simp, .nil⟩
  | a :: as, seen, h => by
    rw [checkNegative, Bool.and_eq_true] at h
    obtain ⟨h1, h2⟩ := h
    obtain ⟨g1, g2⟩ := checkNegative_spec safe as _ h2
    simp only [List.all_eq_true, decide_eq_true_eq] at h1
    refine ⟨?_, .cons ?_ g2⟩
    · intro b hb v hv
      rcases List.mem_cons.1 hb with rfl | hb
      · exact h1 v hv
      · exact fun hc => g1 b hb v hv (List.mem_append_left _ hc)
    · intro b hb v hva hvb
      by_contra hc
      refine g1 b hb v ?_ (List.mem_append_right _ ?_) <;>
      · refine List.mem_filter.2 ⟨mem_termVars.2 ?_, by simpa using hc⟩
        first | exact hva | exact hvb

variable [DecidableEq α] [Dom α]

theorem aggCount_list {ts : List (HTerm α)} {t : HTerm α} (ht : t ∈ ts) (h : t.aggCount ≠ 0) : HTerm.aggCountList ts ≠ 0 := by
  have := HTerm.aggCountList_le ht
  omega

/-- **A rule that is accepted by the validation, that comes from the parser (`user`) and that satisfies the conditions which are
not checked, is one whose meaning is preserved by normalization.** -/
theorem validate_valid_partial {S : SRule α} (h : S.validate = true) (hu : ∀ v ∈ S.vars, ¬ v.Reserved) (hx : SExtra S) : SValid S := by
  simp only [SRule.validate, Bool.and_eq_true, List.all_eq_true, Bool.not_eq_true'] at h
  obtain ⟨⟨⟨⟨h1, h2⟩, h3⟩, h4⟩, h5⟩ := h
  refine ⟨hu, ?_, hx.opsScoped, ?_, hx.headPlain, hx.oneAggAtom, ?_, ?_, ?_⟩
  · intro a ha o ho v hv
    have := (h3 a ha).2 _ ho
    simp only [checkBodyTerm, checkOper, List.all_eq_true, Bool.and_eq_true, decide_eq_true_eq] at this
    exact safeVars_sub S (this v hv).2
  · intro h hh v hv he
    have := h2 h hh
    simp only [checkHeadAtom, Bool.and_eq_true, List.all_eq_true, Bool.or_eq_true, decide_eq_true_eq] at this
    rcases this.1.1.1 v hv with g | g
    · rw [he] at g; cases g
    · exact safeVars_sub S g
  · intro h hh
    have := h2 h hh
    simp only [checkHeadAtom, Bool.and_eq_true] at this
    exact ((checkHeadList_spec _ _ _).2 this.1.1.2).1
  · intro h hh ⟨t, ht, hc⟩ v hv
    have := h2 h hh
    simp only [checkHeadAtom, Bool.and_eq_true, Bool.not_eq_true', Bool.and_eq_false_iff] at this
    rcases this.1.2 with g | g
    · rw [(checkHeadList_spec _ _ _).1.2 (.inr (aggCount_list ht hc))] at g; cases g
    · rw [List.any_eq_false] at g
      have := g h hh
      simp only [List.any_eq_true, not_exists, not_and] at this
      simpa using this v hv
  · exact (checkNegative_spec _ _ _ h5).2.imp fun hab v ha hb => safeVars_sub S (hab v ha hb)

end Verif
