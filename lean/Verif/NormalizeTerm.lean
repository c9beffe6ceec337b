import Verif.Validate

/-!
# Termination for programs as they are written (C23, C43)
-/

set_option linter.unusedSimpArgs false
set_option linter.unusedSectionVars false

namespace Verif
variable {α : Type} [DecidableEq α] [Dom α]

/-- No values are computed by functions in the head, in negated atoms or for variables that do not occur in a positive atom.  (There
can be arbitrary conditions, and aggregates of variables and constants.) -/
structure SFunctionFree (S : SRule α) : Prop where
  assign : ∀ o ∈ S.operations, ∀ v e, o.variableAssignment = some (v, e) → (∃ a ∈ S.positive, .var v ∈ a.terms) ∨ e.IsPrimitive
  negative : ∀ a ∈ S.negative, ∀ o, .oper o ∉ a.terms
  head : ∀ h ∈ S.head, ∀ t ∈ h.terms, t.isOper = false
  input : ∀ h ∈ S.head, ∀ t ∈ h.terms, ∀ k i d, t.agg? = some (k, i, d) → i.IsPrimitive

theorem functionFree_norm {S : SRule α} (order : List Variable) (hV : SValid S) (hf : SFunctionFree S) :
    FunctionFree (normalizeRule S order) := by
  have hneg : ∀ a k o v e, AtomAt S.negative (posGen S) a k → o ∈ (normBodyTerms a.terms [] k).2.1 →
      o.variableAssignment = some (v, e) → e.IsPrimitive := by
    intro a k o v e ha ho he
    obtain ⟨f, e', rfl, -, -, h⟩ := normBodyTerms_ops _ _ _ ho
    cases he
    rcases h with ⟨v, rfl, -⟩ | ⟨c, rfl⟩ | h
    · trivial
    · trivial
    · exact absurd h (hf.negative a ha.mem _)
  have hhead : ∀ (j : Nat) (h : SHead α) o, S.head[j]? = some h → o ∉ (headParts S j h).ops := by
    intro j h o hj ho
    obtain ⟨f, t, ht, -, -, hop⟩ := normHeadLoop_ops_form ho
    have := hf.head h (List.mem_of_getElem? hj) t ht
    rw [hop] at this; cases this
  have hagg : ∀ (j : Nat) (h : SHead α) (a : Nat × Operation α × List Variable) outer j' o v e, S.head[j]? = some h →
      (headParts S j h).agg = some (a, outer, j') → o ∈ (normAggInput a.2.1).2 → o.variableAssignment = some (v, e) →
      e.IsPrimitive := by
    intro j h a outer j' o v e hj ha ho he
    obtain ⟨t, ht, h1, -⟩ := headParts_agg ha
    rcases normAggInput_cases a.2.1 with ⟨w, -, hi⟩ | hi
    · rw [hi] at ho; cases ho
    · rw [hi, List.mem_singleton] at ho
      subst ho
      cases he
      exact hf.input h (List.mem_of_getElem? hj) t (List.mem_of_getElem? ht) _ _ _ h1
  constructor
  · intro o ho v e he
    rcases (mem_norm_ops S order o).1 ho with h | ⟨a, k, h1, h2⟩ | ⟨a, k, h1, h2⟩ | ⟨j, h, h1, h2⟩ |
      ⟨j, h, a, outer, j', h1, h2, h3⟩
    · rcases hf.assign o h v e he with ⟨a, ha, hv⟩ | h
      · left
        obtain ⟨k, hk⟩ := exists_atomAt 0 ha
        exact List.mem_flatMap.2 ⟨_, (mem_norm_pos S order _).2 ⟨a, k, hk, rfl⟩,
          (normBodyTerms_has a.terms [] k hv).resolve_left (by simp)⟩
      · exact .inr h
    · obtain ⟨f, e', rfl, -, hm, -⟩ := normBodyTerms_ops _ _ _ h2
      cases he
      exact .inl (List.mem_flatMap.2 ⟨_, (mem_norm_pos S order _).2 ⟨a, k, h1, rfl⟩, hm⟩)
    · exact .inr (hneg a k o v e h1 h2 he)
    · exact absurd h2 (hhead j h o h1)
    · exact .inr (hagg j h a outer j' o v e h1 h2 h3 he)
  · intro o v e ⟨ho, hr1, hr2⟩ he
    rcases (mem_norm_ops S order o).1 ho with h | ⟨a, k, h1, h2⟩ | ⟨a, k, h1, h2⟩ | ⟨j, h, h1, h2⟩ |
      ⟨j, h, a, outer, j', h1, h2, h3⟩
    · rcases hV.opsScoped o h with g | ⟨a, ha, g⟩
      · exact absurd (fun v hv => (g v hv).norm order hV) hr1
      · obtain ⟨k, hk⟩ := exists_atomAt (posGen S) ha
        refine absurd (fun v hv => ?_) (hr2 _ ((mem_norm_neg S order _).2 ⟨a, k, hk, rfl⟩))
        rcases g v hv with g | g
        · exact .inl (g.norm order hV)
        · exact .inr ((normBodyTerms_has a.terms [] k g).resolve_left (by simp))
    · exact absurd (fun v hv => pos_op_safe order hV h1 h2 hv) hr1
    · exact hneg a k o v e h1 h2 he
    · exact absurd h2 (hhead j h o h1)
    · exact hagg j h a outer j' o v e h1 h2 h3 he

/-- **Programs as they are written terminate** if they are stratifiable and do not compute new values. -/
theorem execute_source_terminates {cond : Nat → List (Nat × Nat) → List (List Nat)} (hcond : CondOK cond) {given : List Tag}
    {Ss : List (SRule α)} {rules : List (NRule α)} (h : normalizeProgram given Ss = some rules) (hV : ∀ S ∈ Ss, SValid S)
    {arity : Tag → Nat} (hok : ∀ S ∈ Ss, SRuleOK S arity) {cfgs : List RuleCfg} (hl : cfgs.length = Ss.length)
    {edb : List (Tag × List (List α))} (he : EdbOK edb arity) (hs : SIsStratifiable Ss) (hf : ∀ S ∈ Ss, SFunctionFree S)
    (outs : List Tag) : ∃ fuel st, Eng.execute cond rules cfgs outs fuel (Eng.init edb) = some (some st) := by
  refine execute_terminates hcond (progOK_norm h hV hok hl) he ((stratifiable_norm h).2 hs) fun r hr => ?_
  obtain ⟨S, hS, order, rfl, -⟩ := (normalizeProgram_rules h).1 r hr
  exact functionFree_norm order (hV S hS) (hf S hS)

end Verif
