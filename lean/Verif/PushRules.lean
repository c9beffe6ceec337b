import Verif.FilterImports

/-!
# Rules that can be evaluated while importing (C46): from the rule as it is written to its pattern
-/

set_option linter.unusedSimpArgs false
set_option linter.unusedSectionVars false
set_option linter.unusedVariables false

namespace Verif
variable {α : Type} [DecidableEq α] [Dom α]

/-! ## Specification -/

/-- The head depends on the variable. -/
inductive SNeeded (S : SRule α) (H : SHead α) : Variable → Prop
  | head {v : Variable} : v ∈ HTerm.varsList H.terms → SNeeded S H v
  | step {o e : Operation α} {v w : Variable} : o ∈ S.operations → o.variableAssignment = some (w, e) →
      (∀ u ∈ e.vars, SSafe S u) → SNeeded S H w → v ∈ e.vars → SNeeded S H v

/-- Rules that can be evaluated while importing: one body atom without expressions, one head atom that is not empty and has
neither existential variables nor aggregates; each operation is either a condition on the variables of the body atom, or
defines a new variable (`ops`), and the head depends on all variables that are defined (`used`). -/
structure PushRule (S : SRule α) (A : SAtom α) (H : SHead α) : Prop where
  positive : S.positive = [A]
  negative : S.negative = []
  head : S.head = [H]
  valid : SValid S
  simple : ∀ o, BTerm.oper o ∉ A.terms
  headNonempty : H.terms ≠ []
  noAgg : ∀ t ∈ H.terms, t.aggCount = 0
  universal : ∀ v ∈ HTerm.varsList H.terms, v.isExistential = false
  ops : ∀ o ∈ S.operations, (∀ v ∈ o.vars, BTerm.var v ∈ A.terms) ∨
    ∃ v e, o.variableAssignment = some (v, e) ∧ BTerm.var v ∉ A.terms ∧ S.operations.countP (Operation.assigns v) = 1
  used : ∀ v, SSafe S v → BTerm.var v ∈ A.terms ∨ SNeeded S H v

/-! ## The normalized rule -/

/-- the normalized body atom -/
def pushAtom (A : SAtom α) : BodyAtom := ⟨A.pred, (normBodyTerms A.terms [] 0).1⟩
/-- the normalized head atom -/
def pushHead (A : SAtom α) (H : SHead α) : HeadAtom α := ⟨H.pred, (normHeadLoop H.terms 0 (normBodyTerms A.terms [] 0).2.2).terms⟩

omit [DecidableEq α] [Dom α] in
theorem mem_varsList_iff {ts : List (HTerm α)} {v : Variable} : v ∈ HTerm.varsList ts ↔ ∃ t ∈ ts, v ∈ t.vars := by
  induction ts with
  | nil => simp [HTerm.varsList]
  | cons t ts ih => simp [HTerm.varsList, ih]

omit [DecidableEq α] [Dom α] in
theorem outerVars_of_noAgg {w : Variable} : ∀ t : HTerm α, t.aggCount = 0 → w ∈ t.vars → w ∈ t.outerVars
  | .var v, _, h => by simpa [HTerm.vars, HTerm.outerVars] using h
  | .const a, _, h => by simp [HTerm.vars] at h
  | .equal l r, hc, h => by
    rw [HTerm.aggCount] at hc
    rw [HTerm.vars, List.mem_append] at h
    rw [HTerm.outerVars, List.mem_append]
    exact h.imp (outerVars_of_noAgg l (by omega)) (outerVars_of_noAgg r (by omega))
  | .op k ts, hc, h => by
    rw [HTerm.aggCount] at hc
    rw [HTerm.vars] at h
    rw [HTerm.outerVars]
    exact outerVarsList_of_noAgg ts hc h
  | .agg k i d, hc, h => by simp [HTerm.aggCount] at hc
where outerVarsList_of_noAgg {w : Variable} : ∀ ts : List (HTerm α), HTerm.aggCountList ts = 0 → w ∈ HTerm.varsList ts →
    w ∈ HTerm.outerVarsList ts
  | [], _, h => by simp [HTerm.varsList] at h
  | t :: ts, hc, h => by
    rw [HTerm.aggCountList] at hc
    rw [HTerm.varsList, List.mem_append] at h
    rw [HTerm.outerVarsList, List.mem_append]
    exact h.imp (outerVars_of_noAgg t (by omega)) (outerVarsList_of_noAgg ts (by omega))

theorem norm_vars_of_noAgg {t : HTerm α} (h : t.aggCount = 0) (w : Variable) : w ∈ t.norm.vars ↔ w ∈ t.vars := by
  rw [HTerm.mem_norm_vars]
  constructor
  · rintro (h' | ⟨-, h'⟩)
    · exact HTerm.outerVars_sub t h'
    · exact absurd h h'
  · exact fun h' => .inl (outerVars_of_noAgg t h h')

/-- the new variables of the head are defined once -/
theorem countP_headOps (ts : List (HTerm α)) (i g k : Nat) :
    (normHeadLoop ts i g).ops.countP (Operation.assigns (freshVar "HEAD" k)) ≤ if g < k then 1 else 0 := by
  induction ts generalizing i g with
  | nil => simp [normHeadLoop]
  | cons t ts ih =>
    by_cases ht : t.isOper = true
    · rw [normHeadLoop_oper ht, normHeadOper]
      dsimp only
      rw [List.countP_cons]
      have h1 := ih (i + 1) (g + 1)
      by_cases hk : k = g + 1
      · subst hk
        have e1 : ¬ g + 1 < g + 1 := by omega
        have e2 : g < g + 1 := by omega
        rw [if_neg e1] at h1
        rw [if_pos e2]
        split <;> omega
      · have hne : ¬ Operation.assigns (freshVar "HEAD" k) (Operation.equal (.var (freshVar "HEAD" (g + 1))) t.norm) = true := by
          simp only [Operation.assigns, Operation.variableAssignment, decide_eq_true_eq]
          exact fun h => hk (freshVar_inj h).symm
        rw [if_neg hne]
        split at h1 <;> split <;> omega
    · simp only [Bool.not_eq_true] at ht
      rw [normHeadLoop_plain ht]
      exact ih (i + 1) g

namespace PushRule
variable {S : SRule α} {A : SAtom α} {H : SHead α} (hp : PushRule S A H) (order : List Variable)
include hp

theorem norm_positive : (normalizeRule S order).positive = [pushAtom A] := by
  simp [normalizeRule, hp.positive, normBodyAtoms, pushAtom]

theorem norm_negative : (normalizeRule S order).negative = [] := by
  simp [normalizeRule, hp.negative, normBodyAtoms]

theorem posGen_eq : posGen S = (normBodyTerms A.terms [] 0).2.2 := by
  simp [posGen, hp.positive, normBodyAtoms]

theorem negGen_eq : negGen S = (normBodyTerms A.terms [] 0).2.2 := by
  unfold negGen
  rw [hp.posGen_eq]
  simp [hp.negative, normBodyAtoms]

theorem norm_heads : (normalizeRule S order).head = [pushHead A H] := by
  have h1 : (normHeadAtoms S.head 0 (negGen S)).1 = [pushHead A H] := by
    rw [hp.head, hp.negGen_eq]
    simp [normHeadAtoms, normHeadAtom_atom, pushHead]
  exact h1

theorem agg_none {t : HTerm α} (ht : t ∈ H.terms) : t.agg? = none := (HTerm.agg?_none t).2 (hp.noAgg t ht)

theorem norm_aggregation : (normalizeRule S order).aggregation = none := by
  rcases h : (normalizeRule S order).aggregation with _ | ⟨a, j⟩
  · rfl
  · obtain ⟨h', x, outer, j', t, h1, -, h3, h4, -⟩ := norm_agg_some order h
    have hh : h' = H := by
      have := List.mem_of_getElem? h1
      rw [hp.head] at this; simpa using this
    subst hh
    rw [hp.agg_none (List.mem_of_getElem? h3)] at h4
    cases h4

theorem mem_operations (o : Operation α) : o ∈ (normalizeRule S order).operations ↔ o ∈ S.operations ∨
    o ∈ (normBodyTerms A.terms [] 0).2.1 ∨ o ∈ (normHeadLoop H.terms 0 (normBodyTerms A.terms [] 0).2.2).ops := by
  rw [mem_norm_ops]
  refine or_congr_right ?_
  constructor
  · rintro (⟨a, k, h1, h2⟩ | ⟨a, k, h1, h2⟩ | ⟨j, h, h1, h2⟩ | ⟨j, h, a, outer, j', h1, h2, h3⟩)
    · rw [hp.positive] at h1
      simp [AtomAt] at h1
      obtain ⟨rfl, rfl⟩ := h1
      exact .inl h2
    · rw [hp.negative] at h1
      simp [AtomAt] at h1
    · rw [hp.head] at h1
      rcases j with _ | j
      · simp at h1
        subst h1
        unfold headParts at h2
        rw [headsGen_zero, hp.negGen_eq] at h2
        exact .inr h2
      · simp at h1
    · rw [hp.head] at h1
      rcases j with _ | j
      · simp at h1
        subst h1
        obtain ⟨t, h4, h5, -⟩ := headParts_agg h2
        rw [hp.agg_none (List.mem_of_getElem? h4)] at h5
        cases h5
      · simp at h1
  · rintro (h | h)
    · exact .inl ⟨A, 0, by rw [hp.positive]; simp [AtomAt], h⟩
    · refine .inr (.inr (.inl ⟨0, H, by rw [hp.head]; rfl, ?_⟩))
      unfold headParts
      rw [headsGen_zero, hp.negGen_eq]
      exact h

theorem operations_eq : (normalizeRule S order).operations = S.operations ++ (normBodyTerms A.terms [] 0).2.1 ++
    (normHeadLoop H.terms 0 (normBodyTerms A.terms [] 0).2.2).ops := by
  have h1 : (normBodyAtoms S.positive 0).2.1 = (normBodyTerms A.terms [] 0).2.1 := by
    simp [hp.positive, normBodyAtoms]
  have h2 : (normBodyAtoms S.negative (posGen S)).2.1 = [] := by simp [hp.negative, normBodyAtoms]
  have h3 : (normHeadAtoms S.head 0 (negGen S)).2.1 = (normHeadLoop H.terms 0 (normBodyTerms A.terms [] 0).2.2).ops := by
    rw [hp.head, hp.negGen_eq, normHeadAtoms, normHeadAtoms]
    simp only [List.append_nil]
    rw [normHeadAtom]
    have h4 := normHeadLoop_agg H.terms 0 (normBodyTerms A.terms [] 0).2.2
    rcases hx : (normHeadLoop H.terms 0 (normBodyTerms A.terms [] 0).2.2).agg with _ | ⟨a, outer, j⟩
    · rfl
    · rw [hx] at h4
      obtain ⟨j', t, -, h5, h6, -⟩ := h4
      rw [hp.agg_none (List.mem_of_getElem? h5)] at h6
      cases h6
  show S.operations ++ (normBodyAtoms S.positive 0).2.1 ++ (normBodyAtoms S.negative (posGen S)).2.1 ++
    (normHeadAtoms S.head 0 (negGen S)).2.1 = _
  rw [h1, h2, h3, List.append_nil]

theorem memA : A ∈ S.positive := by rw [hp.positive]; simp
theorem memH : H ∈ S.head := by rw [hp.head]; simp

/-- a variable of the normalized atom -/
theorem mem_pushAtom {v : Variable} (hv : BTerm.var v ∈ A.terms) : v ∈ (pushAtom A).terms :=
  (normBodyTerms_has A.terms [] 0 hv).resolve_left (by simp)

theorem pushAtom_mem {v : Variable} (hv : v ∈ (pushAtom A).terms) : BTerm.var v ∈ A.terms ∨
    ∃ k, v = freshVar "BODY" k := by
  rcases normBodyTerms_vars A.terms [] 0 hv with h | ⟨k, -, -, h⟩
  · exact .inl h.1
  · exact .inr ⟨k, h⟩

theorem head_not_atom (k : Nat) : freshVar "HEAD" k ∉ (pushAtom A).terms := by
  intro h
  rcases hp.pushAtom_mem h with h | ⟨k', h⟩
  · exact (hp.valid.userPos hp.memA).1 _ h (head_reserved _)
  · exact body_ne_head _ _ h.symm

theorem headVar_safe {v : Variable} (hv : v ∈ HTerm.varsList H.terms) : SSafe S v :=
  hp.valid.headSafe H hp.memH v hv (hp.universal v hv)

/-- The operation of a head term. -/
theorem head_op {j : Nat} {t : HTerm α} (hj : H.terms[j]? = some t) (ht : t.isOper = true) :
    .equal (.var (freshVar "HEAD" (headGen H.terms (normBodyTerms A.terms [] 0).2.2 j + 1))) t.norm ∈
      (normalizeRule S order).operations :=
  (hp.mem_operations order _).2 (.inr (.inr ((mem_normHeadLoop_ops _ _ _ _).2 ⟨j, t, hj, ht, rfl⟩)))

theorem norm_safe {t : HTerm α} (ht : t ∈ H.terms) : ∀ w ∈ t.norm.vars, NSafe S order w := fun w hw =>
  (hp.headVar_safe (mem_varsList_iff.2 ⟨t, ht, (norm_vars_of_noAgg (hp.noAgg t ht) w).1 hw⟩)).norm order hp.valid

/-- the variables of the normalized head -/
theorem pushHead_mem {v : Variable} (hv : v ∈ (pushHead A H).vars) : (v ∈ HTerm.varsList H.terms ∧ HTerm.var v ∈ H.terms) ∨
    ∃ (j : Nat) (t : HTerm α), H.terms[j]? = some t ∧ t.isOper = true ∧
      v = freshVar "HEAD" (headGen H.terms (normBodyTerms A.terms [] 0).2.2 j + 1) := by
  obtain ⟨q, h1, h2⟩ := List.mem_filterMap.1 hv
  obtain ⟨j, hj, rfl⟩ := List.getElem_of_mem h1
  have h3 := normHeadLoop_terms H.terms 0 (normBodyTerms A.terms [] 0).2.2 j
  have h4 : (normHeadLoop H.terms 0 (normBodyTerms A.terms [] 0).2.2).terms[j]? = some ((pushHead A H).terms[j]) :=
    List.getElem?_eq_getElem hj
  rw [h4] at h3
  rcases h5 : H.terms[j]? with _ | t
  · rw [h5] at h3; cases h3
  · rw [h5] at h3
    simp only [Option.map_some, Option.some.injEq] at h3
    rw [h3] at h2
    have hc := hp.noAgg t (List.mem_of_getElem? h5)
    cases t with
    | var w =>
      simp [HTerm.prim, Primitive.var?] at h2
      subst h2
      exact .inl ⟨mem_varsList_iff.2 ⟨_, List.mem_of_getElem? h5, by simp [HTerm.vars]⟩, List.mem_of_getElem? h5⟩
    | const a => simp [HTerm.prim, Primitive.var?] at h2
    | agg k i d => simp [HTerm.aggCount] at hc
    | equal l r =>
      simp [HTerm.prim, Primitive.var?] at h2
      exact .inr ⟨j, _, h5, rfl, h2.symm⟩
    | op k ts =>
      simp [HTerm.prim, Primitive.var?] at h2
      exact .inr ⟨j, _, h5, rfl, h2.symm⟩

theorem mem_pushHead {j : Nat} {t : HTerm α} (hj : H.terms[j]? = some t) {v : Variable}
    (hv : t.prim (headGen H.terms (normBodyTerms A.terms [] 0).2.2 j) = .var v) : v ∈ (pushHead A H).vars := by
  refine List.mem_filterMap.2 ⟨.var v, ?_, rfl⟩
  have h3 := normHeadLoop_terms H.terms 0 (normBodyTerms A.terms [] 0).2.2 j
  rw [hj, Option.map_some, hv] at h3
  exact List.mem_of_getElem? h3

theorem needed {v : Variable} (hv : SNeeded S H v) : NeededVar (normalizeRule S order) (pushHead A H) v := by
  induction hv with
  | @head v hv =>
    obtain ⟨t, ht, hvt⟩ := mem_varsList_iff.1 hv
    obtain ⟨j, hj⟩ := List.getElem?_of_mem ht
    by_cases hop : t.isOper = true
    · refine .step (hp.head_op order hj hop) (by rw [Operation.variableAssignment]) (hp.norm_safe order ht)
        (.head (hp.mem_pushHead hj (HTerm.prim_oper hop _))) ?_
      exact (norm_vars_of_noAgg (hp.noAgg t ht) v).2 hvt
    · have hc := hp.noAgg t ht
      cases t with
      | var w =>
        simp [HTerm.vars] at hvt
        subst hvt
        exact .head (hp.mem_pushHead hj rfl)
      | const a => simp [HTerm.vars] at hvt
      | agg k i d => simp [HTerm.aggCount] at hc
      | equal l r => simp [HTerm.isOper] at hop
      | op k ts => simp [HTerm.isOper] at hop
  | step ho hs hsafe _ hv ih =>
    exact .step ((hp.mem_operations order _).2 (.inl ho)) hs (fun u hu => (hsafe u hu).norm order hp.valid) ih hv

/-- **The normalized rule can be translated into a pattern.** -/
theorem importRule : ImportRule (normalizeRule S order) (pushAtom A) (pushHead A H) where
  positive := hp.norm_positive order
  negative := hp.norm_negative order
  head := hp.norm_heads order
  aggregation := hp.norm_aggregation order
  nodup := normBodyTerms_nodup _ _ _ (hp.valid.userPos hp.memA).1
  headNonempty := by
    intro h
    have h1 := normHeadLoop_length H.terms 0 (normBodyTerms A.terms [] 0).2.2
    have h2 : (normHeadLoop H.terms 0 (normBodyTerms A.terms [] 0).2.2).terms = [] := h
    rw [h2] at h1
    exact hp.headNonempty (List.length_eq_zero_iff.1 h1.symm)
  headSafe := by
    intro v hv
    rcases hp.pushHead_mem hv with h | ⟨j, t, h1, h2, rfl⟩
    · exact (hp.headVar_safe h.1).norm order hp.valid
    · exact .assign (hp.head_op order h1 h2) (by rw [Operation.variableAssignment]) (hp.norm_safe order (List.mem_of_getElem? h1))
  ops := by
    have hbody : ∀ v, ¬ (∃ k, v = freshVar "BODY" k) →
        (normBodyTerms A.terms [] 0).2.1.countP (Operation.assigns v) = 0 := by
      intro v hv
      rw [List.countP_eq_zero]
      intro o ho hx
      obtain ⟨f, e, rfl, ⟨k, -, -, rfl⟩, -⟩ := normBodyTerms_ops _ _ _ ho
      simp only [Operation.assigns, Operation.variableAssignment, decide_eq_true_eq] at hx
      exact hv ⟨k, hx.symm⟩
    intro o ho
    rcases (hp.mem_operations order o).1 ho with h | h | h
    · rcases hp.ops o h with h1 | ⟨v, e, h1, h2, h3⟩
      · exact .inl fun v hv => hp.mem_pushAtom (h1 v hv)
      · have huser : ¬ v.Reserved := hp.valid.userOps h (assignment_vars h1).1
        refine .inr ⟨v, e, h1, fun hx => ?_, ?_⟩
        · rcases hp.pushAtom_mem hx with hx | ⟨k, rfl⟩
          · exact h2 hx
          · exact huser (body_reserved _)
        · rw [hp.operations_eq, List.countP_append, List.countP_append, h3,
            hbody v (by rintro ⟨k, rfl⟩; exact huser (body_reserved _))]
          have : (normHeadLoop H.terms 0 (normBodyTerms A.terms [] 0).2.2).ops.countP (Operation.assigns v) = 0 := by
            rw [List.countP_eq_zero]
            intro o ho hx
            obtain ⟨f, t, -, rfl, hf, -⟩ := normHeadLoop_ops_form ho
            simp only [Operation.assigns, Operation.variableAssignment, decide_eq_true_eq] at hx
            exact huser (hx ▸ hf.reserved)
          rw [this]
    · obtain ⟨f, e, rfl, -, hf, he⟩ := normBodyTerms_ops _ _ _ h
      left
      intro v hv
      simp only [Operation.vars, List.mem_append, List.mem_singleton] at hv
      rcases hv with rfl | hv
      · exact hf
      · rcases he with ⟨w, rfl, hw⟩ | ⟨a, rfl⟩ | he
        · simp only [Operation.vars, List.mem_singleton] at hv
          subst hv
          exact hp.mem_pushAtom hw
        · simp [Operation.vars] at hv
        · exact absurd he (hp.simple e)
    · have h' := h
      obtain ⟨j, t, h1, h2, rfl⟩ := (mem_normHeadLoop_ops _ _ _ _).1 h
      refine .inr ⟨_, t.norm, by rw [Operation.variableAssignment], hp.head_not_atom _, ?_⟩
      rw [hp.operations_eq, List.countP_append, List.countP_append, hbody _ (by rintro ⟨k, hk⟩; exact body_ne_head _ _ hk.symm)]
      have h3 : S.operations.countP (Operation.assigns (freshVar "HEAD" (headGen H.terms (normBodyTerms A.terms [] 0).2.2 j + 1))) = 0 := by
        rw [List.countP_eq_zero]
        intro o ho hx
        unfold Operation.assigns at hx
        rcases hv : o.variableAssignment with _ | ⟨w, e⟩
        · rw [hv] at hx; simp at hx
        · rw [hv] at hx
          simp only [decide_eq_true_eq] at hx
          subst hx
          exact hp.valid.userOps ho (assignment_vars hv).1 (head_reserved _)
      have h4 := countP_headOps H.terms 0 (normBodyTerms A.terms [] 0).2.2 (headGen H.terms (normBodyTerms A.terms [] 0).2.2 j + 1)
      have h5 : 0 < (normHeadLoop H.terms 0 (normBodyTerms A.terms [] 0).2.2).ops.countP
          (Operation.assigns (freshVar "HEAD" (headGen H.terms (normBodyTerms A.terms [] 0).2.2 j + 1))) := by
        rw [List.countP_pos_iff]
        exact ⟨_, h', by simp [Operation.assigns, Operation.variableAssignment]⟩
      split at h4 <;> omega
  used := by
    intro v hv
    by_cases hr : v.Reserved
    · cases hv with
      | @atom a v ha hv =>
        rw [hp.norm_positive, List.mem_singleton] at ha
        subst ha
        exact .inl hv
      | @assign o e v ho hs _ =>
        rcases (hp.mem_operations order o).1 ho with h | h | h
        · exact absurd hr (hp.valid.userOps h (assignment_vars hs).1)
        · obtain ⟨f, e, rfl, -, hf, -⟩ := normBodyTerms_ops _ _ _ h
          rw [Operation.variableAssignment] at hs
          cases hs
          exact .inl hf
        · obtain ⟨j, t, h1, h2, rfl⟩ := (mem_normHeadLoop_ops _ _ _ _).1 h
          rw [Operation.variableAssignment] at hs
          cases hs
          exact .inr (.head (hp.mem_pushHead h1 (HTerm.prim_oper h2 _)))
    · rcases hp.used v (NSafe.user order hp.valid hv hr) with h | h
      · exact .inl (hp.mem_pushAtom h)
      · exact .inr (hp.needed order h)

end PushRule
end Verif
