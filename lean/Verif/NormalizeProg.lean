import Verif.NormalizeRule
import Verif.VariableOrder

/-!
# Programs as they are written: the result of an execution (C43)

Normalized rules satisfy the assumptions of the theorems about the engine, so that the result of an execution is the
stable model of the program as it is written.
-/

set_option linter.unusedSimpArgs false
set_option linter.unusedSectionVars false
set_option linter.unusedVariables false

namespace Verif
variable {α : Type} [DecidableEq α] [Dom α]

/-! ## Specification -/

/-- The set of facts is closed under the rules, when negated atoms are looked up in `N`. -/
def SClosedUnder (rules : List (SRule α)) (edb : Interp α) (N I : Interp α) : Prop :=
  edb.le I ∧ ∀ S ∈ rules, (SDerives S I N).le I

/-- The least set of facts that contains `edb` and is closed under the rules, when negated atoms are looked up in `N`. -/
def SLeastModel (rules : List (SRule α)) (edb : Interp α) (N : Interp α) : Interp α :=
  fun p row => ∀ I, SClosedUnder rules edb N I → I p row

/-- The meaning of a program with negation: a stable model. -/
def SIsStable (rules : List (SRule α)) (edb : Interp α) (M : Interp α) : Prop := M = SLeastModel rules edb M

/-- The predicates can be assigned levels such that the head is above negated atoms and the body of aggregates, and not below
other atoms. -/
def SIsStratifiable (rules : List (SRule α)) : Prop :=
  ∃ level : Tag → Nat, ∀ S ∈ rules, ∀ h ∈ S.head, (∀ a ∈ S.positive, level a.pred ≤ level h.pred) ∧
    (∀ a ∈ S.negative, level a.pred < level h.pred) ∧ (S.HasAgg → ∀ a ∈ S.positive, level a.pred < level h.pred)

/-- Conditions on the body of a rule: arities (checked by `PredicateArities` in the validation), and two conditions without which
rules are not evaluated correctly (see `negated_atom_ignored`, and `RuleOK`). -/
structure SBodyOK (S : SRule α) (arity : Tag → Nat) : Prop where
  bodyArity : ∀ a ∈ S.positive ++ S.negative, a.terms.length = arity a.pred
  negShared : ∀ a ∈ S.negative, (∃ v, .var v ∈ a.terms ∧ SSafe S v) ∨ (∃ c, .const c ∈ a.terms) ∨ ∃ o, .oper o ∈ a.terms
  negLocal : ∀ a ∈ S.negative, ∀ o ∈ S.operations, (∀ v ∈ o.vars, SSafe S v ∨ .var v ∈ a.terms) →
    (∀ v ∈ o.vars, SSafe S v) ∨ ∀ v ∈ o.vars, .var v ∈ a.terms

/-- Further conditions on rules: arities (checked by `PredicateArities` in the validation), rules without existential variables,
and two conditions without which rules are not evaluated correctly (see `negated_atom_ignored`, and `RuleOK`). -/
structure SRuleOK (S : SRule α) (arity : Tag → Nat) : Prop where
  bodyArity : ∀ a ∈ S.positive ++ S.negative, a.terms.length = arity a.pred
  headArity : ∀ h ∈ S.head, h.terms.length = arity h.pred
  universal : ∀ h ∈ S.head, ∀ v ∈ HTerm.varsList h.terms, v.isExistential = false
  negShared : ∀ a ∈ S.negative, (∃ v, .var v ∈ a.terms ∧ SSafe S v) ∨ (∃ c, .const c ∈ a.terms) ∨ ∃ o, .oper o ∈ a.terms
  negLocal : ∀ a ∈ S.negative, ∀ o ∈ S.operations, (∀ v ∈ o.vars, SSafe S v ∨ .var v ∈ a.terms) →
    (∀ v ∈ o.vars, SSafe S v) ∨ ∀ v ∈ o.vars, .var v ∈ a.terms

theorem SRuleOK.body {S : SRule α} {arity : Tag → Nat} (h : SRuleOK S arity) : SBodyOK S arity :=
  ⟨h.bodyArity, h.negShared, h.negLocal⟩

/-- `NormalizedProgram::normalize_program` (/repo/nemo/src/execution/planning/normalization/program.rs:240-344) as far as
rules without existential variables are concerned; `given` are the predicates of facts and imports. -/
def normalizeProgram (given : List Tag) (rules : List (SRule α)) : Option (List (NRule α)) :=
  VarOrder.setOrders given (rules.map fun S => normalizeRule S [])

/-! ## Conditions on normalized rules -/

section rule
variable {S : SRule α} (order : List Variable)

theorem op_all_safe {f : Variable} {e : Operation α} (ho : .equal (.var f) e ∈ (normalizeRule S order).operations)
    (he : ∀ v ∈ e.vars, NSafe S order v) : ∀ v ∈ (Operation.equal (.var f) e).vars, NSafe S order v := by
  intro v hv
  rcases List.mem_append.1 hv with hv | hv
  · obtain rfl : v = f := by simpa [Operation.vars] using hv
    exact .assign ho rfl he
  · exact he v hv

/-- the terms of negated atoms that are not variables -/
theorem negShared_norm (hV : SValid S) {arity : Tag → Nat} (hok : SBodyOK S arity) :
    ∀ x ∈ (normalizeRule S order).negative, ∃ v ∈ x.terms, NSafe S order v := by
  intro x hx
  obtain ⟨a, k, hk, rfl⟩ := (mem_norm_neg S order _).1 hx
  rcases hok.negShared a hk.mem with ⟨v, hv, hs⟩ | h
  · exact ⟨v, (normBodyTerms_has a.terms [] k hv).resolve_left (by simp), hs.norm order hV⟩
  · -- a new variable with an equation
    have aux : ∀ (ts : List (BTerm α)) used g, ((∃ c, .const c ∈ ts) ∨ ∃ o, .oper o ∈ ts) → ∃ f e,
        .equal (.var f) e ∈ (normBodyTerms ts used g).2.1 ∧ f ∈ (normBodyTerms ts used g).1 ∧
        (e.vars = [] ∨ .oper e ∈ ts) := by
      intro ts
      induction ts with
      | nil => rintro _ _ (⟨c, h⟩ | ⟨o, h⟩) <;> cases h
      | cons t ts ih =>
        intro used g h0
        have lift : ((∃ c, .const c ∈ ts) ∨ ∃ o, .oper o ∈ ts) → ∀ used' g', ∃ f e,
            .equal (.var f) e ∈ (normBodyTerms ts used' g').2.1 ∧ f ∈ (normBodyTerms ts used' g').1 ∧
            (e.vars = [] ∨ .oper e ∈ t :: ts) := by
          intro h used' g'
          obtain ⟨f, e, h1, h2, h3⟩ := ih used' g' h
          exact ⟨f, e, h1, h2, h3.imp_right (List.mem_cons_of_mem _)⟩
        have rest : (∀ c, t ≠ .const c) → (∀ o, t ≠ .oper o) → (∃ c, .const c ∈ ts) ∨ ∃ o, .oper o ∈ ts := by
          intro h1 h2
          rcases h0 with ⟨c, h⟩ | ⟨o, h⟩
          · rcases List.mem_cons.1 h with h | h
            · exact absurd h.symm (h1 c)
            · exact .inl ⟨c, h⟩
          · rcases List.mem_cons.1 h with h | h
            · exact absurd h.symm (h2 o)
            · exact .inr ⟨o, h⟩
        cases t with
        | var v =>
          have hr := rest (by simp) (by simp)
          rw [normBodyTerms]
          split
          · obtain ⟨f, e, h1, h2, h3⟩ := lift hr used (g + 1)
            exact ⟨f, e, List.mem_cons_of_mem _ h1, List.mem_cons_of_mem _ h2, h3⟩
          · obtain ⟨f, e, h1, h2, h3⟩ := lift hr (v :: used) g
            exact ⟨f, e, h1, List.mem_cons_of_mem _ h2, h3⟩
        | anon =>
          obtain ⟨f, e, h1, h2, h3⟩ := lift (rest (by simp) (by simp)) used (g + 1)
          exact ⟨f, e, h1, List.mem_cons_of_mem _ h2, h3⟩
        | const c => exact ⟨_, _, List.mem_cons_self, List.mem_cons_self, .inl (by simp [Operation.vars])⟩
        | oper o => exact ⟨_, _, List.mem_cons_self, List.mem_cons_self, .inr List.mem_cons_self⟩
    obtain ⟨f, e, h1, h2, h3⟩ := aux a.terms [] k h
    have hmem : .equal (.var f) e ∈ (normalizeRule S order).operations :=
      (mem_norm_ops S order _).2 (.inr (.inr (.inl ⟨a, k, hk, h1⟩)))
    refine ⟨f, h2, .assign hmem rfl fun w hw => ?_⟩
    rcases h3 with h3 | h3
    · rw [h3] at hw; cases hw
    · exact (hV.operSafe a (List.mem_append_right _ hk.mem) e h3 w hw).norm order hV

/-- the operations that concern a negated atom -/
theorem negLocal_norm (hV : SValid S) {arity : Tag → Nat} (hok : SBodyOK S arity) :
    ∀ x ∈ (normalizeRule S order).negative, ∀ o ∈ (normalizeRule S order).operations,
      (∀ v ∈ o.vars, NSafe S order v ∨ v ∈ x.terms) → (∀ v ∈ o.vars, NSafe S order v) ∨ ∀ v ∈ o.vars, v ∈ x.terms := by
  intro x hx o ho hv
  obtain ⟨a, k, hk, rfl⟩ := (mem_norm_neg S order _).1 hx
  have hua := hV.userNeg hk.mem
  have has : ∀ v, .var v ∈ a.terms → v ∈ (normBodyTerms a.terms [] k).1 := fun v h =>
    (normBodyTerms_has a.terms [] k h).resolve_left (by simp)
  rcases (mem_norm_ops S order o).1 ho with h | ⟨b, l, hl, hb⟩ | ⟨b, l, hl, hb⟩ | ⟨j, h, h1, h2⟩ |
    ⟨j, h, y, outer, j', h1, h2, h3⟩
  · have : ∀ v ∈ o.vars, SSafe S v ∨ .var v ∈ a.terms := by
      intro v hv'
      rcases hv v hv' with hs | hs
      · exact .inl (NSafe.user order hV hs (hV.userOps h hv'))
      · rcases normBodyTerms_vars a.terms [] k hs with h' | h'
        · exact .inr h'.1
        · exact absurd h'.reserved (hV.userOps h hv')
    rcases hok.negLocal a hk.mem o h this with h' | h'
    · exact .inl fun v hv => (h' v hv).norm order hV
    · exact .inr fun v hv => has v (h' v hv)
  · exact .inl fun v hv => pos_op_safe order hV hl hb hv
  · obtain ⟨f, e, rfl, hf, hf', hr⟩ := neg_op_right hV hl hb
    have other : (∀ w, .var w ∈ a.terms → .var w ∈ b.terms → SSafe S w) →
        (∀ v ∈ (Operation.equal (.var f) e).vars, NSafe S order v) := by
      intro hdis
      refine op_all_safe order ho fun w hw => ?_
      rcases hv w (List.mem_append_right _ hw) with h | h
      · exact h
      · rcases hr w hw with hs | hs
        · exact hs.norm order hV
        · rcases normBodyTerms_vars a.terms [] k h with h' | h'
          · exact (hdis w h'.1 hs).norm order hV
          · exact absurd h'.reserved ((hV.userNeg hl.mem).1 w hs)
    rcases AtomAt.separate hV.negDisjoint hk hl with ⟨rfl, rfl⟩ | ⟨hd, -⟩ | ⟨hd, -⟩
    · -- the operation belongs to the atom
      obtain ⟨f', e', he, -, -, hcase⟩ := normBodyTerms_ops _ _ _ hb
      cases he
      rcases hcase with ⟨w, rfl, hw⟩ | ⟨c, rfl⟩ | hop
      · right
        intro v hv'
        rcases List.mem_append.1 hv' with hv' | hv'
        · obtain rfl : v = f := by simpa [Operation.vars] using hv'
          exact hf'
        · obtain rfl : v = w := by simpa [Operation.vars] using hv'
          exact has v hw
      · right
        intro v hv'
        rcases List.mem_append.1 hv' with hv' | hv'
        · obtain rfl : v = f := by simpa [Operation.vars] using hv'
          exact hf'
        · simp [Operation.vars] at hv'
      · exact .inl (op_all_safe order ho fun w hw =>
          (hV.operSafe a (List.mem_append_right _ hk.mem) e hop w hw).norm order hV)
    · exact .inl (other fun w h1 h2 => hd w h1 h2)
    · exact .inl (other fun w h1 h2 => hd w h2 h1)
  · obtain ⟨f, t, htm, rfl, hf, hop, -, hr⟩ := head_op_right hV h1 h2
    left
    refine op_all_safe order ho fun w hw => ?_
    rcases hr w hw with hs | ⟨rfl, -⟩
    · exact hs.norm order hV
    · rcases hv aggOut (List.mem_append_right _ hw) with h | h
      · exact h
      · rcases normBodyTerms_vars a.terms [] k h with h' | ⟨k', _, _, e⟩
        · exact absurd aggOut_reserved (hua.1 _ h'.1)
        · exact absurd e.symm (fresh_ne_agg k').2.1
  · obtain ⟨t, h4, h5, -⟩ := headParts_agg h2
    rcases normAggInput_cases y.2.1 with ⟨w, -, hi⟩ | hi
    · rw [hi] at h3; cases h3
    · rw [hi, List.mem_singleton] at h3
      subst h3
      exact .inl (op_all_safe order ho fun w hw =>
        (agg_vars_safe hV (List.mem_of_getElem? h1) (List.mem_of_getElem? h4) h5 (List.mem_append_left _ hw)).norm order hV)

theorem normBodyAtoms_pairwise (as : List (SAtom α)) (g : Nat) {R : SAtom α → SAtom α → Prop} {R' : BodyAtom → BodyAtom → Prop}
    (hR : as.Pairwise R) (h : ∀ a b k l, a ∈ as → b ∈ as → R a b → endGen a k ≤ l →
      R' ⟨a.pred, (normBodyTerms a.terms [] k).1⟩ ⟨b.pred, (normBodyTerms b.terms [] l).1⟩) :
    (normBodyAtoms as g).1.Pairwise R' := by
  induction as generalizing g with
  | nil => exact .nil
  | cons a as ih =>
    obtain ⟨h1, h2⟩ := List.pairwise_cons.1 hR
    rw [normBodyAtoms]
    refine List.pairwise_cons.2 ⟨fun x hx => ?_, ih _ h2 fun a b k l ha hb =>
      h a b k l (List.mem_cons_of_mem _ ha) (List.mem_cons_of_mem _ hb)⟩
    obtain ⟨b, l, hl, rfl⟩ := (mem_normBodyAtoms _ _ _).1 hx
    exact h a b g l List.mem_cons_self (List.mem_cons_of_mem _ hl.mem) (h1 b hl.mem) hl.range.1

theorem negDisjoint_norm (hV : SValid S) :
    (normalizeRule S order).negative.Pairwise fun a b => ∀ v ∈ a.terms, v ∈ b.terms → NSafe S order v := by
  refine normBodyAtoms_pairwise S.negative (posGen S) hV.negDisjoint ?_
  intro a b k l ha hb hd hle v hva hvb
  rcases normBodyTerms_vars a.terms [] k hva with h1 | h1 <;> rcases normBodyTerms_vars b.terms [] l hvb with h2 | h2
  · exact (hd v h1.1 h2.1).norm order hV
  · exact absurd h2.reserved ((hV.userNeg ha).1 v h1.1)
  · exact absurd h1.reserved ((hV.userNeg hb).1 v h2.1)
  · exact (h1.disjoint h2 hle).elim

theorem ruleOK_norm (hV : SValid S) {arity : Tag → Nat} (hok : SBodyOK S arity) (hn : order.Nodup)
    (hc : ∀ v ∈ atomVars (normalizeRule S order).positive, v ∈ order) : RuleOK (normalizeRule S order) arity where
  posNodup := by
    intro x hx
    obtain ⟨a, k, hk, rfl⟩ := (mem_norm_pos S order _).1 hx
    exact normBodyTerms_nodup a.terms [] k (hV.userPos hk.mem).1
  negNodup := by
    intro x hx
    obtain ⟨a, k, hk, rfl⟩ := (mem_norm_neg S order _).1 hx
    exact normBodyTerms_nodup a.terms [] k (hV.userNeg hk.mem).1
  posArity := by
    intro x hx
    obtain ⟨a, k, hk, rfl⟩ := (mem_norm_pos S order _).1 hx
    exact (normBodyTerms_length _ _ _).trans (hok.bodyArity a (List.mem_append_left _ hk.mem))
  negArity := by
    intro x hx
    obtain ⟨a, k, hk, rfl⟩ := (mem_norm_neg S order _).1 hx
    exact (normBodyTerms_length _ _ _).trans (hok.bodyArity a (List.mem_append_right _ hk.mem))
  orderNodup := hn
  orderCov := hc
  negShared := negShared_norm order hV hok
  negLocal := negLocal_norm order hV hok
  negDisjoint := negDisjoint_norm order hV

/-- the new variable of an expression without aggregates has a value -/
theorem head_fresh_safe (hV : SValid S) {j : Nat} {h : SHead α} (hj : S.head[j]? = some h) {i : Nat} {t : HTerm α}
    (hi : h.terms[i]? = some t) (hop : t.isOper = true) (hc : t.aggCount = 0) :
    NSafe S order (freshVar "HEAD" (headGen h.terms (headsGen S.head (negGen S) j) i + 1)) := by
  have hmem := (mem_norm_ops S order _).2 (.inr (.inr (.inr (.inl ⟨j, h, hj, head_op_mem hj hi hop⟩))))
  refine .assign hmem rfl fun w hw => ?_
  rcases (HTerm.mem_norm_vars w t).1 hw with h' | h'
  · exact (hV.headTermSafe (List.mem_of_getElem? hj) (List.mem_of_getElem? hi)
      (by rintro v rfl; simp [HTerm.isOper] at hop) (HTerm.outerVars_sub t h')).norm order hV
  · exact absurd hc h'.2

/-- the variable of a position without aggregates has a value -/
theorem prim_safe (hV : SValid S) {j : Nat} {h : SHead α} (hj : S.head[j]? = some h) {i : Nat} {t : HTerm α}
    (hi : h.terms[i]? = some t) (hc : t.aggCount = 0) {v : Variable}
    (hv : (t.prim (headGen h.terms (headsGen S.head (negGen S) j) i)).var? = some v) (hu : v.isExistential = false) :
    NSafe S order v := by
  by_cases hop : t.isOper = true
  · rw [HTerm.prim_oper hop] at hv
    cases hv
    exact head_fresh_safe order hV hj hi hop hc
  · cases t with
    | var w =>
      cases hv
      exact (hV.headSafe h (List.mem_of_getElem? hj) v
        (HTerm.mem_varsList (List.mem_of_getElem? hi) (by simp [HTerm.vars])) hu).norm order hV
    | const c => cases hv
    | agg _ _ _ => simp [HTerm.aggCount] at hc
    | equal _ _ => simp [HTerm.isOper] at hop
    | op _ _ => simp [HTerm.isOper] at hop

theorem headGen_mono (ts : List (HTerm α)) (g : Nat) {i j : Nat} (h : i ≤ j) : headGen ts g i ≤ headGen ts g j := by
  unfold headGen
  refine Nat.add_le_add_left ?_ _
  exact (List.take_sublist_take_left h).countP_le

/-- different positions have different new variables -/
theorem headGen_inj (ts : List (HTerm α)) (g : Nat) {i j : Nat} {t t' : HTerm α} (hi : ts[i]? = some t) (hj : ts[j]? = some t')
    (ht : t.isOper = true) (ht' : t'.isOper = true) (h : headGen ts g i = headGen ts g j) : i = j := by
  have step : ∀ (i : Nat) t, ts[i]? = some t → t.isOper = true → headGen ts g (i + 1) = headGen ts g i + 1 := by
    intro i t hi ht
    unfold headGen
    rw [List.take_add_one, hi, List.countP_append]
    simp [ht]; omega
  rcases Nat.lt_trichotomy i j with hlt | rfl | hlt
  · have := headGen_mono ts g (i := i + 1) (j := j) hlt
    rw [step i t hi ht] at this; omega
  · rfl
  · have := headGen_mono ts g (i := j + 1) (j := i) hlt
    rw [step j t' hj ht'] at this; omega

theorem mem_vars_norm_head {j : Nat} {h : SHead α} {v : Variable}
    (hv : v ∈ HeadAtom.vars (⟨h.pred, (headParts S j h).terms⟩ : HeadAtom α)) :
    ∃ (i : Nat) (t : HTerm α), h.terms[i]? = some t ∧
      (t.prim (headGen h.terms (headsGen S.head (negGen S) j) i)).var? = some v := by
  obtain ⟨p, hp, hpv⟩ := List.mem_filterMap.1 hv
  obtain ⟨i, hi⟩ := List.mem_iff_getElem?.1 hp
  rw [normHeadLoop_terms, Option.map_eq_some_iff] at hi
  obtain ⟨t, h1, rfl⟩ := hi
  exact ⟨i, t, h1, hpv⟩

theorem prim_universal {t : HTerm α} (hu : ∀ v ∈ t.vars, v.isExistential = false) {g : Nat} {v : Variable}
    (hv : (t.prim g).var? = some v) : v.isExistential = false := by
  cases t with
  | var w => cases hv; exact hu v (by simp [HTerm.vars])
  | const c => cases hv
  | agg _ _ _ => cases hv; rfl
  | equal _ _ => cases hv; rfl
  | op _ _ => cases hv; rfl

theorem aggOK_norm (hV : SValid S) {arity : Tag → Nat} (hok : SRuleOK S arity) {a : Aggregation} {j : Nat}
    (ha : (normalizeRule S order).aggregation = some (a, j)) : AggOK (normalizeRule S order) a := by
  obtain ⟨h, x, outer, j', t, h1, h2, h3, h4, rfl⟩ := norm_agg_some order ha
  have hh := List.mem_of_getElem? h1
  have hc := agg_count h4
  have huniq : ∀ (i : Nat) (t' : HTerm α), h.terms[i]? = some t' → t'.aggCount ≠ 0 → i = j' := fun i t' g1 g2 =>
    HTerm.aggCountList_unique (hV.oneAgg h hh) g1 h3 g2 hc
  have hgroup : ∀ v ∈ groupByVars (headParts S j h).terms (t.norm.vars.filter fun v => !decide (v = aggOut)) j',
      NSafe S order v := by
    intro v hv
    rcases (mem_group hV h1 h3 v).1 hv with g | ⟨i, t', g1, g2, g3⟩
    · exact (hV.headTermSafe hh (List.mem_of_getElem? h3) (agg_not_var h4) (HTerm.outerVars_sub t g)).norm order hV
    · refine prim_safe order hV h1 g1 ?_ g3 ?_
      · by_contra hne; exact g2 (huniq i t' g1 hne)
      · exact prim_universal (fun v hv => hok.universal h hh v (HTerm.mem_varsList (List.mem_of_getElem? g1) hv)) g3
  -- the remaining operations belong to the term with the aggregate
  have hrem : ∀ o, (normalizeRule S order).Remaining o → t.isOper = true ∧
      o = .equal (.var (freshVar "HEAD" (headGen h.terms (headsGen S.head (negGen S) j) j' + 1))) t.norm := by
    intro o ho
    obtain ⟨j2, h', m, t', g1, g2, g3, g4, rfl⟩ := remaining_head order hV ho
    have := hV.oneAggAtom j2 j h' h g1 h1 ⟨t', List.mem_of_getElem? g2, g4⟩ ⟨t, List.mem_of_getElem? h3, hc⟩
    subst this
    rw [h1] at g1; cases g1
    have := huniq m t' g2 g4
    subst this
    rw [h3] at g2; cases g2
    exact ⟨g3, rfl⟩
  refine ⟨hgroup, ?_, fun hc => NSafe.ne_aggOut order hV (hgroup _ hc) rfl, ?_, ?_⟩
  · intro v hv
    have hs : ∀ w ∈ x.2.1.vars ++ x.2.2, NSafe S order w := fun w hw =>
      (agg_vars_safe hV hh (List.mem_of_getElem? h3) h4 hw).norm order hV
    rcases List.mem_cons.1 hv with rfl | hv
    · rcases normAggInput_cases x.2.1 with ⟨w, e, hi⟩ | hi
      · rw [hi]; exact hs w (List.mem_append_left _ (by rw [e]; simp [Operation.vars]))
      · rw [hi]
        have hmem := (mem_norm_ops S order (.equal (.var aggIn) x.2.1)).2 (.inr (.inr (.inr (.inr
          ⟨j, h, _, _, _, h1, h2, by rw [hi]; exact List.mem_singleton.2 rfl⟩))))
        exact .assign hmem rfl fun w hw => hs w (List.mem_append_left _ hw)
    · exact hs v (List.mem_append_right _ hv)
  · intro o ho
    obtain ⟨hop, rfl⟩ := hrem o ho
    refine ⟨_, _, rfl, ?_, ?_, (fresh_ne_agg _).2.2.2⟩
    · intro w hw
      rcases (HTerm.mem_norm_vars w t).1 hw with g | g
      · exact .inl ((mem_group hV h1 h3 w).2 (.inl g))
      · exact .inr g.1
    · intro hv
      rcases (mem_group hV h1 h3 _).1 hv with g | ⟨i, t', g1, g2, g3⟩
      · exact hV.userHead hh t (List.mem_of_getElem? h3) _ (HTerm.outerVars_sub t g) (head_reserved _)
      · by_cases hop' : t'.isOper = true
        · rw [HTerm.prim_oper hop'] at g3
          have := freshVar_inj (Option.some.inj g3)
          exact g2 (headGen_inj h.terms (headsGen S.head (negGen S) j) g1 h3 hop' hop (by omega))
        · cases t' with
          | var w =>
            have hr := hV.userHead hh _ (List.mem_of_getElem? g1) w (by simp [HTerm.vars])
            have e : w = _ := Option.some.inj g3
            rw [e] at hr
            exact hr (head_reserved _)
          | const c => cases g3
          | agg _ _ _ => exact g2 (huniq i _ g1 (by simp [HTerm.aggCount]))
          | equal _ _ => simp [HTerm.isOper] at hop'
          | op _ _ => simp [HTerm.isOper] at hop'
  · intro o o' v e e' ho ho' _ _
    rw [(hrem o ho).2, (hrem o' ho').2]

theorem headOK_norm (hV : SValid S) {arity : Tag → Nat} (hok : SRuleOK S arity) : HeadOK (normalizeRule S order) arity where
  headArity := by
    intro x hx
    obtain ⟨i, hi⟩ := List.mem_iff_getElem?.1 hx
    rw [norm_head, Option.map_eq_some_iff] at hi
    obtain ⟨h, h1, rfl⟩ := hi
    exact (normHeadLoop_length _ _ _).trans (hok.headArity h (List.mem_of_getElem? h1))
  headSafe := by
    intro i x hi hno v hv hu
    rw [norm_head, Option.map_eq_some_iff] at hi
    obtain ⟨h, h1, rfl⟩ := hi
    obtain ⟨m, t, g1, g2⟩ := mem_vars_norm_head hv
    exact prim_safe order hV h1 g1 (plain_atom order hV h1 hno t (List.mem_of_getElem? g1)) g2 hu
  agg := fun a i ha => aggOK_norm order hV hok ha
  aggSafe := by
    intro a i x ha hi v hv
    rw [norm_head, Option.map_eq_some_iff] at hi
    obtain ⟨h, h1, rfl⟩ := hi
    obtain ⟨h', y, outer, j', t, g1, g2, g3, g4, rfl⟩ := norm_agg_some order ha
    rw [h1] at g1; cases g1
    obtain ⟨m, t', e1, e2⟩ := mem_vars_norm_head hv
    by_cases hm : m = j'
    · subst hm
      rw [g3] at e1; cases e1
      by_cases hop : t.isOper = true
      · rw [HTerm.prim_oper hop] at e2
        cases e2
        exact .inr (.inr ⟨_, _, head_remaining order hV h1 g3 hop (agg_count g4), rfl⟩)
      · cases t with
        | var w => simp [HTerm.agg?] at g4
        | const c => simp [HTerm.agg?] at g4
        | agg _ _ _ => cases e2; exact .inr (.inl rfl)
        | equal _ _ => simp [HTerm.isOper] at hop
        | op _ _ => simp [HTerm.isOper] at hop
    · exact .inl ((mem_group hV h1 g3 v).2 (.inr ⟨m, t', e1, hm, e2⟩))

theorem norm_not_existential {arity : Tag → Nat} (hok : SRuleOK S arity) : (normalizeRule S order).isExistential = false := by
  rw [NRule.isExistential, ← Bool.not_eq_true, List.any_eq_true]
  rintro ⟨x, hx, hv⟩
  obtain ⟨v, hv, he⟩ := List.any_eq_true.1 hv
  obtain ⟨i, hi⟩ := List.mem_iff_getElem?.1 hx
  rw [norm_head, Option.map_eq_some_iff] at hi
  obtain ⟨h, h1, rfl⟩ := hi
  obtain ⟨m, t, g1, g2⟩ := mem_vars_norm_head hv
  rw [prim_universal (fun v hv => hok.universal h (List.mem_of_getElem? h1) v
    (HTerm.mem_varsList (List.mem_of_getElem? g1) hv)) g2] at he
  cases he

end rule

/-! ## Programs -/

section program
variable {Ss : List (SRule α)} {given : List Tag} {rules : List (NRule α)}

theorem normalizeRule_order (S : SRule α) (o : List Variable) : { normalizeRule S [] with order := o } = normalizeRule S o := rfl

/-- Normalization does not fail, and normalizes each rule, with an order of its variables. -/
theorem normalizeProgram_spec (given : List Tag) (Ss : List (SRule α)) : ∃ rules, normalizeProgram given Ss = some rules ∧
    rules.length = Ss.length ∧ ∀ (k : Nat) S, Ss[k]? = some S → ∃ order, rules[k]? = some (normalizeRule S order) ∧
      order.Nodup ∧ ∀ v ∈ atomVars (normalizeRule S order).positive, v ∈ order := by
  obtain ⟨rules, h1, h2, h3⟩ := VarOrder.setOrders_spec given (Ss.map fun S => normalizeRule S [])
  refine ⟨rules, h1, by simpa using h2, fun k S hk => ?_⟩
  obtain ⟨order, g1, g2, g3⟩ := h3 k (normalizeRule S []) (by rw [List.getElem?_map, hk]; rfl)
  refine ⟨order, g1, g2, fun v hv => (g3 v).2 ?_⟩
  have hv' : v ∈ atomVars (normalizeRule S []).positive := hv
  simp only [NRule.vars, List.mem_append]
  exact .inl (.inl (.inl (.inr hv')))

theorem normalizeProgram_rules (h : normalizeProgram given Ss = some rules) :
    (∀ r ∈ rules, ∃ S ∈ Ss, ∃ order, r = normalizeRule S order ∧ order.Nodup ∧
      ∀ v ∈ atomVars (normalizeRule S order).positive, v ∈ order) ∧
    (∀ S ∈ Ss, ∃ order, normalizeRule S order ∈ rules) ∧ rules.length = Ss.length := by
  obtain ⟨rules', h1, h2, h3⟩ := normalizeProgram_spec given Ss
  rw [h] at h1; cases h1
  refine ⟨fun r hr => ?_, fun S hS => ?_, h2⟩
  · obtain ⟨k, hk⟩ := List.mem_iff_getElem?.1 hr
    have hlt : k < Ss.length := by rw [← h2]; exact (List.getElem?_eq_some_iff.1 hk).1
    obtain ⟨order, g1, g2, g3⟩ := h3 k Ss[k] (List.getElem?_eq_getElem hlt)
    rw [hk] at g1
    exact ⟨Ss[k], List.getElem_mem hlt, order, Option.some.inj g1, g2, g3⟩
  · obtain ⟨k, hk⟩ := List.mem_iff_getElem?.1 hS
    obtain ⟨order, g1, -⟩ := h3 k S hk
    exact ⟨order, List.mem_of_getElem? g1⟩

theorem stable_norm (h : normalizeProgram given Ss = some rules) (hV : ∀ S ∈ Ss, SValid S) (edb M : Interp α) :
    IsStable rules edb M ↔ SIsStable Ss edb M := by
  obtain ⟨h1, h2, -⟩ := normalizeProgram_rules h
  have hcl : ∀ N I, ClosedUnder rules edb N I ↔ SClosedUnder Ss edb N I := by
    intro N I
    refine and_congr_right fun _ => ⟨fun hc S hS p row hd => ?_, fun hc r hr p row hd => ?_⟩
    · obtain ⟨order, ho⟩ := h2 S hS
      exact hc _ ho p row ((derives_norm_partial order (hV S hS) I N p row).2 hd)
    · obtain ⟨S, hS, order, rfl, -⟩ := h1 r hr
      exact hc S hS p row ((derives_norm_partial order (hV S hS) I N p row).1 hd)
  unfold IsStable SIsStable
  have : LeastModel rules edb M = SLeastModel Ss edb M := by
    funext p row
    exact propext (forall_congr' fun I => imp_congr_left (hcl M I))
  rw [this]

theorem stratifiable_norm (h : normalizeProgram given Ss = some rules) : IsStratifiable rules ↔ SIsStratifiable Ss := by
  obtain ⟨h1, h2, -⟩ := normalizeProgram_rules h
  have hpos : ∀ S order p, p ∈ (normalizeRule (α := α) S order).predsPositive ↔ ∃ a ∈ S.positive, p = a.pred := by
    intro S order p
    rw [NRule.predsPositive, List.mem_map]
    constructor
    · rintro ⟨x, hx, rfl⟩
      obtain ⟨a, k, hk, rfl⟩ := (mem_norm_pos S order _).1 hx
      exact ⟨a, hk.mem, rfl⟩
    · rintro ⟨a, ha, rfl⟩
      obtain ⟨k, hk⟩ := exists_atomAt 0 ha
      exact ⟨_, (mem_norm_pos S order _).2 ⟨a, k, hk, rfl⟩, rfl⟩
  have hneg : ∀ S order p, p ∈ (normalizeRule (α := α) S order).predsNegative ↔ ∃ a ∈ S.negative, p = a.pred := by
    intro S order p
    rw [NRule.predsNegative, List.mem_map]
    constructor
    · rintro ⟨x, hx, rfl⟩
      obtain ⟨a, k, hk, rfl⟩ := (mem_norm_neg S order _).1 hx
      exact ⟨a, hk.mem, rfl⟩
    · rintro ⟨a, ha, rfl⟩
      obtain ⟨k, hk⟩ := exists_atomAt (posGen S) ha
      exact ⟨_, (mem_norm_neg S order _).2 ⟨a, k, hk, rfl⟩, rfl⟩
  have hhead : ∀ S order p, p ∈ (normalizeRule (α := α) S order).predsHead ↔ ∃ a ∈ S.head, p = a.pred := by
    intro S order p
    rw [NRule.predsHead, List.mem_map]
    constructor
    · rintro ⟨x, hx, rfl⟩
      obtain ⟨i, hi⟩ := List.mem_iff_getElem?.1 hx
      rw [norm_head, Option.map_eq_some_iff] at hi
      obtain ⟨a, ha, rfl⟩ := hi
      exact ⟨a, List.mem_of_getElem? ha, rfl⟩
    · rintro ⟨a, ha, rfl⟩
      obtain ⟨i, hi⟩ := List.mem_iff_getElem?.1 ha
      exact ⟨⟨a.pred, (headParts S i a).terms⟩, List.mem_of_getElem? (by rw [norm_head, hi]; rfl), rfl⟩
  have key : ∀ (level : Tag → Nat) S order, (∀ q ∈ (normalizeRule (α := α) S order).predsHead,
      (∀ p ∈ (normalizeRule S order).predsPositive, level p ≤ level q) ∧
      (∀ p ∈ (normalizeRule S order).predsNegative, level p < level q) ∧
      ((normalizeRule S order).containsAggregates = true → ∀ p ∈ (normalizeRule S order).predsPositive, level p < level q)) ↔
      ∀ h ∈ S.head, (∀ a ∈ S.positive, level a.pred ≤ level h.pred) ∧
        (∀ a ∈ S.negative, level a.pred < level h.pred) ∧ (S.HasAgg → ∀ a ∈ S.positive, level a.pred < level h.pred) := by
    intro level S order
    simp only [hpos, hneg, hhead, norm_hasAgg]
    constructor
    · intro H h hh
      obtain ⟨a1, a2, a3⟩ := H h.pred ⟨h, hh, rfl⟩
      exact ⟨fun a ha => a1 _ ⟨a, ha, rfl⟩, fun a ha => a2 _ ⟨a, ha, rfl⟩, fun hg a ha => a3 hg _ ⟨a, ha, rfl⟩⟩
    · rintro H _ ⟨h, hh, rfl⟩
      obtain ⟨a1, a2, a3⟩ := H h hh
      refine ⟨?_, ?_, ?_⟩
      · rintro _ ⟨a, ha, rfl⟩; exact a1 a ha
      · rintro _ ⟨a, ha, rfl⟩; exact a2 a ha
      · rintro hg _ ⟨a, ha, rfl⟩; exact a3 hg a ha
  unfold IsStratifiable SIsStratifiable
  refine exists_congr fun level => ⟨fun H S hS => ?_, fun H r hr => ?_⟩
  · obtain ⟨order, ho⟩ := h2 S hS
    exact (key level S order).1 (H _ ho)
  · obtain ⟨S, hS, order, rfl, -⟩ := h1 r hr
    exact (key level S order).2 (H S hS)

theorem progOK_norm (h : normalizeProgram given Ss = some rules) (hV : ∀ S ∈ Ss, SValid S) {arity : Tag → Nat}
    (hok : ∀ S ∈ Ss, SRuleOK S arity) {cfgs : List RuleCfg} (hl : cfgs.length = Ss.length) : ProgOK rules cfgs arity := by
  obtain ⟨h1, -, h3⟩ := normalizeProgram_rules h
  refine ⟨fun r hr => ?_, by rw [hl, h3]⟩
  obtain ⟨S, hS, order, rfl, g1, g2⟩ := h1 r hr
  exact ⟨ruleOK_norm order (hV S hS) (hok S hS).body g1 g2, headOK_norm order (hV S hS) (hok S hS),
    norm_not_existential order (hok S hS)⟩

variable {cond : Nat → List (Nat × Nat) → List (List Nat)} {cfgs : List RuleCfg} {arity : Tag → Nat}
  {edb : List (Tag × List (List α))} {outs : List Tag} {fuel : Nat} {st : Eng α}

/-- **C43.**  The result of an execution is the stable model of the program as it is written. -/
theorem execute_source_stable_partial (hcond : CondOK cond) (h : normalizeProgram given Ss = some rules) (hV : ∀ S ∈ Ss, SValid S)
    (hok : ∀ S ∈ Ss, SRuleOK S arity) (hl : cfgs.length = Ss.length) (he : EdbOK edb arity)
    (hx : Eng.execute cond rules cfgs outs fuel (Eng.init edb) = some (some st)) :
    SIsStable Ss (edbFacts edb) st.answers :=
  (stable_norm h hV _ _).1 (execute_stable hcond (progOK_norm h hV hok hl) he hx)

/-- The reported facts are closed under the rules as they are written: whenever the body of a rule is satisfied by reported facts,
the facts of its head are reported. -/
theorem execute_source_closed (hcond : CondOK cond) (h : normalizeProgram given Ss = some rules) (hV : ∀ S ∈ Ss, SValid S)
    (hok : ∀ S ∈ Ss, SRuleOK S arity) (hl : cfgs.length = Ss.length) (he : EdbOK edb arity)
    (hx : Eng.execute cond rules cfgs outs fuel (Eng.init edb) = some (some st)) :
    SClosedUnder Ss (edbFacts edb) st.answers st.answers := by
  obtain ⟨h1, h2, -⟩ := normalizeProgram_rules h
  have := execute_complete hcond (progOK_norm h hV hok hl) he hx
  refine ⟨this.1, fun S hS p row hd => ?_⟩
  obtain ⟨order, ho⟩ := h2 S hS
  exact this.2 _ ho p row ((derives_norm_partial order (hV S hS) _ _ p row).2 hd)

/-- A program is rejected exactly if it is not stratifiable. -/
theorem execute_source_rejects (hcond : CondOK cond) (h : normalizeProgram given Ss = some rules) (st0 : Eng α) :
    Eng.execute cond rules cfgs outs fuel st0 = none ↔ ¬ SIsStratifiable Ss := by
  rw [execute_rejects_iff hcond, stratifiable_norm h]

/-- The meaning of a stratifiable program is unique. -/
theorem source_stable_unique (h : SIsStratifiable Ss) (hV : ∀ S ∈ Ss, SValid S) {edb M M' : Interp α} (hM : SIsStable Ss edb M)
    (hM' : SIsStable Ss edb M') : M = M' := by
  obtain ⟨rules, hr, -⟩ := normalizeProgram_spec [] Ss
  exact stable_unique ((stratifiable_norm hr).2 h) ((stable_norm hr hV edb M).2 hM) ((stable_norm hr hV edb M').2 hM')

end program
end Verif
