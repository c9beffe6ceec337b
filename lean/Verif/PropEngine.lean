import Verif.EngineRun

/-!
# Properties of rule evaluation

The theorems about complete runs of the engine: C17–C24, C26 and C28.
-/

set_option linter.unusedSimpArgs false
set_option linter.unusedSectionVars false

namespace Verif
variable {α : Type} [DecidableEq α] [Dom α]

/-- The facts given to the engine. -/
def edbFacts (edb : List (Tag × List (List α))) : Interp α := fun p row => ∃ t, (p, t) ∈ edb ∧ row ∈ t

/-- The facts that the engine reports. -/
def Eng.answers (st : Eng α) : Interp α := fun p row => row ∈ st.predicateRows p

/-- Input facts: one list for each predicate, with rows of the right length. -/
structure EdbOK (edb : List (Tag × List (List α))) (arity : Tag → Nat) : Prop where
  preds : (edb.map (·.1)).Nodup
  rows : ∀ x ∈ edb, ∀ row ∈ x.2, row.length = arity x.1

section run
variable {cond : Nat → List (Nat × Nat) → List (List Nat)} {rules : List (NRule α)} {cfgs : List RuleCfg}
  {arity : Tag → Nat} {edb : List (Tag × List (List α))} {outs : List Tag} {fuel : Nat} {st : Eng α}

theorem execute_inv (hcond : CondOK cond) (hp : ProgOK rules cfgs arity) (he : EdbOK edb arity)
    (h : Eng.execute cond rules cfgs outs fuel (Eng.init edb) = some (some st)) :
    st.OK arity ∧ IsStable rules (edbFacts edb) st.Facts := by
  unfold Eng.execute at h
  rw [Option.map_eq_some_iff] at h
  obtain ⟨strata, hs, h⟩ := h
  obtain ⟨tr, h1, h2⟩ := execLoop_exec h
  have h3 := stratified_trace h1
  obtain ⟨p1, p2⟩ := phases_ok cond hcond rules hs
  obtain ⟨i1, i2, i3⟩ := Eng.init_spec (arity := arity) edb he.preds he.rows
  obtain ⟨c1, c2, c3⟩ := Eng.combinePredicates_spec outs i1
  obtain ⟨r1, r2⟩ := engine_stable hp p1 p2 h3 c1 (by rw [c3]; exact i3) h2
  refine ⟨r1, ?_⟩
  have hf : (outs.foldl Eng.combinePredicate (Eng.init edb)).Facts = edbFacts edb := by
    funext p row
    apply propext
    rw [edbFacts, ← i2]
    exact exists_congr fun s => c2 p s row
  rw [hf] at r2
  exact r2

theorem answers_eq {arity : Tag → Nat} {st : Eng α} (h : st.OK arity) : st.answers = st.Facts := by
  funext p row
  exact propext ((Eng.predicateRows_spec h p).1 row)

/-- **C21: the reported facts are a stable model**: exactly those facts that follow from the input and the rules, where
negated and aggregated atoms are evaluated over the reported facts. -/
theorem execute_stable (hcond : CondOK cond) (hp : ProgOK rules cfgs arity) (he : EdbOK edb arity)
    (h : Eng.execute cond rules cfgs outs fuel (Eng.init edb) = some (some st)) :
    IsStable rules (edbFacts edb) st.answers := by
  obtain ⟨h1, h2⟩ := execute_inv hcond hp he h
  rw [answers_eq h1]; exact h2

/-- **C19: soundness.** Each reported fact belongs to every set of facts that contains the input and is closed
under the rules (where negated and aggregated atoms are evaluated over the final result). -/
theorem execute_sound (hcond : CondOK cond) (hp : ProgOK rules cfgs arity) (he : EdbOK edb arity)
    (h : Eng.execute cond rules cfgs outs fuel (Eng.init edb) = some (some st))
    (I : Interp α) (hI : ClosedUnder rules (edbFacts edb) st.answers I) : st.answers.le I := by
  intro p row hrow
  have := execute_stable hcond hp he h
  rw [this] at hrow
  exact hrow I hI

/-- The least model is closed under the rules. -/
theorem leastModel_closed (rules : List (NRule α)) (edb N : Interp α) : ClosedUnder rules edb N (LeastModel rules edb N) := by
  refine ⟨fun p row h I hI => hI.1 p row h, ?_⟩
  intro r hr p row hd I hI
  exact hI.2 r hr p row (Derives.mono (fun q row h => h I hI) p row hd)

/-- **C20: completeness.** The input facts are reported, and each fact that a rule derives from the reported facts
is reported. -/
theorem execute_complete (hcond : CondOK cond) (hp : ProgOK rules cfgs arity) (he : EdbOK edb arity)
    (h : Eng.execute cond rules cfgs outs fuel (Eng.init edb) = some (some st)) :
    (edbFacts edb).le st.answers ∧ ∀ r ∈ rules, (Derives r st.answers st.answers).le st.answers := by
  have hst := execute_stable hcond hp he h
  have := leastModel_closed rules (edbFacts edb) st.answers
  rw [← hst] at this
  exact this

/-- A program without negation and aggregates -/
def IsPositive (rules : List (NRule α)) : Prop := ∀ r ∈ rules, r.negative = [] ∧ r.aggregation = none

/-- **For Datalog programs the result is the least model.** -/
theorem execute_leastModel (hcond : CondOK cond) (hp : ProgOK rules cfgs arity) (he : EdbOK edb arity)
    (hpos : IsPositive rules)
    (h : Eng.execute cond rules cfgs outs fuel (Eng.init edb) = some (some st)) (p : Tag) (row : List α) :
    row ∈ st.predicateRows p ↔
      ∀ I : Interp α, (edbFacts edb).le I →
        (∀ r ∈ rules, ∀ (σ : Variable → α), (∀ a ∈ r.positive, I a.pred (a.terms.map σ)) →
          (∀ o ∈ r.operations, (∀ v ∈ o.vars, SafeVar r.positive r.operations v) → o.eval σ = some Dom.tru) →
          ∀ hd ∈ r.head, I hd.pred (hd.inst σ)) → I p row := by
  have hst := execute_stable hcond hp he h
  have hcl : ∀ I, ClosedUnder rules (edbFacts edb) st.answers I ↔ ((edbFacts edb).le I ∧
        (∀ r ∈ rules, ∀ (σ : Variable → α), (∀ a ∈ r.positive, I a.pred (a.terms.map σ)) →
          (∀ o ∈ r.operations, (∀ v ∈ o.vars, SafeVar r.positive r.operations v) → o.eval σ = some Dom.tru) →
          ∀ hd ∈ r.head, I hd.pred (hd.inst σ))) := by
    intro I
    refine and_congr_right fun _ => ?_
    refine forall_congr' fun r => forall_congr' fun hr => ?_
    obtain ⟨hn, hna⟩ := hpos r hr
    have hca : r.containsAggregates = false := by rw [NRule.containsAggregates, hna]; rfl
    constructor
    · intro hle σ h1 h2 hd hhd
      obtain ⟨i, hi⟩ := List.getElem?_of_mem hhd
      apply hle
      unfold Derives
      refine .plain ⟨?_, h2, by rw [hn]; simp⟩ hi (by rw [hna]; simp)
      simp only [hca, Bool.false_eq_true, if_false]; exact h1
    · intro hle q row' hd
      unfold Derives at hd
      simp only [hca, Bool.false_eq_true, if_false] at hd
      cases hd with
      | plain hb hi _ => exact hle _ hb.pos hb.ops _ (List.mem_of_getElem? hi)
      | agg _ h2 _ => rw [hna] at h2; simp at h2
  have : row ∈ st.predicateRows p ↔ LeastModel rules (edbFacts edb) st.answers p row := by
    rw [← hst]; rfl
  rw [this]
  unfold LeastModel
  refine forall_congr' fun I => ?_
  rw [hcl, and_imp]

/-- **C22: a program is rejected iff it is not stratifiable.** -/
theorem execute_rejects_iff (hcond : CondOK cond) (st0 : Eng α) :
    Eng.execute cond rules cfgs outs fuel st0 = none ↔ ¬ IsStratifiable rules := by
  rw [← newStrategy_isSome_iff cond hcond rules]
  unfold Eng.execute
  rw [Option.map_eq_none_iff]
  cases newStrategy cond rules <;> simp

/-- **C23: termination** for programs that cannot create new values. -/
theorem execute_terminates (hcond : CondOK cond) (hp : ProgOK rules cfgs arity) (he : EdbOK edb arity)
    (hs : IsStratifiable rules) (hff : ∀ r ∈ rules, FunctionFree r) :
    ∃ fuel st, Eng.execute cond rules cfgs outs fuel (Eng.init edb) = some (some st) := by
  obtain ⟨strata, hst⟩ := Option.isSome_iff_exists.1 ((newStrategy_isSome_iff cond hcond rules).2 hs)
  obtain ⟨base, hb⟩ := functionFree_base hp hff hs edb he.rows
  obtain ⟨rank, hq⟩ := default_quiet
  obtain ⟨i1, i2, i3⟩ := Eng.init_spec (arity := arity) edb he.preds he.rows
  obtain ⟨c1, c2, c3⟩ := Eng.combinePredicates_spec outs i1
  have hbd := seq_bounded (seq_bounded rr_bounded)
  obtain ⟨fuel, st, h⟩ := execLoop_terminates hq _ (fun s nd i s' hg hn => hbd rules.length s nd i s' hg hn) hp hb
    (newStratified_bounded hcond hst (rules.map (·.isRecursive))) c1
    (fun p row hf => hb.edb p row ((i2 p row).1 (by
      obtain ⟨s, h⟩ := hf; exact ⟨s, (c2 p s row).1 h⟩))) none
  exact ⟨fuel, st, by rw [Eng.execute, hst]; simp [h]⟩

end run

/-! ## Order independence -/

/-- **A stratifiable program has at most one stable model.** -/
theorem stable_unique {rules : List (NRule α)} (hs : IsStratifiable rules) {edb M M' : Interp α}
    (hM : IsStable rules edb M) (hM' : IsStable rules edb M') : M = M' := by
  obtain ⟨level, hlev⟩ := hs
  have hcl : ∀ M, IsStable rules edb M → ClosedUnder rules edb M M := by
    intro M hM
    have := leastModel_closed rules edb M
    rw [← hM] at this; exact this
  -- one inclusion, for the next level
  have key : ∀ n, ∀ M M' : Interp α, IsStable rules edb M → IsStable rules edb M' →
      (∀ p, level p < n → ∀ row, M p row ↔ M' p row) → ∀ p, level p ≤ n → ∀ row, M p row → M' p row := by
    intro n M M' hM hM' ih p hp row hrow
    rw [hM] at hrow
    have := hrow (fun p row => M p row ∧ (level p ≤ n → M' p row)) ?_
    · exact this.2 hp
    refine ⟨fun q row h => ⟨(hcl M hM).1 q row h, fun _ => (hcl M' hM').1 q row h⟩, ?_⟩
    intro r hr q row' hd
    refine ⟨(hcl M hM).2 r hr q row' (Derives.mono (fun _ _ h => h.1) q row' hd), fun hq => ?_⟩
    apply (hcl M' hM').2 r hr q row'
    have hhead : q ∈ r.predsHead := by
      unfold Derives at hd
      cases hd with
      | plain _ hi _ => exact List.mem_map.2 ⟨_, List.mem_of_getElem? hi, rfl⟩
      | agg _ _ hi => exact List.mem_map.2 ⟨_, List.mem_of_getElem? hi, rfl⟩
    obtain ⟨l1, l2, l3⟩ := hlev r hr q hhead
    have hstr : ∀ s ∈ r.predsStrict, ∀ row, M s row ↔ M' s row := by
      intro s hs'
      apply ih
      unfold NRule.predsStrict at hs'
      rw [List.mem_append] at hs'
      rcases hs' with hs' | hs'
      · have := l2 s hs'; omega
      · split at hs'
        · rename_i ha; have := l3 ha s hs'; omega
        · simp at hs'
    rw [Derives.congr (P := M') (P' := fun p row => if p ∈ r.predsPositive then M' p row else True) (N := M') (N' := M)
      (fun s hs' row => by simp [hs']) (fun s hs' row => (hstr s hs' row).symm)]
    refine Derives.mono ?_ q row' hd
    intro s row'' h
    show if _ then _ else _
    split
    · rename_i hs'; exact h.2 (le_trans (l1 s hs') hq)
    · trivial
  have all : ∀ n p, level p < n → ∀ row, M p row ↔ M' p row := by
    intro n
    induction n with
    | zero => intro p hp; omega
    | succ n ih =>
      intro p hp row
      exact ⟨key n M M' hM hM' ih p (by omega) row,
        key n M' M hM' hM (fun q hq row => (ih q hq row).symm) p (by omega) row⟩
  funext p row
  exact propext (all (level p + 1) p (by omega) row)

section
variable {cond : Nat → List (Nat × Nat) → List (List Nat)} {rules : List (NRule α)} {cfgs : List RuleCfg} {arity : Tag → Nat}
  {edb : List (Tag × List (List α))} {outs : List Tag} {fuel : Nat} {st : Eng α}

/-- **C21, partial**: the reported facts are a stable model, and no other set of facts is one (the *perfect model*).  The full
statement is about all accepted programs; `ProgOK` excludes rules with a negated atom without a variable that
occurs elsewhere, for which the statement is false (`negated_atom_ignored`), rules with a condition between variables of a
negated atom and other variables, and existential rules. -/
theorem execute_perfect_model_partial (hcond : CondOK cond) (hp : ProgOK rules cfgs arity) (he : EdbOK edb arity)
    (h : Eng.execute cond rules cfgs outs fuel (Eng.init edb) = some (some st)) (M : Interp α) :
    IsStable rules (edbFacts edb) M ↔ M = st.answers := by
  constructor
  · intro hM
    refine stable_unique ?_ hM (execute_stable hcond hp he h)
    by_contra hc
    rw [(execute_rejects_iff hcond _).2 hc] at h
    cases h
  · rintro rfl; exact execute_stable hcond hp he h

end

/-- The rules differ only in the order of the body and the variable order used for joins. -/
structure SameRule (r r' : NRule α) : Prop where
  positive : ∀ a, a ∈ r.positive ↔ a ∈ r'.positive
  negative : ∀ a, a ∈ r.negative ↔ a ∈ r'.negative
  operations : ∀ o, o ∈ r.operations ↔ o ∈ r'.operations
  head : r.head = r'.head
  aggregation : r.aggregation = r'.aggregation

theorem SameRule.symm {r r' : NRule α} (h : SameRule r r') : SameRule r' r :=
  ⟨fun a => (h.positive a).symm, fun a => (h.negative a).symm, fun a => (h.operations a).symm, h.head.symm,
    h.aggregation.symm⟩

theorem SafeVar.mono {as bs : List BodyAtom} {os ps : List (Operation α)} (h1 : ∀ a ∈ as, a ∈ bs) (h2 : ∀ o ∈ os, o ∈ ps)
    {v : Variable} (h : SafeVar as os v) : SafeVar bs ps v := by
  induction h with
  | atom ha hv => exact .atom (h1 _ ha) hv
  | assign ho he _ ih => exact .assign (h2 _ ho) he ih

theorem SameRule.safe {r r' : NRule α} (h : SameRule r r') (v : Variable) :
    SafeVar r.positive r.operations v ↔ SafeVar r'.positive r'.operations v :=
  ⟨SafeVar.mono (fun a => (h.positive a).1) (fun o => (h.operations o).1),
    SafeVar.mono (fun a => (h.positive a).2) (fun o => (h.operations o).2)⟩

theorem SameRule.body {r r' : NRule α} (h : SameRule r r') {P N : Interp α} {σ : Variable → α}
    (hb : BodyHolds r P N σ) : BodyHolds r' P N σ := by
  refine ⟨fun a ha => hb.pos a ((h.positive a).2 ha), fun o ho hs => hb.ops o ((h.operations o).2 ho) fun v hv =>
    (h.safe v).2 (hs v hv), ?_⟩
  rintro a ha ⟨τ, t1, t2, t3⟩
  refine hb.neg a ((h.negative a).2 ha) ⟨τ, fun v hv => t1 v ((h.safe v).1 hv), t2, fun o ho hs => ?_⟩
  exact t3 o ((h.operations o).1 ho) fun v hv => (hs v hv).imp_left (h.safe v).1

theorem SameRule.derives {r r' : NRule α} (h : SameRule r r') {P N : Interp α} : (Derives r P N).le (Derives r' P N) := by
  intro p row hd
  have hca : r'.containsAggregates = r.containsAggregates := by
    rw [NRule.containsAggregates, NRule.containsAggregates, h.aggregation]
  unfold Derives at *
  rw [hca]
  have hB : ∀ σ, BodyHolds r (if r.containsAggregates = true then N else P) N σ ↔
      BodyHolds r' (if r.containsAggregates = true then N else P) N σ := fun σ => ⟨h.body, h.symm.body⟩
  have hd := (DerivesWith.congr hB p row).1 hd
  generalize BodyHolds r' (if r.containsAggregates = true then N else P) N = B at hd
  cases hd with
  | plain h1 h2 h3 => exact .plain h1 (by rw [← h.head]; exact h2) (by rw [← h.aggregation]; exact h3)
  | agg h1 h2 h3 =>
    refine .agg ⟨h1.group, fun o ho hns hnb => ?_⟩ (by rw [← h.aggregation]; exact h2) (by rw [← h.head]; exact h3)
    refine h1.ops o ((h.operations o).2 ho) (fun hc => hns fun v hv => (h.safe v).1 (hc v hv)) ?_
    intro b hb hc
    exact hnb b ((h.negative b).1 hb) fun v hv => (hc v hv).imp_left (h.safe v).1

/-- The two programs have the same rules, up to the order of the rules and the order of their bodies. -/
def SameProgram (rules rules' : List (NRule α)) : Prop :=
  (∀ r ∈ rules, ∃ r' ∈ rules', SameRule r r') ∧ ∀ r' ∈ rules', ∃ r ∈ rules, SameRule r r'

theorem SameProgram.stable {rules rules' : List (NRule α)} (h : SameProgram rules rules') {edb M : Interp α}
    (hM : IsStable rules edb M) : IsStable rules' edb M := by
  have hcl : ∀ I, ClosedUnder rules edb M I ↔ ClosedUnder rules' edb M I := by
    intro I
    refine and_congr_right fun _ => ⟨fun hc r' hr' => ?_, fun hc r hr => ?_⟩
    · obtain ⟨r, hr, hs⟩ := h.2 r' hr'
      exact fun p row hd => hc r hr p row (hs.symm.derives p row hd)
    · obtain ⟨r', hr', hs⟩ := h.1 r hr
      exact fun p row hd => hc r' hr' p row (hs.derives p row hd)
  refine hM.trans ?_
  funext p row
  exact propext (forall_congr' fun I => by rw [hcl I])

/-- **C24: the result does not depend on the order** of rules, body atoms, conditions or facts, on the variable orders used
for joins, the order in which components are processed, the output predicates, or the number of steps. -/
theorem execute_order_independent {cond cond' : Nat → List (Nat × Nat) → List (List Nat)} (hcond : CondOK cond)
    (hcond' : CondOK cond') {rules rules' : List (NRule α)} {cfgs cfgs' : List RuleCfg} {arity : Tag → Nat}
    (hp : ProgOK rules cfgs arity) (hp' : ProgOK rules' cfgs' arity) (hsame : SameProgram rules rules')
    {edb edb' : List (Tag × List (List α))} (he : EdbOK edb arity) (he' : EdbOK edb' arity)
    (hedb : ∀ p row, edbFacts edb p row ↔ edbFacts edb' p row) {outs outs' : List Tag} {fuel fuel' : Nat} {st st' : Eng α}
    (h : Eng.execute cond rules cfgs outs fuel (Eng.init edb) = some (some st))
    (h' : Eng.execute cond' rules' cfgs' outs' fuel' (Eng.init edb') = some (some st')) (p : Tag) (row : List α) :
    row ∈ st.predicateRows p ↔ row ∈ st'.predicateRows p := by
  have h1 := hsame.stable (execute_stable hcond hp he h)
  have h2 := execute_stable hcond' hp' he' h'
  have hedb' : edbFacts edb = edbFacts edb' := by funext p row; exact propext (hedb p row)
  rw [hedb'] at h1
  have hs : IsStratifiable rules' := by
    by_contra hc
    rw [(execute_rejects_iff hcond' _).2 hc] at h'
    simp at h'
  have := stable_unique hs h1 h2
  show st.answers p row ↔ st'.answers p row
  rw [this]

end Verif
