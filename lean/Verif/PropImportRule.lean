import Verif.ImportRule
import Verif.PropPaging
import Verif.BodyEval
set_option linter.unusedSimpArgs false

/-!
# Rules with import clauses mean what they would mean if the external tables were loaded completely

Demand driven imports only fetch the rows of an external table that agree with the matches of the rest of the rule.
The theorems say that for rules whose positive atoms form a single factor (all of them are connected by shared
variables) this cannot be observed: in every step the matches of the rule are those that it would have if the
external tables had been loaded completely at the beginning.
-/

namespace Verif.Dem
open Verif

variable {α : Type}

/-! ## Specification -/

/-- the rule in which import clauses are ordinary atoms -/
def IRule.plain (r : IRule α) : NRule α :=
  { r.base with positive := r.base.positive ++ r.posImports, negative := r.base.negative ++ r.negImports }

/-- all import clauses -/
def IRule.imports (r : IRule α) : List BodyAtom := r.posImports ++ r.negImports

/-- The facts if the external tables `ext` of the import clauses are loaded. -/
def Loaded (r : IRule α) (ext : Tag → List (List α)) (I : Interp α) : Interp α := fun p row =>
  (p ∈ r.imports.map (·.pred) ∧ row ∈ ext p) ∨ (p ∉ r.imports.map (·.pred) ∧ I p row)

/-- The contract of imports (shown for the SPARQL reader in `PropPaging.lean`): rows that are delivered are rows of
the external table, and no demanded row is missing. -/
structure Fetches (fetch : Tag → ProductBindings α → List (List α)) (ext : Tag → List (List α)) : Prop where
  sound : ∀ p pb row, row ∈ fetch p pb → row ∈ ext p
  complete : ∀ p pb row, SamePositions pb → row ∈ ext p → Demanded some pb row → row ∈ fetch p pb

/-! ## Factors -/

theorem addPartition_origins (ps : List Partition) (p : Partition) (i : Nat) :
    (∃ q ∈ addPartition ps p, i ∈ q.origins) ↔ (∃ q ∈ ps, i ∈ q.origins) ∨ i ∈ p.origins := by
  simp only [addPartition, List.mem_append, List.mem_filter, List.mem_singleton, Partition.combine, List.mem_flatMap]
  constructor
  · rintro ⟨q, ⟨h1, -⟩ | rfl, h2⟩
    · exact .inl ⟨q, h1, h2⟩
    · simp only [List.mem_append, List.mem_flatMap, List.mem_filter] at h2
      rcases h2 with h2 | ⟨q, ⟨h3, -⟩, h4⟩
      · exact .inr h2
      · exact .inl ⟨q, h3, h4⟩
  · rintro (⟨q, h1, h2⟩ | h)
    · by_cases hc : q.compatible p
      · refine ⟨_, .inr rfl, ?_⟩
        simp only [List.mem_append, List.mem_flatMap, List.mem_filter]
        exact .inr ⟨q, ⟨h1, hc⟩, h2⟩
      · exact ⟨q, .inl ⟨h1, by simpa using hc⟩, h2⟩
    · exact ⟨_, .inr rfl, by simp [h]⟩

theorem partitions_origins (l : List (BodyAtom × Nat)) (ps : List Partition) (i : Nat) :
    (∃ q ∈ l.foldl (fun ps x => addPartition ps ⟨x.1.terms, [x.2]⟩) ps, i ∈ q.origins) ↔
      (∃ q ∈ ps, i ∈ q.origins) ∨ i ∈ l.map (·.2) := by
  induction l generalizing ps with
  | nil => simp
  | cons x l ih =>
    rw [List.foldl_cons, ih, addPartition_origins]
    simp [or_assoc]

/-- the factors contain the atoms -/
theorem mem_atomFactors (atoms : List BodyAtom) (a : BodyAtom) :
    (∃ f ∈ atomFactors atoms, a ∈ f) ↔ a ∈ atoms := by
  have key : ∀ i : Nat, (∃ q ∈ partitions atoms, i ∈ q.origins) ↔ i < atoms.length := by
    intro i
    rw [partitions, partitions_origins]
    simp [List.zipIdx_map_snd]
  constructor
  · rintro ⟨f, hf, ha⟩
    simp only [atomFactors, List.mem_filterMap] at hf
    obtain ⟨p, hp, hpf⟩ := hf
    split at hpf
    · cases hpf
    · simp only [Option.some.injEq] at hpf
      subst hpf
      obtain ⟨i, hi, h2⟩ := List.mem_filterMap.1 ha
      exact List.mem_of_getElem? h2
  · intro ha
    obtain ⟨i, hi⟩ := List.getElem?_of_mem ha
    obtain ⟨q, hq, hiq⟩ := (key i).2 (List.getElem?_eq_some_iff.1 hi).1
    refine ⟨q.origins.filterMap fun i => atoms[i]?, ?_, List.mem_filterMap.2 ⟨i, hiq, hi⟩⟩
    simp only [atomFactors, List.mem_filterMap]
    refine ⟨q, hq, ?_⟩
    have : q.origins.isEmpty = false := by cases h : q.origins <;> simp_all
    simp [this]

/-- There are no constant operations. -/
def NoConst (r : NRule α) : Prop :=
  ∀ o ∈ r.operations, ∀ v e, o.variableAssignment = some (v, e) → v ∈ atomVars r.positive ∨ e.vars ≠ []

theorem constPass_none {bodyVars : List Variable} : ∀ (os : List (Operation α)),
    (∀ o ∈ os, ∀ v e, o.variableAssignment = some (v, e) → v ∈ bodyVars ∨ e.vars ≠ []) →
    constPass bodyVars os [] [] = ([], [], os)
  | [], _ => rfl
  | o :: os, h => by
    have ih := constPass_none os fun o' ho' => h o' (List.mem_cons_of_mem _ ho')
    rw [constPass]
    split
    · rename_i v e he
      have hn : ¬ (v ∉ bodyVars ∧ ∀ w ∈ e.vars, w ∈ ([] : List Variable)) := by
        rintro ⟨h1, h2⟩
        rcases h o (by simp) v e he with h3 | h3
        · exact h1 h3
        · exact h3 (List.eq_nil_iff_forall_not_mem.2 fun w hw => by simpa using h2 w hw)
      rw [if_neg hn, ih]
    · rw [ih]

theorem constOps_none {r : NRule α} (h : NoConst r) : constOps r.positive r.operations = ([], r.operations) := by
  rw [constOps, constLoop, constPass_none _ h]
  simp

/-! ## Patterns -/

theorem boundTerms_vars (inputs : List (List Variable)) (a : BodyAtom) :
    (boundTerms inputs a).map (·.2) = a.terms.filter fun v => decide (v ∈ inputs.flatten) := by
  rw [boundTerms, List.map_map]
  have : ∀ (l : List Variable) (k : Nat), ((l.zipIdx k).filter fun x => decide (x.1 ∈ inputs.flatten)).map
      ((fun x : Nat × Variable => x.2) ∘ fun x : Variable × Nat => (x.2, x.1)) = l.filter fun v => decide (v ∈ inputs.flatten) := by
    intro l
    induction l with
    | nil => simp
    | cons v l ih =>
      intro k
      rw [List.zipIdx_cons, List.filter_cons, List.filter_cons]
      split <;> simp_all
  exact this _ 0

theorem boundTerms_get {inputs : List (List Variable)} {a : BodyAtom} {x : Nat × Variable}
    (h : x ∈ boundTerms inputs a) : a.terms[x.1]? = some x.2 := by
  simp only [boundTerms, List.mem_map, List.mem_filter] at h
  obtain ⟨y, ⟨h1, -⟩, rfl⟩ := h
  exact List.mk_mem_zipIdx_iff_getElem?.1 h1

theorem subsetOf_range (bound vars : List Variable) (hb : bound.Nodup) (hv : vars.Nodup) (hs : ∀ v ∈ bound, v ∈ vars) :
    subsetOf bound vars = List.range bound.length := by
  have hperm : (vars.filterMap fun v => bound.idxOf? v).Perm (List.range bound.length) := by
    rw [List.perm_ext_iff_of_nodup]
    · intro i
      simp only [List.mem_filterMap, List.mem_range]
      constructor
      · rintro ⟨v, -, h⟩
        exact (List.idxOf?_eq_some_iff.1 h).choose
      · intro hi
        refine ⟨bound[i], hs _ (List.getElem_mem hi), ?_⟩
        rw [List.idxOf?_eq_some_iff]
        refine ⟨hi, by simp, ?_⟩
        intro j hj
        intro he
        have := (List.Nodup.getElem_inj_iff hb).1 he
        omega
    · apply hv.filterMap
      intro v w i h1 h2
      obtain ⟨l1, e1, -⟩ := List.idxOf?_eq_some_iff.1 h1
      obtain ⟨l2, e2, -⟩ := List.idxOf?_eq_some_iff.1 h2
      exact e1.symm.trans e2
    · exact List.nodup_range
  rw [subsetOf]
  have h1 := (List.perm_insertionSort (· ≤ ·) (vars.filterMap fun v => bound.idxOf? v)).trans hperm
  refine List.Perm.eq_of_pairwise' (r := (· ≤ ·)) ?_ ?_ h1
  · exact List.pairwise_insertionSort (· ≤ ·) _
  · exact List.pairwise_le_range

theorem filterMap_range {A : Type} (l : List A) : (List.range l.length).filterMap (fun i => l[i]?) = l := by
  induction l with
  | nil => rfl
  | cons x l ih =>
    rw [List.length_cons, List.range_succ_eq_map, List.filterMap_cons]
    simp only [List.getElem?_cons_zero, List.filterMap_map]
    congr 1

/-- the pattern of an import clause if there is a single factor -/
theorem patterns_single (vars : List Variable) (hv : vars.Nodup) (a : BodyAtom) (ha : a.terms.Nodup)
    (hs : ∃ v ∈ a.terms, v ∈ vars) :
    patterns [vars] a = [⟨0, (boundTerms [vars] a).map (·.2), (boundTerms [vars] a).map (·.1)⟩] := by
  have hbv := boundTerms_vars [vars] a
  have hbn : ((boundTerms [vars] a).map (·.2)).Nodup := by rw [hbv]; exact ha.filter _
  have hbs : ∀ v ∈ (boundTerms [vars] a).map (·.2), v ∈ vars := by
    intro v h; rw [hbv] at h; simpa using (List.mem_filter.1 h).2
  have hbne : (boundTerms [vars] a).map (·.2) ≠ [] := by
    obtain ⟨v, h1, h2⟩ := hs
    rw [hbv]
    exact List.ne_nil_of_mem (List.mem_filter.2 ⟨h1, by simpa using h2⟩)
  have hsub := subsetOf_range _ vars hbn hv hbs
  obtain ⟨v0, vs, hvs⟩ := List.exists_cons_of_ne_nil hbne
  have hv0 : v0 ∈ vars := hbs v0 (by rw [hvs]; simp)
  have hne : (List.range ((boundTerms [vars] a).map (·.2)).length).isEmpty = false := by
    rw [hvs]; simp [List.range_succ]
  have hpos : ((boundTerms [vars] a).map (·.1)).length = ((boundTerms [vars] a).map (·.2)).length := by simp
  unfold patterns
  simp only [List.map_cons, List.map_nil, hsub, List.filter_cons, hne, Bool.not_false, if_true, List.filter_nil,
    List.length_singleton, filterMap_range]
  simp [hvs, hv0]

/-! ## The tables of import clauses -/

theorem demanded_single (b : Bindings α) (row : List α) : Demanded some (ProductBindings.single b) row ↔
    ∃ t ∈ b.rows, Agrees some b.positions t row := by
  constructor
  · rintro ⟨i, f, h1, h2, -⟩
    cases i with
    | zero => simp only [ProductBindings.single, List.getElem?_cons_zero, Option.some.injEq] at h1; subst h1; exact h2
    | succ i => simp [ProductBindings.single] at h1
  · intro h
    refine ⟨0, _, rfl, h, ?_⟩
    intro j g hg hj
    cases j with
    | zero => exact absurd rfl hj
    | succ j => simp [ProductBindings.single] at hg

theorem agrees_bound (cols : List Variable) (a : BodyAtom) (σ : Variable → α) :
    Agrees some ((boundTerms [cols] a).map (·.1)) (((boundTerms [cols] a).map (·.2)).map σ) (a.terms.map σ) := by
  intro x hx
  rw [List.map_map, List.zip_map'] at hx
  obtain ⟨y, hy, rfl⟩ := List.mem_map.1 hx
  refine .inr ⟨σ y.2, ?_, rfl⟩
  rw [List.getElem?_map, boundTerms_get hy]
  rfl

section
variable [DecidableEq α] [Dom α]

/-- What holds between the steps: the imported rows are rows of the external tables, and for each stored binding
all rows that agree with it were imported. -/
structure ImportInv (r : IRule α) (ext : Tag → List (List α)) (bindTag : BindTag) (cols : List Variable)
    (at_ : Tag → Nat → List α → Prop) (cur : Nat) : Prop where
  sound : ∀ a ∈ r.imports, ∀ row, Before at_ cur a.pred row → row ∈ ext a.pred
  closed : ∀ a ∈ r.imports, ∀ t row, Before at_ cur (bindTag a.pred 0) t → row ∈ ext a.pred →
    Agrees some ((boundTerms [cols] a).map (·.1)) t row → Before at_ cur a.pred row

variable {fetch : Tag → ProductBindings α → List (List α)} {ext : Tag → List (List α)} {bindTag : BindTag}
  {src : Source α} {at_ : Tag → Nat → List α → Prop} {arity : Tag → Nat} {cur last : Nat} {r : IRule α}

theorem request_single (F : Rel α) (hF : F.WF) (a : BodyAtom) (han : a.terms.Nodup) (hs : ∃ v ∈ a.terms, v ∈ F.cols) :
    ∃ rows : List (List α),
      passed (requestOf src cur bindTag [F] a) =
        ProductBindings.single ⟨(boundTerms [F.cols] a).map (·.1), rows⟩ ∧
      (∀ p ∈ patterns [F.cols] a, p.factor = 0 ∧ newBindings src cur bindTag [F] a p = rows) ∧
      ∀ t, t ∈ rows ↔ t ∈ (Rel.project ((boundTerms [F.cols] a).map (·.2)) F).rows ∧ t ∉ src (bindTag a.pred 0) 0 cur := by
  have hp := patterns_single F.cols hF.nodup a han hs
  refine ⟨newBindings src cur bindTag [F] a ⟨0, (boundTerms [F.cols] a).map (·.2), (boundTerms [F.cols] a).map (·.1)⟩, ?_, ?_, ?_⟩
  · rw [requestOf]
    simp only [List.map_cons, List.map_nil, hp, passed]
  · intro p hpm
    rw [hp, List.mem_singleton] at hpm
    subst hpm
    exact ⟨rfl, rfl⟩
  · intro t
    simp [newBindings]

theorem mem_fetched (hf : Fetches fetch ext) (F : Rel α) (hF : F.WF) (a : BodyAtom) (han : a.terms.Nodup)
    (hs : ∃ v ∈ a.terms, v ∈ F.cols) :
    (∀ row ∈ fetched fetch src cur bindTag [F] a, row ∈ ext a.pred) ∧
    ∀ t row, t ∈ (Rel.project ((boundTerms [F.cols] a).map (·.2)) F).rows → t ∉ src (bindTag a.pred 0) 0 cur →
      row ∈ ext a.pred → Agrees some ((boundTerms [F.cols] a).map (·.1)) t row →
      row ∈ fetched fetch src cur bindTag [F] a := by
  obtain ⟨rows, h1, -, h3⟩ := request_single (src := src) (cur := cur) (bindTag := bindTag) F hF a han hs
  constructor
  · intro row hr
    rw [fetched, List.mem_dedup] at hr
    exact hf.sound _ _ _ hr
  · intro t row ht hn he hag
    rw [fetched, List.mem_dedup, h1]
    refine hf.complete _ _ _ ?_ he ((demanded_single _ _).2 ⟨t, (h3 t).2 ⟨ht, hn⟩, hag⟩)
    intro f hfm
    simp only [ProductBindings.single, List.mem_singleton] at hfm
    subst hfm; rfl

/-- For matches of the factor the table of an import clause contains what the external table contains. -/
theorem importTable_holds (hf : Fetches fetch ext) (h : SrcOK src at_ arity cur) (F : Rel α) (hF : F.WF)
    (hinv : ImportInv r ext bindTag F.cols at_ cur) (a : BodyAtom) (ha : a ∈ r.imports) (han : a.terms.Nodup)
    (hs : ∃ v ∈ a.terms, v ∈ F.cols) (σ : Variable → α) (hσ : F.Holds σ) :
    (importTable fetch src cur bindTag [F] a).Holds σ ↔ a.terms.map σ ∈ ext a.pred := by
  obtain ⟨f1, f2⟩ := mem_fetched (src := src) (cur := cur) (bindTag := bindTag) hf F hF a han hs
  simp only [Rel.Holds, importTable, List.mem_append]
  have hmem : ∀ p row, row ∈ src p 0 cur ↔ Before at_ cur p row := by
    intro p row; rw [h.mem _ _ _ _ le_rfl]; simp [Before]
  constructor
  · rintro (h1 | h1)
    · exact hinv.sound a ha _ ((hmem _ _).1 h1)
    · exact f1 _ h1
  · intro he
    have hag := agrees_bound F.cols a σ
    by_cases hb : ((boundTerms [F.cols] a).map (·.2)).map σ ∈ src (bindTag a.pred 0) 0 cur
    · exact .inl ((hmem _ _).2 (hinv.closed a ha _ _ ((hmem _ _).1 hb) he hag))
    · refine .inr (f2 _ _ ?_ hb he hag)
      have hsub : ∀ v ∈ (boundTerms [F.cols] a).map (·.2), v ∈ F.cols := by
        intro v hv
        rw [boundTerms_vars] at hv
        simpa using (List.mem_filter.1 hv).2
      exact (Rel.project_holds _ F hF hsub σ).2 ⟨σ, fun _ _ => rfl, hσ⟩

/-! ## Rules -/

/-- The rules with import clauses that are considered: all positive atoms are connected (`factor`), no variable is
assigned a constant (`noConst`), each import clause shares a variable with the rest of the rule (`bound`), imported
variables do not occur in negated atoms (`negBase`) and are not used to compute variables of negated import clauses
(`negImport`), and a condition on variables of a negated import clause has a variable that only occurs there or no
imported variable at all (`negImportOps`).  `ImportRuleExamples.lean` shows that these conditions are needed. -/
structure ImportOK (r : IRule α) (arity : Tag → Nat) : Prop where
  plain : RuleOK r.plain arity
  factor : ∃ f, atomFactors r.base.positive = [f]
  noConst : NoConst r.base
  bound : ∀ a ∈ r.imports, ∃ v ∈ a.terms, SafeVar r.base.positive r.base.operations v
  negBase : ∀ a ∈ r.base.negative, ∀ v ∈ a.terms, SafeVar r.plain.positive r.base.operations v →
    SafeVar r.base.positive r.base.operations v
  negImport : ∀ a ∈ r.negImports, ∀ v ∈ a.terms, SafeVar r.plain.positive r.base.operations v →
    SafeVar r.base.positive r.base.operations v ∨ v ∈ atomVars r.posImports
  negImportOps : ∀ a ∈ r.negImports, ∀ o ∈ r.base.operations, (∀ v ∈ o.vars, v ∈ a.terms) →
    (∃ v ∈ o.vars, ¬ SafeVar r.plain.positive r.base.operations v) ∨
      ∀ v ∈ o.vars, SafeVar r.base.positive r.base.operations v
  order : ∀ v, SafeVar r.base.positive r.base.operations v → v ∈ r.base.order
  preds : ∀ a ∈ r.base.positive ++ r.base.negative, a.pred ∉ r.imports.map (·.pred)

theorem SafeVar.mono {as bs : List BodyAtom} {os : List (Operation α)} (h : ∀ a ∈ as, a ∈ bs) {v : Variable}
    (hv : SafeVar as os v) : SafeVar bs os v := by
  induction hv with
  | atom h1 h2 => exact .atom (h _ h1) h2
  | assign h1 h2 _ ih => exact .assign h1 h2 ih

theorem negFilters_map : ∀ (as : List BodyAtom) (os : List (Operation α)),
    (negFilters as os).1.map (·.1) = as
  | [], _ => rfl
  | a :: as, os => by simp [negFilters, negFilters_map as]

theorem negFilters_spec : ∀ (as : List BodyAtom) (os : List (Operation α)),
    as.Pairwise (fun a b => ∀ o ∈ os, (∀ v ∈ o.vars, v ∈ a.terms) → ¬ ∀ v ∈ o.vars, v ∈ b.terms) →
    (∀ x ∈ (negFilters as os).1, x.1 ∈ as ∧ ∀ o, o ∈ x.2 ↔ o ∈ os ∧ ∀ v ∈ o.vars, v ∈ x.1.terms) ∧
    ∀ o, o ∈ (negFilters as os).2 ↔ o ∈ os ∧ ∀ a ∈ as, ¬ ∀ v ∈ o.vars, v ∈ a.terms
  | [], os, _ => by simp [negFilters]
  | a :: as, os, h => by
    obtain ⟨h1, h2⟩ := List.pairwise_cons.1 h
    have hsub : ∀ o ∈ (genFilter a.terms os).2, o ∈ os := fun o ho => ((mem_genFilter_snd _ _ _).1 ho).1
    obtain ⟨i1, i2⟩ := negFilters_spec as (genFilter a.terms os).2
      (h2.imp fun {b c} hbc o ho => hbc o (hsub o ho))
    constructor
    · intro x hx
      rw [negFilters] at hx
      rcases List.mem_cons.1 hx with rfl | hx
      · exact ⟨by simp, fun o => mem_genFilter_fst _ _ _⟩
      · obtain ⟨hxa, hxo⟩ := i1 x hx
        refine ⟨List.mem_cons_of_mem _ hxa, fun o => ?_⟩
        rw [hxo, mem_genFilter_snd]
        constructor
        · rintro ⟨⟨h3, -⟩, h4⟩; exact ⟨h3, h4⟩
        · rintro ⟨h3, h4⟩
          exact ⟨⟨h3, fun h5 => h1 x.1 hxa o h3 h5 h4⟩, h4⟩
    · intro o
      rw [negFilters]
      simp only [i2, mem_genFilter_snd, List.mem_cons, forall_eq_or_imp, and_assoc]

/-- The last step without negated atoms: functions and filters. -/
theorem genFF_spec (src : Source α) (cur last : Nat) (J : Rel α) (jw : J.WF) (ops : List (Operation α))
    (S : Variable → Prop) (hS : ∀ v, S v ↔ SafeVar (J.cols.map fun v => (⟨0, [v]⟩ : BodyAtom)) ops v) :
    (genFFN src cur last J ops []).1.WF ∧
    (∀ v, v ∈ (genFFN src cur last J ops []).1.cols ↔ S v) ∧
    (∀ σ, (genFFN src cur last J ops []).1.Holds σ ↔ J.Holds σ ∧
      ∀ o ∈ ops, (∀ v ∈ o.vars, S v) → o.eval σ = some Dom.tru) ∧
    ∀ o, o ∈ (genFFN src cur last J ops []).2 ↔ o ∈ ops ∧ ¬ ∀ v ∈ o.vars, S v := by
  have hav : atomVars (J.cols.map fun v => (⟨0, [v]⟩ : BodyAtom)) = J.cols := by
    simp [atomVars, List.flatMap_map]
  let r2 : NRule α := ⟨J.cols.map fun v => ⟨0, [v]⟩, [], ops, [], none, J.cols⟩
  have hr2 : RuleOK r2 (fun _ => 1) := by
    refine ⟨?_, by simp [r2], ?_, by simp [r2], jw.nodup, ?_, by simp [r2], by simp [r2], by simp [r2]⟩
    · intro a ha; obtain ⟨v, -, rfl⟩ := List.mem_map.1 ha; simp
    · intro a ha; obtain ⟨v, -, rfl⟩ := List.mem_map.1 ha; simp
    · intro v hv; simpa [r2, hav] using hv
  have hsrc : SrcOK (fun _ _ _ => [] : Source α) (fun _ _ _ => False) (fun _ => 1) 1 :=
    ⟨by simp, by simp⟩
  obtain ⟨g1, -, g2, g3, g4⟩ := genFFN_spec hsrc (last := 0) (by omega) r2 hr2 J jw (by intro v; rw [hav])
  refine ⟨g1, fun v => (g2 v).trans (hS v).symm, fun σ => ?_, fun o => ?_⟩
  · refine (g3 σ).trans ?_
    simp only [r2, List.not_mem_nil, false_implies, implies_true, and_true, hS]
  · refine (g4 o).trans ?_
    simp only [r2, List.not_mem_nil, false_implies, implies_true, and_true, hS]

/-- the table of the only factor -/
theorem cartesianJoin_single {f : List BodyAtom} (hf : atomFactors r.base.positive = [f]) (hc : NoConst r.base) :
    cartesianJoin src cur last r.base =
      let g := genFFN3 src cur last (genSeminaive src cur last true r.base.order f) r.base.operations r.base.negative
      ⟨[g.1], true, g.2.1, g.2.2⟩ := by
  simp only [cartesianJoin, hf, constOps_none hc, evalFactors]
  simp

/-- the rule of the factor -/
def factorRule (r : IRule α) (f : List BodyAtom) : NRule α := { r.base with positive := f }

theorem safe_factor {f : List BodyAtom} (hf : atomFactors r.base.positive = [f]) (v : Variable) :
    SafeVar f r.base.operations v ↔ SafeVar r.base.positive r.base.operations v := by
  have hm : ∀ a, a ∈ f ↔ a ∈ r.base.positive := by
    intro a; rw [← mem_atomFactors r.base.positive, hf]; simp
  exact ⟨SafeVar.mono fun a h => (hm a).1 h, SafeVar.mono fun a h => (hm a).2 h⟩

theorem ImportOK.factorOK (hr : ImportOK r arity) {f : List BodyAtom} (hf : atomFactors r.base.positive = [f]) :
    RuleOK (factorRule r f) arity := by
  have hm : ∀ a, a ∈ f ↔ a ∈ r.base.positive := by
    intro a; rw [← mem_atomFactors r.base.positive, hf]; simp
  have hs := safe_factor (r := r) hf
  have hp := hr.plain
  have hup : ∀ v, SafeVar r.base.positive r.base.operations v → SafeVar r.plain.positive r.base.operations v :=
    fun v h => SafeVar.mono (fun a ha => List.mem_append_left _ ha) h
  refine ⟨?_, ?_, ?_, ?_, hp.orderNodup, ?_, ?_, ?_, ?_⟩
  · intro a ha; exact hp.posNodup a (List.mem_append_left _ ((hm a).1 ha))
  · intro a ha; exact hp.negNodup a (List.mem_append_left _ ha)
  · intro a ha; exact hp.posArity a (List.mem_append_left _ ((hm a).1 ha))
  · intro a ha; exact hp.negArity a (List.mem_append_left _ ha)
  · intro v hv
    obtain ⟨a, ha, hva⟩ := List.mem_flatMap.1 hv
    exact hp.orderCov v (List.mem_flatMap.2 ⟨a, List.mem_append_left _ ((hm a).1 ha), hva⟩)
  · intro a ha
    obtain ⟨v, h1, h2⟩ := hp.negShared a (List.mem_append_left _ ha)
    exact ⟨v, h1, (hs v).2 (hr.negBase a ha v h1 h2)⟩
  · intro a ha o ho hv
    have hv' : ∀ v ∈ o.vars, SafeVar r.base.positive r.base.operations v ∨ v ∈ a.terms :=
      fun v h => (hv v h).imp (hs v).1 id
    rcases hp.negLocal a (List.mem_append_left _ ha) o ho (fun v h => (hv' v h).imp (hup v) id) with h | h
    · refine .inl fun v hvo => (hs v).2 ?_
      rcases hv' v hvo with h1 | h1
      · exact h1
      · exact hr.negBase a ha v h1 (h v hvo)
    · exact .inr h
  · have := (List.pairwise_append.1 hp.negDisjoint).1
    refine this.imp_of_mem fun {a b} ha _ hab v h1 h2 => (hs v).2 (hr.negBase a ha v h1 (hab v h1 h2))

/-- **C57 (one step).**  In a state that satisfies the invariant, the matches of a rule with import clauses are the
matches that it has if the external tables are loaded completely and that use a new fact. -/
theorem import_body (hf : Fetches fetch ext) (h : SrcOK src at_ arity cur) (hl : last < cur) (hr : ImportOK r arity)
    (hlen : ∀ a ∈ r.imports, ∀ row ∈ ext a.pred, row.length = a.terms.length) (cols : List Variable)
    (hcols : ∀ t ∈ (cartesianJoin src cur last r.base).tables, t.cols = cols)
    (hinv : ImportInv r ext bindTag cols at_ cur) :
    (evalImportBody fetch bindTag src cur last r).1.WF ∧
    (∀ v, v ∈ (evalImportBody fetch bindTag src cur last r).1.cols ↔ SafeVar r.plain.positive r.plain.operations v) ∧
    (∀ σ, (evalImportBody fetch bindTag src cur last r).1.Holds σ ↔
      BodyHolds r.plain (Loaded r ext (Before at_ cur)) (Loaded r ext (Before at_ cur)) σ ∧
        UsesNew r.base at_ last cur σ) ∧
    ∀ o, o ∈ (evalImportBody fetch bindTag src cur last r).2 ↔ o ∈ r.plain.operations ∧
      ¬ (∀ v ∈ o.vars, SafeVar r.plain.positive r.plain.operations v) ∧
      ∀ a ∈ r.plain.negative, ¬ ∀ v ∈ o.vars, SafeVar r.plain.positive r.plain.operations v ∨ v ∈ a.terms := by
  obtain ⟨f, hfac⟩ := hr.factor
  have hm : ∀ a, a ∈ f ↔ a ∈ r.base.positive := by
    intro a; rw [← mem_atomFactors r.base.positive, hfac]; simp
  have hs := safe_factor (r := r) hfac
  have hfo := hr.factorOK hfac
  have hp := hr.plain
  set S := SafeVar r.base.positive r.base.operations with hSdef
  set S' := SafeVar r.plain.positive r.base.operations with hS'def
  have hup : ∀ v, S v → S' v := fun v h => SafeVar.mono (fun a ha => List.mem_append_left _ ha) h
  -- the factor
  obtain ⟨jw, jc, jh⟩ := genSeminaive_spec h hl true r.base.order hfo.orderNodup f hfo.orderCov
  set J := genSeminaive src cur last true r.base.order f with hJ
  have hJv : ∀ v, v ∈ J.cols ↔ v ∈ atomVars (factorRule r f).positive := by
    intro v; rw [jc, mem_restrictOrder]; exact ⟨fun h => h.2, fun h => ⟨hfo.orderCov v h, h⟩⟩
  obtain ⟨fw, fc0, fc, fh, frem⟩ := genFFN_spec h hl (factorRule r f) hfo J jw hJv
  set G := genFFN src cur last J (factorRule r f).operations (factorRule r f).negative with hG
  have fcS : ∀ v, v ∈ G.1.cols ↔ S v := fun v => (fc v).trans (hs v)
  -- no negated atoms remain
  have hneg3 : (genFFN3 src cur last J r.base.operations r.base.negative).2.2 = [] := by
    rw [genFFN3]
    simp only [List.filter_eq_nil_iff, decide_eq_true_eq]
    intro a ha hcon
    obtain ⟨v, h1, h2⟩ := hfo.negShared a ha
    refine hcon v h1 ?_
    have := (fc v).2 h2
    rw [fc0] at this
    exact this
  have hcart := cartesianJoin_single (src := src) (cur := cur) (last := last) hfac hr.noConst
  have hcart' : cartesianJoin src cur last r.base = ⟨[G.1], true, G.2, []⟩ := by
    rw [hcart]
    simp only
    rw [hneg3]
    rfl
  have hcG : G.1.cols = cols := hcols G.1 (by rw [hcart']; simp)
  have hE : evalImportBody fetch bindTag src cur last r =
      merge fetch src cur last bindTag [G.1] r.base.order G.1 r.posImports r.negImports G.2 [] := by
    rw [evalImportBody, hcart']
    rfl
  rw [hE]
  rw [← hcG] at hinv
  -- facts about imports
  have hposI : ∀ a ∈ r.posImports, a ∈ r.imports := fun a ha => List.mem_append_left _ ha
  have hnegI : ∀ a ∈ r.negImports, a ∈ r.imports := fun a ha => List.mem_append_right _ ha
  have hnodI : ∀ a ∈ r.imports, a.terms.Nodup := by
    intro a ha
    rcases List.mem_append.1 ha with ha | ha
    · exact hp.posNodup a (List.mem_append_right _ ha)
    · exact hp.negNodup a (List.mem_append_right _ ha)
  have hbndI : ∀ a ∈ r.imports, ∃ v ∈ a.terms, v ∈ G.1.cols := by
    intro a ha
    obtain ⟨v, h1, h2⟩ := hr.bound a ha
    exact ⟨v, h1, (fcS v).2 h2⟩
  have hT : ∀ a ∈ r.imports, ∀ σ, G.1.Holds σ →
      ((importTable fetch src cur bindTag [G.1] a).Holds σ ↔ a.terms.map σ ∈ ext a.pred) := fun a ha σ hσ =>
    importTable_holds hf h G.1 fw hinv a ha (hnodI a ha) (hbndI a ha) σ hσ
  have hTW : ∀ a ∈ r.imports, (importTable fetch src cur bindTag [G.1] a).WF := by
    intro a ha
    refine ⟨hnodI a ha, ?_⟩
    intro row hrow
    simp only [importTable, List.mem_append] at hrow ⊢
    refine hlen a ha row ?_
    rcases hrow with h1 | h1
    · refine hinv.sound a ha row ?_
      rw [h.mem _ _ _ _ le_rfl] at h1
      simpa [Before] using h1
    · exact (mem_fetched hf G.1 fw a (hnodI a ha) (hbndI a ha)).1 row h1
  -- the joined table
  set C := restrictOrder r.base.order (G.1.cols ++ atomVars r.posImports) with hC
  have hCmem : ∀ v, v ∈ C ↔ S v ∨ v ∈ atomVars r.posImports := by
    intro v
    rw [hC, mem_restrictOrder, List.mem_append, fcS]
    constructor
    · exact fun h => h.2
    · intro h1
      refine ⟨?_, h1⟩
      rcases h1 with h1 | h1
      · exact hr.order v h1
      · obtain ⟨a, ha, hv⟩ := List.mem_flatMap.1 h1
        exact hp.orderCov v (List.mem_flatMap.2 ⟨a, List.mem_append_right _ ha, hv⟩)
  have hCS' : ∀ v, v ∈ C → S' v := by
    intro v hv
    rcases (hCmem v).1 hv with h1 | h1
    · exact hup v h1
    · obtain ⟨a, ha, hva⟩ := List.mem_flatMap.1 h1
      exact .atom (List.mem_append_right _ ha) hva
  set JT := Rel.join C (G.1 :: r.posImports.map (importTable fetch src cur bindTag [G.1])) with hJT
  have jtw : JT.WF := Rel.join_wf _ _ (hp.orderNodup.filter _)
  have jth : ∀ σ, JT.Holds σ ↔ G.1.Holds σ ∧ ∀ a ∈ r.posImports, a.terms.map σ ∈ ext a.pred := by
    intro σ
    rw [hJT, Rel.join_holds]
    · simp only [List.mem_cons, forall_eq_or_imp, List.mem_map, forall_exists_index, and_imp, forall_apply_eq_imp_iff₂]
      constructor
      · rintro ⟨h1, h2⟩; exact ⟨h1, fun a ha => (hT a (hposI a ha) σ h1).1 (h2 a ha)⟩
      · rintro ⟨h1, h2⟩; exact ⟨h1, fun a ha => (hT a (hposI a ha) σ h1).2 (h2 a ha)⟩
    · intro t ht v hv
      rw [hCmem]
      rcases List.mem_cons.1 ht with rfl | ht
      · exact .inl ((fcS v).1 hv)
      · obtain ⟨a, ha, rfl⟩ := List.mem_map.1 ht
        exact .inr (List.mem_flatMap.2 ⟨a, ha, hv⟩)
    · intro v hv
      rcases (hCmem v).1 hv with h1 | h1
      · exact ⟨G.1, by simp, (fcS v).2 h1⟩
      · obtain ⟨a, ha, hva⟩ := List.mem_flatMap.1 h1
        exact ⟨importTable fetch src cur bindTag [G.1] a, List.mem_cons_of_mem _ (List.mem_map_of_mem ha), hva⟩
  -- remaining operations of the factor
  have hR : ∀ o, o ∈ G.2 ↔ o ∈ r.base.operations ∧ ¬ (∀ v ∈ o.vars, S v) ∧
      ∀ a ∈ r.base.negative, ¬ ∀ v ∈ o.vars, S v ∨ v ∈ a.terms := by
    intro o
    refine (frem o).trans ?_
    simp only [factorRule, hs, hSdef]
  -- operations of negated imports
  have hnegR : ∀ a ∈ r.negImports, ∀ o ∈ G.2, (∀ v ∈ o.vars, v ∈ a.terms) → ∃ v ∈ o.vars, ¬ S' v := by
    intro a ha o ho hv
    rcases hr.negImportOps a ha o ((hR o).1 ho).1 hv with h1 | h1
    · exact h1
    · exact absurd h1 ((hR o).1 ho).2.1
  have hdisj := (List.pairwise_append.1 hp.negDisjoint).2.1
  obtain ⟨nf1, nf2⟩ := negFilters_spec r.negImports G.2 (by
    refine hdisj.imp_of_mem fun {a b} ha _ hab o ho h1 h2 => ?_
    obtain ⟨v, hv, hn⟩ := hnegR a ha o ho h1
    exact hn (hab v (h1 v hv) (h2 v hv)))
  set N := negFilters r.negImports G.2 with hN
  -- the table after subtracting
  set X := JT.subtract (N.1.map fun x => Rel.project (C.filter fun v => decide (v ∈ x.1.terms))
      ((importTable fetch src cur bindTag [G.1] x.1).filter x.2)) with hX
  have hXeq : (if r.negImports.isEmpty then JT else X).WF ∧ (if r.negImports.isEmpty then JT else X).cols = C ∧
      ∀ σ, (if r.negImports.isEmpty then JT else X).Holds σ ↔ JT.Holds σ ∧ ∀ a ∈ r.negImports, ¬ ∃ τ : Variable → α,
        (∀ v ∈ C, v ∈ a.terms → τ v = σ v) ∧ a.terms.map τ ∈ ext a.pred ∧
        ∀ o ∈ G.2, (∀ v ∈ o.vars, v ∈ a.terms) → o.eval τ = some Dom.tru := by
    by_cases he : r.negImports = []
    · simp only [he, List.isEmpty_nil, if_true]
      exact ⟨jtw, rfl, by simp⟩
    · have he' : r.negImports.isEmpty = false := by simpa using he
      simp only [he', if_false, Bool.false_eq_true]
      refine ⟨Rel.subtract_wf jtw _, rfl, fun σ => ?_⟩
      rw [hX, Rel.subtract_holds]
      swap
      · intro t ht v hv
        obtain ⟨x, -, rfl⟩ := List.mem_map.1 ht
        exact (List.mem_filter.1 hv).1
      refine and_congr_right fun hJσ => ?_
      have hGσ := ((jth σ).1 hJσ).1
      have key : ∀ x ∈ N.1, ((Rel.project (C.filter fun v => decide (v ∈ x.1.terms))
          ((importTable fetch src cur bindTag [G.1] x.1).filter x.2)).Holds σ ↔ ∃ τ : Variable → α,
            (∀ v ∈ C, v ∈ x.1.terms → τ v = σ v) ∧ x.1.terms.map τ ∈ ext x.1.pred ∧
            ∀ o ∈ G.2, (∀ v ∈ o.vars, v ∈ x.1.terms) → o.eval τ = some Dom.tru) := by
        intro x hx
        obtain ⟨hxa, hxo⟩ := nf1 x hx
        rw [Rel.project_holds _ _ (Rel.filter_wf (hTW x.1 (hnegI _ hxa)) _) (by
          intro v hv; exact of_decide_eq_true (List.mem_filter.1 hv).2)]
        have hGext : ∀ τ : Variable → α, (∀ v ∈ C, v ∈ x.1.terms → τ v = σ v) →
            ((importTable fetch src cur bindTag [G.1] x.1).Holds τ ↔ x.1.terms.map τ ∈ ext x.1.pred) := by
          intro τ hτ
          let τ' : Variable → α := fun v => if v ∈ x.1.terms then τ v else σ v
          have e1 : (importTable fetch src cur bindTag [G.1] x.1).Holds τ ↔
              (importTable fetch src cur bindTag [G.1] x.1).Holds τ' :=
            Rel.Holds.congr fun v hv => (if_pos hv).symm
          have e2 : x.1.terms.map τ = x.1.terms.map τ' := List.map_congr_left fun v hv => (if_pos hv).symm
          rw [e1, e2]
          refine hT _ (hnegI _ hxa) τ' ?_
          refine (Rel.Holds.congr fun v hv => ?_).1 hGσ
          show σ v = if v ∈ x.1.terms then τ v else σ v
          split
          · rename_i hvx
            exact (hτ v ((hCmem v).2 (.inl ((fcS v).1 hv))) hvx).symm
          · rfl
        refine exists_congr fun τ => ?_
        have ha : (∀ v ∈ C.filter fun v => decide (v ∈ x.1.terms), τ v = σ v) ↔ ∀ v ∈ C, v ∈ x.1.terms → τ v = σ v := by
          simp [List.mem_filter]
        rw [ha]
        refine and_congr_right fun hτ => ?_
        rw [Rel.filter_holds _ _ (fun o ho v hv => ((hxo o).1 ho).2 v hv), hGext τ hτ]
        refine and_congr_right fun _ => ?_
        simp only [hxo, and_imp]
      constructor
      · intro h1 a ha
        have : a ∈ N.1.map (·.1) := by rw [hN, negFilters_map]; exact ha
        obtain ⟨x, hx, rfl⟩ := List.mem_map.1 this
        exact fun h2 => h1 _ (List.mem_map_of_mem hx) ((key x hx).2 h2)
      · intro h1 t ht
        obtain ⟨x, hx, rfl⟩ := List.mem_map.1 ht
        exact fun h2 => h1 x.1 (nf1 x hx).1 ((key x hx).1 h2)
  set Y := (if r.negImports.isEmpty then JT else X) with hY
  obtain ⟨yw, yc, yh⟩ := hXeq
  -- the last step
  have hS2 : ∀ v, S' v ↔ SafeVar (Y.cols.map fun v => (⟨0, [v]⟩ : BodyAtom)) N.2 v := by
    intro v
    have hatom : ∀ w, w ∈ C → SafeVar (Y.cols.map fun v => (⟨0, [v]⟩ : BodyAtom)) N.2 w := by
      intro w hw
      exact .atom (List.mem_map_of_mem (by rw [yc]; exact hw)) (by simp)
    constructor
    · intro hv
      have hv0 := hv
      induction hv with
      | @atom a v ha hva =>
        apply hatom
        rw [hCmem]
        rcases List.mem_append.1 ha with h1 | h1
        · exact .inl (.atom h1 hva)
        · exact .inr (List.mem_flatMap.2 ⟨a, h1, hva⟩)
      | @assign o e v ho he hw ih =>
        have hallS' : ∀ w ∈ o.vars, S' w := by
          intro w hwo
          rcases (Operation.vars_assignment he w).1 hwo with rfl | h2
          · exact hv0
          · exact hw w h2
        have hvo : v ∈ o.vars := (Operation.vars_assignment he v).2 (.inl rfl)
        by_cases hin : o ∈ N.2
        · exact .assign hin he fun w hwe => ih w hwe (hw w hwe)
        · apply hatom
          rw [hCmem]
          left
          by_contra hns
          refine hin ((nf2 o).2 ⟨(hR o).2 ⟨ho, fun h1 => hns (h1 v hvo), ?_⟩, ?_⟩)
          · intro a ha h1
            rcases h1 v hvo with h2 | h2
            · exact hns h2
            · exact hns (hr.negBase a ha v h2 hv0)
          · intro a ha h1
            rcases hr.negImportOps a ha o ho h1 with ⟨w, hw1, hw2⟩ | h2
            · exact hw2 (hallS' w hw1)
            · exact hns (h2 v hvo)
    · intro hv
      induction hv with
      | @atom a v ha hva =>
        obtain ⟨w, hw, rfl⟩ := List.mem_map.1 ha
        simp only [List.mem_singleton] at hva
        subst hva
        rw [yc] at hw
        exact hCS' _ hw
      | @assign o e v ho he hw ih => exact .assign ((hR o).1 ((nf2 o).1 ho).1).1 he ih
  obtain ⟨g1, g2, g3, g4⟩ := genFF_spec src cur last Y yw N.2 S' hS2
  have hM : merge fetch src cur last bindTag [G.1] r.base.order G.1 r.posImports r.negImports G.2 [] =
      genFFN src cur last Y N.2 [] := rfl
  rw [hM]
  -- operations that are used somewhere
  have hops : ∀ o ∈ r.base.operations, o ∈ N.2 ∨ (∀ v ∈ o.vars, S v) ∨
      (∃ a ∈ r.base.negative, ∀ v ∈ o.vars, S v ∨ v ∈ a.terms) ∨
      (o ∈ G.2 ∧ ∃ a ∈ r.negImports, ∀ v ∈ o.vars, v ∈ a.terms) := by
    intro o ho
    by_cases h1 : ∀ v ∈ o.vars, S v
    · exact .inr (.inl h1)
    by_cases h2 : ∃ a ∈ r.base.negative, ∀ v ∈ o.vars, S v ∨ v ∈ a.terms
    · exact .inr (.inr (.inl h2))
    have ho2 : o ∈ G.2 := (hR o).2 ⟨ho, h1, fun a ha h3 => h2 ⟨a, ha, h3⟩⟩
    by_cases h3 : ∃ a ∈ r.negImports, ∀ v ∈ o.vars, v ∈ a.terms
    · exact .inr (.inr (.inr ⟨ho2, h3⟩))
    · exact .inl ((nf2 o).2 ⟨ho2, fun a ha h4 => h3 ⟨a, ha, h4⟩⟩)
  -- safe operations are either evaluated by the factor or in the last step
  have hsafeops : ∀ o ∈ r.base.operations, (∀ v ∈ o.vars, S' v) → (∀ v ∈ o.vars, S v) ∨ o ∈ N.2 := by
    intro o ho hv
    rcases hops o ho with h1 | h1 | ⟨a, ha, h1⟩ | ⟨h0, a, ha, h1⟩
    · exact .inr h1
    · exact .inl h1
    · exact .inl fun v hvo => (h1 v hvo).elim id fun h2 => hr.negBase a ha v h2 (hv v hvo)
    · obtain ⟨w, hw, hn⟩ := hnegR a ha o h0 h1
      exact absurd (hv w hw) hn
  refine ⟨g1, g2, fun σ => ?_, fun o => ?_⟩
  · rw [g3, yh, jth, fh, jh]
    have hfr : ∀ o : Operation α, (∀ v ∈ o.vars, SafeVar (factorRule r f).positive (factorRule r f).operations v) ↔
        ∀ v ∈ o.vars, S v := fun o => forall₂_congr fun v _ => hs v
    have hL : ∀ a : BodyAtom, a.pred ∉ r.imports.map (·.pred) → ∀ τ : Variable → α,
        (Loaded r ext (Before at_ cur) a.pred (a.terms.map τ) ↔ Before at_ cur a.pred (a.terms.map τ)) := by
      intro a ha τ
      simp [Loaded, ha]
    have hLi : ∀ a ∈ r.imports, ∀ τ : Variable → α,
        (Loaded r ext (Before at_ cur) a.pred (a.terms.map τ) ↔ a.terms.map τ ∈ ext a.pred) := by
      intro a ha τ
      have : a.pred ∈ r.imports.map (·.pred) := List.mem_map_of_mem ha
      simp [Loaded, this]
    constructor
    · rintro ⟨⟨⟨⟨⟨p1, p2⟩, p3, p4⟩, p5⟩, p6⟩, p7⟩
      have hopsall : ∀ o ∈ r.base.operations, (∀ v ∈ o.vars, S' v) → o.eval σ = some Dom.tru := by
        intro o ho hv
        rcases hsafeops o ho hv with h1 | h1
        · exact p3 o ho ((hfr o).2 h1)
        · exact p7 o h1 hv
      refine ⟨⟨?_, hopsall, ?_⟩, ?_⟩
      · intro a ha
        rcases List.mem_append.1 ha with h1 | h1
        · exact (hL a (hr.preds a (List.mem_append_left _ h1)) σ).2 (p1 a ((hm a).2 h1))
        · exact (hLi a (hposI a h1) σ).2 (p5 a h1)
      · intro a ha
        rcases List.mem_append.1 ha with h1 | h1
        · rintro ⟨τ, t1, t2, t3⟩
          refine p4 a h1 ⟨τ, fun v hv => t1 v (hup v ((hs v).1 hv)),
            (hL a (hr.preds a (List.mem_append_right _ h1)) τ).1 t2, fun o ho hv => t3 o ho fun v hvo =>
              (hv v hvo).imp (fun h2 => hup v ((hs v).1 h2)) id⟩
        · rintro ⟨τ, t1, t2, t3⟩
          refine p6 a h1 ⟨τ, fun v hv _ => t1 v (hCS' v hv), (hLi a (hnegI a h1) τ).1 t2, fun o ho hv =>
            t3 o ((hR o).1 ho).1 fun v hvo => .inr (hv v hvo)⟩
      · rcases p2 with p2 | ⟨a, ha, p2⟩
        · refine .inl (List.eq_nil_iff_forall_not_mem.2 fun a ha => ?_)
          have := (hm a).2 ha
          rw [p2] at this; cases this
        · exact .inr ⟨a, (hm a).1 ha, p2⟩
    · rintro ⟨⟨q1, q2, q3⟩, q4⟩
      have q2' : ∀ o ∈ r.base.operations, (∀ v ∈ o.vars, S' v) → o.eval σ = some Dom.tru := q2
      refine ⟨⟨⟨⟨⟨?_, ?_⟩, ?_, ?_⟩, ?_⟩, ?_⟩, ?_⟩
      · intro a ha
        have h1 := (hm a).1 ha
        exact (hL a (hr.preds a (List.mem_append_left _ h1)) σ).1 (q1 a (List.mem_append_left _ h1))
      · rcases q4 with q4 | ⟨a, ha, q4⟩
        · refine .inl (List.eq_nil_iff_forall_not_mem.2 fun a ha => ?_)
          have := (hm a).1 ha
          rw [q4] at this; cases this
        · exact .inr ⟨a, (hm a).2 ha, q4⟩
      · intro o ho hv
        exact q2' o ho fun v hvo => hup v ((hfr o).1 hv v hvo)
      · intro a ha
        rintro ⟨τ, t1, t2, t3⟩
        let τ' : Variable → α := fun v => if v ∈ a.terms then τ v else σ v
        have hτS' : ∀ v, S' v → τ' v = σ v := by
          intro v hv
          show (if v ∈ a.terms then τ v else σ v) = σ v
          split
          · rename_i hva
            exact t1 v ((hs v).2 (hr.negBase a ha v hva hv))
          · rfl
        have hmap : a.terms.map τ = a.terms.map τ' := List.map_congr_left fun v hv => (if_pos hv).symm
        refine q3 a (List.mem_append_left _ ha) ⟨τ', hτS', ?_, ?_⟩
        · rw [← hmap]
          exact (hL a (hr.preds a (List.mem_append_right _ ha)) τ).2 t2
        · intro o ho hv
          rcases hp.negLocal a (List.mem_append_left _ ha) o ho hv with h1 | h1
          · rw [Operation.eval_congr (τ := σ) o fun v hvo => hτS' v (h1 v hvo)]
            exact q2' o ho h1
          · rw [Operation.eval_congr (τ := τ) o fun v hvo => if_pos (h1 v hvo)]
            exact t3 o ho fun v hvo => .inr (h1 v hvo)
      · intro a ha
        exact (hLi a (hposI a ha) σ).1 (q1 a (List.mem_append_right _ ha))
      · intro a ha
        rintro ⟨τ, t1, t2, t3⟩
        let τ' : Variable → α := fun v => if v ∈ a.terms then τ v else σ v
        have hτS' : ∀ v, S' v → τ' v = σ v := by
          intro v hv
          show (if v ∈ a.terms then τ v else σ v) = σ v
          split
          · rename_i hva
            exact t1 v ((hCmem v).2 (hr.negImport a ha v hva hv)) hva
          · rfl
        have hmap : a.terms.map τ = a.terms.map τ' := List.map_congr_left fun v hv => (if_pos hv).symm
        refine q3 a (List.mem_append_right _ ha) ⟨τ', hτS', ?_, ?_⟩
        · rw [← hmap]
          exact (hLi a (hnegI a ha) τ).2 t2
        · intro o ho hv
          rcases hp.negLocal a (List.mem_append_right _ ha) o ho hv with h1 | h1
          · rw [Operation.eval_congr (τ := σ) o fun v hvo => hτS' v (h1 v hvo)]
            exact q2' o ho h1
          · by_cases hall : ∀ v ∈ o.vars, S' v
            · rw [Operation.eval_congr (τ := σ) o fun v hvo => hτS' v (hall v hvo)]
              exact q2' o ho hall
            · rw [Operation.eval_congr (τ := τ) o fun v hvo => if_pos (h1 v hvo)]
              refine t3 o ((hR o).2 ⟨ho, fun h2 => hall fun v hvo => hup v (h2 v hvo), ?_⟩) h1
              intro b hb h2
              apply hall
              intro v hvo
              rcases h2 v hvo with h3 | h3
              · exact hup v h3
              · exact (List.pairwise_append.1 hp.negDisjoint).2.2 b hb a ha v h3 (h1 v hvo)
      · intro o ho hv
        exact q2' o ((hR o).1 ((nf2 o).1 ho).1).1 hv
  · rw [g4]
    constructor
    · rintro ⟨h1, h2⟩
      obtain ⟨h3, h4⟩ := (nf2 o).1 h1
      obtain ⟨h5, h6, h7⟩ := (hR o).1 h3
      refine ⟨h5, h2, ?_⟩
      intro a ha hv
      rcases hp.negLocal a ha o h5 hv with h8 | h8
      · exact h2 h8
      · rcases List.mem_append.1 ha with ha' | ha'
        · exact h7 a ha' fun v hvo => .inr (h8 v hvo)
        · exact h4 a ha' h8
    · rintro ⟨h1, h2, h3⟩
      have h2' : ¬ ∀ v ∈ o.vars, S' v := h2
      refine ⟨?_, h2'⟩
      rcases hops o h1 with h4 | h4 | ⟨a, ha, h4⟩ | ⟨-, a, ha, h4⟩
      · exact h4
      · exact absurd (fun v hv => hup v (h4 v hv)) h2'
      · exact absurd (fun v hv => (h4 v hv).imp (hup v) id) (h3 a (List.mem_append_left _ ha))
      · exact absurd (fun v hv => .inr (h4 v hv)) (h3 a (List.mem_append_right _ ha))

/-! ## Histories -/

/-- the columns of the table of the only factor -/
def factorCols (r : IRule α) : List Variable :=
  (genFunction (restrictOrder r.base.order (atomVars ((atomFactors r.base.positive)[0]?.getD []))) r.base.operations).1.vars

theorem tables_cols (hr : ImportOK r arity) : ∃ F : Rel α,
    (cartesianJoin src cur last r.base).tables = [F] ∧ F.cols = factorCols r := by
  obtain ⟨f, hfac⟩ := hr.factor
  refine ⟨_, by rw [cartesianJoin_single hfac hr.noConst], ?_⟩
  have hJ : (genSeminaive src cur last true r.base.order f).cols = restrictOrder r.base.order (atomVars f) := by
    rw [genSeminaive]
    split
    · rename_i h
      have : f = [] := by simpa using h
      subst this
      simp [restrictOrder, atomVars]
    · rfl
  have hfn : ∀ (R : Rel α) (fs : List (Variable × Operation α)) (c : List (Operation α)),
      ((R.function fs).filter c).cols = R.cols ++ fs.map (·.1) := fun R fs c => Rel.function_cols R fs
  simp only [genFFN3, genFFN, evalNegation, Rel.subtract, hfn, factorCols, hfac, List.getElem?_cons_zero, Option.getD_some]
  rw [hJ]
  have hav : atomVars ((restrictOrder r.base.order (atomVars f)).map fun v => (⟨0, [v]⟩ : BodyAtom)) =
      restrictOrder r.base.order (atomVars f) := by simp [atomVars, List.flatMap_map]
  exact ((genFunction_spec ((restrictOrder r.base.order (atomVars f)).map fun v => (⟨0, [v]⟩ : BodyAtom)) _
    r.base.operations (fun v => by rw [hav])).1.vars_eq).symm

/-- the predicates in which bindings and imported rows of the rule are stored -/
def IRule.private (r : IRule α) (bindTag : BindTag) : List Tag :=
  r.imports.flatMap fun a => [a.pred, bindTag a.pred 0]

/-- The names are different (import.rs:174-198, pipeline/transformations/incremental.rs:213-221). -/
structure Names (r : IRule α) (bindTag : BindTag) : Prop where
  nodup : (r.imports.map (·.pred)).Nodup
  bind : ∀ a ∈ r.imports, ∀ b ∈ r.imports, bindTag a.pred 0 ≠ b.pred
  inj : ∀ a ∈ r.imports, ∀ b ∈ r.imports, bindTag a.pred 0 = bindTag b.pred 0 → a.pred = b.pred

/-- The histories of the facts of a program: at the beginning nothing is imported.  In a step in which another rule
is applied the imported rows and their bindings do not change; in a step in which the rule is applied the tables
`importTables` are added.  All other predicates change in any way. -/
inductive ImportRun (fetch : Tag → ProductBindings α → List (List α)) (bindTag : BindTag) (arity : Tag → Nat)
    (r : IRule α) : (Tag → Nat → List α → Prop) → Nat → Prop
  | start {at_ : Tag → Nat → List α → Prop} {cur : Nat} : 0 < cur →
      (∀ p ∈ r.private bindTag, ∀ s row, ¬ at_ p s row) → ImportRun fetch bindTag arity r at_ cur
  | other {at_ at' : Tag → Nat → List α → Prop} {cur : Nat} : ImportRun fetch bindTag arity r at_ cur →
      (∀ p ∈ r.private bindTag, ∀ s row, at' p s row ↔ at_ p s row) →
      ImportRun fetch bindTag arity r at' (cur + 1)
  | apply {at_ at' : Tag → Nat → List α → Prop} {cur last : Nat} {src : Source α} :
      ImportRun fetch bindTag arity r at_ cur → SrcOK src at_ arity cur → last < cur →
      (∀ p ∈ r.private bindTag, ∀ s row, at' p s row ↔ at_ p s row ∨
        ∃ e ∈ importTables fetch bindTag src cur last r, e.1 = p ∧ e.2.1 = s ∧ row ∈ e.2.2) →
      ImportRun fetch bindTag arity r at' (cur + 1)

theorem ImportRun.inv (hf : Fetches fetch ext) (hr : ImportOK r arity) (hn : Names r bindTag)
    (h : ImportRun fetch bindTag arity r at_ cur) :
    0 < cur ∧ (∀ p ∈ r.private bindTag, ∀ s row, at_ p s row → s < cur) ∧
    ImportInv r ext bindTag (factorCols r) at_ cur := by
  have hpriv1 : ∀ a ∈ r.imports, a.pred ∈ r.private bindTag := fun a ha =>
    List.mem_flatMap.2 ⟨a, ha, by simp⟩
  have hpriv2 : ∀ a ∈ r.imports, bindTag a.pred 0 ∈ r.private bindTag := fun a ha =>
    List.mem_flatMap.2 ⟨a, ha, by simp⟩
  induction h with
  | start h0 h1 =>
    refine ⟨h0, fun p hp s row h => absurd h (h1 p hp s row), ⟨?_, ?_⟩⟩
    · rintro a ha row ⟨s, -, hs⟩; exact absurd hs (h1 _ (hpriv1 a ha) s row)
    · rintro a ha t row ⟨s, -, hs⟩; exact absurd hs (h1 _ (hpriv2 a ha) s t)
  | @other at_ at' cur _ hsame ih =>
    obtain ⟨i0, i1, i2⟩ := ih
    refine ⟨by omega, fun p hp s row h => ?_, ⟨?_, ?_⟩⟩
    · have := i1 p hp s row ((hsame p hp s row).1 h); omega
    · rintro a ha row ⟨s, -, hs⟩
      have h1 := (hsame _ (hpriv1 a ha) s row).1 hs
      exact i2.sound a ha row ⟨s, i1 _ (hpriv1 a ha) s row h1, h1⟩
    · rintro a ha t row ⟨s, -, hs⟩ he hag
      have h1 := (hsame _ (hpriv2 a ha) s t).1 hs
      obtain ⟨s', hs', h2⟩ := i2.closed a ha t row ⟨s, i1 _ (hpriv2 a ha) s t h1, h1⟩ he hag
      exact ⟨s', by omega, (hsame _ (hpriv1 a ha) s' row).2 h2⟩
  | @apply at_ at' cur last src _ hsrc hl hadd ih =>
    obtain ⟨i0, i1, i2⟩ := ih
    obtain ⟨F, hF, hFc⟩ := tables_cols (src := src) (cur := cur) (last := last) hr
    have hFw : F.WF := by
      obtain ⟨f, hfac⟩ := hr.factor
      have hfo := hr.factorOK hfac
      obtain ⟨jw, jc, jh⟩ := genSeminaive_spec hsrc hl true r.base.order hfo.orderNodup f hfo.orderCov
      obtain ⟨fw, -⟩ := genFFN_spec hsrc hl (factorRule r f) hfo _ jw (by
        intro v; rw [jc, mem_restrictOrder]; exact ⟨fun h => h.2, fun h => ⟨hfo.orderCov v h, h⟩⟩)
      rw [cartesianJoin_single hfac hr.noConst] at hF
      simp only [List.cons.injEq, and_true] at hF
      rw [← hF]
      exact fw
    have hnodI : ∀ a ∈ r.imports, a.terms.Nodup := by
      intro a ha
      rcases List.mem_append.1 ha with ha | ha
      · exact hr.plain.posNodup a (List.mem_append_right _ ha)
      · exact hr.plain.negNodup a (List.mem_append_right _ ha)
    have hbndI : ∀ a ∈ r.imports, ∃ v ∈ a.terms, v ∈ F.cols := by
      intro a ha
      obtain ⟨v, h1, h2⟩ := hr.bound a ha
      obtain ⟨f, hfac⟩ := hr.factor
      have hfo := hr.factorOK hfac
      obtain ⟨jw, jc, jh⟩ := genSeminaive_spec hsrc hl true r.base.order hfo.orderNodup f hfo.orderCov
      obtain ⟨-, -, fc, -⟩ := genFFN_spec hsrc hl (factorRule r f) hfo _ jw (by
        intro v; rw [jc, mem_restrictOrder]; exact ⟨fun h => h.2, fun h => ⟨hfo.orderCov v h, h⟩⟩)
      rw [cartesianJoin_single hfac hr.noConst] at hF
      simp only [List.cons.injEq, and_true] at hF
      refine ⟨v, h1, ?_⟩
      rw [← hF]
      exact (fc v).2 ((safe_factor hfac v).2 h2)
    -- what is added
    have hpat : ∀ a ∈ r.imports, patterns [F.cols] a ≠ [] := by
      intro a ha
      rw [patterns_single _ hFw.nodup a (hnodI a ha) (hbndI a ha)]
      simp
    have hmemT : ∀ e, e ∈ importTables fetch bindTag src cur last r ↔ ∃ a ∈ r.imports,
        (∃ p ∈ patterns [F.cols] a, e = (bindTag a.pred p.factor, cur, newBindings src cur bindTag [F] a p)) ∨
          e = (a.pred, cur - 1, fetched fetch src cur bindTag [F] a) := by
      intro e
      simp only [importTables, hF, List.mem_flatMap, List.mem_append, List.mem_map, List.mem_singleton, List.map_cons,
        List.map_nil, IRule.imports]
      simp only [eq_comm]
    have hfetched : ∀ a ∈ r.imports, ∀ row ∈ fetched fetch src cur bindTag [F] a, at' a.pred (cur - 1) row := by
      intro a ha row hrow
      exact (hadd _ (hpriv1 a ha) _ _).2 (.inr ⟨_, (hmemT _).2 ⟨a, ha, .inr rfl⟩, rfl, rfl, hrow⟩)
    have hold : ∀ a ∈ r.imports, ∀ row, Before at_ cur a.pred row → Before at' (cur + 1) a.pred row := by
      rintro a ha row ⟨s, hs, h1⟩
      exact ⟨s, by omega, (hadd _ (hpriv1 a ha) _ _).2 (.inl h1)⟩
    have hmem : ∀ p row, row ∈ src p 0 cur ↔ Before at_ cur p row := by
      intro p row; rw [hsrc.mem _ _ _ _ le_rfl]; simp [Before]
    refine ⟨by omega, ?_, ⟨?_, ?_⟩⟩
    · intro p hp s row h1
      rcases (hadd p hp s row).1 h1 with h2 | ⟨e, he, -, rfl, -⟩
      · have := i1 p hp s row h2; omega
      · obtain ⟨a, -, ⟨q, -, rfl⟩ | rfl⟩ := (hmemT e).1 he
        · show cur < cur + 1; omega
        · show cur - 1 < cur + 1; omega
    · rintro a ha row ⟨s, -, hs⟩
      rcases (hadd _ (hpriv1 a ha) s row).1 hs with h2 | ⟨e, he, h3, -, h4⟩
      · exact i2.sound a ha row ⟨s, i1 _ (hpriv1 a ha) s row h2, h2⟩
      · obtain ⟨b, hb, ⟨q, hq, rfl⟩ | rfl⟩ := (hmemT e).1 he
        · have hq0 : q.factor = 0 := by
            rw [patterns_single _ hFw.nodup b (hnodI b hb) (hbndI b hb), List.mem_singleton] at hq
            rw [hq]
          dsimp only at h3
          rw [hq0] at h3
          exact absurd h3 (hn.bind b hb a ha)
        · dsimp only at h3 h4
          rw [← h3]
          exact (mem_fetched hf F hFw b (hnodI b hb) (hbndI b hb)).1 row h4
    · rintro a ha t row ⟨s, -, hs⟩ he hag
      rcases (hadd _ (hpriv2 a ha) s t).1 hs with h2 | ⟨e, hee, h3, -, h4⟩
      · exact hold a ha row (i2.closed a ha t row ⟨s, i1 _ (hpriv2 a ha) s t h2, h2⟩ he hag)
      · obtain ⟨b, hb, ⟨q, hq, rfl⟩ | rfl⟩ := (hmemT e).1 hee
        · obtain ⟨rows, -, r2, r3⟩ := request_single (src := src) (cur := cur) (bindTag := bindTag) F hFw b (hnodI b hb) (hbndI b hb)
          obtain ⟨hq0, hqr⟩ := r2 q hq
          dsimp only at h3 h4
          rw [hq0] at h3
          rw [hqr] at h4
          have hab : b.pred = a.pred := hn.inj b hb a ha h3
          have hab' : b = a := List.inj_on_of_nodup_map hn.nodup hb ha hab
          subst hab'
          obtain ⟨k1, k2⟩ := (r3 t).1 h4
          rw [← hFc] at hag
          refine ⟨cur - 1, by omega, hfetched b hb row ?_⟩
          exact (mem_fetched hf F hFw b (hnodI b hb) (hbndI b hb)).2 t row k1 k2 he hag
        · dsimp only at h3
          exact absurd h3.symm (hn.bind a ha b hb)

/-- **C57.**  In every step of every history, the matches of a rule with import clauses are the matches that it has
if the external tables are loaded completely and that use a fact that is new since the last application. -/
theorem import_rule_partial (hf : Fetches fetch ext) (hr : ImportOK r arity) (hn : Names r bindTag)
    (hlen : ∀ a ∈ r.imports, ∀ row ∈ ext a.pred, row.length = a.terms.length)
    (h : ImportRun fetch bindTag arity r at_ cur) (hs : SrcOK src at_ arity cur) (hl : last < cur) :
    (∀ v, v ∈ (evalImportBody fetch bindTag src cur last r).1.cols ↔ SafeVar r.plain.positive r.plain.operations v) ∧
    (∀ σ, (evalImportBody fetch bindTag src cur last r).1.Holds σ ↔
      BodyHolds r.plain (Loaded r ext (Before at_ cur)) (Loaded r ext (Before at_ cur)) σ ∧
        UsesNew r.base at_ last cur σ) ∧
    ∀ o, o ∈ (evalImportBody fetch bindTag src cur last r).2 ↔ o ∈ r.plain.operations ∧
      ¬ (∀ v ∈ o.vars, SafeVar r.plain.positive r.plain.operations v) ∧
      ∀ a ∈ r.plain.negative, ¬ ∀ v ∈ o.vars, SafeVar r.plain.positive r.plain.operations v ∨ v ∈ a.terms := by
  obtain ⟨F, hF, hFc⟩ := tables_cols (src := src) (cur := cur) (last := last) hr
  obtain ⟨-, h2, h3, h4⟩ := import_body hf hs hl hr hlen (factorCols r) (by
    intro t ht; rw [hF, List.mem_singleton] at ht; rw [ht, hFc]) (h.inv hf hr hn).2.2
  exact ⟨h2, h3, h4⟩

/-- **C57 (comparison).**  The matches are the same as those of the rule without import clauses, when all rows of the
external tables are facts from the beginning. -/
theorem import_rule_loaded_partial (hf : Fetches fetch ext) (hr : ImportOK r arity) (hn : Names r bindTag)
    (hlen : ∀ a ∈ r.imports, ∀ row ∈ ext a.pred, row.length = a.terms.length)
    (h : ImportRun fetch bindTag arity r at_ cur) (hs : SrcOK src at_ arity cur) (hl : last < cur)
    {src2 : Source α} {at2 : Tag → Nat → List α → Prop} (hs2 : SrcOK src2 at2 arity cur)
    (hsame : ∀ p, p ∉ r.imports.map (·.pred) → ∀ s row, at2 p s row ↔ at_ p s row)
    (hload : ∀ p, p ∈ r.imports.map (·.pred) → ∀ s row, at2 p s row ↔ s = 0 ∧ row ∈ ext p) (σ : Variable → α) :
    (evalImportBody fetch bindTag src cur last r).1.Holds σ ↔ (evalBody src2 cur last r.plain).1.Holds σ := by
  rw [(import_rule_partial hf hr hn hlen h hs hl).2.1 σ, (evalBody_spec hs2 hl r.plain hr.plain).2.2.1 σ]
  have hI : Loaded r ext (Before at_ cur) = Before at2 cur := by
    funext p row
    apply propext
    by_cases hp : p ∈ r.imports.map (·.pred)
    · simp only [Loaded, hp, true_and, not_true, false_and, or_false, Before, hload p hp]
      constructor
      · intro h1; exact ⟨0, by omega, rfl, h1⟩
      · rintro ⟨s, -, -, h1⟩; exact h1
    · simp only [Loaded, hp, false_and, not_false_iff, true_and, false_or, Before, hsame p hp]
  rw [hI]
  refine and_congr_right fun hb => ?_
  obtain ⟨f, hfac⟩ := hr.factor
  have hne : ∃ a, a ∈ r.base.positive := by
    by_contra hcon
    have : r.base.positive = [] := List.eq_nil_iff_forall_not_mem.2 fun a ha => hcon ⟨a, ha⟩
    rw [this] at hfac
    simp [atomFactors, partitions] at hfac
  have hbase : ∀ a ∈ r.base.positive, a.pred ∉ r.imports.map (·.pred) := fun a ha =>
    hr.preds a (List.mem_append_left _ ha)
  constructor
  · rintro (h1 | ⟨a, ha, s, h1, h2, h3⟩)
    · obtain ⟨a, ha⟩ := hne; rw [h1] at ha; cases ha
    · exact .inr ⟨a, List.mem_append_left _ ha, s, h1, h2, (hsame _ (hbase a ha) _ _).2 h3⟩
  · rintro (h1 | ⟨a, ha, s, h1, h2, h3⟩)
    · obtain ⟨a, ha⟩ := hne
      have : a ∈ r.plain.positive := List.mem_append_left _ ha
      rw [h1] at this; cases this
    · rcases List.mem_append.1 ha with h4 | h4
      · exact .inr ⟨a, h4, s, h1, h2, (hsame _ (hbase a h4) _ _).1 h3⟩
      · have hap : a.pred ∈ r.imports.map (·.pred) := List.mem_map_of_mem (List.mem_append_left _ h4)
        obtain ⟨rfl, -⟩ := (hload _ hap _ _).1 h3
        obtain ⟨b, hb'⟩ := hne
        obtain ⟨s, hs', h5⟩ := hb.pos b (List.mem_append_left _ hb')
        exact .inr ⟨b, hb', s, by omega, hs', (hsame _ (hbase b hb') _ _).1 h5⟩

end

end Verif.Dem
