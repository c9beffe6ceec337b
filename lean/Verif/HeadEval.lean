import Verif.BodyEval

/-!
# Applying a rule without existential variables

The new tables computed by `executeRule` contain exactly the facts that are derived by the rule with at
least one new body fact and that are not yet known.
-/

set_option linter.unusedSimpArgs false
set_option linter.unusedSectionVars false

namespace Verif
variable {α : Type} [DecidableEq α] [Dom α]

/-- An operation that is neither a condition on the body nor on a negated atom. -/
def NRule.Remaining (r : NRule α) (o : Operation α) : Prop :=
  o ∈ r.operations ∧ ¬ (∀ v ∈ o.vars, SafeVar r.positive r.operations v) ∧
    ∀ b ∈ r.negative, ¬ ∀ v ∈ o.vars, SafeVar r.positive r.operations v ∨ v ∈ b.terms

/-- The aggregates that are considered: the normalization of head atoms
(/repo/nemo/src/execution/planning/normalization/atom/head.rs:101-170) creates aggregates of this form. -/
structure AggOK (r : NRule α) (a : Aggregation) : Prop where
  groupSafe : ∀ v ∈ a.groupBy, SafeVar r.positive r.operations v
  inputSafe : ∀ v ∈ a.input :: a.distinct, SafeVar r.positive r.operations v
  outputFresh : a.output ∉ a.groupBy
  assigns : ∀ o, r.Remaining o → ∃ v e, o.variableAssignment = some (v, e) ∧
    (∀ w ∈ e.vars, w ∈ a.groupBy ∨ w = a.output) ∧ v ∉ a.groupBy ∧ v ≠ a.output
  distinctTargets : ∀ o o' v e e', r.Remaining o → r.Remaining o' → o.variableAssignment = some (v, e) →
    o'.variableAssignment = some (v, e') → o = o'

/-- The rule heads that are considered. -/
structure HeadOK (r : NRule α) (arity : Tag → Nat) : Prop where
  headArity : ∀ h ∈ r.head, h.terms.length = arity h.pred
  headSafe : ∀ (i : Nat) h, r.head[i]? = some h → (∀ a k, r.aggregation = some (a, k) → k ≠ i) →
    ∀ v ∈ h.vars, v.isExistential = false → SafeVar r.positive r.operations v
  agg : ∀ a i, r.aggregation = some (a, i) → AggOK r a
  aggSafe : ∀ a (i : Nat) h, r.aggregation = some (a, i) → r.head[i]? = some h →
    ∀ v ∈ h.vars, v ∈ a.groupBy ∨ v = a.output ∨ ∃ o e, r.Remaining o ∧ o.variableAssignment = some (v, e)

theorem HeadAtom.inst_congr (h : HeadAtom α) {σ τ : Variable → α} (he : ∀ v ∈ h.vars, σ v = τ v) :
    h.inst σ = h.inst τ := by
  unfold HeadAtom.inst
  apply List.map_congr_left
  intro t ht
  cases t with
  | const a => rfl
  | var v => exact he v (List.mem_filterMap.2 ⟨_, ht, rfl⟩)

theorem mem_headRows (h : HeadAtom α) (R : Rel α) (hw : R.WF) (hv : ∀ v ∈ h.vars, v ∈ R.cols) (row : List α) :
    row ∈ headRows h R ↔ ∃ σ, R.Holds σ ∧ row = h.inst σ := by
  simp only [headRows, List.mem_map]
  constructor
  · rintro ⟨x, hx, rfl⟩; exact ⟨_, hw.holds_assign hx, rfl⟩
  · rintro ⟨σ, hs, rfl⟩
    exact ⟨_, hs, HeadAtom.inst_congr h fun v hv' => assign_map _ _ (hv v hv')⟩

theorem evalAggregation_spec (r : NRule α) (a : Aggregation) (ha : AggOK r a) (body : Rel α) (hw : body.WF)
    (hc : ∀ v, v ∈ body.cols ↔ SafeVar r.positive r.operations v) (os : List (Operation α))
    (hos : ∀ o, o ∈ os ↔ r.Remaining o) :
    (evalAggregation body a os).WF ∧
    (∀ v, v ∈ (evalAggregation body a os).cols ↔ v ∈ a.groupBy ∨ v = a.output ∨
      ∃ o e, r.Remaining o ∧ o.variableAssignment = some (v, e)) ∧
    ∀ σ, (evalAggregation body a os).Holds σ ↔ AggHolds r a body.Holds σ := by
  set gb := body.cols.filter fun v => decide (v ∈ a.groupBy) with hgb
  have hmg : ∀ v, v ∈ gb ↔ v ∈ a.groupBy := by
    intro v; rw [hgb, List.mem_filter, hc]; simp only [decide_eq_true_eq]
    exact ⟨fun h => h.2, fun h => ⟨ha.groupSafe v h, h⟩⟩
  have hn : (gb ++ [a.output]).Nodup := by
    refine List.nodup_append.2 ⟨hw.nodup.filter _, by simp, ?_⟩
    intro x hx y hy hxy
    simp only [List.mem_singleton] at hy
    subst hy; subst hxy
    exact ha.outputFresh ((hmg _).1 hx)
  have aw := Rel.aggregate_wf body gb a hn
  have ah := Rel.aggregate_holds body hw gb a (fun v hv => (List.mem_filter.1 hv).1)
    (fun v hv => (hc v).2 (ha.inputSafe v hv))
  obtain ⟨finv, fsafe⟩ := genFunction_spec [⟨0, gb ++ [a.output]⟩] (gb ++ [a.output]) os (by simp [atomVars])
  set F := genFunction (gb ++ [a.output]) os with hF
  obtain ⟨fw, fh⟩ := Rel.function_spec aw F.1.fns finv.ok
  -- all operations are used
  have hall : ∀ o ∈ os, ∃ f ∈ F.1.fns, o.variableAssignment = some f := by
    intro o ho
    obtain ⟨v, e, hve, hev, hvg, hvo⟩ := ha.assigns o ((hos o).1 ho)
    have hs : SafeVar [⟨0, gb ++ [a.output]⟩] os v := by
      refine .assign ho hve fun w hw => .atom List.mem_cons_self ?_
      simp only [List.mem_append, List.mem_singleton]
      exact (hev w hw).imp_left (hmg w).2
    have hv := (fsafe v).2 hs
    rw [finv.vars_eq, List.mem_append] at hv
    rcases hv with hv | hv
    · exfalso
      simp only [List.mem_append, List.mem_singleton] at hv
      exact hv.elim (fun h => hvg ((hmg v).1 h)) hvo
    · obtain ⟨f, hf, rfl⟩ := List.mem_map.1 hv
      obtain ⟨o', ho', hf'⟩ := finv.src f hf
      have : o = o' := ha.distinctTargets o o' f.1 e f.2 ((hos o).1 ho) ((hos o').1 ho') hve hf'
      subst this
      exact ⟨f, hf, hf'⟩
  refine ⟨fw, ?_, ?_⟩
  · intro v
    show v ∈ ((body.aggregate gb a).function F.1.fns).cols ↔ _
    rw [Rel.function_cols]
    show v ∈ (gb ++ [a.output]) ++ _ ↔ _
    simp only [List.mem_append, List.mem_singleton, List.mem_map, hmg, or_assoc]
    refine or_congr_right (or_congr_right ⟨?_, ?_⟩)
    · rintro ⟨f, hf, rfl⟩
      obtain ⟨o, ho, hfe⟩ := finv.src f hf
      exact ⟨o, f.2, (hos o).1 ho, hfe⟩
    · rintro ⟨o, e, ho, hfe⟩
      obtain ⟨f, hf, hfe'⟩ := hall o ((hos o).2 ho)
      rw [hfe] at hfe'; cases hfe'
      exact ⟨_, hf, rfl⟩
  · intro σ
    show ((body.aggregate gb a).function F.1.fns).Holds σ ↔ _
    rw [fh, ah]
    have h1 : (∀ f ∈ F.1.fns, f.2.eval σ = some (σ f.1)) ↔ ∀ o ∈ os, o.eval σ = some Dom.tru := by
      constructor
      · intro hh o ho
        obtain ⟨f, hf, hfe⟩ := hall o ho
        rw [Operation.eval_assignment hfe]; exact hh f hf
      · intro hh f hf
        obtain ⟨o, ho, hfe⟩ := finv.src f hf
        rw [← Operation.eval_assignment hfe]; exact hh o ho
    rw [h1]
    constructor
    · rintro ⟨⟨τ, l, h2, h3, h4, h5⟩, h6⟩
      refine ⟨⟨τ, l, h2, fun v hv => h3 v ((hmg v).2 hv), fun x => ?_, h5⟩, fun o ho hs hb => h6 o ((hos o).2 ⟨ho, hs, hb⟩)⟩
      rw [h4]; simp only [hmg]
    · rintro ⟨⟨τ, l, h2, h3, h4, h5⟩, h6⟩
      refine ⟨⟨τ, l, h2, fun v hv => h3 v ((hmg v).1 hv), fun x => ?_, h5⟩, fun o ho => ?_⟩
      · rw [h4]; simp only [hmg]
      · obtain ⟨h7, h8, h9⟩ := (hos o).1 ho
        exact h6 o h7 h8 h9

theorem AggHolds.congr {r : NRule α} {a : Aggregation} {B B' : (Variable → α) → Prop} (h : ∀ σ, B σ ↔ B' σ)
    (σ : Variable → α) : AggHolds r a B σ ↔ AggHolds r a B' σ := by
  have : B = B' := funext fun σ => propext (h σ)
  rw [this]

theorem DerivesWith.congr {r : NRule α} {B B' : (Variable → α) → Prop} (h : ∀ σ, B σ ↔ B' σ)
    (p : Tag) (row : List α) : DerivesWith r B p row ↔ DerivesWith r B' p row := by
  have : B = B' := funext fun σ => propext (h σ)
  rw [this]

/-- a fact is contained in one of the new tables -/
def InTables (ts : List (Tag × List (List α))) (p : Tag) (row : List α) : Prop := ∃ t, (p, t) ∈ ts ∧ row ∈ t

theorem mem_genDuplicates {src : Source α} {at_ : Tag → Nat → List α → Prop} {arity : Tag → Nat} {cur : Nat}
    (h : SrcOK src at_ arity cur) (p : Tag) (rows : List (List α)) (row : List α) :
    row ∈ genDuplicates src cur p rows ↔ row ∈ rows ∧ ¬ Before at_ cur p row := by
  simp only [genDuplicates, List.mem_filter, decide_eq_true_eq]
  rw [h.mem p 0 cur row le_rfl]
  simp [Before]

theorem not_isExistential {r : NRule α} (h : r.isExistential = false) {hd : HeadAtom α} (hm : hd ∈ r.head) :
    hd.varsExistential = [] ∧ ∀ v ∈ hd.vars, v.isExistential = false := by
  unfold NRule.isExistential at h
  rw [List.any_eq_false] at h
  have := h hd hm
  rw [Bool.not_eq_true, List.any_eq_false] at this
  have h2 : ∀ v ∈ hd.vars, v.isExistential = false := fun v hv => by simpa using this v hv
  refine ⟨?_, h2⟩
  unfold HeadAtom.varsExistential
  rw [List.filter_eq_nil_iff]
  intro v hv; simp [h2 v hv]

/-- the valuations found by an application of the rule -/
def NewMatch (r : NRule α) (at_ : Tag → Nat → List α → Prop) (last cur : Nat) (σ : Variable → α) : Prop :=
  BodyHolds r (Before at_ cur) (Before at_ cur) σ ∧ UsesNew r at_ last cur σ

theorem executeRule_tables (src : Source α) (cur last : Nat) (r : NRule α) (cfg : RuleCfg) (next : Nat) :
    (∀ t ∈ (executeRule src cur last r cfg next).1, t.2 ≠ [] ∧ t.2.Nodup) := by
  intro t ht
  unfold executeRule at ht
  simp only at ht
  split at ht
  · simp at ht
  · simp only [List.mem_filter] at ht
    obtain ⟨h1, h2⟩ := ht
    refine ⟨by simpa using h2, ?_⟩
    split at h1
    · rcases List.mem_append.1 h1 with h1 | h1
      · obtain ⟨p, -, rfl⟩ := List.mem_map.1 h1
        exact List.nodup_dedup _
      · simp only [List.mem_singleton] at h1; subst h1; exact List.nodup_dedup _
    · obtain ⟨p, -, rfl⟩ := List.mem_map.1 h1
      exact List.nodup_dedup _

theorem executeRule_keys (src : Source α) (cur last : Nat) (r : NRule α) (hex : r.isExistential = false)
    (cfg : RuleCfg) (next : Nat) :
    ((executeRule src cur last r cfg next).1.map (·.1)).Nodup ∧
    (∀ t ∈ (executeRule src cur last r cfg next).1, t.1 ∈ r.predsHead) ∧
    (executeRule src cur last r cfg next).2 = next := by
  unfold executeRule
  simp only [hex, Bool.false_eq_true, if_false]
  split
  · simp
  · simp only
    refine ⟨?_, ?_, trivial⟩
    · refine List.Nodup.sublist (List.filter_sublist.map _) ?_
      rw [List.map_map]
      refine (List.map_id'' (fun _ => rfl) _).symm ▸ List.nodup_dedup _
    · intro t ht
      obtain ⟨p, hp, rfl⟩ := List.mem_map.1 (List.mem_filter.1 ht).1
      simpa [NRule.predsHead] using hp

/-- **A rule application computes exactly the new consequences.** -/
theorem executeRule_spec {src : Source α} {at_ : Tag → Nat → List α → Prop} {arity : Tag → Nat} {cur last : Nat}
    (h : SrcOK src at_ arity cur) (hl : last < cur) (r : NRule α) (hr : RuleOK r arity) (hh : HeadOK r arity)
    (hex : r.isExistential = false) (cfg : RuleCfg) (next : Nat) (p : Tag) (row : List α) :
    InTables (executeRule src cur last r cfg next).1 p row ↔
      DerivesWith r (NewMatch r at_ last cur) p row ∧ ¬ Before at_ cur p row := by
  obtain ⟨bw, bc, bh, bo⟩ := evalBody_spec h hl r hr
  set body := evalBody src cur last r with hbody
  have bh' : ∀ σ, body.1.Holds σ ↔ NewMatch r at_ last cur σ := bh
  have bo' : ∀ o, o ∈ body.2 ↔ r.Remaining o := bo
  have agg_body : ∀ a σ, AggHolds r a (NewMatch r at_ last cur) σ → ∃ τ, body.1.Holds τ := by
    rintro a σ ⟨⟨τ, l, h1, -⟩, -⟩; exact ⟨τ, (bh' τ).2 h1⟩
  unfold executeRule InTables
  rw [← hbody]
  simp only [hex, Bool.false_eq_true, if_false]
  by_cases he : body.1.rows.isEmpty
  · rw [if_pos he]
    rw [List.isEmpty_iff, bw.rows_empty] at he
    constructor
    · rintro ⟨t, ht, -⟩; simp at ht
    · rintro ⟨hd, -⟩
      exfalso
      cases hd with
      | plain hB _ _ => exact he _ ((bh' _).2 hB)
      | agg hA _ _ => obtain ⟨τ, hτ⟩ := agg_body _ _ hA; exact he τ hτ
  · rw [if_neg he]
    set agg : Rel α := (r.aggregation.map fun a => evalAggregation body.1 a.1 body.2).getD ⟨[], []⟩ with hagg
    -- the rows of one head atom
    have key : ∀ (i : Nat) (hd : HeadAtom α), r.head[i]? = some hd →
        (row ∈ headAtomRows src cur r body.1 agg ⟨[], []⟩ i hd ↔
        ((∃ σ, NewMatch r at_ last cur σ ∧ row = hd.inst σ ∧ ∀ a k, r.aggregation = some (a, k) → k ≠ i) ∨
         (∃ σ a, AggHolds r a (NewMatch r at_ last cur) σ ∧ r.aggregation = some (a, i) ∧ row = hd.inst σ)) ∧
        ¬ Before at_ cur hd.pred row) := by
      intro i hd hi
      obtain ⟨e1, e2⟩ := not_isExistential hex (List.mem_of_getElem? hi)
      unfold headAtomRows
      split
      · rename_i hc
        rw [Option.map_eq_some_iff] at hc
        obtain ⟨⟨a, k⟩, hak, hk⟩ := hc
        simp only at hk; subst hk
        have hagg' : agg = evalAggregation body.1 a body.2 := by rw [hagg, hak]; rfl
        obtain ⟨aw, ac, ah⟩ := evalAggregation_spec r a (hh.agg a k hak) body.1 bw bc body.2 bo'
        rw [mem_genDuplicates h, hagg', mem_headRows hd _ aw (fun v hv => (ac v).2 (hh.aggSafe a k hd hak hi v hv))]
        refine and_congr_left fun _ => ?_
        constructor
        · rintro ⟨σ, h1, rfl⟩
          exact Or.inr ⟨σ, a, (AggHolds.congr bh' σ).1 ((ah σ).1 h1), hak, rfl⟩
        · rintro (⟨σ, -, -, h3⟩ | ⟨σ, a', h1, h2, rfl⟩)
          · exact absurd rfl (h3 a k hak)
          · rw [hak] at h2; cases h2
            exact ⟨σ, (ah σ).2 ((AggHolds.congr bh' σ).2 h1), rfl⟩
      · rename_i hc
        have hna : ∀ a k, r.aggregation = some (a, k) → k ≠ i := by
          rintro a k hak rfl; exact hc (by rw [hak]; rfl)
        rw [if_neg (by simp [e1]), mem_genDuplicates h,
          mem_headRows hd _ bw (fun v hv => (bc v).2 (hh.headSafe i hd hi hna v hv (e2 v hv)))]
        refine and_congr_left fun _ => ?_
        constructor
        · rintro ⟨σ, h1, rfl⟩; exact Or.inl ⟨σ, (bh' σ).1 h1, rfl, hna⟩
        · rintro (⟨σ, h1, rfl, -⟩ | ⟨σ, a, -, h2, -⟩)
          · exact ⟨σ, (bh' σ).2 h1, rfl⟩
          · exact absurd rfl (hna a i h2)
    simp only [List.mem_filter, List.mem_map, Prod.mk.injEq]
    constructor
    · rintro ⟨t, ⟨⟨q, hq, rfl, rfl⟩, -⟩, hrow⟩
      rw [List.mem_dedup, List.mem_flatMap] at hrow
      obtain ⟨⟨hd, i⟩, hm, hrow⟩ := hrow
      rw [List.mem_zipIdx_iff_getElem?] at hm
      simp only at hrow
      split at hrow
      · rename_i hp
        rw [key i hd hm] at hrow
        obtain ⟨hor, hnb⟩ := hrow
        subst hp
        refine ⟨?_, hnb⟩
        rcases hor with ⟨σ, h1, rfl, h3⟩ | ⟨σ, a, h1, h2, rfl⟩
        · exact .plain h1 hm h3
        · exact .agg h1 h2 hm
      · simp at hrow
    · rintro ⟨hd, hnb⟩
      have fin : ∀ (i : Nat) (h : HeadAtom α), r.head[i]? = some h → p = h.pred →
          row ∈ headAtomRows src cur r body.1 agg ⟨[], []⟩ i h → ∃ t,
          ((∃ a ∈ (List.map (fun x => x.pred) r.head).dedup, a = p ∧ (List.flatMap
            (fun x => if x.1.pred = a then headAtomRows src cur r body.1 agg ⟨[], []⟩ x.2 x.1 else [])
            r.head.zipIdx).dedup = t) ∧ (!t.isEmpty) = true) ∧ row ∈ t := by
        rintro i h hi rfl hrow
        refine ⟨_, ⟨⟨h.pred, ?_, rfl, rfl⟩, ?_⟩, ?_⟩
        · rw [List.mem_dedup]; exact List.mem_map.2 ⟨h, List.mem_of_getElem? hi, rfl⟩
        swap
        · rw [List.mem_dedup, List.mem_flatMap]
          exact ⟨(h, i), List.mem_zipIdx_iff_getElem?.2 hi, by simpa using hrow⟩
        · rw [Bool.not_eq_true', List.isEmpty_eq_false_iff]
          intro hnil
          have : row ∈ (List.flatMap
            (fun x => if x.1.pred = h.pred then headAtomRows src cur r body.1 agg ⟨[], []⟩ x.2 x.1 else [])
            r.head.zipIdx).dedup := by
            rw [List.mem_dedup, List.mem_flatMap]
            exact ⟨(h, i), List.mem_zipIdx_iff_getElem?.2 hi, by simpa using hrow⟩
          rw [hnil] at this; simp at this
      cases hd with
      | @plain σ h i hB hi hna => exact fin i h hi rfl ((key i h hi).2 ⟨Or.inl ⟨σ, hB, rfl, hna⟩, hnb⟩)
      | @agg σ h i a hA ha hi => exact fin i h hi rfl ((key i h hi).2 ⟨Or.inr ⟨σ, a, hA, ha, rfl⟩, hnb⟩)

theorem DerivesWith.arity {r : NRule α} {B : (Variable → α) → Prop} {arity : Tag → Nat} (hh : HeadOK r arity)
    {p : Tag} {row : List α} (h : DerivesWith r B p row) : row.length = arity p ∧ p ∈ r.predsHead := by
  cases h with
  | plain _ hi _ =>
    have := List.mem_of_getElem? hi
    exact ⟨by simp [HeadAtom.inst, hh.headArity _ this], List.mem_map.2 ⟨_, this, rfl⟩⟩
  | agg _ _ hi =>
    have := List.mem_of_getElem? hi
    exact ⟨by simp [HeadAtom.inst, hh.headArity _ this], List.mem_map.2 ⟨_, this, rfl⟩⟩

end Verif
