import Verif.PropMergeSparql
import Verif.PropFlatten
import Verif.PropIncrementalMore

/-!
# Merging the SPARQL imports of a rule does not change what it derives (C60)
-/

set_option linter.unusedSimpArgs false
set_option linter.unusedSectionVars false

namespace Verif.Sq
open Verif Verif.Inc
variable {α : Type} [DecidableEq α] [Dom α]

/-! ## Constants -/

theorem eqOf_assignment {o : Operation α} {v : Variable} {a : α} (h : eqOf o = some (v, a)) : o.variableAssignment = some (v, .const a) := by
  unfold eqOf at h
  split at h
  · simp only [Option.some.injEq, Prod.mk.injEq] at h
    obtain ⟨rfl, rfl⟩ := h
    rfl
  · simp only [Option.some.injEq, Prod.mk.injEq] at h
    obtain ⟨rfl, rfl⟩ := h
    rfl
  · cases h

theorem lookup_mem {A B : Type} [DecidableEq A] {l : List (A × B)} {x : A} {b : B} (h : l.lookup x = some b) : (x, b) ∈ l := by
  induction l with
  | nil => cases h
  | cons y l ih =>
    rw [List.lookup_cons] at h
    by_cases hy : x = y.1
    · rw [show (x == y.1) = true by simpa using hy] at h
      cases h
      rw [hy]
      exact List.mem_cons_self
    · rw [show (x == y.1) = false by simpa using hy] at h
      exact List.mem_cons_of_mem _ (ih h)

theorem equalities_spec {r : WRule α} {v : Variable} {a : α} (h : (equalities r).lookup v = some a) :
    ∃ o ∈ r.toS.operations, o.variableAssignment = some (v, .const a) := by
  have h1 := lookup_mem h
  rw [equalities, List.mem_reverse, List.mem_filterMap] at h1
  obtain ⟨o, ho, he⟩ := h1
  exact ⟨o, ho, eqOf_assignment he⟩

/-- Variables that are equal to a constant are safe, and have this value. -/
theorem safe_of_constant {S : SRule α} {r : WRule α} (hS : S.operations = r.toS.operations) {v : Variable} {a : α}
    (h : (equalities r).lookup v = some a) : SSafe S v := by
  obtain ⟨o, ho, hv⟩ := equalities_spec h
  exact .assign (hS ▸ ho) hv fun w hw => by cases hw

theorem value_of_constant {S : SRule α} {r : WRule α} (hS : S.operations = r.toS.operations) {P N : Interp α} {σ : Variable → α}
    (hb : SBody S P N σ) {v : Variable} {a : α} (h : (equalities r).lookup v = some a) : σ v = a := by
  obtain ⟨o, ho, hv⟩ := equalities_spec h
  have h1 := hb.ops o (hS ▸ ho) fun w hw => by
    rcases (Operation.vars_assignment hv w).1 hw with rfl | hw
    · exact safe_of_constant hS h
    · cases hw
  exact (Option.some.inj ((Operation.eval_assignment hv).1 h1)).symm

/-! ## Rules -/

/-- Conditions on a rule that is changed: all import clauses are positive; the predicates of import clauses do not occur in other literals of
the body; clauses for the same predicate have the same query; the clauses can be merged. -/
structure RuleMergeable (W : Web α) (r : QRule α) : Prop where
  nonempty : r.clauses ≠ []
  positive : ∀ c ∈ r.clauses, c.positive = true
  other : ∀ a ∈ r.base.toS.positive ++ r.base.toS.negative, ∀ c ∈ r.clauses, c.pred ≠ a.pred
  same : ∀ c ∈ r.clauses, ∀ d ∈ r.clauses, c.pred = d.pred → c.query.pattern = d.query.pattern
  clauses : ClausesOK W (equalities r.base) r.clauses

theorem matches_vars {σ : Variable → α} {vs : List Variable} {row : List α} :
    List.Forall₂ (BTerm.Matches σ) (vs.map (BTerm.var : Variable → BTerm α)) row ↔ row = vs.map σ := by
  induction vs generalizing row with
  | nil => simp
  | cons v vs ih =>
    rw [List.map_cons, List.map_cons]
    constructor
    · intro h
      cases h with
      | cons h1 h2 => rw [ih.1 h2]; exact congrArg (· :: _) (show σ v = _ from h1).symm
    · rintro rfl
      exact .cons rfl (ih.2 rfl)

section rule
variable {W : Web α} {u : α} {r : QRule α}

theorem load_other {I : Interp α} {p : Tag} (h : ∀ c ∈ r.clauses, c.pred ≠ p) : r.load W u I p = I p := by
  funext row
  refine propext ⟨?_, fun h1 => .inr ⟨h, h1⟩⟩
  rintro (⟨c, hc, h1, -⟩ | h1)
  · exact absurd h1 (h c hc)
  · exact h1.2

theorem load_clause {I : Interp α} (hs : ∀ c ∈ r.clauses, ∀ d ∈ r.clauses, c.pred = d.pred → c.query.pattern = d.query.pattern)
    (he : ∀ c ∈ r.clauses, ∀ d ∈ r.clauses, c.endpoint = d.endpoint) {c : QClause α} (hc : c ∈ r.clauses) (row : List α) :
    r.load W u I c.pred row ↔ Rows (W c.endpoint) u c.query.pattern row := by
  constructor
  · rintro (⟨d, hd, h1, h2⟩ | h1)
    · rwa [← hs d hd c hc h1, he c hc d hd]
    · exact absurd rfl (h1.1 c hc)
  · exact fun h => .inl ⟨c, hc, rfl, h⟩

/-- What the positive literals of a rule with import clauses mean -/
theorem positive_iff {I : Interp α} {S : SRule α} (hp : S.positive = r.base.toS.positive ++ r.clauses.map QClause.toAtom)
    (ho : ∀ a ∈ r.base.toS.positive, ∀ c ∈ r.clauses, c.pred ≠ a.pred)
    (hs : ∀ c ∈ r.clauses, ∀ d ∈ r.clauses, c.pred = d.pred → c.query.pattern = d.query.pattern)
    (he : ∀ c ∈ r.clauses, ∀ d ∈ r.clauses, c.endpoint = d.endpoint) (σ : Variable → α) :
    (∀ a ∈ S.positive, ∃ row, r.load W u I a.pred row ∧ a.Matches σ row) ↔
      (∀ a ∈ r.base.toS.positive, ∃ row, I a.pred row ∧ a.Matches σ row) ∧ ∀ c ∈ r.clauses, Holds W u c σ := by
  rw [hp]
  constructor
  · refine fun h => ⟨fun a ha => ?_, fun c hc => ?_⟩
    · have := h a (List.mem_append_left _ ha)
      rwa [load_other (ho a ha)] at this
    · obtain ⟨row, h1, h2⟩ := h c.toAtom (List.mem_append_right _ (List.mem_map_of_mem hc))
      have h1' := (load_clause hs he hc row).1 h1
      have h2' : row = c.vars.map σ := matches_vars.1 h2
      rwa [h2'] at h1'
  · rintro ⟨h1, h2⟩ a ha
    rcases List.mem_append.1 ha with ha | ha
    · obtain ⟨row, h3, h4⟩ := h1 a ha
      exact ⟨row, by rwa [load_other (ho a ha)], h4⟩
    · obtain ⟨c, hc, rfl⟩ := List.mem_map.1 ha
      exact ⟨c.vars.map σ, (load_clause hs he hc _).2 (h2 c hc), matches_vars.2 rfl⟩

theorem filter_positive (h : ∀ c ∈ r.clauses, c.positive = true) : r.clauses.filter (·.positive) = r.clauses ∧
    (r.clauses.filter fun c => !c.positive) = [] :=
  ⟨List.filter_eq_self.2 h, List.filter_eq_nil_iff.2 fun c hc => by simp [h c hc]⟩

theorem toS_positive (h : ∀ c ∈ r.clauses, c.positive = true) : r.toS.positive = r.base.toS.positive ++ r.clauses.map QClause.toAtom := by
  rw [QRule.toS, (filter_positive h).1]

theorem toS_negative (h : ∀ c ∈ r.clauses, c.positive = true) : r.toS.negative = r.base.toS.negative := by
  rw [QRule.toS, (filter_positive h).2]
  exact List.append_nil _

/-- The rule where the import clauses are replaced by the merged clause derives the same facts. -/
theorem merged_derives (hr : RuleMergeable W r) {c : QClause α} (hm : Merged W u (equalities r.base) r.clauses c) (P N : Interp α) (p : Tag) (row : List α) :
    QDerives W u ⟨r.base, [c]⟩ P N p row ↔ QDerives W u r P N p row := by
  set r' : QRule α := ⟨r.base, [c]⟩ with hr'
  have hcpos : c.positive = true := by
    obtain ⟨d, hd, h⟩ := hm.positive
    rw [h, hr.positive d hd]
  have hpos' : ∀ x ∈ r'.clauses, x.positive = true := by
    intro x hx
    rw [List.mem_singleton.1 hx, hcpos]
  obtain ⟨d0, hd0, hd0p⟩ := hm.pred
  have ho' : ∀ a ∈ r'.base.toS.positive ++ r'.base.toS.negative, ∀ x ∈ r'.clauses, x.pred ≠ a.pred := by
    intro a ha x hx
    rw [List.mem_singleton.1 hx, hd0p]
    exact hr.other a ha d0 hd0
  have hp := toS_positive hr.positive
  have hp' := toS_positive hpos'
  have hn := toS_negative hr.positive
  have hn' := toS_negative hpos'
  have hS : r.toS.operations = r.base.toS.operations := rfl
  have hS' : r'.toS.operations = r.base.toS.operations := rfl
  have hsafe : ∀ v, SSafe r'.toS v ↔ SSafe r.toS v := by
    intro v
    constructor
    · intro h
      induction h with
      | @atom a v ha hv =>
        rw [hp'] at ha
        rcases List.mem_append.1 ha with ha | ha
        · exact .atom (hp ▸ List.mem_append_left _ ha) hv
        · obtain ⟨x, hx, rfl⟩ := List.mem_map.1 ha
          rw [List.mem_singleton.1 hx] at hv
          obtain ⟨w, hw, hwv⟩ := List.mem_map.1 (show BTerm.var v ∈ c.vars.map BTerm.var from hv)
          cases hwv
          obtain ⟨⟨d, hd, hvd⟩, -⟩ := (hm.vars v).1 hw
          exact .atom (a := d.toAtom) (hp ▸ List.mem_append_right _ (List.mem_map_of_mem hd)) (List.mem_map_of_mem hvd)
      | assign h1 h2 _ ih => exact .assign h1 h2 ih
    · intro h
      induction h with
      | @atom a v ha hv =>
        rw [hp] at ha
        rcases List.mem_append.1 ha with ha | ha
        · exact .atom (hp' ▸ List.mem_append_left _ ha) hv
        · obtain ⟨d, hd, rfl⟩ := List.mem_map.1 ha
          obtain ⟨w, hw, hwv⟩ := List.mem_map.1 (show BTerm.var v ∈ d.vars.map BTerm.var from hv)
          cases hwv
          cases he : (equalities r.base).lookup v with
          | some b => exact safe_of_constant hS' he
          | none =>
            exact .atom (a := c.toAtom) (hp' ▸ List.mem_append_right _ (List.mem_map_of_mem List.mem_cons_self))
              (List.mem_map_of_mem ((hm.vars v).2 ⟨⟨d, hd, hw⟩, he⟩))
      | assign h1 h2 _ ih => exact .assign h1 h2 ih
  have hP := fun σ => positive_iff (W := W) (u := u) (I := P) hp (fun a ha => hr.other a (List.mem_append_left _ ha)) hr.same hr.clauses.endpoint σ
  have hP' := fun (J : Interp α) σ => positive_iff (r := r') (W := W) (u := u) (I := J) hp' (fun a ha => ho' a (List.mem_append_left _ ha))
    (fun x hx y hy _ => by rw [List.mem_singleton.1 hx, List.mem_singleton.1 hy])
    (fun x hx y hy => by rw [List.mem_singleton.1 hx, List.mem_singleton.1 hy]) σ
  have hP := fun (J : Interp α) σ => positive_iff (W := W) (u := u) (I := J) hp (fun a ha => hr.other a (List.mem_append_left _ ha)) hr.same hr.clauses.endpoint σ
  have hdef : ∀ σ, TermsDefined r'.toS σ ↔ TermsDefined r.toS σ := fun σ =>
    ⟨fun h => ⟨hn ▸ hn' ▸ h.neg, h.head, h.agg⟩, fun h => ⟨hn' ▸ hn ▸ h.neg, h.head, h.agg⟩⟩
  have key : ∀ (J : Interp α) σ, SBody r'.toS (r'.load W u J) (r'.load W u N) σ ↔ SBody r.toS (r.load W u J) (r.load W u N) σ := by
    intro J σ
    have hneg : ∀ {s s' : QRule α}, (s.toS.negative = r.base.toS.negative) → (s'.toS.negative = r.base.toS.negative) → s.toS.operations = s'.toS.operations →
        (∀ v, SSafe s.toS v ↔ SSafe s'.toS v) → (∀ a ∈ r.base.toS.negative, ∀ x ∈ s.clauses, x.pred ≠ a.pred) →
        (∀ a ∈ r.base.toS.negative, ∀ x ∈ s'.clauses, x.pred ≠ a.pred) →
        (∀ a ∈ s.toS.negative, ¬ ∃ (τ : Variable → α) (row : List α), (∀ v, SSafe s.toS v → τ v = σ v) ∧ s.load W u N a.pred row ∧
          a.Matches τ row ∧ ∀ o ∈ s.toS.operations, (∀ v ∈ o.vars, SSafe s.toS v ∨ .var v ∈ a.terms) → o.eval τ = some Dom.tru) →
        (∀ a ∈ s'.toS.negative, ¬ ∃ (τ : Variable → α) (row : List α), (∀ v, SSafe s'.toS v → τ v = σ v) ∧ s'.load W u N a.pred row ∧
          a.Matches τ row ∧ ∀ o ∈ s'.toS.operations, (∀ v ∈ o.vars, SSafe s'.toS v ∨ .var v ∈ a.terms) → o.eval τ = some Dom.tru) := by
      intro s s' h1 h2 h3 h4 h5 h6 h a ha
      rw [h2] at ha
      have h7 := h a (h1 ▸ ha)
      rw [load_other (h5 a ha)] at h7
      rw [load_other (h6 a ha)]
      simpa only [h3, h4] using h7
    have hno : ∀ a ∈ r.base.toS.negative, ∀ x ∈ r.clauses, x.pred ≠ a.pred := fun a ha => hr.other a (List.mem_append_right _ ha)
    have hno' : ∀ a ∈ r.base.toS.negative, ∀ x ∈ r'.clauses, x.pred ≠ a.pred := fun a ha => ho' a (List.mem_append_right _ ha)
    constructor
    · intro hb
      have hσ : ∀ v a, (equalities r.base).lookup v = some a → σ v = a := fun v a h => value_of_constant hS' hb h
      refine ⟨(hP J σ).2 ⟨((hP' J σ).1 hb.pos).1, (hm.rows σ hσ).1 (((hP' J σ).1 hb.pos).2 c List.mem_cons_self)⟩, fun o ho h => ?_,
        hneg hn' hn rfl hsafe hno' hno hb.neg, (hdef σ).1 hb.defined⟩
      exact hb.ops o ho fun v hv => (hsafe v).2 (h v hv)
    · intro hb
      have hσ : ∀ v a, (equalities r.base).lookup v = some a → σ v = a := fun v a h => value_of_constant hS hb h
      refine ⟨(hP' J σ).2 ⟨((hP J σ).1 hb.pos).1, fun x hx => ?_⟩, fun o ho h => ?_,
        hneg hn hn' rfl (fun v => (hsafe v).symm) hno hno' hb.neg, (hdef σ).2 hb.defined⟩
      · rw [List.mem_singleton.1 hx]
        exact (hm.rows σ hσ).2 ((hP J σ).1 hb.pos).2
      · exact hb.ops o ho fun v hv => (hsafe v).1 (h v hv)
  have hd : ∀ J : Interp α, SDerivesWith r'.toS (SBody r'.toS (r'.load W u J) (r'.load W u N)) p row ↔
      SDerivesWith r.toS (SBody r.toS (r.load W u J) (r.load W u N)) p row := fun J =>
    derivesWith_congr (S := r.toS) (S' := r'.toS) rfl (fun σ h => (key J σ).1 h) (fun σ h => ⟨σ, fun _ _ _ _ => rfl, (key J σ).2 h⟩) p row
  exact or_congr (and_congr Iff.rfl (hd P)) (and_congr Iff.rfl (hd N))

/-- What the transformation does with a rule -/
theorem mergeRule_derives {order : Pat α → List SVar} (ho : Enumerates order) {inel : List Tag} {r : QRule α} (hr : RuleMergeable W r)
    (hinc : ∀ c, mergeAndPush order (equalities r.base) r.clauses = some (some c) → stillIncremental r.base c = true) :
    ∃ r', mergeRule order inel r = some ([], r') ∧ ∀ (P N : Interp α) (p : Tag) (row : List α), QDerives W u r' P N p row ↔ QDerives W u r P N p row := by
  rw [mergeRule]
  split
  · exact ⟨r, rfl, fun _ _ _ _ => Iff.rfl⟩
  · obtain ⟨c, h1, h2⟩ := mergeAndPush_ok (u := u) ho hr.nonempty hr.clauses
    rw [(filter_positive hr.positive).1, (filter_positive hr.positive).2, h1]
    refine ⟨⟨r.base, [c]⟩, ?_, merged_derives hr h2⟩
    simp only [mergeAndPush, updateImport, hinc c h1, if_true]

end rule

/-! ## Programs -/

section program
variable {W : Web α} {u : α}

/-- Conditions on the rules of a program: rules that are changed have only positive import clauses that can be merged, and are still
incremental. -/
def ProgramMergeable (order : Pat α → List SVar) (W : Web α) (ss : List (QStmt α)) : Prop :=
  ∀ r, QStmt.rule r ∈ ss → r.clauses = [] ∨ (∃ h ∈ r.base.head, h.pred ∈ ineligible ss) ∨
    RuleMergeable W r ∧ ∀ c, mergeAndPush order (equalities r.base) r.clauses = some (some c) → stillIncremental r.base c = true

theorem mergeRule_keep {order : Pat α → List SVar} {inel : List Tag} {r : QRule α} (h : r.clauses = [] ∨ ∃ h ∈ r.base.head, h.pred ∈ inel) :
    mergeRule order inel r = some ([], r) := by
  rw [mergeRule, if_pos]
  rcases h with h | ⟨x, h1, h2⟩
  · simp [h]
  · rw [Bool.or_eq_true]
    exact .inl (List.any_eq_true.2 ⟨x, h1, by simpa using h2⟩)

/-- The relation between the statements before and after the transformation -/
inductive SameStmt (W : Web α) (u : α) : QStmt α → QStmt α → Prop
  | rule {r r' : QRule α} (h : ∀ (P N : Interp α) (p : Tag) (row : List α), QDerives W u r' P N p row ↔ QDerives W u r P N p row)
      (hh : r'.base.head = r.base.head) : SameStmt W u (.rule r) (.rule r')
  | refl (s : QStmt α) : SameStmt W u s s

theorem mergeRule_head {order : Pat α → List SVar} {inel : List Tag} {r r' : QRule α} {l : List (QDirective α)}
    (h : mergeRule order inel r = some (l, r')) : r'.base.head = r.base.head := by
  unfold mergeRule at h
  split at h
  · cases h; rfl
  · split at h
    · unfold updateImport at h
      split at h
      · cases h; rfl
      · split at h
        · split at h
          · cases h
          · split at h <;> (cases h; rfl)
          · split at h <;> (cases h; rfl)
        · split at h <;> (cases h; rfl)
    · cases h

theorem mergeStmts_other {order : Pat α → List SVar} {inel : List Tag} {s : QStmt α} {ss : List (QStmt α)} (h : ∀ r, s ≠ .rule r) :
    mergeStmts order inel (s :: ss) = (mergeStmts order inel ss).map (s :: ·) := by
  cases s with
  | rule r => exact absurd rfl (h r)
  | fact _ _ => rfl
  | imp _ => rfl
  | other => rfl

theorem mergeStmts_same {order : Pat α → List SVar} {inel : List Tag} {ss : List (QStmt α)}
    (h : ∀ r, QStmt.rule r ∈ ss → ∃ r', mergeRule order inel r = some ([], r') ∧
      ∀ (P N : Interp α) (p : Tag) (row : List α), QDerives W u r' P N p row ↔ QDerives W u r P N p row) :
    ∃ ts, mergeStmts order inel ss = some ts ∧ List.Forall₂ (SameStmt W u) ss ts := by
  induction ss with
  | nil => exact ⟨[], rfl, .nil⟩
  | cons s ss ih =>
    obtain ⟨ts, h1, h2⟩ := ih fun r hr => h r (List.mem_cons_of_mem _ hr)
    cases s with
    | rule r =>
      obtain ⟨r', h3, h4⟩ := h r List.mem_cons_self
      refine ⟨.rule r' :: ts, ?_, .cons (.rule h4 (mergeRule_head h3)) h2⟩
      rw [mergeStmts, h3, h1]
      rfl
    | fact p row => exact ⟨_ :: ts, (mergeStmts_other (by simp)).trans (by rw [h1]; rfl), .cons (.refl _) h2⟩
    | imp d => exact ⟨_ :: ts, (mergeStmts_other (by simp)).trans (by rw [h1]; rfl), .cons (.refl _) h2⟩
    | other => exact ⟨_ :: ts, (mergeStmts_other (by simp)).trans (by rw [h1]; rfl), .cons (.refl _) h2⟩

theorem same_given {ss ts : List (QStmt α)} (h : List.Forall₂ (SameStmt W u) ss ts) : qgiven W u ts = qgiven W u ss := by
  have hm : (∀ p row, QStmt.fact p row ∈ ts ↔ QStmt.fact p row ∈ ss) ∧ ∀ d, QStmt.imp d ∈ ts ↔ QStmt.imp d ∈ ss := by
    induction h with
    | nil => simp
    | cons h1 _ ih =>
      cases h1 with
      | rule _ _ => simpa using ih
      | refl s => exact ⟨fun p row => by simp [ih.1], fun d => by simp [ih.2]⟩
  funext p row
  simp only [qgiven, hm.1, hm.2]

theorem same_closed {ss ts : List (QStmt α)} (h : List.Forall₂ (SameStmt W u) ss ts) (edb N I : Interp α) :
    QClosedUnder W u (qrules ts) edb N I ↔ QClosedUnder W u (qrules ss) edb N I := by
  refine and_congr Iff.rfl ?_
  induction h with
  | nil => exact Iff.rfl
  | @cons s0 t0 _ _ h1 _ ih =>
    cases h1 with
    | @rule r r' h _ =>
      have e1 : ∀ l : List (QStmt α), qrules (.rule r :: l) = r :: qrules l := fun _ => rfl
      have e2 : ∀ l : List (QStmt α), qrules (.rule r' :: l) = r' :: qrules l := fun _ => rfl
      rw [e1, e2, List.forall_mem_cons, List.forall_mem_cons]
      exact and_congr ⟨fun hc p row hd => hc p row ((h _ _ p row).2 hd), fun hc p row hd => hc p row ((h _ _ p row).1 hd)⟩ ih
    | refl =>
      cases s0 with
      | rule r =>
        have e1 : ∀ l : List (QStmt α), qrules (.rule r :: l) = r :: qrules l := fun _ => rfl
        rw [e1, e1, List.forall_mem_cons, List.forall_mem_cons]
        exact and_congr Iff.rfl ih
      | fact p row => exact ih
      | imp d => exact ih
      | other => exact ih

/-- **Merging the SPARQL imports does not change the result of a program**, for programs whose changed rules have only positive import clauses. -/
theorem merge_stable_partial {order : Pat α → List SVar} (ho : Enumerates order) {ss : List (QStmt α)} (h : ProgramMergeable order W ss) :
    ∃ ts, mergeProgram order ss = some ts ∧ ∀ M : Interp α, QIsStable W u (qrules ts) (qgiven W u ts) M ↔ QIsStable W u (qrules ss) (qgiven W u ss) M := by
  obtain ⟨ts, h1, h2⟩ := mergeStmts_same (W := W) (u := u) (order := order) (inel := ineligible ss) (ss := ss) fun r hr => by
    rcases h r hr with h3 | h3 | ⟨h3, h4⟩
    · exact ⟨r, mergeRule_keep (.inl h3), fun _ _ _ _ => Iff.rfl⟩
    · exact ⟨r, mergeRule_keep (.inr h3), fun _ _ _ _ => Iff.rfl⟩
    · exact mergeRule_derives ho h3 h4
  refine ⟨ts, h1, fun M => ?_⟩
  unfold QIsStable QLeastModel
  simp only [same_given h2, same_closed h2]

end program
end Verif.Sq
