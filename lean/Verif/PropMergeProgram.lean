import Verif.PropMergeImport

/-!
# Merging SPARQL imports does not change the result of a program (C60)

All rules with positive import clauses, including those whose import is not incremental any more.
-/

set_option linter.unusedSimpArgs false
set_option linter.unusedSectionVars false

namespace Verif.Sq
open Verif Verif.Inc
variable {α : Type} [DecidableEq α] [Dom α]

/-- Conditions on a program: the changed rules have only positive import clauses, which can be merged; if such a rule is not incremental
afterwards, the variables for which there are constants do not occur elsewhere; the predicates of import clauses are private. -/
structure ImportsMergeable (order : Pat α → List SVar) (W : Web α) (ss : List (QStmt α)) : Prop where
  rules : ∀ r, QStmt.rule r ∈ ss → r.clauses = [] ∨ (∃ h ∈ r.base.head, h.pred ∈ ineligible ss) ∨
    RuleMergeable W r ∧ ∀ c, mergeAndPush order (equalities r.base) r.clauses = some (some c) → stillIncremental r.base c = true ∨ ConstantsLocal r.base
  facts : ∀ r, QStmt.rule r ∈ ss → ∀ c ∈ r.clauses, ∀ row, QStmt.fact c.pred row ∉ ss
  imports : ∀ r, QStmt.rule r ∈ ss → ∀ c ∈ r.clauses, ∀ d : QDirective α, QStmt.imp d ∈ ss → d.pred ≠ c.pred
  heads : ∀ r, QStmt.rule r ∈ ss → ∀ c ∈ r.clauses, ∀ r', QStmt.rule r' ∈ ss → ∀ h ∈ r'.base.head, h.pred ≠ c.pred
  bodies : ∀ r, QStmt.rule r ∈ ss → ∀ c ∈ r.clauses, ∀ r', QStmt.rule r' ∈ ss → ∀ a ∈ r'.base.toS.positive ++ r'.base.toS.negative, a.pred ≠ c.pred
  distinct : ∀ r, QStmt.rule r ∈ ss → ∀ c ∈ r.clauses, ∀ r', QStmt.rule r' ∈ ss → ∀ c' ∈ r'.clauses, c.pred = c'.pred → r = r'

/-! ## Rules -/

theorem sbody_congr {S : SRule α} {P P' N N' : Interp α} (hp : ∀ a ∈ S.positive, P a.pred = P' a.pred) (hn : ∀ a ∈ S.negative, N a.pred = N' a.pred) :
    SBody S P N = SBody S P' N' := by
  funext σ
  refine propext ⟨fun h => ⟨fun a ha => ?_, h.ops, fun a ha => ?_, h.defined⟩, fun h => ⟨fun a ha => ?_, h.ops, fun a ha => ?_, h.defined⟩⟩
  · rw [← hp a ha]; exact h.pos a ha
  · rw [← hn a ha]; exact h.neg a ha
  · rw [hp a ha]; exact h.pos a ha
  · rw [hn a ha]; exact h.neg a ha

/-- What a rule derives depends only on the predicates in its body. -/
theorem sderives_body_congr {S : SRule α} {P P' N N' : Interp α} (hp : ∀ a ∈ S.positive, P a.pred = P' a.pred)
    (hp' : ∀ a ∈ S.positive, N a.pred = N' a.pred) (hn : ∀ a ∈ S.negative, N a.pred = N' a.pred) : SDerives S P N = SDerives S P' N' := by
  unfold SDerives
  rw [sbody_congr hp hn, sbody_congr hp' hn]

section rule
variable {W : Web α} {u : α}

theorem load_mono (r : QRule α) {P Q : Interp α} (h : P.le Q) : (r.load W u P).le (r.load W u Q) := by
  rintro p row (h1 | ⟨h1, h2⟩)
  · exact .inl h1
  · exact .inr ⟨h1, h p row h2⟩

theorem qderives_mono {r : QRule α} {P Q N : Interp α} (h : P.le Q) {p : Tag} {row : List α} (hd : QDerives W u r P N p row) : QDerives W u r Q N p row :=
  sderives_mono (load_mono r h) hd

theorem qderives_head {r : QRule α} {P N : Interp α} {p : Tag} {row : List α} (hd : QDerives W u r P N p row) : ∃ h ∈ r.base.head, h.pred = p :=
  sderives_head hd

theorem qderives_congr {r : QRule α} {P P' N N' : Interp α} (h : ∀ a ∈ r.base.toS.positive ++ r.base.toS.negative, P a.pred = P' a.pred ∧ N a.pred = N' a.pred) :
    QDerives W u r P N = QDerives W u r P' N' := by
  have hl : ∀ {J J' : Interp α} {p : Tag}, J p = J' p → r.load W u J p = r.load W u J' p := by
    intro J J' p h
    funext row
    simp only [QRule.load, h]
  have hc : ∀ {J J' : Interp α} {c : QClause α}, c ∈ r.clauses → r.load W u J c.pred = r.load W u J' c.pred := by
    intro J J' c hc
    funext row
    refine propext (or_congr Iff.rfl ⟨fun h => absurd rfl (h.1 c hc), fun h => absurd rfl (h.1 c hc)⟩)
  unfold QDerives
  refine sderives_body_congr (fun a ha => ?_) (fun a ha => ?_) fun a ha => ?_
  · rcases List.mem_append.1 (show a ∈ r.base.toS.positive ++ _ from ha) with ha | ha
    · exact hl (h a (List.mem_append_left _ ha)).1
    · obtain ⟨c, h1, rfl⟩ := List.mem_map.1 ha
      exact hc (List.mem_of_mem_filter h1)
  · rcases List.mem_append.1 (show a ∈ r.base.toS.positive ++ _ from ha) with ha | ha
    · exact hl (h a (List.mem_append_left _ ha)).2
    · obtain ⟨c, h1, rfl⟩ := List.mem_map.1 ha
      exact hc (List.mem_of_mem_filter h1)
  · rcases List.mem_append.1 (show a ∈ r.base.toS.negative ++ _ from ha) with ha | ha
    · exact hl (h a (List.mem_append_right _ ha)).2
    · obtain ⟨c, h1, rfl⟩ := List.mem_map.1 ha
      exact hc (List.mem_of_mem_filter h1)

/-- The predicate of an import contains the rows of the query. -/
def Filled (W : Web α) (u : α) (d : QDirective α) (I : Interp α) : Prop := ∀ row, I d.pred row ↔ Rows (W d.endpoint) u d.query.pattern row

/-- What the transformation does with a rule -/
theorem mergeRule_cases {order : Pat α → List SVar} (ho : Enumerates order) {inel : List Tag} {r : QRule α}
    (h : r.clauses = [] ∨ (∃ h ∈ r.base.head, h.pred ∈ inel) ∨ RuleMergeable W r ∧
      ∀ c, mergeAndPush order (equalities r.base) r.clauses = some (some c) → stillIncremental r.base c = true ∨ ConstantsLocal r.base) :
    ∃ ds r', mergeRule order inel r = some (ds, r') ∧
      (∀ d ∈ ds, ∃ c, mergeAndPush order (equalities r.base) r.clauses = some (some c) ∧ d = c.directive ∧ ∃ x ∈ r.clauses, x.pred = d.pred) ∧
      ∀ P N : Interp α, (∀ d ∈ ds, Filled W u d P ∧ Filled W u d N) → QDerives W u r' P N = QDerives W u r P N := by
  have keep : (r.clauses = [] ∨ ∃ h ∈ r.base.head, h.pred ∈ inel) → ∃ ds r', mergeRule order inel r = some (ds, r') ∧
      (∀ d ∈ ds, ∃ c, mergeAndPush order (equalities r.base) r.clauses = some (some c) ∧ d = c.directive ∧ ∃ x ∈ r.clauses, x.pred = d.pred) ∧
      ∀ P N : Interp α, (∀ d ∈ ds, Filled W u d P ∧ Filled W u d N) → QDerives W u r' P N = QDerives W u r P N := fun h =>
    ⟨[], r, mergeRule_keep h, fun d hd => (by cases hd), fun _ _ _ => rfl⟩
  rcases h with h | h | ⟨hr, hinc⟩
  · exact keep (.inl h)
  · exact keep (.inr h)
  · by_cases hk : r.clauses = [] ∨ ∃ h ∈ r.base.head, h.pred ∈ inel
    · exact keep hk
    obtain ⟨c, h1, h2⟩ := mergeAndPush_ok (u := u) ho hr.nonempty hr.clauses
    have hif : ¬ (((r.base.head.any fun h => decide (h.pred ∈ inel)) || r.clauses.isEmpty) = true) := by
      rw [Bool.or_eq_true, List.any_eq_true, List.isEmpty_iff]
      rintro (⟨x, hx, h3⟩ | h3)
      · exact hk (.inr ⟨x, hx, by simpa using h3⟩)
      · exact hk (.inl h3)
    obtain ⟨x, hx, hxp⟩ := h2.pred
    have hm := fun P N => funext fun p => funext fun row => propext (merged_derives hr h2 P N p row)
    rw [mergeRule, if_neg hif, (filter_positive hr.positive).1, (filter_positive hr.positive).2, h1]
    by_cases hs : stillIncremental r.base c = true
    · refine ⟨[], ⟨r.base, [c]⟩, ?_, fun d hd => (by cases hd), fun P N _ => hm P N⟩
      simp only [mergeAndPush, updateImport, hs, if_true]
    · have hl : ConstantsLocal r.base := (hinc c h1).resolve_left hs
      refine ⟨[c.directive], ⟨atomRule r.base c, []⟩, ?_, fun d hd => ?_, fun P N hPN => ?_⟩
      · simp only [mergeAndPush, updateImport, hs, if_false]
        rfl
      · rw [List.mem_singleton.1 hd]
        exact ⟨c, rfl, rfl, x, hx, hxp.symm⟩
      · have hcp : c.positive = true := by
          obtain ⟨y, hy, he⟩ := h2.positive
          rw [he, hr.positive y hy]
        have hf := hPN c.directive (List.mem_singleton.2 rfl)
        rw [← hm P N]
        exact funext fun p => funext fun row => propext (atomRule_derives hl hcp (fun v hv => ((h2.vars v).1 hv).2) hf.1 hf.2 p row)

end rule

/-! ## Statements -/

section stmts
variable {order : Pat α → List SVar} {inel : List Tag}

theorem mergeStmts_mem {ss : List (QStmt α)} (h : ∀ r, QStmt.rule r ∈ ss → ∃ x, mergeRule order inel r = some x) :
    ∃ ts, mergeStmts order inel ss = some ts ∧ (∀ p row, QStmt.fact p row ∈ ts ↔ QStmt.fact p row ∈ ss) ∧
      (∀ r', QStmt.rule r' ∈ ts ↔ ∃ r ds, QStmt.rule r ∈ ss ∧ mergeRule order inel r = some (ds, r')) ∧
      ∀ d, QStmt.imp d ∈ ts ↔ QStmt.imp d ∈ ss ∨ ∃ r ds r', QStmt.rule r ∈ ss ∧ mergeRule order inel r = some (ds, r') ∧ d ∈ ds := by
  induction ss with
  | nil => exact ⟨[], rfl, by simp, by simp, by simp⟩
  | cons s ss ih =>
    obtain ⟨ts, h1, h2, h3, h4⟩ := ih fun r hr => h r (List.mem_cons_of_mem _ hr)
    have other : (∀ r, s ≠ .rule r) → ∃ ts, mergeStmts order inel (s :: ss) = some ts ∧ (∀ p row, QStmt.fact p row ∈ ts ↔ QStmt.fact p row ∈ s :: ss) ∧
      (∀ r', QStmt.rule r' ∈ ts ↔ ∃ r ds, QStmt.rule r ∈ s :: ss ∧ mergeRule order inel r = some (ds, r')) ∧
      ∀ d, QStmt.imp d ∈ ts ↔ QStmt.imp d ∈ s :: ss ∨ ∃ r ds r', QStmt.rule r ∈ s :: ss ∧ mergeRule order inel r = some (ds, r') ∧ d ∈ ds := by
      intro hs
      have hr : ∀ r, QStmt.rule r ∈ s :: ss ↔ QStmt.rule r ∈ ss := fun r => by
        rw [List.mem_cons, or_iff_right (fun he => hs r he.symm)]
      refine ⟨s :: ts, by rw [mergeStmts_other hs, h1]; rfl, fun p row => ?_, fun r' => ?_, fun d => ?_⟩
      · rw [List.mem_cons, List.mem_cons, h2]
      · simp only [hr, ← h3]
        rw [List.mem_cons, or_iff_right (fun he => hs r' he.symm)]
      · simp only [hr]
        rw [List.mem_cons, List.mem_cons, h4, or_assoc]
    cases s with
    | rule r =>
      obtain ⟨⟨ds, r'⟩, hr⟩ := h r List.mem_cons_self
      refine ⟨ds.map .imp ++ .rule r' :: ts, ?_, fun p row => ?_, fun r0 => ?_, fun d => ?_⟩
      · rw [mergeStmts, hr, h1]; rfl
      · simp [h2]
      · simp only [List.mem_append, List.mem_map, reduceCtorEq, and_false, exists_false, false_or, List.mem_cons, QStmt.rule.injEq, h3]
        constructor
        · rintro (rfl | ⟨a, b, h5, h6⟩)
          · exact ⟨r, ds, .inl rfl, hr⟩
          · exact ⟨a, b, .inr h5, h6⟩
        · rintro ⟨a, b, rfl | h5, h6⟩
          · rw [hr] at h6
            cases h6
            exact .inl rfl
          · exact .inr ⟨a, b, h5, h6⟩
      · simp only [List.mem_append, List.mem_map, QStmt.imp.injEq, exists_eq_right, List.mem_cons, reduceCtorEq, false_or, h4]
        constructor
        · rintro (h5 | h5 | ⟨a, b, e, h5, h6, h7⟩)
          · exact .inr ⟨r, ds, r', .inl rfl, hr, h5⟩
          · exact .inl h5
          · exact .inr ⟨a, b, e, .inr h5, h6, h7⟩
        · rintro (h5 | ⟨a, b, e, h5, h6, h7⟩)
          · exact .inr (.inl h5)
          · rcases h5 with h5 | h5
            · cases h5
              rw [hr] at h6
              cases h6
              exact .inl h7
            · exact .inr (.inr ⟨a, b, e, h5, h6, h7⟩)
    | fact p row => exact other (by simp)
    | imp d => exact other (by simp)
    | other => exact other (by simp)

end stmts

theorem mem_qrules {ss : List (QStmt α)} {r : QRule α} : r ∈ qrules ss ↔ QStmt.rule r ∈ ss := by
  simp only [qrules, List.mem_filterMap]
  constructor
  · rintro ⟨s, hs, h⟩
    cases s <;> simp at h
    exact h ▸ hs
  · exact fun h => ⟨_, h, rfl⟩

/-! ## Programs -/

section program
variable {W : Web α} {u : α} {order : Pat α → List SVar} {ss ts : List (QStmt α)}

/-- The imports that are added -/
def Added (order : Pat α → List SVar) (ss : List (QStmt α)) (d : QDirective α) : Prop :=
  ∃ r ds r', QStmt.rule r ∈ ss ∧ mergeRule order (ineligible ss) r = some (ds, r') ∧ d ∈ ds

/-- Their predicates -/
def New (order : Pat α → List SVar) (ss : List (QStmt α)) (p : Tag) : Prop := ∃ d, Added order ss d ∧ d.pred = p

/-- The facts with the rows of the added imports -/
def fillNew (order : Pat α → List SVar) (W : Web α) (u : α) (ss : List (QStmt α)) (K : Interp α) : Interp α := fun p row =>
  (∃ d, Added order ss d ∧ d.pred = p ∧ Rows (W d.endpoint) u d.query.pattern row) ∨ (¬ New order ss p ∧ K p row)

/-- The facts without the new predicates -/
def cutNew (order : Pat α → List SVar) (ss : List (QStmt α)) (K : Interp α) : Interp α := fun p row => ¬ New order ss p ∧ K p row

/-- What is known about the new program -/
structure Facts (order : Pat α → List SVar) (W : Web α) (u : α) (ss ts : List (QStmt α)) : Prop where
  unique : ∀ d d', Added order ss d → Added order ss d' → d.pred = d'.pred → d = d'
  clause : ∀ p, New order ss p → ∃ r, QStmt.rule r ∈ ss ∧ ∃ c ∈ r.clauses, c.pred = p
  given : ∀ p row, qgiven W u ss p row → ¬ New order ss p
  given_iff : ∀ p row, qgiven W u ts p row ↔ qgiven W u ss p row ∨ ∃ d, Added order ss d ∧ d.pred = p ∧ Rows (W d.endpoint) u d.query.pattern row
  head : ∀ r ∈ qrules ss, ∀ P N p row, QDerives W u r P N p row → ¬ New order ss p
  head' : ∀ r ∈ qrules ts, ∀ P N p row, QDerives W u r P N p row → ¬ New order ss p
  body : ∀ r ∈ qrules ss, ∀ P P' N N' : Interp α, (∀ p, ¬ New order ss p → P p = P' p ∧ N p = N' p) → QDerives W u r P N = QDerives W u r P' N'
  onto : ∀ r ∈ qrules ss, ∃ r' ∈ qrules ts, ∀ P N, (∀ d, Added order ss d → Filled W u d P ∧ Filled W u d N) → QDerives W u r' P N = QDerives W u r P N
  fro : ∀ r' ∈ qrules ts, ∃ r ∈ qrules ss, ∀ P N, (∀ d, Added order ss d → Filled W u d P ∧ Filled W u d N) → QDerives W u r' P N = QDerives W u r P N

theorem facts (ho : Enumerates order) (h : ImportsMergeable order W ss) : ∃ ts, mergeProgram order ss = some ts ∧ Facts order W u ss ts := by
  have hc := fun r hr => mergeRule_cases (u := u) ho (inel := ineligible ss) (h.rules r hr)
  obtain ⟨ts, h1, h2, h3, h4⟩ := mergeStmts_mem (order := order) (inel := ineligible ss) (ss := ss) fun r hr => by
    obtain ⟨ds, r', h1, -⟩ := hc r hr
    exact ⟨_, h1⟩
  have hadd : ∀ d, Added order ss d → ∃ r c, QStmt.rule r ∈ ss ∧ mergeAndPush order (equalities r.base) r.clauses = some (some c) ∧ d = c.directive ∧
      ∃ x ∈ r.clauses, x.pred = d.pred := by
    rintro d ⟨r, ds, r', hr, h5, h6⟩
    obtain ⟨ds0, r0, h7, h8, -⟩ := hc r hr
    rw [h5] at h7
    cases h7
    obtain ⟨c, h9, h10, h11⟩ := h8 d h6
    exact ⟨r, c, hr, h9, h10, h11⟩
  have hclause : ∀ p, New order ss p → ∃ r, QStmt.rule r ∈ ss ∧ ∃ c ∈ r.clauses, c.pred = p := by
    rintro p ⟨d, hd, rfl⟩
    obtain ⟨r, c, hr, -, -, x, hx, hxp⟩ := hadd d hd
    exact ⟨r, hr, x, hx, hxp⟩
  refine ⟨ts, h1, ⟨?_, hclause, ?_, ?_, ?_, ?_, ?_, ?_, ?_⟩⟩
  · intro d d' hd hd' hp
    obtain ⟨r, c, hr, h5, h6, x, hx, hxp⟩ := hadd d hd
    obtain ⟨r', c', hr', h5', h6', x', hx', hxp'⟩ := hadd d' hd'
    have := h.distinct r hr x hx r' hr' x' hx' (by rw [hxp, hxp', hp])
    subst this
    rw [h5] at h5'
    cases h5'
    rw [h6, h6']
  · intro p row hg hp
    obtain ⟨r, hr, c, hcl, rfl⟩ := hclause p hp
    rcases hg with hg | ⟨d, hd, he, -⟩
    · exact h.facts r hr c hcl row hg
    · exact h.imports r hr c hcl d hd he
  · intro p row
    simp only [qgiven, h2, h4]
    constructor
    · rintro (h5 | ⟨d, h5 | h5, h6, h7⟩)
      · exact .inl (.inl h5)
      · exact .inl (.inr ⟨d, h5, h6, h7⟩)
      · exact .inr ⟨d, h5, h6, h7⟩
    · rintro ((h5 | ⟨d, h5, h6, h7⟩) | ⟨d, h5, h6, h7⟩)
      · exact .inl h5
      · exact .inr ⟨d, .inl h5, h6, h7⟩
      · exact .inr ⟨d, .inr h5, h6, h7⟩
  · intro r hr P N p row hd hp
    obtain ⟨x, hx, hxp⟩ := qderives_head hd
    obtain ⟨r0, hr0, c, hcl, rfl⟩ := hclause p hp
    exact h.heads r0 hr0 c hcl r (mem_qrules.1 hr) x hx hxp
  · intro r' hr' P N p row hd hp
    obtain ⟨r, ds, hr, hm⟩ := (h3 r').1 (mem_qrules.1 hr')
    obtain ⟨x, hx, hxp⟩ := qderives_head hd
    rw [mergeRule_head hm] at hx
    obtain ⟨r0, hr0, c, hcl, rfl⟩ := hclause p hp
    exact h.heads r0 hr0 c hcl r hr x hx hxp
  · intro r hr P P' N N' hpp
    refine qderives_congr fun a ha => hpp _ fun hn => ?_
    obtain ⟨r0, hr0, c, hcl, he⟩ := hclause _ hn
    exact h.bodies r0 hr0 c hcl r (mem_qrules.1 hr) a ha he.symm
  · intro r hr
    obtain ⟨ds, r', h5, -, h6⟩ := hc r (mem_qrules.1 hr)
    exact ⟨r', mem_qrules.2 ((h3 r').2 ⟨r, ds, mem_qrules.1 hr, h5⟩), fun P N hf => h6 P N fun d hd => hf d ⟨r, ds, r', mem_qrules.1 hr, h5, hd⟩⟩
  · intro r' hr'
    obtain ⟨r, ds, hr, hm⟩ := (h3 r').1 (mem_qrules.1 hr')
    obtain ⟨ds0, r0, h5, -, h6⟩ := hc r hr
    rw [hm] at h5
    cases h5
    exact ⟨r, mem_qrules.2 hr, fun P N hf => h6 P N fun d hd => hf d ⟨r, ds, r', hr, hm, hd⟩⟩

theorem fill_filled (hf : Facts order W u ss ts) (K : Interp α) {d : QDirective α} (hd : Added order ss d) : Filled W u d (fillNew order W u ss K) := by
  intro row
  constructor
  · rintro (⟨d', h1, h2, h3⟩ | h1)
    · rwa [hf.unique d' d h1 hd h2] at h3
    · exact absurd ⟨d, hd, rfl⟩ h1.1
  · exact fun h => .inl ⟨d, hd, rfl, h⟩

theorem fill_eq (K : Interp α) {p : Tag} (hp : ¬ New order ss p) : fillNew order W u ss K p = K p := by
  funext row
  refine propext ⟨?_, fun h => .inr ⟨hp, h⟩⟩
  rintro (⟨d, h1, h2, -⟩ | h)
  · exact absurd ⟨d, h1, h2⟩ hp
  · exact h.2

theorem cut_eq (K : Interp α) {p : Tag} (hp : ¬ New order ss p) : cutNew order ss K p = K p := by
  funext row
  exact propext ⟨fun h => h.2, fun h => ⟨hp, h⟩⟩

/-- Closed sets of the new program are closed sets of the program. -/
theorem closed_from (hf : Facts order W u ss ts) {N N' I' : Interp α} (hN : ∀ d, Added order ss d → Filled W u d N') (hag : ∀ p, ¬ New order ss p → N p = N' p)
    (h : QClosedUnder W u (qrules ts) (qgiven W u ts) N' I') : QClosedUnder W u (qrules ss) (qgiven W u ss) N (cutNew order ss I') := by
  refine ⟨fun p row hg => ⟨hf.given p row hg, h.1 p row ((hf.given_iff p row).2 (.inl hg))⟩, fun r hr p row hd => ⟨hf.head r hr _ _ p row hd, ?_⟩⟩
  obtain ⟨r', hr', he⟩ := hf.onto r hr
  have h1 := he (fillNew order W u ss (cutNew order ss I')) N' fun d hd => ⟨fill_filled hf _ hd, hN d hd⟩
  have h2 := hf.body r hr (cutNew order ss I') (fillNew order W u ss (cutNew order ss I')) N N' fun p hp => ⟨(fill_eq _ hp).symm, hag p hp⟩
  rw [h2, ← h1] at hd
  refine h.2 r' hr' p row (qderives_mono (fun q x hq => ?_) hd)
  rcases hq with hq | hq
  · exact h.1 q x ((hf.given_iff q x).2 (.inr hq))
  · exact hq.2.2

/-- Closed sets of the program, with the rows of the added imports, are closed sets of the new program. -/
theorem closed_to (hf : Facts order W u ss ts) {N N' I : Interp α} (hN : ∀ d, Added order ss d → Filled W u d N') (hag : ∀ p, ¬ New order ss p → N p = N' p)
    (h : QClosedUnder W u (qrules ss) (qgiven W u ss) N I) : QClosedUnder W u (qrules ts) (qgiven W u ts) N' (fillNew order W u ss I) := by
  refine ⟨fun p row hg => ?_, fun r' hr' p row hd => ?_⟩
  · rcases (hf.given_iff p row).1 hg with hg | hg
    · exact .inr ⟨hf.given p row hg, h.1 p row hg⟩
    · exact .inl hg
  · obtain ⟨r, hr, he⟩ := hf.fro r' hr'
    have hp := hf.head' r' hr' _ _ p row hd
    rw [he _ _ fun d hd => ⟨fill_filled hf _ hd, hN d hd⟩, hf.body r hr (fillNew order W u ss I) I N' N fun p hp => ⟨fill_eq _ hp, (hag p hp).symm⟩] at hd
    exact .inr ⟨hp, h.2 r hr p row hd⟩

theorem least_new (hf : Facts order W u ss ts) {N N' : Interp α} (hN : ∀ d, Added order ss d → Filled W u d N') (hag : ∀ p, ¬ New order ss p → N p = N' p) :
    QLeastModel W u (qrules ts) (qgiven W u ts) N' = fillNew order W u ss (QLeastModel W u (qrules ss) (qgiven W u ss) N) := by
  funext p row
  refine propext ⟨fun h => ?_, fun h I' hI => ?_⟩
  · rcases h _ (closed_to hf hN hag (I := fun _ _ => True) ⟨fun _ _ _ => trivial, fun _ _ _ _ _ => trivial⟩) with h1 | ⟨h1, -⟩
    · exact .inl h1
    · refine .inr ⟨h1, fun I hI => ?_⟩
      have := h _ (closed_to hf hN hag hI)
      rwa [fill_eq _ h1] at this
  · rcases h with h | ⟨-, h⟩
    · exact hI.1 p row ((hf.given_iff p row).2 (.inr h))
    · exact (h _ (closed_from hf hN hag hI)).2

theorem least_old (hf : Facts order W u ss ts) (N : Interp α) {p : Tag} {row : List α} (h : QLeastModel W u (qrules ss) (qgiven W u ss) N p row) : ¬ New order ss p := by
  have := h (fun p _ => ¬ New order ss p) ⟨fun p row hg => hf.given p row hg, fun r hr p row hd => hf.head r hr _ _ p row hd⟩
  exact this

theorem stable_filled (hf : Facts order W u ss ts) {M : Interp α} (hM : QIsStable W u (qrules ts) (qgiven W u ts) M) {d : QDirective α} (hd : Added order ss d) :
    Filled W u d M := by
  intro row
  rw [hM]
  constructor
  · intro h
    have := h (fun p row => ∀ d, Added order ss d → d.pred = p → Rows (W d.endpoint) u d.query.pattern row) ⟨fun p row hg d hd hp => ?_, fun r hr p row hd d hd' hp => ?_⟩
    · exact this d hd rfl
    · rcases (hf.given_iff p row).1 hg with hg | ⟨d', h1, h2, h3⟩
      · exact absurd ⟨d, hd, hp⟩ (hf.given p row hg)
      · rwa [hf.unique d' d h1 hd (h2.trans hp.symm)] at h3
    · exact absurd ⟨d, hd', hp⟩ (hf.head' r hr _ _ p row hd)
  · exact fun h I hI => hI.1 _ _ ((hf.given_iff _ _).2 (.inr ⟨d, hd, rfl, h⟩))

/-- **Merging the SPARQL imports of rules does not change the result of a program**: the stable models before and after the transformation
agree on all predicates that are not the private predicates of import clauses. -/
theorem merge_imports_partial (ho : Enumerates order) (h : ImportsMergeable order W ss) : ∃ ts, mergeProgram order ss = some ts ∧
    (∀ M, QIsStable W u (qrules ss) (qgiven W u ss) M → ∃ M', QIsStable W u (qrules ts) (qgiven W u ts) M' ∧
      ∀ p, (∀ r, QStmt.rule r ∈ ss → ∀ c ∈ r.clauses, c.pred ≠ p) → M' p = M p) ∧
    (∀ M', QIsStable W u (qrules ts) (qgiven W u ts) M' → ∃ M, QIsStable W u (qrules ss) (qgiven W u ss) M ∧
      ∀ p, (∀ r, QStmt.rule r ∈ ss → ∀ c ∈ r.clauses, c.pred ≠ p) → M' p = M p) := by
  obtain ⟨ts, h1, hf⟩ := facts (u := u) ho h
  have hvis : ∀ p, (∀ r, QStmt.rule r ∈ ss → ∀ c ∈ r.clauses, c.pred ≠ p) → ¬ New order ss p := by
    intro p hp hn
    obtain ⟨r, hr, c, hc, he⟩ := hf.clause p hn
    exact hp r hr c hc he
  refine ⟨ts, h1, fun M hM => ?_, fun M' hM' => ?_⟩
  · refine ⟨fillNew order W u ss M, ?_, fun p hp => fill_eq _ (hvis p hp)⟩
    have := least_new hf (N := M) (N' := fillNew order W u ss M) (fun d hd => fill_filled hf _ hd) fun p hp => (fill_eq _ hp).symm
    rw [← show M = QLeastModel W u (qrules ss) (qgiven W u ss) M from hM] at this
    exact this.symm
  · refine ⟨cutNew order ss M', ?_, fun p hp => (cut_eq _ (hvis p hp)).symm⟩
    have h2 := least_new hf (N := cutNew order ss M') (N' := M') (fun d hd => stable_filled hf hM' hd) fun p hp => cut_eq _ hp
    rw [← show M' = QLeastModel W u (qrules ts) (qgiven W u ts) M' from hM'] at h2
    unfold QIsStable
    funext p row
    refine propext ⟨fun h3 => ?_, fun h3 => ?_⟩
    · have h4 := h3.2
      rw [h2, fill_eq _ h3.1] at h4
      exact h4
    · have hp := least_old hf _ h3
      refine ⟨hp, ?_⟩
      rw [h2, fill_eq _ hp]
      exact h3

end program
end Verif.Sq
