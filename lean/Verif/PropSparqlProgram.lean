import Verif.PropMergeProgram

/-!
# SPARQL imports: both transformations (C59, C60)

A program with SPARQL imports has the same results after its imports have been turned into import clauses (`TransformationIncremental`) and the
import clauses of each rule have been merged (`TransformationMergeSparql`).
-/

set_option linter.unusedSimpArgs false
set_option linter.unusedSectionVars false

namespace Verif.Sq
open Verif Verif.Inc
variable {α : Type}

/-! ## Clauses of the new rules -/

section clauses
variable {inc : List (Directive α)} {derived : List Tag}

theorem incBody_id (ls : List (LLit α)) (id : Nat) : id ≤ (incBody inc derived ls id).id := by
  induction ls generalizing id with
  | nil => exact le_refl _
  | cons l ls ih =>
    have hc : ∀ (d : Directive α) (s : Bool) (a : SAtom α), id ≤ (clauseFor derived d s a id).2 := by
      intro d s a
      unfold clauseFor
      split
      · exact le_refl _
      · exact Nat.le_succ _
    cases l with
    | positive a =>
      simp only [incBody]
      split
      · exact le_trans (hc _ _ _) (ih _)
      · exact ih _
    | negative a =>
      simp only [incBody]
      split
      · exact le_trans (hc _ _ _) (ih _)
      · exact ih _
    | operation o => exact ih _

/-- Each clause belongs to an import, and has a private predicate. -/
theorem clause_spec (hd : ∀ d ∈ inc, d.pred ∉ derived) (ls : List (LLit α)) (id : Nat) {c : Clause α} (h : c ∈ (incBody inc derived ls id).clauses) :
    (∃ d ∈ inc, c.origin = d.pred ∧ c.content = d.content) ∧ ∃ p k, id ≤ k ∧ k < (incBody inc derived ls id).id ∧ c.pred = privTag p k := by
  induction ls generalizing id with
  | nil => simp [incBody] at h
  | cons l ls ih =>
    have new : ∀ (s : Bool) (a : SAtom α) (d : Directive α), inc.find? (fun d => decide (d.pred = a.pred)) = some d →
        c ∈ (clauseFor derived d s a id).1 :: (incBody inc derived ls (clauseFor derived d s a id).2).clauses →
        (∃ d ∈ inc, c.origin = d.pred ∧ c.content = d.content) ∧ ∃ p k, id ≤ k ∧ k < (incBody inc derived ls (clauseFor derived d s a id).2).id ∧ c.pred = privTag p k := by
      intro s a d hf hc
      have hn := hd d (find_inc hf).1
      have hi := incBody_id (inc := inc) (derived := derived) ls (id + 1)
      simp only [clauseFor, hn, if_false, List.mem_cons] at hc ⊢
      rcases hc with rfl | hc
      · exact ⟨⟨d, (find_inc hf).1, rfl, rfl⟩, _, id, le_refl _, by omega, rfl⟩
      · obtain ⟨h1, p, k, h2, h3, h4⟩ := ih _ hc
        exact ⟨h1, p, k, by omega, h3, h4⟩
    cases l with
    | positive a =>
      simp only [incBody] at h ⊢
      split at h
      · rename_i d hf
        simp only [hf]
        exact new _ _ _ hf h
      · rename_i hf
        simp only [hf]
        exact ih _ h
    | negative a =>
      simp only [incBody] at h ⊢
      split at h
      · rename_i d hf
        simp only [hf]
        exact new _ _ _ hf h
      · rename_i hf
        simp only [hf]
        exact ih _ h
    | operation o => exact ih _ h

theorem incStmts_clause (hd : ∀ d ∈ inc, d.pred ∉ derived) (ss : List (Stmt α (WRule α))) (id : Nat) {r : CRule α} (hr : .rule r ∈ incStmts inc derived ss id)
    {c : Clause α} (hc : c ∈ r.clauses) : (∃ d ∈ inc, c.origin = d.pred ∧ c.content = d.content) ∧ ∃ p k, id ≤ k ∧ c.pred = privTag p k := by
  induction ss generalizing id with
  | nil => simp [incStmts] at hr
  | cons x ss ih =>
    cases x with
    | rule r0 =>
      simp only [incStmts] at hr
      split at hr
      · rcases List.mem_cons.1 hr with h | h
        · cases h
          obtain ⟨h1, p, k, h2, -, h3⟩ := clause_spec hd _ _ hc
          exact ⟨h1, p, k, h2, h3⟩
        · obtain ⟨h1, p, k, h2, h3⟩ := ih _ h
          exact ⟨h1, p, k, le_trans (incBody_id r0.body id) h2, h3⟩
      · rcases List.mem_cons.1 hr with h | h
        · cases h
          cases hc
        · exact ih _ h
    | imp d =>
      simp only [incStmts] at hr
      split at hr
      · exact ih _ hr
      · exact ih _ ((List.mem_cons.1 hr).resolve_left (by simp))
    | fact p row => exact ih _ ((List.mem_cons.1 (show _ ∈ _ :: _ from hr)).resolve_left (by simp))
    | output p => exact ih _ ((List.mem_cons.1 (show _ ∈ _ :: _ from hr)).resolve_left (by simp))

/-- Different rules have different private predicates. -/
theorem incStmts_distinct (hd : ∀ d ∈ inc, d.pred ∉ derived) (ss : List (Stmt α (WRule α))) (id : Nat) {r r' : CRule α} (hr : .rule r ∈ incStmts inc derived ss id)
    (hr' : .rule r' ∈ incStmts inc derived ss id) {c c' : Clause α} (hc : c ∈ r.clauses) (hc' : c' ∈ r'.clauses) (hp : c.pred = c'.pred) : r = r' := by
  induction ss generalizing id with
  | nil => simp [incStmts] at hr
  | cons x ss ih =>
    cases x with
    | rule r0 =>
      simp only [incStmts] at hr hr'
      have sep : ∀ {r1 r2 : CRule α} {c1 c2 : Clause α}, r1 = (incRule inc derived r0 id).1 → c1 ∈ r1.clauses →
          .rule r2 ∈ incStmts inc derived ss (incRule inc derived r0 id).2 → c2 ∈ r2.clauses → c1.pred ≠ c2.pred := by
        intro r1 r2 c1 c2 h1 h2 h3 h4 h5
        subst h1
        obtain ⟨-, p, k, -, h6, h7⟩ := clause_spec hd _ _ h2
        obtain ⟨-, p', k', h8, h9⟩ := incStmts_clause hd _ _ h3 h4
        rw [h7, h9] at h5
        have := privTag_inj h5
        have h8' : (incBody inc derived r0.body id).id ≤ k' := h8
        omega
      split at hr
      · rename_i hif
        rw [if_pos hif] at hr'
        rcases List.mem_cons.1 hr with h | h <;> rcases List.mem_cons.1 hr' with h' | h'
        · cases h; cases h'; rfl
        · exact absurd hp (sep (by cases h; rfl) hc h' hc')
        · exact absurd hp.symm (sep (by cases h'; rfl) hc' h hc)
        · exact ih _ h h'
      · rename_i hif
        rw [if_neg hif] at hr'
        rcases List.mem_cons.1 hr with h | h <;> rcases List.mem_cons.1 hr' with h' | h'
        · cases h; cases h'; rfl
        · cases h; cases hc
        · cases h'; cases hc'
        · exact ih _ h h'
    | imp d =>
      simp only [incStmts] at hr hr'
      split at hr
      · rename_i hif
        rw [if_pos hif] at hr'
        exact ih _ hr hr'
      · rename_i hif
        rw [if_neg hif] at hr'
        exact ih _ ((List.mem_cons.1 hr).resolve_left (by simp)) ((List.mem_cons.1 hr').resolve_left (by simp))
    | fact p row => exact ih _ ((List.mem_cons.1 (show _ ∈ _ :: _ from hr)).resolve_left (by simp)) ((List.mem_cons.1 (show _ ∈ _ :: _ from hr')).resolve_left (by simp))
    | output p => exact ih _ ((List.mem_cons.1 (show _ ∈ _ :: _ from hr)).resolve_left (by simp)) ((List.mem_cons.1 (show _ ∈ _ :: _ from hr')).resolve_left (by simp))

end clauses

/-! ## Queries instead of contents -/

/-- The endpoint and the query of the import of a predicate with a content -/
abbrev QueryOf (α : Type) := Tag → List (List α) → Nat × Query α

/-- A clause with its query -/
def toClause (q : QueryOf α) (c : Clause α) : QClause α := ⟨c.positive, c.pred, (q c.origin c.content).1, (q c.origin c.content).2, c.vars⟩

/-- A rule with the queries of its clauses -/
def toRule (q : QueryOf α) (r : CRule α) : QRule α := ⟨r.base, r.clauses.map (toClause q)⟩

/-- A statement with the queries of imports.  Imports in other formats, which are not changed, are also represented by queries. -/
def toStmt (q : QueryOf α) : Stmt α (CRule α) → QStmt α
  | .fact p row => .fact p row
  | .rule r => .rule (toRule q r)
  | .imp d => .imp ⟨d.pred, (q d.pred d.content).1, (q d.pred d.content).2⟩
  | .output _ => .other

/-- The queries have the contents of the imports as results. -/
def Represents (W : Web α) (u : α) (q : QueryOf α) (ss : List (Stmt α (WRule α))) : Prop :=
  ∀ d : Directive α, .imp d ∈ ss → ∀ row, Rows (W (q d.pred d.content).1) u (q d.pred d.content).2.pattern row ↔ row ∈ d.content

section
variable [DecidableEq α] [Dom α] {W : Web α} {u : α} {q : QueryOf α}

theorem toRule_toS (r : CRule α) : (toRule q r).toS = r.toS := by
  have h : ∀ (f : Bool → Bool) (l : List (Clause α)), ((l.map (toClause q)).filter fun c => f c.positive).map QClause.toAtom = (l.filter fun c => f c.positive).map Clause.atom := by
    intro f l
    induction l with
    | nil => rfl
    | cons c l ih =>
      rw [List.map_cons, List.filter_cons, List.filter_cons]
      have : (toClause q c).positive = c.positive := rfl
      rw [this]
      split
      · rw [List.map_cons, List.map_cons, ih]; rfl
      · exact ih
  unfold QRule.toS CRule.toS toRule
  have h1 := h (fun b => b) r.clauses
  have h2 := h (fun b => !b) r.clauses
  simp only [h1, h2]

theorem toRule_load {r : CRule α} (h : ∀ c ∈ r.clauses, ∀ row, Rows (W (q c.origin c.content).1) u (q c.origin c.content).2.pattern row ↔ row ∈ c.content) (I : Interp α) :
    (toRule q r).load W u I = r.load I := by
  funext p row
  refine propext (or_congr ⟨?_, ?_⟩ (and_congr ⟨fun h1 c hc => h1 _ (List.mem_map_of_mem hc), fun h1 c hc => ?_⟩ Iff.rfl))
  · rintro ⟨c, hc, h1, h2⟩
    obtain ⟨c0, hc0, rfl⟩ := List.mem_map.1 hc
    exact ⟨c0, hc0, h1, (h c0 hc0 row).1 h2⟩
  · rintro ⟨c, hc, h1, h2⟩
    exact ⟨toClause q c, List.mem_map_of_mem hc, h1, (h c hc row).2 h2⟩
  · obtain ⟨c0, hc0, rfl⟩ := List.mem_map.1 hc
    exact h1 c0 hc0

theorem toRule_derives {r : CRule α} (h : ∀ c ∈ r.clauses, ∀ row, Rows (W (q c.origin c.content).1) u (q c.origin c.content).2.pattern row ↔ row ∈ c.content) (P N : Interp α) :
    QDerives W u (toRule q r) P N = CDerives r P N := by
  unfold QDerives CDerives
  rw [toRule_toS, toRule_load h, toRule_load h]

variable {ss : List (Stmt α (WRule α))}

theorem clause_import {r : CRule α} (hr : .rule r ∈ incProgram ss) {c : Clause α} (hc : c ∈ r.clauses) :
    ∃ d : Directive α, .imp d ∈ ss ∧ c.origin = d.pred ∧ c.content = d.content := by
  obtain ⟨⟨d, hd, h1, h2⟩, -⟩ := incStmts_clause inc_not_derived ss 0 hr hc
  exact ⟨d, (incremental_onlyImported hd).imported, h1, h2⟩

theorem imp_old {d : Directive α} (h : .imp d ∈ incProgram ss) : .imp d ∈ ss := by
  have := (mem_incStmts_imp (inc := incrementalPredicates ss) (derived := derivedPreds ss) ss 0 d).1 h
  exact this.1

theorem toStmt_rule {l : List (Stmt α (CRule α))} {r : QRule α} : QStmt.rule r ∈ l.map (toStmt q) ↔ ∃ r0, .rule r0 ∈ l ∧ r = toRule q r0 := by
  rw [List.mem_map]
  constructor
  · rintro ⟨s, hs, h⟩
    cases s <;> simp [toStmt] at h
    exact ⟨_, hs, h.symm⟩
  · rintro ⟨r0, h, rfl⟩
    exact ⟨_, h, rfl⟩

theorem toStmt_fact {l : List (Stmt α (CRule α))} {p : Tag} {row : List α} : QStmt.fact p row ∈ l.map (toStmt q) ↔ .fact p row ∈ l := by
  rw [List.mem_map]
  constructor
  · rintro ⟨s, hs, h⟩
    cases s <;> simp [toStmt] at h
    obtain ⟨rfl, rfl⟩ := h
    exact hs
  · exact fun h => ⟨_, h, rfl⟩

theorem toStmt_imp {l : List (Stmt α (CRule α))} {e : QDirective α} : QStmt.imp e ∈ l.map (toStmt q) ↔
    ∃ d : Directive α, .imp d ∈ l ∧ e = ⟨d.pred, (q d.pred d.content).1, (q d.pred d.content).2⟩ := by
  rw [List.mem_map]
  constructor
  · rintro ⟨s, hs, h⟩
    cases s <;> simp [toStmt] at h
    exact ⟨_, hs, h.symm⟩
  · rintro ⟨d, h, rfl⟩
    exact ⟨_, h, rfl⟩

theorem toStmt_given (hq : Represents W u q ss) : qgiven W u ((incProgram ss).map (toStmt q)) = given (incProgram ss) := by
  funext p row
  simp only [qgiven, given, toStmt_fact, toStmt_imp]
  refine propext (or_congr Iff.rfl ⟨?_, ?_⟩)
  · rintro ⟨e, ⟨d, hd, rfl⟩, h1, h2⟩
    exact ⟨d, hd, h1, (hq d (imp_old hd) row).1 h2⟩
  · rintro ⟨d, hd, h1, h2⟩
    exact ⟨_, ⟨d, hd, rfl⟩, h1, (hq d (imp_old hd) row).2 h2⟩

theorem toStmt_stable (hq : Represents W u q ss) (M : Interp α) :
    QIsStable W u (qrules ((incProgram ss).map (toStmt q))) (qgiven W u ((incProgram ss).map (toStmt q))) M ↔ CIsStable (rulesOf (incProgram ss)) (given (incProgram ss)) M := by
  have hr : ∀ r, .rule r ∈ incProgram ss → ∀ P N, QDerives W u (toRule q r) P N = CDerives r P N := by
    intro r hr P N
    refine toRule_derives (fun c hc row => ?_) P N
    obtain ⟨d, hd, h1, h2⟩ := clause_import hr hc
    rw [h1, h2]
    exact hq d hd row
  have hc : ∀ N I, QClosedUnder W u (qrules ((incProgram ss).map (toStmt q))) (given (incProgram ss)) N I ↔ CClosedUnder (rulesOf (incProgram ss)) (given (incProgram ss)) N I := by
    intro N I
    refine and_congr Iff.rfl ⟨fun h r h1 => ?_, fun h r h1 => ?_⟩
    · have h2 := h (toRule q r) (mem_qrules.2 (toStmt_rule.2 ⟨r, mem_rulesOf.1 h1, rfl⟩))
      rwa [hr r (mem_rulesOf.1 h1)] at h2
    · obtain ⟨r0, h2, rfl⟩ := toStmt_rule.1 (mem_qrules.1 h1)
      rw [hr r0 h2]
      exact h r0 (mem_rulesOf.2 h2)
  unfold QIsStable CIsStable QLeastModel CLeastModel
  simp only [toStmt_given hq, hc]

/-! ## Both transformations -/

/-- Conditions on the queries of a program, and on its names: imported atoms are positive; the queries of a rule can be merged; if constants
are required and the rule is not restricted otherwise, the variables of the constants do not occur elsewhere; the names of predicates are not
private names. -/
structure QueriesOK (order : Pat α → List SVar) (W : Web α) (q : QueryOf α) (ss : List (Stmt α (WRule α))) : Prop where
  positive : ∀ r, .rule r ∈ ss → ∀ a ∈ r.toS.negative, isInc (incrementalPredicates ss) a.pred = false
  clauses : ∀ r, .rule r ∈ incProgram ss → ClausesOK W (equalities r.base) (r.clauses.map (toClause q))
  rules : ∀ r, .rule r ∈ incProgram ss → r.clauses ≠ [] →
    ∀ c, mergeAndPush order (equalities r.base) (r.clauses.map (toClause q)) = some (some c) → stillIncremental r.base c = true ∨ ConstantsLocal r.base
  facts : ∀ p row, .fact p row ∈ ss → ∀ t i, p ≠ privTag t i
  imports : ∀ d : Directive α, .imp d ∈ ss → ∀ t i, d.pred ≠ privTag t i
  heads : ∀ r, .rule r ∈ ss → ∀ h ∈ r.head, ∀ t i, h.pred ≠ privTag t i
  outputs : ∀ p, .output p ∈ ss → ∀ t i, p ≠ privTag t i

theorem toS_base_mem {inc : List (Directive α)} {derived : List Tag} {r : WRule α} {id : Nat} {a : SAtom α}
    (h : a ∈ (incRule inc derived r id).1.base.toS.positive ++ (incRule inc derived r id).1.base.toS.negative) : a ∈ r.toS.positive ++ r.toS.negative := by
  have hk : ∀ {l : LLit α}, (∀ o, l ≠ .operation o) → l ∈ (incRule inc derived r id).1.base.body → l ∈ r.body := by
    intro l hl hm
    rcases List.mem_append.1 (show l ∈ (incBody inc derived r.body id).kept ++ _ from hm) with hm | hm
    · exact ((mem_kept r.body id).1 hm).1
    · obtain ⟨x, -, rfl⟩ := List.mem_map.1 hm
      exact absurd rfl (hl _)
  rcases List.mem_append.1 h with h | h
  · exact List.mem_append_left _ (mem_positive.2 (hk (by simp) (mem_positive.1 h)))
  · exact List.mem_append_right _ (mem_negative.2 (hk (by simp) (mem_negative.1 h)))

theorem importsMergeable {order : Pat α → List SVar} (hok : ProgramOK ss) (h : QueriesOK order W q ss) : ImportsMergeable order W ((incProgram ss).map (toStmt q)) := by
  have hcorr := incStmts_rules (inc := incrementalPredicates ss) (derived := derivedPreds ss) ss 0
  have hpriv : ∀ r, .rule r ∈ incProgram ss → ∀ c ∈ r.clauses, ∃ t i, c.pred = privTag t i := by
    intro r hr c hc
    obtain ⟨-, t, i, -, h1⟩ := incStmts_clause inc_not_derived ss 0 hr hc
    exact ⟨t, i, h1⟩
  have hold : ∀ r, .rule r ∈ incProgram ss → ∃ r0, .rule r0 ∈ ss ∧ r.base.head = r0.head ∧
      (∀ a ∈ r.base.toS.positive ++ r.base.toS.negative, a ∈ r0.toS.positive ++ r0.toS.negative) ∧
      (r.clauses = [] ∨ ∃ id, r = (incRule (incrementalPredicates ss) (derivedPreds ss) r0 id).1) := by
    intro r hr
    obtain ⟨r0, h1, h2⟩ := hcorr.1 r (mem_rulesOf.2 hr)
    rcases h2 with ⟨id, rfl⟩ | ⟨rfl, -⟩
    · exact ⟨r0, h1, rfl, fun a ha => toS_base_mem ha, .inr ⟨id, rfl⟩⟩
    · exact ⟨r0, h1, rfl, fun a ha => ha, .inl rfl⟩
  have hbody : ∀ r, .rule r ∈ incProgram ss → ∀ a ∈ r.base.toS.positive ++ r.base.toS.negative, ∀ t i, a.pred ≠ privTag t i := by
    intro r hr a ha
    obtain ⟨r0, h1, -, h2, -⟩ := hold r hr
    exact hok.names r0 h1 a (h2 a ha)
  constructor
  · intro r hr
    obtain ⟨r0, hr0, rfl⟩ := toStmt_rule.1 hr
    by_cases hne : r0.clauses = []
    · exact .inl (by rw [toRule, hne]; rfl)
    refine .inr (.inr ⟨⟨by simpa [toRule] using hne, fun c hc => ?_, fun a ha c hc he => ?_, fun c hc d hd he => ?_, h.clauses r0 hr0⟩, h.rules r0 hr0 hne⟩)
    · obtain ⟨c0, hc0, rfl⟩ := List.mem_map.1 hc
      obtain ⟨r1, h1, -, -, h2⟩ := hold r0 hr0
      rcases h2 with h2 | ⟨id, rfl⟩
      · exact absurd h2 hne
      · show c0.positive = true
        obtain ⟨a, d, h3, h6, h7, -⟩ := clause_atom _ _ hc0
        have h4 : isInc (incrementalPredicates ss) a.pred = true := isInc_iff.2 ⟨d, h6, h7⟩
        cases hp : c0.positive with
        | true => rfl
        | false =>
          rw [hp] at h3
          rw [h.positive r1 h1 a (lit_negative.1 h3)] at h4
          cases h4
    · obtain ⟨c0, hc0, rfl⟩ := List.mem_map.1 hc
      obtain ⟨t, i, h1⟩ := hpriv r0 hr0 c0 hc0
      exact hbody r0 hr0 a ha t i (he.symm.trans h1)
    · obtain ⟨c0, hc0, rfl⟩ := List.mem_map.1 hc
      obtain ⟨d0, hd0, rfl⟩ := List.mem_map.1 hd
      obtain ⟨r1, h1, -, -, h2⟩ := hold r0 hr0
      rcases h2 with h2 | ⟨id, rfl⟩
      · exact absurd h2 hne
      · rw [clause_distinct inc_not_derived _ _ hc0 hd0 he]
  · intro r hr c hc row hf
    obtain ⟨r0, hr0, rfl⟩ := toStmt_rule.1 hr
    obtain ⟨c0, hc0, rfl⟩ := List.mem_map.1 hc
    obtain ⟨t, i, h1⟩ := hpriv r0 hr0 c0 hc0
    exact h.facts _ _ ((mem_incStmts_fact ss 0 _ _).1 (toStmt_fact.1 hf)) t i h1
  · intro r hr c hc e he hp
    obtain ⟨r0, hr0, rfl⟩ := toStmt_rule.1 hr
    obtain ⟨c0, hc0, rfl⟩ := List.mem_map.1 hc
    obtain ⟨t, i, h1⟩ := hpriv r0 hr0 c0 hc0
    obtain ⟨d, hd, rfl⟩ := toStmt_imp.1 he
    exact h.imports d (imp_old hd) t i (hp.trans h1)
  · intro r hr c hc r' hr' x hx hp
    obtain ⟨r0, hr0, rfl⟩ := toStmt_rule.1 hr
    obtain ⟨c0, hc0, rfl⟩ := List.mem_map.1 hc
    obtain ⟨t, i, h1⟩ := hpriv r0 hr0 c0 hc0
    obtain ⟨r1, hr1, rfl⟩ := toStmt_rule.1 hr'
    obtain ⟨r2, h2, h3, -⟩ := hold r1 hr1
    exact h.heads r2 h2 x (h3 ▸ hx) t i (hp.trans h1)
  · intro r hr c hc r' hr' a ha hp
    obtain ⟨r0, hr0, rfl⟩ := toStmt_rule.1 hr
    obtain ⟨c0, hc0, rfl⟩ := List.mem_map.1 hc
    obtain ⟨t, i, h1⟩ := hpriv r0 hr0 c0 hc0
    obtain ⟨r1, hr1, rfl⟩ := toStmt_rule.1 hr'
    exact hbody r1 hr1 a ha t i (hp.trans h1)
  · intro r hr c hc r' hr' c' hc' hp
    obtain ⟨r0, hr0, rfl⟩ := toStmt_rule.1 hr
    obtain ⟨c0, hc0, rfl⟩ := List.mem_map.1 hc
    obtain ⟨r1, hr1, rfl⟩ := toStmt_rule.1 hr'
    obtain ⟨c1, hc1, rfl⟩ := List.mem_map.1 hc'
    rw [incStmts_distinct inc_not_derived ss 0 hr0 hr1 hc0 hc1 hp]

/-- **SPARQL imports that are queried on demand, with merged queries, lead to the same results as imports that are loaded completely.** -/
theorem sparql_imports_partial {order : Pat α → List SVar} (ho : Enumerates order) (hok : ProgramOK ss) (hq : Represents W u q ss) (h : QueriesOK order W q ss) :
    ∃ ts, mergeProgram order ((incProgram ss).map (toStmt q)) = some ts ∧
      (∀ M, SIsStable ((rulesOf ss).map WRule.toS) (given ss) M → ∃ M', QIsStable W u (qrules ts) (qgiven W u ts) M' ∧
        ∀ p, Visible ss p → ∀ row, M' p row ↔ M p row) ∧
      (∀ M', QIsStable W u (qrules ts) (qgiven W u ts) M' → ∃ M, SIsStable ((rulesOf ss).map WRule.toS) (given ss) M ∧
        ∀ p, Visible ss p → ∀ row, M' p row ↔ M p row) := by
  obtain ⟨ts, h1, h2, h3⟩ := merge_imports_partial (u := u) ho (importsMergeable hok h)
  obtain ⟨h4, h5⟩ := incremental_stable_partial hok
  have hvis : ∀ p, Visible ss p → ∀ r, QStmt.rule r ∈ (incProgram ss).map (toStmt q) → ∀ c ∈ r.clauses, c.pred ≠ p := by
    intro p hp r hr c hc he
    obtain ⟨r0, hr0, rfl⟩ := toStmt_rule.1 hr
    obtain ⟨c0, hc0, rfl⟩ := List.mem_map.1 hc
    obtain ⟨-, t, i, -, h6⟩ := incStmts_clause inc_not_derived ss 0 hr0 hc0
    have h7 : p = privTag t i := he.symm.trans h6
    rcases hp with hp | ⟨r1, h8, x, h9, h10⟩
    · exact h.outputs p hp t i h7
    · exact h.heads r1 h8 x h9 t i (h10.trans h7)
  refine ⟨ts, h1, fun M hM => ?_, fun M' hM' => ?_⟩
  · obtain ⟨K, h6, h7⟩ := h4 M hM
    obtain ⟨M', h8, h9⟩ := h2 K ((toStmt_stable hq K).2 h6)
    exact ⟨M', h8, fun p hp row => by rw [h9 p (hvis p hp)]; exact h7 p hp row⟩
  · obtain ⟨K, h6, h7⟩ := h3 M' hM'
    obtain ⟨M, h8, h9⟩ := h5 K ((toStmt_stable hq K).1 h6)
    exact ⟨M, h8, fun p hp row => by rw [h7 p (hvis p hp)]; exact h9 p hp row⟩

end
end Verif.Sq
