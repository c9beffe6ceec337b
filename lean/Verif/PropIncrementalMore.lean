import Verif.PropIncremental

/-!
# C59: import clauses instead of imports, for programs
-/

set_option linter.unusedSimpArgs false
set_option linter.unusedSectionVars false

namespace Verif.Inc
open Verif
variable {α : Type}

/-! ## The incremental predicates -/

section preds

theorem importPass_normal (ss : List (Stmt α (WRule α))) (s : List (Directive α) × List Tag) {p : Tag} (h : p ∈ s.2) : p ∈ (importPass ss s).2 := by
  induction ss generalizing s with
  | nil => exact h
  | cons x ss ih =>
    cases x with
    | fact _ _ => exact ih s h
    | rule _ => exact ih s h
    | output _ => exact ih s h
    | imp d =>
      simp only [importPass]
      split
      · refine ih _ ?_
        dsimp only
        split
        · exact List.mem_cons_of_mem _ h
        · exact h
      · exact ih _ (List.mem_cons_of_mem _ h)

theorem importPass_from (ss : List (Stmt α (WRule α))) (s : List (Directive α) × List Tag) {d : Directive α} (h : d ∈ (importPass ss s).1) :
    d ∈ s.1 ∨ (.imp d ∈ ss ∧ d.endpoint ≠ none) := by
  induction ss generalizing s with
  | nil => exact .inl h
  | cons x ss ih =>
    cases x with
    | fact _ _ => exact (ih s h).imp id fun h => ⟨List.mem_cons_of_mem _ h.1, h.2⟩
    | rule _ => exact (ih s h).imp id fun h => ⟨List.mem_cons_of_mem _ h.1, h.2⟩
    | output _ => exact (ih s h).imp id fun h => ⟨List.mem_cons_of_mem _ h.1, h.2⟩
    | imp e =>
      simp only [importPass] at h
      split at h
      · rename_i k hk
        rcases ih _ h with h | h
        · simp only [List.mem_append, List.mem_filter, List.mem_singleton] at h
          rcases h with h | rfl
          · exact .inl h.1
          · exact .inr ⟨by simp, by simp [hk]⟩
        · exact .inr ⟨List.mem_cons_of_mem _ h.1, h.2⟩
      · exact (ih _ h).imp id fun h => ⟨List.mem_cons_of_mem _ h.1, h.2⟩

theorem importPass_keep (ss : List (Stmt α (WRule α))) (s : List (Directive α) × List Tag) {d : Directive α} (h : d ∈ s.1 ∨ .imp d ∈ ss) :
    d ∈ (importPass ss s).1 ∨ d.pred ∈ (importPass ss s).2 := by
  induction ss generalizing s with
  | nil => exact .inl (by simpa [importPass] using h)
  | cons x ss ih =>
    cases x with
    | fact _ _ => exact ih s (by simpa using h)
    | rule _ => exact ih s (by simpa using h)
    | output _ => exact ih s (by simpa using h)
    | imp e =>
      simp only [importPass]
      split
      · rename_i k hk
        by_cases he : d = e
        · subst he
          exact ih _ (.inl (by simp))
        · by_cases hd : d ∈ s.1
          · by_cases hp : d.pred = e.pred
            · right
              refine importPass_normal _ _ ?_
              have : isInc s.1 e.pred = true := isInc_iff.2 ⟨d, hd, hp⟩
              simp [this, hp]
            · exact ih _ (.inl (by simp [hd, hp]))
          · refine ih _ (.inr ?_)
            rcases h with h | h
            · exact absurd h hd
            · simp only [List.mem_cons, Stmt.imp.injEq] at h
              exact h.resolve_left he
      · by_cases he : d = e
        · subst he
          exact .inr (importPass_normal _ _ (by simp))
        · refine ih _ (h.imp id fun h => ?_)
          simp only [List.mem_cons, Stmt.imp.injEq] at h
          exact h.resolve_left he

theorem importPass_distinct (ss : List (Stmt α (WRule α))) (s : List (Directive α) × List Tag) (hs : ∀ d ∈ s.1, ∀ e ∈ s.1, d.pred = e.pred → d = e) :
    ∀ d ∈ (importPass ss s).1, ∀ e ∈ (importPass ss s).1, d.pred = e.pred → d = e := by
  induction ss generalizing s with
  | nil => exact hs
  | cons x ss ih =>
    cases x with
    | fact _ _ => exact ih s hs
    | rule _ => exact ih s hs
    | output _ => exact ih s hs
    | imp f =>
      simp only [importPass]
      split
      · refine ih _ fun d hd e he hp => ?_
        simp only [List.mem_append, List.mem_filter, List.mem_singleton, decide_eq_true_eq] at hd he
        rcases hd with hd | rfl <;> rcases he with he | rfl
        · exact hs d hd.1 e he.1 hp
        · exact absurd hp hd.2
        · exact absurd hp.symm he.2
        · rfl
      · exact ih _ hs

/-- What it means that a predicate is only imported, by a single import, and not shown to the user -/
structure OnlyImported (ss : List (Stmt α (WRule α))) (d : Directive α) : Prop where
  imported : .imp d ∈ ss
  sparql : d.endpoint ≠ none
  once : ∀ e, .imp e ∈ ss → e.pred = d.pred → e = d
  noFact : ∀ row, .fact d.pred row ∉ ss
  noHead : ∀ r, .rule r ∈ ss → ∀ h ∈ r.head, h.pred ≠ d.pred
  hidden : .output d.pred ∉ ss

/-- Only such imports are turned into clauses. -/
theorem incremental_onlyImported {ss : List (Stmt α (WRule α))} {d : Directive α} (h : d ∈ incrementalPredicates ss) : OnlyImported ss d := by
  simp only [incrementalPredicates, retain, List.mem_filter, decide_eq_true_eq, List.mem_append, List.mem_flatMap, not_or, not_exists, not_and] at h
  obtain ⟨⟨h1, h2⟩, -, h3⟩ := h
  have hd := importPass_distinct ss ([], []) (by simp)
  obtain ⟨h4, h5⟩ := (importPass_from ss _ h1).resolve_left (by simp)
  refine ⟨h4, h5, fun e he hp => ?_, fun row hr => h3 _ hr (by simp [normalOf]), fun r hr x hx hp => ?_, fun ho => h3 _ ho (by simp [normalOf])⟩
  · rcases importPass_keep ss ([], []) (.inr he) with g | g
    · exact hd e g d h1 hp
    · exact absurd (hp ▸ g) h2
  · refine h3 _ hr ?_
    simp only [normalOf, List.mem_append, List.mem_map]
    exact .inl ⟨x, hx, hp⟩

/-- There is at most one of these imports for each predicate. -/
theorem incremental_distinct {ss : List (Stmt α (WRule α))} {d e : Directive α} (hd : d ∈ incrementalPredicates ss)
    (he : e ∈ incrementalPredicates ss) (h : d.pred = e.pred) : d = e :=
  (incremental_onlyImported he).once d (incremental_onlyImported hd).imported h

end preds

/-! ## Programs -/

section programs
variable [DecidableEq α] [Dom α]

/-- Conditions on a program
* `conv`: see `Convertible`
* `oneEndpoint`: the imports that are used in one rule have the same endpoint
* `names`: the predicates of import clauses are not used in the program -/
structure ProgramOK (ss : List (Stmt α (WRule α))) : Prop where
  conv : ∀ r, .rule r ∈ ss → Convertible r fun p => isInc (incrementalPredicates ss) p = true
  oneEndpoint : ∀ r, .rule r ∈ ss → ∀ a ∈ r.toS.positive ++ r.toS.negative, ∀ b ∈ r.toS.positive ++ r.toS.negative, ∀ d e : Directive α, .imp d ∈ ss →
    .imp e ∈ ss → d.pred = a.pred → e.pred = b.pred → d.endpoint = e.endpoint
  names : ∀ r, .rule r ∈ ss → ∀ a ∈ r.toS.positive ++ r.toS.negative, ∀ p i, a.pred ≠ privTag p i

theorem mem_rulesOf {ρ : Type} {ss : List (Stmt α ρ)} {r : ρ} : r ∈ rulesOf ss ↔ .rule r ∈ ss := by
  simp only [rulesOf, List.mem_filterMap]
  constructor
  · rintro ⟨x, h1, h2⟩
    cases x <;> simp at h2
    subst h2; exact h1
  · intro h
    exact ⟨_, h, rfl⟩

theorem sderives_head {S : SRule α} {P N : Interp α} {p : Tag} {row : List α} (h : SDerives S P N p row) : ∃ x ∈ S.head, x.pred = p := by
  rcases h with ⟨-, h⟩ | ⟨-, h⟩ <;> cases h with
  | plain _ h => exact ⟨_, h, rfl⟩
  | agg _ h => exact ⟨_, h, rfl⟩

theorem sderives_mono {S : SRule α} {P Q N : Interp α} (hPQ : P.le Q) {p : Tag} {row : List α} (h : SDerives S P N p row) : SDerives S Q N p row := by
  rcases h with ⟨h1, h⟩ | h
  · refine .inl ⟨h1, ?_⟩
    cases h with
    | plain hb hh hc hv => exact .plain ⟨fun a ha => (hb.pos a ha).imp fun row h => ⟨hPQ _ _ h.1, h.2⟩, hb.ops, hb.neg, hb.defined⟩ hh hc hv
    | agg hb hh ht hk => exact absurd ⟨_, hh, _, ht, agg_count hk⟩ h1
  · exact .inr h

variable {inc : List (Directive α)} {derived : List Tag}

/-- Import clauses have private predicates. -/
theorem clause_pred (hd : ∀ d ∈ inc, d.pred ∉ derived) (ls : List (LLit α)) (id : Nat) {c : Clause α}
    (h : c ∈ (incBody inc derived ls id).clauses) : ∃ p k, id ≤ k ∧ c.pred = privTag p k := by
  induction ls generalizing id with
  | nil => simp [incBody] at h
  | cons l ls ih =>
    have new : ∀ (s : Bool) (a : SAtom α) (d : Directive α), inc.find? (fun d => decide (d.pred = a.pred)) = some d →
        c ∈ (clauseFor derived d s a id).1 :: (incBody inc derived ls (clauseFor derived d s a id).2).clauses → ∃ p k, id ≤ k ∧ c.pred = privTag p k := by
      intro s a d hf hc
      have hn := hd d (find_inc hf).1
      simp only [clauseFor, hn, if_false, List.mem_cons] at hc
      rcases hc with rfl | hc
      · exact ⟨_, id, le_refl _, rfl⟩
      · obtain ⟨p, k, h1, h2⟩ := ih _ hc
        exact ⟨p, k, by omega, h2⟩
    cases l with
    | positive a =>
      simp only [incBody] at h
      split at h
      · exact new _ _ _ (by assumption) h
      · exact ih _ h
    | negative a =>
      simp only [incBody] at h
      split at h
      · exact new _ _ _ (by assumption) h
      · exact ih _ h
    | operation o => exact ih _ h

theorem clause_distinct (hd : ∀ d ∈ inc, d.pred ∉ derived) (ls : List (LLit α)) (id : Nat) {c c' : Clause α}
    (h : c ∈ (incBody inc derived ls id).clauses) (h' : c' ∈ (incBody inc derived ls id).clauses) (hp : c.pred = c'.pred) : c = c' := by
  induction ls generalizing id with
  | nil => simp [incBody] at h
  | cons l ls ih =>
    have new : ∀ (s : Bool) (a : SAtom α) (d : Directive α), inc.find? (fun d => decide (d.pred = a.pred)) = some d →
        c ∈ (clauseFor derived d s a id).1 :: (incBody inc derived ls (clauseFor derived d s a id).2).clauses →
        c' ∈ (clauseFor derived d s a id).1 :: (incBody inc derived ls (clauseFor derived d s a id).2).clauses → c = c' := by
      intro s a d hf hc hc'
      have hn := hd d (find_inc hf).1
      simp only [clauseFor, hn, if_false, List.mem_cons] at hc hc'
      rcases hc with rfl | hc <;> rcases hc' with rfl | hc'
      · rfl
      · obtain ⟨p, k, h1, h2⟩ := clause_pred hd ls (id + 1) hc'
        rw [h2] at hp
        have := privTag_inj hp
        omega
      · obtain ⟨p, k, h1, h2⟩ := clause_pred hd ls (id + 1) hc
        rw [h2] at hp
        have := privTag_inj hp
        omega
      · exact ih _ hc hc'
    cases l with
    | positive a =>
      simp only [incBody] at h h'
      split at h
      · rename_i d hf
        rw [hf] at h'
        exact new _ _ _ hf h h'
      · rename_i hf
        rw [hf] at h'
        exact ih _ h h'
    | negative a =>
      simp only [incBody] at h h'
      split at h
      · rename_i d hf
        rw [hf] at h'
        exact new _ _ _ hf h h'
      · rename_i hf
        rw [hf] at h'
        exact ih _ h h'
    | operation o => exact ih _ h h'

/-- The facts, where the predicates of the imports contain the rows of the sources -/
def fill (inc : List (Directive α)) (J : Interp α) : Interp α := fun p row =>
  if isInc inc p then ∃ d ∈ inc, d.pred = p ∧ row ∈ d.content else J p row

theorem agree_load (hd : ∀ d ∈ inc, d.pred ∉ derived) (hu : ∀ d ∈ inc, ∀ e ∈ inc, d.pred = e.pred → d = e) {r : WRule α}
    (hn : ∀ a ∈ r.toS.positive ++ r.toS.negative, ∀ p i, a.pred ≠ privTag p i) (id : Nat) (J : Interp α) :
    Agree r inc derived id ((incRule inc derived r id).1.load J) (fill inc J) where
  kept a ha hi row := by
    have hne : ∀ c ∈ (incBody inc derived r.body id).clauses, c.pred ≠ a.pred := by
      intro c hc h
      obtain ⟨p, k, -, h2⟩ := clause_pred hd _ _ hc
      exact hn a ha p k (h ▸ h2)
    simp only [CRule.load, fill, hi, inc_clauses]
    constructor
    · rintro (⟨c, h1, h2, -⟩ | ⟨-, h⟩)
      · exact absurd h2 (hne c h1)
      · simpa using h
    · intro h
      exact .inr ⟨hne, by simpa using h⟩
  clause c hc row := by
    obtain ⟨a, d, g1, g2, g3, g4, g5, -, -⟩ := clause_atom _ _ hc
    have hi : isInc inc c.origin = true := isInc_iff.2 ⟨d, g2, g3.trans g4.symm⟩
    simp only [CRule.load, fill, hi, if_true, inc_clauses]
    constructor
    · rintro (⟨c', h1, h2, h3⟩ | ⟨h, -⟩)
      · rw [clause_distinct hd _ _ h1 hc h2, g5] at h3
        exact ⟨d, g2, g3.trans g4.symm, h3⟩
      · exact absurd rfl (h c hc)
    · rintro ⟨e, h1, h2, h3⟩
      rw [hu e h1 d g2 (h2.trans (g4.trans g3.symm)), ← g5] at h3
      exact .inl ⟨c, hc, rfl, h3⟩

/-- `r'` is the rule that replaces `r`. -/
def Corr (inc : List (Directive α)) (derived : List Tag) (r : WRule α) (r' : CRule α) : Prop :=
  (∃ id, r' = (incRule inc derived r id).1) ∨ (r' = ⟨r, []⟩ ∧ (bodyEndpoints inc r).length ≠ 1)

theorem incStmts_rules (ss : List (Stmt α (WRule α))) (id : Nat) :
    (∀ r' ∈ rulesOf (incStmts inc derived ss id), ∃ r, .rule r ∈ ss ∧ Corr inc derived r r') ∧
    ∀ r, .rule r ∈ ss → ∃ r' ∈ rulesOf (incStmts inc derived ss id), Corr inc derived r r' := by
  induction ss generalizing id with
  | nil => simp [incStmts, rulesOf]
  | cons x ss ih =>
    have skip : ∀ (y : List (Stmt α (CRule α))) (id : Nat), (∀ r, x ≠ .rule r) → rulesOf y = rulesOf (incStmts inc derived ss id) →
        (∀ r' ∈ rulesOf y, ∃ r, .rule r ∈ x :: ss ∧ Corr inc derived r r') ∧ ∀ r, .rule r ∈ x :: ss → ∃ r' ∈ rulesOf y, Corr inc derived r r' := by
      intro y id hx hy
      rw [hy]
      refine ⟨fun r' h => ?_, fun r h => ?_⟩
      · obtain ⟨r, h1, h2⟩ := (ih id).1 r' h
        exact ⟨r, List.mem_cons_of_mem _ h1, h2⟩
      · exact (ih id).2 r ((List.mem_cons.1 h).resolve_left fun h => hx r h.symm)
    have keep : ∀ (r : WRule α) (r' : CRule α) (id : Nat), x = .rule r → Corr inc derived r r' →
        (∀ r'' ∈ rulesOf (.rule r' :: incStmts inc derived ss id), ∃ r, .rule r ∈ x :: ss ∧ Corr inc derived r r'') ∧
        ∀ r, .rule r ∈ x :: ss → ∃ r'' ∈ rulesOf (.rule r' :: incStmts inc derived ss id), Corr inc derived r r'' := by
      intro r r' id hx hc
      have hr : rulesOf (.rule r' :: incStmts inc derived ss id) = r' :: rulesOf (incStmts inc derived ss id) := rfl
      rw [hr]
      refine ⟨fun r'' h => ?_, fun r2 h => ?_⟩
      · rcases List.mem_cons.1 h with rfl | h
        · exact ⟨r, by simp [hx], hc⟩
        · obtain ⟨r, h1, h2⟩ := (ih id).1 r'' h
          exact ⟨r, List.mem_cons_of_mem _ h1, h2⟩
      · rcases List.mem_cons.1 h with h | h
        · rw [hx, Stmt.rule.injEq] at h
          subst h
          exact ⟨r', by simp, hc⟩
        · obtain ⟨r'', h1, h2⟩ := (ih id).2 r2 h
          exact ⟨r'', List.mem_cons_of_mem _ h1, h2⟩
    cases x with
    | fact p row => exact skip _ id (by simp) rfl
    | output p => exact skip _ id (by simp) rfl
    | imp d =>
      simp only [incStmts]
      split
      · exact skip _ id (by simp) rfl
      · exact skip _ id (by simp) rfl
    | rule r =>
      simp only [incStmts]
      split
      · exact keep r _ _ rfl (.inl ⟨id, rfl⟩)
      · rename_i h
        exact keep r _ _ rfl (.inr ⟨rfl, h⟩)

theorem mem_incStmts_fact (ss : List (Stmt α (WRule α))) (id : Nat) (p : Tag) (row : List α) : .fact p row ∈ incStmts inc derived ss id ↔ .fact p row ∈ ss := by
  induction ss generalizing id with
  | nil => simp [incStmts]
  | cons x ss ih =>
    cases x with
    | fact q row' => simp [incStmts, ih]
    | output q => simp [incStmts, ih]
    | imp d => simp only [incStmts]; split <;> simp [ih]
    | rule r => simp only [incStmts]; split <;> simp [ih]

theorem mem_incStmts_imp (ss : List (Stmt α (WRule α))) (id : Nat) (d : Directive α) :
    .imp d ∈ incStmts inc derived ss id ↔ .imp d ∈ ss ∧ isInc inc d.pred = false := by
  induction ss generalizing id with
  | nil => simp [incStmts]
  | cons x ss ih =>
    cases x with
    | fact q row' => simp [incStmts, ih]
    | output q => simp [incStmts, ih]
    | imp e =>
      simp only [incStmts]
      split
      · rename_i h
        simp only [ih, List.mem_cons, Stmt.imp.injEq]
        refine ⟨fun g => ⟨.inr g.1, g.2⟩, fun g => ⟨g.1.resolve_left ?_, g.2⟩⟩
        rintro rfl
        rw [h] at g
        simp at g
      · rename_i h
        simp only [ih, List.mem_cons, Stmt.imp.injEq]
        refine ⟨?_, fun g => g.1.imp _root_.id fun g' => ⟨g', g.2⟩⟩
        rintro (rfl | g)
        · exact ⟨.inl rfl, by simpa using h⟩
        · exact ⟨.inr g.1, g.2⟩
    | rule r => simp only [incStmts]; split <;> simp [ih]

theorem given_incStmts (ss : List (Stmt α (WRule α))) (id : Nat) (p : Tag) (row : List α) : given (incStmts inc derived ss id) p row ↔
    .fact p row ∈ ss ∨ ∃ d : Directive α, .imp d ∈ ss ∧ isInc inc d.pred = false ∧ d.pred = p ∧ row ∈ d.content := by
  simp only [given, mem_incStmts_fact, mem_incStmts_imp, and_assoc]

theorem mem_derivedPreds {ss : List (Stmt α (WRule α))} {p : Tag} (h : p ∈ derivedPreds ss) :
    (∃ row, .fact p row ∈ ss) ∨ ∃ r, .rule r ∈ ss ∧ ∃ x ∈ r.head, x.pred = p := by
  induction ss with
  | nil => simp [derivedPreds] at h
  | cons x ss ih =>
    have up : p ∈ derivedPreds ss → (∃ row, .fact p row ∈ x :: ss) ∨ ∃ r, .rule r ∈ x :: ss ∧ ∃ x ∈ r.head, x.pred = p := fun h =>
      (ih h).imp (fun ⟨row, h⟩ => ⟨row, List.mem_cons_of_mem _ h⟩) (fun ⟨r, h, h'⟩ => ⟨r, List.mem_cons_of_mem _ h, h'⟩)
    cases x with
    | fact q row =>
      rcases List.mem_cons.1 h with rfl | h
      · exact .inl ⟨row, by simp⟩
      · exact up h
    | output q => exact up h
    | imp d => exact up h
    | rule r =>
      rcases List.mem_append.1 h with h | h
      · exact .inr ⟨r, by simp, by simpa using h⟩
      · exact up h

variable {ss : List (Stmt α (WRule α))}

theorem inc_not_derived : ∀ d ∈ incrementalPredicates ss, d.pred ∉ derivedPreds ss := by
  intro d hd h
  have ho := incremental_onlyImported hd
  rcases mem_derivedPreds h with ⟨row, h⟩ | ⟨r, h1, x, h2, h3⟩
  · exact ho.noFact row h
  · exact ho.noHead r h1 x h2 h3

theorem head_not_inc {r : WRule α} (hr : .rule r ∈ ss) {x : SHead α} (hx : x ∈ r.head) : isInc (incrementalPredicates ss) x.pred = false := by
  rw [Bool.eq_false_iff]
  intro h
  obtain ⟨d, h1, h2⟩ := isInc_iff.1 h
  exact (incremental_onlyImported h1).noHead r hr x hx h2.symm

/-- Rules that are not changed do not use the imports. -/
theorem unchanged_not_inc (hok : ProgramOK ss) {r : WRule α} (hr : .rule r ∈ ss) (h : (bodyEndpoints (incrementalPredicates ss) r).length ≠ 1) :
    ∀ a ∈ r.toS.positive ++ r.toS.negative, isInc (incrementalPredicates ss) a.pred = false := by
  intro a ha
  rw [Bool.eq_false_iff]
  intro hi
  obtain ⟨d, h1, h2⟩ := isInc_iff.1 hi
  apply h
  have hall : ∀ x ∈ bodyEndpoints (incrementalPredicates ss) r, x = d.endpoint := by
    intro x hx
    simp only [bodyEndpoints, List.mem_dedup, List.mem_map, List.mem_filter, List.any_eq_true, decide_eq_true_eq] at hx
    obtain ⟨e, ⟨h3, b, h4, h5⟩, rfl⟩ := hx
    exact hok.oneEndpoint r hr b h4 a ha e d (incremental_onlyImported h3).imported (incremental_onlyImported h1).imported h5.symm h2
  have hmem : d.endpoint ∈ bodyEndpoints (incrementalPredicates ss) r := by
    simp only [bodyEndpoints, List.mem_dedup, List.mem_map, List.mem_filter, List.any_eq_true, decide_eq_true_eq]
    exact ⟨d, ⟨h1, a, ha, h2.symm⟩, rfl⟩
  have hnd : (bodyEndpoints (incrementalPredicates ss) r).Nodup := List.nodup_dedup _
  revert hall hmem hnd
  generalize bodyEndpoints (incrementalPredicates ss) r = l
  intro hall hmem hnd
  match l with
  | [] => simp at hmem
  | [x] => rfl
  | x :: y :: l =>
    exfalso
    have h1 := hall x (by simp)
    have h2 := hall y (by simp)
    rw [h1, h2] at hnd
    simp at hnd

theorem corr_derives (hok : ProgramOK ss) {r : WRule α} (hr : .rule r ∈ ss) {r' : CRule α} (hc : Corr (incrementalPredicates ss) (derivedPreds ss) r r')
    (J K : Interp α) (p : Tag) (row : List α) :
    CDerives r' J K p row ↔ SDerives r.toS (fill (incrementalPredicates ss) J) (fill (incrementalPredicates ss) K) p row := by
  rcases hc with ⟨id, rfl⟩ | ⟨rfl, h⟩
  · have hag := agree_load (r := r) (inc_not_derived (ss := ss)) (fun d hd e he => incremental_distinct hd he) (hok.names r hr) id
    exact inc_derives (hok.conv r hr) (hag J) (hag K) p row
  · have hn := unchanged_not_inc hok hr h
    have key : ∀ I : Interp α, ∀ a ∈ r.toS.positive ++ r.toS.negative, ∀ row, CRule.load (⟨r, []⟩ : CRule α) I a.pred row ↔
        fill (incrementalPredicates ss) I a.pred row := by
      intro I a ha row
      simp [CRule.load, fill, hn a ha]
    have hS : (⟨r, []⟩ : CRule α).toS = r.toS := by simp [CRule.toS]
    have hb : ∀ J K : Interp α, ∀ σ, SBody r.toS (CRule.load (⟨r, []⟩ : CRule α) J) (CRule.load (⟨r, []⟩ : CRule α) K) σ ↔
        SBody r.toS (fill (incrementalPredicates ss) J) (fill (incrementalPredicates ss) K) σ := by
      intro J K σ
      constructor
      · intro h
        refine ⟨fun a ha => ?_, h.ops, fun a ha => ?_, h.defined⟩
        · obtain ⟨row, h1, h2⟩ := h.pos a ha
          exact ⟨row, (key J a (List.mem_append_left _ ha) row).1 h1, h2⟩
        · rintro ⟨τ, row, h1, h2, h3⟩
          exact h.neg a ha ⟨τ, row, h1, (key K a (List.mem_append_right _ ha) row).2 h2, h3⟩
      · intro h
        refine ⟨fun a ha => ?_, h.ops, fun a ha => ?_, h.defined⟩
        · obtain ⟨row, h1, h2⟩ := h.pos a ha
          exact ⟨row, (key J a (List.mem_append_left _ ha) row).2 h1, h2⟩
        · rintro ⟨τ, row, h1, h2, h3⟩
          exact h.neg a ha ⟨τ, row, h1, (key K a (List.mem_append_right _ ha) row).1 h2, h3⟩
    simp only [CDerives, SDerives, hS]
    rw [show SBody r.toS (CRule.load (⟨r, []⟩ : CRule α) J) (CRule.load (⟨r, []⟩ : CRule α) K) = _ from funext fun σ => propext (hb J K σ),
      show SBody r.toS (CRule.load (⟨r, []⟩ : CRule α) K) (CRule.load (⟨r, []⟩ : CRule α) K) = _ from funext fun σ => propext (hb K K σ)]

theorem given_inc_iff {p : Tag} {row : List α} (h : isInc (incrementalPredicates ss) p = true) :
    given ss p row ↔ ∃ d ∈ incrementalPredicates ss, d.pred = p ∧ row ∈ d.content := by
  obtain ⟨d, h1, h2⟩ := isInc_iff.1 h
  have ho := incremental_onlyImported h1
  constructor
  · rintro (h | ⟨e, h3, h4, h5⟩)
    · exact absurd (h2 ▸ h) (ho.noFact row)
    · rw [ho.once e h3 (h4.trans h2.symm)] at h5
      exact ⟨d, h1, h2, h5⟩
  · rintro ⟨e, h3, h4, h5⟩
    exact .inr ⟨e, (incremental_onlyImported h3).imported, h4, h5⟩

theorem given_other_iff {p : Tag} {row : List α} (h : isInc (incrementalPredicates ss) p = false) :
    given (incProgram ss) p row ↔ given ss p row := by
  unfold incProgram
  rw [given_incStmts]
  unfold given
  refine or_congr Iff.rfl ⟨fun ⟨d, h1, _, h3⟩ => ⟨d, h1, h3⟩, fun ⟨d, h1, h3⟩ => ⟨d, h1, ?_, h3⟩⟩
  rw [h3.1]; exact h

theorem given_incProgram_not {p : Tag} {row : List α} (h : given (incProgram ss) p row) : isInc (incrementalPredicates ss) p = false := by
  unfold incProgram at h
  rcases (given_incStmts _ _ _ _).1 h with h | ⟨d, -, h2, rfl, -⟩
  · rw [Bool.eq_false_iff]
    intro hi
    obtain ⟨d, h1, h2⟩ := isInc_iff.1 hi
    exact (incremental_onlyImported h1).noFact row (h2 ▸ h)
  · exact h2

/-- Closed sets of facts of both programs correspond to each other. -/
theorem closed_iff (hok : ProgramOK ss) (K J : Interp α) : CClosedUnder (rulesOf (incProgram ss)) (given (incProgram ss)) K J ↔
    SClosedUnder ((rulesOf ss).map WRule.toS) (given ss) (fill (incrementalPredicates ss) K) (fill (incrementalPredicates ss) J) := by
  have hrules := incStmts_rules (inc := incrementalPredicates ss) (derived := derivedPreds ss) ss 0
  constructor
  · rintro ⟨h1, h2⟩
    refine ⟨fun p row h => ?_, fun S hS p row h => ?_⟩
    · unfold fill
      by_cases hi : isInc (incrementalPredicates ss) p = true
      · rw [if_pos hi]; exact (given_inc_iff hi).1 h
      · rw [if_neg hi]; exact h1 p row ((given_other_iff (by simpa using hi)).2 h)
    · obtain ⟨r, hr, rfl⟩ := List.mem_map.1 hS
      have hr' := mem_rulesOf.1 hr
      obtain ⟨r', g1, g2⟩ := hrules.2 r hr'
      obtain ⟨x, hx, rfl⟩ := sderives_head h
      unfold fill
      rw [if_neg (by rw [head_not_inc hr' hx]; simp)]
      exact h2 r' g1 _ _ ((corr_derives hok hr' g2 J K _ _).2 h)
  · rintro ⟨h1, h2⟩
    refine ⟨fun p row h => ?_, fun r' hr' p row h => ?_⟩
    · have hi := given_incProgram_not h
      have := h1 p row ((given_other_iff hi).1 h)
      unfold fill at this
      rwa [if_neg (by rw [hi]; simp)] at this
    · obtain ⟨r, g1, g2⟩ := hrules.1 r' hr'
      have h3 := (corr_derives hok g1 g2 J K _ _).1 h
      have h4 := h2 r.toS (List.mem_map.2 ⟨r, mem_rulesOf.2 g1, rfl⟩) _ _ h3
      obtain ⟨x, hx, rfl⟩ := sderives_head h3
      unfold fill at h4
      rwa [if_neg (by rw [head_not_inc g1 hx]; simp)] at h4

theorem closed_cut {N I : Interp α} (h : SClosedUnder ((rulesOf ss).map WRule.toS) (given ss) N I) :
    SClosedUnder ((rulesOf ss).map WRule.toS) (given ss) N (fill (incrementalPredicates ss) I) := by
  have hle : (fill (incrementalPredicates ss) I).le I := by
    intro p row hf
    unfold fill at hf
    split at hf
    · rename_i hi
      exact h.1 p row ((given_inc_iff hi).2 hf)
    · exact hf
  refine ⟨fun p row hg => ?_, fun S hS p row hd => ?_⟩
  · unfold fill
    by_cases hi : isInc (incrementalPredicates ss) p = true
    · rw [if_pos hi]; exact (given_inc_iff hi).1 hg
    · rw [if_neg hi]; exact h.1 p row hg
  · have h3 := h.2 S hS p row (sderives_mono hle hd)
    obtain ⟨r, hr, rfl⟩ := List.mem_map.1 hS
    obtain ⟨x, hx, rfl⟩ := sderives_head hd
    unfold fill
    rw [if_neg (by rw [head_not_inc (mem_rulesOf.1 hr) hx]; simp)]
    exact h3

theorem least_fill (hok : ProgramOK ss) (K : Interp α) : SLeastModel ((rulesOf ss).map WRule.toS) (given ss) (fill (incrementalPredicates ss) K) =
    fill (incrementalPredicates ss) (CLeastModel (rulesOf (incProgram ss)) (given (incProgram ss)) K) := by
  funext p row
  refine propext ⟨fun h => ?_, fun h I hI => ?_⟩
  · by_cases hi : isInc (incrementalPredicates ss) p = true
    · have := h (fill (incrementalPredicates ss) fun _ _ => True) (closed_cut ⟨fun _ _ _ => trivial, fun _ _ _ _ _ => trivial⟩)
      unfold fill at this ⊢
      rw [if_pos hi] at this ⊢
      exact this
    · unfold fill
      rw [if_neg hi]
      intro J hJ
      have := h _ ((closed_iff hok K J).1 hJ)
      unfold fill at this
      rwa [if_neg hi] at this
  · have hcut := closed_cut hI
    by_cases hi : isInc (incrementalPredicates ss) p = true
    · unfold fill at h
      rw [if_pos hi] at h
      exact hI.1 p row ((given_inc_iff hi).2 h)
    · unfold fill at h
      rw [if_neg hi] at h
      exact h I ((closed_iff hok K I).2 hcut)

theorem stable_inc {M : Interp α} (h : SIsStable ((rulesOf ss).map WRule.toS) (given ss) M) : fill (incrementalPredicates ss) M = M := by
  funext p row
  unfold fill
  by_cases hi : isInc (incrementalPredicates ss) p = true
  · rw [if_pos hi]
    refine propext ⟨fun g => ?_, fun g => ?_⟩
    · rw [h]
      exact fun I hI => hI.1 p row ((given_inc_iff hi).2 g)
    · rw [h] at g
      have := g (fill (incrementalPredicates ss) fun _ _ => True) (closed_cut ⟨fun _ _ _ => trivial, fun _ _ _ _ _ => trivial⟩)
      unfold fill at this
      rwa [if_pos hi] at this
  · rw [if_neg hi]

theorem fill_hide (M : Interp α) : fill inc (fun p row => isInc inc p = false ∧ M p row) = fill inc M := by
  funext p row
  unfold fill
  by_cases hi : isInc inc p = true
  · rw [if_pos hi, if_pos hi]
  · rw [if_neg hi, if_neg hi]
    simp [hi]

/-- The predicates that are shown to the user: those that are exported, and those that are derived by rules -/
def Visible (ss : List (Stmt α (WRule α))) (p : Tag) : Prop := .output p ∈ ss ∨ ∃ r, .rule r ∈ ss ∧ ∃ x ∈ r.head, x.pred = p

theorem visible_not_inc {p : Tag} (h : Visible ss p) : isInc (incrementalPredicates ss) p = false := by
  rcases h with h | ⟨r, h1, x, h2, rfl⟩
  · rw [Bool.eq_false_iff]
    intro hi
    obtain ⟨d, h1, h2⟩ := isInc_iff.1 hi
    exact (incremental_onlyImported h1).hidden (h2 ▸ h)
  · exact head_not_inc h1 h2

/-- **C59: import clauses instead of imports.**  Each meaning of the program is a meaning of the transformed program and vice versa, as
far as visible predicates are concerned. -/
theorem incremental_stable_partial (hok : ProgramOK ss) :
    (∀ M, SIsStable ((rulesOf ss).map WRule.toS) (given ss) M → ∃ M', CIsStable (rulesOf (incProgram ss)) (given (incProgram ss)) M' ∧
      ∀ p, Visible ss p → ∀ row, M' p row ↔ M p row) ∧
    (∀ M', CIsStable (rulesOf (incProgram ss)) (given (incProgram ss)) M' → ∃ M, SIsStable ((rulesOf ss).map WRule.toS) (given ss) M ∧
      ∀ p, Visible ss p → ∀ row, M' p row ↔ M p row) := by
  constructor
  · intro M hM
    have hf := stable_inc hM
    refine ⟨fun p row => isInc (incrementalPredicates ss) p = false ∧ M p row, ?_, fun p hp row => by simp [visible_not_inc hp]⟩
    have hl := least_fill hok fun p row => isInc (incrementalPredicates ss) p = false ∧ M p row
    rw [fill_hide, hf, ← hM] at hl
    unfold CIsStable
    funext p row
    by_cases hi : isInc (incrementalPredicates ss) p = true
    · refine propext ⟨fun h => absurd h.1 (by simp [hi]), fun h => ?_⟩
      have := h (fun p _ => isInc (incrementalPredicates ss) p = false) ⟨fun p row h => given_incProgram_not h, fun r' hr' p row h => ?_⟩
      · rw [hi] at this; simp at this
      · obtain ⟨r, g1, g2⟩ := (incStmts_rules (inc := incrementalPredicates ss) (derived := derivedPreds ss) ss 0).1 r' hr'
        obtain ⟨x, hx, rfl⟩ := sderives_head ((corr_derives hok g1 g2 _ _ _ _).1 h)
        exact head_not_inc g1 hx
    · have := congrFun (congrFun hl p) row
      unfold fill at this
      rw [if_neg hi] at this
      rw [← this]
      simp [hi]
  · intro M' hM'
    refine ⟨fill (incrementalPredicates ss) M', ?_, fun p hp row => by simp [fill, visible_not_inc hp]⟩
    unfold SIsStable
    rw [least_fill hok, ← hM']

end programs

/-! ## Imports are restricted -/

section restricted

/-- The variable gets values without imports. -/
inductive Bound (r : WRule α) (inc : List (Directive α)) : Variable → Prop
  | atom {a : SAtom α} {v : Variable} : a ∈ r.toS.positive → isInc inc a.pred = false → v ∈ atomVariables a → Bound r inc v
  | assign {o e : Operation α} {v : Variable} : o ∈ r.toS.operations → o.variableAssignment = some (v, e) → (∀ w ∈ e.vars, Bound r inc w) → Bound r inc v

/-- The atom shares a named variable with the rest of the rule: one that gets values without imports, or one of a restricted atom with the same
predicate (these are merged into one query). -/
inductive Restricted (r : WRule α) (inc : List (Directive α)) : SAtom α → Prop
  | bound {a : SAtom α} {v : Variable} : v ∈ atomVariables a → v ≠ anonVar → Bound r inc v → Restricted r inc a
  | merged {a b : SAtom α} {v : Variable} : b ∈ r.toS.positive → b.pred = a.pred → Restricted r inc b → v ∈ atomVariables b → v ∈ atomVariables a →
      v ≠ anonVar → Restricted r inc a

variable {r : WRule α} {inc : List (Directive α)}

theorem assignPass_bound (os : List (Operation α)) (hos : ∀ o ∈ os, o ∈ r.toS.operations) (av : List Variable) (h : ∀ v ∈ av, Bound r inc v) :
    ∀ v ∈ assignPass os av, Bound r inc v := by
  induction os generalizing av with
  | nil => exact h
  | cons o os ih =>
    have ho := fun o h => hos o (List.mem_cons_of_mem _ h)
    simp only [assignPass]
    split
    · rename_i v e he
      split
      · rename_i hc
        refine ih ho _ fun w hw => ?_
        rcases List.mem_cons.1 hw with rfl | hw
        · exact .assign (hos o (by simp)) he fun w hw => h w (hc.1 w hw)
        · exact h w hw
      · exact ih ho _ h
    · exact ih ho _ h

theorem assignLoop_bound (n : Nat) (av : List Variable) (h : ∀ v ∈ av, Bound r inc v) :
    ∀ v ∈ assignLoop r.toS.operations n av, Bound r inc v := by
  induction n generalizing av with
  | zero => exact h
  | succ n ih =>
    simp only [assignLoop]
    split
    · exact assignPass_bound _ (fun _ h => h) _ h
    · exact ih _ (assignPass_bound _ (fun _ h => h) _ h)

theorem available_bound : ∀ v ∈ available r inc, Bound r inc v := by
  refine assignLoop_bound _ _ fun v hv => ?_
  obtain ⟨a, h1, h2⟩ := List.mem_flatMap.1 hv
  simp only [List.mem_filter, Bool.not_eq_true'] at h1
  exact .atom h1.1 h1.2 h2

/-- The meaning of the state -/
structure RestrOK (r : WRule α) (inc : List (Directive α)) (s : Restr) : Prop where
  nodup : s.done.Nodup
  done : ∀ i ∈ s.done, ∃ a, r.toS.positive[i]? = some a ∧ (isInc inc a.pred = true → (∃ t ∈ a.terms, isVar t = false) ∨ Restricted r inc a)
  after : ∀ p v, (p, v) ∈ s.after → ∃ b ∈ r.toS.positive, b.pred = p ∧ Restricted r inc b ∧ v ∈ atomVariables b

variable (hanon : ∀ a ∈ r.toS.positive, isInc inc a.pred = true → anonVar ∉ atomVariables a)
include hanon

theorem restrAtom_ok {x : SAtom α × Nat} (hx : r.toS.positive[x.2]? = some x.1) {s : Restr} (h : RestrOK r inc s) :
    RestrOK r inc (restrAtom inc (available r inc) x s).1 := by
  have push : ∀ (hn : x.2 ∉ s.done), (isInc inc x.1.pred = true → (∃ t ∈ x.1.terms, isVar t = false) ∨ Restricted r inc x.1) →
      RestrOK r inc { s with done := x.2 :: s.done } := by
    intro hn hr
    refine ⟨List.nodup_cons.2 ⟨hn, h.nodup⟩, fun i hi => ?_, h.after⟩
    rcases List.mem_cons.1 hi with rfl | hi
    · exact ⟨x.1, hx, hr⟩
    · exact h.done i hi
  unfold restrAtom
  split
  · exact h
  · rename_i hn
    split
    · rename_i hi
      exact push hn fun h => absurd h (by simpa using hi)
    · rename_i hi
      split
      · rename_i ht
        refine push hn fun _ => .inl ?_
        simpa using ht
      · split
        · rename_i hv
          have hinc : isInc inc x.1.pred = true := by simpa using hi
          have hmem := List.mem_of_getElem? hx
          have hr : Restricted r inc x.1 := by
            obtain ⟨v, h1, h2⟩ := List.any_eq_true.1 hv
            have hne : v ≠ anonVar := fun h => hanon x.1 hmem hinc (h ▸ h1)
            simp only [Bool.or_eq_true, decide_eq_true_eq] at h2
            rcases h2 with h2 | h2
            · exact .bound h1 hne (available_bound v h2)
            · obtain ⟨b, g1, g2, g3, g4⟩ := h.after _ _ h2
              exact .merged g1 g2 g3 g4 h1 hne
          have h2 := push hn fun _ => .inr hr
          refine ⟨h2.nodup, h2.done, fun p v hpv => ?_⟩
          rcases List.mem_append.1 hpv with hpv | hpv
          · obtain ⟨w, g1, g2⟩ := List.mem_map.1 hpv
            simp only [Prod.mk.injEq] at g2
            obtain ⟨rfl, rfl⟩ := g2
            exact ⟨x.1, hmem, rfl, hr, g1⟩
          · exact h.after p v hpv
        · exact h

theorem restrPass_ok (xs : List (SAtom α × Nat)) (hx : ∀ x ∈ xs, r.toS.positive[x.2]? = some x.1) (s : Restr) (c : Bool) (h : RestrOK r inc s) :
    RestrOK r inc (restrPass inc (available r inc) xs s c).1 := by
  induction xs generalizing s c with
  | nil => exact h
  | cons x xs ih => exact ih (fun y hy => hx y (List.mem_cons_of_mem _ hy)) _ _ (restrAtom_ok hanon (hx x (by simp)) h)

theorem restrLoop_ok (xs : List (SAtom α × Nat)) (hx : ∀ x ∈ xs, r.toS.positive[x.2]? = some x.1) (n : Nat) (s : Restr) (h : RestrOK r inc s) :
    RestrOK r inc (restrLoop inc (available r inc) xs n s) := by
  induction n generalizing s with
  | zero => exact h
  | succ n ih =>
    simp only [restrLoop]
    split
    · exact ih _ (restrPass_ok hanon xs hx s false h)
    · exact restrPass_ok hanon xs hx s false h

/-- `has_unrestricted_atom` finds all atoms that are not restricted. -/
theorem hasUnrestricted_sound (h : hasUnrestricted r inc = false) {a : SAtom α} (ha : a ∈ r.toS.positive) (hi : isInc inc a.pred = true) :
    (∃ t ∈ a.terms, isVar t = false) ∨ Restricted r inc a := by
  have hok := restrLoop_ok hanon r.toS.positive.zipIdx (fun x hx => by
    obtain ⟨y, i⟩ := x
    exact List.mem_zipIdx_iff_getElem?.1 hx) (r.toS.positive.length + 1) ⟨[], []⟩ ⟨by simp, by simp, by simp⟩
  simp only [hasUnrestricted, ne_eq, decide_not, Bool.not_eq_false', decide_eq_true_eq] at h
  revert hok h
  generalize restrLoop inc (available r inc) r.toS.positive.zipIdx (r.toS.positive.length + 1) ⟨[], []⟩ = s
  intro hok h
  obtain ⟨i, hi'⟩ := List.mem_iff_getElem?.1 ha
  have hsub : s.done ⊆ List.range r.toS.positive.length := by
    intro j hj
    obtain ⟨b, hb, -⟩ := hok.done j hj
    exact List.mem_range.2 (List.getElem?_eq_some_iff.1 hb).1
  have hperm : s.done.Perm (List.range r.toS.positive.length) :=
    (List.subperm_of_subset hok.nodup hsub).perm_of_length_le (by simp [h])
  have hmem : i ∈ s.done := hperm.mem_iff.2 (List.mem_range.2 (List.getElem?_eq_some_iff.1 hi').1)
  obtain ⟨b, hb, hr⟩ := hok.done i hmem
  rw [hi'] at hb
  cases hb
  exact hr hi

omit hanon in
theorem Bound.mono {inc' : List (Directive α)} (hs : ∀ d ∈ inc', d ∈ inc) {v : Variable} (h : Bound r inc v) : Bound r inc' v := by
  induction h with
  | @atom a v h1 h2 h3 =>
    refine .atom h1 ?_ h3
    rw [Bool.eq_false_iff] at h2 ⊢
    intro hc
    obtain ⟨d, g1, g2⟩ := isInc_iff.1 hc
    exact h2 (isInc_iff.2 ⟨d, hs d g1, g2⟩)
  | assign h1 h2 _ ih => exact .assign h1 h2 ih

omit hanon in
theorem Restricted.mono {inc' : List (Directive α)} (hs : ∀ d ∈ inc', d ∈ inc) {a : SAtom α} (h : Restricted r inc a) : Restricted r inc' a := by
  induction h with
  | bound h1 h2 h3 => exact .bound h1 h2 (h3.mono hs)
  | merged h1 h2 _ h4 h5 h6 ih => exact .merged h1 h2 ih h4 h5 h6

omit hanon in
/-- **C59: imports are restricted.**  If there are no anonymous variables in atoms of imported predicates, then each positive import clause
contains a constant or an expression, or shares a variable with other parts of its rule. -/
theorem incremental_restricted_partial {ss : List (Stmt α (WRule α))} (hr : .rule r ∈ ss)
    (hanon : ∀ a ∈ r.toS.positive, (∃ d : Directive α, .imp d ∈ ss ∧ d.pred = a.pred) → anonVar ∉ atomVariables a) {a : SAtom α} (ha : a ∈ r.toS.positive)
    (hi : isInc (incrementalPredicates ss) a.pred = true) : (∃ t ∈ a.terms, isVar t = false) ∨ Restricted r (incrementalPredicates ss) a := by
  obtain ⟨d, hd, hp⟩ := isInc_iff.1 hi
  have hd' := hd
  simp only [incrementalPredicates, List.mem_filter, retain, decide_eq_true_eq, List.mem_append, List.mem_flatMap, not_or, not_exists, not_and] at hd
  obtain ⟨⟨h1, h2⟩, -, h3⟩ := hd
  have h4 := h3 _ hr
  simp only [normalOf, List.mem_append, not_or] at h4
  have hposs : possibleRule r (retain (importPass ss ([], [])).1 (importPass ss ([], [])).2) = true := by
    by_contra hc
    refine h4.2 ?_
    simp only [retain] at hc
    rw [if_neg hc]
    exact List.mem_map.2 ⟨a, ha, hp.symm⟩
  unfold possibleRule at hposs
  split at hposs
  · exact absurd hposs (by simp)
  · have hi1 : isInc (retain (importPass ss ([], [])).1 (importPass ss ([], [])).2) a.pred = true :=
      isInc_iff.2 ⟨d, by simp [retain, h1, h2], hp⟩
    refine (hasUnrestricted_sound (fun b hb hb' => hanon b hb ?_) (by simpa using hposs) ha hi1).imp id fun h => h.mono fun e he => ?_
    · obtain ⟨e, g1, g2⟩ := isInc_iff.1 hb'
      refine ⟨e, ?_, g2⟩
      simp only [retain, List.mem_filter] at g1
      exact ((importPass_from ss _ g1.1).resolve_left (by simp)).1
    · simp only [incrementalPredicates] at he
      exact (List.mem_filter.1 he).1

end restricted
end Verif.Inc
