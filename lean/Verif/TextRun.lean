import Verif.TextDerive

/-!
# From the text of a program to its answers
-/
set_option linter.unusedSimpArgs false
set_option linter.unusedSectionVars false

namespace Verif.Tr
open Verif.Parse (Str Ex FEl VarKind AOp IOp Enc Guard RuleAst DirectiveAst KindAst StmtAst ProgramAst Part)

/-! ## Model -/

/-- `program.rules()` -/
def Item.rule? : Item → Option Rule
  | .rule r => some r
  | _ => none

/-- `program.facts()` -/
def Item.fact? : Item → Option Atom
  | .fact a => some a
  | _ => none

section model
variable {α : Type} [DecidableEq α] [Dom α] (el : DV → α)

/-- The loop over the terms in `GroundAtom::normalize_fact` (normalization/atom/ground.rs:84-95) with `Term::reduce`
(term.rs:178-187) and `Operation::reduce` (term/operation.rs:106-125): `none` for a panic, `some none` if a
term has no value. -/
def groundRow : List Term → Option (Option (List α))
  | [] => some (some [])
  | t :: ts => do
      let o ← operation el t
      if o.vars = [] then
        match o.eval fun _ => Dom.tru with
        | none => some none
        | some a => do
          let r ← groundRow ts
          some (r.map (a :: ·))
      else none

/-- The loop over the facts in `normalize_program` (normalization/program.rs:255-266): facts without value are
skipped. -/
def groundFacts : List Atom → Option (List (Verif.Tag × List α))
  | [] => some []
  | a :: as => do
      let row ← groundRow el a.terms
      let rows ← groundFacts as
      some (match row with
        | some row => (code a.pred, row) :: rows
        | none => rows)

/-- `predicate_to_rows.entry(..).or_insert(..).add_row(..)` (execution_engine.rs:200-205) -/
def addRow (x : Verif.Tag × List α) : List (Verif.Tag × List (List α)) → List (Verif.Tag × List (List α))
  | [] => [(x.1, [x.2])]
  | e :: es => if e.1 = x.1 then (e.1, e.2 ++ [x.2]) :: es else e :: addRow x es

/-- The input tables (execution_engine.rs:183-217): the rows of all facts and imports, by their predicates.  The code
keeps several sources for a predicate; all of them are read into its table. -/
def tables (rows : List (Verif.Tag × List α)) : List (Verif.Tag × List (List α)) := rows.foldl (fun es x => addRow x es) []

/-- The rules of a program, in the representation in which they are normalized. -/
def sourceRules (items : List Item) : Option (List (SRule α)) := collect (sourceRule el) (items.filterMap Item.rule?)

/-- The facts of a program, by the numbers of their predicates. -/
def sourceFacts (items : List Item) : Option (List (Verif.Tag × List α)) := groundFacts el (items.filterMap Item.fact?)

end model

/-! ## Statements -/

theorem Rep.bind_eq {β γ : Type} {x : Rep β} {f : β → Rep γ} {b : γ} {es : List Err} :
    (x >>= f) = some (b, es) ↔ ∃ a es1 es2, x = some (a, es1) ∧ f a = some (b, es2) ∧ es = es1 ++ es2 := by
  show Rep.bind x f = _ ↔ _
  rcases x with _ | ⟨a, es1⟩
  · simp [Rep.bind]
  · simp only [Rep.bind]
    cases h : f a with
    | none =>
      refine ⟨(nomatch ·), ?_⟩
      rintro ⟨a', es1', es2, h1, h2, -⟩
      cases h1
      rw [h] at h2; cases h2
    | some y =>
      obtain ⟨b', es2⟩ := y
      constructor
      · intro h'
        cases h'
        exact ⟨a, es1, es2, rfl, h, rfl⟩
      · rintro ⟨a', es1', es2', h1, h2, rfl⟩
        cases h1
        rw [h] at h2
        cases h2
        rfl

section
variable {L : Fn.Lib} {c : Ctx}

/-- A statement and what it contributes to the program -/
inductive Contributes (L : Fn.Lib) (c : Ctx) : KindAst → List Item → Prop
  | fact {g a} : fact L c g = .ok a → Contributes L c (.fact g) [.fact a]
  | rule {r attrs R} : rule L c attrs r = .ok R → Contributes L c (.rule r) [.rule R]
  | directive {d is} : useDirective L c d = some (is, []) → Contributes L c (.directive d) is

theorem Res.item_ok {β : Type} {x : Res β} {f : β → Item} {is : List Item} (h : x.item f = some (is, [])) :
    ∃ b, x = .ok b ∧ is = [f b] := by
  cases x with
  | ok b => cases h; exact ⟨b, rfl, rfl⟩
  | err e => cases h
  | panic => cases h

theorem statement_ok {s : StmtAst} {is : List Item} (h : statement L c s = some (is, [])) : Contributes L c s.kind is := by
  rw [statement, Rep.bind_eq] at h
  obtain ⟨attrs, es1, es2, -, h2, he⟩ := h
  obtain ⟨-, rfl⟩ := List.nil_eq_append_iff.1 he
  cases hk : s.kind with
  | fact g =>
    rw [hk] at h2
    obtain ⟨a, ha, rfl⟩ := Res.item_ok h2
    exact .fact ha
  | rule r =>
    rw [hk] at h2
    obtain ⟨a, ha, rfl⟩ := Res.item_ok h2
    exact .rule ha
  | directive d =>
    rw [hk] at h2
    exact .directive h2
  | error =>
    rw [hk] at h2
    cases h2

/-- The items of a program are those of its statements, in their order. -/
theorem statements_ok {ss : List StmtAst} {is : List Item} (h : statements L c ss = some (is, [])) :
    ∃ iss, List.Forall₂ (fun s => Contributes L c s.kind) ss iss ∧ is = iss.flatten := by
  induction ss generalizing is with
  | nil =>
    have h : some (([] : List Item), ([] : List Err)) = some (is, []) := h
    cases h
    exact ⟨[], .nil, rfl⟩
  | cons s ss ih =>
    rw [statements, Rep.bind_eq] at h
    obtain ⟨is1, es1, es2, h1, h2, he⟩ := h
    obtain ⟨rfl, rfl⟩ := List.nil_eq_append_iff.1 he
    rw [Rep.bind_eq] at h2
    obtain ⟨is2, es1, es2, h2, h3, he⟩ := h2
    obtain ⟨rfl, rfl⟩ := List.nil_eq_append_iff.1 he
    obtain ⟨iss, h4, rfl⟩ := ih h2
    have h3 : some (is1 ++ iss.flatten, ([] : List Err)) = some (is, []) := h3
    cases h3
    exact ⟨is1 :: iss, .cons (statement_ok h1) h4, rfl⟩

theorem outputs_no (ts : List Parse.Tag) : (outputs c ts).1.filterMap Item.rule? = [] ∧
    (outputs c ts).1.filterMap Item.fact? = [] := by
  induction ts with
  | nil => exact ⟨rfl, rfl⟩
  | cons t ts ih =>
    rw [outputs]
    cases resolveTag c t <;> simpa [List.filterMap_cons, Item.rule?, Item.fact?] using ih

theorem useDirective_no {d : DirectiveAst} {is : List Item} (h : useDirective L c d = some (is, [])) :
    is.filterMap Item.rule? = [] ∧ is.filterMap Item.fact? = [] := by
  cases d with
  | exportTo => obtain ⟨a, -, rfl⟩ := Res.item_ok h; exact ⟨rfl, rfl⟩
  | importFrom => obtain ⟨a, -, rfl⟩ := Res.item_ok h; exact ⟨rfl, rfl⟩
  | parameter => obtain ⟨a, -, rfl⟩ := Res.item_ok h; exact ⟨rfl, rfl⟩
  | output ts =>
    have h : outputs c ts = (is, []) := Option.some.inj h
    have := outputs_no (c := c) ts
    rw [h] at this
    exact this
  | base => cases h; exact ⟨rfl, rfl⟩
  | declare => cases h; exact ⟨rfl, rfl⟩
  | prefixIs => cases h; exact ⟨rfl, rfl⟩
  | unknown => cases h

/-- The rules among statements -/
def ruleAsts : List StmtAst → List RuleAst
  | [] => []
  | s :: ss => match s.kind with
    | .rule r => r :: ruleAsts ss
    | _ => ruleAsts ss

/-- The facts among statements -/
def factAsts : List StmtAst → List Guard
  | [] => []
  | s :: ss => match s.kind with
    | .fact g => g :: factAsts ss
    | _ => factAsts ss

theorem mem_ruleAsts {ss : List StmtAst} {r : RuleAst} : r ∈ ruleAsts ss ↔ ∃ s ∈ ss, s.kind = .rule r := by
  induction ss with
  | nil => simp [ruleAsts]
  | cons s ss ih => rw [ruleAsts]; split <;> simp_all [eq_comm]

theorem mem_factAsts {ss : List StmtAst} {g : Guard} : g ∈ factAsts ss ↔ ∃ s ∈ ss, s.kind = .fact g := by
  induction ss with
  | nil => simp [factAsts]
  | cons s ss ih => rw [factAsts]; split <;> simp_all [eq_comm]

theorem items_rules {ss : List StmtAst} {iss : List (List Item)} (h : List.Forall₂ (fun s => Contributes L c s.kind) ss iss) :
    List.Forall₂ (fun r R => ∃ attrs, rule L c attrs r = .ok R) (ruleAsts ss) (iss.flatten.filterMap Item.rule?) := by
  induction h with
  | nil => exact .nil
  | @cons s is ss iss h1 _ ih =>
    rw [List.flatten_cons, List.filterMap_append, ruleAsts]
    generalize s.kind = k at h1
    cases h1 with
    | fact h => exact ih
    | rule h => exact .cons ⟨_, h⟩ ih
    | directive h => rw [(useDirective_no h).1]; exact ih

theorem items_facts {ss : List StmtAst} {iss : List (List Item)} (h : List.Forall₂ (fun s => Contributes L c s.kind) ss iss) :
    List.Forall₂ (fun g a => fact L c g = .ok a) (factAsts ss) (iss.flatten.filterMap Item.fact?) := by
  induction h with
  | nil => exact .nil
  | @cons s is ss iss h1 _ ih =>
    rw [List.flatten_cons, List.filterMap_append, factAsts]
    generalize s.kind = k at h1
    cases h1 with
    | fact h => exact .cons h ih
    | rule h => exact ih
    | directive h => rw [(useDirective_no h).2]; exact ih

end

/-! ## Abbreviations -/

theorem lookup_cons {p q i : Str} {l : List (Str × Str)} : List.lookup p ((q, i) :: l) = if p = q then some i else l.lookup p := by
  rw [List.lookup]
  split
  · rename_i h
    rw [if_pos (by simpa using h)]
  · rename_i h
    rw [if_neg (by simpa using h)]

theorem define_ok {c c' : Ctx} {d : DirectiveAst} (h : define c d = (c', [])) :
    (∀ i, c'.base = some i ↔ c.base = some i ∨ d = .base i) ∧
    (∀ p i, c'.prefixes.lookup p = some i ↔ c.prefixes.lookup p = some i ∨ d = .prefixIs p i) := by
  cases d with
  | base j =>
    rw [define, Prod.mk.injEq] at h
    obtain ⟨rfl, h2⟩ := h
    have hb : c.base = none := by
      cases hc : c.base with
      | none => rfl
      | some x => rw [hc] at h2; simp at h2
    exact ⟨fun i => by simp [hb, eq_comm], fun p i => by simp⟩
  | prefixIs q j =>
    rw [define] at h
    cases hl : c.prefixes.lookup q with
    | some x => rw [hl] at h; simp at h
    | none =>
      rw [hl] at h
      simp only [Prod.mk.injEq, and_true] at h
      subst h
      refine ⟨fun i => by simp, fun p i => ?_⟩
      rw [lookup_cons]
      split
      · rename_i hp
        subst hp
        simp [hl, eq_comm]
      · rename_i hp
        simp [eq_comm, hp]
        intro h
        exact absurd h.symm hp
  | declare => rw [define] at h; simp at h
  | _ =>
    have h : (c, ([] : List Err)) = (c', []) := h
    cases h
    exact ⟨fun i => by simp, fun p i => by simp⟩

theorem defineAll_ok {c c' : Ctx} {ss : List StmtAst} (h : defineAll c ss = (c', [])) :
    (∀ i, c'.base = some i ↔ c.base = some i ∨ ∃ s ∈ ss, s.kind = .directive (.base i)) ∧
    (∀ p i, c'.prefixes.lookup p = some i ↔ c.prefixes.lookup p = some i ∨ ∃ s ∈ ss, s.kind = .directive (.prefixIs p i)) := by
  induction ss generalizing c with
  | nil =>
    simp only [defineAll, Prod.mk.injEq, and_true] at h
    subst h
    simp
  | cons s ss ih =>
    simp only [defineAll, Prod.mk.injEq] at h
    obtain ⟨h1, h2⟩ := h
    obtain ⟨h2, h3⟩ := List.append_eq_nil_iff.1 h2
    cases hk : s.kind with
    | directive d =>
      rw [hk] at h1 h2 h3
      dsimp only at h1 h2 h3
      obtain ⟨k1, k2⟩ := define_ok (c := c) (c' := (define c d).1) (d := d) (by rw [← h2])
      obtain ⟨g1, g2⟩ := ih (c := (define c d).1) (by rw [← h1, ← h3])
      refine ⟨fun i => ?_, fun p i => ?_⟩
      · rw [g1, k1]; simp [hk, or_assoc]
      · rw [g2, k2]; simp [hk, or_assoc]
    | _ =>
      rw [hk] at h1 h2 h3
      dsimp only at h1 h2 h3
      obtain ⟨g1, g2⟩ := ih (c := c) (by rw [← h1, ← h3])
      refine ⟨fun i => ?_, fun p i => ?_⟩
      · rw [g1]; simp [hk]
      · rw [g2]; simp [hk]

/-- What is declared determines the abbreviations. -/
theorem Declared.unique {ss : List StmtAst} {N N' : Names} (h : Declared ss N) (h' : Declared ss N') : N = N' := by
  obtain ⟨b, f⟩ := N
  obtain ⟨b', f'⟩ := N'
  have e1 : b = b' := by
    apply Option.ext
    intro i
    exact (h.base i).trans (h'.base i).symm
  have e2 : f = f' := by
    funext p
    apply Option.ext
    intro i
    exact (h.pre p i).trans (h'.pre p i).symm
  rw [e1, e2]

/-- The parts of a successful translation -/
theorem translate_ok {L : Fn.Lib} {p : ProgramAst} {items : List Item} (h : translate L p = .ok items) :
    ∃ c : Ctx, Declared p.statements c.names ∧
      ∃ iss, List.Forall₂ (fun s => Contributes L c s.kind) p.statements iss ∧ items = iss.flatten := by
  unfold translate at h
  dsimp only at h
  refine ⟨(defineAll ⟨[], none⟩ p.statements).1, ?_⟩
  split at h
  · cases h
  · rename_i is es hst
    split at h
    · rename_i he
      obtain ⟨h1, rfl⟩ := List.append_eq_nil_iff.1 he
      cases h
      obtain ⟨g1, g2⟩ := defineAll_ok (c := ⟨[], none⟩) (c' := (defineAll ⟨[], none⟩ p.statements).1) (ss := p.statements)
        (by rw [← h1])
      exact ⟨⟨fun i => by simpa [Ctx.names] using g1 i, fun p i => by simpa [Ctx.names] using g2 p i⟩, statements_ok hst⟩
    · cases h

end Verif.Tr
