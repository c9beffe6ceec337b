import Verif.ChaseSource
import Verif.Validate

/-!
# Flattening of rules

Model of `TransformationNormalize` (/repo/nemo/src/rule_model/pipeline/transformations/normalize.rs), the first of the
transformations that are applied to every program (default.rs:52-64): in positive body atoms, every term that is not a variable
is replaced by a new variable `_k`, and an equality between the new variable and the term is added.
`PropFlatten.lean` shows that this does not change the meaning of programs, nor whether they are accepted (C58).
-/

set_option linter.unusedSimpArgs false
set_option linter.unusedSectionVars false

namespace Verif
variable {α : Type}

/-- A literal in the body of a rule (`Literal`, /repo/nemo/src/rule_model/components/literal.rs:21-29) -/
inductive LLit (α : Type)
  | positive (a : SAtom α)
  | negative (a : SAtom α)
  | operation (o : Operation α)

/-- A rule with the literals of its body in the order in which they are written (`Rule`, /repo/nemo/src/rule_model/components/rule.rs:38-60) -/
structure WRule (α : Type) where
  head : List (SHead α)
  body : List (LLit α)

/-- `Rule::body_positive` (rule.rs:100-150) -/
def LLit.positive? : LLit α → Option (SAtom α)
  | .positive a => some a
  | _ => none
/-- `Rule::body_negative` (rule.rs:100-150) -/
def LLit.negative? : LLit α → Option (SAtom α)
  | .negative a => some a
  | _ => none
/-- `Rule::body_operations` (rule.rs:100-150) -/
def LLit.operation? : LLit α → Option (Operation α)
  | .operation o => some o
  | _ => none

/-- The rule with its literals separated by their kind -/
def WRule.toS (r : WRule α) : SRule α :=
  ⟨r.body.filterMap LLit.positive?, r.body.filterMap LLit.negative?, r.body.filterMap LLit.operation?, r.head⟩

/-- `fresh_variable` (normalize.rs:36-40) -/
def tmpVar (index : Nat) : Variable := .named ("_" ++ toString index)

/-- The loop over the terms of an atom (normalize.rs:52-94): the new terms, `new_equalities`, and the next number.  The kinds of terms
that are not accepted in rule bodies (aggregates, function terms, maps, tuples) are treated in the same way as operations. -/
def flatTerms : List (BTerm α) → Nat → List (BTerm α) × List (Variable × Operation α) × Nat
  | [], g => ([], [], g)
  | .var v :: ts, g => let r := flatTerms ts g; (.var v :: r.1, r.2.1, r.2.2)
  | .anon :: ts, g => let r := flatTerms ts g; (.anon :: r.1, r.2.1, r.2.2)
  | .const a :: ts, g => let r := flatTerms ts (g + 1); (.var (tmpVar g) :: r.1, (tmpVar g, .const a) :: r.2.1, r.2.2)
  | .oper o :: ts, g => let r := flatTerms ts (g + 1); (.var (tmpVar g) :: r.1, (tmpVar g, o) :: r.2.1, r.2.2)

/-- One of the new equalities (normalize.rs:101-106) -/
def equality (x : Variable × Operation α) : Operation α := .equal (.var x.1) x.2

/-- The loop over the body literals of `normalize_rule` (normalize.rs:46-116): the new body, and the next number.  (If there are no new
equalities, the terms are unchanged.) -/
def flatBody : List (LLit α) → Nat → List (LLit α) × Nat
  | [], g => ([], g)
  | .positive a :: ls, g =>
    let t := flatTerms a.terms g
    let r := flatBody ls t.2.2
    (t.2.1.map (fun x => .operation (equality x)) ++ .positive ⟨a.pred, t.1⟩ :: r.1, r.2)
  | .negative a :: ls, g => let r := flatBody ls g; (.negative a :: r.1, r.2)
  | .operation o :: ls, g => let r := flatBody ls g; (.operation o :: r.1, r.2)

/-- `normalize_rule` (normalize.rs:42-127).  A rule that is not modified is kept, which is the same as adding it again. -/
def flatRule (r : WRule α) (g : Nat) : WRule α × Nat := (⟨r.head, (flatBody r.body g).1⟩, (flatBody r.body g).2)

/-- The loop of `TransformationNormalize::apply` over the rules (normalize.rs:131-149) -/
def flatRules : List (WRule α) → Nat → List (WRule α)
  | [], _ => []
  | r :: rs, g => (flatRule r g).1 :: flatRules rs (flatRule r g).2

/-- `TransformationNormalize::apply` (normalize.rs:131-149; the counter starts at 0, normalize.rs:30-33) -/
def flatProgram (rs : List (WRule α)) : List (WRule α) := flatRules rs 0

/-! ## Basic facts -/

theorem tmpVar_inj {a b : Nat} (h : tmpVar a = tmpVar b) : a = b := by
  have h2 := congrArg String.toList (named_inj h)
  simp only [String.toList_append, List.append_cancel_left_eq] at h2
  exact repr_inj (String.toList_inj.1 h2)

theorem tmpVar_universal (k : Nat) : (tmpVar k).isExistential = false := rfl

/-- The second character of the name of a new variable is a digit. -/
theorem tmpVar_not_reserved (k : Nat) : ¬ (tmpVar k).Reserved := by
  have key : ∀ (c : Char) (s : String), c.isDigit = false → tmpVar k = .named s → s.toList[1]? ≠ some c := by
    intro c s hc h hs
    have h2 := congrArg String.toList (named_inj h)
    rw [← h2, String.toList_append] at hs
    have h3 : (toString k).toList[0]? = some c := by simpa using hs
    have h4 : c ∈ (Nat.repr k).toList := List.mem_of_getElem? h3
    rw [Nat.toList_repr] at h4
    rw [Nat.isDigit_of_mem_toDigits (by omega) (by omega) h4] at hc
    exact absurd hc (by simp)
  rintro (⟨a, h | h⟩ | h | h)
  · exact key 'B' _ (by decide) h (by simp [String.toList_append])
  · exact key 'H' _ (by decide) h (by simp [String.toList_append])
  · exact key 'A' _ (by decide) h (by simp)
  · exact key 'A' _ (by decide) h (by simp)

/-- The name is not one of the names of the new variables. -/
def Variable.Plain (v : Variable) : Prop := ∀ k, v ≠ tmpVar k

/-- The atom `a` is in the body, and its first new variable has the number `k`. -/
inductive FlatAt : List (LLit α) → Nat → SAtom α → Nat → Prop
  | here {a : SAtom α} {ls : List (LLit α)} {g : Nat} : FlatAt (.positive a :: ls) g a g
  | pos {a b : SAtom α} {ls : List (LLit α)} {g k : Nat} : FlatAt ls (flatTerms b.terms g).2.2 a k → FlatAt (.positive b :: ls) g a k
  | neg {a b : SAtom α} {ls : List (LLit α)} {g k : Nat} : FlatAt ls g a k → FlatAt (.negative b :: ls) g a k
  | op {a : SAtom α} {o : Operation α} {ls : List (LLit α)} {g k : Nat} : FlatAt ls g a k → FlatAt (.operation o :: ls) g a k

theorem FlatAt.mem {ls : List (LLit α)} {g k : Nat} {a : SAtom α} (h : FlatAt ls g a k) : a ∈ ls.filterMap LLit.positive? := by
  induction h <;> simp_all [List.filterMap_cons, LLit.positive?]

theorem exists_flatAt {ls : List (LLit α)} (g : Nat) {a : SAtom α} (h : a ∈ ls.filterMap LLit.positive?) : ∃ k, FlatAt ls g a k := by
  induction ls generalizing g with
  | nil => simp at h
  | cons l ls ih =>
    cases l with
    | positive b =>
      simp only [LLit.positive?, List.filterMap_cons, List.mem_cons] at h
      rcases h with rfl | h
      · exact ⟨_, .here⟩
      · obtain ⟨k, hk⟩ := ih (flatTerms b.terms g).2.2 h
        exact ⟨k, .pos hk⟩
    | negative b =>
      obtain ⟨k, hk⟩ := ih g (by simpa [List.filterMap_cons, LLit.positive?] using h)
      exact ⟨k, .neg hk⟩
    | operation o =>
      obtain ⟨k, hk⟩ := ih g (by simpa [List.filterMap_cons, LLit.positive?] using h)
      exact ⟨k, .op hk⟩

theorem flatTerms_gen (ts : List (BTerm α)) (g : Nat) : g ≤ (flatTerms ts g).2.2 := by
  induction ts generalizing g with
  | nil => exact le_refl _
  | cons t ts ih =>
    cases t <;> simp only [flatTerms]
    · exact ih g
    · exact ih g
    · have := ih (g + 1); omega
    · have := ih (g + 1); omega

theorem FlatAt.ge {ls : List (LLit α)} {g k : Nat} {a : SAtom α} (h : FlatAt ls g a k) : g ≤ k := by
  induction h with
  | here => exact le_refl _
  | @pos a b ls g k h ih => exact le_trans (flatTerms_gen _ _) ih
  | neg _ ih => exact ih
  | op _ ih => exact ih

theorem flatTerms_length (ts : List (BTerm α)) (g : Nat) : (flatTerms ts g).1.length = ts.length := by
  induction ts generalizing g with
  | nil => rfl
  | cons t ts ih => cases t <;> simp [flatTerms, ih]

/-- The new variables have numbers from the range of the atom. -/
theorem flatTerms_range (ts : List (BTerm α)) (g : Nat) {x : Variable × Operation α} (h : x ∈ (flatTerms ts g).2.1) :
    ∃ k, x.1 = tmpVar k ∧ g ≤ k ∧ k < (flatTerms ts g).2.2 := by
  induction ts generalizing g with
  | nil => simp [flatTerms] at h
  | cons t ts ih =>
    cases t with
    | var v => exact ih g h
    | anon => exact ih g h
    | const a =>
      simp only [flatTerms, List.mem_cons] at h ⊢
      rcases h with rfl | h
      · exact ⟨g, rfl, le_refl _, flatTerms_gen ts (g + 1)⟩
      · obtain ⟨k, h1, h2, h3⟩ := ih _ h
        exact ⟨k, h1, by omega, h3⟩
    | oper o =>
      simp only [flatTerms, List.mem_cons] at h ⊢
      rcases h with rfl | h
      · exact ⟨g, rfl, le_refl _, flatTerms_gen ts (g + 1)⟩
      · obtain ⟨k, h1, h2, h3⟩ := ih _ h
        exact ⟨k, h1, by omega, h3⟩

theorem flatTerms_unique (ts : List (BTerm α)) (g : Nat) {v : Variable} {o o' : Operation α} (h : (v, o) ∈ (flatTerms ts g).2.1)
    (h' : (v, o') ∈ (flatTerms ts g).2.1) : o = o' := by
  have key : ∀ (ts : List (BTerm α)) (g : Nat) (o : Operation α), (tmpVar g, o) ∉ (flatTerms ts (g + 1)).2.1 := by
    intro ts g o hm
    obtain ⟨k, h1, h2, -⟩ := flatTerms_range _ _ hm
    have := tmpVar_inj h1
    omega
  induction ts generalizing g with
  | nil => simp [flatTerms] at h
  | cons t ts ih =>
    cases t with
    | var v => exact ih g h h'
    | anon => exact ih g h h'
    | const a =>
      simp only [flatTerms, List.mem_cons, Prod.mk.injEq] at h h'
      rcases h with ⟨h1, h2⟩ | h <;> rcases h' with ⟨h3, h4⟩ | h'
      · rw [h2, h4]
      · exact absurd (h1 ▸ h') (key _ _ _)
      · exact absurd (h3 ▸ h) (key _ _ _)
      · exact ih _ h h'
    | oper e =>
      simp only [flatTerms, List.mem_cons, Prod.mk.injEq] at h h'
      rcases h with ⟨h1, h2⟩ | h <;> rcases h' with ⟨h3, h4⟩ | h'
      · rw [h2, h4]
      · exact absurd (h1 ▸ h') (key _ _ _)
      · exact absurd (h3 ▸ h) (key _ _ _)
      · exact ih _ h h'

/-- The variables of the new atom are those of the atom, and the new variables. -/
theorem mem_flatTerms_var (ts : List (BTerm α)) (g : Nat) (v : Variable) : .var v ∈ (flatTerms ts g).1 ↔
    .var v ∈ ts ∨ ∃ o, (v, o) ∈ (flatTerms ts g).2.1 := by
  induction ts generalizing g with
  | nil => simp [flatTerms]
  | cons t ts ih =>
    cases t with
    | var w => simp [flatTerms, ih, or_assoc]
    | anon => simp [flatTerms, ih]
    | const a =>
      simp only [flatTerms, List.mem_cons, BTerm.var.injEq, ih, reduceCtorEq, false_or, Prod.mk.injEq]
      constructor
      · rintro (h | h | ⟨o, h⟩)
        · exact .inr ⟨_, .inl ⟨h, rfl⟩⟩
        · exact .inl h
        · exact .inr ⟨o, .inr h⟩
      · rintro (h | ⟨o, ⟨h, -⟩ | h⟩)
        · exact .inr (.inl h)
        · exact .inl h
        · exact .inr (.inr ⟨o, h⟩)
    | oper e =>
      simp only [flatTerms, List.mem_cons, BTerm.var.injEq, ih, reduceCtorEq, false_or, Prod.mk.injEq]
      constructor
      · rintro (h | h | ⟨o, h⟩)
        · exact .inr ⟨_, .inl ⟨h, rfl⟩⟩
        · exact .inl h
        · exact .inr ⟨o, .inr h⟩
      · rintro (h | ⟨o, ⟨h, -⟩ | h⟩)
        · exact .inr (.inl h)
        · exact .inl h
        · exact .inr (.inr ⟨o, h⟩)

/-- There are only variables in the new atom. -/
theorem flatTerms_simple (ts : List (BTerm α)) (g : Nat) {t : BTerm α} (h : t ∈ (flatTerms ts g).1) : t = .anon ∨ ∃ v, t = .var v := by
  induction ts generalizing g with
  | nil => simp [flatTerms] at h
  | cons b ts ih =>
    cases b <;> simp only [flatTerms, List.mem_cons] at h <;> rcases h with rfl | h
    · exact .inr ⟨_, rfl⟩
    · exact ih _ h
    · exact .inl rfl
    · exact ih _ h
    · exact .inr ⟨_, rfl⟩
    · exact ih _ h
    · exact .inr ⟨_, rfl⟩
    · exact ih _ h

/-- The new equalities are about the terms of the atom that are not variables. -/
theorem flatTerms_origin (ts : List (BTerm α)) (g : Nat) {x : Variable × Operation α} (h : x ∈ (flatTerms ts g).2.1) :
    (∃ a, .const a ∈ ts ∧ x.2 = .const a) ∨ .oper x.2 ∈ ts := by
  induction ts generalizing g with
  | nil => simp [flatTerms] at h
  | cons t ts ih =>
    cases t with
    | var v => rcases ih _ h with ⟨a, h1, h2⟩ | h1; exact .inl ⟨a, .tail _ h1, h2⟩; exact .inr (.tail _ h1)
    | anon => rcases ih _ h with ⟨a, h1, h2⟩ | h1; exact .inl ⟨a, .tail _ h1, h2⟩; exact .inr (.tail _ h1)
    | const b =>
      simp only [flatTerms, List.mem_cons] at h
      rcases h with rfl | h
      · exact .inl ⟨b, .head _, rfl⟩
      · rcases ih _ h with ⟨a, h1, h2⟩ | h1; exact .inl ⟨a, .tail _ h1, h2⟩; exact .inr (.tail _ h1)
    | oper b =>
      simp only [flatTerms, List.mem_cons] at h
      rcases h with rfl | h
      · exact .inr (.head _)
      · rcases ih _ h with ⟨a, h1, h2⟩ | h1; exact .inl ⟨a, .tail _ h1, h2⟩; exact .inr (.tail _ h1)

/-- Every operation in an atom occurs in an equality. -/
theorem flatTerms_oper (ts : List (BTerm α)) (g : Nat) {o : Operation α} (h : .oper o ∈ ts) : ∃ v, (v, o) ∈ (flatTerms ts g).2.1 := by
  induction ts generalizing g with
  | nil => simp at h
  | cons t ts ih =>
    simp only [List.mem_cons] at h
    cases t with
    | var v => exact ih g (by simpa using h)
    | anon => exact ih g (by simpa using h)
    | const b =>
      obtain ⟨v, hv⟩ := ih (g + 1) (by simpa using h)
      exact ⟨v, .tail _ hv⟩
    | oper b =>
      rcases h with h | h
      · cases h
        exact ⟨_, .head _⟩
      · obtain ⟨v, hv⟩ := ih (g + 1) h
        exact ⟨v, .tail _ hv⟩

/-! ### The literals of the new body -/

theorem filterMap_equalities {β : Type} (f : LLit α → Option β) (hf : ∀ o, f (.operation o) = none) (l : List (Variable × Operation α)) :
    (l.map fun x => LLit.operation (equality x)).filterMap f = [] := by
  induction l with
  | nil => rfl
  | cons x l ih => simp [hf, ih]

theorem flatBody_negative (ls : List (LLit α)) (g : Nat) :
    (flatBody ls g).1.filterMap LLit.negative? = ls.filterMap LLit.negative? := by
  induction ls generalizing g with
  | nil => rfl
  | cons l ls ih =>
    cases l with
    | positive a =>
      simp only [flatBody, List.filterMap_append, filterMap_equalities LLit.negative? (fun _ => rfl), List.nil_append, List.filterMap_cons,
        LLit.negative?, ih]
    | negative a => simp only [flatBody, List.filterMap_cons, LLit.negative?, ih]
    | operation o => simp only [flatBody, List.filterMap_cons, LLit.negative?, ih]

theorem mem_flatBody_positive (ls : List (LLit α)) (g : Nat) (x : SAtom α) : x ∈ (flatBody ls g).1.filterMap LLit.positive? ↔
    ∃ a k, FlatAt ls g a k ∧ x = ⟨a.pred, (flatTerms a.terms k).1⟩ := by
  induction ls generalizing g with
  | nil => simp only [flatBody, List.filterMap_nil, List.not_mem_nil, false_iff]; rintro ⟨a, k, h, -⟩; cases h
  | cons l ls ih =>
    cases l with
    | positive b =>
      simp only [flatBody, List.filterMap_append, filterMap_equalities LLit.positive? (fun _ => rfl), List.nil_append, LLit.positive?,
        List.filterMap_cons, List.mem_cons, ih]
      constructor
      · rintro (h | ⟨a, k, h1, h2⟩)
        · exact ⟨b, g, .here, h⟩
        · exact ⟨a, k, .pos h1, h2⟩
      · rintro ⟨a, k, h1, h2⟩
        cases h1 with
        | here => exact .inl h2
        | pos h1 => exact .inr ⟨a, k, h1, h2⟩
    | negative b =>
      simp only [flatBody, LLit.positive?, List.filterMap_cons, ih]
      exact ⟨fun ⟨a, k, h1, h2⟩ => ⟨a, k, .neg h1, h2⟩, fun ⟨a, k, h1, h2⟩ => by cases h1 with | neg h1 => exact ⟨a, k, h1, h2⟩⟩
    | operation o =>
      simp only [flatBody, LLit.positive?, List.filterMap_cons, ih]
      exact ⟨fun ⟨a, k, h1, h2⟩ => ⟨a, k, .op h1, h2⟩, fun ⟨a, k, h1, h2⟩ => by cases h1 with | op h1 => exact ⟨a, k, h1, h2⟩⟩

theorem mem_flatBody_operation (ls : List (LLit α)) (g : Nat) (o : Operation α) : o ∈ (flatBody ls g).1.filterMap LLit.operation? ↔
    o ∈ ls.filterMap LLit.operation? ∨ ∃ a k, FlatAt ls g a k ∧ ∃ x ∈ (flatTerms a.terms k).2.1, o = equality x := by
  induction ls generalizing g with
  | nil =>
    simp only [flatBody, List.filterMap_nil, List.not_mem_nil, false_iff, false_or]; rintro ⟨a, k, h, -⟩; cases h
  | cons l ls ih =>
    cases l with
    | positive b =>
      have e : (List.map (fun x => LLit.operation (equality x)) (flatTerms b.terms g).2.1).filterMap LLit.operation? =
          (flatTerms b.terms g).2.1.map equality := by
        rw [List.filterMap_map, ← List.filterMap_eq_map]; rfl
      simp only [flatBody, List.filterMap_append, e, List.mem_append, LLit.operation?, List.filterMap_cons, ih, List.mem_map]
      constructor
      · rintro (⟨x, hx, rfl⟩ | h | ⟨a, k, h1, h2⟩)
        · exact .inr ⟨b, g, .here, x, hx, rfl⟩
        · exact .inl h
        · exact .inr ⟨a, k, .pos h1, h2⟩
      · rintro (h | ⟨a, k, h1, x, hx, h2⟩)
        · exact .inr (.inl h)
        · cases h1 with
          | here => exact .inl ⟨x, hx, h2.symm⟩
          | pos h1 => exact .inr (.inr ⟨a, k, h1, x, hx, h2⟩)
    | negative b =>
      simp only [flatBody, LLit.operation?, List.filterMap_cons, ih]
      refine or_congr Iff.rfl ⟨fun ⟨a, k, h1, h2⟩ => ⟨a, k, .neg h1, h2⟩, fun ⟨a, k, h1, h2⟩ => ?_⟩
      cases h1 with | neg h1 => exact ⟨a, k, h1, h2⟩
    | operation e =>
      simp only [flatBody, LLit.operation?, List.filterMap_cons, List.mem_cons, ih, or_assoc]
      refine or_congr Iff.rfl (or_congr Iff.rfl ⟨fun ⟨a, k, h1, h2⟩ => ⟨a, k, .op h1, h2⟩, fun ⟨a, k, h1, h2⟩ => ?_⟩)
      cases h1 with | op h1 => exact ⟨a, k, h1, h2⟩

theorem FlatAt.unique {ls : List (LLit α)} {g k k' : Nat} {a a' : SAtom α} (h : FlatAt ls g a k) (h' : FlatAt ls g a' k') {v : Variable}
    {o o' : Operation α} (hv : (v, o) ∈ (flatTerms a.terms k).2.1) (hv' : (v, o') ∈ (flatTerms a'.terms k').2.1) : o = o' := by
  have key : ∀ {ls : List (LLit α)} {b a : SAtom α} {g k : Nat} {o o' : Operation α}, FlatAt ls (flatTerms b.terms g).2.2 a k →
      (v, o) ∈ (flatTerms b.terms g).2.1 → (v, o') ∈ (flatTerms a.terms k).2.1 → False := by
    intro ls b a g k o o' h h1 h2
    obtain ⟨i, e1, -, l1⟩ := flatTerms_range _ _ h1
    obtain ⟨j, e2, l2, -⟩ := flatTerms_range _ _ h2
    have := tmpVar_inj ((e1 : v = _).symm.trans e2)
    have := h.ge
    omega
  induction h with
  | here =>
    cases h' with
    | here => exact flatTerms_unique _ _ hv hv'
    | pos h' => exact (key h' hv hv').elim
  | pos h ih =>
    cases h' with
    | here => exact (key h hv' hv).elim
    | pos h' => exact ih h' hv
  | neg h ih => cases h' with | neg h' => exact ih h' hv
  | op h ih => cases h' with | op h' => exact ih h' hv

theorem flatRules_length (rs : List (WRule α)) (g : Nat) : (flatRules rs g).length = rs.length := by
  induction rs generalizing g with
  | nil => rfl
  | cons r rs ih => simp [flatRules, ih]

theorem flatRules_forall (rs : List (WRule α)) (g : Nat) : List.Forall₂ (fun r r' => ∃ k, r' = (flatRule r k).1) rs (flatRules rs g) := by
  induction rs generalizing g with
  | nil => exact .nil
  | cons r rs ih => exact .cons ⟨g, rfl⟩ (ih _)

end Verif
