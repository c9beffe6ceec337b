import Verif.ChaseExamples
import Mathlib.Logic.Equiv.List

/-!
# Rules as they are written, and their normalization

The first part is the syntax of rules (/repo/nemo/src/rule_model/components/), as far as they are accepted by the
validation: atoms may contain anonymous variables, repeated variables, constants and expressions, heads may contain
expressions and aggregates.  The second part models `NormalizedRule::normalize_rule`
(/repo/nemo/src/execution/planning/normalization/rule.rs:487-551) and the functions that it uses.  The third part is the
specification: what it means that such a rule derives a fact.  `NormalizeProofs.lean` shows that normalization
does not change the meaning of rules (C43).
-/

set_option linter.unusedSimpArgs false
set_option linter.unusedSectionVars false

namespace Verif

/-! ## Names of variables -/

/-- The number that represents a name. -/
def nameCode (s : String) : Nat := Encodable.encode (s.toList.map Char.toNat)

/-- The universal variable with a given name (`Variable::universal`,
/repo/nemo/src/rule_model/components/term/primitive/variable.rs:46-48) -/
def Variable.named (s : String) : Variable := .universal (nameCode s)

/-- `VariableGenerator::universal` (normalization/generator.rs:14-18); `id` is the number after it was incremented. -/
def freshVar (name : String) (id : Nat) : Variable := .named ("_" ++ name ++ "_" ++ toString id)

/-- The name of the aggregated value (normalization/aggregate.rs:139) -/
def aggIn : Variable := .named "_AGGREGATION_IN"
/-- The name of the result of an aggregate (normalization/aggregate.rs:161) -/
def aggOut : Variable := .named "_AGGREGATION_OUT"

/-- The names that are used by the normalization.  They start with `_` and cannot be written in a program (`Token::name`,
/repo/nemo/src/parser/ast/token.rs:386-391). -/
def Variable.Reserved (v : Variable) : Prop :=
  (∃ id, v = freshVar "BODY" id ∨ v = freshVar "HEAD" id) ∨ v = aggIn ∨ v = aggOut

/-! ## Syntax -/

/-- A term in a body atom; an operation is represented by the `Operation` it is normalized to. -/
inductive BTerm (α : Type)
  | var (v : Variable)
  | anon
  | const (a : α)
  | oper (o : Operation α)

/-- An atom in the body of a rule (`Atom`, /repo/nemo/src/rule_model/components/atom.rs:30-41) -/
structure SAtom (α : Type) where
  pred : Tag
  terms : List (BTerm α)

/-- A term in a head atom.  As for `Operation`, equality is a constructor of its own. -/
inductive HTerm (α : Type)
  | var (v : Variable)
  | const (a : α)
  | equal (l r : HTerm α)
  | op (kind : Nat) (subterms : List (HTerm α))
  | agg (kind : Nat) (input : Operation α) (distinct : List Variable)

/-- An atom in the head of a rule -/
structure SHead (α : Type) where
  pred : Tag
  terms : List (HTerm α)

/-- `Rule` (/repo/nemo/src/rule_model/components/rule.rs:38-60); the body literals are separated by their kind
(`body_positive`, `body_negative`, `body_operations`, rule.rs:100-150). -/
structure SRule (α : Type) where
  positive : List (SAtom α)
  negative : List (SAtom α)
  operations : List (Operation α)
  head : List (SHead α)

namespace HTerm
variable {α : Type}

mutual
/-- the variables of a head term (`IterableVariables for Term`, term.rs:399-408, and aggregate.rs:391-393) -/
def vars : HTerm α → List Variable
  | .var v => [v]
  | .const _ => []
  | .equal l r => l.vars ++ r.vars
  | .op _ ts => varsList ts
  | .agg _ i d => i.vars ++ d
/-- the variables of a list of head terms -/
def varsList : List (HTerm α) → List Variable
  | [] => []
  | t :: ts => t.vars ++ varsList ts
end

mutual
/-- the number of aggregates -/
def aggCount : HTerm α → Nat
  | .var _ => 0
  | .const _ => 0
  | .equal l r => l.aggCount + r.aggCount
  | .op _ ts => aggCountList ts
  | .agg _ _ _ => 1
/-- the number of aggregates in a list of terms -/
def aggCountList : List (HTerm α) → Nat
  | [] => 0
  | t :: ts => t.aggCount + aggCountList ts
end

mutual
/-- The first component of `normalize_head_term` (normalization/operation.rs:166-197) -/
def norm : HTerm α → Operation α
  | .var v => .var v
  | .const a => .const a
  | .equal l r => .equal l.norm r.norm
  | .op k ts => .op k (normList ts)
  | .agg _ _ _ => .var aggOut
/-- the same for a list of terms -/
def normList : List (HTerm α) → List (Operation α)
  | [] => []
  | t :: ts => t.norm :: normList ts
end

mutual
/-- The second component of `normalize_head_term` (normalization/operation.rs:166-197): the first aggregate. -/
def agg? : HTerm α → Option (Nat × Operation α × List Variable)
  | .var _ => none
  | .const _ => none
  | .equal l r => l.agg?.orElse fun _ => r.agg?
  | .op _ ts => aggList? ts
  | .agg k i d => some (k, i, d)
/-- the first aggregate in a list of terms (`find_map`) -/
def aggList? : List (HTerm α) → Option (Nat × Operation α × List Variable)
  | [] => none
  | t :: ts => t.agg?.orElse fun _ => aggList? ts
end

mutual
/-- The value of a head term under a valuation, where `x` is the value of aggregates. -/
def value [DecidableEq α] [Dom α] (σ : Variable → α) (x : α) : HTerm α → Option α
  | .var v => some (σ v)
  | .const a => some a
  | .equal l r => do
    let a ← l.value σ x
    let b ← r.value σ x
    return if a = b then Dom.tru else Dom.fls
  | .op k ts => do
    let l ← valueList σ x ts
    Dom.app k l
  | .agg _ _ _ => some x
/-- the values of a list of head terms -/
def valueList [DecidableEq α] [Dom α] (σ : Variable → α) (x : α) : List (HTerm α) → Option (List α)
  | [] => some []
  | t :: ts => do
    let a ← t.value σ x
    let l ← valueList σ x ts
    return a :: l
end

mutual
/-- the variables outside of aggregates -/
def outerVars : HTerm α → List Variable
  | .var v => [v]
  | .const _ => []
  | .equal l r => l.outerVars ++ r.outerVars
  | .op _ ts => outerVarsList ts
  | .agg _ _ _ => []
/-- the same for a list of terms -/
def outerVarsList : List (HTerm α) → List Variable
  | [] => []
  | t :: ts => t.outerVars ++ outerVarsList ts
end

end HTerm

/-! ## Normalization -/

section normalize
variable {α : Type}

/-- The loop of `BodyAtom::normalize_atom` (normalization/atom/body.rs:85-130): the variables, the new operations and the
state of the generator. -/
def normBodyTerms : List (BTerm α) → List Variable → Nat → List Variable × List (Operation α) × Nat
  | [], _, g => ([], [], g)
  | .var v :: ts, used, g =>
    if v ∈ used then
      let r := normBodyTerms ts used (g + 1)
      (freshVar "BODY" (g + 1) :: r.1, .equal (.var (freshVar "BODY" (g + 1))) (.var v) :: r.2.1, r.2.2)
    else
      let r := normBodyTerms ts (v :: used) g
      (v :: r.1, r.2.1, r.2.2)
  | .anon :: ts, used, g =>
    let r := normBodyTerms ts used (g + 1)
    (freshVar "BODY" (g + 1) :: r.1, r.2.1, r.2.2)
  | .const a :: ts, used, g =>
    let r := normBodyTerms ts used (g + 1)
    (freshVar "BODY" (g + 1) :: r.1, .equal (.var (freshVar "BODY" (g + 1))) (.const a) :: r.2.1, r.2.2)
  | .oper o :: ts, used, g =>
    let r := normBodyTerms ts used (g + 1)
    (freshVar "BODY" (g + 1) :: r.1, .equal (.var (freshVar "BODY" (g + 1))) o :: r.2.1, r.2.2)

/-- The loops over the body atoms (normalization/rule.rs:495-509) -/
def normBodyAtoms : List (SAtom α) → Nat → List BodyAtom × List (Operation α) × Nat
  | [], g => ([], [], g)
  | a :: as, g =>
    let t := normBodyTerms a.terms [] g
    let r := normBodyAtoms as t.2.2
    (⟨a.pred, t.1⟩ :: r.1, t.2.1 ++ r.2.1, r.2.2)

/-- What the loop of `HeadAtom::normalize_atom` (normalization/atom/head.rs:113-147) collects: terms, operations, generator,
and the last aggregate with the other variables of its expression and its position. -/
structure HeadParts (α : Type) where
  terms : List (Primitive α)
  ops : List (Operation α)
  gen : Nat
  agg : Option ((Nat × Operation α × List Variable) × List Variable × Nat)

/-- a head term that is an operation (head.rs:122-140) -/
def normHeadOper (t : HTerm α) (i g : Nat) (r : HeadParts α) : HeadParts α :=
  ⟨.var (freshVar "HEAD" (g + 1)) :: r.terms, .equal (.var (freshVar "HEAD" (g + 1))) t.norm :: r.ops, r.gen,
    r.agg.orElse fun _ => t.agg?.map fun a => (a, t.norm.vars.filter fun v => !decide (v = aggOut), i)⟩

/-- The loop of `HeadAtom::normalize_atom` (normalization/atom/head.rs:113-147); `i` is the position of the next term. -/
def normHeadLoop : List (HTerm α) → Nat → Nat → HeadParts α
  | [], _, g => ⟨[], [], g, none⟩
  | .var v :: ts, i, g =>
    let r := normHeadLoop ts (i + 1) g
    { r with terms := .var v :: r.terms }
  | .const a :: ts, i, g =>
    let r := normHeadLoop ts (i + 1) g
    { r with terms := .const a :: r.terms }
  | .agg k t d :: ts, i, g =>
    let r := normHeadLoop ts (i + 1) g
    { r with terms := .var aggOut :: r.terms, agg := r.agg.orElse fun _ => some ((k, t, d), [], i) }
  | .equal a b :: ts, i, g => normHeadOper (.equal a b) i g (normHeadLoop ts (i + 1) (g + 1))
  | .op k as :: ts, i, g => normHeadOper (.op k as) i g (normHeadLoop ts (i + 1) (g + 1))

/-- `normalize_aggregation` (normalization/aggregate.rs:126-174): the input variable and the new operation. -/
def normAggInput : Operation α → Variable × List (Operation α)
  | .var v => (v, [])
  | .const a => (aggIn, [.equal (.var aggIn) (.const a)])
  | .equal l r => (aggIn, [.equal (.var aggIn) (.equal l r)])
  | .op k ts => (aggIn, [.equal (.var aggIn) (.op k ts)])

/-- The group-by variables (head.rs:150-157).  (The code collects them in a hash set; their order has no influence.) -/
def groupByVars (terms : List (Primitive α)) (outer : List Variable) (j : Nat) : List Variable :=
  (outer ++ (terms.zipIdx.filter fun x => !decide (x.2 = j)).filterMap fun x => x.1.var?).dedup

/-- `HeadAtom::normalize_atom` (normalization/atom/head.rs:101-170) -/
def normHeadAtom (h : SHead α) (g : Nat) : HeadAtom α × List (Operation α) × Nat × Option Aggregation :=
  let p := normHeadLoop h.terms 0 g
  match p.agg with
  | none => (⟨h.pred, p.terms⟩, p.ops, p.gen, none)
  | some (a, outer, j) =>
    let inp := normAggInput a.2.1
    (⟨h.pred, p.terms⟩, p.ops ++ inp.2, p.gen, some ⟨a.1, inp.1, aggOut, a.2.2, groupByVars p.terms outer j⟩)

/-- The loop over the head atoms (normalization/rule.rs:511-523); `i` is the index of the next atom.  A later aggregate replaces
an earlier one. -/
def normHeadAtoms : List (SHead α) → Nat → Nat → List (HeadAtom α) × List (Operation α) × Option (Aggregation × Nat)
  | [], _, _ => ([], [], none)
  | h :: hs, i, g =>
    let t := normHeadAtom h g
    let r := normHeadAtoms hs (i + 1) t.2.2.1
    (t.1 :: r.1, t.2.1 ++ r.2.1, r.2.2.orElse fun _ => t.2.2.2.map fun a => (a, i))

/-- `NormalizedRule::normalize_rule` (normalization/rule.rs:487-551), without import clauses.  The variable order is set
later. -/
def normalizeRule (S : SRule α) (order : List Variable) : NRule α :=
  let p := normBodyAtoms S.positive 0
  let n := normBodyAtoms S.negative p.2.2
  let h := normHeadAtoms S.head 0 n.2.2
  ⟨p.1, n.1, S.operations ++ p.2.1 ++ n.2.1 ++ h.2.1, h.1, h.2.2, order⟩

end normalize

/-! ## Specification: the meaning of rules -/

section semantics
variable {α : Type} [DecidableEq α] [Dom α]

/-- The value `b` matches the term. -/
def BTerm.Matches (σ : Variable → α) : BTerm α → α → Prop
  | .var v, b => σ v = b
  | .anon, _ => True
  | .const a, b => a = b
  | .oper o, b => o.eval σ = some b

/-- The row matches the atom. -/
def SAtom.Matches (a : SAtom α) (σ : Variable → α) (row : List α) : Prop := List.Forall₂ (BTerm.Matches σ) a.terms row

/-- The variables that get a value from the positive body atoms: those that occur in one, and
those that are equated with a term all of whose variables get a value. -/
inductive SSafe (S : SRule α) : Variable → Prop
  | atom {a : SAtom α} {v : Variable} : a ∈ S.positive → .var v ∈ a.terms → SSafe S v
  | assign {o e : Operation α} {v : Variable} : o ∈ S.operations → o.variableAssignment = some (v, e) →
      (∀ w ∈ e.vars, SSafe S w) → SSafe S v

/-- All expressions in the negated atoms and in the head (except for those with aggregates), and the aggregated expressions,
have a value. -/
structure TermsDefined (S : SRule α) (σ : Variable → α) : Prop where
  neg : ∀ a ∈ S.negative, ∀ o, .oper o ∈ a.terms → o.eval σ ≠ none
  head : ∀ h ∈ S.head, ∀ t ∈ h.terms, t.aggCount = 0 → ∀ x, t.value σ x ≠ none
  agg : ∀ h ∈ S.head, ∀ t ∈ h.terms, ∀ k i d, t.agg? = some (k, i, d) → i.eval σ ≠ none

/-- The rule is applicable for a valuation: the positive atoms match facts, the conditions are true, there is no fact
that matches a negated atom (together with the conditions on the variables that only occur in it), and all
expressions are defined. -/
structure SBody (S : SRule α) (P N : Interp α) (σ : Variable → α) : Prop where
  pos : ∀ a ∈ S.positive, ∃ row, P a.pred row ∧ a.Matches σ row
  ops : ∀ o ∈ S.operations, (∀ v ∈ o.vars, SSafe S v) → o.eval σ = some Dom.tru
  neg : ∀ a ∈ S.negative, ¬ ∃ (τ : Variable → α) (row : List α), (∀ v, SSafe S v → τ v = σ v) ∧ N a.pred row ∧
    a.Matches τ row ∧ ∀ o ∈ S.operations, (∀ v ∈ o.vars, SSafe S v ∨ .var v ∈ a.terms) → o.eval τ = some Dom.tru
  defined : TermsDefined S σ

/-- Two valuations belong to the same group: the terms of the head atom without aggregates have the same values, and also the
variables that occur next to an aggregate. -/
def SameGroup (h : SHead α) (τ τ' : Variable → α) : Prop :=
  ∀ t ∈ h.terms, (t.aggCount = 0 → ∀ x, t.value τ x = t.value τ' x) ∧ (t.aggCount ≠ 0 → ∀ v ∈ t.outerVars, τ v = τ' v)

/-- The facts that a rule derives if `B` are the valuations for which it is applicable.  For a head atom without aggregates,
these are its instances.  For one with an aggregate, there is an instance for each group: the aggregate is
applied to the values of the aggregated expression (together with the values of the distinct variables) in the group. -/
inductive SDerivesWith (S : SRule α) (B : (Variable → α) → Prop) : Interp α
  | plain {σ : Variable → α} {h : SHead α} {row : List α} : B σ → h ∈ S.head → (∀ t ∈ h.terms, t.aggCount = 0) →
      (∀ x, List.Forall₂ (fun t b => t.value σ x = some b) h.terms row) → SDerivesWith S B h.pred row
  | agg {τ : Variable → α} {h : SHead α} {t : HTerm α} {k : Nat} {i : Operation α} {d : List Variable}
      {l : List (List α)} {x : α} {row : List α} : B τ → h ∈ S.head → t ∈ h.terms → t.agg? = some (k, i, d) →
      (∀ y, y ∈ l ↔ ∃ τ' b, B τ' ∧ SameGroup h τ' τ ∧ i.eval τ' = some b ∧ y = b :: d.map τ') → Dom.agg k l = some x →
      List.Forall₂ (fun t b => t.value τ x = some b) h.terms row → SDerivesWith S B h.pred row

/-- The rule contains an aggregate. -/
def SRule.HasAgg (S : SRule α) : Prop := ∃ h ∈ S.head, ∃ t ∈ h.terms, t.aggCount ≠ 0

/-- The facts that a rule without existential variables derives from the positive facts `P`, where negated atoms (and all
atoms of rules with aggregates) are looked up in `N`. -/
def SDerives (S : SRule α) (P N : Interp α) : Interp α :=
  fun p row => (¬ S.HasAgg ∧ SDerivesWith S (SBody S P N) p row) ∨ (S.HasAgg ∧ SDerivesWith S (SBody S N N) p row)

/-- The variables of a rule -/
def SRule.vars (S : SRule α) : List Variable :=
  (S.positive ++ S.negative).flatMap (fun a => a.terms.flatMap fun
    | .var v => [v]
    | .anon => []
    | .const _ => []
    | .oper o => o.vars) ++ S.operations.flatMap Operation.vars ++ S.head.flatMap (fun h => HTerm.varsList h.terms)

/-- Conditions on rules.  All but `opsScoped` and `oneAggAtom` are checked by the validation (rule.rs:377-501), or are
guaranteed by the parser (`user`). -/
structure SValid (S : SRule α) : Prop where
  user : ∀ v ∈ S.vars, ¬ v.Reserved
  operSafe : ∀ a ∈ S.positive ++ S.negative, ∀ o, .oper o ∈ a.terms → ∀ v ∈ o.vars, SSafe S v
  opsScoped : ∀ o ∈ S.operations, (∀ v ∈ o.vars, SSafe S v) ∨
    ∃ a ∈ S.negative, ∀ v ∈ o.vars, SSafe S v ∨ .var v ∈ a.terms
  headSafe : ∀ h ∈ S.head, ∀ v ∈ HTerm.varsList h.terms, v.isExistential = false → SSafe S v
  headPlain : ∀ h ∈ S.head, ∀ t ∈ h.terms, (∀ v, t ≠ .var v) → ∀ v ∈ t.vars, v.isExistential = false
  oneAggAtom : ∀ (i j : Nat) h h', S.head[i]? = some h → S.head[j]? = some h' → (∃ t ∈ h.terms, t.aggCount ≠ 0) →
    (∃ t ∈ h'.terms, t.aggCount ≠ 0) → i = j
  oneAgg : ∀ h ∈ S.head, HTerm.aggCountList h.terms ≤ 1
  aggUniversal : ∀ h ∈ S.head, (∃ t ∈ h.terms, t.aggCount ≠ 0) → ∀ v ∈ HTerm.varsList h.terms, v.isExistential = false
  negDisjoint : S.negative.Pairwise fun a b => ∀ v, .var v ∈ a.terms → .var v ∈ b.terms → SSafe S v

end semantics
end Verif
