import Verif.TextMeaning
import Verif.ExInduction
import Verif.NormalizeProg

/-!
# From the rule model to the rules of `Verif.Source`

`Verif.Tr.Rule` are the components that the translation builds; `SRule` are the rules that are normalized
and executed (C43).  Both represent `nemo/src/rule_model/components/rule.rs`; this file converts the first
representation into the second, for rules without parameters and structured
terms, and shows that expressions keep their values.
-/
set_option linter.unusedSimpArgs false
set_option linter.unusedSectionVars false

namespace Verif.Tr
open Verif.Parse (Str Ex FEl VarKind AOp IOp Enc Guard RuleAst DirectiveAst KindAst StmtAst ProgramAst Part)

/-- A loop that stops at the first failure. -/
def collect {β γ : Type} (f : β → Option γ) : List β → Option (List γ)
  | [] => some []
  | b :: bs => do
      let c ← f b
      let cs ← collect f bs
      some (c :: cs)

/-- The variable with a name. -/
def uvar (n : Str) : Variable := .named (String.ofList n)

/-- The existential variable with a name. -/
def evar (n : Str) : Variable := .existential (nameCode (String.ofList n))

/-- A distinct variable of an aggregate. -/
def distinctVar : RVar → Option Variable
  | .named .universal n => some (uvar n)
  | _ => none

/-- The number that stands for a predicate name. -/
def code (n : Str) : Verif.Tag := nameCode (String.ofList n)

section
variable {α : Type} (el : DV → α)

/-- An operation of a kind; equality is a constructor of its own (`OperationKind::Equal`). -/
def opOf (k : Str) : List (Operation α) → Operation α
  | [a, b] => if k = "EQUALITY".toList then .equal a b else .op (opCode k) [a, b]
  | os => .op (opCode k) os

mutual
/-- `normalize_body_term` and `normalize_body_operation` (normalization/operation.rs:127-158); nothing for terms
on which they panic, and for variables of other kinds. -/
def operation : Term → Option (Operation α)
  | .const v => some (.const (el v))
  | .var (.named .universal n) => some (.var (uvar n))
  | .op k ts => do
      let os ← operations ts
      some (opOf k os)
  | _ => none
/-- The same for several terms. -/
def operations : List Term → Option (List (Operation α))
  | [] => some []
  | t :: ts => do
      let o ← operation t
      let os ← operations ts
      some (o :: os)
end

/-- A term of a body atom (normalization/atom/body.rs:86-129). -/
def bodyTerm : Term → Option (BTerm α)
  | .var .anon => some .anon
  | .var (.named .universal n) => some (.var (uvar n))
  | .const v => some (.const (el v))
  | .op k ts => (operation el (.op k ts)).map .oper
  | _ => none

/-- A head operation of a kind. -/
def headOpOf (k : Str) : List (HTerm α) → HTerm α
  | [a, b] => if k = "EQUALITY".toList then .equal a b else .op (opCode k) [a, b]
  | os => .op (opCode k) os

mutual
/-- A term of a head atom (normalization/operation.rs:166-197); for aggregates, see normalization/aggregate.rs:126-174. -/
def headTerm : Term → Option (HTerm α)
  | .const v => some (.const (el v))
  | .var (.named .universal n) => some (.var (uvar n))
  | .var (.named .existential n) => some (.var (evar n))
  | .agg k t vs => do
      let o ← operation el t
      let ds ← collect distinctVar vs
      some (.agg (aggCode k) o ds)
  | .op k ts => do
      let os ← headTerms ts
      some (headOpOf k os)
  | _ => none
/-- The same for several terms. -/
def headTerms : List Term → Option (List (HTerm α))
  | [] => some []
  | t :: ts => do
      let o ← headTerm t
      let os ← headTerms ts
      some (o :: os)
end

/-- A body atom. -/
def bodyAtom (a : Atom) : Option (SAtom α) := do
  let ts ← collect (bodyTerm el) a.terms
  some ⟨code a.pred, ts⟩

/-- A head atom. -/
def sourceHead (a : Atom) : Option (SHead α) := do
  let ts ← collect (headTerm el) a.terms
  some ⟨code a.pred, ts⟩

/-- The body literals, separated by their kind (`body_positive`, `body_negative`, `body_operations`,
components/rule.rs:100-150). -/
def sourceBody (hs : List (SHead α)) : List Literal → Option (SRule α)
  | [] => some ⟨[], [], [], hs⟩
  | .pos a :: ls => do
      let b ← bodyAtom el a
      let S ← sourceBody hs ls
      some { S with positive := b :: S.positive }
  | .neg a :: ls => do
      let b ← bodyAtom el a
      let S ← sourceBody hs ls
      some { S with negative := b :: S.negative }
  | .oper k ts :: ls => do
      let o ← operation el (.op k ts)
      let S ← sourceBody hs ls
      some { S with operations := o :: S.operations }

/-- The rule in the representation of `Verif.Source`. -/
def sourceRule (R : Rule) : Option (SRule α) := do
  let hs ← collect (sourceHead el) R.head
  sourceBody el hs R.body

end

/-! ### Loops -/

@[simp] theorem Res.bind_eq_ok {β γ : Type} {x : Res β} {f : β → Res γ} {c : γ} :
    (x >>= f) = .ok c ↔ ∃ b, x = .ok b ∧ f b = .ok c := by
  cases x with
  | ok b => exact ⟨fun h => ⟨b, rfl, h⟩, fun ⟨_, h1, h2⟩ => by cases h1; exact h2⟩
  | err e => exact ⟨(nomatch ·), fun ⟨_, h, _⟩ => (nomatch h)⟩
  | panic => exact ⟨(nomatch ·), fun ⟨_, h, _⟩ => (nomatch h)⟩

theorem collect_eq {β γ : Type} {f : β → Option γ} {bs : List β} {cs : List γ} :
    collect f bs = some cs ↔ List.Forall₂ (fun b c => f b = some c) bs cs := by
  induction bs generalizing cs with
  | nil => simp [collect, eq_comm]
  | cons b bs ih =>
    simp only [collect, Option.bind_eq_bind, Option.bind_eq_some_iff, Option.some.injEq, List.forall₂_cons_left_iff, ih]
    constructor
    · rintro ⟨c, hc, cs', hcs, rfl⟩; exact ⟨c, cs', hc, hcs, rfl⟩
    · rintro ⟨c, cs', hc, hcs, rfl⟩; exact ⟨c, hc, cs', hcs, rfl⟩

theorem traverse_eq {β γ : Type} {f : β → Res γ} {bs : List β} {cs : List γ} :
    traverse f bs = .ok cs ↔ List.Forall₂ (fun b c => f b = .ok c) bs cs := by
  induction bs generalizing cs with
  | nil => simp [traverse, eq_comm]
  | cons b bs ih =>
    simp only [traverse, Res.bind_eq_ok, Res.ok.injEq, List.forall₂_cons_left_iff, ih]
    constructor
    · rintro ⟨c, hc, cs', hcs, rfl⟩; exact ⟨c, cs', hc, hcs, rfl⟩
    · rintro ⟨c, cs', hc, hcs, rfl⟩; exact ⟨c, hc, cs', hcs, rfl⟩

theorem terms_eq {L : Fn.Lib} {c : Ctx} {es : List Ex} {ts : List Term} :
    terms L c es = .ok ts ↔ List.Forall₂ (fun e t => term L c e = .ok t) es ts := by
  induction es generalizing ts with
  | nil => simp [terms, eq_comm]
  | cons b bs ih =>
    simp only [terms, Res.bind_eq_ok, Res.ok.injEq, List.forall₂_cons_left_iff, ih]
    constructor
    · rintro ⟨c, hc, cs', hcs, rfl⟩; exact ⟨c, cs', hc, hcs, rfl⟩
    · rintro ⟨c, cs', hc, hcs, rfl⟩; exact ⟨c, hc, cs', hcs, rfl⟩

/-! ### Expressions -/

/-- The abbreviations in a state of the translation. -/
def Ctx.names (c : Ctx) : Names := ⟨c.base, fun p => c.prefixes.lookup p⟩

theorem resolve_full {c : Ctx} {t : Parse.Tag} {n : Str} : resolveTag c t = .ok n ↔ c.names.full t = some n := by
  cases t with
  | plain m => cases h : c.base <;> simp [resolveTag, Names.full, Ctx.names, h]
  | prefixed p m => cases h : c.prefixes.lookup p <;> simp [resolveTag, Names.full, Ctx.names, h]
  | iri s => simp [resolveTag, Names.full]

section
variable {α : Type} [DecidableEq α] [Dom α] {L : Fn.Lib} {el : DV → α} {c : Ctx}

theorem opOf_vars (k : Str) (os : List (Operation α)) : (opOf k os).vars = Operation.varsList os := by
  unfold opOf
  split
  · split <;> simp [Operation.vars, Operation.varsList]
  · rw [Operation.vars]

theorem opOf_eval (k : Str) (os : List (Operation α)) (σ : Variable → α) :
    (opOf k os).eval σ = (Operation.evalList σ os).bind (apply k) := by
  unfold opOf
  split
  · rename_i a b
    split
    · rename_i h
      subst h
      simp only [Operation.eval, Operation.evalList]
      cases a.eval σ <;> cases b.eval σ <;> rfl
    · rename_i h
      simp only [Operation.eval, Operation.evalList]
      cases a.eval σ <;> cases b.eval σ <;> first | rfl | exact (if_neg h).symm
  · rename_i h
    rw [Operation.eval]
    match os, h with
    | [], _ => rfl
    | [a], _ => simp only [Operation.evalList]; cases a.eval σ <;> rfl
    | [a, b], h => exact absurd rfl (h a b)
    | a :: b :: d :: ds, _ =>
      simp only [Operation.evalList]
      cases a.eval σ <;> cases b.eval σ <;> cases d.eval σ <;> cases Operation.evalList σ ds <;> rfl

theorem headOpOf_vars (k : Str) (os : List (HTerm α)) : (headOpOf k os).vars = HTerm.varsList os := by
  unfold headOpOf
  split
  · split <;> simp [HTerm.vars, HTerm.varsList]
  · rw [HTerm.vars]

theorem headOpOf_agg (k : Str) (os : List (HTerm α)) : (headOpOf k os).aggCount = HTerm.aggCountList os := by
  unfold headOpOf
  split
  · split <;> simp [HTerm.aggCount, HTerm.aggCountList]
  · rw [HTerm.aggCount]

theorem headOpOf_value (k : Str) (os : List (HTerm α)) (σ : Variable → α) (x : α) :
    (headOpOf k os).value σ x = (HTerm.valueList σ x os).bind (apply k) := by
  unfold headOpOf
  split
  · rename_i a b
    split
    · rename_i h
      subst h
      simp only [HTerm.value, HTerm.valueList]
      cases a.value σ x <;> cases b.value σ x <;> rfl
    · rename_i h
      simp only [HTerm.value, HTerm.valueList]
      cases a.value σ x <;> cases b.value σ x <;> first | rfl | exact (if_neg h).symm
  · rename_i h
    rw [HTerm.value]
    match os, h with
    | [], _ => rfl
    | [a], _ => simp only [HTerm.valueList]; cases a.value σ x <;> rfl
    | [a, b], h => exact absurd rfl (h a b)
    | a :: b :: d :: ds, _ =>
      simp only [HTerm.valueList]
      cases a.value σ x <;> cases b.value σ x <;> cases d.value σ x <;> cases HTerm.valueList σ x ds <;> rfl

/-- The operation means the expression. -/
def OpFor (L : Fn.Lib) (el : DV → α) (c : Ctx) (e : Ex) (o : Operation α) : Prop :=
  o.vars = (varsOf e).map uvar ∧ ∀ σ ρ, (∀ n, σ (uvar n) = ρ n) → o.eval σ = value L el c.names ρ e

/-- The head term means the expression. -/
def TermFor (L : Fn.Lib) (el : DV → α) (c : Ctx) (e : Ex) (o : HTerm α) : Prop :=
  o.vars = (varsOf e).map uvar ∧ o.aggCount = 0 ∧
    ∀ σ ρ x, (∀ n, σ (uvar n) = ρ n) → o.value σ x = value L el c.names ρ e

/-- The translation of an expression means the expression. -/
def Good (L : Fn.Lib) (el : DV → α) (c : Ctx) (e : Ex) : Prop := ∀ t, PlainEx e → term L c e = .ok t →
  (∃ o, operation el t = some o ∧ OpFor L el c e o) ∧ ∃ h, headTerm el t = some h ∧ TermFor L el c e h

theorem good_list {es : List Ex} (ih : ∀ e ∈ es, Good L el c e) {ts : List Term} (hp : PlainExs es)
    (h : terms L c es = .ok ts) :
    (∃ os, operations el ts = some os ∧ Operation.varsList os = (varsOfAll es).map uvar ∧
      ∀ σ ρ, (∀ n, σ (uvar n) = ρ n) → Operation.evalList σ os = values L el c.names ρ es) ∧
    ∃ hs, headTerms el ts = some hs ∧ HTerm.varsList hs = (varsOfAll es).map uvar ∧ HTerm.aggCountList hs = 0 ∧
      ∀ σ ρ x, (∀ n, σ (uvar n) = ρ n) → HTerm.valueList σ x hs = values L el c.names ρ es := by
  induction es generalizing ts with
  | nil =>
    simp only [terms, Res.ok.injEq] at h
    subst h
    exact ⟨⟨[], rfl, rfl, fun _ _ _ => rfl⟩, [], rfl, rfl, rfl, fun _ _ _ _ => rfl⟩
  | cons e es ih' =>
    simp only [terms, Res.bind_eq_ok, Res.ok.injEq] at h
    obtain ⟨t, ht, ts', hts, rfl⟩ := h
    obtain ⟨⟨o, h1, h2, h3⟩, h', k1, k2, k3, k4⟩ := ih e (by simp) t hp.1 ht
    obtain ⟨⟨os, g1, g2, g3⟩, hs, l1, l2, l3, l4⟩ := ih' (fun a ha => ih a (by simp [ha])) hp.2 hts
    refine ⟨⟨o :: os, by simp [operations, h1, g1], by simp [Operation.varsList, varsOfAll, h2, g2], fun σ ρ hσ => ?_⟩,
      h' :: hs, by simp [headTerms, k1, l1], by simp [HTerm.varsList, varsOfAll, k2, l2],
      by simp [HTerm.aggCountList, k3, l3], fun σ ρ x hσ => ?_⟩
    · simp only [Operation.evalList, values, h3 σ ρ hσ, g3 σ ρ hσ]; rfl
    · simp only [HTerm.valueList, values, k4 σ ρ x hσ, l4 σ ρ x hσ]; rfl

theorem apply_other {k : Str} (h : k ≠ "EQUALITY".toList) (xs : List α) : apply k xs = Dom.app (opCode k) xs := by
  unfold apply
  split
  · rw [if_neg h]
  · rfl

theorem good_const {e : Ex} {v : DV} (h : term L c e = .ok (.const v)) (hv : varsOf e = [])
    (hc : ∀ ρ, value L el c.names ρ e = some (el v)) : Good L el c e := by
  intro t _ ht
  rw [h] at ht
  cases ht
  exact ⟨⟨_, rfl, by rw [hv]; rfl, fun σ ρ _ => by rw [hc]; rfl⟩,
    _, rfl, by rw [hv]; rfl, rfl, fun σ ρ x _ => by rw [hc]; rfl⟩

theorem good_pieces {fs : List (FEl Ex)} (ih : ∀ e, .expr e ∈ fs → Good L el c e) {ts : List Term} (hp : PlainPieces fs)
    (h : elements L c fs = .ok ts) :
    (∃ os, operations el ts = some os ∧ Operation.varsList os = (varsOfPieces fs).map uvar ∧
      ∀ σ ρ, (∀ n, σ (uvar n) = ρ n) → Operation.evalList σ os = pieces L el c.names ρ fs) ∧
    ∃ hs, headTerms el ts = some hs ∧ HTerm.varsList hs = (varsOfPieces fs).map uvar ∧ HTerm.aggCountList hs = 0 ∧
      ∀ σ ρ x, (∀ n, σ (uvar n) = ρ n) → HTerm.valueList σ x hs = pieces L el c.names ρ fs := by
  induction fs generalizing ts with
  | nil =>
    simp only [elements, Res.ok.injEq] at h
    subst h
    exact ⟨⟨[], rfl, rfl, fun _ _ _ => rfl⟩, [], rfl, rfl, rfl, fun _ _ _ _ => rfl⟩
  | cons f fs ih' =>
    simp only [elements, Res.bind_eq_ok, Res.ok.injEq] at h
    obtain ⟨t, ht, ts', hts, rfl⟩ := h
    have key : (∃ o, operation el t = some o ∧ o.vars = (varsOfPiece f).map uvar ∧
          ∀ σ ρ, (∀ n, σ (uvar n) = ρ n) → o.eval σ = piece L el c.names ρ f) ∧
        ∃ h, headTerm el t = some h ∧ h.vars = (varsOfPiece f).map uvar ∧ h.aggCount = 0 ∧
          ∀ σ ρ x, (∀ n, σ (uvar n) = ρ n) → h.value σ x = piece L el c.names ρ f := by
      cases f with
      | text s =>
        simp only [element, Res.ok.injEq] at ht
        subst ht
        exact ⟨⟨_, rfl, rfl, fun _ _ _ => rfl⟩, _, rfl, rfl, rfl, fun _ _ _ _ => rfl⟩
      | openBrace =>
        simp only [element, Res.ok.injEq] at ht
        subst ht
        exact ⟨⟨_, rfl, rfl, fun _ _ _ => rfl⟩, _, rfl, rfl, rfl, fun _ _ _ _ => rfl⟩
      | closeBrace =>
        simp only [element, Res.ok.injEq] at ht
        subst ht
        exact ⟨⟨_, rfl, rfl, fun _ _ _ => rfl⟩, _, rfl, rfl, rfl, fun _ _ _ _ => rfl⟩
      | expr e =>
        simp only [element, Res.bind_eq_ok, Res.ok.injEq] at ht
        obtain ⟨t', ht', rfl⟩ := ht
        obtain ⟨⟨o, h1, h2, h3⟩, h', k1, k2, k3, k4⟩ := ih e (by simp) t' hp.1 ht'
        refine ⟨⟨_, by simp only [operation, operations, h1]; rfl, ?_, fun σ ρ hσ => ?_⟩, _,
          by simp only [headTerm, headTerms, k1]; rfl, ?_, ?_, fun σ ρ x hσ => ?_⟩
        · rw [opOf_vars]; simp [Operation.varsList, h2, varsOfPiece]
        · rw [opOf_eval]
          simp only [Operation.evalList, h3 σ ρ hσ, piece]
          cases value L el c.names ρ e <;> rfl
        · rw [headOpOf_vars]; simp [HTerm.varsList, k2, varsOfPiece]
        · rw [headOpOf_agg]; simp [HTerm.aggCountList, k3]
        · rw [headOpOf_value]
          simp only [HTerm.valueList, k4 σ ρ x hσ, piece]
          cases value L el c.names ρ e <;> rfl
    obtain ⟨⟨o, h1, h2, h3⟩, h', k1, k2, k3, k4⟩ := key
    obtain ⟨⟨os, g1, g2, g3⟩, hs, l1, l2, l3, l4⟩ := ih' (fun a ha => ih a (by simp [ha])) hp.2 hts
    refine ⟨⟨o :: os, by simp [operations, h1, g1], by simp [Operation.varsList, varsOfPieces, h2, g2], fun σ ρ hσ => ?_⟩,
      h' :: hs, by simp [headTerms, k1, l1], by simp [HTerm.varsList, varsOfPieces, k2, l2],
      by simp [HTerm.aggCountList, k3, l3], fun σ ρ x hσ => ?_⟩
    · simp only [Operation.evalList, pieces, h3 σ ρ hσ, g3 σ ρ hσ]; rfl
    · simp only [HTerm.valueList, pieces, k4 σ ρ x hσ, l4 σ ρ x hσ]; rfl

theorem good (e : Ex) : Good L el c e := by
  induction e using Parse.Ex.parts with
  | h e ih =>
  intro t hp ht
  cases e with
  | aggregation => exact hp.elim
  | atom => exact hp.elim
  | map => exact hp.elim
  | negation => exact hp.elim
  | tuple => exact hp.elim
  | anonymous => exact hp.elim
  | «variable» k n =>
    obtain rfl : k = .universal := hp
    simp only [term, Res.ok.injEq] at ht
    subst ht
    exact ⟨⟨_, rfl, rfl, fun σ ρ h => congrArg some (h n)⟩, _, rfl, rfl, rfl, fun σ ρ x h => congrArg some (h n)⟩
  | parenthesized e =>
    rw [term] at ht
    exact ih e .parenthesized t hp ht
  | blank n => exact good_const (v := .iri (String.ofList n)) rfl rfl (fun _ => rfl) t hp ht
  | boolean b => exact good_const (v := .bool b) rfl rfl (fun _ => rfl) t hp ht
  | encoded x ds => exact good_const (v := encoded x ds) rfl rfl (fun _ => rfl) t hp ht
  | constant g =>
    have ht' := ht
    simp only [term, Res.bind_eq_ok, Res.ok.injEq] at ht'
    obtain ⟨n, hn, rfl⟩ := ht'
    refine good_const ht rfl (fun _ => ?_) _ hp ht
    simp [value, constant, resolve_full.1 hn]
  | number n =>
    have ht' := ht
    simp only [term, Res.bind_eq_ok, Res.ok.injEq] at ht'
    obtain ⟨v, hv, rfl⟩ := ht'
    refine good_const ht rfl (fun _ => ?_) _ hp ht
    simp [value, constant, hv]
  | rdf s g =>
    have ht' := ht
    simp only [term, Res.bind_eq_ok, Res.ok.injEq] at ht'
    obtain ⟨v, hv, rfl⟩ := ht'
    refine good_const ht rfl (fun _ => ?_) _ hp ht
    simp only [rdfLit, Res.bind_eq_ok] at hv
    obtain ⟨dt, hd, hv⟩ := hv
    simp only [value, constant, resolve_full.1 hd, Option.bind_some]
    cases hl : Lit.typedLit L (String.ofList s) (String.ofList dt) with
    | val w => rw [hl] at hv; simp only [Res.ok.injEq] at hv; subst hv; rfl
    | undef => rw [hl] at hv; cases hv
    | panic => rw [hl] at hv; cases hv
  | string s l =>
    have ht' := ht
    simp only [term, Res.ok.injEq] at ht'
    subst ht'
    refine good_const ht rfl (fun _ => ?_) _ hp ht
    cases l <;> simp [value, constant, Fn.mkLang]
  | arithmetic o l r =>
    simp only [term, Res.bind_eq_ok, Res.ok.injEq] at ht
    obtain ⟨a, ha, b, hb, rfl⟩ := ht
    obtain ⟨⟨oa, h1, h2, h3⟩, h', k1, k2, k3, k4⟩ := ih l .left a hp.1 ha
    obtain ⟨⟨ob, g1, g2, g3⟩, g', l1, l2, l3, l4⟩ := ih r .right b hp.2 hb
    have hk : aopKind o ≠ "EQUALITY".toList := by cases o <;> decide
    have hn : aopKind o = (arithmeticName o).toList := by cases o <;> rfl
    have happ : ∀ x y : α, apply (aopKind o) [x, y] = Dom.app (opCode (arithmeticName o).toList) [x, y] := fun x y => by
      rw [← hn, apply_other hk]
    refine ⟨⟨_, by simp only [operation, operations, h1, g1]; rfl, ?_, fun σ ρ hσ => ?_⟩, _,
      by simp only [headTerm, headTerms, k1, l1]; rfl, ?_, ?_, fun σ ρ x hσ => ?_⟩
    · rw [opOf_vars]; simp [Operation.varsList, h2, g2, varsOf]
    · rw [opOf_eval]
      simp only [Operation.evalList, h3 σ ρ hσ, g3 σ ρ hσ, value]
      cases value L el c.names ρ l <;> cases value L el c.names ρ r <;>
        first | rfl | exact happ _ _
    · rw [headOpOf_vars]; simp [HTerm.varsList, k2, l2, varsOf]
    · rw [headOpOf_agg]; simp [HTerm.aggCountList, k3, l3]
    · rw [headOpOf_value]
      simp only [HTerm.valueList, k4 σ ρ x hσ, l4 σ ρ x hσ, value]
      cases value L el c.names ρ l <;> cases value L el c.names ρ r <;>
        first | rfl | exact happ _ _
  | operation k es =>
    simp only [term, Res.bind_eq_ok, Res.ok.injEq] at ht
    obtain ⟨ts, hts, rfl⟩ := ht
    obtain ⟨⟨os, g1, g2, g3⟩, hs, l1, l2, l3, l4⟩ := good_list (fun a ha => ih a (.operation ha)) hp hts
    refine ⟨⟨_, by simp only [operation, g1]; rfl, ?_, fun σ ρ hσ => ?_⟩, _, by simp only [headTerm, l1]; rfl, ?_, ?_,
      fun σ ρ x hσ => ?_⟩
    · rw [opOf_vars, g2, varsOf]
    · rw [opOf_eval, g3 σ ρ hσ, value]; rfl
    · rw [headOpOf_vars, l2, varsOf]
    · rw [headOpOf_agg, l3]
    · rw [headOpOf_value, l4 σ ρ x hσ, value]; rfl
  | formatString fs =>
    simp only [term, Res.bind_eq_ok, Res.ok.injEq] at ht
    obtain ⟨ts, hts, rfl⟩ := ht
    obtain ⟨⟨os, g1, g2, g3⟩, hs, l1, l2, l3, l4⟩ := good_pieces (fun a ha => ih a (.piece ha)) hp hts
    have hk : "CONCAT".toList ≠ "EQUALITY".toList := by decide
    refine ⟨⟨_, by simp only [operation, g1]; rfl, ?_, fun σ ρ hσ => ?_⟩, _, by simp only [headTerm, l1]; rfl, ?_, ?_,
      fun σ ρ x hσ => ?_⟩
    · rw [opOf_vars, g2, varsOf]
    · rw [opOf_eval, g3 σ ρ hσ, value]
      cases pieces L el c.names ρ fs <;> first | rfl | exact apply_other hk _
    · rw [headOpOf_vars, l2, varsOf]
    · rw [headOpOf_agg, l3]
    · rw [headOpOf_value, l4 σ ρ x hσ, value]
      cases pieces L el c.names ρ fs <;> first | rfl | exact apply_other hk _

end

end Verif.Tr
