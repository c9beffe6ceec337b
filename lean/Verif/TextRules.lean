import Verif.TextSource

/-!
# Rules as they are written and rules as they are executed

A rule that is translated derives what `Verif.TextMeaning` says that the written rule derives.
-/
set_option linter.unusedSimpArgs false
set_option linter.unusedSectionVars false

namespace Verif.Tr
open Verif.Parse (Str Ex FEl VarKind AOp IOp Enc Guard RuleAst DirectiveAst KindAst StmtAst ProgramAst Part)

theorem uvar_inj {n m : Str} (h : uvar n = uvar m) : n = m := String.ofList_injective (named_inj h)

theorem code_inj {n m : Str} (h : code n = code m) : n = m := String.ofList_injective (nameCode_inj h)

theorem forall₂_left {β γ : Type} {R : β → γ → Prop} {l : List β} {l' : List γ} (h : List.Forall₂ R l l') {b : β} (hb : b ∈ l) :
    ∃ c ∈ l', R b c := by
  induction h with
  | nil => cases hb
  | cons h1 _ ih =>
    rcases List.mem_cons.1 hb with rfl | hb
    · exact ⟨_, by simp, h1⟩
    · obtain ⟨c, hc, h⟩ := ih hb
      exact ⟨c, by simp [hc], h⟩

theorem forall₂_right {β γ : Type} {R : β → γ → Prop} {l : List β} {l' : List γ} (h : List.Forall₂ R l l') {c : γ} (hc : c ∈ l') :
    ∃ b ∈ l, R b c := by
  induction h with
  | nil => cases hc
  | cons h1 _ ih =>
    rcases List.mem_cons.1 hc with rfl | hc
    · exact ⟨_, by simp, h1⟩
    · obtain ⟨b, hb, h⟩ := ih hc
      exact ⟨b, by simp [hb], h⟩

section
variable {α : Type} [DecidableEq α] [Dom α] {L : Fn.Lib} {el : DV → α} {c : Ctx}

/-- A valuation of all variables that gives named variables the values `ρ`. -/
noncomputable def valuation (ρ : Str → α) (v : Variable) : α :=
  open Classical in if h : ∃ n, v = uvar n then ρ h.choose else Dom.tru

theorem valuation_uvar (ρ : Str → α) (n : Str) : valuation ρ (uvar n) = ρ n := by
  have h : ∃ m, uvar n = uvar m := ⟨n, rfl⟩
  rw [valuation, dif_pos h]
  exact congrArg ρ (uvar_inj h.choose_spec).symm

theorem OpFor.eval {e : Ex} {o : Operation α} (h : OpFor L el c e o) {σ : Variable → α} {ρ : Str → α}
    (hσ : ∀ n ∈ varsOf e, σ (uvar n) = ρ n) : o.eval σ = value L el c.names ρ e := by
  rw [← h.2 (valuation ρ) ρ (valuation_uvar ρ)]
  refine Operation.eval_congr o fun v hv => ?_
  rw [h.1, List.mem_map] at hv
  obtain ⟨n, hn, rfl⟩ := hv
  rw [hσ n hn, valuation_uvar]

/-! ### Arguments -/

theorem term_bare (e : Ex) : term L c (bare e) = term L c e := by
  induction e using Parse.Ex.parts with
  | h e ih =>
  cases e with
  | parenthesized e => rw [bare, term, ih e .parenthesized]
  | _ => rfl

theorem value_bare (N : Names) (ρ : Str → α) (e : Ex) : value L el N ρ (bare e) = value L el N ρ e := by
  induction e using Parse.Ex.parts with
  | h e ih =>
  cases e with
  | parenthesized e => rw [bare, value, ih e .parenthesized]
  | _ => rfl

theorem varsOf_bare (e : Ex) : varsOf (bare e) = varsOf e := by
  induction e using Parse.Ex.parts with
  | h e ih =>
  cases e with
  | parenthesized e => rw [bare, varsOf, ih e .parenthesized]
  | _ => rfl

theorem bare_ne (e a : Ex) : bare e ≠ .parenthesized a := by
  induction e using Parse.Ex.parts with
  | h e ih =>
  cases e with
  | parenthesized e => rw [bare]; exact ih e .parenthesized
  | _ => simp [bare]

theorem universal_eq {e : Ex} {n : Str} (h : universal e = some n) : e = .variable .universal n := by
  unfold universal at h
  split at h
  · cases h; rfl
  · cases h

theorem term_var {e : Ex} {k : VarKind} {n : Str} (h : term L c e = .ok (.var (.named k n))) : bare e = .variable k n := by
  rw [← term_bare] at h
  have hb := bare_ne e
  generalize bare e = b at h hb
  cases b with
  | parenthesized a => exact absurd rfl (hb a)
  | aggregation k' e ds => cases k' <;> simp [term] at h
  | map t kvs => cases t <;> simp [term] at h
  | «variable» k' n' => simp only [term, Res.ok.injEq, Term.var.injEq, RVar.named.injEq] at h; rw [h.1, h.2]
  | _ => simp [term] at h

/-- The argument of a body atom and its translation -/
def ArgFor (L : Fn.Lib) (el : DV → α) (c : Ctx) (e : Ex) : BTerm α → Prop
  | .anon => bare e = .anonymous
  | .var v => ∃ n, universal (bare e) = some n ∧ v = uvar n
  | .const a => universal (bare e) = none ∧ bare e ≠ .anonymous ∧ varsOf e = [] ∧ ∀ ρ, value L el c.names ρ e = some a
  | .oper o => universal (bare e) = none ∧ bare e ≠ .anonymous ∧ OpFor L el c e o ∧ ¬ Primitive e

theorem primitive_operation {e : Ex} (hp : PlainEx e) (hprim : Primitive e) {t : Term} (ht : term L c e = .ok t) :
    ∀ k ts, t ≠ .op k ts := by
  rintro k ts rfl
  rw [← term_bare] at ht
  unfold Primitive at hprim
  have hb := bare_ne e
  have hp' : PlainEx (bare e) := by
    clear hprim ht hb
    induction e using Parse.Ex.parts with
    | h e ih =>
    cases e with
    | parenthesized e => exact ih e .parenthesized hp
    | _ => exact hp
  generalize bare e = b at ht hprim hb hp'
  cases b with
  | parenthesized a => exact absurd rfl (hb a)
  | arithmetic => exact hprim
  | operation => exact hprim
  | formatString => exact hprim
  | aggregation => exact hp'
  | map => exact hp'
  | _ => simp [term] at ht

theorem universal_none {e : Ex} (h : ∀ n, e ≠ .variable .universal n) : universal e = none := by
  unfold universal
  split
  · exact absurd rfl (h _)
  · rfl

theorem arg_for {e : Ex} (hp : PlainArg e) {t : Term} (ht : term L c e = .ok t) :
    ∃ b, bodyTerm el t = some b ∧ ArgFor L el c e b := by
  rcases hp with hp | hp
  · rw [← term_bare, hp] at ht
    simp only [term, Res.ok.injEq] at ht
    subst ht
    exact ⟨.anon, rfl, hp⟩
  · obtain ⟨⟨o, h1, h2, h3⟩, -⟩ := good (el := el) e t hp ht
    cases t with
    | const v =>
      simp only [operation, Option.some.injEq] at h1
      subst h1
      have hv : varsOf e = [] := by
        have h2 : [] = (varsOf e).map uvar := h2
        simpa using h2.symm
      refine ⟨.const (el v), rfl, universal_none fun n hn => ?_, fun hn => ?_, hv, fun ρ => ?_⟩
      · rw [← term_bare, hn] at ht; simp [term] at ht
      · rw [← term_bare, hn] at ht; simp [term] at ht
      · exact (h3 (valuation ρ) ρ (valuation_uvar ρ)).symm
    | var w =>
      cases w with
      | anon => simp [operation] at h1
      | named k n =>
        have hb := term_var ht
        cases k with
        | universal => exact ⟨.var (uvar n), rfl, n, by rw [hb]; rfl, rfl⟩
        | _ => simp [operation] at h1
    | op k ts =>
      refine ⟨.oper o, by rw [bodyTerm, h1]; rfl, universal_none fun n hn => ?_, fun hn => ?_, ⟨h2, h3⟩, fun hprim => primitive_operation hp hprim ht k ts rfl⟩
      · rw [← term_bare, hn] at ht; simp [term] at ht
      · rw [← term_bare, hn] at ht; simp [term] at ht
    | _ => simp [operation] at h1

theorem ArgFor.matches {e : Ex} {b : BTerm α} (h : ArgFor L el c e b) {σ : Variable → α} {ρ : Str → α}
    (hσ : ∀ n ∈ varsOf e, σ (uvar n) = ρ n) (x : α) : b.Matches σ x ↔ Fits L el c.names ρ e x := by
  cases b with
  | anon => exact ⟨fun _ => .inl h, fun _ => trivial⟩
  | var v =>
    obtain ⟨n, hn, rfl⟩ := h
    have hb := universal_eq hn
    have hx : value L el c.names ρ e = some (ρ n) := by rw [← value_bare, hb]; rfl
    have hs : σ (uvar n) = ρ n := hσ n (by rw [← varsOf_bare, hb]; simp [varsOf])
    show σ (uvar n) = x ↔ bare e = .anonymous ∨ value L el c.names ρ e = some x
    rw [hx, hs, hb]
    simp
  | const a =>
    show a = x ↔ bare e = .anonymous ∨ value L el c.names ρ e = some x
    rw [h.2.2.2 ρ]
    simp [h.2.1]
  | oper o =>
    show o.eval σ = some x ↔ bare e = .anonymous ∨ value L el c.names ρ e = some x
    rw [h.2.2.1.eval hσ]
    simp [h.2.1]

/-- An atom and its translation -/
def AtomFor (L : Fn.Lib) (el : DV → α) (c : Ctx) (p : Parse.Tag × List Ex) (a : SAtom α) : Prop :=
  ∃ n, c.names.full p.1 = some n ∧ a.pred = code n ∧ List.Forall₂ (ArgFor L el c) p.2 a.terms

theorem atom_for {t : Parse.Tag} {es : List Ex} (hp : ∀ e ∈ es, PlainArg e) {a : Atom} (h : atom L c t es = .ok a) :
    ∃ b, bodyAtom el a = some b ∧ AtomFor L el c (t, es) b := by
  simp only [atom, Res.bind_eq_ok, Res.ok.injEq] at h
  obtain ⟨n, hn, ts, hts, rfl⟩ := h
  have : ∃ bs, collect (bodyTerm el) ts = some bs ∧ List.Forall₂ (ArgFor L el c) es bs := by
    rw [terms_eq] at hts
    induction hts with
    | nil => exact ⟨[], rfl, .nil⟩
    | cons h1 _ ih =>
      obtain ⟨b, hb, hf⟩ := arg_for (el := el) (hp _ (by simp)) h1
      obtain ⟨bs, hbs, hfs⟩ := ih fun e he => hp e (by simp [he])
      exact ⟨b :: bs, by simp [collect, hb, hbs], .cons hf hfs⟩
  obtain ⟨bs, hbs, hfs⟩ := this
  exact ⟨⟨code n, bs⟩, by simp [bodyAtom, hbs], n, resolve_full.1 hn, rfl, hfs⟩

theorem mem_varsOfAll {es : List Ex} {n : Str} : n ∈ varsOfAll es ↔ ∃ e ∈ es, n ∈ varsOf e := by
  induction es with
  | nil => simp [varsOfAll]
  | cons e es ih => simp [varsOfAll, ih]

theorem AtomFor.matches {p : Parse.Tag × List Ex} {a : SAtom α} (h : AtomFor L el c p a) {σ : Variable → α} {ρ : Str → α}
    (hσ : ∀ n ∈ varsOfAll p.2, σ (uvar n) = ρ n) (row : List α) :
    a.Matches σ row ↔ List.Forall₂ (Fits L el c.names ρ) p.2 row := by
  obtain ⟨n, -, -, hf⟩ := h
  obtain ⟨t, es⟩ := p
  unfold SAtom.Matches
  dsimp only at hf hσ ⊢
  generalize a.terms = ts at hf
  induction hf generalizing row with
  | nil => simp
  | cons h1 _ ih =>
    rw [List.forall₂_cons_left_iff, List.forall₂_cons_left_iff]
    refine exists_congr fun x => exists_congr fun xs => ?_
    rw [h1.matches (fun n hn => hσ n (by simp [varsOfAll, hn])), ih _ fun n hn => hσ n (by simp [varsOfAll, hn])]

/-! ### Conditions -/

/-- A condition and its translation -/
structure CondFor (L : Fn.Lib) (el : DV → α) (c : Ctx) (g : Guard) (o : Operation α) : Prop where
  cond : IsCondition g
  vars : o.vars = (guardVars g).map uvar
  holds : ∀ r ρ P M, o.eval (valuation ρ) = some Dom.tru ↔ Holds L el c.names r ρ P M g
  assign : (o.variableAssignment = none ∧ assignment g = none) ∨
    ∃ n e o', assignment g = some (n, e) ∧ o.variableAssignment = some (uvar n, o') ∧ o'.vars = (varsOf e).map uvar ∧
      (Primitive e → o'.IsPrimitive)

theorem CondFor.eval {g : Guard} {o : Operation α} (h : CondFor L el c g o) {σ : Variable → α} {ρ : Str → α}
    (hσ : ∀ n ∈ guardVars g, σ (uvar n) = ρ n) (r : RuleAst) (P M : Facts α) :
    o.eval σ = some Dom.tru ↔ Holds L el c.names r ρ P M g := by
  rw [← h.holds]
  have : o.eval σ = o.eval (valuation ρ) := Operation.eval_congr o fun v hv => by
    rw [h.vars, List.mem_map] at hv
    obtain ⟨n, hn, rfl⟩ := hv
    rw [hσ n hn, valuation_uvar]
  rw [this]

/-- what is known about the translation of one side of an equation -/
theorem side {e : Ex} (hp : PlainEx e) {t : Term} (ht : term L c e = .ok t) : ∃ o : Operation α, operation el t = some o ∧
    OpFor L el c e o ∧ ((∃ n, universal (bare e) = some n ∧ o = .var (uvar n)) ∨
      (universal (bare e) = none ∧ ∀ v, o ≠ .var v)) ∧ (Primitive e → o.IsPrimitive) := by
  obtain ⟨⟨o, h1, h2⟩, -⟩ := good (el := el) e t hp ht
  refine ⟨o, h1, h2, ?_, fun hprim => ?_⟩
  case refine_2 =>
    cases t with
    | const v => simp only [operation, Option.some.injEq] at h1; subst h1; trivial
    | var w =>
      cases w with
      | anon => simp [operation] at h1
      | named k n =>
        cases k with
        | universal => simp only [operation, Option.some.injEq] at h1; subst h1; trivial
        | _ => simp [operation] at h1
    | op k ts => exact absurd rfl (primitive_operation hp hprim ht k ts)
    | _ => simp [operation] at h1
  have hnv : (∀ k n, t ≠ .var (.named k n)) → universal (bare e) = none := fun H => universal_none fun n hn => by
    rw [← term_bare, hn] at ht
    simp only [term, Res.ok.injEq] at ht
    exact H _ _ ht.symm
  cases t with
  | const v =>
    simp only [operation, Option.some.injEq] at h1
    subst h1
    exact .inr ⟨hnv (by simp), by simp⟩
  | var w =>
    cases w with
    | anon => simp [operation] at h1
    | named k n =>
      have hb := term_var ht
      cases k with
      | universal =>
        simp only [operation, Option.some.injEq] at h1
        subst h1
        exact .inl ⟨n, by rw [hb]; rfl, rfl⟩
      | _ => simp [operation] at h1
  | op k ts =>
    simp only [operation, Option.bind_eq_bind, Option.bind_eq_some_iff, Option.some.injEq] at h1
    obtain ⟨os, -, rfl⟩ := h1
    refine .inr ⟨hnv (by simp), fun v => ?_⟩
    unfold opOf
    split
    · split <;> simp
    · simp
  | _ => simp [operation] at h1

theorem assign_equal {l r : Ex} {a b : Operation α} {g : Guard} (hg : sides g = some (l, r))
    (ha : OpFor L el c l a) (hb : OpFor L el c r b)
    (ha' : (∃ n, universal (bare l) = some n ∧ a = .var (uvar n)) ∨ (universal (bare l) = none ∧ ∀ v, a ≠ .var v))
    (hb' : (∃ n, universal (bare r) = some n ∧ b = .var (uvar n)) ∨ (universal (bare r) = none ∧ ∀ v, b ≠ .var v))
    (hl : Primitive l → a.IsPrimitive) (hr : Primitive r → b.IsPrimitive) :
    ((Operation.equal a b).variableAssignment = none ∧ assignment g = none) ∨
    ∃ n e o', assignment g = some (n, e) ∧ (Operation.equal a b).variableAssignment = some (uvar n, o') ∧
      o'.vars = (varsOf e).map uvar ∧ (Primitive e → o'.IsPrimitive) := by
  unfold assignment
  rw [hg]
  rcases ha' with ⟨n, hn, rfl⟩ | ⟨hn, ha'⟩
  · exact .inr ⟨n, r, b, by simp [hn], rfl, hb.1, hr⟩
  · rcases hb' with ⟨m, hm, rfl⟩ | ⟨hm, hb'⟩
    · refine .inr ⟨m, l, a, by simp [hn, hm], ?_, ha.1, hl⟩
      cases a with
      | var v => exact absurd rfl (ha' v)
      | _ => rfl
    · refine .inl ⟨?_, by simp [hn, hm]⟩
      cases a with
      | var v => exact absurd rfl (ha' v)
      | _ =>
        cases b with
        | var v => exact absurd rfl (hb' v)
        | _ => rfl

theorem opOf_not_equal {k : Str} {os : List (Operation α)} (h : k ≠ "EQUALITY".toList ∨ os.length ≠ 2) :
    (opOf k os).variableAssignment = none := by
  unfold opOf
  split
  · split
    · rename_i hk
      exact absurd hk (h.resolve_right (by simp))
    · rfl
  · rfl

theorem equality_true {a b : α} : equality a b = Dom.tru ↔ a = b := by
  unfold equality
  split
  · simp [*]
  · simp only [*, iff_false]
    exact fun h => Dom.tru_ne_fls h.symm

theorem compare_for {o : IOp} {l r : Ex} (hl : PlainEx l) (hr : PlainEx r) {k : Str} {ts : List Term}
    (h : infixOp L c o l r = .ok (k, ts)) :
    ∃ x : Operation α, operation el (.op k ts) = some x ∧ CondFor L el c (.compare o l r) x := by
  simp only [infixOp, Res.bind_eq_ok, Res.ok.injEq, Prod.mk.injEq] at h
  obtain ⟨a, ha, b, hb, rfl, rfl⟩ := h
  obtain ⟨x, h1, h2, h3, h4⟩ := side (el := el) hl ha
  obtain ⟨y, g1, g2, g3, g4⟩ := side (el := el) hr hb
  refine ⟨opOf (iopKind o) [x, y], by simp [operation, operations, h1, g1], ⟨trivial, ?_, fun q ρ P M => ?_, ?_⟩⟩
  · rw [opOf_vars]; simp [Operation.varsList, h2.1, g2.1, guardVars]
  · rw [opOf_eval]
    simp only [Operation.evalList, h2.2 _ _ (valuation_uvar ρ), g2.2 _ _ (valuation_uvar ρ), Holds, Condition]
    cases value L el c.names ρ l with
    | none => simp
    | some u =>
      cases value L el c.names ρ r with
      | none => simp
      | some v =>
        have key : apply (iopKind o) [u, v] = some Dom.tru ↔ (match orderName o with
            | none => u = v
            | some k => Dom.app (opCode k.toList) [u, v] = some Dom.tru) := by
          cases o with
          | eq =>
            have : apply (iopKind .eq) [u, v] = some (equality u v) := by unfold apply; exact if_pos rfl
            show _ ↔ u = v
            rw [this, Option.some.injEq, equality_true]
          | ne => rw [apply_other (by decide)]; rfl
          | ge => rw [apply_other (by decide)]; rfl
          | gt => rw [apply_other (by decide)]; rfl
          | le => rw [apply_other (by decide)]; rfl
          | lt => rw [apply_other (by decide)]; rfl
        constructor
        · exact fun h => ⟨u, v, rfl, rfl, key.1 h⟩
        · rintro ⟨u', v', hu, hv, h⟩
          cases hu; cases hv
          exact key.2 h
  · cases o with
    | eq => exact assign_equal (l := l) (r := r) (L := L) (el := el) (c := c) (g := .compare .eq l r) rfl h2 g2 h3 g3 h4 g4
    | ne => exact .inl ⟨opOf_not_equal (.inl (by decide)), rfl⟩
    | ge => exact .inl ⟨opOf_not_equal (.inl (by decide)), rfl⟩
    | gt => exact .inl ⟨opOf_not_equal (.inl (by decide)), rfl⟩
    | le => exact .inl ⟨opOf_not_equal (.inl (by decide)), rfl⟩
    | lt => exact .inl ⟨opOf_not_equal (.inl (by decide)), rfl⟩

theorem operation_for {k : Str} {es : List Ex} (hp : PlainExs es) {ts : List Term} (h : terms L c es = .ok ts) :
    ∃ x : Operation α, operation el (.op k ts) = some x ∧ CondFor L el c (.expression (.operation k es)) x := by
  obtain ⟨⟨o, h1, h2⟩, -⟩ := good (L := L) (c := c) (el := el) (.operation k es) (.op k ts) hp (by simp [term, h])
  refine ⟨o, h1, ⟨trivial, h2.1, fun r ρ P M => by rw [h2.2 _ _ (valuation_uvar ρ)]; rfl, ?_⟩⟩
  by_cases hk : k = "EQUALITY".toList ∧ es.length = 2
  · obtain ⟨rfl, hlen⟩ := hk
    match es, hlen with
    | [l, r], _ =>
      simp only [terms, Res.bind_eq_ok, Res.ok.injEq] at h
      obtain ⟨a, ha, _, ⟨b, hb, _, rfl, rfl⟩, rfl⟩ := h
      obtain ⟨x, k1, k2, k3, k4⟩ := side (el := el) hp.1 ha
      obtain ⟨y, g1, g2, g3, g4⟩ := side (el := el) hp.2.1 hb
      have ho : o = .equal x y := by
        have : operation el (.op "EQUALITY".toList [a, b]) = some (.equal x y) := by
          simp only [operation, operations, k1, g1]; rfl
        rw [this] at h1
        exact (Option.some.inj h1).symm
      subst ho
      exact assign_equal (l := l) (r := r) (L := L) (el := el) (c := c) (g := .expression (.operation "EQUALITY".toList [l, r]))
        (show (if "EQUALITY".toList = "EQUALITY".toList then some (l, r) else none) = _ from if_pos rfl) k2 g2 k3 g3 k4 g4
  · refine .inl ⟨?_, ?_⟩
    · simp only [operation, Option.bind_eq_bind, Option.bind_eq_some_iff, Option.some.injEq] at h1
      obtain ⟨os, hos, rfl⟩ := h1
      refine opOf_not_equal ?_
      by_cases hk' : k = "EQUALITY".toList
      · refine .inr fun hl => hk ⟨hk', ?_⟩
        have e1 : ts.length = es.length := (terms_eq.1 h).length_eq.symm
        have e2 : ∀ (ts : List Term) (os : List (Operation α)), operations el ts = some os → ts.length = os.length := by
          intro ts
          induction ts with
          | nil => intro os h; simp only [operations, Option.some.injEq] at h; subst h; rfl
          | cons t ts ih =>
            intro os h
            simp only [operations, Option.bind_eq_bind, Option.bind_eq_some_iff, Option.some.injEq] at h
            obtain ⟨_, -, os', h', rfl⟩ := h
            simp [ih _ h']
        rw [← e1, e2 _ _ hos, hl]
      · exact .inl hk'
    · have : sides (.expression (.operation k es)) = none := by
        match es with
        | [] => rfl
        | [_] => rfl
        | [l, r] => exact if_neg fun h => hk ⟨h, rfl⟩
        | _ :: _ :: _ :: _ => rfl
      unfold assignment
      rw [this]

/-! ### Rules -/

/-- The positive atoms of a body -/
def positives : List Guard → List (Parse.Tag × List Ex)
  | [] => []
  | .expression (.atom t es) :: gs => (t, es) :: positives gs
  | _ :: gs => positives gs

/-- The negated atoms of a body -/
def negatives : List Guard → List (Parse.Tag × List Ex)
  | [] => []
  | .expression (.negation (.atom t es)) :: gs => (t, es) :: negatives gs
  | _ :: gs => negatives gs

/-- The conditions of a body -/
def conditions : List Guard → List Guard
  | [] => []
  | .compare o l r :: gs => .compare o l r :: conditions gs
  | .expression (.operation k es) :: gs => .expression (.operation k es) :: conditions gs
  | _ :: gs => conditions gs

/-- The kinds of body parts that are translated -/
inductive Supported : Guard → Prop
  | pos {t es} : Supported (.expression (.atom t es))
  | neg {t es} : Supported (.expression (.negation (.atom t es)))
  | oper {k es} : Supported (.expression (.operation k es))
  | compare {o l r} : Supported (.compare o l r)

theorem mem_positives {gs : List Guard} {t : Parse.Tag} {es : List Ex} :
    (t, es) ∈ positives gs ↔ .expression (.atom t es) ∈ gs := by
  induction gs with
  | nil => simp [positives]
  | cons g gs ih =>
    cases g with
    | compare => simp [positives, ih]
    | expression e => cases e <;> simp [positives, ih]

theorem mem_negatives {gs : List Guard} {t : Parse.Tag} {es : List Ex} :
    (t, es) ∈ negatives gs ↔ .expression (.negation (.atom t es)) ∈ gs := by
  induction gs with
  | nil => simp [negatives]
  | cons g gs ih =>
    cases g with
    | compare => simp [negatives, ih]
    | expression e =>
      cases e with
      | negation e => cases e <;> simp [negatives, ih]
      | _ => simp [negatives, ih]

theorem mem_conditions {gs : List Guard} {g : Guard} : g ∈ conditions gs ↔ g ∈ gs ∧ IsCondition g := by
  induction gs with
  | nil => simp [conditions]
  | cons g' gs ih =>
    have key : (IsCondition g' ∧ conditions (g' :: gs) = g' :: conditions gs) ∨
        (¬ IsCondition g' ∧ conditions (g' :: gs) = conditions gs) := by
      cases g' with
      | compare => simp [conditions, IsCondition]
      | expression e => cases e <;> simp [conditions, IsCondition]
    rcases key with ⟨h1, h2⟩ | ⟨h1, h2⟩ <;> rw [h2]
    · rw [List.mem_cons, List.mem_cons, ih]
      constructor
      · rintro (rfl | h)
        · exact ⟨.inl rfl, h1⟩
        · exact ⟨.inr h.1, h.2⟩
      · rintro ⟨rfl | h, h'⟩
        · exact .inl rfl
        · exact .inr ⟨h, h'⟩
    · rw [List.mem_cons, ih]
      constructor
      · exact fun h => ⟨.inr h.1, h.2⟩
      · rintro ⟨rfl | h, h'⟩
        · exact absurd h' h1
        · exact ⟨h, h'⟩

/-- An argument of a head atom and its translation -/
inductive HeadFor (L : Fn.Lib) (el : DV → α) (c : Ctx) (e : Ex) : HTerm α → Prop
  | plain {t : HTerm α} : existential (bare e) = none → aggregate (bare e) = none → TermFor L el c e t → HeadFor L el c e t
  | exist {n : Str} : existential (bare e) = some n → aggregate (bare e) = none → varsOf e = [] →
      HeadFor L el c e (.var (evar n))
  | aggr {k : Str} {i : Ex} {ds : List Ex} {ns : List Str} {o : Operation α} : existential (bare e) = none →
      aggregate (bare e) = some (k, i, ds) → ds = ns.map (.variable .universal) → varsOf e = varsOf i ++ ns → OpFor L el c i o →
      (Primitive i → o.IsPrimitive) → HeadFor L el c e (.agg (aggCode k) o (ns.map uvar))

/-- A head atom and its translation -/
def HeadAtomFor (L : Fn.Lib) (el : DV → α) (c : Ctx) (p : Parse.Tag × List Ex) (h : SHead α) : Prop :=
  ∃ n, c.names.full p.1 = some n ∧ h.pred = code n ∧ List.Forall₂ (HeadFor L el c) p.2 h.terms

/-- Variables and constants are translated to variables and constants. -/
def HeadSimple (p : Parse.Tag × List Ex) (h : SHead α) : Prop :=
  List.Forall₂ (fun e t => Primitive e → t.isOper = false) p.2 h.terms

/-- A rule and its translation -/
structure RuleFor (L : Fn.Lib) (el : DV → α) (c : Ctx) (r : RuleAst) (S : SRule α) : Prop where
  supported : ∀ g ∈ r.body, Supported g
  atoms : ∀ h ∈ r.head, ∃ t es, h = .expression (.atom t es)
  positive : List.Forall₂ (AtomFor L el c) (positives r.body) S.positive
  negative : List.Forall₂ (AtomFor L el c) (negatives r.body) S.negative
  operations : List.Forall₂ (CondFor L el c) (conditions r.body) S.operations
  head : List.Forall₂ (HeadAtomFor L el c) (positives r.head) S.head
  heads : List.Forall₂ HeadSimple (positives r.head) S.head

theorem body_for {gs : List Guard} (hp : ∀ g ∈ gs, PlainGuard g) {ls : List Literal} (h : traverse (literal L c) gs = .ok ls)
    (hs : List (SHead α)) : ∃ S, sourceBody el hs ls = some S ∧ (∀ g ∈ gs, Supported g) ∧
      List.Forall₂ (AtomFor L el c) (positives gs) S.positive ∧ List.Forall₂ (AtomFor L el c) (negatives gs) S.negative ∧
      List.Forall₂ (CondFor L el c) (conditions gs) S.operations ∧ S.head = hs := by
  rw [traverse_eq] at h
  induction h with
  | nil => exact ⟨_, rfl, by simp, .nil, .nil, .nil, rfl⟩
  | @cons g l gs ls h1 _ ih =>
    obtain ⟨S, g0, g1, g2, g3, g4, g5⟩ := ih fun g hg => hp g (by simp [hg])
    have hg := hp g (by simp)
    have hsup : Supported g → ∀ x ∈ g :: gs, Supported x := fun h x hx => by
      rcases List.mem_cons.1 hx with rfl | hx
      · exact h
      · exact g1 x hx
    cases g with
    | compare o a b =>
      simp only [literal, Res.bind_eq_ok, Res.ok.injEq] at h1
      obtain ⟨⟨k, ts⟩, hk, rfl⟩ := h1
      obtain ⟨x, hx, hc⟩ := compare_for (el := el) hg.1 hg.2 hk
      exact ⟨{ S with operations := x :: S.operations }, by simp [sourceBody, hx, g0], hsup .compare, g2, g3, .cons hc g4, g5⟩
    | expression e =>
      cases e with
      | atom t es =>
        simp only [literal, Res.bind_eq_ok, Res.ok.injEq] at h1
        obtain ⟨a, ha, rfl⟩ := h1
        obtain ⟨b, hb, hf⟩ := atom_for (el := el) hg ha
        exact ⟨{ S with positive := b :: S.positive }, by simp [sourceBody, hb, g0], hsup .pos, .cons hf g2, g3, g4, g5⟩
      | negation e =>
        cases e with
        | atom t es =>
          simp only [literal, Res.bind_eq_ok, Res.ok.injEq] at h1
          obtain ⟨a, ha, rfl⟩ := h1
          obtain ⟨b, hb, hf⟩ := atom_for (el := el) hg ha
          exact ⟨{ S with negative := b :: S.negative }, by simp [sourceBody, hb, g0], hsup .neg, g2, .cons hf g3, g4, g5⟩
        | _ => simp [literal] at h1
      | operation k es =>
        simp only [literal, Res.bind_eq_ok, Res.ok.injEq] at h1
        obtain ⟨ts, hts, rfl⟩ := h1
        obtain ⟨x, hx, hc⟩ := operation_for (el := el) (k := k) hg hts
        exact ⟨{ S with operations := x :: S.operations }, by simp [sourceBody, hx, g0], hsup .oper, g2, g3, .cons hc g4, g5⟩
      | _ => simp [literal] at h1

theorem headTerm_simple {e : Ex} (hp : PlainEx e) (hprim : Primitive e) {t : Term} (ht : term L c e = .ok t) {b : HTerm α}
    (hb : headTerm el t = some b) : b.isOper = false := by
  cases t with
  | const v => simp only [headTerm, Option.some.injEq] at hb; subst hb; rfl
  | var w =>
    cases w with
    | anon => simp [headTerm] at hb
    | named k n =>
      cases k with
      | universal => simp only [headTerm, Option.some.injEq] at hb; subst hb; rfl
      | existential => simp only [headTerm, Option.some.injEq] at hb; subst hb; rfl
      | _ => simp [headTerm] at hb
  | op k ts => exact absurd rfl (primitive_operation hp hprim ht k ts)
  | agg k t vs =>
    simp only [headTerm, Option.bind_eq_bind, Option.bind_eq_some_iff, Option.some.injEq] at hb
    obtain ⟨o, -, ds, -, rfl⟩ := hb
    rfl
  | _ => simp [headTerm] at hb

theorem existential_eq {e : Ex} {n : Str} (h : existential e = some n) : e = .variable .existential n := by
  unfold existential at h
  split at h
  · cases h; rfl
  · cases h

theorem aggregate_eq {e : Ex} {k : Str} {i : Ex} {ds : List Ex} (h : aggregate e = some (k, i, ds)) : e = .aggregation (some k) i ds := by
  unfold aggregate at h
  split at h
  · cases h; rfl
  · cases h

theorem plain_bare {e : Ex} (h : PlainEx e) : PlainEx (bare e) := by
  induction e using Parse.Ex.parts with
  | h e ih =>
  cases e with
  | parenthesized e => exact ih e .parenthesized h
  | _ => exact h

theorem plain_head {e : Ex} (h : PlainEx e) : existential (bare e) = none ∧ aggregate (bare e) = none := by
  have h := plain_bare h
  constructor
  · cases hx : existential (bare e) with
    | none => rfl
    | some n => rw [existential_eq hx] at h; cases h
  · cases hx : aggregate (bare e) with
    | none => rfl
    | some x => obtain ⟨k, i, ds⟩ := x; rw [aggregate_eq hx] at h; exact h.elim

theorem distinct_for {ns : List Str} {vs : List RVar} (h : distinctVars (ns.map (Ex.variable .universal)) = .ok vs) :
    collect distinctVar vs = some (ns.map uvar) := by
  induction ns generalizing vs with
  | nil => simp only [List.map_nil, distinctVars, Res.ok.injEq] at h; subst h; rfl
  | cons n ns ih =>
    simp only [List.map_cons, distinctVars, Res.bind_eq_ok, Res.ok.injEq] at h
    obtain ⟨vs', h', rfl⟩ := h
    simp [collect, distinctVar, ih h']

theorem varsOfAll_universal (ns : List Str) : varsOfAll (ns.map (Ex.variable .universal)) = ns := by
  induction ns with
  | nil => rfl
  | cons n ns ih => simp [varsOfAll, varsOf, ih]

theorem head_for {e : Ex} (hp : PlainHead e) {t : Term} (ht : term L c e = .ok t) :
    ∃ b, headTerm el t = some b ∧ HeadFor L el c e b ∧ (Primitive e → b.isOper = false) := by
  rcases hp with hp | ⟨n, hn⟩ | ⟨k, i, ds, hk, hi, hds⟩
  · obtain ⟨-, b, hb, hf⟩ := good (el := el) _ _ hp ht
    exact ⟨b, hb, .plain (plain_head hp).1 (plain_head hp).2 hf, fun hprim => headTerm_simple hp hprim ht hb⟩
  · have he := existential_eq hn
    rw [← term_bare, he] at ht
    simp only [term, Res.ok.injEq] at ht
    subst ht
    exact ⟨.var (evar n), rfl, .exist hn (by rw [he]; rfl) (by rw [← varsOf_bare, he]; rfl), fun _ => rfl⟩
  · have he := aggregate_eq hk
    rw [← term_bare, he] at ht
    simp only [term, Res.bind_eq_ok, Res.ok.injEq] at ht
    obtain ⟨u, hu, vs, hvs, rfl⟩ := ht
    obtain ⟨ns, rfl⟩ : ∃ ns : List Str, ds = ns.map (.variable .universal) := by
      clear hk hvs he
      induction ds with
      | nil => exact ⟨[], rfl⟩
      | cons d ds ih =>
        obtain ⟨n, rfl⟩ := hds d (by simp)
        obtain ⟨ns, rfl⟩ := ih fun d hd => hds d (by simp [hd])
        exact ⟨n :: ns, rfl⟩
    obtain ⟨o, h1, h2, -, h3⟩ := side (el := el) hi hu
    refine ⟨.agg (aggCode k) o (ns.map uvar), by simp [headTerm, h1, distinct_for hvs], .aggr (by rw [he]; rfl) hk rfl ?_ h2 h3,
      fun _ => rfl⟩
    rw [← varsOf_bare, he, varsOf, varsOfAll_universal]

theorem headAtom_for {t : Parse.Tag} {es : List Ex} (hp : ∀ e ∈ es, PlainHead e) {a : Atom} (h : atom L c t es = .ok a) :
    ∃ b, sourceHead el a = some b ∧ HeadAtomFor L el c (t, es) b ∧ HeadSimple (t, es) b := by
  simp only [atom, Res.bind_eq_ok, Res.ok.injEq] at h
  obtain ⟨n, hn, ts, hts, rfl⟩ := h
  have : ∃ bs, collect (headTerm el) ts = some bs ∧ List.Forall₂ (HeadFor L el c) es bs ∧
      List.Forall₂ (fun e t => Primitive e → t.isOper = false) es bs := by
    rw [terms_eq] at hts
    induction hts with
    | nil => exact ⟨[], rfl, .nil, .nil⟩
    | cons h1 _ ih =>
      obtain ⟨b, hb, hf, hsim⟩ := head_for (el := el) (hp _ (by simp)) h1
      obtain ⟨bs, hbs, hfs, hss⟩ := ih fun e he => hp e (by simp [he])
      exact ⟨b :: bs, by simp [collect, hb, hbs], .cons hf hfs, .cons hsim hss⟩
  obtain ⟨bs, hbs, hfs, hss⟩ := this
  exact ⟨⟨code n, bs⟩, by simp [sourceHead, hbs], ⟨n, resolve_full.1 hn, rfl, hfs⟩, hss⟩

/-- **A plain rule that is translated has a translation that corresponds to it part by part.** -/
theorem rule_for {r : RuleAst} (hp : PlainRule r) {attrs : Attrs} {R : Rule} (h : rule L c attrs r = .ok R) :
    ∃ S, sourceRule el R = some S ∧ RuleFor L el c r S := by
  simp only [rule, Res.bind_eq_ok, Res.ok.injEq] at h
  obtain ⟨_, -, _, -, hd, hhd, bd, hbd, rfl⟩ := h
  have key : ∃ hs, collect (sourceHead el) hd = some hs ∧ (∀ h ∈ r.head, ∃ t es, h = .expression (.atom t es)) ∧
      List.Forall₂ (HeadAtomFor L el c) (positives r.head) hs ∧ List.Forall₂ HeadSimple (positives r.head) hs := by
    have hp' := hp.head
    rw [traverse_eq] at hhd
    generalize r.head = gs at hhd hp'
    induction hhd with
    | nil => exact ⟨[], rfl, by simp, .nil, .nil⟩
    | @cons g a gs as h1 _ ih =>
      obtain ⟨hs, h2, h3, h4, h5⟩ := ih fun t es hg => hp' t es (by simp [hg])
      cases g with
      | compare => simp [headAtom] at h1
      | expression e =>
        cases e with
        | atom t es =>
          obtain ⟨b, hb, hf, hf'⟩ := headAtom_for (el := el) (hp' t es (by simp)) h1
          refine ⟨b :: hs, by simp [collect, hb, h2], fun x hx => ?_, .cons hf h4, .cons hf' h5⟩
          rcases List.mem_cons.1 hx with rfl | hx
          · exact ⟨t, es, rfl⟩
          · exact h3 x hx
        | _ => simp [headAtom] at h1
  obtain ⟨hs, h1, h2, h3, h4⟩ := key
  obtain ⟨S, g0, g1, g2, g3, g4, rfl⟩ := body_for (el := el) hp.body hbd hs
  exact ⟨S, by simp [sourceRule, h1, g0], ⟨g1, h2, g2, g3, g4, h3, h4⟩⟩

end

end Verif.Tr
