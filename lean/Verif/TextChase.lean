import Verif.PropText
import Verif.ChaseSource
import Std.Data.String.ToNat

/-!
# C54: the answers of a program text with existential rules

The restricted chase (C25, C53) for program texts: reading, translation, normalization and execution.
The specification is `Model` in `Verif.TextMeaning`.
-/
set_option linter.unusedSimpArgs false
set_option linter.unusedSectionVars false

namespace Verif.Tr
open Verif.Parse (Str Ex FEl VarKind AOp IOp Enc Guard RuleAst DirectiveAst KindAst StmtAst ProgramAst Part)

section
variable {α : Type} [DecidableEq α] [Dom α] {L : Fn.Lib} {el : DV → α} {c : Ctx}

/-! ### Constants -/

theorem mem_constsList {os : List (Operation α)} {a : α} : a ∈ Operation.constsList os ↔ ∃ o ∈ os, a ∈ o.consts := by
  induction os with
  | nil => simp [Operation.constsList]
  | cons o os ih => simp [Operation.constsList, ih]

theorem opOf_consts (k : Str) (os : List (Operation α)) : (opOf k os).consts = Operation.constsList os := by
  unfold opOf
  split
  · split <;> simp [Operation.consts, Operation.constsList]
  · rw [Operation.consts]

theorem headOpOf_norm_consts (k : Str) (os : List (HTerm α)) :
    (headOpOf k os).norm.consts = Operation.constsList (HTerm.normList os) := by
  unfold headOpOf
  split
  · split <;> simp [HTerm.norm, HTerm.normList, Operation.consts, Operation.constsList]
  · simp [HTerm.norm, Operation.consts]

mutual
theorem operation_consts (t : Term) {o : Operation α} (h : operation el t = some o) {a : α} (ha : a ∈ o.consts) : ∃ v, a = el v := by
  match t with
  | .const v =>
    simp only [operation, Option.some.injEq] at h
    subst h
    simp only [Operation.consts, List.mem_singleton] at ha
    exact ⟨v, ha⟩
  | .var w =>
    unfold operation at h
    split at h
    · cases h; simp_all
    · cases h; simp [Operation.consts] at ha
    · simp_all
    · cases h
  | .op k ts =>
    simp only [operation, Option.bind_eq_bind, Option.bind_eq_some_iff, Option.some.injEq] at h
    obtain ⟨os, hos, rfl⟩ := h
    rw [opOf_consts] at ha
    exact operations_consts ts hos ha
  | .fn _ _ => simp [operation] at h
  | .tuple _ => simp [operation] at h
  | .map _ _ => simp [operation] at h
  | .agg _ _ _ => simp [operation] at h
theorem operations_consts (ts : List Term) {os : List (Operation α)} (h : operations el ts = some os) {a : α}
    (ha : a ∈ Operation.constsList os) : ∃ v, a = el v := by
  match ts with
  | [] =>
    simp only [operations, Option.some.injEq] at h
    subst h
    simp [Operation.constsList] at ha
  | t :: ts =>
    simp only [operations, Option.bind_eq_bind, Option.bind_eq_some_iff, Option.some.injEq] at h
    obtain ⟨o, ho, os', hos, rfl⟩ := h
    rw [Operation.constsList, List.mem_append] at ha
    exact ha.elim (operation_consts t ho) (operations_consts ts hos)
end

mutual
theorem headTerm_consts (t : Term) {x : HTerm α} (h : headTerm el t = some x) {a : α} (ha : a ∈ x.norm.consts) : ∃ v, a = el v := by
  match t with
  | .const v =>
    simp only [headTerm, Option.some.injEq] at h
    subst h
    simp only [HTerm.norm, Operation.consts, List.mem_singleton] at ha
    exact ⟨v, ha⟩
  | .var .anon => simp [headTerm] at h
  | .var (.named k n) =>
    cases k <;> simp only [headTerm, Option.some.injEq, reduceCtorEq] at h
    all_goals subst h; simp [HTerm.norm, Operation.consts] at ha
  | .op k ts =>
    simp only [headTerm, Option.bind_eq_bind, Option.bind_eq_some_iff, Option.some.injEq] at h
    obtain ⟨os, hos, rfl⟩ := h
    rw [headOpOf_norm_consts] at ha
    exact headTerms_consts ts hos ha
  | .fn _ _ => simp [headTerm] at h
  | .tuple _ => simp [headTerm] at h
  | .map _ _ => simp [headTerm] at h
  | .agg _ _ _ =>
    simp only [headTerm, Option.bind_eq_bind, Option.bind_eq_some_iff, Option.some.injEq] at h
    obtain ⟨o, -, ds, -, rfl⟩ := h
    simp [HTerm.norm, Operation.consts] at ha
theorem headTerms_consts (ts : List Term) {os : List (HTerm α)} (h : headTerms el ts = some os) {a : α}
    (ha : a ∈ Operation.constsList (HTerm.normList os)) : ∃ v, a = el v := by
  match ts with
  | [] =>
    simp only [headTerms, Option.some.injEq] at h
    subst h
    simp [HTerm.normList, Operation.constsList] at ha
  | t :: ts =>
    simp only [headTerms, Option.bind_eq_bind, Option.bind_eq_some_iff, Option.some.injEq] at h
    obtain ⟨o, ho, os', hos, rfl⟩ := h
    rw [HTerm.normList, Operation.constsList, List.mem_append] at ha
    exact ha.elim (headTerm_consts t ho) (headTerms_consts ts hos)
end

theorem headOpOf_agg? (k : Str) (os : List (HTerm α)) : (headOpOf k os).agg? = HTerm.aggList? os := by
  unfold headOpOf
  split
  · rename_i a b
    split
    · simp only [HTerm.agg?, HTerm.aggList?]
      cases a.agg? <;> cases b.agg? <;> rfl
    · rw [HTerm.agg?]
  · rw [HTerm.agg?]

mutual
theorem headTerm_input (t : Term) {x : HTerm α} (h : headTerm el t = some x) {k : Nat} {i : Operation α} {d : List Variable}
    (hx : x.agg? = some (k, i, d)) {a : α} (ha : a ∈ i.consts) : ∃ v, a = el v := by
  match t with
  | .const v =>
    simp only [headTerm, Option.some.injEq] at h
    subst h
    cases hx
  | .var .anon => simp [headTerm] at h
  | .var (.named k n) =>
    cases k <;> simp only [headTerm, Option.some.injEq, reduceCtorEq] at h
    all_goals subst h; cases hx
  | .op k ts =>
    simp only [headTerm, Option.bind_eq_bind, Option.bind_eq_some_iff, Option.some.injEq] at h
    obtain ⟨os, hos, rfl⟩ := h
    rw [headOpOf_agg?] at hx
    exact headTerms_input ts hos hx ha
  | .fn _ _ => simp [headTerm] at h
  | .tuple _ => simp [headTerm] at h
  | .map _ _ => simp [headTerm] at h
  | .agg k' t vs =>
    simp only [headTerm, Option.bind_eq_bind, Option.bind_eq_some_iff, Option.some.injEq] at h
    obtain ⟨o, ho, ds, -, rfl⟩ := h
    cases hx
    exact operation_consts t ho ha
theorem headTerms_input (ts : List Term) {os : List (HTerm α)} (h : headTerms el ts = some os) {k : Nat} {i : Operation α}
    {d : List Variable} (hx : HTerm.aggList? os = some (k, i, d)) {a : α} (ha : a ∈ i.consts) : ∃ v, a = el v := by
  match ts with
  | [] =>
    simp only [headTerms, Option.some.injEq] at h
    subst h
    cases hx
  | t :: ts =>
    simp only [headTerms, Option.bind_eq_bind, Option.bind_eq_some_iff, Option.some.injEq] at h
    obtain ⟨o, ho, os', hos, rfl⟩ := h
    rw [HTerm.aggList?] at hx
    cases hy : o.agg? with
    | none => rw [hy] at hx; exact headTerms_input ts hos hx ha
    | some y => rw [hy] at hx; cases hx; exact headTerm_input t ho hy ha
end

theorem bodyTerm_consts {t : Term} {b : BTerm α} (h : bodyTerm el t = some b) : (∀ a, b = .const a → ∃ v, a = el v) ∧
    ∀ o, b = .oper o → ∀ a ∈ o.consts, ∃ v, a = el v := by
  unfold bodyTerm at h
  split at h
  · cases h; simp
  · cases h; simp
  · cases h; simp
  · rw [Option.map_eq_some_iff] at h
    obtain ⟨o, ho, rfl⟩ := h
    exact ⟨by simp, fun o' h' a ha => by cases h'; exact operation_consts _ ho ha⟩
  · cases h

theorem bodyAtom_consts {A : Atom} {b : SAtom α} (h : bodyAtom el A = some b) :
    (∀ a, .const a ∈ b.terms → ∃ v, a = el v) ∧ ∀ o, .oper o ∈ b.terms → ∀ a ∈ o.consts, ∃ v, a = el v := by
  simp only [bodyAtom, Option.bind_eq_bind, Option.bind_eq_some_iff, Option.some.injEq] at h
  obtain ⟨ts, hts, rfl⟩ := h
  rw [collect_eq] at hts
  refine ⟨fun a ha => ?_, fun o ho => ?_⟩
  · obtain ⟨t, -, ht⟩ := forall₂_right hts ha
    exact (bodyTerm_consts ht).1 a rfl
  · obtain ⟨t, -, ht⟩ := forall₂_right hts ho
    exact (bodyTerm_consts ht).2 o rfl

/-- **The constants of a translated rule are values that are written.** -/
theorem sourceRule_noNulls (hel : ∀ v n, el v ≠ Dom.null n) {R : Rule} {S : SRule α} (h : sourceRule el R = some S) : SNoNulls S := by
  simp only [sourceRule, Option.bind_eq_bind, Option.bind_eq_some_iff] at h
  obtain ⟨hs, hhs, hb⟩ := h
  have key : ∀ a, (∃ v, a = el v) → ∀ n, a ≠ Dom.null n := fun a ⟨v, hv⟩ n => by rw [hv]; exact hel v n
  have hbody : ∀ (ls : List Literal) (S : SRule α), sourceBody el hs ls = some S → S.head = hs ∧
      (∀ o ∈ S.operations, ∀ a ∈ o.consts, ∃ v, a = el v) ∧ ∀ b ∈ S.positive ++ S.negative,
        (∀ a, .const a ∈ b.terms → ∃ v, a = el v) ∧ ∀ o, .oper o ∈ b.terms → ∀ a ∈ o.consts, ∃ v, a = el v := by
    intro ls
    induction ls with
    | nil => intro S h; simp only [sourceBody, Option.some.injEq] at h; subst h; simp
    | cons l ls ih =>
      intro S h
      cases l with
      | pos A =>
        simp only [sourceBody, Option.bind_eq_bind, Option.bind_eq_some_iff, Option.some.injEq] at h
        obtain ⟨b, hb, S', hS', rfl⟩ := h
        obtain ⟨h1, h2, h3⟩ := ih S' hS'
        refine ⟨h1, h2, fun b' hb' => ?_⟩
        rcases List.mem_cons.1 hb' with rfl | hb'
        · exact bodyAtom_consts hb
        · exact h3 b' hb'
      | neg A =>
        simp only [sourceBody, Option.bind_eq_bind, Option.bind_eq_some_iff, Option.some.injEq] at h
        obtain ⟨b, hb, S', hS', rfl⟩ := h
        obtain ⟨h1, h2, h3⟩ := ih S' hS'
        refine ⟨h1, h2, fun b' hb' => ?_⟩
        rcases List.mem_append.1 hb' with hb' | hb'
        · exact h3 b' (List.mem_append_left _ hb')
        · rcases List.mem_cons.1 hb' with rfl | hb'
          · exact bodyAtom_consts hb
          · exact h3 b' (List.mem_append_right _ hb')
      | oper k ts =>
        simp only [sourceBody, Option.bind_eq_bind, Option.bind_eq_some_iff, Option.some.injEq] at h
        obtain ⟨o, ho, S', hS', rfl⟩ := h
        obtain ⟨h1, h2, h3⟩ := ih S' hS'
        refine ⟨h1, fun o' ho' => ?_, h3⟩
        rcases List.mem_cons.1 ho' with rfl | ho'
        · exact fun a ha => operation_consts _ ho ha
        · exact h2 o' ho'
  obtain ⟨h1, h2, h3⟩ := hbody _ _ hb
  have hhead : ∀ h ∈ S.head, ∀ x ∈ h.terms, ∃ t, headTerm el t = some x := by
    intro h hh x hx
    rw [h1] at hh
    obtain ⟨A, -, hA⟩ := forall₂_right (collect_eq.1 hhs) hh
    simp only [sourceHead, Option.bind_eq_bind, Option.bind_eq_some_iff, Option.some.injEq] at hA
    obtain ⟨ts, hts, rfl⟩ := hA
    obtain ⟨t, -, ht⟩ := forall₂_right (collect_eq.1 hts) hx
    exact ⟨t, ht⟩
  refine ⟨fun o ho a ha => key a (h2 o ho a ha), fun b hb a ha => key a ((h3 b hb).1 a ha),
    fun b hb o ho a ha => key a ((h3 b hb).2 o ho a ha), fun h hh x hx a ha => ?_, fun h hh x hx k i d hk a ha => ?_⟩
  · obtain ⟨t, ht⟩ := hhead h hh x hx
    exact key a (headTerm_consts t ht ha)
  · obtain ⟨t, ht⟩ := hhead h hh x hx
    exact key a (headTerm_input t ht hk ha)

variable [NullDom α]

theorem groundFacts_nulls (hel : ∀ v n, el v ≠ Dom.null n) {as : List Atom} {fs : List (Verif.Tag × List α)}
    (h : groundFacts el as = some fs) : ∀ x ∈ fs, ∀ a ∈ x.2, ∀ n, a ≠ Dom.null n := by
  have hrow : ∀ (ts : List Term) r, groundRow el ts = some (some r) → ∀ a ∈ r, ∀ n, a ≠ Dom.null n := by
    intro ts
    induction ts with
    | nil => intro r h; simp only [groundRow, Option.some.injEq] at h; subst h; simp
    | cons t ts ih =>
      intro r h
      simp only [groundRow, Option.bind_eq_bind, Option.bind_eq_some_iff] at h
      obtain ⟨o, ho, h⟩ := h
      split at h
      · rename_i hv
        cases hx : o.eval fun _ => Dom.tru with
        | none => rw [hx] at h; cases h
        | some a =>
          rw [hx] at h
          simp only [Option.bind_eq_some_iff, Option.some.injEq] at h
          obtain ⟨r', hr', h⟩ := h
          cases r' with
          | none => cases h
          | some r' =>
            cases h
            intro b hb n
            rcases List.mem_cons.1 hb with rfl | hb
            · intro hn
              exact absurd (Operation.eval_known (B := 0) o (by rw [hv]; simp) (fun c hc m hm => by
                obtain ⟨v, hv'⟩ := operation_consts t ho hc
                exact absurd (hv' ▸ hm) (hel v m)) _ hx n hn) (Nat.not_lt_zero n)
            · exact ih r' hr' b hb n
      · cases h
  induction as generalizing fs with
  | nil => simp only [groundFacts, Option.some.injEq] at h; subst h; simp
  | cons A as ih =>
    simp only [groundFacts, Option.bind_eq_bind, Option.bind_eq_some_iff, Option.some.injEq] at h
    obtain ⟨r, hr, rows, hrows, rfl⟩ := h
    intro x hx
    cases r with
    | none => exact ih hrows x hx
    | some row =>
      rcases List.mem_cons.1 hx with rfl | hx
      · exact hrow _ _ hr
      · exact ih hrows x hx

omit [NullDom α]

/-! ### Existential rules -/

theorem evar_inj {n m : Str} (h : evar n = evar m) : n = m := by
  unfold evar at h
  injection h with h
  exact String.ofList_injective (nameCode_inj h)

/-- values for the existential variables are chosen -/
noncomputable def choose (ε : Str → α) (σ : Variable → α) (v : Variable) : α :=
  open Classical in if h : ∃ n, v = evar n then ε h.choose else σ v

theorem choose_evar (ε : Str → α) (σ : Variable → α) (n : Str) : choose ε σ (evar n) = ε n := by
  have h : ∃ m, evar n = evar m := ⟨n, rfl⟩
  rw [choose, dif_pos h]
  exact congrArg ε (evar_inj h.choose_spec).symm

theorem choose_other (ε : Str → α) (σ : Variable → α) {v : Variable} (hv : v.isExistential = false) : choose ε σ v = σ v := by
  refine dif_neg ?_
  rintro ⟨n, rfl⟩
  cases hv

variable {r : RuleAst} {S : SRule α}

theorem hasEx (hf : RuleFor L el c r S) : S.HasEx ↔ ¬ NoExistential r := hasEx_iff hf

theorem exists_rows {es : List Ex} {ts : List (HTerm α)} (h : List.Forall₂ (HeadFor L el c) es ts)
    (hno : ∀ e ∈ es, aggregate (bare e) = none) {τ : Variable → α} {ρ ε : Str → α} (h1 : ∀ n, τ (uvar n) = ρ n)
    (h2 : ∀ n, τ (evar n) = ε n) (x : α) (row : List α) : List.Forall₂ (fun t b => t.value τ x = some b) ts row ↔
      List.Forall₂ (ExistsValue L el c.names ρ ε) es row := by
  induction h generalizing row with
  | nil => simp
  | @cons e t es ts hf _ ih =>
    rw [List.forall₂_cons_left_iff, List.forall₂_cons_left_iff]
    refine exists_congr fun y => exists_congr fun ys => ?_
    rw [ih fun e he => hno e (by simp [he])]
    have : t.value τ x = some y ↔ ExistsValue L el c.names ρ ε e y := by
      unfold ExistsValue
      cases hx : existential (bare e) with
      | none => rw [hf.value hx (hno e (by simp)) h1]
      | some n =>
        cases hf with
        | plain h _ _ => rw [hx] at h; cases h
        | exist h _ _ =>
          rw [hx] at h
          cases h
          simp [HTerm.value, h2, eq_comm]
        | aggr h _ => rw [hx] at h; cases h
    rw [this]

/-- **The head of the translated rule is satisfied exactly if the written head is.** -/
theorem headSat_iff (hf : RuleFor L el c r S) (hs : Scoped r) (hex : ¬ NoExistential r) (I : Interp α) (σ : Variable → α) :
    SHeadSat S I σ ↔ HeadTrue L el c.names r (fun n => I (code n)) fun n => σ (uvar n) := by
  have hagg : ∀ t es, .expression (.atom t es) ∈ r.head → ∀ e ∈ es, aggregate (bare e) = none :=
    aggregates_nil.1 (by_contra fun h => hex (hs.aggregate.2 h))
  constructor
  · rintro ⟨τ, h1, h2⟩
    refine ⟨fun n => τ (evar n), fun t es hg => ?_⟩
    obtain ⟨x, hx, n, hn, hpred, hargs⟩ := forall₂_left hf.head (mem_positives.2 hg)
    obtain ⟨row, g1, g2⟩ := h2 x hx
    rw [hpred] at g1
    exact ⟨n, row, hn, g1, (exists_rows hargs (hagg t es hg) (fun n => h1 (uvar n) rfl) (fun _ => rfl) Dom.tru row).1 (g2 _)⟩
  · rintro ⟨ε, h⟩
    refine ⟨choose ε σ, fun v hv => choose_other ε σ hv, fun x hx => ?_⟩
    obtain ⟨⟨t, es⟩, hp, n, hn, hpred, hargs⟩ := forall₂_right hf.head hx
    have hg := mem_positives.1 hp
    obtain ⟨n', row, hn', g1, g2⟩ := h t es hg
    rw [hn] at hn'
    cases hn'
    exact ⟨row, hpred ▸ g1, fun z => (exists_rows hargs (hagg t es hg) (fun n => choose_other ε σ rfl) (choose_evar ε σ) z row).2 g2⟩

theorem exOK (hf : RuleFor L el c r S) (hs : Scoped r) (hex : ¬ NoExistential r) (hp : PlainExistential r) : SExOK S := by
  refine ⟨fun h hh t ht => ?_, fun a ha v hv => ?_⟩
  · obtain ⟨⟨t', es⟩, hm, -, -, -, hargs⟩ := forall₂_right hf.head hh
    obtain ⟨⟨t'', es'⟩, hm', hsim⟩ := forall₂_right hf.heads hh
    obtain ⟨i, hi⟩ := List.mem_iff_getElem?.1 ht
    have hlook : ∃ e p, p ∈ positives r.head ∧ e ∈ p.2 ∧ HeadFor L el c e t ∧ (Primitive e → t.isOper = false) := by
      have h1 := hf.head
      have h2 := hf.heads
      generalize positives r.head = ps at h1 h2
      generalize S.head = hs' at h1 h2 hh
      induction h1 with
      | nil => cases hh
      | @cons p x ps xs g1 _ ih =>
        cases h2 with
        | cons g2 g3 =>
          rcases List.mem_cons.1 hh with rfl | hh
          · obtain ⟨-, -, -, g1⟩ := g1
            unfold HeadSimple at g2
            have : ∃ e ∈ p.2, HeadFor L el c e t ∧ (Primitive e → t.isOper = false) := by
              clear hargs hsim hi
              generalize p.2 = es at g1 g2
              generalize h.terms = ts at g1 g2 ht
              induction g1 with
              | nil => cases ht
              | @cons e y es ys k1 _ ih' =>
                cases g2 with
                | cons k2 k3 =>
                  rcases List.mem_cons.1 ht with rfl | ht
                  · exact ⟨e, by simp, k1, k2⟩
                  · obtain ⟨e', he', h'⟩ := ih' k3 ht
                    exact ⟨e', by simp [he'], h'⟩
            obtain ⟨e, he, h'⟩ := this
            exact ⟨e, p, by simp, he, h'⟩
          · obtain ⟨e, p', hp', h'⟩ := ih g3 hh
            exact ⟨e, p', by simp [hp'], h'⟩
    obtain ⟨e, ⟨tg, es⟩, hmem, he, hfor, hsimple⟩ := hlook
    have hg := mem_positives.1 hmem
    have hagg : aggregate (bare e) = none := aggregates_nil.1 (by_contra fun h => hex (hs.aggregate.2 h)) tg es hg e he
    have hshape : ∀ (n : Option Str), t.vars = n.toList.map uvar → t.aggCount = 0 → t.isOper = false → match n with
        | none => ∃ a, t = .const a
        | some n => t = .var (uvar n) := by
      intro n h1 h2 h3
      cases t with
      | var v =>
        cases n with
        | none => simp [HTerm.vars] at h1
        | some n => simp only [HTerm.vars, Option.toList_some, List.map_cons, List.map_nil, List.cons.injEq, and_true] at h1; rw [h1]
      | const a =>
        cases n with
        | none => exact ⟨a, rfl⟩
        | some n => simp [HTerm.vars] at h1
      | equal => simp [HTerm.isOper] at h3
      | op => simp [HTerm.isOper] at h3
      | agg => simp [HTerm.aggCount] at h2
    rcases hp e (mem_arguments.2 ⟨tg, es, hg, he⟩) with ⟨n, hn⟩ | ⟨hprim, hv⟩ | ⟨n, hn, tb, eb, hb, e', he', hu⟩
    · cases hfor with
      | plain h _ _ => rw [hn] at h; cases h
      | exist h _ _ => exact .inr ⟨_, rfl, .inl rfl⟩
      | aggr h _ => rw [hn] at h; cases h
    · cases hfor with
      | plain _ _ h' =>
        have := hshape none (by rw [h'.1, hv]; rfl) h'.2.1 (hsimple hprim)
        exact .inl this
      | exist h _ _ => exact .inr ⟨_, rfl, .inl rfl⟩
      | aggr _ h => rw [hagg] at h; cases h
    · have hne : existential (bare e) = none := by rw [universal_eq hn]; rfl
      have hprim : Primitive e := by unfold Primitive; rw [universal_eq hn]; trivial
      cases hfor with
      | plain _ _ h' =>
        have := hshape (some n) (by rw [h'.1, argVars hn]; rfl) h'.2.1 (hsimple hprim)
        refine .inr ⟨_, this, .inr ?_⟩
        obtain ⟨a, ha, _, -, -, hargs'⟩ := forall₂_left hf.positive (mem_positives.2 hb)
        obtain ⟨b, hbm, hab⟩ := forall₂_left hargs' he'
        refine ⟨a, ha, ?_⟩
        cases b with
        | anon => rw [show bare e' = .anonymous from hab] at hu; cases hu
        | var w => obtain ⟨m, hm, rfl⟩ := hab; rw [hu] at hm; cases hm; exact hbm
        | const => rw [hab.1] at hu; cases hu
        | oper => rw [hab.1] at hu; cases hu
      | exist h _ _ => rw [hne] at h; cases h
      | aggr _ h => rw [hagg] at h; cases h
  · obtain ⟨p, -, hfor⟩ := forall₂_right hf.positive ha
    obtain ⟨n, rfl, -⟩ := atomVar_mem hfor hv
    rfl

omit [DecidableEq α] [Dom α] in
theorem tables_key {rows : List (Verif.Tag × List α)} {x : Verif.Tag × List (List α)} (hx : x ∈ tables rows) :
    ∃ row, (x.1, row) ∈ rows := by
  have key : ∀ (rows : List (Verif.Tag × List α)) es, (es.map (·.1)).Nodup → ∀ q ∈ (rows.foldl (fun es x => addRow x es) es).map (·.1),
      q ∈ es.map (·.1) ∨ ∃ row, (q, row) ∈ rows := by
    intro rows
    induction rows with
    | nil => exact fun es _ q h => .inl h
    | cons y rows ih =>
      intro es hes q h
      obtain ⟨h1, h2⟩ := addRow_keys (x := y) hes
      rcases ih (addRow y es) h1 q h with h | ⟨row, h⟩
      · rcases h2 q h with rfl | h
        · exact .inr ⟨y.2, by simp⟩
        · exact .inl h
      · exact .inr ⟨row, by simp [h]⟩
  rcases key rows [] (by simp) x.1 (List.mem_map.2 ⟨x, hx, rfl⟩) with h | h
  · simp at h
  · exact h

/-- The names of predicates in the program differ from those of the helper predicates. -/
def NoHelpers (N : Names) (ss : List StmtAst) : Prop := ∀ t es, Uses ss t es → ∀ n, N.full t = some n → ∀ i, n ≠ satisfiedName i

/-- the number of the helper predicate of a rule -/
def satCode (i : Nat) : Verif.Tag := code (satisfiedName i)

theorem satCode_inj {i j : Nat} (h : satCode i = satCode j) : i = j := by
  have h := congrArg String.ofList (code_inj h)
  unfold satisfiedName at h
  rw [String.ofList_toList, String.ofList_toList] at h
  have h := (String.append_right_inj _).1 h
  exact Nat.repr_injective h

theorem bodyOK (hf : RuleFor L el c r S) (hs : Scoped r) {arity : Str → Nat}
    (har : ∀ t es, (.expression (.atom t es) ∈ r.body ∨ .expression (.negation (.atom t es)) ∈ r.body) → ∀ n, c.names.full t = some n →
      es.length = arity n) : SBodyOK S (arityOf arity) := by
  refine ⟨?_, ?_, ?_⟩
  · intro a ha
    have hat : ∃ t es, (.expression (.atom t es) ∈ r.body ∨ .expression (.negation (.atom t es)) ∈ r.body) ∧
        AtomFor L el c (t, es) a := by
      rcases List.mem_append.1 ha with ha | ha
      · obtain ⟨⟨t, es⟩, hp, hfor⟩ := forall₂_right hf.positive ha
        exact ⟨t, es, .inl (mem_positives.1 hp), hfor⟩
      · obtain ⟨⟨t, es⟩, hp, hfor⟩ := forall₂_right hf.negative ha
        exact ⟨t, es, .inr (mem_negatives.1 hp), hfor⟩
    obtain ⟨t, es, hg, n, hn, hpred, hargs⟩ := hat
    rw [hpred, arityOf_code, ← hargs.length_eq]
    exact har t es hg n hn
  · intro a ha
    obtain ⟨⟨t, es⟩, hp, _, -, -, hargs⟩ := forall₂_right hf.negative ha
    obtain ⟨e, he, hne, hb⟩ := hs.shared t es (mem_negatives.1 hp)
    obtain ⟨b, hmem, hab⟩ := forall₂_left hargs he
    cases b with
    | anon => exact absurd hab hne
    | var v =>
      obtain ⟨n, hn, rfl⟩ := hab
      exact .inl ⟨_, hmem, (safe_uvar hf n).2 (hb n (by rw [argVars hn]; simp))⟩
    | const x => exact .inr (.inl ⟨x, hmem⟩)
    | oper o => exact .inr (.inr ⟨o, hmem⟩)
  · exact fun a ha o ho h => negLocal hf hs ha ho h

section
variable {ss : List StmtAst} {Ss : List (SRule α)} {fs : List (Verif.Tag × List α)} {arity : Str → Nat}

theorem ProgramFor.xok (h : ProgramFor L el c ss Ss fs arity) (hel : ∀ v n, el v ≠ Dom.null n)
    (hsrc : ∀ S ∈ Ss, ∃ R, sourceRule el R = some S) (hpe : ∀ s ∈ ss, ∀ r, s.kind = .rule r → ¬ NoExistential r → PlainExistential r)
    (hsat : NoHelpers c.names ss) : SXProgOK Ss satCode (arityOf arity) := by
  refine ⟨h.valid, fun S hS => ?_, fun S hS x hx => ?_, fun S hS => ?_, fun S hS hex => ?_, fun i j => satCode_inj, fun i S hS => ⟨?_, ?_⟩⟩
  · obtain ⟨s, hs, r, hk, h1, h2⟩ := h.rule hS
    refine bodyOK h1 h2 fun t es h' n hn => ?_
    rcases h' with h' | h'
    · exact h.covered.arity t es (.body hs hk h') n hn
    · exact h.covered.arity t es (.negated hs hk h') n hn
  · obtain ⟨s, hs, r, hk, h1, h2⟩ := h.rule hS
    obtain ⟨⟨t, es⟩, hp, n, hn, hpred, hargs⟩ := forall₂_right h1.head hx
    rw [hpred, arityOf_code, ← hargs.length_eq]
    exact h.covered.arity t es (.head hs hk (mem_positives.1 hp)) n hn
  · obtain ⟨R, hR⟩ := hsrc S hS
    exact sourceRule_noNulls hel hR
  · obtain ⟨s, hs, r, hk, h1, h2⟩ := h.rule hS
    have hno := (hasEx h1).1 hex
    exact exOK h1 h2 hno (hpe s hs r hk hno)
  · obtain ⟨s, hs, r, hk, h1, h2⟩ := h.rule hS
    intro a ha heq
    rcases List.mem_append.1 ha with ha | ha
    · obtain ⟨⟨t, es⟩, hp, n, hn, hpred, -⟩ := forall₂_right h1.positive ha
      rw [hpred] at heq
      exact hsat t es (.body hs hk (mem_positives.1 hp)) n hn i (code_inj heq)
    · obtain ⟨⟨t, es⟩, hp, n, hn, hpred, -⟩ := forall₂_right h1.negative ha
      rw [hpred] at heq
      exact hsat t es (.negated hs hk (mem_negatives.1 hp)) n hn i (code_inj heq)
  · obtain ⟨s, hs, r, hk, h1, h2⟩ := h.rule hS
    intro x hx heq
    obtain ⟨⟨t, es⟩, hp, n, hn, hpred, -⟩ := forall₂_right h1.head hx
    rw [hpred] at heq
    exact hsat t es (.head hs hk (mem_positives.1 hp)) n hn i (code_inj heq)

/-- **The models of the translated rules are the models of the text.** -/
theorem ProgramFor.model (h : ProgramFor L el c ss Ss fs arity) (imported : List (Str × List α)) (M : Interp α) :
    SIsModel Ss (edbFacts (Tr.inputs fs imported)) M ↔
      Model L el c.names ss (fun n row => (n, row) ∈ imported) (fun n => M (code n)) := by
  constructor
  · rintro ⟨h1, h2, h3⟩
    refine ⟨fun n row hn => h1 _ _ ((h.inputs imported _ _).2 ⟨n, rfl, .inl hn⟩),
      fun n row hn => h1 _ _ ((h.inputs imported _ _).2 ⟨n, rfl, .inr hn⟩), fun s hs r hk hno n row hd => ?_, fun s hs r hk hex ρ hap => ?_⟩
    · obtain ⟨S, hS, hf⟩ := forall₂_left h.rules (mem_ruleAsts.2 ⟨s, hs, hk⟩)
      exact h2 S hS (fun hx => (hasEx hf).1 hx hno) _ _ ((derives_iff hf (h.covered.rules s hs r hk).2 hno _ _ _ _).2 ⟨n, rfl, hd⟩)
    · obtain ⟨S, hS, hf⟩ := forall₂_left h.rules (mem_ruleAsts.2 ⟨s, hs, hk⟩)
      have hs' := (h.covered.rules s hs r hk).2
      have := (headSat_iff hf hs' hex M _).1 (h3 S hS ((hasEx hf).2 hex) (valuation ρ) ((applicable_valuation hf hs' M M ρ).2 hap))
      rwa [show (fun n => valuation ρ (uvar n)) = ρ from funext (valuation_uvar ρ)] at this
  · rintro ⟨h1, h2, h3, h4⟩
    refine ⟨fun q row hq => ?_, fun S hS hno q row hd => ?_, fun S hS hex σ hb => ?_⟩
    · obtain ⟨m, rfl, h'⟩ := (h.inputs imported q row).1 hq
      exact h'.elim (h1 m row) (h2 m row)
    · obtain ⟨s, hs, r, hk, k1, k2⟩ := h.rule hS
      have hno : NoExistential r := by_contra fun hc => hno ((hasEx k1).2 hc)
      obtain ⟨m, rfl, hd'⟩ := (derives_iff k1 k2 hno _ _ q row).1 hd
      exact h3 s hs r hk hno m row hd'
    · obtain ⟨s, hs, r, hk, k1, k2⟩ := h.rule hS
      have hno := (hasEx k1).1 hex
      exact (headSat_iff k1 k2 hno M σ).2 (h4 s hs r hk hno _ ((body_holds k1 k2 M M σ).1 hb))

theorem ProgramFor.positive (h : ProgramFor L el c ss Ss fs arity)
    (hpos : ∀ s ∈ ss, ∀ r, s.kind = .rule r → PositiveRule L el c.names r) : ∀ S ∈ Ss, SPositive S := by
  intro S hS
  obtain ⟨s, hs, r, hk, hf, hsc⟩ := h.rule hS
  have hp := hpos s hs r hk
  refine ⟨?_, fun ha => (hasAgg_iff hf).1 ha hp.aggregate, fun o ho => ?_, fun a ha o ho => ?_, fun x hx t ht => ?_⟩
  · refine List.eq_nil_iff_forall_not_mem.2 fun a ha => ?_
    obtain ⟨⟨t, es⟩, hm, -⟩ := forall₂_right hf.negative ha
    exact hp.negation _ (mem_negatives.1 hm) trivial
  · obtain ⟨g, hg, hc⟩ := forall₂_right hf.operations ho
    obtain ⟨hg1, hg2⟩ := mem_conditions.1 hg
    intro f hhom σ hσ
    have h1 := (hc.eval (σ := σ) (ρ := fun n => σ (uvar n)) (fun _ _ => rfl) r (fun _ _ => False) (fun _ _ => False)).1 hσ
    exact (hc.eval (σ := f ∘ σ) (ρ := f ∘ fun n => σ (uvar n)) (fun _ _ => rfl) r (fun _ _ => False) (fun _ _ => False)).2
      (hp.conditions g hg1 hc.cond f hhom _ _ _ h1)
  · obtain ⟨⟨t, es⟩, hm, _, -, -, hargs⟩ := forall₂_right hf.positive ha
    obtain ⟨e, he, -, hne, hof, -⟩ := forall₂_right hargs ho
    intro f hhom σ b hb
    dsimp only at hb ⊢
    rw [hof.2 _ (fun n => σ (uvar n)) fun _ => rfl] at hb
    rw [hof.2 _ (f ∘ fun n => σ (uvar n)) fun _ => rfl]
    exact (hp.body t es (mem_positives.1 hm) e he).resolve_left hne f hhom _ _ hb
  · obtain ⟨⟨tg, es⟩, hm, _, -, -, hargs⟩ := forall₂_right hf.head hx
    obtain ⟨e, he, hfor⟩ := forall₂_right hargs ht
    have hg := mem_positives.1 hm
    intro f hhom σ b hb
    dsimp only at hb ⊢
    cases hfor with
    | plain h1 _ h' =>
      rw [HTerm.norm_eval, h'.2.2 _ (fun n => σ (uvar n)) _ fun _ => rfl] at hb
      rw [HTerm.norm_eval, h'.2.2 _ (f ∘ fun n => σ (uvar n)) _ fun _ => rfl]
      exact hp.head tg es hg e he h1 f hhom _ _ hb
    | exist _ _ _ =>
      simp only [HTerm.norm, Operation.eval, Option.some.injEq] at hb ⊢
      rw [← hb]; rfl
    | aggr _ h' => rw [aggregates_nil.1 hp.aggregate tg es hg e he] at h'; cases h'

theorem ProgramFor.sedb (h : ProgramFor L el c ss Ss fs arity) (hfs : ∀ x ∈ fs, ∀ a ∈ x.2, ∀ n, a ≠ Dom.null n)
    (hsat : NoHelpers c.names ss) {imported : List (Str × List α)} (himp : ∀ x ∈ imported, x.2.length = arity x.1)
    (hnull : ∀ x ∈ imported, ∀ a ∈ x.2, ∀ n, a ≠ Dom.null n) (hname : ∀ x ∈ imported, ∀ i, x.1 ≠ satisfiedName i) :
    SEdbOK (Tr.inputs fs imported) satCode (arityOf arity) := by
  refine ⟨h.edb himp, fun q row hq a ha => ?_, fun x hx i heq => ?_⟩
  · rw [Tr.inputs, (tables_spec _).1, List.mem_append] at hq
    rcases hq with hq | hq
    · exact hfs _ hq a ha
    · obtain ⟨y, hy, he⟩ := List.mem_map.1 hq
      cases he
      exact hnull y hy a ha
  · obtain ⟨row, hrow⟩ := tables_key hx
    obtain ⟨n, hn, h'⟩ := (h.inputs imported x.1 row).1 (((tables_spec _).1 _ _).2 hrow)
    rw [heq] at hn
    have hn := (code_inj hn).symm
    rcases h' with ⟨s, hs, t, es, hk, hfull, -⟩ | h'
    · exact hsat t es (.fact hs hk) n hfull i hn
    · exact hname _ h' i hn

end

/-! ## The answers -/

section
variable [NullDom α]

/-- **C54: when the engine stops, the facts satisfy the program text**: all facts that are written or imported are answers, all
rows derived by rules without existential variables are answers, and for all ways to match the body of a rule with
existential variables, there are values for the existential variables such that the head is in the answers. -/
theorem text_model_partial {s : Str} {p : ProgramAst} (hparse : Parse.parse s = .ok p) {items : List Item}
    (hread : readProgram L s = .ok items) {N : Names} (hN : Declared p.statements N) {arity : Str → Nat}
    (hcov : Covered N p.statements arity) (hel : ∀ v n, el v ≠ Dom.null n)
    (hpe : ∀ s ∈ p.statements, ∀ r, s.kind = .rule r → ¬ NoExistential r → PlainExistential r) (hsat : NoHelpers N p.statements) :
    ∃ (Ss : List (SRule α)) (fs : List (Verif.Tag × List α)), sourceRules el items = some Ss ∧ sourceFacts el items = some fs ∧
      ∀ (imported : List (Str × List α)) (given facts : List Verif.Tag) (aux : Verif.Tag) (rules : List (NRule α))
        (cond : Nat → List (Nat × Nat) → List (List Nat)) (cfgs : List RuleCfg) (outs : List Verif.Tag) (fuel : Nat) (st : Eng α),
        (∀ x ∈ imported, x.2.length = arity x.1 ∧ (∀ a ∈ x.2, ∀ n, a ≠ Dom.null n) ∧ ∀ i, x.1 ≠ satisfiedName i) →
        normalizeProgram given Ss = some rules → CondOK cond → ruleCfgs given facts aux satCode rules = some cfgs →
        Eng.execute cond rules cfgs outs fuel (Eng.init (inputs fs imported)) = some (some st) →
        Model L el N p.statements (fun n row => (n, row) ∈ imported) fun n row => st.answers (code n) row := by
  have htr : translate L p = .ok items := by rw [readProgram, hparse] at hread; exact hread
  obtain ⟨Ss, fs, c, rfl, hSs, hfs, h⟩ := program_for (el := el) htr hN hcov
  have hsrc : ∀ S ∈ Ss, ∃ R, sourceRule el R = some S := fun S hS =>
    (forall₂_right (collect_eq.1 hSs) hS).imp fun _ h => h.2
  refine ⟨Ss, fs, hSs, hfs, fun imported given facts aux rules cond cfgs outs fuel st himp hnorm hcond hcfg hx => ?_⟩
  exact (h.model imported _).1 (execute_source_model hcond hnorm hcfg (h.xok hel hsrc hpe hsat)
    (h.sedb (groundFacts_nulls hel hfs) hsat (fun x hx => (himp x hx).1) (fun x hx => (himp x hx).2.1) fun x hx => (himp x hx).2.2) hx)

/-- **C54: the answers are universal**: they can be mapped to every collection of facts that satisfies the program text, by replacing
only nulls. -/
theorem text_universal_partial {s : Str} {p : ProgramAst} (hparse : Parse.parse s = .ok p) {items : List Item}
    (hread : readProgram L s = .ok items) {N : Names} (hN : Declared p.statements N) {arity : Str → Nat}
    (hcov : Covered N p.statements arity) (hel : ∀ v n, el v ≠ Dom.null n)
    (hpe : ∀ s ∈ p.statements, ∀ r, s.kind = .rule r → ¬ NoExistential r → PlainExistential r) (hsat : NoHelpers N p.statements)
    (hpos : ∀ s ∈ p.statements, ∀ r, s.kind = .rule r → PositiveRule L el N r) :
    ∃ (Ss : List (SRule α)) (fs : List (Verif.Tag × List α)), sourceRules el items = some Ss ∧ sourceFacts el items = some fs ∧
      ∀ (imported : List (Str × List α)) (given facts : List Verif.Tag) (aux : Verif.Tag) (rules : List (NRule α))
        (cond : Nat → List (Nat × Nat) → List (List Nat)) (cfgs : List RuleCfg) (outs : List Verif.Tag) (fuel : Nat) (st : Eng α),
        (∀ x ∈ imported, x.2.length = arity x.1 ∧ (∀ a ∈ x.2, ∀ n, a ≠ Dom.null n) ∧ ∀ i, x.1 ≠ satisfiedName i) →
        normalizeProgram given Ss = some rules → ruleCfgs given facts aux satCode rules = some cfgs →
        Eng.execute cond rules cfgs outs fuel (Eng.init (inputs fs imported)) = some (some st) →
        ∀ M : Facts α, Model L el N p.statements (fun n row => (n, row) ∈ imported) M →
          ∃ f : α → α, (∀ a, (∀ n, a ≠ Dom.null n) → f a = a) ∧
            ∀ n, (∀ i, n ≠ satisfiedName i) → ∀ row ∈ st.predicateRows (code n), M n (row.map f) := by
  have htr : translate L p = .ok items := by rw [readProgram, hparse] at hread; exact hread
  obtain ⟨Ss, fs, c, rfl, hSs, hfs, h⟩ := program_for (el := el) htr hN hcov
  have hsrc : ∀ S ∈ Ss, ∃ R, sourceRule el R = some S := fun S hS =>
    (forall₂_right (collect_eq.1 hSs) hS).imp fun _ h => h.2
  refine ⟨Ss, fs, hSs, hfs, fun imported given facts aux rules cond cfgs outs fuel st himp hnorm hcfg hx M hM => ?_⟩
  have hok := h.xok hel hsrc hpe hsat
  obtain ⟨f, f1, f2⟩ := execute_source_universal hnorm hcfg hok
    (h.sedb (groundFacts_nulls hel hfs) hsat (fun x hx => (himp x hx).1) (fun x hx => (himp x hx).2.1) fun x hx => (himp x hx).2.2)
    (h.positive hpos) hx (M := up M) ((h.model imported _).2 (by rw [up_code]; exact hM))
  refine ⟨f, f1, fun n hn row hr => ?_⟩
  have := f2 (code n) (fun i hi => hn i (code_inj hi)) row hr
  rwa [show up M (code n) = M n from congrFun (up_code M) n] at this

/-- **C54: the answers without nulls are the certain answers**: the rows that are in all collections of facts that satisfy the
program text. -/
theorem text_certain_partial {s : Str} {p : ProgramAst} (hparse : Parse.parse s = .ok p) {items : List Item}
    (hread : readProgram L s = .ok items) {N : Names} (hN : Declared p.statements N) {arity : Str → Nat}
    (hcov : Covered N p.statements arity) (hel : ∀ v n, el v ≠ Dom.null n)
    (hpe : ∀ s ∈ p.statements, ∀ r, s.kind = .rule r → ¬ NoExistential r → PlainExistential r) (hsat : NoHelpers N p.statements)
    (hpos : ∀ s ∈ p.statements, ∀ r, s.kind = .rule r → PositiveRule L el N r) :
    ∃ (Ss : List (SRule α)) (fs : List (Verif.Tag × List α)), sourceRules el items = some Ss ∧ sourceFacts el items = some fs ∧
      ∀ (imported : List (Str × List α)) (given facts : List Verif.Tag) (aux : Verif.Tag) (rules : List (NRule α))
        (cond : Nat → List (Nat × Nat) → List (List Nat)) (cfgs : List RuleCfg) (outs : List Verif.Tag) (fuel : Nat) (st : Eng α),
        (∀ x ∈ imported, x.2.length = arity x.1 ∧ (∀ a ∈ x.2, ∀ n, a ≠ Dom.null n) ∧ ∀ i, x.1 ≠ satisfiedName i) →
        normalizeProgram given Ss = some rules → CondOK cond → ruleCfgs given facts aux satCode rules = some cfgs →
        Eng.execute cond rules cfgs outs fuel (Eng.init (inputs fs imported)) = some (some st) →
        ∀ n, (∀ i, n ≠ satisfiedName i) → ∀ row : List α, (∀ a ∈ row, ∀ m, a ≠ Dom.null m) →
          (row ∈ st.predicateRows (code n) ↔
            ∀ M : Facts α, Model L el N p.statements (fun n row => (n, row) ∈ imported) M → M n row) := by
  have htr : translate L p = .ok items := by rw [readProgram, hparse] at hread; exact hread
  obtain ⟨Ss, fs, c, rfl, hSs, hfs, h⟩ := program_for (el := el) htr hN hcov
  have hsrc : ∀ S ∈ Ss, ∃ R, sourceRule el R = some S := fun S hS =>
    (forall₂_right (collect_eq.1 hSs) hS).imp fun _ h => h.2
  refine ⟨Ss, fs, hSs, hfs, fun imported given facts aux rules cond cfgs outs fuel st himp hnorm hcond hcfg hx n hn row hrow => ?_⟩
  have hok := h.xok hel hsrc hpe hsat
  rw [execute_source_certain hcond hnorm hcfg hok
    (h.sedb (groundFacts_nulls hel hfs) hsat (fun x hx => (himp x hx).1) (fun x hx => (himp x hx).2.1) fun x hx => (himp x hx).2.2)
    (h.positive hpos) hx (fun i hi => hn i (code_inj hi)) hrow]
  constructor
  · intro hall M hM
    have := hall (up M) ((h.model imported _).2 (by rw [up_code]; exact hM))
    rwa [show up M (code n) = M n from congrFun (up_code M) n] at this
  · exact fun hall M hM => hall (fun n => M (code n)) ((h.model imported M).1 hM)

end

end
end Verif.Tr
