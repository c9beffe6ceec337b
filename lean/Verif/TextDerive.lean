import Verif.TextRules

/-!
# Written rules derive what they say
-/
set_option linter.unusedSimpArgs false
set_option linter.unusedSectionVars false

namespace Verif.Tr
open Verif.Parse (Str Ex FEl VarKind AOp IOp Enc Guard RuleAst DirectiveAst KindAst StmtAst ProgramAst Part)

section
variable {α : Type} [DecidableEq α] [Dom α] {L : Fn.Lib} {el : DV → α} {c : Ctx} {r : RuleAst} {S : SRule α}

theorem argVars {e : Ex} {n : Str} (h : universal (bare e) = some n) : varsOf e = [n] := by
  rw [← varsOf_bare, universal_eq h]; rfl

/-- `SSafe` are the variables that are bound. -/
theorem safe_bound (hf : RuleFor L el c r S) (v : Variable) : SSafe S v ↔ ∃ n, v = uvar n ∧ Bound r n := by
  constructor
  · intro h
    induction h with
    | @atom a v ha hv =>
      obtain ⟨⟨t, es⟩, hp, n, -, -, hargs⟩ := forall₂_right hf.positive ha
      obtain ⟨e, he, m, hm, rfl⟩ := forall₂_right hargs hv
      exact ⟨m, rfl, .atom (mem_positives.1 hp) he hm⟩
    | @assign o e v ho he _ ih =>
      obtain ⟨g, hg, hc⟩ := forall₂_right hf.operations ho
      rcases hc.assign with ⟨h1, -⟩ | ⟨n, e', o', h1, h2, h3, -⟩
      · rw [h1] at he; cases he
      · rw [h2] at he
        cases he
        refine ⟨n, rfl, .assign (mem_conditions.1 hg).1 h1 fun m hm => ?_⟩
        obtain ⟨m', h4, h5⟩ := ih (uvar m) (by rw [h3]; exact List.mem_map_of_mem hm)
        rw [uvar_inj h4]
        exact h5
  · rintro ⟨n, rfl, h⟩
    induction h with
    | @atom t es e n hg he hn =>
      obtain ⟨a, ha, _, -, -, hargs⟩ := forall₂_left hf.positive (mem_positives.2 hg)
      obtain ⟨b, hb, hab⟩ := forall₂_left hargs he
      refine .atom ha (v := uvar n) ?_
      cases b with
      | var v =>
        obtain ⟨m, hm, rfl⟩ := hab
        rw [hn] at hm
        cases hm
        exact hb
      | anon =>
        have hab : bare e = .anonymous := hab
        rw [hab] at hn; cases hn
      | const x => rw [hab.1] at hn; cases hn
      | oper x => rw [hab.1] at hn; cases hn
    | @assign g n e hg ha _ ih =>
      have hcond : IsCondition g := by
        cases g with
        | compare => trivial
        | expression e' =>
          cases e' with
          | operation => trivial
          | _ => simp [assignment, sides] at ha
      obtain ⟨o, ho, hc⟩ := forall₂_left hf.operations (mem_conditions.2 ⟨hg, hcond⟩)
      rcases hc.assign with ⟨-, h1⟩ | ⟨n', e', o', h1, h2, h3, -⟩
      · rw [h1] at ha; cases ha
      · rw [h1] at ha
        cases ha
        refine .assign ho h2 fun w hw => ?_
        rw [h3, List.mem_map] at hw
        obtain ⟨m, hm, rfl⟩ := hw
        exact ih m hm

theorem safe_uvar (hf : RuleFor L el c r S) (n : Str) : SSafe S (uvar n) ↔ Bound r n := by
  rw [safe_bound hf]
  exact ⟨fun ⟨m, h1, h2⟩ => uvar_inj h1 ▸ h2, fun h => ⟨n, rfl, h⟩⟩

theorem atomVar_mem {p : Parse.Tag × List Ex} {a : SAtom α} (h : AtomFor L el c p a) {v : Variable}
    (hv : .var v ∈ a.terms) : ∃ n, v = uvar n ∧ n ∈ varsOfAll p.2 := by
  obtain ⟨_, -, -, hargs⟩ := h
  obtain ⟨e, he, n, hn, rfl⟩ := forall₂_right hargs hv
  exact ⟨n, rfl, mem_varsOfAll.2 ⟨e, he, by rw [argVars hn]; simp⟩⟩

theorem var_mem {p : Parse.Tag × List Ex} {a : SAtom α} (h : AtomFor L el c p a) {e : Ex} (he : e ∈ p.2) {n : Str}
    (hn : universal (bare e) = some n) : .var (uvar n) ∈ a.terms := by
  obtain ⟨_, -, -, hargs⟩ := h
  obtain ⟨b, hb, hab⟩ := forall₂_left hargs he
  cases b with
  | anon => rw [show bare e = .anonymous from hab] at hn; cases hn
  | var w => obtain ⟨m, hm, rfl⟩ := hab; rw [hn] at hm; cases hm; exact hb
  | const => rw [hab.1] at hn; cases hn
  | oper => rw [hab.1] at hn; cases hn

/-- conditions refer to bound variables, or to variables of one negated atom -/
theorem condition_vars (hf : RuleFor L el c r S) (hs : Scoped r) {o : Operation α} (ho : o ∈ S.operations) :
    (∀ v ∈ o.vars, SSafe S v) ∨ ∃ a ∈ S.negative, ∀ v ∈ o.vars, .var v ∈ a.terms := by
  obtain ⟨g, hg, hc⟩ := forall₂_right hf.operations ho
  rw [hc.vars]
  rcases hs.conditions g (mem_conditions.1 hg).1 hc.cond with h | ⟨t, es, h1, h2⟩
  · refine .inl fun v hv => ?_
    obtain ⟨n, hn, rfl⟩ := List.mem_map.1 hv
    exact (safe_uvar hf n).2 (h n hn)
  · obtain ⟨a, ha, hfor⟩ := forall₂_left hf.negative (mem_negatives.2 h1)
    refine .inr ⟨a, ha, fun v hv => ?_⟩
    obtain ⟨n, hn, rfl⟩ := List.mem_map.1 hv
    obtain ⟨e, he, hu⟩ := h2 n hn
    exact var_mem hfor he hu

/-- a condition on a local variable of a negated atom refers to the variables of this atom -/
theorem condition_local (hs : Scoped r) {t : Parse.Tag} {es : List Ex}
    (hg : .expression (.negation (.atom t es)) ∈ r.body) {g : Guard} (hc : g ∈ r.body) (hic : IsCondition g) {m : Str} (h1 : m ∈ varsOfAll es)
    (h2 : m ∈ guardVars g) (h3 : ¬ Bound r m) : ∀ n ∈ guardVars g, ∃ e ∈ es, universal (bare e) = some n := by
  rcases hs.conditions g hc hic with h | ⟨t', es', h4, h5⟩
  · exact absurd (h m h2) h3
  · by_cases he : (Guard.expression (.negation (.atom t' es'))) = .expression (.negation (.atom t es))
    · cases he; exact h5
    · have := @List.Pairwise.forall _ (fun g g' => IsNegated g → IsNegated g' → ∀ n ∈ guardVars g, n ∈ guardVars g' → Bound r n)
        r.body ⟨fun a b h h1 h2 m h3 h4 => h h2 h1 m h4 h3⟩ hs.negated _ h4 _ hg he
      obtain ⟨e, he', hu⟩ := h5 m h2
      exact absurd (this trivial trivial m (mem_varsOfAll.2 ⟨e, he', by rw [argVars hu]; simp⟩) h1) h3

theorem negLocal (hf : RuleFor L el c r S) (hs : Scoped r) {a : SAtom α} (ha : a ∈ S.negative) {o : Operation α} (ho : o ∈ S.operations)
    (h : ∀ v ∈ o.vars, SSafe S v ∨ .var v ∈ a.terms) : (∀ v ∈ o.vars, SSafe S v) ∨ ∀ v ∈ o.vars, .var v ∈ a.terms := by
  by_cases hall : ∀ v ∈ o.vars, SSafe S v
  · exact .inl hall
  · right
    push Not at hall
    obtain ⟨v, hv, hns⟩ := hall
    obtain ⟨g, hg, hc⟩ := forall₂_right hf.operations ho
    obtain ⟨⟨t, es⟩, hp, hfor⟩ := forall₂_right hf.negative ha
    rw [hc.vars] at hv ⊢
    obtain ⟨m, hm, rfl⟩ := List.mem_map.1 hv
    obtain ⟨m', hm', hm2⟩ := atomVar_mem hfor ((h _ (by rw [hc.vars]; exact hv)).resolve_left hns)
    cases uvar_inj hm'
    intro w hw
    obtain ⟨n, hn, rfl⟩ := List.mem_map.1 hw
    obtain ⟨e, he, hu⟩ := condition_local hs (mem_negatives.1 hp) (mem_conditions.1 hg).1 hc.cond hm2 hm
      (fun hb => hns ((safe_uvar hf m).2 hb)) n hn
    exact var_mem hfor he hu

/-! ### Arguments of head atoms -/

theorem HeadFor.count {e : Ex} {t : HTerm α} (h : HeadFor L el c e t) : t.aggCount = 0 ↔ aggregate (bare e) = none := by
  cases h with
  | plain _ h h' => exact ⟨fun _ => h, fun _ => h'.2.1⟩
  | exist _ h _ => exact ⟨fun _ => h, fun _ => rfl⟩
  | aggr _ h _ => rw [h]; exact ⟨(nomatch ·), (nomatch ·)⟩

theorem HeadFor.count_eq {e : Ex} {t : HTerm α} (h : HeadFor L el c e t) : t.aggCount = (aggregate (bare e)).toList.length := by
  cases h with
  | plain _ h h' => rw [h'.2.1, h]; rfl
  | exist _ h _ => rw [h]; rfl
  | aggr _ h _ => rw [h]; rfl

/-- the aggregate of a head term -/
theorem HeadFor.agg {e : Ex} {t : HTerm α} (h : HeadFor L el c e t) {k' : Nat} {o : Operation α} {d : List Variable}
    (ha : t.agg? = some (k', o, d)) : ∃ k i ns, aggregate (bare e) = some (k, i, ns.map (.variable .universal)) ∧
      k' = aggCode k ∧ d = ns.map uvar ∧ OpFor L el c i o ∧ varsOf e = varsOf i ++ ns ∧ (Primitive i → o.IsPrimitive) := by
  cases h with
  | plain _ h h' => rw [(HTerm.agg?_none t).2 h'.2.1] at ha; cases ha
  | exist _ h _ => cases ha
  | @aggr k i ds ns o' _ h hds hv ho hpr =>
    cases ha
    subst hds
    exact ⟨k, i, ns, h, rfl, rfl, ho, hv, hpr⟩

theorem HeadFor.agg_of {e : Ex} {t : HTerm α} (h : HeadFor L el c e t) {k : Str} {i : Ex} {ds : List Ex}
    (ha : aggregate (bare e) = some (k, i, ds)) : ∃ (ns : List Str) (o : Operation α), ds = ns.map (.variable .universal) ∧ OpFor L el c i o ∧
      t = .agg (aggCode k) o (ns.map uvar) := by
  cases h with
  | plain _ h h' => rw [h] at ha; cases ha
  | exist _ h _ => rw [h] at ha; cases ha
  | @aggr k i ds ns o' _ h hds hv ho hpr =>
    rw [h] at ha
    cases ha
    exact ⟨ns, o', hds, ho, rfl⟩

theorem HeadFor.value {e : Ex} {t : HTerm α} (h : HeadFor L el c e t) (h1 : Tr.existential (bare e) = none)
    (h2 : Tr.aggregate (bare e) = none) {σ : Variable → α} {ρ : Str → α} (hσ : ∀ n, σ (uvar n) = ρ n) (x : α) :
    t.value σ x = Tr.value L el c.names ρ e := by
  cases h with
  | plain _ _ h' => exact h'.2.2 σ ρ x hσ
  | exist h _ _ => rw [h] at h1; cases h1
  | aggr _ h _ => rw [h] at h2; cases h2

theorem mem_arguments {gs : List Guard} {e : Ex} :
    e ∈ gs.flatMap arguments ↔ ∃ t es, .expression (.atom t es) ∈ gs ∧ e ∈ es := by
  rw [List.mem_flatMap]
  constructor
  · rintro ⟨g, hg, he⟩
    cases g with
    | compare => simp [arguments] at he
    | expression e' =>
      cases e' with
      | atom t es => exact ⟨t, es, hg, he⟩
      | _ => simp [arguments] at he
  · rintro ⟨t, es, hg, he⟩
    exact ⟨_, hg, he⟩

theorem aggregates_nil : aggregates r = [] ↔ ∀ t es, .expression (.atom t es) ∈ r.head → ∀ e ∈ es, aggregate (bare e) = none := by
  rw [aggregates, List.filterMap_eq_nil_iff]
  constructor
  · exact fun h t es hg e he => h e (mem_arguments.2 ⟨t, es, hg, he⟩)
  · intro h e he
    obtain ⟨t, es, hg, he⟩ := mem_arguments.1 he
    exact h t es hg e he

theorem hasAgg_iff (hf : RuleFor L el c r S) : S.HasAgg ↔ aggregates r ≠ [] := by
  constructor
  · rintro ⟨x, hx, y, hy, hc⟩ h
    obtain ⟨⟨t, es⟩, hp, _, -, -, hargs⟩ := forall₂_right hf.head hx
    obtain ⟨e, he, hab⟩ := forall₂_right hargs hy
    exact hc (hab.count.2 (aggregates_nil.1 h t es (mem_positives.1 hp) e he))
  · intro h
    by_contra hno
    refine h (aggregates_nil.2 fun t es hg e he => ?_)
    obtain ⟨x, hx, _, -, -, hargs⟩ := forall₂_left hf.head (mem_positives.2 hg)
    obtain ⟨y, hy, hab⟩ := forall₂_left hargs he
    exact hab.count.1 (by_contra fun hc => hno ⟨x, hx, y, hy, hc⟩)

/-! ### Bodies -/

theorem holds_condition {g : Guard} (hg : IsCondition g) {N : Names} {ρ : Str → α} {P M : Facts α} :
    Holds L el N r ρ P M g ↔ Condition L el N ρ g := by
  cases g with
  | compare => rfl
  | expression e => cases e with
    | operation => rfl
    | _ => exact hg.elim

/-- **The body of the translated rule is satisfied exactly if the written body is.** -/
theorem body_holds (hf : RuleFor L el c r S) (hs : Scoped r) (P M : Interp α) (σ : Variable → α) :
    SBody S P M σ ↔ Applicable L el c.names r (fun n => P (code n)) (fun n => M (code n)) (fun n => σ (uvar n)) := by
  constructor
  · intro h
    refine ⟨fun g hg hbd => ?_, ?_, ?_, ?_⟩
    · cases hf.supported g hg with
      | @pos t es =>
        obtain ⟨a, ha, hfor⟩ := forall₂_left hf.positive (mem_positives.2 hg)
        obtain ⟨row, h1, h2⟩ := h.pos a ha
        obtain ⟨n, hn, hpred, -⟩ := id hfor
        rw [hpred] at h1
        exact ⟨n, row, hn, h1, (hfor.matches (fun _ _ => rfl) row).1 h2⟩
      | @neg t es =>
        obtain ⟨a, ha, hfor⟩ := forall₂_left hf.negative (mem_negatives.2 hg)
        obtain ⟨n, hn, hpred, -⟩ := id hfor
        refine ⟨n, hn, ?_⟩
        rintro ⟨ρ', row, h1, h2, h3, h4⟩
        refine h.neg a ha ?_
        classical
        let τ : Variable → α := fun v => if SSafe S v then σ v else valuation ρ' v
        have hτ : ∀ m, τ (uvar m) = ρ' m := by
          intro m
          by_cases hb : SSafe S (uvar m)
          · rw [show τ (uvar m) = σ (uvar m) from if_pos hb]
            exact (h1 m ((safe_uvar hf m).1 hb)).symm
          · rw [show τ (uvar m) = valuation ρ' (uvar m) from if_neg hb, valuation_uvar]
        refine ⟨τ, row, fun v hv => if_pos hv, hpred ▸ h2, (hfor.matches (fun m _ => hτ m) row).2 h3, fun o ho hsc => ?_⟩
        by_cases hall : ∀ v ∈ o.vars, SSafe S v
        · rw [← h.ops o ho hall]
          exact Operation.eval_congr o fun v hv => if_pos (hall v hv)
        · push Not at hall
          obtain ⟨v, hv, hns⟩ := hall
          obtain ⟨g, hg, hc⟩ := forall₂_right hf.operations ho
          have hmem := (hsc v hv).resolve_left hns
          rw [hc.vars] at hv
          obtain ⟨m, hm, rfl⟩ := List.mem_map.1 hv
          obtain ⟨m', hm', hm2⟩ := atomVar_mem hfor hmem
          cases uvar_inj hm'
          refine (hc.eval (r := r) (ρ := ρ') (P := fun _ _ => False) (M := fun _ _ => False) fun n _ => hτ n).2 ?_
          exact (holds_condition hc.cond).2 (h4 g (mem_conditions.1 hg).1 hc.cond ⟨m, hm2, hm, fun hb => hns ((safe_uvar hf m).2 hb)⟩)
      | oper =>
        obtain ⟨o, ho, hc⟩ := forall₂_left hf.operations (mem_conditions.2 ⟨hg, trivial⟩)
        refine (hc.eval (fun _ _ => rfl) _ _ _).1 (h.ops o ho fun v hv => ?_)
        rw [hc.vars] at hv
        obtain ⟨n, hn, rfl⟩ := List.mem_map.1 hv
        exact (safe_uvar hf n).2 (hbd trivial n hn)
      | compare =>
        obtain ⟨o, ho, hc⟩ := forall₂_left hf.operations (mem_conditions.2 ⟨hg, trivial⟩)
        refine (hc.eval (fun _ _ => rfl) _ _ _).1 (h.ops o ho fun v hv => ?_)
        rw [hc.vars] at hv
        obtain ⟨n, hn, rfl⟩ := List.mem_map.1 hv
        exact (safe_uvar hf n).2 (hbd trivial n hn)
    · intro t es hg e he h1 h2
      obtain ⟨x, hx, n, -, -, hfor⟩ := forall₂_left hf.head (mem_positives.2 hg)
      obtain ⟨y, hy, hyf⟩ := forall₂_left hfor he
      have := h.defined.head x hx y hy (hyf.count.2 h2) Dom.tru
      rwa [hyf.value h1 h2 (ρ := fun n => σ (uvar n)) (fun _ => rfl)] at this
    · intro t es hg e he k i ds hk
      obtain ⟨x, hx, n, -, -, hfor⟩ := forall₂_left hf.head (mem_positives.2 hg)
      obtain ⟨y, hy, hyf⟩ := forall₂_left hfor he
      obtain ⟨ns, o, -, ho, rfl⟩ := hyf.agg_of hk
      have := h.defined.agg x hx _ hy _ _ _ rfl
      rwa [ho.eval (ρ := fun n => σ (uvar n)) (fun _ _ => rfl)] at this
    · intro t es hg e he
      obtain ⟨a, ha, n, -, -, hargs⟩ := forall₂_left hf.negative (mem_negatives.2 hg)
      obtain ⟨b, hb, hbf⟩ := forall₂_left hargs he
      cases b with
      | anon => exact .inl hbf
      | var v =>
        obtain ⟨m, hm, -⟩ := hbf
        right
        rw [← value_bare, universal_eq hm]
        simp [value]
      | const x => right; rw [hbf.2.2.2]; simp
      | oper o =>
        right
        rw [← hbf.2.2.1.eval (σ := σ) (fun _ _ => rfl)]
        exact h.defined.neg a ha o hb
  · rintro ⟨h, hd⟩
    have hopv : ∀ o ∈ S.operations, (∀ v ∈ o.vars, SSafe S v) → o.eval σ = some Dom.tru := by
      intro o ho hall
      obtain ⟨g, hg, hc⟩ := forall₂_right hf.operations ho
      refine (hc.eval (fun _ _ => rfl) _ _ _).2 (h g (mem_conditions.1 hg).1 fun _ n hn => ?_)
      exact (safe_uvar hf n).1 (hall _ (by rw [hc.vars]; exact List.mem_map.2 ⟨n, hn, rfl⟩))
    refine ⟨fun a ha => ?_, fun o ho hall => hopv o ho hall, fun a ha => ?_, ⟨fun a ha o ho => ?_, fun x hx y hy hc z => ?_,
      fun x hx y hy k i d hk => ?_⟩⟩
    · obtain ⟨⟨t, es⟩, hp, hfor⟩ := forall₂_right hf.positive ha
      obtain ⟨n, row, hn, h1, h2⟩ := h _ (mem_positives.1 hp) (fun h => h.elim)
      obtain ⟨n', hn', hpred, -⟩ := id hfor
      rw [hn] at hn'
      cases hn'
      exact ⟨row, hpred ▸ h1, (hfor.matches (fun _ _ => rfl) row).2 h2⟩
    · obtain ⟨⟨t, es⟩, hp, hfor⟩ := forall₂_right hf.negative ha
      obtain ⟨n, hn, hno⟩ := h _ (mem_negatives.1 hp) (fun h => h.elim)
      obtain ⟨n', hn', hpred, -⟩ := id hfor
      rw [hn] at hn'
      cases hn'
      rintro ⟨τ, row, h1, h2, h3, h4⟩
      refine hno ⟨fun m => τ (uvar m), row, fun m hm => h1 _ ((safe_uvar hf m).2 hm), (by rw [hpred] at h2; exact h2),
        (hfor.matches (fun m hm => rfl) row).1 h3, fun g hg hic ⟨m, k1, k2, k3⟩ => ?_⟩
      obtain ⟨o, ho, hc⟩ := forall₂_left hf.operations (mem_conditions.2 ⟨hg, hic⟩)
      refine (holds_condition hic).1 ((hc.eval (fun _ _ => rfl) r (fun _ _ => False) (fun _ _ => False)).1 (h4 o ho fun v hv => .inr ?_))
      rw [hc.vars] at hv
      obtain ⟨n, hn, rfl⟩ := List.mem_map.1 hv
      obtain ⟨e, he, hu⟩ := condition_local hs (mem_negatives.1 hp) hg hic k1 k2 k3 n hn
      exact var_mem hfor he hu
    · obtain ⟨⟨t, es⟩, hp, _, -, -, hargs⟩ := forall₂_right hf.negative ha
      obtain ⟨e, he, hab⟩ := forall₂_right hargs ho
      rw [hab.2.2.1.eval (ρ := fun n => σ (uvar n)) (fun _ _ => rfl)]
      exact (hd.negated t es (mem_negatives.1 hp) e he).resolve_left hab.2.1
    · obtain ⟨⟨t, es⟩, hp, _, -, -, hargs⟩ := forall₂_right hf.head hx
      obtain ⟨e, he, hab⟩ := forall₂_right hargs hy
      have h2 := hab.count.1 hc
      cases h1 : existential (bare e) with
      | none =>
        rw [hab.value h1 h2 (ρ := fun n => σ (uvar n)) (fun _ => rfl)]
        exact hd.head t es (mem_positives.1 hp) e he h1 h2
      | some n =>
        cases hab with
        | plain h _ _ => rw [h1] at h; cases h
        | exist => exact (nomatch ·)
        | aggr h _ => rw [h1] at h; cases h
    · obtain ⟨⟨t, es⟩, hp, _, -, -, hargs⟩ := forall₂_right hf.head hx
      obtain ⟨e, he, hab⟩ := forall₂_right hargs hy
      obtain ⟨k', i', ns, h1, -, -, ho, -⟩ := hab.agg hk
      rw [ho.eval (ρ := fun n => σ (uvar n)) (fun _ _ => rfl)]
      exact hd.aggregated t es (mem_positives.1 hp) e he k' i' _ h1

theorem applicable_valuation (hf : RuleFor L el c r S) (hs : Scoped r) (P M : Interp α) (ρ : Str → α) :
    SBody S P M (valuation ρ) ↔ Applicable L el c.names r (fun n => P (code n)) (fun n => M (code n)) ρ := by
  rw [body_holds hf hs, show (fun n => valuation ρ (uvar n)) = ρ from funext (valuation_uvar ρ)]

theorem head_rows {es : List Ex} {ts : List (HTerm α)} (h : List.Forall₂ (HeadFor L el c) es ts)
    (hno : ∀ e ∈ es, existential (bare e) = none) {σ : Variable → α} {ρ : Str → α}
    (hσ : ∀ n, σ (uvar n) = ρ n) (x : α) (row : List α) : List.Forall₂ (fun t b => t.value σ x = some b) ts row ↔
      List.Forall₂ (HeadValue L el c.names ρ x) es row := by
  induction h generalizing row with
  | nil => simp
  | @cons e t es ts h1 _ ih =>
    rw [List.forall₂_cons_left_iff, List.forall₂_cons_left_iff]
    refine exists_congr fun y => exists_congr fun ys => ?_
    rw [ih fun e he => hno e (by simp [he])]
    have : t.value σ x = some y ↔ HeadValue L el c.names ρ x e y := by
      unfold HeadValue
      cases h2 : aggregate (bare e) with
      | none => rw [h1.value (hno e (by simp)) h2 hσ]
      | some p =>
        obtain ⟨k, i, ds⟩ := p
        obtain ⟨ns, o, -, -, rfl⟩ := h1.agg_of h2
        simp [HTerm.value, eq_comm]
    rw [this]

theorem headValue_plain {es : List Ex} (h : ∀ e ∈ es, aggregate (bare e) = none) {N : Names} {ρ : Str → α} {x : α} {row : List α} :
    List.Forall₂ (HeadValue L el N ρ x) es row ↔ List.Forall₂ (fun e b => value L el N ρ e = some b) es row := by
  induction es generalizing row with
  | nil => simp
  | cons e es ih =>
    rw [List.forall₂_cons_left_iff, List.forall₂_cons_left_iff]
    refine exists_congr fun y => exists_congr fun ys => ?_
    rw [ih fun e he => h e (by simp [he]), show HeadValue L el N ρ x e y ↔ value L el N ρ e = some y by
      unfold HeadValue; rw [h e (by simp)]]

theorem forall₂_congr' {β γ : Type} {R R' : β → γ → Prop} {l : List β} {l' : List γ} (h : ∀ b ∈ l, ∀ c, R b c → R' b c)
    (hf : List.Forall₂ R l l') : List.Forall₂ R' l l' := by
  induction hf with
  | nil => exact .nil
  | cons h1 _ ih => exact .cons (h _ (by simp) _ h1) (ih fun b hb => h b (by simp [hb]))

theorem values_distinct (N : Names) (ρ : Str → α) (i : Ex) (ns : List Str) (y : List α) :
    values L el N ρ (i :: ns.map (.variable .universal)) = some y ↔ ∃ b, value L el N ρ i = some b ∧ y = b :: ns.map ρ := by
  have : values L el N ρ (ns.map (.variable .universal)) = some (ns.map ρ) := by
    induction ns with
    | nil => rfl
    | cons n ns ih => simp [values, value, ih]
  simp only [values, this]
  cases value L el N ρ i with
  | none => simp
  | some b => simp [eq_comm]

/-- groups of values -/
theorem same_group {es : List Ex} {h : SHead α} (hargs : List.Forall₂ (HeadFor L el c) es h.terms)
    (hno : ∀ e ∈ es, existential (bare e) = none) (τ τ' : Variable → α) : SameGroup h τ' τ ↔
      ∀ e ∈ es, aggregate (bare e) = none →
        value L el c.names (fun n => τ' (uvar n)) e = value L el c.names (fun n => τ (uvar n)) e := by
  constructor
  · intro hg e he ha
    obtain ⟨t, ht, hf⟩ := forall₂_left hargs he
    rw [← hf.value (hno e he) ha (σ := τ') (fun _ => rfl) Dom.tru, ← hf.value (hno e he) ha (σ := τ) (fun _ => rfl) Dom.tru]
    exact (hg t ht).1 (hf.count.2 ha) _
  · intro hg t ht
    obtain ⟨e, he, hf⟩ := forall₂_right hargs ht
    refine ⟨fun hc x => ?_, fun hc v hv => ?_⟩
    · have ha := hf.count.1 hc
      rw [hf.value (hno e he) ha (σ := τ') (fun _ => rfl), hf.value (hno e he) ha (σ := τ) (fun _ => rfl)]
      exact hg e he ha
    · cases hf with
      | plain _ _ h' => exact absurd h'.2.1 hc
      | exist => exact absurd rfl hc
      | aggr => simp [HTerm.outerVars] at hv

theorem derives_with (hf : RuleFor L el c r S) (hs : Scoped r) (hno : NoExistential r) (P M : Interp α) (p : Verif.Tag) (row : List α) :
    SDerivesWith S (SBody S P M) p row ↔ ∃ n, p = code n ∧
      DerivedBy L el c.names r (Applicable L el c.names r (fun n => P (code n)) (fun n => M (code n))) n row := by
  have hno' : ∀ t es, .expression (.atom t es) ∈ r.head → ∀ e ∈ es, existential (bare e) = none :=
    fun t es hg e he => hno e (mem_arguments.2 ⟨t, es, hg, he⟩)
  constructor
  · intro h
    cases h with
    | @plain σ x _ h1 h2 h3 h4 =>
      obtain ⟨⟨t, es⟩, hp, n, hn, hpred, hargs⟩ := forall₂_right hf.head h2
      have hg := mem_positives.1 hp
      have ha : ∀ e ∈ es, aggregate (bare e) = none := fun e he => by
        obtain ⟨y, hy, hy'⟩ := forall₂_left hargs he
        exact hy'.count.1 (h3 y hy)
      exact ⟨n, hpred, .plain ((body_holds hf hs P M σ).1 h1) hg ha hn
        ((headValue_plain ha).1 ((head_rows hargs (hno' t es hg) (fun _ => rfl) Dom.tru row).1 (h4 _)))⟩
    | @agg τ x y k i d l z _ h1 h2 h3 h4 h5 h6 h7 =>
      obtain ⟨⟨t, es⟩, hp, n, hn, hpred, hargs⟩ := forall₂_right hf.head h2
      have hg := mem_positives.1 hp
      obtain ⟨e, he, hfor⟩ := forall₂_right hargs h3
      obtain ⟨k', i', ns, g1, rfl, rfl, ho, -⟩ := hfor.agg h4
      refine ⟨n, hpred, .aggregate ((body_holds hf hs P M τ).1 h1) hg he g1 (fun y => ?_) h6 hn
        ((head_rows hargs (hno' t es hg) (fun _ => rfl) z row).1 h7)⟩
      rw [h5]
      constructor
      · rintro ⟨τ', b, k1, k2, k3, rfl⟩
        refine ⟨fun n => τ' (uvar n), (body_holds hf hs P M τ').1 k1, (same_group hargs (hno' t es hg) τ τ').1 k2, ?_⟩
        rw [values_distinct]
        rw [ho.eval (ρ := fun n => τ' (uvar n)) (fun _ _ => rfl)] at k3
        exact ⟨b, k3, by simp⟩
      · rintro ⟨ρ', k1, k2, k3⟩
        obtain ⟨b, k4, rfl⟩ := (values_distinct _ _ _ _ _).1 k3
        refine ⟨valuation ρ', b, (applicable_valuation hf hs P M ρ').2 k1, (same_group hargs (hno' t es hg) τ _).2 ?_, ?_, ?_⟩
        · rw [show (fun n => valuation ρ' (uvar n)) = ρ' from funext (valuation_uvar ρ')]
          exact k2
        · rw [ho.eval (ρ := ρ') (fun n _ => valuation_uvar ρ' n)]
          exact k4
        · simp [valuation_uvar]
  · rintro ⟨n, rfl, h⟩
    cases h with
    | @plain ρ t es _ _ h1 h2 h3 h4 h5 =>
      obtain ⟨x, hx, n', hn', hpred, hargs⟩ := forall₂_left hf.head (mem_positives.2 h2)
      rw [h4] at hn'
      cases hn'
      rw [← hpred]
      refine .plain (σ := valuation ρ) ((applicable_valuation hf hs P M ρ).2 h1) hx (fun y hy => ?_) fun z =>
        (head_rows hargs (hno' t es h2) (valuation_uvar ρ) z row).2 ((headValue_plain h3).2 h5)
      obtain ⟨e, he, hfor⟩ := forall₂_right hargs hy
      exact hfor.count.2 (h3 e he)
    | @aggregate ρ t es e k i ds l z _ _ h1 h2 h3 h4 h5 h6 h7 h8 =>
      obtain ⟨x, hx, n', hn', hpred, hargs⟩ := forall₂_left hf.head (mem_positives.2 h2)
      rw [h7] at hn'
      cases hn'
      rw [← hpred]
      obtain ⟨y, hy, hfor⟩ := forall₂_left hargs h3
      obtain ⟨ns, o, rfl, ho, rfl⟩ := hfor.agg_of h4
      refine .agg (τ := valuation ρ) (l := l) (x := z) ((applicable_valuation hf hs P M ρ).2 h1) hx hy rfl (fun y => ?_) h6
        ((head_rows hargs (hno' t es h2) (valuation_uvar ρ) z row).2 h8)
      rw [h5]
      constructor
      · rintro ⟨ρ', k1, k2, k3⟩
        obtain ⟨b, k4, rfl⟩ := (values_distinct _ _ _ _ _).1 k3
        refine ⟨valuation ρ', b, (applicable_valuation hf hs P M ρ').2 k1, (same_group hargs (hno' t es h2) _ _).2 ?_, ?_, ?_⟩
        · rw [show (fun n => valuation ρ' (uvar n)) = ρ' from funext (valuation_uvar ρ'),
            show (fun n => valuation ρ (uvar n)) = ρ from funext (valuation_uvar ρ)]
          exact k2
        · rw [ho.eval (ρ := ρ') (fun n _ => valuation_uvar ρ' n)]
          exact k4
        · simp [valuation_uvar]
      · rintro ⟨τ', b, k1, k2, k3, rfl⟩
        have k2 := (same_group hargs (hno' t es h2) _ τ').1 k2
        rw [show (fun n => valuation ρ (uvar n)) = ρ from funext (valuation_uvar ρ)] at k2
        refine ⟨fun n => τ' (uvar n), (body_holds hf hs P M τ').1 k1, k2, ?_⟩
        rw [values_distinct]
        rw [ho.eval (ρ := fun n => τ' (uvar n)) (fun _ _ => rfl)] at k3
        exact ⟨b, k3, by simp⟩

/-- **The translated rule derives exactly the facts that the written rule derives.** -/
theorem derives_iff (hf : RuleFor L el c r S) (hs : Scoped r) (hno : NoExistential r) (P M : Interp α) (p : Verif.Tag) (row : List α) :
    SDerives S P M p row ↔ ∃ n, p = code n ∧ Derived L el c.names r (fun n => P (code n)) (fun n => M (code n)) n row := by
  unfold SDerives Derived
  rw [hasAgg_iff hf, not_not, derives_with hf hs hno, derives_with hf hs hno]
  constructor
  · rintro (⟨h, n, hn, h'⟩ | ⟨h, n, hn, h'⟩)
    · exact ⟨n, hn, .inl ⟨h, h'⟩⟩
    · exact ⟨n, hn, .inr ⟨h, h'⟩⟩
  · rintro ⟨n, hn, ⟨h, h'⟩ | ⟨h, h'⟩⟩
    · exact .inl ⟨h, n, hn, h'⟩
    · exact .inr ⟨h, n, hn, h'⟩

end

end Verif.Tr
