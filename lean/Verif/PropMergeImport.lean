import Verif.PropMergeRule

/-!
# SPARQL imports that are not incremental after merging (C60)

If a rule requires constants and its other atoms do not restrict the merged import, the import clause is replaced by an import of the
program and a body atom.
-/

set_option linter.unusedSimpArgs false
set_option linter.unusedSectionVars false

namespace Verif.Sq
open Verif Verif.Inc
variable {α : Type} [DecidableEq α] [Dom α]

/-- Variables for which there is a constant occur only in import clauses and in the equalities with this constant. -/
structure ConstantsLocal (r : WRule α) : Prop where
  one : ∀ o ∈ r.toS.operations, ∀ v a, eqOf o = some (v, a) → (equalities r).lookup v = some a
  operations : ∀ o ∈ r.toS.operations, eqOf o = none → ∀ v ∈ o.vars, (equalities r).lookup v = none
  atoms : ∀ a ∈ r.toS.positive ++ r.toS.negative, ∀ v ∈ atomVariables a, (equalities r).lookup v = none
  head : ∀ h ∈ r.toS.head, ∀ v ∈ HTerm.varsList h.terms, (equalities r).lookup v = none

/-- The rule with an atom instead of the import clause -/
def atomRule (r : WRule α) (c : QClause α) : WRule α := ⟨r.head, otherLiterals r ++ [.positive c.toAtom]⟩

section lists
variable {r : WRule α} {c : QClause α}

theorem mem_other {l : LLit α} : l ∈ otherLiterals r ↔ l ∈ r.body ∧ ∀ o x, l = .operation o → eqOf o = some x → (equalities r).lookup x.1 ≠ some x.2 := by
  rw [otherLiterals, List.mem_filter]
  refine and_congr Iff.rfl ?_
  cases l with
  | positive a => simp
  | negative a => simp
  | operation o =>
    cases h : eqOf o with
    | none =>
      simp only [h, true_iff]
      intro o' x he hx
      cases he
      rw [h] at hx
      cases hx
    | some x =>
      simp only [h, Bool.not_eq_true', decide_eq_false_iff_not]
      constructor
      · intro h1 o' x' he hx
        cases he
        rw [h] at hx
        cases hx
        exact h1
      · exact fun h1 => h1 o x rfl h

theorem mem_positive {r : WRule α} {a : SAtom α} : a ∈ r.toS.positive ↔ LLit.positive a ∈ r.body := by
  simp only [WRule.toS, List.mem_filterMap]
  constructor
  · rintro ⟨l, hl, h⟩
    cases l <;> simp [LLit.positive?] at h
    exact h ▸ hl
  · exact fun h => ⟨_, h, rfl⟩

theorem mem_negative {r : WRule α} {a : SAtom α} : a ∈ r.toS.negative ↔ LLit.negative a ∈ r.body := by
  simp only [WRule.toS, List.mem_filterMap]
  constructor
  · rintro ⟨l, hl, h⟩
    cases l <;> simp [LLit.negative?] at h
    exact h ▸ hl
  · exact fun h => ⟨_, h, rfl⟩

theorem mem_operations {r : WRule α} {o : Operation α} : o ∈ r.toS.operations ↔ LLit.operation o ∈ r.body := by
  simp only [WRule.toS, List.mem_filterMap]
  constructor
  · rintro ⟨l, hl, h⟩
    cases l <;> simp [LLit.operation?] at h
    exact h ▸ hl
  · exact fun h => ⟨_, h, rfl⟩

theorem atomRule_positive {a : SAtom α} : a ∈ (atomRule r c).toS.positive ↔ a ∈ r.toS.positive ∨ a = c.toAtom := by
  rw [mem_positive, mem_positive, atomRule, List.mem_append, mem_other]
  simp

theorem atomRule_negative {a : SAtom α} : a ∈ (atomRule r c).toS.negative ↔ a ∈ r.toS.negative := by
  rw [mem_negative, mem_negative, atomRule, List.mem_append, mem_other]
  simp

theorem atomRule_operations (hl : ConstantsLocal r) {o : Operation α} : o ∈ (atomRule r c).toS.operations ↔ o ∈ r.toS.operations ∧ eqOf o = none := by
  rw [mem_operations, mem_operations, atomRule, List.mem_append, mem_other]
  simp only [List.mem_singleton, reduceCtorEq, or_false]
  refine and_congr_right fun ho => ⟨fun h => ?_, fun h o' x he hx => ?_⟩
  · cases he : eqOf o with
    | none => rfl
    | some x => exact absurd (hl.one o (mem_operations.2 ho) x.1 x.2 he) (h o x rfl he)
  · cases he
    rw [h] at hx
    cases hx

end lists

/-! ## The value of terms -/

theorem atom_congr {a : SAtom α} {σ τ : Variable → α} (h : ∀ v ∈ atomVariables a, τ v = σ v) {row : List α} (hm : a.Matches σ row) : a.Matches τ row :=
  matches_congr (fun v hv => h v (List.mem_flatMap.2 ⟨_, hv, by simp [termVars]⟩)) (fun o ho v hv => h v (List.mem_flatMap.2 ⟨_, ho, by simpa [termVars] using hv⟩)) hm

theorem defined_congr {S S' : SRule α} (hh : S'.head = S.head) (hn : ∀ a, a ∈ S'.negative → a ∈ S.negative) {σ τ : Variable → α}
    (h1 : ∀ a ∈ S.negative, ∀ v ∈ atomVariables a, τ v = σ v) (h2 : ∀ h ∈ S.head, ∀ v ∈ HTerm.varsList h.terms, τ v = σ v)
    (hd : TermsDefined S σ) : TermsDefined S' τ := by
  refine ⟨fun a ha o ho => ?_, fun h hm t ht hc x => ?_, fun h hm t ht k i d ha => ?_⟩
  · rw [Operation.eval_congr o fun v hv => h1 a (hn a ha) v (List.mem_flatMap.2 ⟨_, ho, by simpa [termVars] using hv⟩)]
    exact hd.neg a (hn a ha) o ho
  · rw [hh] at hm
    rw [HTerm.value_congr x t fun v hv => h2 h hm v (HTerm.mem_varsList ht (HTerm.outerVars_sub t hv))]
    exact hd.head h hm t ht hc x
  · rw [hh] at hm
    rw [Operation.eval_congr i fun v hv => h2 h hm v (HTerm.mem_varsList ht (HTerm.agg?_vars t (k := k) (i := i) (d := d) ha (List.mem_append_left _ hv)))]
    exact hd.agg h hm t ht k i d ha

/-! ## The rule with an atom -/

section atomRule
variable {W : Web α} {u : α} {r : WRule α} {c : QClause α}

/-- If the predicate contains the rows of the query, the rule with the atom derives what the rule with the clause derives. -/
theorem atomRule_derives (hl : ConstantsLocal r) (hp : c.positive = true) (hv : ∀ v ∈ c.vars, (equalities r).lookup v = none)
    {P N : Interp α} (hP : ∀ row, P c.pred row ↔ Rows (W c.endpoint) u c.query.pattern row) (hN : ∀ row, N c.pred row ↔ Rows (W c.endpoint) u c.query.pattern row)
    (p : Tag) (row : List α) : QDerives W u ⟨atomRule r c, []⟩ P N p row ↔ QDerives W u ⟨r, [c]⟩ P N p row := by
  have hload : ∀ J : Interp α, (∀ row, J c.pred row ↔ Rows (W c.endpoint) u c.query.pattern row) → QRule.load W u ⟨r, [c]⟩ J = J := by
    intro J hJ
    funext t x
    refine propext ⟨?_, fun h => ?_⟩
    · rintro (⟨d, hd, rfl, h⟩ | h)
      · rw [List.mem_singleton.1 hd] at h ⊢
        exact (hJ x).2 h
      · exact h.2
    · by_cases ht : c.pred = t
      · subst ht
        exact .inl ⟨c, List.mem_singleton.2 rfl, rfl, (hJ x).1 h⟩
      · refine .inr ⟨fun d hd => ?_, h⟩
        rw [List.mem_singleton.1 hd]
        exact ht
  have hload0 : ∀ J : Interp α, QRule.load W u ⟨atomRule r c, []⟩ J = J := by
    intro J
    funext t x
    exact propext ⟨fun h => by
      rcases h with ⟨d, hd, -⟩ | h
      · cases hd
      · exact h.2, fun h => .inr ⟨fun d hd => (by cases hd), h⟩⟩
  set O : SRule α := QRule.toS ⟨r, [c]⟩ with hO
  set S : SRule α := QRule.toS ⟨atomRule r c, []⟩ with hS
  have Sp : ∀ a, a ∈ S.positive ↔ a ∈ r.toS.positive ∨ a = c.toAtom := by
    intro a
    show a ∈ (atomRule r c).toS.positive ++ [] ↔ _
    rw [List.append_nil, atomRule_positive]
  have Op : ∀ a, a ∈ O.positive ↔ a ∈ r.toS.positive ∨ a = c.toAtom := by
    intro a
    rw [hO, toS_positive (r := ⟨r, [c]⟩) fun d hd => by rw [List.mem_singleton.1 hd, hp]]
    simp
  have Sn : ∀ a, a ∈ S.negative ↔ a ∈ r.toS.negative := by
    intro a
    show a ∈ (atomRule r c).toS.negative ++ [] ↔ _
    rw [List.append_nil, atomRule_negative]
  have On : O.negative = r.toS.negative := toS_negative (r := ⟨r, [c]⟩) fun d hd => by rw [List.mem_singleton.1 hd, hp]
  have So : ∀ o, o ∈ S.operations ↔ o ∈ r.toS.operations ∧ eqOf o = none := fun o => atomRule_operations hl
  have Oo : O.operations = r.toS.operations := rfl
  have hh : O.head = S.head := rfl
  have hSO : ∀ v, SSafe S v → SSafe O v := by
    intro v h
    induction h with
    | atom h1 h2 => exact .atom ((Op _).2 ((Sp _).1 h1)) h2
    | assign h1 h2 _ ih => exact .assign ((So _).1 h1).1 h2 ih
  have hSn : ∀ v, SSafe S v → (equalities r).lookup v = none := by
    intro v h
    cases h with
    | @atom a v h1 h2 =>
      rcases (Sp a).1 h1 with h1 | rfl
      · exact hl.atoms a (List.mem_append_left _ h1) v (List.mem_flatMap.2 ⟨_, h2, by simp [termVars]⟩)
      · obtain ⟨w, hw, he⟩ := List.mem_map.1 (show BTerm.var v ∈ c.vars.map BTerm.var from h2)
        cases he
        exact hv _ hw
    | @assign o e v h1 h2 _ =>
      exact hl.operations o ((So o).1 h1).1 ((So o).1 h1).2 v ((Operation.vars_assignment h2 v).2 (.inl rfl))
  have hOS : ∀ v, SSafe O v → (equalities r).lookup v = none → SSafe S v := by
    intro v h
    induction h with
    | atom h1 h2 => exact fun _ => .atom ((Sp _).2 ((Op _).1 h1)) h2
    | @assign o e v h1 h2 _ ih =>
      intro hn
      cases he : eqOf o with
      | some x =>
        have h3 := eqOf_assignment he
        rw [h2] at h3
        cases h3
        rw [hl.one o h1 x.1 x.2 he] at hn
        cases hn
      | none => exact .assign ((So o).2 ⟨h1, he⟩) h2 fun w hw => ih w hw (hl.operations o h1 he w ((Operation.vars_assignment h2 w).2 (.inr hw)))
  have hce : ∀ {o : Operation α} {v : Variable} {a : α} {σ : Variable → α}, eqOf o = some (v, a) → (o.eval σ = some Dom.tru ↔ σ v = a) := by
    intro o v a σ h
    rw [Operation.eval_assignment (eqOf_assignment h)]
    exact ⟨fun h => (Option.some.inj h).symm, fun h => congrArg some h.symm⟩
  have hvar : ∀ {o : Operation α} {v : Variable} {a : α}, eqOf o = some (v, a) → ∀ w ∈ o.vars, w = v := by
    intro o v a h w hw
    rcases (Operation.vars_assignment (eqOf_assignment h) w).1 hw with h | h
    · exact h
    · cases h
  have hOeq : ∀ {v a}, (equalities r).lookup v = some a → SSafe O v := fun h => safe_of_constant Oo h
  have key : ∀ J : Interp α, SDerivesWith O (SBody O J N) p row ↔ SDerivesWith S (SBody S J N) p row := by
    intro J
    refine derivesWith_congr hh (fun σ hb => ?_) (fun σ hb => ?_) p row
    · have hσ : ∀ v a, (equalities r).lookup v = some a → σ v = a := fun v a h => value_of_constant Oo hb h
      refine ⟨fun a ha => hb.pos a ((Op a).2 ((Sp a).1 ha)), fun o ho h => hb.ops o ((So o).1 ho).1 fun v hv => hSO v (h v hv), fun a ha => ?_,
        ⟨fun a ha => hb.defined.neg a (On ▸ (Sn a).1 ha), hb.defined.head, hb.defined.agg⟩⟩
      rintro ⟨τ, x, h1, h2, h3, h4⟩
      have ha' : a ∈ r.toS.negative := (Sn a).1 ha
      have hloc := hl.atoms a (List.mem_append_right _ ha')
      refine hb.neg a (On ▸ ha') ⟨fun v => if ((equalities r).lookup v).isSome then σ v else τ v, x, fun v hv => ?_, h2, ?_, fun o ho h => ?_⟩
      · cases hn : (equalities r).lookup v with
        | some b => simp only [hn, Option.isSome_some, if_true]
        | none => simpa only [hn, Option.isSome_none, Bool.false_eq_true, if_false] using h1 v (hOS v hv hn)
      · refine atom_congr (fun v hv => ?_) h3
        rw [hloc v hv]
        simp
      · cases he : eqOf o with
        | some y =>
          rw [hce (a := y.2) (v := y.1) he]
          have := hl.one o ho y.1 y.2 he
          simp only [this, Option.isSome_some, if_true]
          exact hσ _ _ this
        | none =>
          have hloc' := hl.operations o ho he
          rw [Operation.eval_congr (τ := τ) o fun v hv => by rw [hloc' v hv]; simp]
          exact h4 o ((So o).2 ⟨ho, he⟩) fun v hv => (h v hv).imp (fun h => hOS v h (hloc' v hv)) id
    · set σ' : Variable → α := fun v => ((equalities r).lookup v).getD (σ v) with hσ'
      have hnone : ∀ v, (equalities r).lookup v = none → σ' v = σ v := fun v h => by rw [hσ']; simp only [h, Option.getD_none]
      refine ⟨σ', fun h hm v hv => hnone v (hl.head h hm v hv), fun a ha => ?_, fun o ho h => ?_, fun a ha => ?_, ?_⟩
      · obtain ⟨x, h1, h2⟩ := hb.pos a ((Sp a).2 ((Op a).1 ha))
        refine ⟨x, h1, ?_⟩
        rcases (Op a).1 ha with ha | rfl
        · exact atom_congr (fun v hv => hnone v (hl.atoms a (List.mem_append_left _ ha) v hv)) h2
        · refine atom_congr (fun v hv' => hnone v (hv v ?_)) h2
          obtain ⟨t, ht, hvt⟩ := List.mem_flatMap.1 hv'
          obtain ⟨w, hw, rfl⟩ := List.mem_map.1 (show t ∈ c.vars.map BTerm.var from ht)
          simp only [termVars, List.mem_singleton] at hvt
          exact hvt ▸ hw
      · cases he : eqOf o with
        | some y =>
          rw [hce (a := y.2) (v := y.1) he, hσ']
          simp only [hl.one o ho y.1 y.2 he, Option.getD_some]
        | none =>
          have hloc := hl.operations o ho he
          rw [Operation.eval_congr (τ := σ) o fun v hv => hnone v (hloc v hv)]
          exact hb.ops o ((So o).2 ⟨ho, he⟩) fun v hv => hOS v (h v hv) (hloc v hv)
      · rintro ⟨τ, x, h1, h2, h3, h4⟩
        refine hb.neg a ((Sn a).2 (On ▸ ha)) ⟨τ, x, fun v hv => ?_, h2, h3, fun o ho h => ?_⟩
        · rw [h1 v (hSO v hv), hnone v (hSn v hv)]
        · exact h4 o ((So o).1 ho).1 fun v hv => (h v hv).imp (hSO v) id
      · exact defined_congr (S := S) (S' := O) hh (fun a ha => (Sn a).2 (On ▸ ha))
          (fun a ha v hv => hnone v (hl.atoms a (List.mem_append_right _ ((Sn a).1 ha)) v hv)) (fun h hm v hv => hnone v (hl.head h hm v hv)) hb.defined
  unfold QDerives
  rw [hload P hP, hload N hN, hload0, hload0]
  exact or_congr (and_congr Iff.rfl (key P).symm) (and_congr Iff.rfl (key N).symm)

end atomRule
end Verif.Sq
