import Verif.Flatten

/-!
# Flattening of rules does not change what they derive (C58)
-/

set_option linter.unusedSimpArgs false
set_option linter.unusedSectionVars false

namespace Verif
variable {α : Type} [DecidableEq α] [Dom α]

/-! ## Variables of a rule -/

theorem SRule.mem_vars_var {S : SRule α} {a : SAtom α} (ha : a ∈ S.positive ++ S.negative) {v : Variable} (hv : .var v ∈ a.terms) :
    v ∈ S.vars :=
  List.mem_append_left _ (List.mem_append_left _ (List.mem_flatMap.2 ⟨a, ha, List.mem_flatMap.2 ⟨_, hv, by simp⟩⟩))

theorem SRule.mem_vars_oper {S : SRule α} {a : SAtom α} (ha : a ∈ S.positive ++ S.negative) {o : Operation α} (ho : .oper o ∈ a.terms)
    {v : Variable} (hv : v ∈ o.vars) : v ∈ S.vars :=
  List.mem_append_left _ (List.mem_append_left _ (List.mem_flatMap.2 ⟨a, ha, List.mem_flatMap.2 ⟨_, ho, by simpa using hv⟩⟩))

theorem SRule.mem_vars_op {S : SRule α} {o : Operation α} (ho : o ∈ S.operations) {v : Variable} (hv : v ∈ o.vars) : v ∈ S.vars :=
  List.mem_append_left _ (List.mem_append_right _ (List.mem_flatMap.2 ⟨o, ho, hv⟩))

theorem SRule.mem_vars_head {S : SRule α} {h : SHead α} (hh : h ∈ S.head) {v : Variable} (hv : v ∈ HTerm.varsList h.terms) : v ∈ S.vars :=
  List.mem_append_right _ (List.mem_flatMap.2 ⟨h, hh, hv⟩)

theorem matches_congr {ts : List (BTerm α)} {σ τ : Variable → α} (h1 : ∀ v, .var v ∈ ts → τ v = σ v)
    (h2 : ∀ o, .oper o ∈ ts → ∀ v ∈ o.vars, τ v = σ v) {row : List α} (hm : List.Forall₂ (BTerm.Matches σ) ts row) :
    List.Forall₂ (BTerm.Matches τ) ts row := by
  induction hm with
  | nil => exact .nil
  | @cons t b ts row ht _ ih =>
    refine .cons ?_ (ih (fun v hv => h1 v (.tail _ hv)) fun o ho => h2 o (.tail _ ho))
    cases t with
    | var v => exact (h1 v (.head _)).trans ht
    | anon => trivial
    | const a => exact ht
    | oper o => exact (Operation.eval_congr o (h2 o (.head _))).trans ht

/-! ## Atoms -/

/-- If the equalities are true, a row that matches the new atom matches the atom. -/
theorem flatTerms_sound (ts : List (BTerm α)) (g : Nat) (σ : Variable → α)
    (he : ∀ x ∈ (flatTerms ts g).2.1, x.2.eval σ = some (σ x.1)) {row : List α}
    (hm : List.Forall₂ (BTerm.Matches σ) (flatTerms ts g).1 row) : List.Forall₂ (BTerm.Matches σ) ts row := by
  induction ts generalizing g row with
  | nil => exact hm
  | cons t ts ih =>
    cases t with
    | var v => cases hm with | cons h1 h2 => exact .cons h1 (ih g he h2)
    | anon => cases hm with | cons h1 h2 => exact .cons h1 (ih g he h2)
    | const a =>
      cases hm with
      | cons h1 h2 =>
        refine .cons ?_ (ih (g + 1) (fun x hx => he x (.tail _ hx)) h2)
        have := he _ (.head _)
        exact (Option.some.inj this).trans h1
    | oper o =>
      cases hm with
      | cons h1 h2 =>
        refine .cons ?_ (ih (g + 1) (fun x hx => he x (.tail _ hx)) h2)
        have := he _ (.head _)
        exact this.trans (congrArg some h1)

/-- If a row matches the atom, the terms of the equalities have values. -/
theorem flatTerms_defined (ts : List (BTerm α)) (g : Nat) (σ : Variable → α) {row : List α}
    (hm : List.Forall₂ (BTerm.Matches σ) ts row) {x : Variable × Operation α} (hx : x ∈ (flatTerms ts g).2.1) :
    ∃ b, x.2.eval σ = some b := by
  induction ts generalizing g row with
  | nil => simp [flatTerms] at hx
  | cons t ts ih =>
    cases hm with
    | @cons _ b _ _ h1 h2 =>
      cases t with
      | var v => exact ih g h2 hx
      | anon => exact ih g h2 hx
      | const a =>
        simp only [flatTerms, List.mem_cons] at hx
        rcases hx with rfl | hx
        · exact ⟨a, rfl⟩
        · exact ih _ h2 hx
      | oper o =>
        simp only [flatTerms, List.mem_cons] at hx
        rcases hx with rfl | hx
        · exact ⟨b, h1⟩
        · exact ih _ h2 hx

/-- If the new variables have the values of the terms, a row that matches the atom matches the new atom. -/
theorem flatTerms_complete (ts : List (BTerm α)) (g : Nat) (σ σ' : Variable → α) (hv : ∀ v, .var v ∈ ts → σ' v = σ v)
    (he : ∀ x ∈ (flatTerms ts g).2.1, ∀ b, x.2.eval σ = some b → σ' x.1 = b) {row : List α}
    (hm : List.Forall₂ (BTerm.Matches σ) ts row) : List.Forall₂ (BTerm.Matches σ') (flatTerms ts g).1 row := by
  induction ts generalizing g row with
  | nil => cases hm; exact .nil
  | cons t ts ih =>
    have hv' : ∀ v, .var v ∈ ts → σ' v = σ v := fun v h => hv v (.tail _ h)
    cases hm with
    | cons h1 h2 =>
      cases t with
      | var v => exact .cons ((hv v (.head _)).trans h1) (ih g hv' he h2)
      | anon => exact .cons trivial (ih g hv' he h2)
      | const a => exact .cons (he _ (.head _) _ (congrArg some h1)) (ih _ hv' (fun x hx => he x (.tail _ hx)) h2)
      | oper o => exact .cons (he _ (.head _) _ h1) (ih _ hv' (fun x hx => he x (.tail _ hx)) h2)

/-! ## Bodies -/

section rule
variable {r : WRule α} {g : Nat}

theorem flat_head : (flatRule r g).1.toS.head = r.toS.head := rfl
theorem flat_negative : (flatRule r g).1.toS.negative = r.toS.negative := flatBody_negative _ _
theorem mem_flat_negative {a : SAtom α} : a ∈ (flatRule r g).1.toS.negative ↔ a ∈ r.toS.negative := by rw [flat_negative]
theorem flat_hasAgg : (flatRule r g).1.toS.HasAgg ↔ r.toS.HasAgg := Iff.rfl
theorem flat_hasEx : (flatRule r g).1.toS.HasEx ↔ r.toS.HasEx := Iff.rfl

theorem mem_flat_positive {x : SAtom α} : x ∈ (flatRule r g).1.toS.positive ↔
    ∃ a k, FlatAt r.body g a k ∧ x = ⟨a.pred, (flatTerms a.terms k).1⟩ := mem_flatBody_positive _ _ _

theorem mem_flat_operations {o : Operation α} : o ∈ (flatRule r g).1.toS.operations ↔ o ∈ r.toS.operations ∨
    ∃ a k, FlatAt r.body g a k ∧ ∃ x ∈ (flatTerms a.terms k).2.1, o = equality x := mem_flatBody_operation _ _ _

/-- The variable is one of the new variables, and it stands for the term. -/
def StandsFor (r : WRule α) (g : Nat) (v : Variable) (o : Operation α) : Prop :=
  ∃ a k, FlatAt r.body g a k ∧ (v, o) ∈ (flatTerms a.terms k).2.1

theorem StandsFor.tmp {v : Variable} {o : Operation α} (h : StandsFor r g v o) : ∃ k, v = tmpVar k := by
  obtain ⟨a, k, -, h⟩ := h
  obtain ⟨i, h, -⟩ := flatTerms_range _ _ h
  exact ⟨i, h⟩

theorem StandsFor.unique {v : Variable} {o o' : Operation α} (h : StandsFor r g v o) (h' : StandsFor r g v o') : o = o' := by
  obtain ⟨a, k, h1, h2⟩ := h
  obtain ⟨a', k', h1', h2'⟩ := h'
  exact h1.unique h1' h2 h2'

theorem StandsFor.op {v : Variable} {o : Operation α} (h : StandsFor r g v o) : .equal (.var v) o ∈ (flatRule r g).1.toS.operations := by
  obtain ⟨a, k, h1, h2⟩ := h
  exact mem_flat_operations.2 (.inr ⟨a, k, h1, _, h2, rfl⟩)

theorem StandsFor.safe {v : Variable} {o : Operation α} (h : StandsFor r g v o) : SSafe (flatRule r g).1.toS v := by
  obtain ⟨a, k, h1, h2⟩ := h
  exact .atom (mem_flat_positive.2 ⟨a, k, h1, rfl⟩) ((mem_flatTerms_var _ _ _).2 (.inr ⟨o, h2⟩))

/-- The term is a term of a positive atom. -/
theorem StandsFor.vars {v : Variable} {o : Operation α} (h : StandsFor r g v o) {w : Variable} (hw : w ∈ o.vars) :
    ∃ a ∈ r.toS.positive, .oper o ∈ a.terms := by
  obtain ⟨a, k, h1, h2⟩ := h
  rcases flatTerms_origin _ _ h2 with ⟨c, -, h3⟩ | h3
  · simp only at h3; subst h3; simp [Operation.vars] at hw
  · exact ⟨a, h1.mem, h3⟩

theorem flat_safe {v : Variable} (h : SSafe r.toS v) : SSafe (flatRule r g).1.toS v := by
  induction h with
  | atom ha hv =>
    obtain ⟨k, hk⟩ := exists_flatAt g ha
    exact .atom (mem_flat_positive.2 ⟨_, k, hk, rfl⟩) ((mem_flatTerms_var _ _ _).2 (.inl hv))
  | assign ho he _ ih => exact .assign (mem_flat_operations.2 (.inl ho)) he ih

theorem safe_of_flat (hu : ∀ v ∈ r.toS.vars, v.Plain) {v : Variable} (h : SSafe (flatRule r g).1.toS v) : SSafe r.toS v ∨ ∃ o, StandsFor r g v o := by
  induction h with
  | @atom x v ha hv =>
    obtain ⟨a, k, h1, rfl⟩ := mem_flat_positive.1 ha
    rcases (mem_flatTerms_var _ _ _).1 hv with h | ⟨o, h⟩
    · exact .inl (.atom h1.mem h)
    · exact .inr ⟨o, a, k, h1, h⟩
  | @assign o e v ho he _ ih =>
    rcases mem_flat_operations.1 ho with h | ⟨a, k, h1, x, h2, rfl⟩
    · refine .inl (.assign h he fun w hw => ?_)
      rcases ih w hw with h' | ⟨o', h'⟩
      · exact h'
      · obtain ⟨i, rfl⟩ := h'.tmp
        exact absurd rfl (hu _ (SRule.mem_vars_op h ((assignment_vars he).2 _ hw)) i)
    · have : v = x.1 := by
        simp only [equality, Operation.variableAssignment, Option.some.injEq, Prod.mk.injEq] at he
        exact he.1.symm
      exact .inr ⟨x.2, a, k, h1, by rw [this]; exact h2⟩

/-- Flattening does not change which of the variables of the rule get a value. -/
theorem flat_safe_iff (hu : ∀ v ∈ r.toS.vars, v.Plain) {v : Variable} (hv : v.Plain) : SSafe (flatRule r g).1.toS v ↔ SSafe r.toS v := by
  refine ⟨fun h => ?_, flat_safe⟩
  rcases safe_of_flat hu h with h | ⟨o, h⟩
  · exact h
  · obtain ⟨k, rfl⟩ := h.tmp
    exact absurd rfl (hv k)

variable (hu : ∀ v ∈ r.toS.vars, v.Plain)
  (hs : ∀ a ∈ r.toS.positive, ∀ o, .oper o ∈ a.terms → ∀ v ∈ o.vars, SSafe r.toS v)
include hu hs

/-- If the new body holds, the body holds. -/
theorem body_of_flat {P N : Interp α} {σ : Variable → α} (h : SBody (flatRule r g).1.toS P N σ) : SBody r.toS P N σ := by
  have heq : ∀ v o, StandsFor r g v o → o.eval σ = some (σ v) := by
    intro v o hv
    refine (eval_assign σ v o).1 (h.ops _ hv.op fun w hw => ?_)
    simp only [Operation.vars, List.mem_append, List.mem_singleton] at hw
    rcases hw with rfl | hw
    · exact hv.safe
    · obtain ⟨a, ha, ho⟩ := hv.vars hw
      exact flat_safe (hs a ha o ho w hw)
  refine ⟨fun a ha => ?_, fun o ho hv => h.ops o (mem_flat_operations.2 (.inl ho)) fun v hv' => flat_safe (hv v hv'),
    fun a ha => ?_, ⟨fun a ha => h.defined.neg a (mem_flat_negative.2 ha), h.defined.head, h.defined.agg⟩⟩
  · obtain ⟨k, hk⟩ := exists_flatAt g ha
    obtain ⟨row, h1, h2⟩ := h.pos _ (mem_flat_positive.2 ⟨a, k, hk, rfl⟩)
    exact ⟨row, h1, flatTerms_sound _ _ σ (fun x hx => heq x.1 x.2 ⟨a, k, hk, hx⟩) h2⟩
  · rintro ⟨τ, row, h1, h2, h3, h4⟩
    classical
    refine h.neg a (mem_flat_negative.2 ha) ⟨fun v => if SSafe (flatRule r g).1.toS v then σ v else τ v, row, fun v hv => if_pos hv, h2, ?_, ?_⟩
    · have key : ∀ v ∈ r.toS.vars, (if SSafe (flatRule r g).1.toS v then σ v else τ v) = τ v := by
        intro v hv
        split
        · rename_i hc
          exact (h1 v ((flat_safe_iff hu (hu v hv)).1 hc)).symm
        · rfl
      exact matches_congr (fun v hv => key v (SRule.mem_vars_var (List.mem_append_right _ ha) hv))
        (fun o ho v hv => key v (SRule.mem_vars_oper (List.mem_append_right _ ha) ho hv)) h3
    · intro o ho hv
      by_cases hall : ∀ v ∈ o.vars, SSafe (flatRule r g).1.toS v
      · rw [Operation.eval_congr o (fun v hv' => if_pos (hall v hv') : ∀ v ∈ o.vars, (if SSafe (flatRule r g).1.toS v then σ v else τ v) = σ v)]
        exact h.ops o ho hall
      · rcases mem_flat_operations.1 ho with ho | ⟨b, k, g1, x, g2, rfl⟩
        · have key : ∀ v ∈ o.vars, (if SSafe (flatRule r g).1.toS v then σ v else τ v) = τ v := by
            intro v hv
            split
            · rename_i hc
              exact (h1 v ((flat_safe_iff hu (hu v (SRule.mem_vars_op ho hv))).1 hc)).symm
            · rfl
          rw [Operation.eval_congr o key]
          exact h4 o ho fun v hv' => (hv v hv').imp (flat_safe_iff hu (hu v (SRule.mem_vars_op ho hv'))).1 id
        · refine absurd (fun v hv => ?_) hall
          simp only [equality, Operation.vars, List.mem_append, List.mem_singleton] at hv
          have hx : StandsFor r g x.1 x.2 := ⟨b, k, g1, g2⟩
          rcases hv with rfl | hv
          · exact hx.safe
          · obtain ⟨a, ha, ho⟩ := hx.vars hv
            exact flat_safe (hs a ha _ ho v hv)

/-- If the body holds, the new body holds for suitable values of the new variables. -/
theorem flat_of_body {P N : Interp α} {σ : Variable → α} (h : SBody r.toS P N σ) :
    ∃ σ', (∀ v, v.Plain → σ' v = σ v) ∧ SBody (flatRule r g).1.toS P N σ' := by
  classical
  let σ' : Variable → α := fun v => if hv : ∃ b o, StandsFor r g v o ∧ o.eval σ = some b then hv.choose else σ v
  have hplain : ∀ v, v.Plain → σ' v = σ v := by
    intro v hv
    refine dif_neg ?_
    rintro ⟨b, o, h1, -⟩
    obtain ⟨k, rfl⟩ := h1.tmp
    exact hv k rfl
  have hval : ∀ v o b, StandsFor r g v o → o.eval σ = some b → σ' v = b := by
    intro v o b h1 h2
    have hex : ∃ b o, StandsFor r g v o ∧ o.eval σ = some b := ⟨b, o, h1, h2⟩
    have e : σ' v = hex.choose := dif_pos hex
    obtain ⟨o', h3, h4⟩ := hex.choose_spec
    rw [e]
    rw [h3.unique h1, h2] at h4
    exact (Option.some.inj h4).symm
  have hvar : ∀ v ∈ r.toS.vars, σ' v = σ v := fun v hv => hplain v (hu v hv)
  refine ⟨σ', hplain, ⟨fun x hx => ?_, fun o ho hv => ?_, fun a ha => ?_, ?_⟩⟩
  · obtain ⟨a, k, h1, rfl⟩ := mem_flat_positive.1 hx
    obtain ⟨row, h2, h3⟩ := h.pos a h1.mem
    exact ⟨row, h2, flatTerms_complete _ _ σ σ' (fun v hv => hvar v (SRule.mem_vars_var (List.mem_append_left _ h1.mem) hv))
      (fun x hx b hb => hval x.1 x.2 b ⟨a, k, h1, hx⟩ hb) h3⟩
  · rcases mem_flat_operations.1 ho with ho | ⟨a, k, h1, x, h2, rfl⟩
    · rw [Operation.eval_congr o fun v hv' => hvar v (SRule.mem_vars_op ho hv')]
      exact h.ops o ho fun v hv' => (flat_safe_iff hu (hu v (SRule.mem_vars_op ho hv'))).1 (hv v hv')
    · have hx : StandsFor r g x.1 x.2 := ⟨a, k, h1, h2⟩
      obtain ⟨row, -, h3⟩ := h.pos a h1.mem
      obtain ⟨b, hb⟩ := flatTerms_defined _ _ σ h3 h2
      refine (eval_assign σ' x.1 x.2).2 ?_
      rw [hval _ _ b hx hb, ← hb]
      refine Operation.eval_congr _ fun v hv' => ?_
      obtain ⟨a', ha', ho'⟩ := hx.vars hv'
      exact hvar v (SRule.mem_vars_oper (List.mem_append_left _ ha') ho' hv')
  · rw [flat_negative] at ha
    rintro ⟨τ, row, h1, h2, h3, h4⟩
    refine h.neg a ha ⟨τ, row, fun v hv => ?_, h2, h3, fun o ho hv => h4 o (mem_flat_operations.2 (.inl ho)) fun v hv' =>
      (hv v hv').imp flat_safe id⟩
    rw [h1 v (flat_safe hv)]
    refine hplain v ?_
    cases hv with
    | atom ha hv => exact hu _ (SRule.mem_vars_var (List.mem_append_left _ ha) hv)
    | assign ho he _ => exact hu _ (SRule.mem_vars_op ho (assignment_vars he).1)
  · refine ⟨fun a ha o ho => ?_, fun x hx t ht hc y => ?_, fun x hx t ht k i d hk => ?_⟩
    · rw [flat_negative] at ha
      rw [Operation.eval_congr o fun v hv => hvar v (SRule.mem_vars_oper (List.mem_append_right _ ha) ho hv)]
      exact h.defined.neg a ha o ho
    · rw [HTerm.value_congr y t fun v hv => hvar v (SRule.mem_vars_head (S := r.toS) hx (HTerm.mem_varsList ht (HTerm.outerVars_sub t hv)))]
      exact h.defined.head x hx t ht hc y
    · rw [Operation.eval_congr i fun v hv => hvar v (SRule.mem_vars_head (S := r.toS) hx (HTerm.mem_varsList ht
        (HTerm.agg?_vars t hk (List.mem_append_left _ hv))))]
      exact h.defined.agg x hx t ht k i d hk

omit hu hs in
/-- Suppose that the heads of two rules agree, and so do the valuations for which they are applicable, up to variables that do not occur in
the head.  Then the rules derive the same. -/
theorem derivesWith_congr {S S' : SRule α} (hh : S'.head = S.head) {B B' : (Variable → α) → Prop} (h1 : ∀ σ, B' σ → B σ)
    (h2 : ∀ σ, B σ → ∃ σ', (∀ h ∈ S.head, ∀ v ∈ HTerm.varsList h.terms, σ' v = σ v) ∧ B' σ') (p : Tag) (row : List α) :
    SDerivesWith S' B' p row ↔ SDerivesWith S B p row := by
  have hval : ∀ {σ σ' : Variable → α} {h : SHead α}, h ∈ S.head → (∀ h ∈ S.head, ∀ v ∈ HTerm.varsList h.terms, σ' v = σ v) → ∀ t ∈ h.terms,
      ∀ x, t.value σ' x = t.value σ x := fun hh ha t ht x =>
    HTerm.value_congr x t fun v hv => ha _ hh v (HTerm.mem_varsList ht (HTerm.outerVars_sub t hv))
  have hgrp : ∀ {τ τ' ρ ρ' : Variable → α} {h : SHead α}, h ∈ S.head → (∀ h ∈ S.head, ∀ v ∈ HTerm.varsList h.terms, ρ v = τ v) →
      (∀ h ∈ S.head, ∀ v ∈ HTerm.varsList h.terms, ρ' v = τ' v) → SameGroup h τ τ' → SameGroup h ρ ρ' := by
    intro τ τ' ρ ρ' h hh h1 h2 hg t ht
    refine ⟨fun hc x => ?_, fun hc v hv => ?_⟩
    · rw [hval hh h1 t ht, hval hh h2 t ht]
      exact (hg t ht).1 hc x
    · rw [h1 _ hh v (HTerm.mem_varsList ht (HTerm.outerVars_sub t hv)), h2 _ hh v (HTerm.mem_varsList ht (HTerm.outerVars_sub t hv))]
      exact (hg t ht).2 hc v hv
  have hrow : ∀ {σ σ' : Variable → α} {h : SHead α} {x : α} {row : List α}, h ∈ S.head →
      (∀ h ∈ S.head, ∀ v ∈ HTerm.varsList h.terms, σ' v = σ v) → List.Forall₂ (fun t b => t.value σ x = some b) h.terms row →
      List.Forall₂ (fun t b => t.value σ' x = some b) h.terms row := by
    intro σ σ' h x row hh ha hr
    rw [List.forall₂_iff_get] at hr ⊢
    refine ⟨hr.1, fun i hi hi' => ?_⟩
    rw [hval hh ha _ (List.get_mem _ _)]
    exact hr.2 i hi hi'
  constructor
  · intro h
    cases h with
    | @plain σ h row hb hm hc hr => exact .plain (h1 _ hb) (hh ▸ hm) hc hr
    | @agg τ h t k i d l x row hb hm ht hk hl hx hr =>
      rw [hh] at hm
      refine .agg (h1 _ hb) hm ht hk (fun y => (hl y).trans ?_) hx hr
      constructor
      · rintro ⟨τ', b, g1, g2, g3, g4⟩
        exact ⟨τ', b, h1 _ g1, g2, g3, g4⟩
      · rintro ⟨τ', b, g1, g2, g3, g4⟩
        obtain ⟨ρ, k1, k2⟩ := h2 _ g1
        have hin : ∀ v ∈ i.vars ++ d, ρ v = τ' v := fun v hv => k1 h hm v (HTerm.mem_varsList ht (HTerm.agg?_vars t hk hv))
        refine ⟨ρ, b, k2, hgrp hm k1 (fun _ _ _ _ => rfl) g2, ?_, ?_⟩
        · rw [Operation.eval_congr i fun v hv => hin v (List.mem_append_left _ hv)]; exact g3
        · rw [g4, List.map_congr_left fun v hv => hin v (List.mem_append_right _ hv)]
  · intro h
    cases h with
    | @plain σ h row hb hm hc hr =>
      obtain ⟨σ', k1, k2⟩ := h2 _ hb
      exact .plain k2 (hh ▸ hm) hc fun x => hrow hm k1 (hr x)
    | @agg τ h t k i d l x row hb hm ht hk hl hx hr =>
      obtain ⟨ρ, k1, k2⟩ := h2 _ hb
      refine .agg k2 (hh ▸ hm) ht hk (fun y => (hl y).trans ?_) hx (hrow hm k1 hr)
      constructor
      · rintro ⟨τ', b, g1, g2, g3, g4⟩
        obtain ⟨ρ', k1', k2'⟩ := h2 _ g1
        have hin : ∀ v ∈ i.vars ++ d, ρ' v = τ' v := fun v hv => k1' h hm v (HTerm.mem_varsList ht (HTerm.agg?_vars t hk hv))
        refine ⟨ρ', b, k2', hgrp hm k1' k1 g2, ?_, ?_⟩
        · rw [Operation.eval_congr i fun v hv => hin v (List.mem_append_left _ hv)]; exact g3
        · rw [g4, List.map_congr_left fun v hv => hin v (List.mem_append_right _ hv)]
      · rintro ⟨τ', b, g1, g2, g3, g4⟩
        exact ⟨τ', b, h1 _ g1, hgrp hm (fun _ _ _ _ => rfl) (fun h hh v hv => (k1 h hh v hv).symm) g2, g3, g4⟩

/-- **C58.  Flattening a rule does not change what it derives.** -/
theorem flat_derives (P N : Interp α) (p : Tag) (row : List α) : SDerives (flatRule r g).1.toS P N p row ↔ SDerives r.toS P N p row := by
  have key : ∀ P N, SDerivesWith (flatRule r g).1.toS (SBody (flatRule r g).1.toS P N) p row ↔ SDerivesWith r.toS (SBody r.toS P N) p row :=
    fun P N => derivesWith_congr flat_head (fun σ h => body_of_flat hu hs h) (fun σ h => by
      obtain ⟨σ', h1, h2⟩ := flat_of_body (g := g) hu hs h
      exact ⟨σ', fun x hx v hv => h1 v (hu v (SRule.mem_vars_head hx hv)), h2⟩) p row
  exact or_congr (and_congr Iff.rfl (key P N)) (and_congr Iff.rfl (key N N))

omit hu hs in
/-- Flattening keeps the conditions on rules. -/
theorem flat_valid (hV : SValid r.toS) : SValid (flatRule r g).1.toS := by
  have hpos : ∀ x ∈ (flatRule r g).1.toS.positive, ∀ t ∈ x.terms, t = .anon ∨ ∃ v, t = .var v ∧ ¬ v.Reserved := by
    intro x hx t ht
    obtain ⟨a, k, h1, rfl⟩ := mem_flat_positive.1 hx
    rcases flatTerms_simple _ _ ht with rfl | ⟨v, rfl⟩
    · exact .inl rfl
    · refine .inr ⟨v, rfl, ?_⟩
      rcases (mem_flatTerms_var _ _ _).1 ht with h | ⟨o, h⟩
      · exact hV.user v (SRule.mem_vars_var (List.mem_append_left _ h1.mem) h)
      · obtain ⟨i, h, -⟩ := flatTerms_range _ _ h
        rw [show v = _ from h]
        exact tmpVar_not_reserved i
  refine ⟨fun v hv => ?_, fun a ha o ho v hv => ?_, fun o ho => ?_, fun h hh v hv he => flat_safe (hV.headSafe h hh v hv he), hV.headPlain,
    hV.oneAggAtom, hV.oneAgg, hV.aggUniversal, ?_⟩
  · simp only [SRule.vars, List.mem_append, List.mem_flatMap] at hv
    rcases hv with (⟨a, ha | ha, t, ht, hv⟩ | ⟨o, ho, hv⟩) | ⟨h, hh, hv⟩
    · rcases hpos a ha t ht with rfl | ⟨w, rfl, hw⟩
      · simp at hv
      · simp only [List.mem_singleton] at hv
        subst hv; exact hw
    · rw [flat_negative] at ha
      refine hV.user v ?_
      simp only [SRule.vars, List.mem_append, List.mem_flatMap]
      exact .inl (.inl ⟨a, .inr ha, t, ht, hv⟩)
    · rcases mem_flat_operations.1 ho with ho | ⟨a, k, h1, x, h2, rfl⟩
      · exact hV.user v (SRule.mem_vars_op ho hv)
      · simp only [equality, Operation.vars, List.mem_append, List.mem_singleton] at hv
        have hx : StandsFor r g x.1 x.2 := ⟨a, k, h1, h2⟩
        rcases hv with rfl | hv
        · obtain ⟨i, h⟩ := hx.tmp
          rw [h]; exact tmpVar_not_reserved i
        · obtain ⟨a', ha', ho'⟩ := hx.vars hv
          exact hV.user v (SRule.mem_vars_oper (List.mem_append_left _ ha') ho' hv)
    · exact hV.user v (SRule.mem_vars_head (S := r.toS) hh hv)
  · rcases List.mem_append.1 ha with ha | ha
    · rcases hpos a ha _ ho with h | ⟨w, h, -⟩ <;> cases h
    · rw [flat_negative] at ha
      exact flat_safe (hV.operSafe a (List.mem_append_right _ ha) o ho v hv)
  · rcases mem_flat_operations.1 ho with ho | ⟨a, k, h1, x, h2, rfl⟩
    · rcases hV.opsScoped o ho with h | ⟨a, ha, h⟩
      · exact .inl fun v hv => flat_safe (h v hv)
      · exact .inr ⟨a, mem_flat_negative.2 ha, fun v hv => (h v hv).imp flat_safe id⟩
    · refine .inl fun v hv => ?_
      simp only [equality, Operation.vars, List.mem_append, List.mem_singleton] at hv
      have hx : StandsFor r g x.1 x.2 := ⟨a, k, h1, h2⟩
      rcases hv with rfl | hv
      · exact hx.safe
      · obtain ⟨a', ha', ho'⟩ := hx.vars hv
        exact flat_safe (hV.operSafe a' (List.mem_append_left _ ha') _ ho' v hv)
  · rw [flat_negative]
    exact hV.negDisjoint.imp fun h v h1 h2 => flat_safe (h v h1 h2)

theorem flat_bodyOK {arity : Tag → Nat} (h : SBodyOK r.toS arity) : SBodyOK (flatRule r g).1.toS arity := by
  refine ⟨fun a ha => ?_, fun a ha => ?_, fun a ha o ho hv => ?_⟩
  · rcases List.mem_append.1 ha with ha | ha
    · obtain ⟨b, k, h1, rfl⟩ := mem_flat_positive.1 ha
      exact (flatTerms_length _ _).trans (h.bodyArity b (List.mem_append_left _ h1.mem))
    · exact h.bodyArity a (List.mem_append_right _ (mem_flat_negative.1 ha))
  · rcases h.negShared a (mem_flat_negative.1 ha) with ⟨v, h1, h2⟩ | h1 | h1
    · exact .inl ⟨v, h1, flat_safe h2⟩
    · exact .inr (.inl h1)
    · exact .inr (.inr h1)
  · rw [flat_negative] at ha
    rcases mem_flat_operations.1 ho with ho | ⟨b, k, h1, x, h2, rfl⟩
    · refine (h.negLocal a ha o ho fun v hv' => (hv v hv').imp (flat_safe_iff hu (hu v (SRule.mem_vars_op ho hv'))).1 id).imp
        (fun h v hv => flat_safe (h v hv)) id
    · refine .inl fun v hv => ?_
      simp only [equality, Operation.vars, List.mem_append, List.mem_singleton] at hv
      have hx : StandsFor r g x.1 x.2 := ⟨b, k, h1, h2⟩
      rcases hv with rfl | hv
      · exact hx.safe
      · obtain ⟨a', ha', ho'⟩ := hx.vars hv
        exact flat_safe (hs a' ha' _ ho' v hv)

theorem flat_ruleOK {arity : Tag → Nat} (h : SRuleOK r.toS arity) : SRuleOK (flatRule r g).1.toS arity := by
  have := flat_bodyOK (g := g) hu hs h.body
  exact ⟨this.bodyArity, h.headArity, h.universal, this.negShared, this.negLocal⟩

omit hu hs in
theorem flat_noNulls (h : SNoNulls r.toS) : SNoNulls (flatRule r g).1.toS := by
  have hpos : ∀ x ∈ (flatRule r g).1.toS.positive, ∀ t ∈ x.terms, t = .anon ∨ ∃ v, t = .var v := by
    intro x hx t ht
    obtain ⟨a, k, h1, rfl⟩ := mem_flat_positive.1 hx
    exact flatTerms_simple _ _ ht
  refine ⟨fun o ho c hc => ?_, fun a ha c hc => ?_, fun a ha o ho => ?_, h.head, h.agg⟩
  · rcases mem_flat_operations.1 ho with ho | ⟨a, k, h1, x, h2, rfl⟩
    · exact h.ops o ho c hc
    · simp only [equality, Operation.consts, List.nil_append] at hc
      rcases flatTerms_origin _ _ h2 with ⟨b, h3, h4⟩ | h3
      · rw [h4] at hc
        simp only [Operation.consts, List.mem_singleton] at hc
        subst hc
        exact h.const a (List.mem_append_left _ h1.mem) _ h3
      · exact h.oper a (List.mem_append_left _ h1.mem) _ h3 c hc
  · rcases List.mem_append.1 ha with ha | ha
    · rcases hpos a ha _ hc with h | ⟨w, h⟩ <;> cases h
    · exact h.const a (List.mem_append_right _ (mem_flat_negative.1 ha)) c hc
  · rcases List.mem_append.1 ha with ha | ha
    · rcases hpos a ha _ ho with h | ⟨w, h⟩ <;> cases h
    · exact h.oper a (List.mem_append_right _ (mem_flat_negative.1 ha)) o ho

omit hu hs in
theorem flat_exOK (h : SExOK r.toS) : SExOK (flatRule r g).1.toS := by
  refine ⟨fun x hx t ht => ?_, fun x hx v hv => ?_⟩
  · rcases h.terms x hx t ht with h1 | ⟨v, h1, h2 | ⟨a, h2, h3⟩⟩
    · exact .inl h1
    · exact .inr ⟨v, h1, .inl h2⟩
    · obtain ⟨k, hk⟩ := exists_flatAt g h2
      exact .inr ⟨v, h1, .inr ⟨_, mem_flat_positive.2 ⟨a, k, hk, rfl⟩, (mem_flatTerms_var _ _ _).2 (.inl h3)⟩⟩
  · obtain ⟨a, k, h1, rfl⟩ := mem_flat_positive.1 hx
    rcases (mem_flatTerms_var _ _ _).1 hv with h2 | ⟨o, h2⟩
    · exact h.body a h1.mem v h2
    · obtain ⟨i, h3, -⟩ := flatTerms_range _ _ h2
      rw [show v = _ from h3]; exact tmpVar_universal i

omit hu hs in
theorem flat_positive (h : SPositive r.toS) (hN : SNoNulls r.toS) : SPositive (flatRule r g).1.toS := by
  refine ⟨by rw [flat_negative]; exact h.neg, h.agg, fun o ho => ?_, fun x hx o ho => ?_, h.head⟩
  · rcases mem_flat_operations.1 ho with ho | ⟨a, k, h1, x, h2, rfl⟩
    · exact h.ops o ho
    · rcases flatTerms_origin _ _ h2 with ⟨b, h3, h4⟩ | h3
      · rw [equality, h4]
        exact homSafe_const _ (hN.const a (List.mem_append_left _ h1.mem) _ h3)
      · intro f hf σ he
        rw [equality, eval_assign] at he ⊢
        exact h.body a h1.mem _ h3 f hf σ _ he
  · obtain ⟨a, k, h1, rfl⟩ := mem_flat_positive.1 hx
    rcases flatTerms_simple _ _ ho with h | ⟨w, h⟩ <;> cases h

end rule

/-! ## Programs -/

section program
variable {rs : List (WRule α)} {g : Nat}

/-- What is assumed of a rule so that it can be flattened: the names of the new variables are not used, and the variables of expressions
in positive body atoms get a value (which is checked by the validation). -/
structure Flattenable (r : WRule α) : Prop where
  plain : ∀ v ∈ r.toS.vars, v.Plain
  safe : ∀ a ∈ r.toS.positive, ∀ o, .oper o ∈ a.terms → ∀ v ∈ o.vars, SSafe r.toS v

theorem mem_flatRules {r' : WRule α} (h : r' ∈ flatRules rs g) : ∃ r ∈ rs, ∃ k, r' = (flatRule r k).1 := by
  induction rs generalizing g with
  | nil => cases h
  | cons r rs ih =>
    rw [flatRules, List.mem_cons] at h
    rcases h with rfl | h
    · exact ⟨r, .head _, g, rfl⟩
    · obtain ⟨r0, h1, h2⟩ := ih h
      exact ⟨r0, .tail _ h1, h2⟩

theorem flatRules_mem {r : WRule α} (h : r ∈ rs) (g : Nat) : ∃ k, (flatRule r k).1 ∈ flatRules rs g := by
  induction rs generalizing g with
  | nil => cases h
  | cons r0 rs ih =>
    rw [flatRules]
    rcases List.mem_cons.1 h with rfl | h
    · exact ⟨g, .head _⟩
    · obtain ⟨k, hk⟩ := ih h (flatRule r0 g).2
      exact ⟨k, .tail _ hk⟩

/-- The rules of a program before and after flattening, in the representation in which they are normalized further -/
theorem mem_flatProgram {S' : SRule α} (h : S' ∈ (flatProgram rs).map WRule.toS) : ∃ r ∈ rs, ∃ k, S' = (flatRule r k).1.toS := by
  obtain ⟨r', h1, rfl⟩ := List.mem_map.1 h
  obtain ⟨r, h2, k, rfl⟩ := mem_flatRules h1
  exact ⟨r, h2, k, rfl⟩

theorem flatProgram_mem {S : SRule α} (h : S ∈ rs.map WRule.toS) : ∃ r k, S = r.toS ∧ r ∈ rs ∧ (flatRule r k).1.toS ∈
    (flatProgram rs).map WRule.toS := by
  obtain ⟨r, h1, rfl⟩ := List.mem_map.1 h
  obtain ⟨k, h2⟩ := flatRules_mem h1 0
  exact ⟨r, k, rfl, h1, List.mem_map_of_mem h2⟩

theorem flatProgram_length : (flatProgram rs).length = rs.length := flatRules_length rs 0

variable (hf : ∀ r ∈ rs, Flattenable r)
include hf

theorem flat_closed (edb N I : Interp α) : SClosedUnder ((flatProgram rs).map WRule.toS) edb N I ↔
    SClosedUnder (rs.map WRule.toS) edb N I := by
  refine and_congr Iff.rfl ⟨fun h S hS p row hd => ?_, fun h S hS p row hd => ?_⟩
  · obtain ⟨r, k, rfl, hr, h1⟩ := flatProgram_mem hS
    exact h _ h1 p row ((flat_derives (hf r hr).plain (hf r hr).safe I N p row).2 hd)
  · obtain ⟨r, hr, k, rfl⟩ := mem_flatProgram hS
    exact h _ (List.mem_map_of_mem hr) p row ((flat_derives (hf r hr).plain (hf r hr).safe I N p row).1 hd)

/-- **Flattening does not change the meaning of a program.** -/
theorem flat_stable (edb M : Interp α) : SIsStable ((flatProgram rs).map WRule.toS) edb M ↔ SIsStable (rs.map WRule.toS) edb M := by
  have : SLeastModel ((flatProgram rs).map WRule.toS) edb M = SLeastModel (rs.map WRule.toS) edb M := by
    funext p row
    exact propext (forall_congr' fun I => imp_congr (flat_closed hf edb M I) Iff.rfl)
  rw [SIsStable, SIsStable, this]

/-- **Flattening does not change the models of a program with existential rules.** -/
theorem flat_model (edb M : Interp α) : SIsModel ((flatProgram rs).map WRule.toS) edb M ↔ SIsModel (rs.map WRule.toS) edb M := by
  constructor
  · intro h
    refine ⟨h.edb, fun S hS hx p row hd => ?_, fun S hS hx σ hb => ?_⟩
    · obtain ⟨r, k, rfl, hr, h1⟩ := flatProgram_mem hS
      exact h.datalog _ h1 hx p row ((flat_derives (hf r hr).plain (hf r hr).safe M M p row).2 hd)
    · obtain ⟨r, k, rfl, hr, h1⟩ := flatProgram_mem hS
      obtain ⟨σ', h2, h3⟩ := flat_of_body (g := k) (hf r hr).plain (hf r hr).safe hb
      obtain ⟨τ, h4, h5⟩ := h.ex _ h1 hx σ' h3
      refine ⟨fun v => if v ∈ r.toS.vars then τ v else σ v, fun v hv => ?_, fun x hx => ?_⟩
      · dsimp only
        split
        · rename_i hm
          rw [h4 v hv, h2 v ((hf r hr).plain v hm)]
        · rfl
      · obtain ⟨row, g1, g2⟩ := h5 x hx
        refine ⟨row, g1, fun y => ?_⟩
        have := g2 y
        rw [List.forall₂_iff_get] at this ⊢
        refine ⟨this.1, fun i hi hi' => ?_⟩
        rw [← this.2 i hi hi']
        refine HTerm.value_congr y _ fun v hv => if_pos ?_
        exact SRule.mem_vars_head hx (HTerm.mem_varsList (List.get_mem _ _) (HTerm.outerVars_sub _ hv))
  · intro h
    refine ⟨h.edb, fun S hS hx p row hd => ?_, fun S hS hx σ hb => ?_⟩
    · obtain ⟨r, hr, k, rfl⟩ := mem_flatProgram hS
      exact h.datalog _ (List.mem_map_of_mem hr) hx p row ((flat_derives (hf r hr).plain (hf r hr).safe M M p row).1 hd)
    · obtain ⟨r, hr, k, rfl⟩ := mem_flatProgram hS
      exact h.ex _ (List.mem_map_of_mem hr) hx σ (body_of_flat (hf r hr).plain (hf r hr).safe hb)

omit hf in
theorem flat_stratifiable : SIsStratifiable ((flatProgram rs).map WRule.toS) ↔ SIsStratifiable (rs.map WRule.toS) := by
  constructor
  · rintro ⟨level, h⟩
    refine ⟨level, fun S hS x hx => ?_⟩
    obtain ⟨r, k, rfl, hr, h1⟩ := flatProgram_mem hS
    obtain ⟨k1, k2, k3⟩ := h _ h1 x hx
    refine ⟨fun a ha => ?_, fun a ha => k2 a (mem_flat_negative.2 ha), fun hag a ha => ?_⟩
    · obtain ⟨i, hi⟩ := exists_flatAt k ha
      exact k1 ⟨a.pred, (flatTerms a.terms i).1⟩ (mem_flat_positive.2 ⟨a, i, hi, rfl⟩)
    · obtain ⟨i, hi⟩ := exists_flatAt k ha
      exact k3 hag ⟨a.pred, (flatTerms a.terms i).1⟩ (mem_flat_positive.2 ⟨a, i, hi, rfl⟩)
  · rintro ⟨level, h⟩
    refine ⟨level, fun S hS x hx => ?_⟩
    obtain ⟨r, hr, k, rfl⟩ := mem_flatProgram hS
    obtain ⟨k1, k2, k3⟩ := h _ (List.mem_map_of_mem hr) x hx
    refine ⟨fun a ha => ?_, fun a ha => k2 a (mem_flat_negative.1 ha), fun hag a ha => ?_⟩
    · obtain ⟨b, i, hi, rfl⟩ := mem_flat_positive.1 ha
      exact k1 b hi.mem
    · obtain ⟨b, i, hi, rfl⟩ := mem_flat_positive.1 ha
      exact k3 hag b hi.mem

omit hf in
theorem SValid.flattenable {r : WRule α} (hV : SValid r.toS) (hp : ∀ v ∈ r.toS.vars, v.Plain) : Flattenable r :=
  ⟨hp, fun a ha => hV.operSafe a (List.mem_append_left _ ha)⟩

omit hf in
/-- **C58.  The program is flattened before it is executed; the result is the stable model of the program as it is written.** -/
theorem execute_flat_stable_partial {cond : Nat → List (Nat × Nat) → List (List Nat)} {cfgs : List RuleCfg} {arity : Tag → Nat}
    {edb : List (Tag × List (List α))} {outs : List Tag} {fuel : Nat} {st : Eng α} {given : List Tag} {rules : List (NRule α)}
    (hcond : CondOK cond) (h : normalizeProgram given ((flatProgram rs).map WRule.toS) = some rules)
    (hp : ∀ r ∈ rs, ∀ v ∈ r.toS.vars, v.Plain) (hV : ∀ r ∈ rs, SValid r.toS)
    (hok : ∀ r ∈ rs, SRuleOK r.toS arity) (hl : cfgs.length = rs.length) (he : EdbOK edb arity)
    (hx : Eng.execute cond rules cfgs outs fuel (Eng.init edb) = some (some st)) :
    SIsStable (rs.map WRule.toS) (edbFacts edb) st.answers := by
  have hf : ∀ r ∈ rs, Flattenable r := fun r hr => (hV r hr).flattenable (hp r hr)
  refine (flat_stable hf _ _).1 (execute_source_stable_partial hcond h (fun S hS => ?_) (fun S hS => ?_) ?_ he hx)
  · obtain ⟨r, hr, k, rfl⟩ := mem_flatProgram hS
    exact flat_valid (hV r hr)
  · obtain ⟨r, hr, k, rfl⟩ := mem_flatProgram hS
    exact flat_ruleOK (hf r hr).plain (hf r hr).safe (hok r hr)
  · rw [hl, List.length_map, flatProgram_length]

end program
end Verif
