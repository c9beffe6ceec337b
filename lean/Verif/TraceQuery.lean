import Verif.TraceHistory

/-!
# The query for a rule application

The query that tracing evaluates finds exactly the matches of the body that produce the given fact.
-/

set_option linter.unusedSimpArgs false
set_option linter.unusedSectionVars false

namespace Verif.Trace
variable {α : Type} [DecidableEq α] [Dom α]

/-- the valuation gives the variables the recorded values -/
def Agrees (σ : Variable → α) (g : List (Variable × α)) : Prop := ∀ x ∈ g, σ x.1 = x.2

theorem lookup_eq_some {g : List (Variable × α)} {v : Variable} {a : α} (h : lookup g v = some a) : (v, a) ∈ g := by
  unfold lookup at h
  rw [Option.map_eq_some_iff] at h
  obtain ⟨x, h1, rfl⟩ := h
  have := List.find?_some h1
  simp only [decide_eq_true_eq] at this
  rw [← this]
  exact List.mem_of_find?_eq_some h1

theorem lookup_eq_none {g : List (Variable × α)} {v : Variable} (h : lookup g v = none) : ∀ x ∈ g, x.1 ≠ v := by
  unfold lookup at h
  rw [Option.map_eq_none_iff, List.find?_eq_none] at h
  intro x hx; simpa using h x hx

/-- Unification succeeds for the terms of an instance. -/
theorem unify_complete (σ : Variable → α) (ts : List (Primitive α)) {g : List (Variable × α)} (hg : Agrees σ g) :
    ∃ g', unify (ts.zip (ts.map (Primitive.inst σ))) g = some g' ∧ Agrees σ g' := by
  induction ts generalizing g with
  | nil => exact ⟨g, rfl, hg⟩
  | cons t ts ih =>
    cases t with
    | const c => simpa [unify, Primitive.inst] using ih hg
    | var v =>
      simp only [List.map_cons, List.zip_cons_cons, Primitive.inst, unify]
      split
      · exact ih hg
      · split
        · rename_i y hy
          rw [if_pos (hg _ (lookup_eq_some hy)).symm]
          exact ih hg
        · refine ih fun x hx => ?_
          rcases List.mem_append.1 hx with hx | hx
          · exact hg x hx
          · simp only [List.mem_singleton] at hx; subst hx; rfl

/-- Unification of terms without existential variables: a valuation with the resulting values yields the row. -/
theorem unify_sound (ts : List (Primitive α)) (row : List α) (hl : ts.length = row.length)
    (hex : ∀ v, Primitive.var v ∈ ts → v.isExistential = false) {g g' : List (Variable × α)}
    (h : unify (ts.zip row) g = some g') :
    (∀ x ∈ g, x ∈ g') ∧ (∀ x ∈ g', x ∈ g ∨ Primitive.var x.1 ∈ ts) ∧
      ∀ σ, Agrees σ g' → ts.map (Primitive.inst σ) = row := by
  induction ts generalizing row g with
  | nil =>
    simp only [List.zip_nil_left, unify, Option.some.injEq] at h
    subst h
    cases row with
    | nil => exact ⟨fun x hx => hx, fun x hx => Or.inl hx, fun _ _ => rfl⟩
    | cons _ _ => simp at hl
  | cons t ts ih =>
    cases row with
    | nil => simp at hl
    | cons a row =>
      have hl' : ts.length = row.length := by simpa using hl
      have hex' : ∀ v, Primitive.var v ∈ ts → v.isExistential = false := fun v hv => hex v (List.mem_cons_of_mem _ hv)
      cases t with
      | const c =>
        simp only [List.zip_cons_cons, unify] at h
        split at h
        · rename_i hc
          obtain ⟨h1, h2, h3⟩ := ih row hl' hex' h
          refine ⟨h1, fun x hx => (h2 x hx).imp_right (List.mem_cons_of_mem _), fun σ hs => ?_⟩
          rw [List.map_cons, h3 σ hs, ← hc]; rfl
        · cases h
      | var v =>
        simp only [List.zip_cons_cons, unify, hex v List.mem_cons_self, Bool.false_eq_true, if_false] at h
        split at h
        · rename_i y hy
          split at h
          · rename_i hya
            obtain ⟨h1, h2, h3⟩ := ih row hl' hex' h
            refine ⟨h1, fun x hx => (h2 x hx).imp_right (List.mem_cons_of_mem _), fun σ hs => ?_⟩
            rw [List.map_cons, h3 σ hs, ← hya]
            exact congrArg (· :: row) (hs _ (h1 _ (lookup_eq_some hy)))
          · cases h
        · obtain ⟨h1, h2, h3⟩ := ih row hl' hex' h
          refine ⟨fun x hx => h1 x (List.mem_append_left _ hx), fun x hx => ?_, fun σ hs => ?_⟩
          · rcases h2 x hx with hx | hx
            · rcases List.mem_append.1 hx with hx | hx
              · exact Or.inl hx
              · simp only [List.mem_singleton] at hx; subst hx; exact Or.inr List.mem_cons_self
            · exact Or.inr (List.mem_cons_of_mem _ hx)
          · rw [List.map_cons, h3 σ hs]
            exact congrArg (· :: row) (hs _ (h1 (v, a) (List.mem_append_right _ List.mem_cons_self)))

/-- The choices are possible ones: a permutation, and a row of the table if there is one. -/
structure Choice.OK (c : Choice α) : Prop where
  perm : ∀ g, (c.perm g).Perm g
  mem : ∀ rows row, c.first rows = some row → row ∈ rows
  some : ∀ rows, rows ≠ [] → ∃ row, c.first rows = some row

/-- The rules for which traces are considered: no aggregates, and (see `empty_body_untraced`,
`nullary_untraced`) at least one positive atom and one variable with a value; the order lists the variables of positive
atoms first, then all others (see `setOrders_first`). -/
structure TraceOK (r : NRule α) : Prop where
  plain : r.containsAggregates = false
  pos : r.positive ≠ []
  var : ∃ v, SafeVar r.positive r.operations v
  order : ∃ o1 o2, r.order = o1 ++ o2 ∧ (∀ v ∈ o1, v ∈ atomVars r.positive) ∧ ∀ v ∈ o2, v ∉ atomVars r.positive
  all : ∀ v, SafeVar r.positive r.operations v → v ∈ r.order

/-- At most one variable of the rule is computed. -/
def OneComputed (r : NRule α) : Prop :=
  ∀ v w, SafeVar r.positive r.operations v → SafeVar r.positive r.operations w → v ∉ atomVars r.positive →
    w ∉ atomVars r.positive → v = w

/-- Fixing variables that have a value anyway does not give values to other variables. -/
theorem safe_traceOps (r : NRule α) {g : List (Variable × α)} (hg : ∀ x ∈ g, SafeVar r.positive r.operations x.1) (v : Variable) :
    SafeVar r.positive (traceOps r g) v ↔ SafeVar r.positive r.operations v := by
  constructor
  · intro h
    induction h with
    | atom ha hv => exact .atom ha hv
    | @assign o e v ho he hw ih =>
      rcases List.mem_append.1 ho with ho | ho
      · exact .assign ho he ih
      · obtain ⟨x, hx, rfl⟩ := List.mem_map.1 ho
        simp only [Operation.variableAssignment, Option.some.injEq, Prod.mk.injEq] at he
        obtain ⟨rfl, -⟩ := he
        exact hg x hx
  · exact SafeVar.mono (fun _ h => h) fun o ho => List.mem_append_left _ ho

theorem groundOp_vars {g : List (Variable × α)} {o : Operation α} (h : o ∈ groundOps g) :
    ∃ x ∈ g, o.vars = [x.1] ∧ ∀ σ : Variable → α, o.eval σ = some Dom.tru ↔ σ x.1 = x.2 := by
  obtain ⟨x, hx, rfl⟩ := List.mem_map.1 h
  refine ⟨x, hx, by simp [Operation.vars], fun σ => ?_⟩
  rw [Operation.eval_equal_tru]
  simp [Operation.eval]
  exact eq_comm

/-- the rule with the additional conditions -/
def traceRule (r : NRule α) (g : List (Variable × α)) : NRule α := { r with operations := traceOps r g }

theorem traceRule_ok {r : NRule α} {arity : Tag → Nat} (hr : RuleOK r arity) {g : List (Variable × α)}
    (hg : ∀ x ∈ g, SafeVar r.positive r.operations x.1) : RuleOK (traceRule r g) arity := by
  have hs := safe_traceOps r hg
  refine ⟨hr.posNodup, hr.negNodup, hr.posArity, hr.negArity, hr.orderNodup, hr.orderCov, ?_, ?_, ?_⟩
  · intro a ha
    obtain ⟨v, h1, h2⟩ := hr.negShared a ha
    exact ⟨v, h1, (hs v).2 h2⟩
  · intro a ha o ho hv
    rcases List.mem_append.1 ho with ho | ho
    · rcases hr.negLocal a ha o ho fun v hm => (hv v hm).imp_left (hs v).1 with h | h
      · exact Or.inl fun v hm => (hs v).2 (h v hm)
      · exact Or.inr h
    · obtain ⟨x, hx, he, -⟩ := groundOp_vars ho
      left
      intro v hm
      rw [he, List.mem_singleton] at hm
      subst hm; exact (hs _).2 (hg x hx)
  · exact hr.negDisjoint.imp fun {a b} h v h1 h2 => (hs v).2 (h v h1 h2)

theorem traceRule_body {r : NRule α} {g : List (Variable × α)} (hg : ∀ x ∈ g, SafeVar r.positive r.operations x.1)
    (P N : Interp α) (σ : Variable → α) : BodyHolds (traceRule r g) P N σ ↔ BodyHolds r P N σ ∧ Agrees σ g := by
  have hs := safe_traceOps r hg
  constructor
  · rintro ⟨h1, h2, h3⟩
    have hag : Agrees σ g := by
      intro x hx
      have hmem : Operation.equal (.var x.1) (.const x.2) ∈ groundOps g := List.mem_map.2 ⟨x, hx, rfl⟩
      have := h2 _ (List.mem_append_right _ hmem) (by
        intro v hv
        simp [Operation.vars] at hv
        subst hv; exact (hs _).2 (hg x hx))
      rw [Operation.eval_equal_tru] at this
      simpa [Operation.eval, eq_comm] using this
    refine ⟨⟨h1, fun o ho hv => h2 o (List.mem_append_left _ ho) fun v hm => (hs v).2 (hv v hm), ?_⟩, hag⟩
    rintro a ha ⟨τ, t1, t2, t3⟩
    refine h3 a ha ⟨τ, fun v hv => t1 v ((hs v).1 hv), t2, fun o ho hv => ?_⟩
    rcases List.mem_append.1 ho with ho | ho
    · exact t3 o ho fun v hm => (hv v hm).imp_left (hs v).1
    · obtain ⟨x, hx, -, he⟩ := groundOp_vars ho
      rw [he, t1 _ (hg x hx)]; exact hag x hx
  · rintro ⟨⟨h1, h2, h3⟩, hag⟩
    refine ⟨h1, fun o ho hv => ?_, ?_⟩
    · rcases List.mem_append.1 ho with ho | ho
      · exact h2 o ho fun v hm => (hs v).1 (hv v hm)
      · obtain ⟨x, hx, -, he⟩ := groundOp_vars ho
        rw [he]; exact hag x hx
    · rintro a ha ⟨τ, t1, t2, t3⟩
      refine h3 a ha ⟨τ, fun v hv => t1 v ((hs v).2 hv), t2, fun o ho hv => ?_⟩
      exact t3 o (List.mem_append_left _ ho) fun v hm => (hv v hm).imp_left (hs v).2

/-- **The query finds exactly the matches of the body before the step with the given values.** -/
theorem traceRel_spec {src : Source α} {at_ : Tag → Nat → List α → Prop} {arity : Tag → Nat} {step : Nat}
    (h : SrcOK src at_ arity step) (hstep : 0 < step) {r : NRule α} (hr : RuleOK r arity) (ht : TraceOK r)
    {g : List (Variable × α)} (hg : ∀ x ∈ g, SafeVar r.positive r.operations x.1) :
    (traceRel src step r g).WF ∧
    (∃ rest, (traceRel src step r g).cols = restrictOrder r.order (atomVars r.positive) ++ rest) ∧
    (∀ v, v ∈ (traceRel src step r g).cols ↔ SafeVar r.positive r.operations v) ∧
    ∀ σ, (traceRel src step r g).Holds σ ↔ BodyHolds r (Before at_ step) (Before at_ step) σ ∧ Agrees σ g := by
  have hne : r.positive.isEmpty = false := by simpa using ht.pos
  have hJ : traceJoin src step r = genJoin src step 0 r.order r.positive (r.positive.map fun _ => .all) := by
    unfold traceJoin
    rw [hne]
    simp only [Bool.false_eq_true, if_false]
    unfold genJoin
    congr 1
    rw [List.zip_map_right, List.zip_map_right, List.map_map, List.map_map]
    rfl
  obtain ⟨jw, jh⟩ := genJoin_spec h hstep r.order hr.orderNodup r.positive hr.orderCov
    (r.positive.map fun _ => .all) (by simp)
  have jc : (genJoin src step 0 r.order r.positive (r.positive.map fun _ => .all)).cols =
      restrictOrder r.order (atomVars r.positive) := rfl
  have hE : traceRel src step r g = (genFFN src step 0 (traceJoin src step r) (traceRule r g).operations
    (traceRule r g).negative).1 := rfl
  have hJv : ∀ v, v ∈ (traceJoin src step r).cols ↔ v ∈ atomVars (traceRule r g).positive := by
    intro v; rw [hJ, jc, mem_restrictOrder]; exact ⟨fun h => h.2, fun h => ⟨hr.orderCov v h, h⟩⟩
  obtain ⟨g1, g2, g3, g4, -⟩ := genFFN_spec h hstep (traceRule r g) (traceRule_ok hr hg) (traceJoin src step r)
    (by rw [hJ]; exact jw) hJv
  rw [hE]
  refine ⟨g1, ?_, fun v => ?_, fun σ => ?_⟩
  · have := (genFunction_spec (traceRule r g).positive (traceJoin src step r).cols (traceRule r g).operations hJv).1.vars_eq
    rw [g2, this, hJ, jc]
    exact ⟨_, rfl⟩
  · rw [g3]; exact safe_traceOps r hg v
  · rw [g4, hJ, jh, ← traceRule_body hg]
    constructor
    · rintro ⟨h1, h2, h3⟩
      refine ⟨fun a ha => ?_, h2, h3⟩
      obtain ⟨i, hi⟩ := List.getElem?_of_mem ha
      have hi' : r.positive[i]? = some a := hi
      obtain ⟨s, -, s2, s3⟩ := h1 i a .all hi' (by rw [List.getElem?_map, hi']; rfl)
      exact ⟨s, s2, s3⟩
    · rintro ⟨h1, h2, h3⟩
      refine ⟨fun i a rg hi hrg => ?_, h2, h3⟩
      rw [List.getElem?_map, hi] at hrg
      simp only [Option.map_some, Option.some.injEq] at hrg
      subst hrg
      obtain ⟨s, s1, s2⟩ := h1 a (List.mem_of_getElem? hi)
      exact ⟨s, Nat.zero_le _, s1, s2⟩

theorem zip_append_left {β γ : Type} (l1 : List β) (l2 : List γ) (l1' : List β) (l2' : List γ) (h : l1.length = l2.length) :
    (l1 ++ l1').zip (l2 ++ l2') = l1.zip l2 ++ l1'.zip l2' := List.zip_append h

theorem lookup_append {g g' : List (Variable × α)} {v : Variable} (h : ∃ x ∈ g, x.1 = v) :
    lookup (g ++ g') v = lookup g v := by
  unfold lookup
  rw [List.find?_append]
  obtain ⟨x, hx, rfl⟩ := h
  have : (g.find? fun y => decide (y.1 = x.1)).isSome := by
    rw [List.find?_isSome]; exact ⟨x, hx, by simp⟩
  obtain ⟨y, hy⟩ := Option.isSome_iff_exists.1 this
  rw [hy]; rfl

theorem lookup_zip_map (cols : List Variable) (σ : Variable → α) {v : Variable} (h : v ∈ cols) :
    lookup (cols.zip (cols.map σ)) v = some (σ v) := by
  induction cols with
  | nil => simp at h
  | cons w cols ih =>
    unfold lookup at ih ⊢
    simp only [List.map_cons, List.zip_cons_cons, List.find?_cons]
    by_cases hw : w = v
    · subst hw; simp
    · simp only [hw, decide_false]
      exact ih ((List.mem_cons.1 h).resolve_left fun h' => hw h'.symm)

theorem mem_zip_map {cols : List Variable} {σ : Variable → α} {x : Variable × α} (h : x ∈ cols.zip (cols.map σ)) : σ x.1 = x.2 := by
  induction cols with
  | nil => simp at h
  | cons w cols ih =>
    simp only [List.map_cons, List.zip_cons_cons, List.mem_cons] at h
    rcases h with rfl | h
    · rfl
    · exact ih h

/-- **The assignment of the trace**: the variables of positive atoms get the values of the match; if at most one variable
is computed, all variables do. -/
theorem assignment_spec {src : Source α} {at_ : Tag → Nat → List α → Prop} {arity : Tag → Nat} {step : Nat}
    (h : SrcOK src at_ arity step) (hstep : 0 < step) {r : NRule α} (hr : RuleOK r arity) (ht : TraceOK r)
    {g : List (Variable × α)} (hg : ∀ x ∈ g, SafeVar r.positive r.operations x.1) {row : List α}
    (hrow : row ∈ (traceRel src step r g).rows) :
    ∃ σ, BodyHolds r (Before at_ step) (Before at_ step) σ ∧ Agrees σ g ∧
      (∀ v ∈ atomVars r.positive, lookup ((traceOutput src step r g).zip row) v = some (σ v)) ∧
      (∀ x ∈ (traceOutput src step r g).zip row, x.1 ∈ atomVars r.positive ∨ OneComputed r → σ x.1 = x.2) ∧
      ∀ v, SafeVar r.positive r.operations v → ∃ a, (v, a) ∈ (traceOutput src step r g).zip row := by
  obtain ⟨w, ⟨rest, hc⟩, hs, hh⟩ := traceRel_spec h hstep hr ht hg
  set R := traceRel src step r g with hR
  set σ := assign R.cols row with hσ
  have hrow' : row = R.cols.map σ := (map_assign w.nodup (w.len row hrow)).symm
  obtain ⟨b1, b2⟩ := (hh σ).1 (w.holds_assign hrow)
  set J := restrictOrder r.order (atomVars r.positive) with hJ
  obtain ⟨o1, o2, ho, ho1, ho2⟩ := ht.order
  have hcov := hr.orderCov
  have memJ : ∀ v, v ∈ J ↔ v ∈ atomVars r.positive := by
    intro v; rw [hJ, mem_restrictOrder]; exact ⟨fun h => h.2, fun h => ⟨hcov v h, h⟩⟩
  have hJo : J = o1 := by
    rw [hJ, ho, restrictOrder, List.filter_append]
    rw [List.filter_eq_self.2 (fun v hv => by simpa using ho1 v hv),
      List.filter_eq_nil_iff.2 (fun v hv => by simpa using ho2 v hv), List.append_nil]
  have hout : traceOutput src step r g = J ++ restrictOrder o2 R.cols := by
    unfold traceOutput
    rw [← hR, ho, restrictOrder, List.filter_append, hJo]
    congr 1
    refine List.filter_eq_self.2 fun v hv => ?_
    simp only [decide_eq_true_eq, hc, hJo]
    exact List.mem_append_left _ hv
  have hrest : ∀ v, v ∈ rest ↔ SafeVar r.positive r.operations v ∧ v ∉ atomVars r.positive := by
    intro v
    have hnd := w.nodup
    rw [hc, List.nodup_append] at hnd
    constructor
    · intro hv
      refine ⟨(hs v).1 (by rw [hc]; exact List.mem_append_right _ hv), fun hv' => ?_⟩
      exact hnd.2.2 v ((memJ v).2 hv') v hv rfl
    · rintro ⟨h1, h2⟩
      have := (hs v).2 h1
      rw [hc] at this
      exact (List.mem_append.1 this).resolve_left fun h3 => h2 ((memJ v).1 h3)
  have hrest2 : ∀ v, v ∈ restrictOrder o2 R.cols ↔ v ∈ rest := by
    intro v
    rw [mem_restrictOrder, hs, hrest]
    constructor
    · rintro ⟨h1, h2⟩; exact ⟨h2, ho2 v h1⟩
    · rintro ⟨h1, h2⟩
      refine ⟨?_, h1⟩
      have := ht.all v h1
      rw [ho] at this
      exact (List.mem_append.1 this).resolve_left fun h3 => h2 (ho1 v h3)
  have hzip : (traceOutput src step r g).zip row = J.zip (J.map σ) ++ (restrictOrder o2 R.cols).zip (rest.map σ) := by
    have hrow2 : row = J.map σ ++ rest.map σ := by rw [← List.map_append, ← hc]; exact hrow'
    rw [hout, hrow2, zip_append_left _ _ _ _ (by simp)]
  have hnd1 : rest.Nodup := by have := w.nodup; rw [hc] at this; exact (List.nodup_append.1 this).2.1
  have hnd2 : (restrictOrder o2 R.cols).Nodup := by
    have := hr.orderNodup
    rw [ho] at this
    exact (List.nodup_append.1 this).2.1.filter _
  have hperm : (restrictOrder o2 R.cols).Perm rest := (List.perm_ext_iff_of_nodup hnd2 hnd1).2 hrest2
  refine ⟨σ, b1, b2, fun v hv => ?_, fun x hx hor => ?_, fun v hv => ?_⟩
  · rw [hzip, lookup_append, lookup_zip_map J σ ((memJ v).2 hv)]
    have := lookup_eq_some (lookup_zip_map J σ ((memJ v).2 hv))
    exact ⟨_, this, rfl⟩
  · rw [hzip] at hx
    rcases List.mem_append.1 hx with hx | hx
    · exact mem_zip_map hx
    · rcases hor with hat | hone
      · exact absurd hat ((hrest x.1).1 ((hrest2 x.1).1 (List.of_mem_zip hx).1)).2
      · have heq : restrictOrder o2 R.cols = rest := by
          have hle : rest.length ≤ 1 := by
            by_contra hgt
            have h0 : 0 < rest.length := by omega
            have h1 : 1 < rest.length := by omega
            have g0 := (hrest _).1 (List.getElem_mem h0)
            have g1 := (hrest _).1 (List.getElem_mem h1)
            have := hone _ _ g0.1 g1.1 g0.2 g1.2
            exact absurd ((List.Nodup.getElem_inj_iff hnd1).1 this) (by omega)
          rcases hl : rest.length with _ | n
          · have hn := List.length_eq_zero_iff.1 hl
            rw [hn] at hperm ⊢
            exact hperm.eq_nil
          · obtain ⟨v, hv⟩ := List.length_eq_one_iff.1 (show rest.length = 1 by omega)
            rw [hv] at hperm ⊢
            exact List.perm_singleton.1 hperm
        rw [heq] at hx
        exact mem_zip_map hx
  · have hlen : (traceOutput src step r g).length = row.length := by
      have hl1 : row.length = R.cols.length := w.len row hrow
      rw [hout, List.length_append, hperm.length_eq, hl1, hc, List.length_append]
    have hmem : v ∈ traceOutput src step r g := by
      rw [hout, List.mem_append]
      by_cases hva : v ∈ atomVars r.positive
      · exact Or.inl ((memJ v).2 hva)
      · exact Or.inr ((hrest2 v).2 ((hrest v).2 ⟨hv, hva⟩))
    obtain ⟨i, hi, rfl⟩ := List.getElem_of_mem hmem
    exact ⟨row[i]'(by omega), List.mem_of_getElem? (i := i) (by
      rw [List.getElem?_zip_eq_some]; exact ⟨List.getElem?_eq_getElem hi, List.getElem?_eq_getElem _⟩)⟩

/-- The query of a fact that the rule derives has a result. -/
theorem traceQuery_some {c : Choice α} (hcok : c.OK) {src : Source α} {at_ : Tag → Nat → List α → Prop} {arity : Tag → Nat} {step : Nat}
    (h : SrcOK src at_ arity step) (hstep : 0 < step) {r : NRule α} (hr : RuleOK r arity) (ht : TraceOK r)
    {g : List (Variable × α)} (hg : ∀ x ∈ g, SafeVar r.positive r.operations x.1) {σ : Variable → α}
    (hb : BodyHolds r (Before at_ step) (Before at_ step) σ) (hag : Agrees σ g) :
    ∃ row, traceQuery c src step r g = some row := by
  obtain ⟨w, -, hs, hh⟩ := traceRel_spec h hstep hr ht hg
  unfold traceQuery
  have : (traceRel src step r g).cols.isEmpty = false := by
    obtain ⟨v, hv⟩ := ht.var
    rw [List.isEmpty_eq_false_iff]
    exact List.ne_nil_of_mem ((hs v).2 hv)
  rw [this]
  simp only [Bool.false_eq_true, if_false]
  exact hcok.some _ (List.ne_nil_of_mem ((hh σ).2 ⟨hb, hag⟩))

theorem traceQuery_mem {c : Choice α} (hcok : c.OK) {src : Source α} {step : Nat} {r : NRule α} {g : List (Variable × α)}
    {row : List α} (h : traceQuery c src step r g = some row) : row ∈ (traceRel src step r g).rows := by
  unfold traceQuery at h
  split at h
  · cases h
  · exact hcok.mem _ _ h

/-- **The orders computed by the program satisfy the assumption of `TraceOK`.** -/
theorem setOrders_first (given : List Tag) (rules : List (NRule α)) {rules' : List (NRule α)}
    (h : VarOrder.setOrders given rules = some rules') (r' : NRule α) (hr : r' ∈ rules') :
    (∃ o1 o2, r'.order = o1 ++ o2 ∧ (∀ v ∈ o1, v ∈ atomVars r'.positive) ∧ ∀ v ∈ o2, v ∉ atomVars r'.positive) ∧
    (∀ v, SafeVar r'.positive r'.operations v → v ∈ r'.order) := by
  obtain ⟨orders, h1, h2, h3⟩ := VarOrder.preferableOrders_spec (VarOrder.derived rules) rules (VarOrder.initialColOrders given)
  unfold VarOrder.setOrders at h
  rw [h1] at h
  simp only [Option.some.injEq] at h
  subst h
  obtain ⟨⟨r, o⟩, hm, rfl⟩ := List.mem_map.1 hr
  obtain ⟨k, hk⟩ := List.getElem?_of_mem hm
  rw [List.getElem?_zip_eq_some] at hk
  have hord := h3 k r o hk.1 hk.2
  have key : ∀ (vars order : List Variable), ∃ o2, VarOrder.extendOrder order vars = order ++ o2 ∧ ∀ v ∈ o2, v ∉ order := by
    intro vars
    induction vars with
    | nil => intro order; exact ⟨[], by simp [VarOrder.extendOrder], by simp⟩
    | cons v vars ih =>
      intro order
      unfold VarOrder.extendOrder at ih ⊢
      rw [List.foldl_cons]
      by_cases hv : v ∈ order
      · rw [if_pos hv]; exact ih order
      · rw [if_neg hv]
        obtain ⟨o2, e1, e2⟩ := ih (order ++ [v])
        refine ⟨v :: o2, by rw [e1]; simp, ?_⟩
        intro w hw
        rcases List.mem_cons.1 hw with rfl | hw
        · exact hv
        · intro hw'; exact e2 w hw (List.mem_append_left _ hw')
  obtain ⟨o2, e1, e2⟩ := key r.vars o
  refine ⟨⟨o, o2, e1, fun v hv => (hord.2 v).1 hv, fun v hv hv' => e2 v hv ((hord.2 v).2 hv')⟩, ?_⟩
  intro v hv
  show v ∈ VarOrder.extendOrder o r.vars
  rw [(VarOrder.pushNew_spec r.vars o hord.1).2]
  right
  have hv' : SafeVar r.positive r.operations v := hv
  cases hv' with
  | atom ha hv => simp only [NRule.vars, List.mem_append]; exact .inl (.inl (.inl (.inr (List.mem_flatMap.2 ⟨_, ha, hv⟩))))
  | assign ho he _ =>
    simp only [NRule.vars, List.mem_append]
    exact .inl (.inr (List.mem_flatMap.2 ⟨_, ho, (Operation.vars_assignment he _).2 (Or.inl rfl)⟩))

end Verif.Trace
