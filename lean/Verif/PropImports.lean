import Verif.PushRules

/-!
# Rules that are evaluated while importing (C46): the meaning of the program is preserved
-/

set_option linter.unusedSimpArgs false
set_option linter.unusedSectionVars false
set_option linter.unusedVariables false

namespace Verif
variable {α : Type}

/-! ## Specification: conditions -/

/-- the variables of a body atom that are written in it, without duplicates -/
def SAtom.Distinct (A : SAtom α) : Prop :=
  (A.terms.filterMap fun | .var v => some v | _ => none).Nodup

/-- Conditions for imports from formats that can skip columns: all variables of conditions also occur in the head or in an
assignment (`seen`), and a rule that is considered obsolete is a projection (`obsolete`). -/
structure SkipOK (r : LRule α) (A : SAtom α) (H : SHead α) : Prop where
  seen : ∀ o ∈ r.operations, ∀ v ∈ o.vars, BTerm.var v ∈ A.terms →
    v ∈ HTerm.varsList H.terms ∨ ∃ o' ∈ r.operations, o'.variableAssignment.isSome ∧ v ∈ o'.vars
  obsolete : (∃ t ∈ A.terms, posUsed r t = false) → isObsolete (A.terms.map (posUsed r)) r = true →
    r.operations = [] ∧ (HTerm.varsList H.terms).Nodup

/-- Conditions for a program: no import has filter rules already, and for each predicate that is internalized there is only one
rule (`rule`), it can be evaluated while importing, and the predicate is not derived by another rule (`underived`). -/
structure FilterOK [DecidableEq α] [Dom α] (prog : List (FStmt α)) : Prop where
  imports : ∀ i, .imp i ∈ prog → i.rules = []
  rule : ∀ q, isInternal prog q = true → ∃ r A H, rulesFor prog q = [r] ∧ PushRule r.toSRule A H ∧ A.Distinct ∧
    ∀ i, .imp i ∈ prog → i.pred = q → (∀ row ∈ i.source, row.length = A.terms.length) ∧
      (i.formats = none ∨ i.formats = some (List.replicate A.terms.length false)) ∧ (i.skippable = true → SkipOK r A H)
  underived : ∀ q, isInternal prog q = true → ∀ r, .rule r ∈ prog → ∀ h ∈ r.head, h.pred ≠ q

/-! ## Positions of the body atom -/

theorem normBodyTerms_pos (ts : List (BTerm α)) : ∀ (used : List Variable) (g : Nat),
    (ts.filterMap fun | .var v => some v | _ => none).Nodup → (∀ v, BTerm.var v ∈ ts → v ∉ used) → ∀ (k : Nat) (t : BTerm α),
    ts[k]? = some t → ∃ w, (normBodyTerms ts used g).1[k]? = some w ∧ (∀ v, t = .var v → w = v) ∧
      ((∀ v, t ≠ .var v) → ∃ j, w = freshVar "BODY" j) := by
  induction ts with
  | nil => intro used g _ _ k t h; simp at h
  | cons t ts ih =>
    intro used g hn hu k t' hk
    have hu' : ∀ v, BTerm.var v ∈ ts → v ∉ used := fun v hv => hu v (by simp [hv])
    cases t with
    | var v =>
      have hv : v ∉ used := hu v (by simp)
      rw [List.filterMap_cons_some (by rfl), List.nodup_cons] at hn
      rw [normBodyTerms, if_neg hv]
      dsimp only
      cases k with
      | zero =>
        simp only [List.getElem?_cons_zero, Option.some.injEq] at hk ⊢
        subst hk
        exact ⟨v, rfl, fun w hw => by cases hw; rfl, fun h => absurd rfl (h v)⟩
      | succ k =>
        simp only [List.getElem?_cons_succ] at hk ⊢
        refine ih _ _ hn.2 (fun w hw => ?_) k t' hk
        rw [List.mem_cons, not_or]
        refine ⟨?_, hu' w hw⟩
        rintro rfl
        exact hn.1 (List.mem_filterMap.2 ⟨_, hw, rfl⟩)
    | anon =>
      rw [List.filterMap_cons_none (by rfl)] at hn
      rw [normBodyTerms]
      dsimp only
      cases k with
      | zero =>
        simp only [List.getElem?_cons_zero, Option.some.injEq] at hk ⊢
        subst hk
        exact ⟨_, rfl, fun w hw => (by cases hw), fun _ => ⟨_, rfl⟩⟩
      | succ k =>
        simp only [List.getElem?_cons_succ] at hk ⊢
        exact ih _ _ hn hu' k t' hk
    | const a =>
      rw [List.filterMap_cons_none (by rfl)] at hn
      rw [normBodyTerms]
      dsimp only
      cases k with
      | zero =>
        simp only [List.getElem?_cons_zero, Option.some.injEq] at hk ⊢
        subst hk
        exact ⟨_, rfl, fun w hw => (by cases hw), fun _ => ⟨_, rfl⟩⟩
      | succ k =>
        simp only [List.getElem?_cons_succ] at hk ⊢
        exact ih _ _ hn hu' k t' hk
    | oper o =>
      rw [List.filterMap_cons_none (by rfl)] at hn
      rw [normBodyTerms]
      dsimp only
      cases k with
      | zero =>
        simp only [List.getElem?_cons_zero, Option.some.injEq] at hk ⊢
        subst hk
        exact ⟨_, rfl, fun w hw => (by cases hw), fun _ => ⟨_, rfl⟩⟩
      | succ k =>
        simp only [List.getElem?_cons_succ] at hk ⊢
        exact ih _ _ hn hu' k t' hk

/-- the new operations of an atom with different variables and no expressions -/
theorem normBodyTerms_ops_const (ts : List (BTerm α)) : ∀ (used : List Variable) (g : Nat),
    (ts.filterMap fun | .var v => some v | _ => none).Nodup → (∀ v, BTerm.var v ∈ ts → v ∉ used) → (∀ o, BTerm.oper o ∉ ts) →
    ∀ o ∈ (normBodyTerms ts used g).2.1, ∃ (j : Nat) (f : Variable) (a : α), o = .equal (.var f) (.const a) ∧ ts[j]? = some (.const a) ∧
      (normBodyTerms ts used g).1[j]? = some f := by
  induction ts with
  | nil => intro used g _ _ _ o h; simp [normBodyTerms] at h
  | cons t ts ih =>
    intro used g hn hu ho o h
    have hu' : ∀ v, BTerm.var v ∈ ts → v ∉ used := fun v hv => hu v (by simp [hv])
    have ho' : ∀ o, BTerm.oper o ∉ ts := fun o hx => ho o (by simp [hx])
    cases t with
    | var v =>
      have hv : v ∉ used := hu v (by simp)
      rw [List.filterMap_cons_some (by rfl), List.nodup_cons] at hn
      rw [normBodyTerms, if_neg hv] at h ⊢
      dsimp only at h ⊢
      obtain ⟨j, f, a, h1, h2, h3⟩ := ih _ _ hn.2 (fun w hw => by
        rw [List.mem_cons, not_or]
        refine ⟨?_, hu' w hw⟩
        rintro rfl
        exact hn.1 (List.mem_filterMap.2 ⟨_, hw, rfl⟩)) ho' o h
      exact ⟨j + 1, f, a, h1, by simpa using h2, by simpa using h3⟩
    | anon =>
      rw [List.filterMap_cons_none (by rfl)] at hn
      rw [normBodyTerms] at h ⊢
      dsimp only at h ⊢
      obtain ⟨j, f, a, h1, h2, h3⟩ := ih _ _ hn hu' ho' o h
      exact ⟨j + 1, f, a, h1, by simpa using h2, by simpa using h3⟩
    | const a =>
      rw [List.filterMap_cons_none (by rfl)] at hn
      rw [normBodyTerms] at h ⊢
      dsimp only at h ⊢
      rcases List.mem_cons.1 h with rfl | h
      · exact ⟨0, _, a, rfl, rfl, rfl⟩
      · obtain ⟨j, f, a, h1, h2, h3⟩ := ih _ _ hn hu' ho' o h
        exact ⟨j + 1, f, a, h1, by simpa using h2, by simpa using h3⟩
    | oper o' => exact absurd (by simp) (ho o')

variable [DecidableEq α] [Dom α]

/-! ## The pattern uses only the positions that are considered as used -/

section rule
variable {r : LRule α} {A : SAtom α} {H : SHead α} (hp : PushRule r.toSRule A H) (hd : A.Distinct) (order : List Variable)

theorem headVars0_iff (hp : PushRule r.toSRule A H) (v : Variable) : v ∈ headVars0 r ↔ v ∈ HTerm.varsList H.terms := by
  have : r.head = [H] := hp.head
  rw [headVars0, this, mem_varsList_iff]
  simp

omit [DecidableEq α] [Dom α] in
theorem bindingVars_iff (v : Variable) : v ∈ bindingVars r ↔ ∃ o' ∈ r.operations, o'.variableAssignment.isSome ∧ v ∈ o'.vars := by
  rw [bindingVars, List.mem_flatMap]
  simp only [List.mem_filter, and_assoc]

theorem pushAtom_length (A : SAtom α) : (pushAtom A).terms.length = A.terms.length := normBodyTerms_length _ _ _

include hp hd in
theorem pushAtom_get {k : Nat} {t : BTerm α} (hk : A.terms[k]? = some t) : ∃ w, (pushAtom A).terms[k]? = some w ∧
    (∀ v, t = .var v → w = v) ∧ ((∀ v, t ≠ .var v) → ∃ j, w = freshVar "BODY" j) :=
  normBodyTerms_pos A.terms [] 0 hd (by simp) k t hk

include hp hd in
/-- **All positions to which the pattern refers are used.** -/
theorem used_position (hs : SkipOK r A H) {v : Variable} (hv : v ∈ (pushAtom A).terms)
    (hu : v ∈ (pushHead A H).vars ∨ ∃ o ∈ (normalizeRule r.toSRule order).operations, v ∈ o.vars) :
    ∃ t, A.terms[(pushAtom A).terms.idxOf v]? = some t ∧ posUsed r t = true := by
  have hlt := List.idxOf_lt_length_iff.2 hv
  have hlt' : (pushAtom A).terms.idxOf v < A.terms.length := by rw [← pushAtom_length]; exact hlt
  refine ⟨_, List.getElem?_eq_getElem hlt', ?_⟩
  set k := (pushAtom A).terms.idxOf v with hk
  have hvk : (pushAtom A).terms[k]? = some v := by
    rw [List.getElem?_eq_getElem hlt, List.getElem_idxOf]
  generalize ht : A.terms[k] = t
  have htk : A.terms[k]? = some t := by rw [List.getElem?_eq_getElem hlt', ht]
  obtain ⟨w, h1, h2, h3⟩ := pushAtom_get hp hd htk
  rw [hvk] at h1
  cases h1
  have hnd : (pushAtom A).terms.Nodup := normBodyTerms_nodup _ _ _ (hp.valid.userPos hp.memA).1
  have hnohead : ∀ j, v ≠ freshVar "HEAD" j := by
    rintro j rfl
    exact hp.head_not_atom j hv
  -- the possible uses
  have huse : v ∈ HTerm.varsList H.terms ∨ (∃ o ∈ r.operations, v ∈ o.vars) ∨ ∃ a, t = .const a := by
    rcases hu with hu | ⟨o, ho, hvo⟩
    · rcases hp.pushHead_mem hu with h | ⟨j, t', -, -, h⟩
      · exact .inl h.1
      · exact absurd h (hnohead _)
    · rcases (hp.mem_operations order o).1 ho with ho | ho | ho
      · exact .inr (.inl ⟨o, ho, hvo⟩)
      · obtain ⟨j, f, a, rfl, h4, h5⟩ := normBodyTerms_ops_const A.terms [] 0 hd (by simp) hp.simple o ho
        simp only [Operation.vars, List.append_nil, List.mem_singleton] at hvo
        subst hvo
        have hj : j = k := by
          have h6 : (pushAtom A).terms[j]? = some v := h5
          rw [List.getElem?_eq_some_iff] at h6 hvk
          obtain ⟨g1, g2⟩ := h6
          obtain ⟨g3, g4⟩ := hvk
          exact (List.Nodup.getElem_inj_iff hnd).1 (g2.trans g4.symm)
        subst hj
        rw [htk] at h4
        cases h4
        exact .inr (.inr ⟨a, rfl⟩)
      · obtain ⟨j, t', h4, h5, rfl⟩ := (mem_normHeadLoop_ops _ _ _ _).1 ho
        simp only [Operation.vars, List.cons_append, List.nil_append, List.mem_cons] at hvo
        rcases hvo with hvo | hvo
        · exact absurd hvo (hnohead _)
        · have hm := List.mem_of_getElem? h4
          exact .inl (mem_varsList_iff.2 ⟨t', hm, (norm_vars_of_noAgg (hp.noAgg t' hm) v).1 hvo⟩)
  have huser : v ∈ HTerm.varsList H.terms ∨ (∃ o ∈ r.operations, v ∈ o.vars) → ¬ v.Reserved := by
    rintro (h | ⟨o, ho, h⟩)
    · obtain ⟨t', ht', hv'⟩ := mem_varsList_iff.1 h
      exact hp.valid.userHead hp.memH t' ht' v hv'
    · exact hp.valid.userOps ho h
  cases t with
  | const a => rfl
  | oper o => exact absurd (List.mem_of_getElem? htk) (hp.simple o)
  | anon =>
    obtain ⟨j, rfl⟩ := h3 (by simp)
    rcases huse with h | h | ⟨a, h⟩
    · exact absurd (body_reserved _) (huser (.inl h))
    · exact absurd (body_reserved _) (huser (.inr h))
    · cases h
  | var w =>
    cases h2 w rfl
    rw [posUsed, decide_eq_true_eq, headVars0_iff hp, bindingVars_iff]
    rcases huse with h | ⟨o, ho, h⟩ | ⟨a, h⟩
    · exact .inl h
    · exact hs.seen o ho v h (List.mem_of_getElem? htk)
    · cases h

/-- the rows from which a rule can derive something -/
def OneRow (q : Tag) (row : List α) : Interp α := fun p x => p = q ∧ x = row

include hp hd in
/-- The pattern of the rule has the same result if columns that are not used are skipped. -/
theorem pattern_skips (skips : List Bool) (hl : skips.length = A.terms.length)
    (hs : ∀ v ∈ (pushAtom A).terms, v ∈ (pushHead A H).vars ∨ (∃ o ∈ (normalizeRule r.toSRule order).operations, v ∈ o.vars) →
      skips[(pushAtom A).terms.idxOf v]? = some false) :
    ∃ p, (normalizeRule r.toSRule order).importPattern = some (some p) ∧ p.transforms ≠ [] ∧
      (∀ row, p.toPattern.result row = (p.withSkips []).toPattern.result row) ∧
      ∀ row : List α, row.length = A.terms.length →
      (∀ out, p.toPattern.result row = some out ↔
        Derives (normalizeRule r.toSRule order) (OneRow A.pred row) (OneRow A.pred row) H.pred out) ∧
      (p.withSkips skips).toPattern.result (keepCols skips row) = p.toPattern.result row := by
  obtain ⟨p, p1, p2, p3, p4, p5⟩ := importPattern_spec (hp.importRule order)
  have hn : p.transforms ≠ [] := by
    intro hx
    rw [hx] at p4
    exact (hp.importRule order).headNonempty (List.length_eq_zero_iff.1 p4.symm)
  refine ⟨p, p1, hn, ?_, fun row hrow => ⟨fun out => p5 _ row out (by rw [hrow, pushAtom_length]), ?_⟩⟩
  · intro row
    have : p.withSkips [] = p := by
      unfold FTPattern.withSkips renameColumn
      simp
    rw [this]
  · refine (FTPattern.withSkips_result hn ?_ row (by rw [hrow, hl])).2
    intro o ho v hv
    obtain ⟨g1, g2⟩ := p2 o ho v hv
    rw [p3, markerColumn, List.idxOf_append_of_mem g1]
    exact hs v g1 g2

/-! ### Rules that are obsolete -/

omit [DecidableEq α] [Dom α] in
theorem body_single {l : List (SLit α)} (h1 : (l.filterMap fun | .pos a => some a | _ => none) = [A])
    (h2 : (l.filterMap fun | .neg a => some a | _ => none) = []) (h3 : (l.filterMap fun | .oper o => some o | _ => none) = []) :
    l = [.pos A] := by
  cases l with
  | nil => simp at h1
  | cons x l =>
    cases x with
    | neg a => simp at h2
    | oper o => simp at h3
    | pos a =>
      simp only [List.filterMap_cons, List.cons.injEq] at h1 h2 h3
      obtain ⟨rfl, h1⟩ := h1
      cases l with
      | nil => rfl
      | cons y l => cases y <;> simp_all

omit [DecidableEq α] [Dom α] in
/-- the variable of a term -/
def BTerm.plainVar? : BTerm α → Option Variable
  | .var v => some v
  | _ => none

omit [DecidableEq α] [Dom α] in
theorem firstVars_spec {ts : List (BTerm α)} : ∀ {vs : List (Option Variable)},
    (ts.mapM fun | .var v => some (some v) | .anon => some none | _ => none) = some vs → vs = ts.map BTerm.plainVar? ∧ ∀ a, .const a ∉ ts := by
  induction ts with
  | nil => intro vs h; cases h; simp
  | cons t ts ih =>
    intro vs h
    rw [List.mapM_cons] at h
    rcases h1 : (ts.mapM fun | .var v => some (some v) | .anon => some none | _ => none) with _ | ws
    · rw [h1] at h; cases t <;> simp at h
    · rw [h1] at h
      obtain ⟨i1, i2⟩ := ih h1
      cases t with
      | var v => simp at h; subst h; exact ⟨by simp [i1, BTerm.plainVar?], fun a ha => by simp at ha; exact i2 a ha⟩
      | anon => simp at h; subst h; exact ⟨by simp [i1, BTerm.plainVar?], fun a ha => by simp at ha; exact i2 a ha⟩
      | const a => simp at h
      | oper o => simp at h

omit [DecidableEq α] [Dom α] in
theorem headVarTerms_spec {ts : List (HTerm α)} : ∀ {vs : List Variable},
    (ts.mapM fun | .var v => some v | _ => none) = some vs → ts = vs.map HTerm.var := by
  induction ts with
  | nil => intro vs h; cases h; simp
  | cons t ts ih =>
    intro vs h
    rw [List.mapM_cons] at h
    rcases h1 : (ts.mapM fun | .var v => some v | _ => none) with _ | ws
    · rw [h1] at h; cases t <;> simp at h
    · rw [h1] at h
      have i1 := ih h1
      cases t with
      | var v => simp at h; subst h; simp [i1]
      | const a => simp at h
      | equal a b => simp at h
      | op k as => simp at h
      | agg k o d => simp at h

omit [DecidableEq α] [Dom α] in
theorem usedVars_eq (r : LRule α) : ∀ ts : List (BTerm α), (∀ a, .const a ∉ ts) → usedVars (ts.map (posUsed r)) (ts.map BTerm.plainVar?) =
    ((ts.filterMap BTerm.plainVar?).filter fun v => posUsed r (.var v)).map some := by
  intro ts
  induction ts with
  | nil => intro _; rfl
  | cons t ts ih =>
    intro hc
    have ih' := ih fun a ha => hc a (by simp [ha])
    unfold usedVars at ih' ⊢
    rw [List.map_cons, List.map_cons, List.zip_cons_cons, List.filter_cons]
    cases t with
    | var v =>
      rw [List.filterMap_cons_some (by rfl), List.filter_cons]
      by_cases h : posUsed r (.var v) = true
      · simp only [h, if_true, List.map_cons]; rw [ih']; rfl
      · simp only [h, if_false, Bool.false_eq_true]; exact ih'
    | anon => rw [List.filterMap_cons_none (by rfl)]; simpa [posUsed] using ih'
    | const a => exact absurd (by simp) (hc a)
    | oper o => rw [List.filterMap_cons_none (by rfl)]; simpa [posUsed] using ih'

omit [DecidableEq α] [Dom α] in
theorem keepCols_used (r : LRule α) (σ : Variable → α) : ∀ (ts : List (BTerm α)) (ws : List Variable), (∀ a, .const a ∉ ts) →
    List.Forall₂ (fun t w => ∀ v, t = .var v → w = v) ts ws → keepCols ((ts.map (posUsed r)).map not) (ws.map σ) =
    ((ts.filterMap BTerm.plainVar?).filter fun v => posUsed r (.var v)).map σ := by
  intro ts
  induction ts with
  | nil => intro ws _ h; cases h; rfl
  | cons t ts ih =>
    intro ws hc h
    cases h with
    | cons h1 h2 =>
      rename_i w ws
      have ih' := ih ws (fun a ha => hc a (by simp [ha])) h2
      rw [List.map_cons, List.map_cons, List.map_cons, keepCols]
      cases t with
      | var v =>
        rw [List.filterMap_cons_some (by rfl), List.filter_cons]
        by_cases h : posUsed r (.var v) = true
        · simp only [h, if_true, List.map_cons, Bool.not_true, Bool.false_eq_true, if_false]; rw [ih', h1 v rfl]
        · simp only [Bool.not_eq_true] at h
          simp only [h, if_false, Bool.false_eq_true, Bool.not_false, if_true]; exact ih'
      | anon => rw [List.filterMap_cons_none (by rfl)]; simpa [posUsed] using ih'
      | const a => exact absurd (by simp) (hc a)
      | oper o => rw [List.filterMap_cons_none (by rfl)]; simpa [posUsed] using ih'

omit [DecidableEq α] [Dom α] in
theorem zip_all_eq {β : Type} [DecidableEq β] : ∀ (l m : List β), l.length = m.length →
    ((l.zip (m.map some)).all fun x => decide (some x.1 = x.2)) = true → l = m := by
  intro l
  induction l with
  | nil => intro m h _; cases m <;> simp_all
  | cons a l ih =>
    intro m h h2
    cases m with
    | nil => simp at h
    | cons b m =>
      simp only [List.map_cons, List.zip_cons_cons, List.all_cons, Bool.and_eq_true, decide_eq_true_eq, Option.some.injEq] at h2
      rw [h2.1, ih m (by simpa using h) h2.2]

include hp hd in
/-- **Obsolete rules.**  The columns that are not skipped are what the rule derives. -/
theorem obsolete_result (hs : SkipOK r A H) (hun : ∃ t ∈ A.terms, posUsed r t = false)
    (ho : isObsolete (A.terms.map (posUsed r)) r = true) (row : List α) (hl : row.length = A.terms.length) (out : List α) :
    some (keepCols ((A.terms.map (posUsed r)).map not) row) = some out ↔
      Derives (normalizeRule r.toSRule order) (OneRow A.pred row) (OneRow A.pred row) H.pred out := by
  obtain ⟨hops, hnd⟩ := hs.obsolete hun ho
  have hbody : r.body = [.pos A] := body_single hp.positive hp.negative hops
  have hhead : r.head = [H] := hp.head
  unfold isObsolete at ho
  rcases h1 : headVarTerms r with _ | hv
  · rw [h1] at ho; cases ho
  rcases h2 : firstVars r with _ | vs
  · rw [h1, h2] at ho; cases ho
  rw [h1, h2] at ho
  dsimp only at ho
  unfold headVarTerms at h1
  rw [hhead] at h1
  unfold firstVars at h2
  rw [hbody] at h2
  have hterms := headVarTerms_spec h1
  obtain ⟨rfl, hconst⟩ := firstVars_spec h2
  have hvl : ∀ v, v ∈ HTerm.varsList H.terms ↔ v ∈ hv := by
    intro v
    rw [mem_varsList_iff, hterms]
    simp [HTerm.vars]
  have hvnd : hv.Nodup := by
    have : HTerm.varsList H.terms = hv := by
      rw [hterms]
      clear hterms h1 ho hvl
      induction hv with
      | nil => rfl
      | cons v l ih => rw [List.map_cons, HTerm.varsList, ih, HTerm.vars]; rfl
    rw [← this]; exact hnd
  -- the used variables
  set L := (A.terms.filterMap BTerm.plainVar?).filter fun v => posUsed r (.var v) with hL
  have hLu : usedVars (A.terms.map (posUsed r)) (A.terms.map BTerm.plainVar?) = L.map some := usedVars_eq r A.terms hconst
  rw [hLu] at ho
  have hLnd : L.Nodup := by
    refine List.Nodup.filter _ ?_
    have : (fun t : BTerm α => t.plainVar?) = (fun | .var v => some v | _ => none) := by
      funext t; cases t <;> rfl
    have h3 : A.terms.filterMap BTerm.plainVar? = A.terms.filterMap (fun | .var v => some v | _ => none) := by
      rw [← this]
    rw [h3]; exact hd
  have hLsub : ∀ v, v ∈ L ↔ v ∈ hv := by
    intro v
    rw [hL, List.mem_filter, List.mem_filterMap, posUsed, decide_eq_true_eq, headVars0_iff hp, hvl, bindingVars_iff, hops]
    constructor
    · rintro ⟨-, h | h⟩
      · exact h
      · simp at h
    · intro h
      refine ⟨⟨.var v, ?_, rfl⟩, .inl h⟩
      have hsafe : SSafe r.toSRule v := hp.headVar_safe ((hvl v).2 h)
      cases hsafe with
      | atom ha hva =>
        rw [hp.positive, List.mem_singleton] at ha
        subst ha; exact hva
      | assign ho' _ _ =>
        have : _ ∈ r.operations := ho'
        rw [hops] at this; cases this
  have hlen : hv.length = L.length := by
    refine Nat.le_antisymm ?_ ?_
    · exact (List.subperm_of_subset hvnd fun v hv' => (hLsub v).2 hv').length_le
    · exact (List.subperm_of_subset hLnd fun v hv' => (hLsub v).1 hv').length_le
  have hLe : hv = L := zip_all_eq hv L hlen ho
  -- the rule
  have hnops : (normalizeRule r.toSRule order).operations = [] := by
    rw [List.eq_nil_iff_forall_not_mem]
    intro o ho'
    rcases (hp.mem_operations order o).1 ho' with h | h | h
    · have : o ∈ r.operations := h
      rw [hops] at this; cases this
    · obtain ⟨j, f, a, -, h4, -⟩ := normBodyTerms_ops_const A.terms [] 0 hd (by simp) hp.simple o h
      exact hconst a (List.mem_of_getElem? h4)
    · obtain ⟨j, t, h4, h5, -⟩ := (mem_normHeadLoop_ops _ _ _ _).1 h
      have := List.mem_of_getElem? h4
      rw [hterms, List.mem_map] at this
      obtain ⟨v, -, rfl⟩ := this
      simp [HTerm.isOper] at h5
  have hph : (pushHead A H).terms = hv.map Primitive.var := by
    apply List.ext_getElem?
    intro j
    have h3 := normHeadLoop_terms H.terms 0 (normBodyTerms A.terms [] 0).2.2 j
    show (normHeadLoop H.terms 0 (normBodyTerms A.terms [] 0).2.2).terms[j]? = _
    rw [h3]
    generalize headGen H.terms _ j = g
    rw [hterms, List.getElem?_map, List.getElem?_map]
    rcases hv[j]? with _ | v <;> rfl
  have hder : Derives (normalizeRule r.toSRule order) (OneRow A.pred row) (OneRow A.pred row) H.pred out ↔
      ∃ σ : Variable → α, (pushAtom A).terms.map σ = row ∧ out = hv.map σ := by
    unfold Derives
    have hagg : (normalizeRule r.toSRule order).containsAggregates = false := by
      rw [NRule.containsAggregates, hp.norm_aggregation]; rfl
    rw [hagg]
    simp only [Bool.false_eq_true, if_false]
    have hinst : ∀ σ : Variable → α, (pushHead A H).inst σ = hv.map σ := by
      intro σ
      rw [HeadAtom.inst, hph, List.map_map]
      rfl
    constructor
    · intro hx
      have hcl : ∀ (q : Tag), DerivesWith (normalizeRule r.toSRule order) (BodyHolds (normalizeRule r.toSRule order) (OneRow A.pred row)
          (OneRow A.pred row)) q out → ∃ σ : Variable → α, (pushAtom A).terms.map σ = row ∧ out = hv.map σ := by
        intro q hx
        cases hx with
        | @plain σ h' i hb hh hna =>
          have : h' = pushHead A H := by
            have := List.mem_of_getElem? hh
            rw [hp.norm_heads, List.mem_singleton] at this; exact this
          subst this
          exact ⟨σ, (hb.pos (pushAtom A) (by rw [hp.norm_positive]; simp)).2, hinst σ⟩
        | agg _ ha _ => rw [hp.norm_aggregation] at ha; cases ha
      exact hcl _ hx
    · rintro ⟨σ, h3, rfl⟩
      rw [← hinst σ]
      refine DerivesWith.plain (h := pushHead A H) (i := 0) (σ := σ) ⟨?_, ?_, ?_⟩ (by rw [hp.norm_heads]; rfl) ?_
      · intro a ha
        rw [hp.norm_positive, List.mem_singleton] at ha
        subst ha
        exact ⟨rfl, h3⟩
      · intro o ho'; rw [hnops] at ho'; cases ho'
      · intro a ha; rw [hp.norm_negative] at ha; cases ha
      · intro ag; rw [hp.norm_aggregation]; simp
  have hkeep : ∀ σ : Variable → α, (pushAtom A).terms.map σ = row → keepCols ((A.terms.map (posUsed r)).map not) row = hv.map σ := by
    intro σ hσ
    rw [← hσ, keepCols_used r σ A.terms (pushAtom A).terms hconst, hLe]
    refine forall₂_of_getElem? _ _ (pushAtom_length A).symm ?_
    intro k t w hk hw
    obtain ⟨w', g1, g2, -⟩ := pushAtom_get hp hd hk
    rw [hw] at g1; cases g1
    exact g2
  have hnd' : (pushAtom A).terms.Nodup := normBodyTerms_nodup _ _ _ (hp.valid.userPos hp.memA).1
  rw [hder]
  constructor
  · intro h
    cases h
    have hv' := valuation_map (a := pushAtom A) hnd' row (by rw [hl, pushAtom_length]) [] [] []
    exact ⟨_, hv', hkeep _ hv'⟩
  · rintro ⟨σ, h3, rfl⟩
    rw [hkeep σ h3]

end rule


/-! ## The new import -/

section imports
variable (ord : LRule α → List Variable)

omit [DecidableEq α] [Dom α] in
theorem filterResult_single (q : Pattern α) (row : List α) : filterResult [q] row = q.result row := by
  unfold filterResult
  rw [List.isEmpty_cons, if_neg (by simp), List.findSome?_cons]
  cases q.result row <;> rfl

omit [DecidableEq α] [Dom α] in
theorem keepCols_replicate : ∀ (row : List α) (n : Nat), row.length = n → keepCols (List.replicate n false) row = row := by
  intro row
  induction row with
  | nil => intro n h; subst h; rfl
  | cons a row ih =>
    intro n h
    subst h
    rw [List.length_cons, List.replicate_succ, keepCols]
    simp [ih _ rfl]

/-- an import without rules -/
theorem read_nil {i : FImport α} (h : i.rules = []) : i.read ord = some (i.source.map i.columns) := by
  unfold FImport.read FImport.patterns
  rw [h]
  simp [filterResult]

/-- an import with one rule -/
theorem read_single {i : FImport α} {r : LRule α} (h : i.rules = [r]) {p : FTPattern α}
    (hp : (normalizeRule r.toSRule (ord r)).importPattern = some (some p)) :
    i.read ord = some (i.source.filterMap fun row => (p.withSkips i.skips).toPattern.result (i.columns row)) := by
  unfold FImport.read FImport.patterns
  rw [h]
  simp only [List.mapM_cons, List.mapM_nil, hp]
  simp [filterResult_single]

variable {r : LRule α} {A : SAtom α} {H : SHead α} (hp : PushRule r.toSRule A H) (hd : A.Distinct)

include hp hd in
/-- **The new import** contains exactly the facts that the rule derives from the rows of the file. -/
theorem pushImport_read {i : FImport α} (hr : i.rules = []) (hsrc : ∀ row ∈ i.source, row.length = A.terms.length)
    (hf : i.formats = none ∨ i.formats = some (List.replicate A.terms.length false)) (hs : i.skippable = true → SkipOK r A H) :
    ∃ i', pushImport { i with pred := H.pred } [r] = some i' ∧ i'.pred = H.pred ∧ ∃ rows, i'.read ord = some rows ∧
      ∀ out, out ∈ rows ↔ ∃ row ∈ i.source,
        Derives (normalizeRule r.toSRule (ord r)) (OneRow A.pred row) (OneRow A.pred row) H.pred out := by
  have hpos : r.positive = [A] := hp.positive
  -- the rule is kept and no column is skipped
  have hkeep : ∀ i' : FImport α, i'.rules = [r] → i'.source = i.source → i'.formats = i.formats → ∃ rows, i'.read ord = some rows ∧
      ∀ out, out ∈ rows ↔ ∃ row ∈ i.source,
        Derives (normalizeRule r.toSRule (ord r)) (OneRow A.pred row) (OneRow A.pred row) H.pred out := by
    intro i' h1 h2 h3
    obtain ⟨p, p1, p2, p3, p4⟩ := pattern_skips hp hd (ord r) (List.replicate A.terms.length false) (by simp) (by
      intro v hv _
      have hlt := List.idxOf_lt_length_iff.2 hv
      rw [pushAtom_length] at hlt
      simp [hlt])
    refine ⟨_, read_single ord h1 p1, fun out => ?_⟩
    rw [h2, List.mem_filterMap]
    refine exists_congr fun row => and_congr_right fun hrow => ?_
    obtain ⟨g1, g2⟩ := p4 row (hsrc row hrow)
    rw [← g1 out]
    unfold FImport.skips FImport.columns
    rw [h3]
    rcases hf with h | h
    · rw [h]; dsimp only [Option.getD]; rw [p3]
    · rw [h]; dsimp only [Option.getD]; rw [g2]
  unfold pushImport
  by_cases hsk : i.skippable = true
  · have hs' := hs hsk
    rw [if_pos hsk]
    have hpp : ((r.positive.take 1).flatMap fun a => a.terms.map (posUsed r)) = A.terms.map (posUsed r) := by rw [hpos]; simp
    have hmerge : ∀ l, mergePos [] l = l := by intro l; cases l <;> rfl
    rw [pushLoop]
    dsimp only
    rw [hpp, hmerge]
    by_cases hany : (A.terms.map (posUsed r)).any not = true
    · rw [if_pos hany]
      have hun : ∃ t ∈ A.terms, posUsed r t = false := by simpa using hany
      have hfmt : setFormats (A.terms.map (posUsed r)) i.formats = some ((A.terms.map (posUsed r)).map not) := by
        rcases hf with h | h
        · rw [h]; rfl
        · rw [h, setFormats, if_pos (by simp)]
          congr 1
          apply List.ext_getElem
          · simp
          · intro k h1 h2
            simp only [List.getElem_map, List.getElem_zip, List.getElem_replicate]
            cases posUsed r (A.terms[k]'(by simpa using h2)) <;> rfl
      rw [hfmt, Option.bind_some, pushLoop, Option.bind_some]
      simp only [List.nil_append, List.zipIdx_cons, List.zipIdx_nil, List.filter_cons, List.filter_nil]
      by_cases hob : isObsolete (A.terms.map (posUsed r)) r = true
      · rw [if_pos hob]
        refine ⟨{ i with pred := H.pred, formats := some ((A.terms.map (posUsed r)).map not), rules := i.rules ++ [] },
          by simp [removeRules], rfl, ?_⟩
        refine ⟨_, read_nil ord (by simp [hr]), fun out => ?_⟩
        rw [List.mem_map]
        refine exists_congr fun row => and_congr_right fun hrow => ?_
        rw [← obsolete_result hp hd (ord r) hs' hun hob row (hsrc row hrow) out, Option.some.injEq]
        rfl
      · rw [if_neg hob]
        refine ⟨{ i with pred := H.pred, formats := some ((A.terms.map (posUsed r)).map not), rules := i.rules ++ [r] },
          by simp [removeRules], rfl, ?_⟩
        obtain ⟨p, p1, p2, p3, p4⟩ := pattern_skips hp hd (ord r) ((A.terms.map (posUsed r)).map not) (by simp) (by
          intro v hv hu
          obtain ⟨t, h1, h2⟩ := used_position hp hd (ord r) hs' hv hu
          rw [List.getElem?_map, List.getElem?_map, h1]
          simp [h2])
        refine ⟨_, read_single ord (by simp [hr]) p1, fun out => ?_⟩
        rw [List.mem_filterMap]
        refine exists_congr fun row => and_congr_right fun hrow => ?_
        obtain ⟨g1, g2⟩ := p4 row (hsrc row hrow)
        rw [← g1 out]
        unfold FImport.skips FImport.columns
        dsimp only [Option.getD]
        rw [g2]
    · rw [if_neg hany, pushLoop, Option.bind_some]
      refine ⟨{ i with pred := H.pred, formats := i.formats, rules := i.rules ++ [r] }, by simp [removeRules], rfl, ?_⟩
      exact hkeep _ (by simp [hr]) rfl rfl
  · rw [if_neg hsk]
    exact ⟨_, rfl, rfl, hkeep _ (by simp [hr]) rfl rfl⟩

/-! ## The program -/

omit [DecidableEq α] [Dom α] in
theorem check_some {r : LRule α} {q : Tag} (h : r.check = some q) : r.negative = [] ∧ ∃ a, r.positive = [a] ∧ a.pred = q := by
  unfold LRule.check at h
  split at h
  · rename_i h1
    refine ⟨by simpa using h1, ?_⟩
    split at h
    · rename_i a ha
      split at h
      · split at h
        · cases h
        · cases h; exact ⟨a, ha, rfl⟩
      · cases h
    · cases h
  · cases h

omit [DecidableEq α] [Dom α] in
theorem internal_not_forbidden {prog : List (FStmt α)} {q : Tag} (h : isInternal prog q = true) : q ∉ forbidden prog := by
  unfold isInternal at h
  simp only [Bool.and_eq_true, decide_eq_true_eq] at h
  exact h.1.1

omit [DecidableEq α] [Dom α] in
theorem mem_rulesFor {prog : List (FStmt α)} {q : Tag} {r : LRule α} : r ∈ rulesFor prog q ↔ .rule r ∈ prog ∧ r.check = some q := by
  unfold rulesFor
  rw [List.mem_filterMap]
  constructor
  · rintro ⟨s, hs, h⟩
    cases s with
    | rule r' =>
      dsimp only at h
      split at h
      · cases h; exact ⟨hs, by assumption⟩
      · cases h
    | _ => cases h
  · rintro ⟨h1, h2⟩
    exact ⟨_, h1, by simp [h2]⟩

theorem mem_norm_predsPositive {S : SRule α} {order : List Variable} {p : Tag} :
    p ∈ (normalizeRule S order).predsPositive ↔ ∃ a ∈ S.positive, a.pred = p := by
  unfold NRule.predsPositive
  simp only [List.mem_map, mem_norm_pos]
  constructor
  · rintro ⟨x, ⟨a, k, h, rfl⟩, rfl⟩; exact ⟨a, h.mem, rfl⟩
  · rintro ⟨a, h, rfl⟩
    obtain ⟨k, hk⟩ := exists_atomAt 0 h
    exact ⟨_, ⟨a, k, hk, rfl⟩, rfl⟩

theorem mem_norm_predsNegative {S : SRule α} {order : List Variable} {p : Tag} :
    p ∈ (normalizeRule S order).predsNegative ↔ ∃ a ∈ S.negative, a.pred = p := by
  unfold NRule.predsNegative
  simp only [List.mem_map, mem_norm_neg]
  constructor
  · rintro ⟨x, ⟨a, k, h, rfl⟩, rfl⟩; exact ⟨a, h.mem, rfl⟩
  · rintro ⟨a, h, rfl⟩
    obtain ⟨k, hk⟩ := exists_atomAt (posGen S) h
    exact ⟨_, ⟨a, k, hk, rfl⟩, rfl⟩

theorem mem_norm_predsHead {S : SRule α} {order : List Variable} {p : Tag} :
    p ∈ (normalizeRule S order).predsHead ↔ ∃ h ∈ S.head, h.pred = p := by
  unfold NRule.predsHead
  simp only [List.mem_map]
  constructor
  · rintro ⟨x, hx, rfl⟩
    obtain ⟨j, hj⟩ := List.getElem?_of_mem hx
    rw [norm_head] at hj
    rcases hh : S.head[j]? with _ | h
    · rw [hh] at hj; cases hj
    · rw [hh] at hj; cases hj
      exact ⟨h, List.mem_of_getElem? hh, rfl⟩
  · rintro ⟨h, hh, rfl⟩
    obtain ⟨j, hj⟩ := List.getElem?_of_mem hh
    have h1 := norm_head (S := S) order j
    rw [hj] at h1
    exact ⟨_, List.mem_of_getElem? h1, rfl⟩

variable {prog : List (FStmt α)}

omit [DecidableEq α] [Dom α] in
theorem forbidden_rule {r : LRule α} (h : .rule r ∈ prog) (hc : r.check = none) {p : Tag} (hp : p ∈ r.preds) : p ∈ forbidden prog :=
  List.mem_flatMap.2 ⟨_, h, by simp [hc, hp]⟩

/-- the rules that are internalized, and the others -/
theorem filter_internalize (hok : FilterOK prog) :
    Internalize (fun q => isInternal prog q = true)
      ((prog.filterMap fun | .rule r => if removed prog r then none else some r | _ => none).map fun r => normalizeRule r.toSRule (ord r))
      ((prog.filterMap fun | .rule r => if removed prog r then some r else none | _ => none).map fun r => normalizeRule r.toSRule (ord r)) := by
  have houter : ∀ x ∈ ((prog.filterMap fun | .rule r => if removed prog r then none else some r | _ => none).map
      fun r => normalizeRule r.toSRule (ord r)), ∃ r, .rule r ∈ prog ∧ removed prog r = false ∧ x = normalizeRule r.toSRule (ord r) := by
    intro x hx
    obtain ⟨r, hr, rfl⟩ := List.mem_map.1 hx
    obtain ⟨s, hs, hsr⟩ := List.mem_filterMap.1 hr
    cases s with
    | rule r' =>
      dsimp only at hsr
      split at hsr
      · cases hsr
      · rename_i h1
        cases hsr
        exact ⟨r, hs, by simpa using h1, rfl⟩
    | _ => cases hsr
  have hinner : ∀ x ∈ ((prog.filterMap fun | .rule r => if removed prog r then some r else none | _ => none).map
      fun r => normalizeRule r.toSRule (ord r)), ∃ r q A H, .rule r ∈ prog ∧ r.check = some q ∧ isInternal prog q = true ∧
        PushRule r.toSRule A H ∧ A.pred = q ∧ x = normalizeRule r.toSRule (ord r) := by
    intro x hx
    obtain ⟨r, hr, rfl⟩ := List.mem_map.1 hx
    obtain ⟨s, hs, hsr⟩ := List.mem_filterMap.1 hr
    cases s with
    | rule r' =>
      dsimp only at hsr
      split at hsr
      · rename_i h1
        cases hsr
        unfold removed at h1
        rcases hc : r.check with _ | q
        · rw [hc] at h1; cases h1
        · rw [hc] at h1
          obtain ⟨r0, A, H, h2, h3, -, -⟩ := hok.rule q h1
          have h4 : r ∈ rulesFor prog q := mem_rulesFor.2 ⟨hs, hc⟩
          rw [h2, List.mem_singleton] at h4
          subst h4
          obtain ⟨-, a, ha, haq⟩ := check_some hc
          have h5 : r.positive = [A] := h3.positive
          rw [ha] at h5
          cases h5
          exact ⟨r, q, A, H, hs, hc, h1, h3, haq, rfl⟩
      · cases hsr
    | _ => cases hsr
  refine ⟨?_, ?_, ?_, ?_, ?_, ?_, ?_⟩
  · intro x hx p hpx hQ
    obtain ⟨r, h1, h2, rfl⟩ := houter x hx
    rw [mem_norm_predsPositive] at hpx
    obtain ⟨a, ha, rfl⟩ := hpx
    rcases hc : r.check with _ | q
    · refine internal_not_forbidden hQ (forbidden_rule h1 hc ?_)
      exact List.mem_append_left _ (List.mem_append_right _ (List.mem_map.2 ⟨a, ha, rfl⟩))
    · obtain ⟨-, a', ha', rfl⟩ := check_some hc
      have ha2 : a ∈ r.positive := ha
      rw [ha', List.mem_singleton] at ha2
      subst ha2
      unfold removed at h2
      rw [hc] at h2
      dsimp only at h2
      rw [hQ] at h2; cases h2
  · intro x hx p hpx hQ
    obtain ⟨r, h1, h2, rfl⟩ := houter x hx
    rw [mem_norm_predsNegative] at hpx
    obtain ⟨a, ha, rfl⟩ := hpx
    rcases hc : r.check with _ | q
    · refine internal_not_forbidden hQ (forbidden_rule h1 hc ?_)
      exact List.mem_append_right _ (List.mem_map.2 ⟨a, ha, rfl⟩)
    · have ha2 : a ∈ r.negative := ha
      rw [(check_some hc).1] at ha2
      cases ha2
  · intro x hx p hpx hQ
    obtain ⟨r, h1, h2, rfl⟩ := houter x hx
    rw [mem_norm_predsHead] at hpx
    obtain ⟨h, hh, rfl⟩ := hpx
    exact hok.underived _ hQ r h1 h hh rfl
  · intro x hx p hpx
    obtain ⟨r, q, A, H, h1, h2, h3, h4, rfl, rfl⟩ := hinner x hx
    rw [mem_norm_predsPositive, h4.positive] at hpx
    simp only [List.mem_singleton, exists_eq_left] at hpx
    rw [← hpx]; exact h3
  · intro x hx
    obtain ⟨r, q, A, H, h1, h2, h3, h4, rfl, rfl⟩ := hinner x hx
    exact h4.norm_negative _
  · intro x hx
    obtain ⟨r, q, A, H, h1, h2, h3, h4, rfl, rfl⟩ := hinner x hx
    exact h4.norm_aggregation _
  · intro x hx p hpx hQ
    obtain ⟨r, q, A, H, h1, h2, h3, h4, rfl, rfl⟩ := hinner x hx
    rw [mem_norm_predsHead] at hpx
    obtain ⟨h, hh, rfl⟩ := hpx
    exact hok.underived _ hQ r h1 h hh rfl

/-- the import that replaces an import -/
theorem newImport_spec (hok : FilterOK prog) {i : FImport α} (hi : .imp i ∈ prog) :
    ∃ i', newImport prog i = some i' ∧ ((isInternal prog i.pred = false ∧ i' = i) ∨
      (isInternal prog i.pred = true ∧ ∃ r A H, rulesFor prog i.pred = [r] ∧ PushRule r.toSRule A H ∧ A.pred = i.pred ∧ i'.pred = H.pred ∧
        (∀ row ∈ i.source, row.length = A.terms.length) ∧ i.read ord = some i.source ∧ ∃ rows, i'.read ord = some rows ∧
        ∀ out, out ∈ rows ↔ ∃ row ∈ i.source,
          Derives (normalizeRule r.toSRule (ord r)) (OneRow A.pred row) (OneRow A.pred row) H.pred out)) := by
  unfold newImport
  by_cases hq : isInternal prog i.pred = true
  · rw [if_pos hq]
    obtain ⟨r, A, H, h1, h2, h3, h4⟩ := hok.rule _ hq
    obtain ⟨g1, g2, g3⟩ := h4 i hi rfl
    have hr := hok.imports i hi
    rw [h1]
    rw [if_pos (by simp)]
    have hh : r.head = [H] := h2.head
    have hp0 : headPred0 [r] i.pred = H.pred := by simp [headPred0, hh]
    rw [hp0]
    obtain ⟨i', k1, k2, k3⟩ := pushImport_read ord h2 h3 hr g1 g2 g3
    refine ⟨i', k1, .inr ⟨hq, r, A, H, rfl, h2, ?_, k2, g1, ?_, k3⟩⟩
    · have : r ∈ rulesFor prog i.pred := by rw [h1]; simp
      obtain ⟨-, a, ha, haq⟩ := check_some (mem_rulesFor.1 this).2
      have h5 : r.positive = [A] := h2.positive
      rw [ha] at h5; cases h5
      exact haq
    · rw [read_nil ord hr]
      congr 1
      conv_rhs => rw [← List.map_id i.source]
      refine List.map_congr_left fun row hrow => ?_
      unfold FImport.columns
      rcases g2 with h | h
      · rw [h]; rfl
      · rw [h]; exact keepCols_replicate row _ (g1 row hrow)
  · rw [if_neg hq]
    exact ⟨i, rfl, .inl ⟨by simpa using hq, rfl⟩⟩

/-- the statements of the new program -/
theorem filterImports_mem (hok : FilterOK prog) : ∃ prog', filterImports prog = some prog' ∧
    (∀ s, s ∈ prog' ↔ ∃ s₀ ∈ prog, ∃ l, filterStmt prog s₀ = some l ∧ s ∈ l) ∧
    progRules ord prog' = (prog.filterMap fun | .rule r => if removed prog r then none else some r | _ => none).map
      fun r => normalizeRule r.toSRule (ord r) := by
  unfold filterImports
  have key : ∀ l : List (FStmt α), (∀ s ∈ l, s ∈ prog) → ∃ ls, l.mapM (filterStmt prog) = some ls ∧
      (∀ s, s ∈ ls.flatten ↔ ∃ s₀ ∈ l, ∃ x, filterStmt prog s₀ = some x ∧ s ∈ x) ∧
      progRules ord ls.flatten = (l.filterMap fun | .rule r => if removed prog r then none else some r | _ => none).map
        fun r => normalizeRule r.toSRule (ord r) := by
    intro l
    induction l with
    | nil => intro _; exact ⟨[], rfl, by simp, rfl⟩
    | cons s l ih =>
      intro hl
      obtain ⟨ls, i1, i2, i3⟩ := ih fun s hs => hl s (by simp [hs])
      have hdef : ∃ x, filterStmt prog s = some x ∧ progRules ord x = ([s].filterMap fun
          | .rule r => if removed prog r then none else some r | _ => none).map fun r => normalizeRule r.toSRule (ord r) := by
        cases s with
        | rule r =>
          refine ⟨_, rfl, ?_⟩
          by_cases hr : removed prog r = true
          · simp [hr, progRules]
          · simp [hr, progRules]
        | imp i =>
          obtain ⟨i', h1, -⟩ := newImport_spec ord hok (hl (.imp i) (by simp))
          exact ⟨_, by rw [filterStmt, h1]; rfl, rfl⟩
        | fact p row => exact ⟨_, rfl, rfl⟩
        | exp p => exact ⟨_, rfl, rfl⟩
        | out p => exact ⟨_, rfl, rfl⟩
      obtain ⟨x, hx, hx2⟩ := hdef
      refine ⟨x :: ls, by rw [List.mapM_cons, hx, i1]; rfl, ?_, ?_⟩
      · intro t
        rw [List.flatten_cons, List.mem_append, i2]
        simp only [List.mem_cons, exists_eq_or_imp, hx, Option.some.injEq, exists_eq_left']
      · have happ : ∀ a b : List (FStmt α), progRules ord (a ++ b) = progRules ord a ++ progRules ord b := by
          intro a b; unfold progRules; rw [List.filterMap_append]
        rw [List.flatten_cons, happ, hx2, i3, ← List.map_append, ← List.filterMap_append]
        rfl
  obtain ⟨ls, h1, h2, h3⟩ := key prog fun s hs => hs
  exact ⟨ls.flatten, by rw [h1]; rfl, h2, h3⟩

/-- **C46.**  If rules are evaluated while importing, then the meaning of the program does not change: the transformation succeeds, all
imports of the new program can be read, each stable model of the program has the same facts for all predicates that are not
internalized as some stable model of the new program, and vice versa.  In particular, this holds for all output and export
predicates. -/
theorem filterImports_stable_partial (hok : FilterOK prog) : ∃ prog', filterImports prog = some prog' ∧
    (∀ i, .imp i ∈ prog' → (∃ i₀, .imp i₀ ∈ prog ∧ i₀.read ord = none) ∨ i.read ord ≠ none) ∧
    (∀ M, IsStable (progRules ord prog) (progEdb ord prog) M → ∃ M', IsStable (progRules ord prog') (progEdb ord prog') M' ∧
      ∀ p row, isInternal prog p = false → (M p row ↔ M' p row)) ∧
    (∀ M', IsStable (progRules ord prog') (progEdb ord prog') M' → ∃ M, IsStable (progRules ord prog) (progEdb ord prog) M ∧
      ∀ p row, isInternal prog p = false → (M p row ↔ M' p row)) ∧
    ∀ p, .out p ∈ prog ∨ .exp p ∈ prog → isInternal prog p = false := by
  obtain ⟨prog', h1, h2, h3⟩ := filterImports_mem ord hok
  refine ⟨prog', h1, ?_, ?_⟩
  · intro i hi
    obtain ⟨s₀, g1, l, g2, g3⟩ := (h2 _).1 hi
    cases s₀ with
    | imp i₀ =>
      obtain ⟨i', k1, k2⟩ := newImport_spec ord hok g1
      rw [filterStmt, k1] at g2
      cases g2
      have : i = i' := by simpa using g3
      subst this
      rcases k2 with ⟨-, rfl⟩ | ⟨-, r, A, H, -, -, -, -, -, -, rows, k3, -⟩
      · by_cases hn : i.read ord = none
        · exact .inl ⟨i, g1, hn⟩
        · exact .inr hn
      · right; rw [k3]; simp
    | rule r => cases g2; split at g3 <;> simp at g3
    | fact p row => cases g2; simp at g3
    | exp p => cases g2; simp at g3
    | out p => cases g2; simp at g3
  · have he : ∀ p row, progEdb ord prog' p row ↔ innerEdb (fun q => isInternal prog q = true)
        ((prog.filterMap fun | .rule r => if removed prog r then some r else none | _ => none).map
          fun r => normalizeRule r.toSRule (ord r)) (progEdb ord prog) p row := by
      intro p row
      constructor
      · rintro (hf | ⟨i, hi, rfl, rows, hrows, hrow⟩)
        · obtain ⟨s₀, g1, l, g2, g3⟩ := (h2 _).1 hf
          cases s₀ with
          | fact p' row' =>
            cases g2
            have : FStmt.fact p row = .fact p' row' := by simpa using g3
            cases this
            refine ⟨fun hQ => internal_not_forbidden hQ ?_, .inl (.inl g1)⟩
            exact List.mem_flatMap.2 ⟨_, g1, by simp⟩
          | imp i₀ =>
            obtain ⟨i', k1, -⟩ := newImport_spec ord hok g1
            rw [filterStmt, k1] at g2
            cases g2
            simp at g3
          | rule r => cases g2; split at g3 <;> simp at g3
          | exp p => cases g2; simp at g3
          | out p => cases g2; simp at g3
        · obtain ⟨s₀, g1, l, g2, g3⟩ := (h2 _).1 hi
          cases s₀ with
          | imp i₀ =>
            obtain ⟨i', k1, k2⟩ := newImport_spec ord hok g1
            rw [filterStmt, k1] at g2
            cases g2
            have : i = i' := by simpa using g3
            subst this
            rcases k2 with ⟨k2, rfl⟩ | ⟨k2, r, A, H, k3, k4, k5, k6, k7, k8, rows', k9, k10⟩
            · exact ⟨by simp [k2], .inl (.inr ⟨i, g1, rfl, rows, hrows, hrow⟩)⟩
            · rw [hrows] at k9
              cases k9
              obtain ⟨row₀, m1, m2⟩ := (k10 row).1 hrow
              have hmem : r ∈ rulesFor prog i₀.pred := by rw [k3]; simp
              obtain ⟨hrp, hrc⟩ := mem_rulesFor.1 hmem
              rw [k6]
              refine ⟨fun hQ => hok.underived _ hQ r hrp H k4.memH rfl, .inr ⟨normalizeRule r.toSRule (ord r), ?_, ?_⟩⟩
              · refine List.mem_map.2 ⟨r, List.mem_filterMap.2 ⟨_, hrp, ?_⟩, rfl⟩
                have : removed prog r = true := by unfold removed; rw [hrc]; exact k2
                simp [this]
              · refine (derives_single (k4.importRule (ord r)) _ _ _ _).2 ⟨row₀, ?_, ?_, ?_⟩
                · exact .inr ⟨i₀, g1, k5.symm, _, k8, m1⟩
                · rw [pushAtom_length]; exact k7 row₀ m1
                · refine (Derives.congr (fun _ _ _ => Iff.rfl) ?_ _ _).1 m2
                  rw [predsStrict_of_no_agg (k4.norm_negative _) (k4.norm_aggregation _)]
                  simp
          | fact p' row' => cases g2; simp at g3
          | rule r => cases g2; split at g3 <;> simp at g3
          | exp p => cases g2; simp at g3
          | out p => cases g2; simp at g3
      · rintro ⟨hQ, (hf | ⟨i, hi, rfl, rows, hrows, hrow⟩) | ⟨x, hx, hdx⟩⟩
        · exact .inl ((h2 _).2 ⟨_, hf, _, rfl, by simp⟩)
        · obtain ⟨i', k1, k2⟩ := newImport_spec ord hok hi
          rcases k2 with ⟨k2, rfl⟩ | ⟨k2, -⟩
          · exact .inr ⟨i', (h2 _).2 ⟨_, hi, _, by rw [filterStmt, k1]; rfl, by simp⟩, rfl, rows, hrows, hrow⟩
          · exact absurd k2 hQ
        · obtain ⟨r, hr, rfl⟩ := List.mem_map.1 hx
          obtain ⟨s, hs, hsr⟩ := List.mem_filterMap.1 hr
          cases s with
          | rule r' =>
            dsimp only at hsr
            split at hsr
            · rename_i hrem
              cases hsr
              unfold removed at hrem
              rcases hc : r.check with _ | q
              · rw [hc] at hrem; cases hrem
              · rw [hc] at hrem
                dsimp only at hrem
                obtain ⟨r0, A, H, m1, m2, -, -⟩ := hok.rule q hrem
                have m3 : r ∈ rulesFor prog q := mem_rulesFor.2 ⟨hs, hc⟩
                rw [m1, List.mem_singleton] at m3
                subst m3
                obtain ⟨-, a, ha, haq⟩ := check_some hc
                have m4 : r.positive = [A] := m2.positive
                rw [ha] at m4; cases m4
                obtain ⟨row₀, n1, n2, n3⟩ := (derives_single (m2.importRule (ord r)) _ _ _ _).1 hdx
                have hpq : p = H.pred := by
                  have := n3.head_mem
                  rw [NRule.predsHead, m2.norm_heads] at this
                  simpa [pushHead] using this
                subst hpq
                rcases n1 with hfact | ⟨i, hi, hip, rows, hrows, hrow⟩
                · have : (pushAtom A).pred ∈ forbidden prog := List.mem_flatMap.2 ⟨_, hfact, by simp⟩
                  refine absurd this (internal_not_forbidden ?_)
                  show isInternal prog A.pred = true
                  rw [haq]; exact hrem
                · have hip' : i.pred = q := by rw [hip]; exact haq
                  obtain ⟨i', k1, k2⟩ := newImport_spec ord hok hi
                  rcases k2 with ⟨k2, -⟩ | ⟨-, r', A', H', k3, k4, k5, k6, k7, k8, rows', k9, k10⟩
                  · rw [hip', hrem] at k2; cases k2
                  · rw [hip', m1] at k3
                    cases k3
                    have hA : A' = A := by
                      have e1 := k4.positive
                      rw [m2.positive] at e1; cases e1; rfl
                    have hH : H' = H := by
                      have e1 := k4.head
                      rw [m2.head] at e1; cases e1; rfl
                    subst hA hH
                    rw [k8] at hrows; cases hrows
                    refine .inr ⟨i', (h2 _).2 ⟨_, hi, _, by rw [filterStmt, k1]; rfl, by simp⟩, k6, rows', k9, ?_⟩
                    refine (k10 row).2 ⟨row₀, hrow, ?_⟩
                    refine (Derives.congr (fun _ _ _ => Iff.rfl) ?_ _ _).1 n3
                    rw [predsStrict_of_no_agg (m2.norm_negative _) (m2.norm_aggregation _)]
                    simp
            · cases hsr
          | _ => cases hsr
    have hr : ∀ x, x ∈ progRules ord prog ↔ x ∈ ((prog.filterMap fun | .rule r => if removed prog r then none else some r | _ => none).map
        fun r => normalizeRule r.toSRule (ord r)) ∨ x ∈ ((prog.filterMap fun | .rule r => if removed prog r then some r else none | _ => none).map
          fun r => normalizeRule r.toSRule (ord r)) := by
      intro x
      unfold progRules
      simp only [List.mem_map, List.mem_filterMap]
      constructor
      · rintro ⟨s, hs, hx⟩
        cases s with
        | rule r =>
          cases hx
          by_cases hrem : removed prog r = true
          · exact .inr ⟨r, ⟨_, hs, by simp [hrem]⟩, rfl⟩
          · exact .inl ⟨r, ⟨_, hs, by simp [hrem]⟩, rfl⟩
        | _ => cases hx
      · rintro (⟨r, ⟨s, hs, hsr⟩, rfl⟩ | ⟨r, ⟨s, hs, hsr⟩, rfl⟩)
        · cases s with
          | rule r' =>
            dsimp only at hsr
            split at hsr
            · cases hsr
            · cases hsr; exact ⟨_, hs, rfl⟩
          | _ => cases hsr
        · cases s with
          | rule r' =>
            dsimp only at hsr
            split at hsr
            · cases hsr; exact ⟨_, hs, rfl⟩
            · cases hsr
          | _ => cases hsr
    obtain ⟨c1, c2⟩ := internalize_stable (filter_internalize ord hok) he _ hr
    rw [h3]
    refine ⟨?_, ?_, ?_⟩
    · intro M hM
      obtain ⟨M', a1, a2⟩ := c1 M hM
      exact ⟨M', a1, fun p row hp => a2 p row (by simp [hp])⟩
    · intro M' hM
      obtain ⟨M, a1, a2⟩ := c2 M' hM
      exact ⟨M, a1, fun p row hp => a2 p row (by simp [hp])⟩
    · intro p hp
      rw [← Bool.not_eq_true]
      intro hQ
      refine internal_not_forbidden hQ ?_
      rcases hp with hp | hp
      · exact List.mem_flatMap.2 ⟨_, hp, by simp⟩
      · exact List.mem_flatMap.2 ⟨_, hp, by simp⟩

end imports

end Verif
