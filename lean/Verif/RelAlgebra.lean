import Verif.Planning

/-!
# The relational operations of the planner, in terms of valuations

`R.Holds σ` means that the table with named columns `R` contains the row that the valuation `σ` gives
to the columns of `R`.  Each operation is characterized in these terms.
-/

set_option linter.unusedSimpArgs false
set_option linter.unusedSectionVars false

namespace Verif
variable {α : Type} [DecidableEq α] [Dom α]

/-! ## Terms -/

namespace Operation

mutual
theorem eval_congr {σ τ : Variable → α} : (o : Operation α) → (∀ v ∈ o.vars, σ v = τ v) → o.eval σ = o.eval τ
  | .var v, h => by simp [eval, h v (by simp [vars])]
  | .const _, _ => rfl
  | .equal l r, h => by
    simp only [eval, eval_congr l (fun v hv => h v (by simp [vars, hv])),
      eval_congr r (fun v hv => h v (by simp [vars, hv]))]
  | .op k ts, h => by
    simp only [eval, evalList_congr ts (fun v hv => h v (by simpa [vars] using hv))]
theorem evalList_congr {σ τ : Variable → α} : (ts : List (Operation α)) →
    (∀ v ∈ varsList ts, σ v = τ v) → evalList σ ts = evalList τ ts
  | [], _ => rfl
  | t :: ts, h => by
    simp only [evalList, eval_congr t (fun v hv => h v (by simp [varsList, hv])),
      evalList_congr ts (fun v hv => h v (by simp [varsList, hv]))]
end

theorem eval_equal_tru (σ : Variable → α) (l r : Operation α) :
    (Operation.equal l r).eval σ = some Dom.tru ↔ ∃ a, l.eval σ = some a ∧ r.eval σ = some a := by
  have := (Dom.tru_ne_fls (α := α))
  cases hl : l.eval σ <;> cases hr : r.eval σ <;> simp [eval, hl, hr]
  rename_i a b
  by_cases h : a = b
  · simp [h]
  · simp [h, Ne.symm this]; exact fun h' => h h'.symm

/-- An assignment is true iff the variable has the value of the term. -/
theorem eval_assignment {σ : Variable → α} {o e : Operation α} {v : Variable}
    (h : o.variableAssignment = some (v, e)) : o.eval σ = some Dom.tru ↔ e.eval σ = some (σ v) := by
  unfold variableAssignment at h
  split at h
  · simp only [Option.some.injEq, Prod.mk.injEq] at h
    obtain ⟨rfl, rfl⟩ := h
    rw [eval_equal_tru]; simp [eval]
  · simp only [Option.some.injEq, Prod.mk.injEq] at h
    obtain ⟨rfl, rfl⟩ := h
    rw [eval_equal_tru]; simp [eval]
  · cases h

theorem vars_assignment {o e : Operation α} {v : Variable} (h : o.variableAssignment = some (v, e)) (w : Variable) :
    w ∈ o.vars ↔ w = v ∨ w ∈ e.vars := by
  unfold variableAssignment at h
  split at h
  · simp only [Option.some.injEq, Prod.mk.injEq] at h
    obtain ⟨rfl, rfl⟩ := h
    simp [vars]
  · simp only [Option.some.injEq, Prod.mk.injEq] at h
    obtain ⟨rfl, rfl⟩ := h
    simp [vars, or_comm]
  · cases h

end Operation

/-! ## Rows and valuations -/

theorem assign_cons (v w : Variable) (cols : List Variable) (a : α) (row : List α) :
    assign (v :: cols) (a :: row) w = if w = v then a else assign cols row w := by
  unfold assign
  simp only [List.zip_cons_cons, List.lookup_cons]
  by_cases h : w = v
  · simp [h]
  · rw [if_neg h, beq_eq_false_iff_ne.2 h]

theorem assign_map (cols : List Variable) (σ : Variable → α) {v : Variable} (h : v ∈ cols) :
    assign cols (cols.map σ) v = σ v := by
  induction cols with
  | nil => simp at h
  | cons w cols ih =>
    rw [List.map_cons, assign_cons]
    split
    · subst_vars; rfl
    · rename_i hne; exact ih ((List.mem_cons.1 h).resolve_left hne)

theorem map_assign {cols : List Variable} (hn : cols.Nodup) {row : List α} (hl : row.length = cols.length) :
    cols.map (assign cols row) = row := by
  induction cols generalizing row with
  | nil => simp at hl; simp [hl]
  | cons v cols ih =>
    match row with
    | [] => simp at hl
    | a :: row =>
      rw [List.nodup_cons] at hn
      rw [List.map_cons, assign_cons, if_pos rfl]
      congr 1
      rw [← ih hn.2 (row := row) (by simpa using hl)]
      apply List.map_congr_left
      intro w hw
      rw [assign_cons, if_neg (by rintro rfl; exact hn.1 hw), ih hn.2 (by simpa using hl)]

theorem assign_append_left {cols cols' : List Variable} {row row' : List α} {v : Variable} (h : v ∈ cols)
    (hl : row.length = cols.length) : assign (cols ++ cols') (row ++ row') v = assign cols row v := by
  induction cols generalizing row with
  | nil => simp at h
  | cons w cols ih =>
    match row with
    | [] => simp at hl
    | a :: row =>
      rw [List.cons_append, List.cons_append, assign_cons, assign_cons]
      split
      · rfl
      · rename_i hne; exact ih ((List.mem_cons.1 h).resolve_left hne) (by simpa using hl)

namespace Rel

/-- The columns are different and the rows have the right length. -/
structure WF (R : Rel α) : Prop where
  nodup : R.cols.Nodup
  len : ∀ row ∈ R.rows, row.length = R.cols.length

/-- the table contains the row given by the valuation -/
def Holds (R : Rel α) (σ : Variable → α) : Prop := R.cols.map σ ∈ R.rows

theorem Holds.congr {R : Rel α} {σ τ : Variable → α} (h : ∀ v ∈ R.cols, σ v = τ v) : R.Holds σ ↔ R.Holds τ := by
  unfold Holds; rw [List.map_congr_left h]

theorem WF.holds_assign {R : Rel α} (h : R.WF) {row : List α} (hr : row ∈ R.rows) :
    R.Holds (assign R.cols row) := by
  unfold Holds; rw [map_assign h.nodup (h.len _ hr)]; exact hr

theorem WF.mem_rows {R : Rel α} (h : R.WF) (row : List α) :
    row ∈ R.rows ↔ ∃ σ, R.Holds σ ∧ row = R.cols.map σ := by
  constructor
  · exact fun hr => ⟨_, h.holds_assign hr, (map_assign h.nodup (h.len _ hr)).symm⟩
  · rintro ⟨σ, hs, rfl⟩; exact hs

theorem WF.rows_empty {R : Rel α} (h : R.WF) : R.rows = [] ↔ ∀ σ, ¬ R.Holds σ := by
  constructor
  · intro he σ; simp [Holds, he]
  · intro hn
    cases hr : R.rows with
    | nil => rfl
    | cons row rows => exact absurd (h.holds_assign (by rw [hr]; exact List.mem_cons_self)) (hn _)

theorem mem_tuples (dom : List α) (n : Nat) (l : List α) :
    l ∈ tuples dom n ↔ l.length = n ∧ ∀ a ∈ l, a ∈ dom := by
  induction n generalizing l with
  | zero => simp [tuples]; rintro rfl; simp
  | succ n ih =>
    simp only [tuples, List.mem_flatMap, List.mem_map, ih]
    constructor
    · rintro ⟨a, ha, t, ⟨h1, h2⟩, rfl⟩
      refine ⟨by simp [h1], ?_⟩
      intro b hb
      rcases List.mem_cons.1 hb with rfl | hb
      · exact ha
      · exact h2 b hb
    · rintro ⟨h1, h2⟩
      match l with
      | a :: t =>
        exact ⟨a, h2 a List.mem_cons_self, t, ⟨by simpa using h1, fun b hb => h2 b (List.mem_cons_of_mem _ hb)⟩, rfl⟩

theorem join_wf (cols : List Variable) (rs : List (Rel α)) (hn : cols.Nodup) : (join cols rs).WF := by
  refine ⟨hn, ?_⟩
  intro row hr
  simp only [join, List.mem_filter, mem_tuples] at hr
  exact hr.1.1

theorem join_holds (cols : List Variable) (rs : List (Rel α)) (hsub : ∀ r ∈ rs, ∀ v ∈ r.cols, v ∈ cols)
    (hcov : ∀ v ∈ cols, ∃ r ∈ rs, v ∈ r.cols) (σ : Variable → α) :
    (join cols rs).Holds σ ↔ ∀ r ∈ rs, r.Holds σ := by
  have key : ∀ r ∈ rs, r.cols.map (assign cols (cols.map σ)) = r.cols.map σ := fun r hr =>
    List.map_congr_left fun v hv => assign_map _ _ (hsub r hr v hv)
  simp only [Holds, join, List.mem_filter, mem_tuples, List.all_eq_true, decide_eq_true_eq,
    List.length_map, true_and]
  constructor
  · rintro ⟨-, h⟩ r hr
    rw [← key r hr]; exact h r hr
  · intro h
    refine ⟨?_, fun r hr => by rw [key r hr]; exact h r hr⟩
    intro a ha
    obtain ⟨v, hv, rfl⟩ := List.mem_map.1 ha
    obtain ⟨r, hr, hvr⟩ := hcov v hv
    rw [List.mem_dedup, List.mem_flatMap]
    exact ⟨r, hr, List.mem_flatten.2 ⟨_, h r hr, List.mem_map_of_mem hvr⟩⟩

theorem union_wf (cols : List Variable) (rs : List (Rel α)) (hn : cols.Nodup)
    (h : ∀ r ∈ rs, r.WF ∧ r.cols.length = cols.length) : (union cols rs).WF := by
  refine ⟨hn, ?_⟩
  intro row hr
  obtain ⟨r, hr, hrow⟩ := List.mem_flatMap.1 hr
  rw [(h r hr).1.len _ hrow]; exact (h r hr).2

theorem union_holds (cols : List Variable) (rs : List (Rel α)) (h : ∀ r ∈ rs, r.cols = cols)
    (σ : Variable → α) : (union cols rs).Holds σ ↔ ∃ r ∈ rs, r.Holds σ := by
  simp only [Holds, union, List.mem_flatMap]
  constructor <;> rintro ⟨r, hr, hx⟩ <;> exact ⟨r, hr, by rw [h r hr] at *; exact hx⟩

theorem subtract_wf {r : Rel α} (h : r.WF) (others : List (Rel α)) : (r.subtract others).WF :=
  ⟨h.nodup, fun row hr => h.len row (List.mem_of_mem_filter hr)⟩

theorem subtract_holds (r : Rel α) (others : List (Rel α)) (hsub : ∀ s ∈ others, ∀ v ∈ s.cols, v ∈ r.cols)
    (σ : Variable → α) : (r.subtract others).Holds σ ↔ r.Holds σ ∧ ∀ s ∈ others, ¬ s.Holds σ := by
  have key : ∀ s ∈ others, s.cols.map (assign r.cols (r.cols.map σ)) = s.cols.map σ := fun s hs =>
    List.map_congr_left fun v hv => assign_map _ _ (hsub s hs v hv)
  simp only [Holds, subtract, List.mem_filter, List.all_eq_true, decide_eq_true_eq]
  refine and_congr_right fun _ => forall₂_congr fun s hs => ?_
  rw [key s hs]

theorem filter_wf {r : Rel α} (h : r.WF) (conds : List (Operation α)) : (r.filter conds).WF :=
  ⟨h.nodup, fun row hr => h.len row (List.mem_of_mem_filter hr)⟩

theorem filter_holds (r : Rel α) (conds : List (Operation α)) (hsub : ∀ o ∈ conds, ∀ v ∈ o.vars, v ∈ r.cols)
    (σ : Variable → α) : (r.filter conds).Holds σ ↔ r.Holds σ ∧ ∀ o ∈ conds, o.eval σ = some Dom.tru := by
  simp only [Holds, filter, List.mem_filter, List.all_eq_true, decide_eq_true_eq]
  refine and_congr_right fun _ => forall₂_congr fun o ho => ?_
  rw [Operation.eval_congr (τ := σ) o fun v hv => assign_map _ _ (hsub o ho v hv)]

theorem extend_wf {r : Rel α} (h : r.WF) (f : Variable × Operation α) (hf : f.1 ∉ r.cols) : (r.extend f).WF := by
  refine ⟨?_, ?_⟩
  · simp only [extend]
    exact List.nodup_append.2 ⟨h.nodup, by simp, by
      intro a ha b hb hab; simp at hb; subst hb; subst hab; exact hf ha⟩
  · intro row hr
    simp only [extend, List.mem_filterMap, Option.map_eq_some_iff] at hr ⊢
    obtain ⟨row', h1, a, -, rfl⟩ := hr
    simp [h.len _ h1]

theorem extend_holds (r : Rel α) (h : r.WF) (f : Variable × Operation α) (hs : ∀ v ∈ f.2.vars, v ∈ r.cols)
    (σ : Variable → α) : (r.extend f).Holds σ ↔ r.Holds σ ∧ f.2.eval σ = some (σ f.1) := by
  simp only [Holds, extend, List.mem_filterMap, Option.map_eq_some_iff, List.map_append, List.map_cons,
    List.map_nil]
  constructor
  · rintro ⟨row, hr, a, ha, he⟩
    obtain ⟨h1, h2⟩ := List.append_inj he (by simp [h.len _ hr])
    subst h1
    simp only [List.cons.injEq, and_true] at h2
    subst h2
    rw [Operation.eval_congr (τ := σ) f.2 fun v hv => assign_map _ _ (hs v hv)] at ha
    exact ⟨hr, ha⟩
  · rintro ⟨hr, ha⟩
    refine ⟨_, hr, σ f.1, ?_, rfl⟩
    rw [Operation.eval_congr (τ := σ) f.2 fun v hv => assign_map _ _ (hs v hv)]; exact ha

/-- The functions can be computed one after the other. -/
def FnsOK (cols : List Variable) : List (Variable × Operation α) → Prop
  | [] => True
  | f :: fs => f.1 ∉ cols ∧ (∀ v ∈ f.2.vars, v ∈ cols) ∧ FnsOK (cols ++ [f.1]) fs

theorem function_cols (r : Rel α) (fs : List (Variable × Operation α)) :
    (r.function fs).cols = r.cols ++ fs.map (·.1) := by
  induction fs generalizing r with
  | nil => simp [function]
  | cons f fs ih =>
    have := ih (r.extend f)
    simp only [function, List.foldl_cons] at this ⊢
    rw [this]; simp [extend]

theorem function_spec {r : Rel α} (h : r.WF) (fs : List (Variable × Operation α)) (hf : FnsOK r.cols fs) :
    (r.function fs).WF ∧
    ∀ σ, (r.function fs).Holds σ ↔ r.Holds σ ∧ ∀ f ∈ fs, f.2.eval σ = some (σ f.1) := by
  induction fs generalizing r with
  | nil => simp [function, h]
  | cons f fs ih =>
    obtain ⟨h1, h2, h3⟩ := hf
    have hw := extend_wf h f h1
    obtain ⟨i1, i2⟩ := ih hw (by simpa [extend] using h3)
    simp only [function, List.foldl_cons] at i1 i2 ⊢
    refine ⟨i1, fun σ => ?_⟩
    rw [i2, extend_holds r h f h2]
    simp [and_assoc]

theorem project_wf (cols : List Variable) (r : Rel α) (hn : cols.Nodup) : (project cols r).WF := by
  refine ⟨hn, ?_⟩
  intro row hr
  simp only [project, List.mem_map] at hr ⊢
  obtain ⟨_, _, rfl⟩ := hr
  simp

theorem project_holds (cols : List Variable) (r : Rel α) (h : r.WF) (hs : ∀ v ∈ cols, v ∈ r.cols) (σ : Variable → α) :
    (project cols r).Holds σ ↔ ∃ τ : Variable → α, (∀ v ∈ cols, τ v = σ v) ∧ r.Holds τ := by
  simp only [Holds, project, List.mem_map]
  constructor
  · rintro ⟨row, hr, he⟩
    refine ⟨assign r.cols row, fun v hv => ?_, h.holds_assign hr⟩
    exact List.map_eq_map_iff.1 he v hv
  · rintro ⟨τ, h1, h2⟩
    refine ⟨_, h2, ?_⟩
    apply List.map_congr_left
    intro v hv
    rw [assign_map _ _ (hs v hv), h1 v hv]

theorem groups_spec (r : Rel α) (h : r.WF) (gb : List Variable) (hs : ∀ v ∈ gb, v ∈ r.cols) (g : List α) :
    g ∈ r.groups gb ↔ ∃ σ, r.Holds σ ∧ g = gb.map σ := by
  simp only [groups, List.mem_dedup, List.mem_map]
  constructor
  · rintro ⟨row, hr, rfl⟩; exact ⟨_, h.holds_assign hr, rfl⟩
  · rintro ⟨σ, hr, rfl⟩
    exact ⟨_, hr, List.map_congr_left fun v hv => assign_map _ _ (hs v hv)⟩

theorem aggregate_wf (r : Rel α) (gb : List Variable) (a : Aggregation) (hn : (gb ++ [a.output]).Nodup) :
    (r.aggregate gb a).WF := by
  refine ⟨hn, ?_⟩
  intro row hr
  simp only [aggregate, List.mem_filterMap, Option.map_eq_some_iff, groups, List.mem_dedup, List.mem_map] at hr ⊢
  obtain ⟨_, ⟨_, _, rfl⟩, _, _, rfl⟩ := hr
  simp

theorem aggregate_holds (r : Rel α) (h : r.WF) (gb : List Variable) (a : Aggregation)
    (hs : ∀ v ∈ gb, v ∈ r.cols) (hi : ∀ v ∈ a.input :: a.distinct, v ∈ r.cols) (σ : Variable → α) :
    (r.aggregate gb a).Holds σ ↔ ∃ τ l, r.Holds τ ∧ (∀ v ∈ gb, τ v = σ v) ∧
      (∀ x, x ∈ l ↔ ∃ τ', r.Holds τ' ∧ (∀ v ∈ gb, τ' v = τ v) ∧ x = (a.input :: a.distinct).map τ') ∧
      Dom.agg a.kind l = some (σ a.output) := by
  have key : ∀ g : List α, ∀ x, x ∈ ((r.rows.filter fun row => gb.map (assign r.cols row) = g).map fun row =>
      (a.input :: a.distinct).map (assign r.cols row)) ↔
      ∃ τ', r.Holds τ' ∧ gb.map τ' = g ∧ x = (a.input :: a.distinct).map τ' := by
    intro g x
    simp only [List.mem_map (f := fun row => (a.input :: a.distinct).map (assign r.cols row)), List.mem_filter, decide_eq_true_eq]
    constructor
    · rintro ⟨row, ⟨hr, hg⟩, rfl⟩
      exact ⟨_, h.holds_assign hr, hg, rfl⟩
    · rintro ⟨τ, hr, hg, rfl⟩
      refine ⟨_, ⟨hr, ?_⟩, ?_⟩
      · rw [← hg]; exact List.map_congr_left fun v hv => assign_map _ _ (hs v hv)
      · exact List.map_congr_left fun v hv => assign_map _ _ (hi v hv)
  unfold Holds
  simp only [aggregate, List.mem_filterMap, Option.map_eq_some_iff, List.map_append, List.map_cons, List.map_nil]
  constructor
  · rintro ⟨g, hg, v, hv, he⟩
    obtain ⟨τ, hτ, rfl⟩ := (groups_spec r h gb hs g).1 hg
    obtain ⟨h1, h2⟩ := List.append_inj he (by simp)
    simp only [List.cons.injEq, and_true] at h2
    subst h2
    refine ⟨τ, _, hτ, fun v hv => List.map_eq_map_iff.1 h1 v hv, fun x => ?_, hv⟩
    have := key (gb.map τ) x
    simp only [List.map_cons] at this ⊢
    rw [this]
    refine exists_congr fun τ' => and_congr_right fun _ => and_congr_left fun _ => ?_
    exact List.map_eq_map_iff
  · rintro ⟨τ, l, hτ, hg, hl, hv⟩
    refine ⟨gb.map τ, (groups_spec r h gb hs _).2 ⟨τ, hτ, rfl⟩, σ a.output, ?_, ?_⟩
    · rw [← hv]
      apply Dom.agg_set
      intro x
      have := key (gb.map τ) x
      simp only [List.map_cons] at this hl ⊢
      rw [this, hl]
      refine exists_congr fun τ' => and_congr_right fun _ => and_congr_left fun _ => ?_
      exact List.map_eq_map_iff
    · congr 1
      exact List.map_congr_left hg

end Rel
end Verif
