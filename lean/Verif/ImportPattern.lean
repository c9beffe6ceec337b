import Verif.ImportFilter
import Verif.BodyEval

/-!
# Rules as import patterns (C33, C46)

Model of `into_filter_transform_pattern` (/repo/nemo/src/execution/planning/normalization/rule.rs:553-649), which translates a rule
with one body atom into a pattern for the tuples of an import, and proof that the pattern computes the facts that the
rule derives from the tuple.
-/

set_option linter.unusedSimpArgs false
set_option linter.unusedSectionVars false

namespace Verif
variable {α : Type}

/-! ## Model -/

namespace Operation
mutual
/-- Replace references to variables by their definition (rule.rs:592-606) -/
def inline (fns : List (Variable × Operation α)) : Operation α → Operation α
  | .var v => (fns.lookup v).getD (.var v)
  | .const a => .const a
  | .equal l r => .equal (l.inline fns) (r.inline fns)
  | .op k ts => .op k (inlineList fns ts)
/-- the same for a list of terms -/
def inlineList (fns : List (Variable × Operation α)) : List (Operation α) → List (Operation α)
  | [] => []
  | t :: ts => t.inline fns :: inlineList fns ts
end
end Operation

/-- whether something is replaced (rule.rs:600-604) -/
def inlineChanges (fns : List (Variable × Operation α)) : Bool :=
  fns.any fun f => f.2.vars.any fun v => (fns.lookup v).isSome

/-- The loop (rule.rs:584-612) -/
def inlineLoop (fns : List (Variable × Operation α)) : Option (List (Variable × Operation α)) :=
  if inlineChanges fns then inlineLoop (fns.map fun f => (f.1, f.2.inline fns)) else some fns
partial_fixpoint

/-- `FilterTransformPattern` as it is created for a rule (/repo/nemo-physical/src/tabular/filters.rs:40-56): the conjunction of the
filters, the transformation of each output position, and the column to which a variable refers (the stack reference
of its marker). -/
structure FTPattern (α : Type) where
  filters : List (Operation α)
  transforms : List (Operation α)
  column : Variable → Nat

/-- The transformation for a head term (rule.rs:616-639); `none` is a panic. -/
def headTransform (vars : List Variable) (fns : List (Variable × Operation α)) : Primitive α → Option (Operation α)
  | .const c => some (.const c)
  | .var v => if v ∈ vars then some (.var v) else fns.lookup v

/-- The markers (rule.rs:560-563): the variables of the body atom have their positions, and all others have larger numbers (the
exact numbers of these variables are simplified). -/
def markerColumn (vars : List Variable) (os : List (Operation α)) (v : Variable) : Nat :=
  (vars ++ os.flatMap Operation.vars).idxOf v

/-- `into_filter_transform_pattern` (rule.rs:553-649) for a rule with one body atom; the outer option is `none` for panics. -/
def NRule.importPattern (r : NRule α) : Option (Option (FTPattern α)) :=
  match r.head with
  | [] => none
  | h :: _ =>
    let vars := atomVars r.positive
    let f := genFunction vars r.operations
    let filters := (genFilter f.1.vars f.2).1
    (inlineLoop f.1.fns).bind fun fns =>
      (h.terms.mapM (headTransform vars fns)).map fun ts =>
        if filters.isEmpty && ts.isEmpty then none else some ⟨filters, ts, markerColumn vars r.operations⟩

/-- the index of a column after skipped columns are removed (filters.rs:80-87); references to skipped columns are not changed
(/repo/nemo-physical/src/function/evaluation.rs:41). -/
def renameColumn (skips : List Bool) (i : Nat) : Nat :=
  if skips[i]? = some false then i - (skips.take i).countP (· = true) else i

/-- `with_skips` (filters.rs:76-95) -/
def FTPattern.withSkips (skips : List Bool) (p : FTPattern α) : FTPattern α :=
  { p with column := fun v => renameColumn skips (p.column v) }

section
variable [DecidableEq α] [Dom α]

/-- the values of the variables in a tuple.  (A reference to a column that does not exist has an arbitrary value here.) -/
def FTPattern.valuation (p : FTPattern α) (row : List α) (v : Variable) : α := row.getD (p.column v) Dom.tru

/-- The evaluation of a pattern.  A filter that refers to a column that does not exist panics. -/
def FTPattern.toPattern (p : FTPattern α) : Pattern α where
  filter row :=
    if ∀ o ∈ p.filters, ∀ v ∈ o.vars, p.column v < row.length then
      some (some (decide (∀ o ∈ p.filters, o.eval (p.valuation row) = some Dom.tru)))
    else none
  transforms := p.transforms.zipIdx.map fun t => (t.2, fun row => t.1.eval (p.valuation row))

end

/-! ## Partial valuations -/

section
variable [DecidableEq α] [Dom α]

namespace Operation
mutual
/-- the value of a term if variables may be undefined -/
def evalO (ρ : Variable → Option α) : Operation α → Option α
  | .var v => ρ v
  | .const a => some a
  | .equal l r => (l.evalO ρ).bind fun a => (r.evalO ρ).bind fun b => some (if a = b then Dom.tru else Dom.fls)
  | .op k ts => (evalOList ρ ts).bind fun l => Dom.app k l
/-- the values of a list of terms -/
def evalOList (ρ : Variable → Option α) : List (Operation α) → Option (List α)
  | [] => some []
  | t :: ts => (t.evalO ρ).bind fun a => (evalOList ρ ts).bind fun l => some (a :: l)
end

mutual
theorem evalO_some {ρ : Variable → Option α} {σ : Variable → α} : (o : Operation α) → (∀ v ∈ o.vars, ρ v = some (σ v)) →
    o.evalO ρ = o.eval σ
  | .var v, h => by rw [evalO, eval]; exact h v (by simp [vars])
  | .const a, _ => rfl
  | .equal l r, h => by
    rw [evalO, eval, evalO_some l fun v hv => h v (by simp [vars, hv]), evalO_some r fun v hv => h v (by simp [vars, hv])]
    rfl
  | .op k ts, h => by
    rw [evalO, eval, evalOList_some ts fun v hv => h v (by simp [vars, hv])]
    rfl
theorem evalOList_some {ρ : Variable → Option α} {σ : Variable → α} : (ts : List (Operation α)) →
    (∀ v ∈ varsList ts, ρ v = some (σ v)) → evalOList ρ ts = evalList σ ts
  | [], _ => rfl
  | t :: ts, h => by
    rw [evalOList, evalList, evalO_some t fun v hv => h v (by simp [varsList, hv]),
      evalOList_some ts fun v hv => h v (by simp [varsList, hv])]
    rfl
end

mutual
theorem evalO_congr {ρ ρ' : Variable → Option α} : (o : Operation α) → (∀ v ∈ o.vars, ρ v = ρ' v) → o.evalO ρ = o.evalO ρ'
  | .var v, h => by rw [evalO, evalO]; exact h v (by simp [vars])
  | .const a, _ => rfl
  | .equal l r, h => by
    rw [evalO, evalO, evalO_congr l fun v hv => h v (by simp [vars, hv]), evalO_congr r fun v hv => h v (by simp [vars, hv])]
  | .op k ts, h => by
    rw [evalO, evalO, evalOList_congr ts fun v hv => h v (by simp [vars, hv])]
theorem evalOList_congr {ρ ρ' : Variable → Option α} : (ts : List (Operation α)) →
    (∀ v ∈ varsList ts, ρ v = ρ' v) → evalOList ρ ts = evalOList ρ' ts
  | [], _ => rfl
  | t :: ts, h => by
    rw [evalOList, evalOList, evalO_congr t fun v hv => h v (by simp [varsList, hv]),
      evalOList_congr ts fun v hv => h v (by simp [varsList, hv])]
end

mutual
/-- evaluation is strict -/
theorem evalO_strict {ρ : Variable → Option α} : (o : Operation α) → {a : α} → o.evalO ρ = some a → ∀ v ∈ o.vars, ρ v ≠ none
  | .var v, a, h, w, hw => by
    rw [evalO] at h
    rw [vars, List.mem_singleton] at hw
    rw [hw, h]; simp
  | .const _, _, _, w, hw => by simp [vars] at hw
  | .equal l r, a, h, w, hw => by
    rw [evalO] at h
    obtain ⟨x, h1, h2⟩ := Option.bind_eq_some_iff.1 h
    obtain ⟨y, h3, -⟩ := Option.bind_eq_some_iff.1 h2
    rw [vars, List.mem_append] at hw
    rcases hw with hw | hw
    · exact evalO_strict l h1 w hw
    · exact evalO_strict r h3 w hw
  | .op k ts, a, h, w, hw => by
    rw [evalO] at h
    obtain ⟨x, h1, -⟩ := Option.bind_eq_some_iff.1 h
    rw [vars] at hw
    exact evalOList_strict ts h1 w hw
theorem evalOList_strict {ρ : Variable → Option α} : (ts : List (Operation α)) → {l : List α} → evalOList ρ ts = some l →
    ∀ v ∈ varsList ts, ρ v ≠ none
  | [], _, _, w, hw => by simp [varsList] at hw
  | t :: ts, l, h, w, hw => by
    rw [evalOList] at h
    obtain ⟨x, h1, h2⟩ := Option.bind_eq_some_iff.1 h
    obtain ⟨y, h3, -⟩ := Option.bind_eq_some_iff.1 h2
    rw [varsList, List.mem_append] at hw
    rcases hw with hw | hw
    · exact evalO_strict t h1 w hw
    · exact evalOList_strict ts h3 w hw
end

mutual
theorem evalO_inline {ρ : Variable → Option α} {fns : List (Variable × Operation α)}
    (h : ∀ v e, fns.lookup v = some e → e.evalO ρ = ρ v) : (o : Operation α) → (o.inline fns).evalO ρ = o.evalO ρ
  | .var v => by
    rw [inline]
    cases hl : fns.lookup v with
    | none => rfl
    | some e => exact h v e hl
  | .const a => rfl
  | .equal l r => by rw [inline, evalO, evalO, evalO_inline h l, evalO_inline h r]
  | .op k ts => by rw [inline, evalO, evalO, evalOList_inline h ts]
theorem evalOList_inline {ρ : Variable → Option α} {fns : List (Variable × Operation α)}
    (h : ∀ v e, fns.lookup v = some e → e.evalO ρ = ρ v) : (ts : List (Operation α)) →
    evalOList ρ (inlineList fns ts) = evalOList ρ ts
  | [] => rfl
  | t :: ts => by rw [inlineList, evalOList, evalOList, evalO_inline h t, evalOList_inline h ts]
end

end Operation

/-- the values of computed variables, one after the other -/
def extendO (ρ : Variable → Option α) : List (Variable × Operation α) → Variable → Option α
  | [] => ρ
  | f :: fs => extendO (fun v => if v = f.1 then f.2.evalO ρ else ρ v) fs

theorem extendO_old {fs : List (Variable × Operation α)} : ∀ {vars : List Variable} {ρ : Variable → Option α}, Rel.FnsOK vars fs →
    ∀ v ∈ vars, extendO ρ fs v = ρ v := by
  induction fs with
  | nil => intro vars ρ _ v _; rfl
  | cons f fs ih =>
    intro vars ρ h v hv
    rw [extendO, ih h.2.2 v (by simp [hv])]
    have : v ≠ f.1 := by rintro rfl; exact h.1 hv
    simp [this]

theorem extendO_fn {fs : List (Variable × Operation α)} : ∀ {vars : List Variable} {ρ : Variable → Option α}, Rel.FnsOK vars fs →
    ∀ f ∈ fs, f.2.evalO (extendO ρ fs) = extendO ρ fs f.1 := by
  induction fs with
  | nil => intro vars ρ _ f hf; simp at hf
  | cons f fs ih =>
    intro vars ρ h g hg
    rw [extendO]
    rcases List.mem_cons.1 hg with rfl | hg
    · rw [extendO_old h.2.2 g.1 (by simp)]
      simp only [if_true]
      apply Operation.evalO_congr
      intro v hv
      have hv' := h.2.1 v hv
      rw [extendO_old h.2.2 v (by simp [hv'])]
      have : v ≠ g.1 := by rintro e; exact h.1 (e ▸ hv')
      simp [this]
    · exact ih h.2.2 g hg

/-- variables that are neither given nor computed -/
theorem extendO_other {fs : List (Variable × Operation α)} : ∀ {ρ : Variable → Option α} {v : Variable}, v ∉ fs.map (·.1) →
    extendO ρ fs v = ρ v := by
  induction fs with
  | nil => intro ρ v _; rfl
  | cons f fs ih =>
    intro ρ v h
    rw [List.map_cons, List.mem_cons, not_or] at h
    rw [extendO, ih h.2]
    simp [h.1]

/-! ## Inlining -/

omit [DecidableEq α] [Dom α] in
theorem lookup_mem {fns : List (Variable × Operation α)} {v : Variable} {e : Operation α} (h : fns.lookup v = some e) :
    (v, e) ∈ fns := by
  induction fns with
  | nil => simp at h
  | cons f fs ih =>
    obtain ⟨w, e'⟩ := f
    rw [List.lookup_cons] at h
    split at h
    · rename_i hb
      cases h
      rw [beq_iff_eq] at hb
      simp [hb]
    · exact List.mem_cons_of_mem _ (ih h)

omit [DecidableEq α] [Dom α] in
theorem lookup_isSome {fns : List (Variable × Operation α)} {v : Variable} : (fns.lookup v).isSome ↔ v ∈ fns.map (·.1) := by
  induction fns with
  | nil => simp
  | cons f fs ih =>
    obtain ⟨w, e⟩ := f
    rw [List.lookup_cons, List.map_cons, List.mem_cons]
    by_cases h : v = w
    · simp [h]
    · have : (v == w) = false := by simpa using h
      rw [this]; simp [h, ih]

omit [DecidableEq α] [Dom α] in
mutual
theorem mem_vars_inline {fns : List (Variable × Operation α)} {v : Variable} : (o : Operation α) → v ∈ (o.inline fns).vars →
    (v ∈ o.vars ∧ fns.lookup v = none) ∨ ∃ w e, w ∈ o.vars ∧ fns.lookup w = some e ∧ v ∈ e.vars
  | .var w, h => by
    rw [Operation.inline] at h
    cases hl : fns.lookup w with
    | none =>
      rw [hl, Option.getD_none, Operation.vars, List.mem_singleton] at h
      subst h
      exact .inl ⟨by simp [Operation.vars], hl⟩
    | some e =>
      rw [hl, Option.getD_some] at h
      exact .inr ⟨w, e, by simp [Operation.vars], hl, h⟩
  | .const _, h => by simp [Operation.inline, Operation.vars] at h
  | .equal l r, h => by
    rw [Operation.inline, Operation.vars, List.mem_append] at h
    rcases h with h | h
    · rcases mem_vars_inline l h with ⟨h1, h2⟩ | ⟨w, e, h1, h2, h3⟩
      · exact .inl ⟨by simp [Operation.vars, h1], h2⟩
      · exact .inr ⟨w, e, by simp [Operation.vars, h1], h2, h3⟩
    · rcases mem_vars_inline r h with ⟨h1, h2⟩ | ⟨w, e, h1, h2, h3⟩
      · exact .inl ⟨by simp [Operation.vars, h1], h2⟩
      · exact .inr ⟨w, e, by simp [Operation.vars, h1], h2, h3⟩
  | .op k ts, h => by
    rw [Operation.inline, Operation.vars] at h
    rw [Operation.vars]
    exact mem_varsList_inline ts h
theorem mem_varsList_inline {fns : List (Variable × Operation α)} {v : Variable} : (ts : List (Operation α)) →
    v ∈ Operation.varsList (Operation.inlineList fns ts) →
    (v ∈ Operation.varsList ts ∧ fns.lookup v = none) ∨
      ∃ w e, w ∈ Operation.varsList ts ∧ fns.lookup w = some e ∧ v ∈ e.vars
  | [], h => by simp [Operation.inlineList, Operation.varsList] at h
  | t :: ts, h => by
    rw [Operation.inlineList, Operation.varsList, List.mem_append] at h
    rcases h with h | h
    · rcases mem_vars_inline t h with ⟨h1, h2⟩ | ⟨w, e, h1, h2, h3⟩
      · exact .inl ⟨by simp [Operation.varsList, h1], h2⟩
      · exact .inr ⟨w, e, by simp [Operation.varsList, h1], h2, h3⟩
    · rcases mem_varsList_inline ts h with ⟨h1, h2⟩ | ⟨w, e, h1, h2, h3⟩
      · exact .inl ⟨by simp [Operation.varsList, h1], h2⟩
      · exact .inr ⟨w, e, by simp [Operation.varsList, h1], h2, h3⟩
end

/-- The invariant of inlining: definitions only use given variables (`V`) and variables with a rank that is smaller by more than `n`. -/
structure InlineInv (V : Variable → Prop) (keys : List Variable) (rank : Variable → Nat) (ρ : Variable → Option α) (n : Nat)
    (fns : List (Variable × Operation α)) : Prop where
  keys_eq : fns.map (·.1) = keys
  sub : ∀ f ∈ fns, ∀ v ∈ f.2.vars, V v ∨ v ∈ keys
  rank : ∀ f ∈ fns, ∀ v ∈ f.2.vars, v ∈ keys → rank v + n < rank f.1
  eval : ∀ f ∈ fns, f.2.evalO ρ = ρ f.1

theorem InlineInv.step {V : Variable → Prop} {keys : List Variable} {rank : Variable → Nat} {ρ : Variable → Option α} {n : Nat}
    {fns : List (Variable × Operation α)} (h : InlineInv V keys rank ρ n fns) :
    InlineInv V keys rank ρ (n + 1) (fns.map fun f => (f.1, f.2.inline fns)) := by
  refine ⟨by rw [List.map_map]; exact h.keys_eq, ?_, ?_, ?_⟩
  · intro f hf v hv
    obtain ⟨g, hg, rfl⟩ := List.mem_map.1 hf
    rcases mem_vars_inline g.2 hv with ⟨h1, -⟩ | ⟨w, e, -, h2, h3⟩
    · exact h.sub g hg v h1
    · exact h.sub _ (lookup_mem h2) v h3
  · intro f hf v hv hk
    obtain ⟨g, hg, rfl⟩ := List.mem_map.1 hf
    rcases mem_vars_inline g.2 hv with ⟨-, h2⟩ | ⟨w, e, h1, h2, h3⟩
    · have := lookup_isSome.2 (h.keys_eq ▸ hk : v ∈ fns.map (·.1))
      rw [h2] at this; simp at this
    · have hwk : w ∈ keys := h.keys_eq ▸ lookup_isSome.1 (by rw [h2]; rfl)
      have r1 := h.rank g hg w h1 hwk
      have r2 := h.rank _ (lookup_mem h2) v h3 hk
      dsimp only at r2 ⊢
      omega
  · intro f hf
    obtain ⟨g, hg, rfl⟩ := List.mem_map.1 hf
    rw [Operation.evalO_inline fun v e hv => h.eval _ (lookup_mem hv)]
    exact h.eval g hg

theorem inlineLoop_spec {V : Variable → Prop} {keys : List Variable} {rank : Variable → Nat} {ρ : Variable → Option α} {bound : Nat}
    (hb : ∀ v ∈ keys, rank v ≤ bound) : ∀ (k : Nat) {n : Nat} {fns : List (Variable × Operation α)}, bound - n = k →
    InlineInv V keys rank ρ n fns → ∃ res, inlineLoop fns = some res ∧ res.map (·.1) = keys ∧
      (∀ f ∈ res, ∀ v ∈ f.2.vars, V v ∧ v ∉ keys) ∧ ∀ f ∈ res, f.2.evalO ρ = ρ f.1 := by
  intro k
  induction k with
  | zero =>
    intro n fns hk h
    have hno : inlineChanges fns = false := by
      rw [inlineChanges, List.any_eq_false]
      intro f hf hx
      rw [List.any_eq_true] at hx
      obtain ⟨v, hv, hs⟩ := hx
      have hvk : v ∈ keys := h.keys_eq ▸ lookup_isSome.1 hs
      have := h.rank f hf v hv hvk
      have := hb f.1 (h.keys_eq ▸ List.mem_map.2 ⟨f, hf, rfl⟩)
      omega
    rw [inlineLoop, hno]
    refine ⟨fns, rfl, h.keys_eq, ?_, h.eval⟩
    intro f hf v hv
    have hnk : v ∉ keys := by
      intro hvk
      have := h.rank f hf v hv hvk
      have := hb f.1 (h.keys_eq ▸ List.mem_map.2 ⟨f, hf, rfl⟩)
      omega
    exact ⟨(h.sub f hf v hv).resolve_right hnk, hnk⟩
  | succ k ih =>
    intro n fns hk h
    rw [inlineLoop]
    cases hc : inlineChanges fns with
    | true =>
      simp only [if_true]
      exact ih (by omega) h.step
    | false =>
      simp only [Bool.false_eq_true, if_false]
      refine ⟨fns, rfl, h.keys_eq, ?_, h.eval⟩
      intro f hf v hv
      have hnk : v ∉ keys := by
        intro hvk
        rw [inlineChanges, List.any_eq_false] at hc
        exact hc f hf (List.any_eq_true.2 ⟨v, hv, lookup_isSome.2 (h.keys_eq.symm ▸ hvk)⟩)
      exact ⟨(h.sub f hf v hv).resolve_right hnk, hnk⟩

omit [DecidableEq α] [Dom α] in
theorem FnsOK_keys {fs : List (Variable × Operation α)} : ∀ {vars : List Variable}, Rel.FnsOK vars fs →
    (fs.map (·.1)).Nodup ∧ ∀ v ∈ fs.map (·.1), v ∉ vars := by
  induction fs with
  | nil => intro vars _; simp
  | cons f fs ih =>
    intro vars h
    obtain ⟨h1, h2⟩ := ih h.2.2
    rw [List.map_cons, List.nodup_cons]
    refine ⟨⟨fun hx => h2 _ hx (by simp), h1⟩, ?_⟩
    intro v hv
    rcases List.mem_cons.1 hv with rfl | hv
    · exact h.1
    · intro hx; exact h2 v hv (by simp [hx])

omit [DecidableEq α] [Dom α] in
/-- definitions only use given variables and earlier ones -/
theorem FnsOK_sub {fs : List (Variable × Operation α)} : ∀ {vars : List Variable}, Rel.FnsOK vars fs →
    ∀ (i : Nat) (f : Variable × Operation α), fs[i]? = some f → ∀ v ∈ f.2.vars, v ∈ vars ∨ v ∈ (fs.take i).map (·.1) := by
  induction fs with
  | nil => intro vars _ i f hf; simp at hf
  | cons g fs ih =>
    intro vars h i f hf v hv
    cases i with
    | zero => simp at hf; subst hf; exact .inl (h.2.1 v hv)
    | succ i =>
      rcases ih h.2.2 i f (by simpa using hf) v hv with hx | hx
      · rcases List.mem_append.1 hx with hx | hx
        · exact .inl hx
        · rw [List.mem_singleton] at hx; exact .inr (by simp [hx])
      · right; rw [List.take_succ_cons, List.map_cons]; exact List.mem_cons_of_mem _ hx

/-- **Inlining** terminates for the functions of a rule, and each resulting term only uses given variables and has the value of the
variable that it defines. -/
theorem inline_spec {vars : List Variable} {fns : List (Variable × Operation α)} (h : Rel.FnsOK vars fns) (ρ : Variable → Option α)
    {V : Variable → Prop} (hV : ∀ f ∈ fns, ∀ v ∈ f.2.vars, v ∈ vars → V v) : ∃ res, inlineLoop fns = some res ∧ res.map (·.1) = fns.map (·.1) ∧
      (∀ f ∈ res, ∀ v ∈ f.2.vars, V v) ∧ ∀ f ∈ res, f.2.evalO (extendO ρ fns) = extendO ρ fns f.1 := by
  obtain ⟨hnd, hdis⟩ := FnsOK_keys h
  have hinv : InlineInv V (fns.map (·.1)) (fun v => (fns.map (·.1)).idxOf v) (extendO ρ fns) 0 fns := by
    refine ⟨rfl, ?_, ?_, fun f hf => extendO_fn h f hf⟩
    · intro f hf v hv
      obtain ⟨i, hi⟩ := List.getElem?_of_mem hf
      rcases FnsOK_sub h i f hi v hv with hx | hx
      · exact .inl (hV f hf v hv hx)
      · right
        obtain ⟨g, hg, rfl⟩ := List.mem_map.1 hx
        exact List.mem_map.2 ⟨g, List.mem_of_mem_take hg, rfl⟩
    · intro f hf v hv hk
      obtain ⟨i, hi⟩ := List.getElem?_of_mem hf
      have hil : i < fns.length := (List.getElem?_eq_some_iff.1 hi).1
      have hfi : (fns.map (·.1)).idxOf f.1 = i := by
        have : (fns.map (·.1))[i]'(by simpa using hil) = f.1 := by
          rw [List.getElem_map, (List.getElem?_eq_some_iff.1 hi).2]
        rw [← this, hnd.idxOf_getElem]
      rcases FnsOK_sub h i f hi v hv with hx | hx
      · exact absurd hx (hdis v hk)
      · obtain ⟨g, hg, rfl⟩ := List.mem_map.1 hx
        obtain ⟨j, hj, hgj⟩ := List.mem_take_iff_getElem.1 hg
        have hjl : j < fns.length := by omega
        have : (fns.map (·.1)).idxOf g.1 = j := by
          have e : (fns.map (·.1))[j]'(by simpa using hjl) = g.1 := by rw [List.getElem_map, hgj]
          rw [← e, hnd.idxOf_getElem]
        show (fns.map (·.1)).idxOf g.1 + 0 < (fns.map (·.1)).idxOf f.1
        rw [this, hfi]; omega
  obtain ⟨res, h1, h2, h3, h4⟩ := inlineLoop_spec (bound := fns.length) (by
    intro v hv
    have := List.idxOf_lt_length_iff.2 hv
    rw [List.length_map] at this
    exact Nat.le_of_lt this) _ rfl hinv
  exact ⟨res, h1, h2, fun f hf v hv => (h3 f hf v hv).1, h4⟩

/-! ## Specification -/

omit [DecidableEq α] [Dom α] in
/-- The operation gives a value to the variable. -/
def Operation.assigns (v : Variable) (o : Operation α) : Bool :=
  match o.variableAssignment with
  | some (w, _) => decide (w = v)
  | none => false

/-- The head depends on the variable. -/
inductive NeededVar (r : NRule α) (h : HeadAtom α) : Variable → Prop
  | head {v : Variable} : v ∈ h.vars → NeededVar r h v
  | step {o e : Operation α} {v w : Variable} : o ∈ r.operations → o.variableAssignment = some (w, e) →
      (∀ u ∈ e.vars, SafeVar r.positive r.operations u) → NeededVar r h w → v ∈ e.vars → NeededVar r h v

/-- The rules for which import patterns are correct: one body atom, one head atom that is not empty and has neither existential
variables nor aggregates; each operation is either a condition on the variables of the body atom, or defines a new variable
(`ops`), and the head depends on all variables that are defined (`used`). -/
structure ImportRule (r : NRule α) (a : BodyAtom) (h : HeadAtom α) : Prop where
  positive : r.positive = [a]
  negative : r.negative = []
  head : r.head = [h]
  aggregation : r.aggregation = none
  nodup : a.terms.Nodup
  headNonempty : h.terms ≠ []
  headSafe : ∀ v ∈ h.vars, SafeVar r.positive r.operations v
  ops : ∀ o ∈ r.operations, (∀ v ∈ o.vars, v ∈ a.terms) ∨
    ∃ v e, o.variableAssignment = some (v, e) ∧ v ∉ a.terms ∧ r.operations.countP (Operation.assigns v) = 1
  used : ∀ v, SafeVar r.positive r.operations v → v ∈ a.terms ∨ NeededVar r h v

/-! ## Proofs -/

omit [DecidableEq α] [Dom α] in
theorem pass_perm (l : List (Operation α)) : ∀ (s : FnSt α), ∃ used new, (used ++ (s.pass l).2).Perm l ∧
    (s.pass l).1.fns = s.fns ++ new ∧ used.map Operation.variableAssignment = new.map some := by
  induction l with
  | nil => intro s; exact ⟨[], [], by simp [FnSt.pass], by simp [FnSt.pass], rfl⟩
  | cons o l ih =>
    intro s
    rw [FnSt.pass]
    split
    · rename_i v e ht
      obtain ⟨h1, -, -⟩ := FnSt.takes_eq_some ht
      obtain ⟨used, new, e1, e2, e3⟩ := ih ⟨s.vars ++ [v], s.fns ++ [(v, e)]⟩
      refine ⟨o :: used, (v, e) :: new, by simpa using e1, by rw [e2]; simp, by simp [e3, h1]⟩
    · obtain ⟨used, new, e1, e2, e3⟩ := ih s
      exact ⟨used, new, List.perm_middle.trans (e1.cons o), e2, e3⟩

omit [DecidableEq α] [Dom α] in
theorem loop_perm (s : FnSt α) (l : List (Operation α)) : ∃ used new, (used ++ (s.loop l).2).Perm l ∧
    (s.loop l).1.fns = s.fns ++ new ∧ used.map Operation.variableAssignment = new.map some := by
  induction s, l using FnSt.loop.induct with
  | case1 s l hc => rw [FnSt.loop, if_pos hc]; exact pass_perm l s
  | case2 s l hc ih =>
    rw [FnSt.loop, if_neg hc]
    obtain ⟨u1, n1, a1, a2, a3⟩ := pass_perm l s
    obtain ⟨u2, n2, b1, b2, b3⟩ := ih
    refine ⟨u1 ++ u2, n1 ++ n2, ?_, by rw [b2, a2, List.append_assoc], by rw [List.map_append, List.map_append, a3, b3]⟩
    rw [List.append_assoc]
    exact (List.Perm.append_left u1 b1).trans a1

omit [DecidableEq α] [Dom α] in
/-- An operation that defines a variable is not used as a filter, if no other operation defines the variable. -/
theorem genFunction_unique {vars : List Variable} {os : List (Operation α)} {o e : Operation α} {v : Variable}
    (hv : v ∈ (genFunction vars os).1.fns.map (·.1)) (ho : o ∈ (genFunction vars os).2) (he : o.variableAssignment = some (v, e))
    (hc : os.countP (Operation.assigns v) = 1) : False := by
  obtain ⟨used, new, h1, h2, h3⟩ := loop_perm ⟨vars, []⟩ os
  have hcount := h1.countP_eq (Operation.assigns v)
  rw [List.countP_append, hc] at hcount
  have c1 : 0 < ((⟨vars, []⟩ : FnSt α).loop os).2.countP (Operation.assigns v) := by
    rw [List.countP_pos_iff]
    exact ⟨o, ho, by rw [Operation.assigns, he]; simp⟩
  have c2 : 0 < used.countP (Operation.assigns v) := by
    rw [List.countP_pos_iff]
    obtain ⟨f, hf, rfl⟩ := List.mem_map.1 hv
    have hf' : f ∈ new := by
      have : f ∈ ((⟨vars, []⟩ : FnSt α).loop os).1.fns := hf
      rw [h2] at this; simpa using this
    have : some f ∈ used.map Operation.variableAssignment := by rw [h3]; exact List.mem_map.2 ⟨f, hf', rfl⟩
    obtain ⟨o', ho', hoe⟩ := List.mem_map.1 this
    exact ⟨o', ho', by rw [Operation.assigns, hoe]; simp⟩
  omega

theorem extendO_sat {σ : Variable → α} {fs : List (Variable × Operation α)} : ∀ {vars : List Variable} {ρ : Variable → Option α},
    Rel.FnsOK vars fs → (∀ v ∈ vars, ρ v = some (σ v)) → (∀ f ∈ fs, f.2.eval σ = some (σ f.1)) →
    ∀ v, v ∈ vars ∨ v ∈ fs.map (·.1) → extendO ρ fs v = some (σ v) := by
  induction fs with
  | nil => intro vars ρ _ h _ v hv; exact h v (by simpa using hv)
  | cons f fs ih =>
    intro vars ρ hok h hf v hv
    rw [extendO]
    refine ih hok.2.2 ?_ (fun g hg => hf g (by simp [hg])) v ?_
    · intro w hw
      by_cases hwf : w = f.1
      · simp only [hwf, if_true]
        rw [Operation.evalO_some f.2 fun u hu => h u (hok.2.1 u hu)]
        exact hf f (by simp)
      · simp only [hwf, if_false]
        rcases List.mem_append.1 hw with hw | hw
        · exact h w hw
        · exact absurd (List.mem_singleton.1 hw) hwf
    · rcases hv with hv | hv
      · exact .inl (by simp [hv])
      · rw [List.map_cons, List.mem_cons] at hv
        rcases hv with rfl | hv
        · exact .inl (by simp)
        · exact .inr hv

/-- the value of a head term if variables may be undefined -/
def Primitive.evalO (ρ : Variable → Option α) : Primitive α → Option α
  | .var v => ρ v
  | .const c => some c

omit [DecidableEq α] [Dom α] in
theorem mapM_congr_some {β γ δ : Type} {f : β → Option γ} {g : γ → Option δ} {g' : β → Option δ} : ∀ {l : List β} {ts : List γ},
    l.mapM f = some ts → (∀ x ∈ l, ∀ y, f x = some y → g y = g' x) → ts.mapM g = l.mapM g' := by
  intro l
  induction l with
  | nil => intro ts h _; simp at h; subst h; rfl
  | cons x l ih =>
    intro ts h hg
    rw [List.mapM_cons] at h
    cases hx : f x with
    | none => simp [hx] at h
    | some y =>
      cases hl : l.mapM f with
      | none => simp [hx, hl] at h
      | some ys =>
        simp only [hx, hl, Option.bind_eq_bind, Option.bind_some, Option.pure_def, Option.some.injEq] at h
        subst h
        rw [List.mapM_cons, List.mapM_cons, hg x (by simp) y hx, ih hl fun z hz => hg z (by simp [hz])]

omit [DecidableEq α] [Dom α] in
theorem mapM_exists {β γ : Type} {f : β → Option γ} : ∀ {l : List β}, (∀ x ∈ l, f x ≠ none) → ∃ ts, l.mapM f = some ts ∧
    ts.length = l.length := by
  intro l
  induction l with
  | nil => intro _; exact ⟨[], rfl, rfl⟩
  | cons x l ih =>
    intro h
    obtain ⟨y, hy⟩ := Option.ne_none_iff_exists'.1 (h x (by simp))
    obtain ⟨ys, hys, hl⟩ := ih fun z hz => h z (by simp [hz])
    exact ⟨y :: ys, by rw [List.mapM_cons, hy, hys]; rfl, by simp [hl]⟩

omit [DecidableEq α] [Dom α] in
theorem mapM_eq_some_map {β γ : Type} {f : β → Option γ} {g : β → γ} : ∀ {l : List β}, (∀ x ∈ l, f x = some (g x)) →
    l.mapM f = some (l.map g) := by
  intro l
  induction l with
  | nil => intro _; rfl
  | cons x l ih => intro h; rw [List.mapM_cons, h x (by simp), ih fun y hy => h y (by simp [hy])]; rfl

omit [DecidableEq α] [Dom α] in
theorem mapM_defined {β γ : Type} {f : β → Option γ} : ∀ {l : List β} {ts : List γ}, l.mapM f = some ts → ∀ x ∈ l, f x ≠ none := by
  intro l
  induction l with
  | nil => intro ts _ x hx; simp at hx
  | cons y l ih =>
    intro ts h x hx
    rw [List.mapM_cons] at h
    cases hy : f y with
    | none => simp [hy] at h
    | some z =>
      cases hl : l.mapM f with
      | none => simp [hy, hl] at h
      | some zs =>
        rcases List.mem_cons.1 hx with rfl | hx
        · rw [hy]; simp
        · exact ih hl x hx

/-- the columns of the body atom -/
theorem valuation_map {a : BodyAtom} (hn : a.terms.Nodup) (row : List α) (hl : row.length = a.terms.length)
    (os : List (Operation α)) (fl ts : List (Operation α)) :
    a.terms.map ((⟨fl, ts, markerColumn a.terms os⟩ : FTPattern α).valuation row) = row := by
  apply List.ext_getElem
  · simp [hl]
  · intro i h1 h2
    rw [List.getElem_map]
    unfold FTPattern.valuation markerColumn
    dsimp only
    have hi : i < a.terms.length := by simpa using h1
    rw [List.idxOf_append_of_mem (List.getElem_mem hi), hn.idxOf_getElem, List.getD_eq_getElem?_getD, List.getElem?_eq_getElem h2, Option.getD_some]

/-- **Import patterns.**  The translation of a rule into a pattern succeeds, and the result of the pattern for a tuple is exactly
what the rule derives from this tuple alone. -/
theorem importPattern_spec {r : NRule α} {a : BodyAtom} {h : HeadAtom α} (hr : ImportRule r a h) :
    ∃ p, r.importPattern = some (some p) ∧ (∀ o ∈ p.transforms ++ p.filters, ∀ v ∈ o.vars, v ∈ a.terms ∧ (v ∈ h.vars ∨ ∃ o' ∈ r.operations, v ∈ o'.vars)) ∧
      p.column = markerColumn a.terms r.operations ∧ p.transforms.length = h.terms.length ∧
      ∀ (N : Interp α) (row out : List α), row.length = a.terms.length →
        (p.toPattern.result row = some out ↔ Derives r (fun q x => q = a.pred ∧ x = row) N h.pred out) := by
  have hav : atomVars r.positive = a.terms := by rw [hr.positive]; simp [atomVars]
  obtain ⟨finv, fsafe⟩ := genFunction_spec r.positive a.terms r.operations (fun v => by rw [hav])
  have hok := finv.ok
  obtain ⟨hknd, hkdis⟩ := FnsOK_keys hok
  -- the definitions
  have hV : ∀ f ∈ (genFunction a.terms r.operations).1.fns, ∀ v ∈ f.2.vars, v ∈ a.terms →
      v ∈ a.terms ∧ ∃ o' ∈ r.operations, v ∈ o'.vars := by
    intro f hf v hv hva
    obtain ⟨o, ho, hfe⟩ := finv.src f hf
    exact ⟨hva, o, ho, (Operation.vars_assignment hfe v).2 (.inr hv)⟩
  obtain ⟨res, i1, i2, i3', -⟩ := inline_spec hok (fun _ => none) hV
  have i3 : ∀ f ∈ res, ∀ v ∈ f.2.vars, v ∈ a.terms := fun f hf v hv => (i3' f hf v hv).1
  have hres : ∀ ρ : Variable → Option α, ∀ f ∈ res, f.2.evalO (extendO ρ (genFunction a.terms r.operations).1.fns) =
      extendO ρ (genFunction a.terms r.operations).1.fns f.1 := by
    intro ρ
    obtain ⟨res', j1, -, -, j4⟩ := inline_spec hok ρ hV
    rw [i1] at j1; cases j1
    exact j4
  set F := genFunction a.terms r.operations with hF
  set flt := (genFilter F.1.vars F.2).1 with hflt
  -- filters only use the variables of the atom
  have hfv : ∀ o ∈ flt, ∀ v ∈ o.vars, v ∈ a.terms := by
    intro o ho
    obtain ⟨h1, h2⟩ := (mem_genFilter_fst _ _ _).1 ho
    rcases hr.ops o (finv.sub o h1) with hx | ⟨v, e, he, hv, hc⟩
    · exact hx
    · exfalso
      have hvF := h2 v ((Operation.vars_assignment he v).2 (.inl rfl))
      rw [finv.vars_eq, List.mem_append] at hvF
      exact genFunction_unique (hvF.resolve_left hv) h1 he hc
  -- the transformations
  have hts : ∀ t ∈ h.terms, headTransform a.terms res t ≠ none := by
    intro t ht
    cases t with
    | const c => simp [headTransform]
    | var v =>
      rw [headTransform]
      split
      · simp
      · rename_i hv
        have hvs : v ∈ F.1.vars := (fsafe v).2 (hr.headSafe v (List.mem_filterMap.2 ⟨_, ht, rfl⟩))
        rw [finv.vars_eq, List.mem_append] at hvs
        have := lookup_isSome.2 (i2.symm ▸ hvs.resolve_left hv : v ∈ res.map (·.1))
        intro hx; rw [hx] at this; simp at this
  obtain ⟨ts, t1, t2⟩ := mapM_exists hts
  have hne : ts ≠ [] := by
    intro hx
    rw [hx, List.length_nil] at t2
    exact hr.headNonempty (List.length_eq_zero_iff.1 t2.symm)
  have htv : ∀ o ∈ ts, ∀ v ∈ o.vars, v ∈ a.terms ∧ (v ∈ h.vars ∨ ∃ o' ∈ r.operations, v ∈ o'.vars) := by
    have : ∀ (l : List (Primitive α)) (ts : List (Operation α)), l.mapM (headTransform a.terms res) = some ts →
        ∀ o ∈ ts, ∀ v ∈ o.vars, v ∈ a.terms ∧ (v ∈ l.filterMap Primitive.var? ∨ ∃ o' ∈ r.operations, v ∈ o'.vars) := by
      intro l
      induction l with
      | nil => intro ts h; simp at h; subst h; simp
      | cons t l ih =>
        intro ts h
        rw [List.mapM_cons] at h
        cases ht : headTransform a.terms res t with
        | none => simp [ht] at h
        | some o =>
          cases hl : l.mapM (headTransform a.terms res) with
          | none => simp [ht, hl] at h
          | some os =>
            simp only [ht, hl, Option.bind_eq_bind, Option.bind_some, Option.pure_def, Option.some.injEq] at h
            subst h
            intro o' ho' v hv
            rcases List.mem_cons.1 ho' with rfl | ho'
            · cases t with
              | const c => simp only [headTransform, Option.some.injEq] at ht; subst ht; simp [Operation.vars] at hv
              | var w =>
                rw [headTransform] at ht
                split at ht
                · rename_i hw
                  cases ht
                  simp only [Operation.vars, List.mem_singleton] at hv
                  rw [hv]; exact ⟨hw, .inl (by simp [Primitive.var?])⟩
                · exact ⟨(i3' _ (lookup_mem ht) v hv).1, .inr (i3' _ (lookup_mem ht) v hv).2⟩
            · obtain ⟨g1, g2⟩ := ih os hl o' ho' v hv
              refine ⟨g1, g2.imp (fun g => ?_) id⟩
              obtain ⟨t', ht', htv'⟩ := List.mem_filterMap.1 g
              exact List.mem_filterMap.2 ⟨t', List.mem_cons_of_mem _ ht', htv'⟩
    exact this _ _ t1
  refine ⟨⟨flt, ts, markerColumn a.terms r.operations⟩, ?_, ?_, rfl, t2, ?_⟩
  · unfold NRule.importPattern
    rw [hr.head]
    dsimp only
    rw [hav, ← hF, ← hflt, i1, Option.bind_some, t1, Option.map_some]
    have : (flt.isEmpty && ts.isEmpty) = false := by
      cases hx : ts with
      | nil => exact absurd hx hne
      | cons _ _ => simp
    rw [this]; rfl
  · intro o ho
    rcases List.mem_append.1 ho with ho | ho
    · exact htv o ho
    · intro v hv
      exact ⟨hfv o ho v hv, .inr ⟨o, finv.sub o ((mem_genFilter_fst _ _ _).1 ho).1, hv⟩⟩
  intro N row out hl
  set p : FTPattern α := ⟨flt, ts, markerColumn a.terms r.operations⟩ with hp
  have hmap : a.terms.map (p.valuation row) = row := valuation_map hr.nodup row hl _ _ _
  set ρ0 : Variable → Option α := fun v => if v ∈ a.terms then some (p.valuation row v) else none with hρ0
  set ρ := extendO ρ0 F.1.fns with hρ
  have hρa : ∀ v ∈ a.terms, ρ v = some (p.valuation row v) := by
    intro v hv
    rw [hρ, extendO_old hok v hv, hρ0]
    simp [hv]
  have hcol : ∀ v ∈ a.terms, p.column v < row.length := by
    intro v hv
    show (a.terms ++ _).idxOf v < _
    rw [List.idxOf_append_of_mem hv, hl]
    exact List.idxOf_lt_length_iff.2 hv
  -- the value of a head term
  have htrans : ts.mapM (fun o => o.eval (p.valuation row)) = h.terms.mapM (Primitive.evalO ρ) := by
    refine mapM_congr_some t1 ?_
    intro t ht o hto
    cases t with
    | const c => simp only [headTransform, Option.some.injEq] at hto; subst hto; rfl
    | var v =>
      rw [headTransform] at hto
      split at hto
      · rename_i hv
        cases hto
        rw [Primitive.evalO, hρa v hv, Operation.eval]
      · have hm := lookup_mem hto
        rw [Primitive.evalO]
        refine Eq.trans ?_ (hres ρ0 _ hm)
        exact (Operation.evalO_some _ fun w hw => hρa w (i3 _ hm w hw)).symm
  -- what the pattern computes
  have hresult : p.toPattern.result row = some out ↔
      (∀ o ∈ flt, o.eval (p.valuation row) = some Dom.tru) ∧ h.terms.mapM (Primitive.evalO ρ) = some out := by
    have hpan : ∀ o ∈ p.filters, ∀ v ∈ o.vars, p.column v < row.length := fun o ho v hv => hcol v (hfv o ho v hv)
    have hemp : p.toPattern.transforms.isEmpty = false := by
      show (ts.zipIdx.map _).isEmpty = false
      cases hx : ts with
      | nil => exact absurd hx hne
      | cons _ _ => simp
    unfold Pattern.result
    rw [hemp]
    have hf : p.toPattern.filter row = some (some (decide (∀ o ∈ flt, o.eval (p.valuation row) = some Dom.tru))) := by
      show (if _ then _ else _) = _
      rw [if_pos hpan]
    rw [hf]
    have hm : (p.toPattern.transforms.mapM fun t => t.2 row) = h.terms.mapM (Primitive.evalO ρ) := by
      rw [← htrans]
      have gen : ∀ (l : List (Operation α)) (k : Nat),
          ((l.zipIdx k).map fun t => (t.2, fun row : List α => t.1.eval (p.valuation row))).mapM (fun t => t.2 row) =
            l.mapM fun o => o.eval (p.valuation row) := by
        intro l
        induction l with
        | nil => intro k; rfl
        | cons x l ih => intro k; rw [List.zipIdx_cons, List.map_cons, List.mapM_cons, List.mapM_cons, ih]
      exact gen ts 0
    rw [hm]
    by_cases hc : ∀ o ∈ flt, o.eval (p.valuation row) = some Dom.tru
    · simp [hc]
    · simp [hc]
  -- the operations of the rule
  have key : ∀ (f : Variable × Operation α), f ∈ F.1.fns → ∀ v ∈ f.2.vars, v ∈ a.terms ∨ v ∈ F.1.fns.map (·.1) := by
    intro f hf v hv
    obtain ⟨i, hi⟩ := List.getElem?_of_mem hf
    rcases FnsOK_sub hok i f hi v hv with hx | hx
    · exact .inl hx
    · right
      obtain ⟨g, hg, rfl⟩ := List.mem_map.1 hx
      exact List.mem_map.2 ⟨g, List.mem_of_mem_take hg, rfl⟩
  have hops : ∀ σ : Variable → α, ((∀ f ∈ F.1.fns, f.2.eval σ = some (σ f.1)) ∧ ∀ o ∈ flt, o.eval σ = some Dom.tru) ↔
      ∀ o ∈ r.operations, (∀ v ∈ o.vars, SafeVar r.positive r.operations v) → o.eval σ = some Dom.tru := by
    intro σ
    constructor
    · rintro ⟨h1, h2⟩ o ho hs
      rcases finv.cover o ho with hm | ⟨f, hf, hfe⟩
      · exact h2 o ((mem_genFilter_fst _ _ _).2 ⟨hm, fun v hv => (fsafe v).2 (hs v hv)⟩)
      · rw [Operation.eval_assignment hfe]; exact h1 f hf
    · intro hh
      constructor
      · intro f hf
        obtain ⟨o, ho, hfe⟩ := finv.src f hf
        rw [← Operation.eval_assignment hfe]
        apply hh o ho
        intro v hv
        rw [← fsafe, finv.vars_eq, List.mem_append]
        rcases (Operation.vars_assignment hfe v).1 hv with rfl | hv
        · exact .inr (List.mem_map.2 ⟨_, hf, rfl⟩)
        · exact key f hf v hv
      · intro o ho
        obtain ⟨h1, h2⟩ := (mem_genFilter_fst _ _ _).1 ho
        exact hh o (finv.sub o h1) fun v hv => (fsafe v).1 (h2 v hv)
  have hagg : r.containsAggregates = false := by rw [NRule.containsAggregates, hr.aggregation]; rfl
  rw [hresult]
  constructor
  · rintro ⟨hf, hm⟩
    -- all variables are defined
    have hneed : ∀ v, NeededVar r h v → v ∈ a.terms ∨ v ∈ F.1.fns.map (·.1) → ρ v ≠ none := by
      intro v hv
      induction hv with
      | head hv =>
        intro _
        obtain ⟨t, ht, htv⟩ := List.mem_filterMap.1 hv
        cases t with
        | const c => simp [Primitive.var?] at htv
        | var w =>
          simp only [Primitive.var?, Option.some.injEq] at htv
          subst htv
          exact mapM_defined hm _ ht
      | @step o e v w ho he hs hw hv ih =>
        intro _
        have hsw : SafeVar r.positive r.operations w := .assign ho he hs
        by_cases hva : v ∈ a.terms
        · rw [hρa v hva]; simp
        rcases hr.ops o ho with hx | ⟨w', e', he', hw', hc⟩
        · exact absurd (hx v ((Operation.vars_assignment he v).2 (.inr hv))) hva
        · rw [he] at he'; cases he'
          have hwk : w ∈ F.1.fns.map (·.1) := by
            have := (fsafe w).2 hsw
            rw [finv.vars_eq, List.mem_append] at this
            exact this.resolve_left hw'
          have hdef := ih (.inr hwk)
          rcases finv.cover o ho with hm | ⟨f, hf, hfe⟩
          · exact (genFunction_unique hwk hm he hc).elim
          · rw [he] at hfe; cases hfe
            have := extendO_fn (ρ := ρ0) hok _ hf
            obtain ⟨b, hb⟩ := Option.ne_none_iff_exists'.1 hdef
            rw [← hρ] at this
            exact Operation.evalO_strict e (this.trans hb) v hv
    have hdef : ∀ v, v ∈ a.terms ∨ v ∈ F.1.fns.map (·.1) → ρ v ≠ none := by
      intro v hv
      have hs : SafeVar r.positive r.operations v := by
        rw [← fsafe, finv.vars_eq, List.mem_append]; exact hv
      rcases hr.used v hs with hx | hx
      · rw [hρa v hx]; simp
      · exact hneed v hx hv
    set σ : Variable → α := fun v => (ρ v).getD Dom.tru with hσ
    have hσρ : ∀ v, v ∈ a.terms ∨ v ∈ F.1.fns.map (·.1) → ρ v = some (σ v) := by
      intro v hv
      obtain ⟨b, hb⟩ := Option.ne_none_iff_exists'.1 (hdef v hv)
      rw [hσ]; simp only [hb, Option.getD_some]
    have hσa : ∀ v ∈ a.terms, σ v = p.valuation row v := by
      intro v hv
      have := hσρ v (.inl hv)
      rw [hρa v hv] at this
      exact (Option.some.inj this).symm
    have hB : BodyHolds r (fun q x => q = a.pred ∧ x = row) N σ := by
      refine ⟨?_, ?_, ?_⟩
      · intro b hb
        rw [hr.positive, List.mem_singleton] at hb
        subst hb
        exact ⟨rfl, by rw [List.map_congr_left hσa]; exact hmap⟩
      · rw [← hops]
        refine ⟨fun f hf => ?_, fun o ho => ?_⟩
        · have e1 := extendO_fn (ρ := ρ0) hok f hf
          rw [← hρ] at e1
          rw [← Operation.evalO_some f.2 fun v hv => hσρ v (key f hf v hv), e1]
          exact hσρ _ (.inr (List.mem_map.2 ⟨f, hf, rfl⟩))
        · rw [Operation.eval_congr o fun v hv => hσa v (hfv o ho v hv)]
          exact hf o ho
      · rw [hr.negative]; simp
    have hout : out = h.inst σ := by
      have : h.terms.mapM (Primitive.evalO ρ) = some (h.terms.map (Primitive.inst σ)) := by
        apply mapM_eq_some_map
        intro t ht
        cases t with
        | const c => rfl
        | var v =>
          have hvs : v ∈ F.1.vars := (fsafe v).2 (hr.headSafe v (List.mem_filterMap.2 ⟨_, ht, rfl⟩))
          rw [finv.vars_eq, List.mem_append] at hvs
          exact hσρ v hvs
      rw [hm] at this
      exact Option.some.inj this
    rw [hout]
    unfold Derives
    rw [hagg]
    refine .plain (i := 0) hB (by rw [hr.head]; rfl) (fun b k hb => ?_)
    rw [hr.aggregation] at hb; cases hb
  · intro hd
    unfold Derives at hd
    rw [hagg] at hd
    simp only [Bool.false_eq_true, if_false] at hd
    have main : ∀ (σ : Variable → α), BodyHolds r (fun q x => q = a.pred ∧ x = row) N σ →
        (∀ o ∈ flt, o.eval (p.valuation row) = some Dom.tru) ∧ h.terms.mapM (Primitive.evalO ρ) = some (h.inst σ) := by
      intro σ hB
      have hpos := (hB.pos a (by rw [hr.positive]; simp)).2
      have hσa : ∀ v ∈ a.terms, σ v = p.valuation row v := by
        rw [← hmap] at hpos
        exact List.map_inj_left.1 hpos
      obtain ⟨o1, o2⟩ := (hops σ).2 hB.ops
      have hsat : ∀ v, v ∈ a.terms ∨ v ∈ F.1.fns.map (·.1) → ρ v = some (σ v) :=
        extendO_sat hok (fun v hv => by rw [hρ0]; simp [hv, hσa v hv]) o1
      refine ⟨fun o ho => ?_, ?_⟩
      · rw [← Operation.eval_congr o fun v hv => hσa v (hfv o ho v hv)]
        exact o2 o ho
      · apply mapM_eq_some_map
        intro t ht
        cases t with
        | const c => rfl
        | var v =>
          have hvs : v ∈ F.1.vars := (fsafe v).2 (hr.headSafe v (List.mem_filterMap.2 ⟨_, ht, rfl⟩))
          rw [finv.vars_eq, List.mem_append] at hvs
          exact hsat v hvs
    generalize hq : h.pred = q at hd
    cases hd with
    | @plain σ h' i hB hh hna =>
      rw [hr.head] at hh
      have : h' = h := by
        cases i with
        | zero => simpa using hh.symm
        | succ i => simp at hh
      subst this
      exact main σ hB
    | agg _ ha _ => rw [hr.aggregation] at ha; cases ha

/-! ## Imports with patterns -/

/-- All references are columns of the input. -/
def FTPattern.RefsBelow (p : FTPattern α) (n : Nat) : Prop := ∀ o ∈ p.transforms ++ p.filters, ∀ v ∈ o.vars, p.column v < n

theorem FTPattern.patternOK {p : FTPattern α} {input : Nat} (hn : p.transforms ≠ []) (hb : p.RefsBelow input) :
    PatternOK input p.transforms.length p.toPattern where
  columns := by
    right
    refine ⟨fun h => hn ?_, ?_⟩
    · have : p.transforms.zipIdx = [] := List.map_eq_nil_iff.1 h
      simpa using this
    · show (p.transforms.zipIdx.map _).map _ = _
      rw [List.map_map]
      have : ∀ (l : List (Operation α)) (k : Nat), (l.zipIdx k).map ((fun x : Nat × (List α → Option α) => x.1) ∘
          fun t => (t.2, fun row => t.1.eval (p.valuation row))) = (List.range l.length).map (· + k) := by
        intro l
        induction l with
        | nil => intro k; rfl
        | cons x l ih =>
          intro k
          rw [List.zipIdx_cons, List.map_cons, ih, List.length_cons, List.range_succ_eq_map, List.map_cons, List.map_map]
          congr 1
          · simp
          · exact List.map_congr_left fun i _ => by simp; omega
      rw [this]; simp
  local_ t ht row rest hr := by
    obtain ⟨x, hx, rfl⟩ := List.mem_map.1 ht
    have hm : x.1 ∈ p.transforms := (List.mem_zipIdx' hx).2 ▸ List.getElem_mem _
    apply Operation.eval_congr
    intro v hv
    unfold FTPattern.valuation
    have hlt := hb x.1 (List.mem_append_left _ hm) v hv
    rw [List.getD_eq_getElem?_getD, List.getD_eq_getElem?_getD, List.getElem?_append_left (by rw [hr]; exact hlt)]
  filter row hr := by
    show (if _ then _ else _) ≠ _
    rw [if_pos (fun o ho v hv => by rw [hr]; exact hb o (List.mem_append_right _ ho) v hv)]
    simp

omit [DecidableEq α] [Dom α] in
/-- the columns that are not skipped -/
def keepCols : List Bool → List α → List α
  | s :: skips, a :: row => if s then keepCols skips row else a :: keepCols skips row
  | _, _ => []

omit [DecidableEq α] [Dom α] in
theorem keepCols_get : ∀ (skips : List Bool) (row : List α) (i : Nat), row.length = skips.length → skips[i]? = some false →
    (keepCols skips row)[renameColumn skips i]? = row[i]? := by
  have key : ∀ (skips : List Bool) (row : List α) (i : Nat), row.length = skips.length → skips[i]? = some false →
      (skips.take i).countP (· = true) ≤ i ∧ (keepCols skips row)[i - (skips.take i).countP (· = true)]? = row[i]? := by
    intro skips
    induction skips with
    | nil => intro row i _ h; simp at h
    | cons s skips ih =>
      intro row i hl h
      cases row with
      | nil => simp at hl
      | cons a row =>
        rw [keepCols]
        cases i with
        | zero =>
          simp at h
          subst h
          simp
        | succ i =>
          obtain ⟨h1, h2⟩ := ih row i (by simpa using hl) (by simpa using h)
          rw [List.take_succ_cons, List.countP_cons, List.getElem?_cons_succ]
          cases s with
          | true =>
            simp only [if_true, decide_true]
            refine ⟨by omega, ?_⟩
            rw [Nat.add_sub_add_right]; exact h2
          | false =>
            simp only [Bool.false_eq_true, if_false, decide_false, Nat.add_zero]
            refine ⟨by omega, ?_⟩
            rw [Nat.add_comm i 1, Nat.add_sub_assoc h1, Nat.add_comm 1, List.getElem?_cons_succ]; exact h2
  intro skips row i hl h
  unfold renameColumn
  rw [if_pos h]
  exact (key skips row i hl h).2

/-- **Skipped columns.**  If no skipped column is used, then the pattern has the same result for the remaining columns. -/
theorem FTPattern.withSkips_result {p : FTPattern α} {skips : List Bool} (hn : p.transforms ≠ [])
    (hs : ∀ o ∈ p.transforms ++ p.filters, ∀ v ∈ o.vars, skips[p.column v]? = some false) (row : List α)
    (hl : row.length = skips.length) :
    (p.withSkips skips).RefsBelow (keepCols skips row).length ∧
    (p.withSkips skips).toPattern.result (keepCols skips row) = p.toPattern.result row := by
  have hval : ∀ o ∈ p.transforms ++ p.filters, ∀ v ∈ o.vars,
      (p.withSkips skips).valuation (keepCols skips row) v = p.valuation row v := by
    intro o ho v hv
    unfold FTPattern.valuation FTPattern.withSkips
    dsimp only
    rw [List.getD_eq_getElem?_getD, List.getD_eq_getElem?_getD, keepCols_get skips row _ hl (hs o ho v hv)]
  have hlt : ∀ o ∈ p.transforms ++ p.filters, ∀ v ∈ o.vars, p.column v < row.length := by
    intro o ho v hv
    rw [hl]
    exact (List.getElem?_eq_some_iff.1 (hs o ho v hv)).1
  have hlt' : (p.withSkips skips).RefsBelow (keepCols skips row).length := by
    intro o ho v hv
    have h1 := keepCols_get skips row _ hl (hs o ho v hv)
    rw [List.getElem?_eq_getElem (hlt o ho v hv)] at h1
    exact (List.getElem?_eq_some_iff.1 h1).1
  refine ⟨hlt', ?_⟩
  have e1 : (p.withSkips skips).toPattern.filter (keepCols skips row) = p.toPattern.filter row := by
    show (if _ then _ else _) = (if _ then _ else _)
    rw [if_pos fun o ho v hv => hlt' o (List.mem_append_right _ ho) v hv,
      if_pos fun o ho v hv => hlt o (List.mem_append_right _ ho) v hv]
    congr 2
    apply decide_eq_decide.2
    refine forall₂_congr fun o ho => ?_
    rw [Operation.eval_congr o fun v hv => hval o (List.mem_append_right _ ho) v hv]
  have hemp : ∀ q : FTPattern α, q.transforms = p.transforms → q.toPattern.transforms.isEmpty = false := by
    intro q hq
    show (q.transforms.zipIdx.map _).isEmpty = false
    rw [hq]
    cases hx : p.transforms with
    | nil => exact absurd hx hn
    | cons _ _ => simp
  have e2 : ((p.withSkips skips).toPattern.transforms.mapM fun t => t.2 (keepCols skips row)) =
      p.toPattern.transforms.mapM fun t => t.2 row := by
    have : ∀ (l : List (Operation α)) (k : Nat), (∀ o ∈ l, o ∈ p.transforms) →
        ((l.zipIdx k).map fun t => (t.2, fun row : List α => t.1.eval ((p.withSkips skips).valuation row))).mapM
          (fun t => t.2 (keepCols skips row)) =
        ((l.zipIdx k).map fun t => (t.2, fun row : List α => t.1.eval (p.valuation row))).mapM (fun t => t.2 row) := by
      intro l
      induction l with
      | nil => intro k _; rfl
      | cons x l ih =>
        intro k hx
        rw [List.zipIdx_cons, List.map_cons, List.map_cons, List.mapM_cons, List.mapM_cons,
          ih _ fun o ho => hx o (by simp [ho])]
        dsimp only
        rw [Operation.eval_congr x fun v hv => hval x (List.mem_append_left _ (hx x (by simp))) v hv]
    exact this p.transforms 0 fun o h => h
  unfold Pattern.result
  rw [e1, hemp _ rfl, hemp (p.withSkips skips) rfl, e2]
  simp

/-- a rule with one body atom uses one fact -/
theorem derives_single {r : NRule α} {a : BodyAtom} {h : HeadAtom α} (hr : ImportRule r a h) (P N : Interp α) (q : Tag) (out : List α) :
    Derives r P N q out ↔ ∃ row, P a.pred row ∧ row.length = a.terms.length ∧
      Derives r (fun q x => q = a.pred ∧ x = row) N q out := by
  have hagg : r.containsAggregates = false := by rw [NRule.containsAggregates, hr.aggregation]; rfl
  have hB : ∀ σ, BodyHolds r P N σ ↔ ∃ row, P a.pred row ∧ row.length = a.terms.length ∧
      BodyHolds r (fun q x => q = a.pred ∧ x = row) N σ := by
    intro σ
    constructor
    · intro hb
      refine ⟨a.terms.map σ, hb.pos a (by rw [hr.positive]; simp), by simp, ⟨?_, hb.ops, hb.neg⟩⟩
      intro b hb'
      rw [hr.positive, List.mem_singleton] at hb'
      subst hb'
      exact ⟨rfl, rfl⟩
    · rintro ⟨row, h1, -, hb⟩
      refine ⟨?_, hb.ops, hb.neg⟩
      intro b hb'
      rw [hr.positive, List.mem_singleton] at hb'
      subst hb'
      rw [(hb.pos b (by rw [hr.positive]; simp)).2]
      exact h1
  unfold Derives
  rw [hagg]
  simp only [Bool.false_eq_true, if_false]
  constructor
  · intro hd
    cases hd with
    | @plain σ h' i hb hh hna =>
      obtain ⟨row, h1, h2, h3⟩ := (hB σ).1 hb
      exact ⟨row, h1, h2, .plain h3 hh hna⟩
    | agg _ ha _ => rw [hr.aggregation] at ha; cases ha
  · rintro ⟨row, h1, h2, hd⟩
    cases hd with
    | @plain σ h' i hb hh hna => exact .plain ((hB σ).2 ⟨row, h1, h2, hb⟩) hh hna
    | agg _ ha _ => rw [hr.aggregation] at ha; cases ha

/-- **C33 for rules.**  If the tuples of a source are imported with the pattern of a rule, then the resulting table contains exactly
the facts that the rule derives from the tuples (translated to storage values). -/
theorem import_rule_spec {γ : Type} [SVal γ] (enc : α → γ) (zero : α) {r : NRule α} {a : BodyAtom} {h : HeadAtom α}
    (hr : ImportRule r a h) (ha : a.terms ≠ []) (rows : List (List α)) (hrows : ∀ row ∈ rows, row.length = a.terms.length)
    (N : Interp α) : ∃ (p : FTPattern α) (b : PBuf α γ) (table : List (List γ)), r.importPattern = some (some p) ∧
      (PBuf.new zero a.terms.length [p.toPattern] : PBuf α γ).addAll enc rows.flatten = some b ∧ b.buf.finalize = some table ∧
      SortedRows table ∧ ∀ x, x ∈ table ↔
        ∃ out, Derives r (fun q row => q = a.pred ∧ row ∈ rows) N h.pred out ∧ x = out.map enc := by
  obtain ⟨p, p1, p2, p3, p4, p5⟩ := importPattern_spec hr
  have hn : p.transforms ≠ [] := by
    intro hx; rw [hx] at p4; exact hr.headNonempty (List.length_eq_zero_iff.1 p4.symm)
  have hb : p.RefsBelow a.terms.length := by
    intro o ho v hv
    have := (p2 o ho v hv).1
    rw [p3, markerColumn, List.idxOf_append_of_mem this]
    exact List.idxOf_lt_length_iff.2 this
  obtain ⟨b, table, h1, h2, h3, h4⟩ := PBuf.import_spec_partial (α := γ) enc zero (input := a.terms.length) (output := p.transforms.length)
    (List.length_pos_iff.2 ha) (List.length_pos_iff.2 hn) (ps := [p.toPattern])
    (by intro q hq; rw [List.mem_singleton.1 hq]; exact FTPattern.patternOK hn hb) (by simp) rows hrows
    (by intro row _ i q _ hi; simp at hi)
  refine ⟨p, b, table, p1, h1, h2, h3, fun x => ?_⟩
  rw [h4]
  have hf : ∀ row, filterResult [p.toPattern] row = p.toPattern.result row := by
    intro row
    unfold filterResult
    rw [List.isEmpty_cons, if_neg (by simp), List.findSome?_cons]
    cases p.toPattern.result row <;> rfl
  constructor
  · rintro ⟨row, g1, out, g2, rfl⟩
    rw [hf] at g2
    refine ⟨out, ?_, rfl⟩
    rw [derives_single hr]
    exact ⟨row, ⟨rfl, g1⟩, hrows row g1, (p5 N row out (hrows row g1)).1 g2⟩
  · rintro ⟨out, hd, rfl⟩
    rw [derives_single hr] at hd
    obtain ⟨row, ⟨-, g1⟩, g2, g3⟩ := hd
    exact ⟨row, g1, out, by rw [hf]; exact (p5 N row out g2).2 g3, rfl⟩

end

end Verif
