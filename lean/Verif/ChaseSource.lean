import Verif.NormalizeTerm

/-!
# Existential rules as they are written

The restricted chase (C25) for rules as they are written: normalization (including the auxiliary orders for the heads of existential
rules and the parameters of the strategy) followed by the execution of the engine.  The specification is `SIsModel`.
-/

set_option linter.unusedSimpArgs false
set_option linter.unusedSectionVars false

namespace Verif
variable {α : Type} [DecidableEq α] [Dom α]

/-! ## Specification -/

/-- The rule has an existential variable. -/
def SRule.HasEx (S : SRule α) : Prop := ∃ h ∈ S.head, ∃ v ∈ HTerm.varsList h.terms, v.isExistential = true

/-- The head is true in `I` for the values `σ`, if values for the existential variables are chosen suitably. -/
def SHeadSat (S : SRule α) (I : Interp α) (σ : Variable → α) : Prop :=
  ∃ τ : Variable → α, (∀ v, v.isExistential = false → τ v = σ v) ∧
    ∀ h ∈ S.head, ∃ row, I h.pred row ∧ ∀ x, List.Forall₂ (fun t b => t.value τ x = some b) h.terms row

/-- `M` contains the facts `edb` and satisfies all rules: it contains what rules without existential variables derive from it, and
whenever the body of an existential rule holds, there are values for the existential variables that make the head true. -/
structure SIsModel (Ss : List (SRule α)) (edb M : Interp α) : Prop where
  edb : edb.le M
  datalog : ∀ S ∈ Ss, ¬ S.HasEx → (SDerives S M M).le M
  ex : ∀ S ∈ Ss, S.HasEx → ∀ σ, SBody S M M σ → SHeadSat S M σ

/-! ## The parameters of the strategies -/

/-- `construct_auxiliary_existential_rule` (/repo/nemo/src/execution/planning/normalization/program.rs:350-367): the body consists of the
head atoms.  `aux` is the predicate `__AUX`; the (adjacent) repetitions in its terms are irrelevant for the order. -/
def auxRule (aux : Tag) (r : NRule α) : NRule α :=
  let n := normHead r.head r.freshName
  ⟨n.1, [], n.2, [⟨aux, ((r.head.flatMap (·.vars)).filter fun v => !v.isExistential).map .var⟩], none, []⟩

/-- The variable order for the head of a rule (program.rs:331-340, `build_preferable_variable_orders_for_rule`,
variable_order.rs:507-515), restricted to the variables of the head (restricted_head.rs:69-74; the new variables are
not variables of the rule).  `co` are the column orders of the first variant. -/
def exOrder (aux : Tag) (co : VarOrder.ColOrders) (r : NRule α) : Option (List Variable) :=
  if r.isExistential then
    match VarOrder.generateOrders .forward [aux] [auxRule aux r] co with
    | none => none
    | some (orders, _) => orders[0]?.map fun o => o.filter fun v => decide (v ∈ r.head.flatMap (·.vars))
  else some []

/-- The parameters of the strategies of all rules (program.rs:310-341, /repo/nemo/src/execution/execution_engine.rs:299-314,
restricted_head.rs:112-116, forward.rs:87-89).  `sat i` is the predicate `_SATISFIED_i`, `facts` are the predicates of facts that are
written in the program. -/
def ruleCfgs (given facts : List Tag) (aux : Tag) (sat : Nat → Tag) (rules : List (NRule α)) : Option (List RuleCfg) :=
  match VarOrder.generateOrders .forward (VarOrder.derived rules) rules (VarOrder.initialColOrders given) with
  | none => none
  | some (_, co) => (rules.zipIdx).mapM fun x => (exOrder aux co x.1).map fun o =>
      ⟨sat x.2, o, x.1.predsHead.any fun p => decide (p ∈ facts)⟩

/-! ## Conditions on programs -/

/-- The constants of a rule are not nulls.  (Nulls cannot be written in a program.) -/
structure SNoNulls (S : SRule α) : Prop where
  ops : ∀ o ∈ S.operations, ∀ c ∈ o.consts, ∀ n, c ≠ Dom.null n
  const : ∀ a ∈ S.positive ++ S.negative, ∀ c, .const c ∈ a.terms → ∀ n, c ≠ Dom.null n
  oper : ∀ a ∈ S.positive ++ S.negative, ∀ o, .oper o ∈ a.terms → ∀ c ∈ o.consts, ∀ n, c ≠ Dom.null n
  head : ∀ h ∈ S.head, ∀ t ∈ h.terms, ∀ c ∈ t.norm.consts, ∀ n, c ≠ Dom.null n
  agg : ∀ h ∈ S.head, ∀ t ∈ h.terms, ∀ k i d, t.agg? = some (k, i, d) → ∀ c ∈ i.consts, ∀ n, c ≠ Dom.null n

/-- The existential rules that are considered: the terms of the head are constants, existential variables and variables that occur in
positive body atoms.  (If there is a computed value in the head of an existential rule, the program panics, see `ExOK`.) -/
structure SExOK (S : SRule α) : Prop where
  terms : ∀ h ∈ S.head, ∀ t ∈ h.terms, (∃ c, t = .const c) ∨ ∃ v, t = .var v ∧
    (v.isExistential = true ∨ ∃ a ∈ S.positive, .var v ∈ a.terms)
  body : ∀ a ∈ S.positive, ∀ v, .var v ∈ a.terms → v.isExistential = false

/-- Conditions on programs with existential rules; `sat` are the helper predicates. -/
structure SXProgOK (Ss : List (SRule α)) (sat : Nat → Tag) (arity : Tag → Nat) : Prop where
  valid : ∀ S ∈ Ss, SValid S
  body : ∀ S ∈ Ss, SBodyOK S arity
  headArity : ∀ S ∈ Ss, ∀ h ∈ S.head, h.terms.length = arity h.pred
  noNulls : ∀ S ∈ Ss, SNoNulls S
  ex : ∀ S ∈ Ss, S.HasEx → SExOK S
  satInj : ∀ i j, sat i = sat j → i = j
  satFresh : ∀ i, ∀ S ∈ Ss, (∀ a ∈ S.positive ++ S.negative, a.pred ≠ sat i) ∧ ∀ h ∈ S.head, h.pred ≠ sat i

/-- Replacing nulls does not change the value of the term, except that nulls in it are replaced. -/
def HomStable (e : (Variable → α) → Option α) : Prop :=
  ∀ h : α → α, IsHom h → ∀ (σ : Variable → α) a, e σ = some a → e (h ∘ σ) = some (h a)

/-- Rules without negation, aggregates, and conditions or functions that distinguish nulls. -/
structure SPositive (S : SRule α) : Prop where
  neg : S.negative = []
  agg : ¬ S.HasAgg
  ops : ∀ o ∈ S.operations, HomSafe o
  body : ∀ a ∈ S.positive, ∀ o, .oper o ∈ a.terms → HomStable fun σ => o.eval σ
  head : ∀ h ∈ S.head, ∀ t ∈ h.terms, HomStable fun σ => t.norm.eval σ

/-! ## Normalized existential rules -/

section rule
variable {S : SRule α} (order : List Variable)

theorem norm_existential (hV : SValid S) : (normalizeRule S order).isExistential = true ↔ S.HasEx := by
  rw [NRule.isExistential, List.any_eq_true]
  constructor
  · rintro ⟨x, hx, hv⟩
    obtain ⟨v, hv, he⟩ := List.any_eq_true.1 hv
    obtain ⟨i, hi⟩ := List.mem_iff_getElem?.1 hx
    rw [norm_head, Option.map_eq_some_iff] at hi
    obtain ⟨h, h1, rfl⟩ := hi
    obtain ⟨m, t, g1, g2⟩ := mem_vars_norm_head hv
    by_contra hno
    have hu : ∀ v ∈ t.vars, v.isExistential = false := by
      intro w hw
      by_contra hw'
      exact hno ⟨h, List.mem_of_getElem? h1, w, HTerm.mem_varsList (List.mem_of_getElem? g1) hw, by simpa using hw'⟩
    rw [prim_universal hu g2] at he
    cases he
  · rintro ⟨h, hh, v, hv, he⟩
    have aux : ∀ ts : List (HTerm α), v ∈ HTerm.varsList ts → ∃ t ∈ ts, v ∈ t.vars := by
      intro ts
      induction ts with
      | nil => intro h; simp [HTerm.varsList] at h
      | cons t ts ih =>
        intro h
        simp only [HTerm.varsList, List.mem_append] at h
        rcases h with h | h
        · exact ⟨t, List.mem_cons_self, h⟩
        · obtain ⟨t', h1, h2⟩ := ih h
          exact ⟨t', List.mem_cons_of_mem _ h1, h2⟩
    obtain ⟨t, ht, hvt⟩ := aux _ hv
    have ht' : ∃ w, t = .var w := by
      by_contra hno
      have := hV.headPlain h hh t ht (fun w hw => hno ⟨w, hw⟩) v hvt
      rw [this] at he; cases he
    obtain ⟨w, rfl⟩ := ht'
    obtain rfl : v = w := by simpa [HTerm.vars] using hvt
    obtain ⟨j, hj⟩ := List.mem_iff_getElem?.1 hh
    obtain ⟨i, hi⟩ := List.mem_iff_getElem?.1 ht
    refine ⟨⟨h.pred, (headParts S j h).terms⟩, List.mem_of_getElem? (by rw [norm_head, hj]; rfl), ?_⟩
    refine List.any_eq_true.2 ⟨v, List.mem_filterMap.2 ⟨.var v, List.mem_of_getElem? (i := i) ?_, rfl⟩, he⟩
    rw [normHeadLoop_terms, hi]; rfl

/-- The instances of the head of an existential rule. -/
theorem SExOK.inst (hE : SExOK S) {j : Nat} {h : SHead α} (hj : S.head[j]? = some h) (τ : Variable → α) (x : α) (row : List α) :
    List.Forall₂ (fun t b => t.value τ x = some b) h.terms row ↔
      row = HeadAtom.inst ⟨h.pred, (headParts S j h).terms⟩ τ := by
  have hv : ∀ (i : Nat) (t : HTerm α), h.terms[i]? = some t → ∀ g, t.value τ x = some ((t.prim g).inst τ) := by
    intro i t hi g
    rcases hE.terms h (List.mem_of_getElem? hj) t (List.mem_of_getElem? hi) with ⟨c, rfl⟩ | ⟨v, rfl, -⟩ <;> rfl
  constructor
  · intro hr
    refine List.ext_getElem? fun i => ?_
    rw [inst_getElem?]
    cases hi : h.terms[i]? with
    | none =>
      rw [Option.map_none, List.getElem?_eq_none_iff, ← hr.length_eq]
      exact List.getElem?_eq_none_iff.1 hi
    | some t =>
      have hlt : i < row.length := by
        rw [← hr.length_eq]; exact (List.getElem?_eq_some_iff.1 hi).1
      have := forall₂_getElem? hr i t row[i] hi (List.getElem?_eq_getElem hlt)
      rw [hv i t hi (headGen h.terms (headsGen S.head (negGen S) j) i)] at this
      rw [List.getElem?_eq_getElem hlt, ← this]; rfl
  · rintro rfl
    refine forall₂_of_getElem? _ _ (inst_length j h τ).symm fun i t b hi hb => ?_
    rw [inst_getElem?, hi] at hb
    rw [hv i t hi]; exact hb

theorem SExOK.noAgg (hE : SExOK S) : ¬ S.HasAgg := by
  rintro ⟨h, hh, t, ht, hc⟩
  rcases hE.terms h hh t ht with ⟨c, rfl⟩ | ⟨v, rfl, -⟩ <;> simp [HTerm.aggCount] at hc

theorem SExOK.agg_none (hE : SExOK S) : (normalizeRule S order).aggregation = none := by
  have := mt (norm_hasAgg order).1 hE.noAgg
  simpa [NRule.containsAggregates] using this

theorem SExOK.head_var (hE : SExOK S) {j : Nat} {h : SHead α} (hj : S.head[j]? = some h) {v : Variable}
    (hv : v ∈ HeadAtom.vars (⟨h.pred, (headParts S j h).terms⟩ : HeadAtom α)) :
    .var v ∈ h.terms ∧ (v.isExistential = true ∨ ∃ a ∈ S.positive, .var v ∈ a.terms) := by
  obtain ⟨m, t, g1, g2⟩ := mem_vars_norm_head hv
  rcases hE.terms h (List.mem_of_getElem? hj) t (List.mem_of_getElem? g1) with ⟨c, rfl⟩ | ⟨w, rfl, hw⟩
  · cases g2
  · cases g2; exact ⟨List.mem_of_getElem? g1, hw⟩

/-- The head of a rule and of the normalized rule. -/
theorem SExOK.headSat (hE : SExOK S) (I : Interp α) (σ : Variable → α) :
    HeadSat (normalizeRule S order) I σ ↔ SHeadSat S I σ := by
  refine exists_congr fun τ => and_congr_right fun _ => ⟨fun H h hh => ?_, fun H x hx => ?_⟩
  · obtain ⟨j, hj⟩ := List.mem_iff_getElem?.1 hh
    refine ⟨_, H ⟨h.pred, (headParts S j h).terms⟩ (List.mem_of_getElem? (by rw [norm_head, hj]; rfl)), fun x => ?_⟩
    exact (hE.inst hj τ x _).2 rfl
  · obtain ⟨j, hj⟩ := List.mem_iff_getElem?.1 hx
    rw [norm_head, Option.map_eq_some_iff] at hj
    obtain ⟨h, h1, rfl⟩ := hj
    obtain ⟨row, r1, r2⟩ := H h (List.mem_of_getElem? h1)
    rw [← (hE.inst h1 τ Dom.tru row).1 (r2 _)]; exact r1

theorem SHeadSat.congr {I : Interp α} {σ σ' : Variable → α} (hE : SExOK S) (hV : SValid S)
    (h : ∀ v, ¬ v.Reserved → σ' v = σ v) (hs : SHeadSat S I σ') : SHeadSat S I σ := by
  obtain ⟨τ, h1, h2⟩ := hs
  refine ⟨fun v => if v.isExistential = true then τ v else σ v, fun v hv => by simp [hv], fun hd hh => ?_⟩
  obtain ⟨row, r1, r2⟩ := h2 hd hh
  refine ⟨row, r1, fun x => ?_⟩
  have := r2 x
  refine forall₂_of_getElem? _ _ this.length_eq fun i t b hi hb => ?_
  have hv := forall₂_getElem? this i t b hi hb
  rcases hE.terms hd hh t (List.mem_of_getElem? hi) with ⟨c, rfl⟩ | ⟨v, rfl, -⟩
  · exact hv
  · have hu := hV.userHead hh _ (List.mem_of_getElem? hi) v (by simp [HTerm.vars])
    rw [HTerm.value] at hv ⊢
    by_cases he : v.isExistential = true
    · rw [if_pos he]; exact hv
    · rw [if_neg he, ← h v hu, ← h1 v (by simpa using he)]; exact hv

theorem op_consts (hN : SNoNulls S) {o : Operation α} (ho : o ∈ (normalizeRule S order).operations) {c : α} (hc : c ∈ o.consts)
    (n : Nat) : c ≠ Dom.null n := by
  have aux : ∀ (ts : List (BTerm α)) used g o, o ∈ (normBodyTerms ts used g).2.1 → ∀ c ∈ o.consts,
      .const c ∈ ts ∨ ∃ e, .oper e ∈ ts ∧ c ∈ e.consts := by
    intro ts
    induction ts with
    | nil => intro _ _ o h; cases h
    | cons t ts ih =>
      intro used g o h c hc
      have lift : ∀ used g, o ∈ (normBodyTerms ts used g).2.1 → .const c ∈ t :: ts ∨ ∃ e, .oper e ∈ t :: ts ∧ c ∈ e.consts := by
        intro used g h
        rcases ih used g o h c hc with h | ⟨e, h, h'⟩
        · exact .inl (List.mem_cons_of_mem _ h)
        · exact .inr ⟨e, List.mem_cons_of_mem _ h, h'⟩
      cases t with
      | var v =>
        rw [normBodyTerms] at h
        split at h
        · rcases List.mem_cons.1 h with rfl | h
          · simp [Operation.consts] at hc
          · exact lift _ _ h
        · exact lift _ _ h
      | anon => exact lift _ _ h
      | const a =>
        rcases List.mem_cons.1 h with rfl | h
        · obtain rfl : c = a := by simpa [Operation.consts] using hc
          exact .inl List.mem_cons_self
        · exact lift _ _ h
      | oper e =>
        rcases List.mem_cons.1 h with rfl | h
        · exact .inr ⟨e, List.mem_cons_self, by simpa [Operation.consts] using hc⟩
        · exact lift _ _ h
  rcases (mem_norm_ops S order o).1 ho with h | ⟨a, k, h1, h2⟩ | ⟨a, k, h1, h2⟩ | ⟨j, h, h1, h2⟩ |
    ⟨j, h, a, outer, j', h1, h2, h3⟩
  · exact hN.ops o h c hc n
  · rcases aux _ _ _ o h2 c hc with h | ⟨e, h, h'⟩
    · exact hN.const a (List.mem_append_left _ h1.mem) c h n
    · exact hN.oper a (List.mem_append_left _ h1.mem) e h c h' n
  · rcases aux _ _ _ o h2 c hc with h | ⟨e, h, h'⟩
    · exact hN.const a (List.mem_append_right _ h1.mem) c h n
    · exact hN.oper a (List.mem_append_right _ h1.mem) e h c h' n
  · obtain ⟨f, t, ht, rfl, -⟩ := normHeadLoop_ops_form h2
    exact hN.head h (List.mem_of_getElem? h1) t ht c (by simpa [Operation.consts] using hc) n
  · obtain ⟨t, h4, h5, -⟩ := headParts_agg h2
    rcases normAggInput_cases a.2.1 with ⟨w, -, hi⟩ | hi
    · rw [hi] at h3; cases h3
    · rw [hi, List.mem_singleton] at h3
      subst h3
      exact hN.agg h (List.mem_of_getElem? h1) t (List.mem_of_getElem? h4) a.1 a.2.1 a.2.2 h5 c
        (by simpa [Operation.consts] using hc) n

theorem noNulls_norm (hN : SNoNulls S) : NoNulls (normalizeRule S order) := by
  refine ⟨fun o ho c hc n => op_consts order hN ho hc n, fun x hx c hc n => ?_⟩
  obtain ⟨j, hj⟩ := List.mem_iff_getElem?.1 hx
  rw [norm_head, Option.map_eq_some_iff] at hj
  obtain ⟨h, h1, rfl⟩ := hj
  obtain ⟨i, hi⟩ := List.mem_iff_getElem?.1 hc
  rw [normHeadLoop_terms, Option.map_eq_some_iff] at hi
  obtain ⟨t, h2, h3⟩ := hi
  refine hN.head h (List.mem_of_getElem? h1) t (List.mem_of_getElem? h2) c ?_ n
  cases t with
  | const a => cases h3; simp [HTerm.norm, Operation.consts]
  | var v => cases h3
  | equal _ _ => cases h3
  | op _ _ => cases h3
  | agg _ _ _ => cases h3

theorem positive_norm (hP : SPositive S) (hN : SNoNulls S) : XPositive (normalizeRule S order) := by
  have hassign : ∀ (f : Variable) (e : Operation α), HomStable (fun σ => e.eval σ) → HomSafe (.equal (.var f) e) := by
    intro f e he h hh σ hs
    rw [eval_assign] at hs ⊢
    exact he h hh σ _ hs
  refine ⟨?_, ?_, fun o ho => ?_⟩
  · rw [List.eq_nil_iff_forall_not_mem]
    intro x hx
    obtain ⟨a, k, hk, -⟩ := (mem_norm_neg S order _).1 hx
    have := hk.mem; rw [hP.neg] at this; cases this
  · have := mt (norm_hasAgg order).1 hP.agg
    simpa [NRule.containsAggregates] using this
  · rcases (mem_norm_ops S order o).1 ho with h | ⟨a, k, h1, h2⟩ | ⟨a, k, h1, h2⟩ | ⟨j, h, h1, h2⟩ |
      ⟨j, h, a, outer, j', h1, h2, h3⟩
    · exact hP.ops o h
    · obtain ⟨f, e, rfl, -, -, hc⟩ := normBodyTerms_ops _ _ _ h2
      rcases hc with ⟨v, rfl, -⟩ | ⟨c, rfl⟩ | hop
      · exact homSafe_var f v
      · refine homSafe_const f fun n => op_consts order hN ho (by simp [Operation.consts]) n
      · exact hassign f e (hP.body a h1.mem e hop)
    · have := h1.mem; rw [hP.neg] at this; cases this
    · obtain ⟨f, t, ht, rfl, -⟩ := normHeadLoop_ops_form h2
      exact hassign f _ (hP.head h (List.mem_of_getElem? h1) t ht)
    · obtain ⟨t, h4, h5, -⟩ := headParts_agg h2
      exact absurd ⟨h, List.mem_of_getElem? h1, t, List.mem_of_getElem? h4, agg_count h5⟩ hP.agg

end rule

/-! ## The orders for heads -/

theorem exOrder_spec (aux : Tag) (co : VarOrder.ColOrders) (r : NRule α) : ∃ o, exOrder aux co r = some o ∧
    (r.isExistential = true → o.Nodup ∧ ∀ v, v ∈ o ↔ v ∈ r.head.flatMap (·.vars)) ∧ (r.isExistential = false → o = []) := by
  unfold exOrder
  split
  · rename_i hex
    obtain ⟨res, co', h1, h2, h3⟩ := VarOrder.generateOrders_spec .forward [aux] [auxRule aux r] co
    rw [h1]
    obtain ⟨o, ho⟩ : ∃ o, res[0]? = some o := ⟨_, List.getElem?_eq_getElem (by rw [h2]; simp)⟩
    obtain ⟨n1, n2⟩ := h3 0 (auxRule aux r) o rfl ho
    have hn := normHead_spec r.head r.freshName r.name_lt_fresh
    refine ⟨o.filter fun v => decide (v ∈ r.head.flatMap (·.vars)), ?_, fun _ => ⟨n1.filter _, fun v => ?_⟩,
      fun he => by rw [he] at hex; cases hex⟩
    · show res[0]?.map _ = _
      rw [ho]; rfl
    rw [List.mem_filter]
    simp only [decide_eq_true_eq]
    refine ⟨fun h => h.2, fun h => ⟨(n2 v).2 ?_, h⟩⟩
    exact hn.cover v h
  · rename_i he
    exact ⟨[], rfl, fun h => absurd h he, fun _ => rfl⟩

theorem mapM_total {β γ : Type} (f : β → Option γ) (l : List β) (h : ∀ x ∈ l, ∃ y, f x = some y) :
    ∃ ys, l.mapM f = some ys ∧ List.Forall₂ (fun x y => f x = some y) l ys := by
  induction l with
  | nil => exact ⟨[], rfl, .nil⟩
  | cons x xs ih =>
    obtain ⟨y, hy⟩ := h x List.mem_cons_self
    obtain ⟨ys, h1, h2⟩ := ih fun z hz => h z (List.mem_cons_of_mem _ hz)
    exact ⟨y :: ys, by rw [List.mapM_cons, hy]; simp [h1], .cons hy h2⟩

/-- The parameters can always be computed. -/
theorem ruleCfgs_spec (given facts : List Tag) (aux : Tag) (sat : Nat → Tag) (rules : List (NRule α)) :
    ∃ cfgs, ruleCfgs given facts aux sat rules = some cfgs ∧ cfgs.length = rules.length ∧
      ∀ (i : Nat) r cfg, rules[i]? = some r → cfgs[i]? = some cfg → cfg.sat = sat i ∧
        cfg.hasFacts = r.predsHead.any (fun p => decide (p ∈ facts)) ∧
        (r.isExistential = true → cfg.exOrder.Nodup ∧ ∀ v, v ∈ cfg.exOrder ↔ v ∈ r.head.flatMap (·.vars)) ∧
        (r.isExistential = false → cfg.exOrder = []) := by
  obtain ⟨res, co, h1, -⟩ := VarOrder.generateOrders_spec .forward (VarOrder.derived rules) rules (VarOrder.initialColOrders given)
  unfold ruleCfgs
  rw [h1]
  obtain ⟨ys, y1, y2⟩ := mapM_total (fun x : NRule α × Nat => (exOrder aux co x.1).map fun o =>
    (⟨sat x.2, o, x.1.predsHead.any fun p => decide (p ∈ facts)⟩ : RuleCfg)) rules.zipIdx (fun x _ => by
      obtain ⟨o, ho, -⟩ := exOrder_spec aux co x.1
      exact ⟨_, by rw [ho]; rfl⟩)
  refine ⟨ys, y1, by rw [← y2.length_eq, List.length_zipIdx], fun i r cfg hr hc => ?_⟩
  have hz : rules.zipIdx[i]? = some (r, i) := by rw [List.getElem?_zipIdx, hr]; simp
  have := forall₂_getElem? y2 i (r, i) cfg hz hc
  obtain ⟨o, ho, hs⟩ := exOrder_spec aux co r
  simp only [ho, Option.map_some, Option.some.injEq] at this
  subst this
  exact ⟨rfl, rfl, hs⟩

/-! ## Programs -/

section program
variable {Ss : List (SRule α)} {given facts : List Tag} {aux : Tag} {sat : Nat → Tag} {rules : List (NRule α)} {cfgs : List RuleCfg}
  {arity : Tag → Nat}

theorem SXProgOK.ruleOK (h : SXProgOK Ss sat arity) {S : SRule α} (hS : S ∈ Ss) (hn : ¬ S.HasEx) : SRuleOK S arity := by
  refine ⟨(h.body S hS).bodyArity, h.headArity S hS, fun hd hh v hv => ?_, (h.body S hS).negShared, (h.body S hS).negLocal⟩
  by_contra he
  exact hn ⟨hd, hh, v, hv, by simpa using he⟩

/-- The models of the normalized program are those of the program. -/
theorem model_norm (h : normalizeProgram given Ss = some rules) (hok : SXProgOK Ss sat arity) (edb M : Interp α) :
    IsModel rules edb M ↔ SIsModel Ss edb M := by
  obtain ⟨h1, h2, -⟩ := normalizeProgram_rules h
  constructor
  · intro hM
    refine ⟨hM.edb, fun S hS hn p row hd => ?_, fun S hS he σ hb => ?_⟩
    · obtain ⟨order, ho⟩ := h2 S hS
      refine hM.datalog _ ho ?_ p row ((derives_norm_partial order (hok.valid S hS) M M p row).2 hd)
      rw [← Bool.not_eq_true, norm_existential order (hok.valid S hS)]; exact hn
    · obtain ⟨order, ho⟩ := h2 S hS
      obtain ⟨σ', s1, s2⟩ := source_bodyHolds order (hok.valid S hS) hb
      have hs := hM.ex _ ho ((norm_existential order (hok.valid S hS)).2 he) σ' s2
      exact (((hok.ex S hS he).headSat order M σ').1 hs).congr (hok.ex S hS he) (hok.valid S hS) s1
  · intro hM
    refine ⟨hM.edb, fun r hr hn p row hd => ?_, fun r hr he σ hb => ?_⟩
    · obtain ⟨S, hS, order, rfl, -⟩ := h1 r hr
      refine hM.datalog S hS ?_ p row ((derives_norm_partial order (hok.valid S hS) M M p row).1 hd)
      rw [← norm_existential order (hok.valid S hS)]; simpa using hn
    · obtain ⟨S, hS, order, rfl, -⟩ := h1 r hr
      have hx := (norm_existential order (hok.valid S hS)).1 he
      exact ((hok.ex S hS hx).headSat order M σ).2 (hM.ex S hS hx σ (bodyHolds_source order (hok.valid S hS) hb))

/-- arities, including those of the helper predicates -/
def xArity (rules : List (NRule α)) (cfgs : List RuleCfg) (arity : Tag → Nat) (p : Tag) : Nat :=
  match (rules.zip cfgs).find? fun x => decide (x.2.sat = p) with
  | some x => (x.2.exOrder.filter x.1.inFrontier).length
  | none => arity p

theorem xArity_other {p : Tag} (hp : ∀ cfg ∈ cfgs, cfg.sat ≠ p) : xArity rules cfgs arity p = arity p := by
  unfold xArity
  have : (rules.zip cfgs).find? (fun x => decide (x.2.sat = p)) = none := by
    rw [List.find?_eq_none]
    intro x hx
    simpa using hp x.2 (List.of_mem_zip hx).2
  rw [this]

theorem xArity_sat (hinj : ∀ (i j : Nat) cfg cfg', cfgs[i]? = some cfg → cfgs[j]? = some cfg' → cfg.sat = cfg'.sat → i = j)
    {i : Nat} {r : NRule α} {cfg : RuleCfg} (hr : rules[i]? = some r) (hc : cfgs[i]? = some cfg) :
    xArity rules cfgs arity cfg.sat = (cfg.exOrder.filter r.inFrontier).length := by
  unfold xArity
  cases hf : (rules.zip cfgs).find? (fun x => decide (x.2.sat = cfg.sat)) with
  | none =>
    rw [List.find?_eq_none] at hf
    have := hf (r, cfg) (List.mem_of_getElem? (i := i) (List.getElem?_zip_eq_some.2 ⟨hr, hc⟩))
    simp at this
  | some x =>
    have h1 := List.find?_some hf
    obtain ⟨j, hj⟩ := List.mem_iff_getElem?.1 (List.mem_of_find?_eq_some hf)
    obtain ⟨j1, j2⟩ := List.getElem?_zip_eq_some.1 hj
    have := hinj j i _ _ j2 hc (by simpa using h1)
    subst this
    rw [hr] at j1; rw [hc] at j2
    cases j1; cases j2; rfl

theorem progOK_x (h : normalizeProgram given Ss = some rules) (hc : ruleCfgs given facts aux sat rules = some cfgs)
    (hok : SXProgOK Ss sat arity) : XProgOK rules cfgs (xArity rules cfgs arity) ∧
      (∀ cfg ∈ cfgs, ∃ i, cfg.sat = sat i) := by
  obtain ⟨h1, -, h3⟩ := normalizeProgram_rules h
  obtain ⟨cfgs', c1, c2, c3⟩ := ruleCfgs_spec given facts aux sat rules
  rw [hc] at c1; cases c1
  have hsat : ∀ (i : Nat) cfg, cfgs[i]? = some cfg → cfg.sat = sat i := by
    intro i cfg hi
    have hlt : i < rules.length := by rw [← c2]; exact (List.getElem?_eq_some_iff.1 hi).1
    exact (c3 i rules[i] cfg (List.getElem?_eq_getElem hlt) hi).1
  have hex : ∀ cfg ∈ cfgs, ∃ i, cfg.sat = sat i := by
    intro cfg hm
    obtain ⟨i, hi⟩ := List.mem_iff_getElem?.1 hm
    exact ⟨i, hsat i cfg hi⟩
  have hinj : ∀ (i j : Nat) cfg cfg', cfgs[i]? = some cfg → cfgs[j]? = some cfg' → cfg.sat = cfg'.sat → i = j := by
    intro i j cfg cfg' hi hj he
    rw [hsat i cfg hi, hsat j cfg' hj] at he
    exact hok.satInj i j he
  have hpred : ∀ S ∈ Ss, (∀ a ∈ S.positive ++ S.negative, ∀ cfg ∈ cfgs, cfg.sat ≠ a.pred) ∧
      ∀ hd ∈ S.head, ∀ cfg ∈ cfgs, cfg.sat ≠ hd.pred := by
    intro S hS
    refine ⟨fun a ha cfg hm => ?_, fun hd hh cfg hm => ?_⟩
    · obtain ⟨i, hi⟩ := hex cfg hm
      rw [hi]; exact ((hok.satFresh i S hS).1 a ha).symm
    · obtain ⟨i, hi⟩ := hex cfg hm
      rw [hi]; exact ((hok.satFresh i S hS).2 hd hh).symm
  have hbody : ∀ S ∈ Ss, SBodyOK S (xArity rules cfgs arity) := fun S hS =>
    ⟨fun a ha => by rw [xArity_other ((hpred S hS).1 a ha)]; exact (hok.body S hS).bodyArity a ha,
      (hok.body S hS).negShared, (hok.body S hS).negLocal⟩
  have hhead : ∀ S ∈ Ss, ∀ hd ∈ S.head, hd.terms.length = xArity rules cfgs arity hd.pred := fun S hS hd hh => by
    rw [xArity_other ((hpred S hS).2 hd hh)]; exact hok.headArity S hS hd hh
  have hok' : SXProgOK Ss sat (xArity rules cfgs arity) :=
    ⟨hok.valid, hbody, hhead, hok.noNulls, hok.ex, hok.satInj, hok.satFresh⟩
  have hfresh : ∀ cfg ∈ cfgs, ∀ r ∈ rules, cfg.sat ∉ r.predsHead ∧ cfg.sat ∉ r.predsPositive ∧ cfg.sat ∉ r.predsNegative := by
    intro cfg hm r hr
    obtain ⟨S, hS, order, rfl, -⟩ := h1 r hr
    refine ⟨fun hx => ?_, fun hx => ?_, fun hx => ?_⟩
    · obtain ⟨x, hx, he⟩ := List.mem_map.1 hx
      obtain ⟨j, hj⟩ := List.mem_iff_getElem?.1 hx
      rw [norm_head, Option.map_eq_some_iff] at hj
      obtain ⟨hd, g1, rfl⟩ := hj
      exact (hpred S hS).2 hd (List.mem_of_getElem? g1) cfg hm he.symm
    · obtain ⟨x, hx, he⟩ := List.mem_map.1 hx
      obtain ⟨a, k, hk, rfl⟩ := (mem_norm_pos S order _).1 hx
      exact (hpred S hS).1 a (List.mem_append_left _ hk.mem) cfg hm he.symm
    · obtain ⟨x, hx, he⟩ := List.mem_map.1 hx
      obtain ⟨a, k, hk, rfl⟩ := (mem_norm_neg S order _).1 hx
      exact (hpred S hS).1 a (List.mem_append_right _ hk.mem) cfg hm he.symm
  refine ⟨⟨c2, fun r hr => ?_, fun r hr he => ?_, fun i r cfg hr hcf he => ?_, hfresh, hinj⟩, hex⟩
  · obtain ⟨S, hS, order, rfl, g1, g2⟩ := h1 r hr
    exact ⟨ruleOK_norm order (hok.valid S hS) (hbody S hS) g1 g2, noNulls_norm order (hok.noNulls S hS)⟩
  · obtain ⟨S, hS, order, rfl, -⟩ := h1 r hr
    refine headOK_norm order (hok.valid S hS) (hok'.ruleOK hS ?_)
    rw [← norm_existential order (hok.valid S hS)]; simpa using he
  · obtain ⟨-, -, c5, -⟩ := c3 i r cfg hr hcf
    obtain ⟨o1, o2⟩ := c5 he
    have hm := List.mem_of_getElem? hr
    have hmc := List.mem_of_getElem? hcf
    have hsf := (hfresh cfg hmc r hm).1
    have hsa := xArity_sat (arity := arity) hinj hr hcf
    obtain ⟨S, hS, order, rfl, -⟩ := h1 r hm
    have hE := hok.ex S hS ((norm_existential order (hok.valid S hS)).1 he)
    refine ⟨hE.agg_none order, fun x hx => ?_, fun x hx v hv hu => ?_, fun v hv => ?_, o1, fun x hx v hv => ?_, hsa, hsf⟩
    · obtain ⟨j, hj⟩ := List.mem_iff_getElem?.1 hx
      rw [norm_head, Option.map_eq_some_iff] at hj
      obtain ⟨hd, k1, rfl⟩ := hj
      exact (normHeadLoop_length _ _ _).trans (hhead S hS hd (List.mem_of_getElem? k1))
    · obtain ⟨j, hj⟩ := List.mem_iff_getElem?.1 hx
      rw [norm_head, Option.map_eq_some_iff] at hj
      obtain ⟨hd, k1, rfl⟩ := hj
      obtain ⟨-, hx | ⟨a, ha, hva⟩⟩ := hE.head_var k1 hv
      · rw [hu] at hx; cases hx
      · obtain ⟨k, hk⟩ := exists_atomAt 0 ha
        exact List.mem_flatMap.2 ⟨_, (mem_norm_pos S order _).2 ⟨a, k, hk, rfl⟩,
          (normBodyTerms_has a.terms [] k hva).resolve_left (by simp)⟩
    · obtain ⟨x, hx, hvx⟩ := List.mem_flatMap.1 hv
      obtain ⟨a, k, hk, rfl⟩ := (mem_norm_pos S order _).1 hx
      rcases normBodyTerms_vars a.terms [] k hvx with hw | ⟨_, _, _, rfl⟩
      · exact hE.body a hk.mem v hw.1
      · rfl
    · exact (o2 v).2 (List.mem_flatMap.2 ⟨x, hx, hv⟩)

variable {cond : Nat → List (Nat × Nat) → List (List Nat)} {edb : List (Tag × List (List α))} {outs : List Tag} {fuel : Nat}
  {st : Eng α} [NullDom α]

/-- The input contains no nulls and no facts for helper predicates. -/
structure SEdbOK (edb : List (Tag × List (List α))) (sat : Nat → Tag) (arity : Tag → Nat) : Prop where
  ok : EdbOK edb arity
  nulls : ∀ p row, edbFacts edb p row → ∀ a ∈ row, ∀ n, a ≠ Dom.null n
  helpers : ∀ x ∈ edb, ∀ i, x.1 ≠ sat i

omit [NullDom α] in
theorem edbOK_x (hx : ∀ cfg ∈ cfgs, ∃ i, cfg.sat = sat i) (he : SEdbOK edb sat arity) : XEdbOK edb cfgs (xArity rules cfgs arity) := by
  have hn : ∀ x ∈ edb, ∀ cfg ∈ cfgs, cfg.sat ≠ x.1 := by
    intro x hm cfg hc
    obtain ⟨i, hi⟩ := hx cfg hc
    rw [hi]; exact (he.helpers x hm i).symm
  refine ⟨⟨he.ok.preds, fun x hm row hr => ?_⟩, he.nulls, ?_⟩
  · rw [xArity_other (hn x hm)]; exact he.ok.rows x hm row hr
  · rintro p row hp ⟨cfg, hc, rfl⟩
    obtain ⟨x, hm, hxe, -⟩ : ∃ x ∈ edb, x.1 = cfg.sat ∧ row ∈ x.2 := by
      simpa [edbFacts] using hp
    exact hn x hm cfg hc hxe.symm

/-- **C25, C43: when the engine stops, its facts satisfy all rules as they are written.** -/
theorem execute_source_model (hcond : CondOK cond) (h : normalizeProgram given Ss = some rules)
    (hc : ruleCfgs given facts aux sat rules = some cfgs) (hok : SXProgOK Ss sat arity) (he : SEdbOK edb sat arity)
    (hx : Eng.execute cond rules cfgs outs fuel (Eng.init edb) = some (some st)) :
    SIsModel Ss (edbFacts edb) st.answers := by
  obtain ⟨p1, p2⟩ := progOK_x h hc hok
  exact (model_norm h hok _ _).1 (execute_isModel hcond p1 (edbOK_x p2 he) hx)

/-- **C25, C43: the facts of the engine can be mapped into every model of the rules as they are written, changing only nulls.** -/
theorem execute_source_universal (h : normalizeProgram given Ss = some rules)
    (hc : ruleCfgs given facts aux sat rules = some cfgs) (hok : SXProgOK Ss sat arity) (he : SEdbOK edb sat arity)
    (hpos : ∀ S ∈ Ss, SPositive S) (hx : Eng.execute cond rules cfgs outs fuel (Eng.init edb) = some (some st))
    {M : Interp α} (hM : SIsModel Ss (edbFacts edb) M) :
    ∃ f : α → α, (∀ a, (∀ n, a ≠ Dom.null n) → f a = a) ∧
      ∀ p, (∀ i, p ≠ sat i) → ∀ row ∈ st.predicateRows p, M p (row.map f) := by
  obtain ⟨p1, p2⟩ := progOK_x h hc hok
  obtain ⟨h1, -⟩ := normalizeProgram_rules h
  obtain ⟨f, f1, f2⟩ := execute_universal p1 (edbOK_x p2 he) (fun r hr => by
    obtain ⟨S, hS, order, rfl, -⟩ := h1 r hr
    exact positive_norm order (hpos S hS) (hok.noNulls S hS)) hx ((model_norm h hok _ _).2 hM)
  refine ⟨f, f1, fun p hp row hr => f2 p (fun cfg hm => ?_) row hr⟩
  obtain ⟨i, hi⟩ := p2 cfg hm
  rw [hi]; exact hp i

/-- **C25, C43: the answers without nulls are the certain answers of the program as it is written.** -/
theorem execute_source_certain (hcond : CondOK cond) (h : normalizeProgram given Ss = some rules)
    (hc : ruleCfgs given facts aux sat rules = some cfgs) (hok : SXProgOK Ss sat arity) (he : SEdbOK edb sat arity)
    (hpos : ∀ S ∈ Ss, SPositive S) (hx : Eng.execute cond rules cfgs outs fuel (Eng.init edb) = some (some st))
    {p : Tag} (hn : ∀ i, p ≠ sat i) {row : List α} (hrow : ∀ a ∈ row, ∀ n, a ≠ Dom.null n) :
    row ∈ st.predicateRows p ↔ ∀ M, SIsModel Ss (edbFacts edb) M → M p row := by
  constructor
  · intro hr M hM
    obtain ⟨f, f1, f2⟩ := execute_source_universal h hc hok he hpos hx hM
    have := f2 p hn row hr
    have e : row.map f = row := by
      conv_rhs => rw [← List.map_id row]
      exact List.map_congr_left fun a ha => f1 a (hrow a ha)
    rwa [e] at this
  · exact fun hr => hr _ (execute_source_model hcond h hc hok he hx)

end program
end Verif
