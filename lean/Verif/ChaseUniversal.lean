import Verif.ChaseRun

/-!
# The facts with nulls are necessary (C25)

A *model* of a program contains the input and satisfies all rules, including the existential ones.
`execute_isModel`: when the engine stops, its facts are a model.
`execute_universal`: the facts of the engine can be mapped into every model, by a mapping that only replaces nulls.  So no
statement about the original values holds in the result that does not hold in every model.  This is also true for all
intermediate states of an evaluation that does not terminate (`exec_universal`).
-/

set_option linter.unusedSimpArgs false
set_option linter.unusedSectionVars false

namespace Verif
variable {α : Type} [DecidableEq α] [Dom α]

/-- `M` contains the facts `edb`, is closed under the rules without existential variables, and for each match of the body of
an existential rule there are values for the existential variables that make the head true. -/
structure IsModel (rules : List (NRule α)) (edb M : Interp α) : Prop where
  edb : edb.le M
  datalog : ∀ r ∈ rules, r.isExistential = false → (Derives r M M).le M
  ex : ∀ r ∈ rules, r.isExistential = true → ∀ σ, BodyHolds r M M σ →
    ∃ τ : Variable → α, (∀ v, v.isExistential = false → τ v = σ v) ∧ ∀ hd ∈ r.head, M hd.pred (hd.inst τ)

/-- The mapping only changes nulls. -/
def IsHom (h : α → α) : Prop := ∀ a, (∀ n, a ≠ Dom.null n) → h a = a

/-- Replacing nulls does not make a true condition false. -/
def HomSafe (o : Operation α) : Prop :=
  ∀ h : α → α, IsHom h → ∀ σ : Variable → α, o.eval σ = some Dom.tru → o.eval (h ∘ σ) = some Dom.tru

/-- Rules without negation, aggregates, and conditions that distinguish nulls. -/
structure XPositive (r : NRule α) : Prop where
  neg : r.negative = []
  agg : r.aggregation = none
  ops : ∀ o ∈ r.operations, HomSafe o

/-- Equations between variables may be used. -/
theorem homSafe_var (v w : Variable) : HomSafe (α := α) (.equal (.var v) (.var w)) := by
  intro h _ σ hs
  rw [eval_var_eq] at hs ⊢
  simp only [Operation.eval, Option.some.injEq, Function.comp] at hs ⊢
  rw [hs]

/-- Equations between variables and constants may be used. -/
theorem homSafe_const (v : Variable) {c : α} (hc : ∀ n, c ≠ Dom.null n) : HomSafe (.equal (.var v) (.const c)) := by
  intro h hh σ hs
  rw [eval_var_eq] at hs ⊢
  simp only [Operation.eval, Option.some.injEq, Function.comp] at hs ⊢
  rw [← hs, hh c hc]

/-- A computed value may be used if the function is undefined for nulls and its values are not nulls. -/
theorem homSafe_app (v : Variable) (k : Nat) (ws : List Variable)
    (hk : ∀ l a, Dom.app k l = some (a : α) → (∀ b ∈ l, ∀ n, b ≠ Dom.null n) ∧ ∀ n, a ≠ Dom.null n) :
    HomSafe (α := α) (.equal (.var v) (.op k (ws.map .var))) := by
  intro h hh σ hs
  rw [eval_var_eq] at hs ⊢
  have hl : ∀ (τ : Variable → α), Operation.evalList τ (ws.map .var) = some (ws.map τ) := by
    intro τ
    clear hs
    induction ws with
    | nil => simp [Operation.evalList]
    | cons w ws ih => simp [Operation.evalList, Operation.eval, ih]
  simp only [Operation.eval, hl, Option.bind_eq_bind, Option.bind_some] at hs ⊢
  obtain ⟨h1, h2⟩ := hk _ _ hs
  have h3 : ws.map (h ∘ σ) = ws.map σ := by
    apply List.map_congr_left
    intro w hw
    exact hh _ (h1 _ (List.mem_map_of_mem hw))
  rw [h3, hs]
  simp only [Function.comp]
  rw [hh _ h2]

section
variable {r : NRule α}

theorem HeadAtom.inst_hom {h : α → α} (hh : IsHom h) (hn : NoNulls r) {hd : HeadAtom α} (hm : hd ∈ r.head)
    (τ : Variable → α) : (hd.inst τ).map h = hd.inst (h ∘ τ) := by
  unfold HeadAtom.inst
  rw [List.map_map]
  apply List.map_congr_left
  intro t ht
  cases t with
  | const c => exact hh c (hn.head hd hm c ht)
  | var v => rfl

theorem BodyHolds.hom (hp : XPositive r) {h : α → α} (hh : IsHom h) {P N M : Interp α} {σ : Variable → α}
    (hb : BodyHolds r P N σ) (hI : ∀ a ∈ r.positive, P a.pred (a.terms.map σ) → M a.pred ((a.terms.map σ).map h)) :
    BodyHolds r M M (h ∘ σ) := by
  refine ⟨fun a ha => ?_, fun o ho hs => hp.ops o ho h hh σ (hb.ops o ho hs), by simp [hp.neg]⟩
  have := hI a ha (hb.pos a ha)
  rwa [List.map_map] at this
end

section
variable {rules : List (NRule α)} {cfgs : List RuleCfg} {arity : Tag → Nat} [NullDom α]

/-- The facts (without those of helper predicates) are mapped into `M`. -/
def MapsInto (cfgs : List RuleCfg) (h : α → α) (I M : Interp α) : Prop :=
  ∀ p row, ¬ IsHelper cfgs p → I p row → M p (row.map h)

theorem mul_add_inj {e k j k' j' : Nat} (hj : j < e) (hj' : j' < e) (h : k * e + j = k' * e + j') : k = k' ∧ j = j' := by
  have h1 : (k * e + j) / e = k := by
    rw [Nat.mul_comm, Nat.mul_add_div (by omega), Nat.div_eq_of_lt hj]; omega
  have h2 : (k' * e + j') / e = k' := by
    rw [Nat.mul_comm, Nat.mul_add_div (by omega), Nat.div_eq_of_lt hj']; omega
  rw [h, h2] at h1
  subst h1
  exact ⟨rfl, by omega⟩

/-- An iteration keeps the facts mappable. -/
theorem iterate_universal (hp : XProgOK rules cfgs arity) (hpos : ∀ r ∈ rules, XPositive r) {edb M : Interp α}
    (hM : IsModel rules edb M) {st : Eng α} (ho : st.OK arity) (hf : st.Fresh) {h : α → α} (hh : IsHom h)
    (hI : MapsInto cfgs h st.Facts M) {i : Nat} {st' : Eng α} {b : Bool} (hit : st.iterate rules cfgs i = some (st', b)) :
    st'.OK arity ∧ st'.Fresh ∧ ∃ h', IsHom h' ∧ MapsInto cfgs h' st'.Facts M := by
  have hi : i < rules.length := by
    by_contra hc
    have hn : rules[i]? = none := List.getElem?_eq_none (by omega)
    unfold Eng.iterate Eng.step at hit
    simp [hn] at hit
  obtain ⟨r, cfg, st1, b1, A, n, hr, hc, h1, h2, h3, h4, h5, h6, h7, h8, h9, h10, h11, h12⟩ := Eng.iterate_x hp ho hf hi
  rw [hit] at h1
  obtain ⟨rfl, rfl⟩ := Prod.mk.injEq .. ▸ (Option.some.injEq .. ▸ h1)
  refine ⟨h2, h3, ?_⟩
  have hm := List.mem_of_getElem? hr
  have hcm := List.mem_of_getElem? hc
  have hpr := hpos r hm
  have hnn := (hp.rule r hm).2
  have hfacts : ∀ p row, st'.Facts p row ↔ st.Facts p row ∨ A p row := by
    intro p row
    constructor
    · rintro ⟨s, hs⟩
      rcases (h9 p s row).1 hs with h | ⟨-, h⟩
      · exact Or.inl ⟨s, h⟩
      · exact Or.inr h
    · rintro (⟨s, hs⟩ | h)
      · exact ⟨s, (h9 p s row).2 (Or.inl hs)⟩
      · exact ⟨st.cur, (h9 p _ row).2 (Or.inr ⟨rfl, h⟩)⟩
  -- helper predicates do not occur in the rule
  have hph : ∀ p ∈ r.predsHead, ¬ IsHelper cfgs p := by
    rintro p hpp ⟨c, hcc, rfl⟩; exact (hp.satFresh c hcc r hm).1 hpp
  have hpb : ∀ a ∈ r.positive, ¬ IsHelper cfgs a.pred := by
    rintro a ha ⟨c, hcc, he⟩
    exact (hp.satFresh c hcc r hm).2.1 (he ▸ List.mem_map_of_mem ha)
  -- matches of the body are mapped to matches
  have hmatch : ∀ σ, NewMatch r st.At (st.last i) st.cur σ → BodyHolds r M M (h ∘ σ) := by
    intro σ hσ
    refine BodyHolds.hom hpr hh hσ.1 fun a ha hP => hI _ _ (hpb a ha) ?_
    exact (ho.before_iff _ _).1 hP
  cases h6 with
  | datalog hex =>
    refine ⟨h, hh, fun p row hnh hrow => ?_⟩
    rcases (hfacts p row).1 hrow with h13 | ⟨h13, -⟩
    · exact hI p row hnh h13
    · cases h13 with
      | @plain σ hd k q1 q2 q3 =>
        have hmd := List.mem_of_getElem? q2
        rw [HeadAtom.inst_hom hh hnn hmd]
        apply hM.datalog r hm hex
        have hca : r.containsAggregates = false := by simp [NRule.containsAggregates, hpr.agg]
        unfold Derives
        simp only [hca, Bool.false_eq_true, if_false]
        exact .plain (hmatch σ q1) q2 q3
      | agg q1 q2 q3 => rw [hpr.agg] at q2; cases q2
  | @ex U hex u1 u2 =>
    have hx := hp.ex i r cfg hr hc hex
    have hT : ∀ k : Nat, ∃ T : Variable → α, ∀ x : List α, U[k]? = some x → (r.fr cfg).map T = x.map h ∧
        ∀ hd ∈ r.head, M hd.pred (hd.inst T) := by
      intro k
      rcases hk : U[k]? with _ | x
      · exact ⟨fun _ => Dom.tru, by simp⟩
      · obtain ⟨⟨σ, q1, q2⟩, -⟩ := (u2 x).1 (List.mem_of_getElem? hk)
        obtain ⟨T, t1, t2⟩ := hM.ex r hm hex _ (hmatch σ q1)
        refine ⟨T, fun y hy => ?_⟩
        rw [Option.some.injEq] at hy
        subst hy
        refine ⟨?_, t2⟩
        rw [q2, List.map_map]
        exact List.map_congr_left fun v hv => t1 v ((hx.mem_fr v).1 hv).2
    choose T hT using hT
    classical
    obtain ⟨h', hh'1, hh'2⟩ : ∃ h' : α → α,
        (∀ (k j : Nat) v, r.exVars[j]? = some v → h' (Dom.null (st.nextNull + k * r.exVars.length + j)) = T k v) ∧
        ∀ a, Known st.nextNull a → h' a = h a := by
      refine ⟨fun a => if hx : ∃ q : Nat × Nat × Variable, r.exVars[q.2.1]? = some q.2.2 ∧
        a = Dom.null (st.nextNull + q.1 * r.exVars.length + q.2.1) then T hx.choose.1 hx.choose.2.2 else h a, ?_, ?_⟩
      · intro k j v hj
        have hx : ∃ q : Nat × Nat × Variable, r.exVars[q.2.1]? = some q.2.2 ∧
          (Dom.null (st.nextNull + k * r.exVars.length + j) : α) =
            Dom.null (st.nextNull + q.1 * r.exVars.length + q.2.1) := ⟨(k, j, v), hj, rfl⟩
        simp only
        rw [dif_pos hx]
        obtain ⟨q1, q2⟩ := hx.choose_spec
        have q3 := NullDom.null_inj _ _ q2
        have l1 := (List.getElem?_eq_some_iff.1 hj).1
        have l2 := (List.getElem?_eq_some_iff.1 q1).1
        obtain ⟨e1, e2⟩ := mul_add_inj l1 l2 (by omega : k * r.exVars.length + j =
          hx.choose.1 * r.exVars.length + hx.choose.2.1)
        rw [← e2, hj, Option.some.injEq] at q1
        rw [← e1, ← q1]
      · intro a ha
        simp only
        rw [dif_neg]
        rintro ⟨q, -, q2⟩
        have := ha _ q2
        omega
    have hhom : IsHom h' := by
      intro a ha
      rw [hh'2 a (fun n hn => absurd hn (ha n)), hh a ha]
    -- known facts are mapped as before
    have hold : ∀ p row, st.Facts p row → row.map h' = row.map h := by
      intro p row hrow
      exact List.map_congr_left fun a ha => hh'2 a (hf p row hrow a ha)
    refine ⟨h', hhom, fun p row hnh hrow => ?_⟩
    rcases (hfacts p row).1 hrow with h13 | h13
    · rw [hold p row h13]; exact hI p row hnh h13
    · cases h13 with
      | @plain hd σ q1 q2 q3 q4 =>
        have hσ : ∀ v ∈ hd.vars, Known st.nextNull (σ v) := by
          intro v hv
          have hve : v.isExistential = false := by
            unfold HeadAtom.varsExistential at q2
            rw [List.filter_eq_nil_iff] at q2
            simpa using q2 v hv
          obtain ⟨a, ha, hva⟩ := List.mem_flatMap.1 (hx.frontier hd q1 v hv hve)
          exact q3.1.known hnn (fun p row hrow => hf p row ((ho.before_iff p row).1 hrow)) (.atom ha hva)
        rw [HeadAtom.inst_hom hhom hnn q1]
        have e1 : hd.inst (h' ∘ σ) = hd.inst (h ∘ σ) := HeadAtom.inst_congr hd fun v hv => hh'2 _ (hσ v hv)
        rw [e1]
        obtain ⟨T', t1, t2⟩ := hM.ex r hm hex _ (hmatch σ q3)
        have e2 : hd.inst (h ∘ σ) = hd.inst T' := by
          refine HeadAtom.inst_congr hd fun v hv => (t1 v ?_).symm
          unfold HeadAtom.varsExistential at q2
          rw [List.filter_eq_nil_iff] at q2
          simpa using q2 v hv
        rw [e2]
        exact t2 hd q1
      | @null hd k τ q1 q2 q3 =>
        obtain ⟨t1, t2⟩ := hT k _ q3.frontier
        rw [HeadAtom.inst_hom hhom hnn q1]
        have e1 : hd.inst (h' ∘ τ) = hd.inst (T k) := by
          refine HeadAtom.inst_congr hd fun v hv => ?_
          have hvm : v ∈ r.fr cfg ++ r.exVars := (hx.mem_cols v).2 (List.mem_flatMap.2 ⟨hd, q1, hv⟩)
          rcases List.mem_append.1 hvm with hvf | hve
          · rw [List.map_map] at t1
            rw [List.map_eq_map_iff.1 t1 v hvf]
            refine hh'2 _ ?_
            obtain ⟨⟨σ, w1, w2⟩, -⟩ := (u2 _).1 (List.mem_of_getElem? q3.frontier)
            rw [List.map_eq_map_iff.1 w2 v hvf]
            obtain ⟨h5, h6⟩ := (hx.mem_fr v).1 hvf
            obtain ⟨a, ha, hva⟩ := List.mem_flatMap.1 (hx.frontier hd q1 v hv h6)
            exact w1.1.known hnn (fun p row hrow => hf p row ((ho.before_iff p row).1 hrow)) (.atom ha hva)
          · obtain ⟨j, hj⟩ := List.getElem?_of_mem hve
            show h' (τ v) = T k v
            rw [q3.nulls j v hj]
            exact hh'1 k j v hj
        rw [e1]
        exact t2 hd q1
      | unsat q1 => exact absurd ⟨cfg, hcm, rfl⟩ hnh
      | newSat q1 q2 q3 => exact absurd ⟨cfg, hcm, rfl⟩ hnh

/-- **The facts that are stored after any sequence of rule applications can be mapped into every model.** -/
theorem exec_universal (hp : XProgOK rules cfgs arity) (hpos : ∀ r ∈ rules, XPositive r) {edb M : Interp α}
    (hM : IsModel rules edb M) {st st' : Eng α} {tr : List (Nat × Bool)} (hex : Exec rules cfgs st tr st')
    (ho : st.OK arity) (hf : st.Fresh) {h : α → α} (hh : IsHom h) (hI : MapsInto cfgs h st.Facts M) :
    st'.OK arity ∧ st'.Fresh ∧ ∃ h', IsHom h' ∧ MapsInto cfgs h' st'.Facts M := by
  induction hex generalizing h with
  | nil => exact ⟨ho, hf, h, hh, hI⟩
  | cons h1 _ ih =>
    obtain ⟨a1, a2, h2, a3, a4⟩ := iterate_universal hp hpos hM ho hf hh hI h1
    exact ih a1 a2 a3 a4

variable {cond : Nat → List (Nat × Nat) → List (List Nat)} {edb : List (Tag × List (List α))} {outs : List Tag}
  {fuel : Nat} {st : Eng α}

/-- **C25: when the engine stops, its facts are a model of the program.** -/
theorem execute_isModel (hcond : CondOK cond) (hp : XProgOK rules cfgs arity) (he : XEdbOK edb cfgs arity)
    (h : Eng.execute cond rules cfgs outs fuel (Eng.init edb) = some (some st)) :
    IsModel rules (edbFacts edb) st.answers := by
  obtain ⟨h1, h2, h3⟩ := execute_model hcond hp he h
  exact ⟨h1, h2, h3⟩

/-- **C25: the facts of the engine can be mapped into every model, changing only nulls.** -/
theorem execute_universal (hp : XProgOK rules cfgs arity) (he : XEdbOK edb cfgs arity) (hpos : ∀ r ∈ rules, XPositive r)
    (h : Eng.execute cond rules cfgs outs fuel (Eng.init edb) = some (some st))
    {M : Interp α} (hM : IsModel rules (edbFacts edb) M) :
    ∃ f : α → α, (∀ a, (∀ n, a ≠ Dom.null n) → f a = a) ∧
      ∀ p, (∀ cfg ∈ cfgs, p ≠ cfg.sat) → ∀ row ∈ st.predicateRows p, M p (row.map f) := by
  unfold Eng.execute at h
  rw [Option.map_eq_some_iff] at h
  obtain ⟨strata, hs, h⟩ := h
  obtain ⟨tr, h1, h2⟩ := execLoop_exec h
  obtain ⟨s1, s2, s3, s4, s5⟩ := start_spec (outs := outs) (rules := rules) he
  have hI : MapsInto cfgs id (outs.foldl Eng.combinePredicate (Eng.init edb)).Facts M := by
    intro p row _ hrow
    rw [s5] at hrow
    rw [List.map_id]
    exact hM.edb p row hrow
  obtain ⟨r1, r2, f, r3, r4⟩ := exec_universal hp hpos hM h2 s1 s2 (fun a _ => rfl) hI
  refine ⟨f, r3, fun p hn row hrow => r4 p row (fun ⟨c, hc, he⟩ => hn c hc he) ?_⟩
  rw [← answers_eq r1]
  exact hrow

/-- **C25: certain answers.**  A fact without nulls is derived if and only if it is true in all models. -/
theorem execute_certain (hcond : CondOK cond) (hp : XProgOK rules cfgs arity) (he : XEdbOK edb cfgs arity)
    (hpos : ∀ r ∈ rules, XPositive r)
    (h : Eng.execute cond rules cfgs outs fuel (Eng.init edb) = some (some st))
    {p : Tag} (hn : ∀ cfg ∈ cfgs, p ≠ cfg.sat) {row : List α} (hrow : ∀ a ∈ row, ∀ n, a ≠ Dom.null n) :
    row ∈ st.predicateRows p ↔ ∀ M, IsModel rules (edbFacts edb) M → M p row := by
  constructor
  · intro hr M hM
    obtain ⟨f, f1, f2⟩ := execute_universal hp he hpos h hM
    have := f2 p hn row hr
    have e : row.map f = row := by
      conv_rhs => rw [← List.map_id row]
      exact List.map_congr_left fun a ha => f1 a (hrow a ha)
    rwa [e] at this
  · intro hr
    exact hr _ (execute_isModel hcond hp he h)

end
end Verif
