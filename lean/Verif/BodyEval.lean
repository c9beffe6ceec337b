import Verif.RelAlgebra

/-!
# The planner evaluates rule bodies correctly

The table computed by `evalBody` contains exactly the valuations that make the body true and use at
least one new fact.
-/

set_option linter.unusedSimpArgs false
set_option linter.unusedSectionVars false

namespace Verif

/-! ## Function generator -/

section fn
variable {α : Type}

/-- the invariant of the loop of `GeneratorFunction::new` -/
structure FnInv (vars : List Variable) (os : List (Operation α)) (S : Variable → Prop) (s : FnSt α)
    (rem : List (Operation α)) : Prop where
  vars_eq : s.vars = vars ++ s.fns.map (·.1)
  ok : Rel.FnsOK vars s.fns
  cover : ∀ o ∈ os, o ∈ rem ∨ ∃ f ∈ s.fns, o.variableAssignment = some f
  sub : ∀ o ∈ rem, o ∈ os
  src : ∀ f ∈ s.fns, ∃ o ∈ os, o.variableAssignment = some f
  safe : ∀ v ∈ s.vars, S v

theorem FnsOK_append {vars : List Variable} {fs : List (Variable × Operation α)} {f : Variable × Operation α}
    (h : Rel.FnsOK vars fs) (h1 : f.1 ∉ vars ++ fs.map (·.1)) (h2 : ∀ w ∈ f.2.vars, w ∈ vars ++ fs.map (·.1)) :
    Rel.FnsOK vars (fs ++ [f]) := by
  induction fs generalizing vars with
  | nil => simpa [Rel.FnsOK] using And.intro h1 h2
  | cons g fs ih =>
    obtain ⟨a, b, c⟩ := h
    refine ⟨a, b, ih c ?_ ?_⟩
    · simpa [List.append_assoc] using h1
    · intro w hw; simpa [List.append_assoc] using h2 w hw

theorem FnSt.takes_eq_some {s : FnSt α} {o : Operation α} {f : Variable × Operation α} (h : s.takes o = some f) :
    o.variableAssignment = some f ∧ f.1 ∉ s.vars ∧ ∀ w ∈ f.2.vars, w ∈ s.vars := by
  unfold FnSt.takes at h
  split at h
  · rename_i v e he
    split at h
    · simp only [Option.some.injEq] at h; subst h; exact ⟨he, by assumption⟩
    · cases h
  · cases h

theorem FnSt.takes_eq_none {s : FnSt α} {o : Operation α} (h : s.takes o = none) {v : Variable} {e : Operation α}
    (he : o.variableAssignment = some (v, e)) (hw : ∀ w ∈ e.vars, w ∈ s.vars) : v ∈ s.vars := by
  unfold FnSt.takes at h
  rw [he] at h
  by_contra hn
  simp [hn] at h
  obtain ⟨w, h1, h2⟩ := h
  exact h2 (hw w h1)

theorem FnInv.pass {vars : List Variable} {os : List (Operation α)} {S : Variable → Prop}
    (hS : ∀ o ∈ os, ∀ v e, o.variableAssignment = some (v, e) → (∀ w ∈ e.vars, S w) → S v)
    {s : FnSt α} {k l : List (Operation α)} (h : FnInv vars os S s (k ++ l)) :
    FnInv vars os S (s.pass l).1 (k ++ (s.pass l).2) := by
  induction l generalizing s k with
  | nil => simpa [FnSt.pass] using h
  | cons o l ih =>
    rw [FnSt.pass]
    split
    · rename_i v e ht
      obtain ⟨h1, h2, h3⟩ := FnSt.takes_eq_some ht
      apply ih
      refine ⟨by simp [h.vars_eq], ?_, ?_, ?_, ?_, ?_⟩
      · exact FnsOK_append h.ok (by rw [← h.vars_eq]; exact h2) (by rw [← h.vars_eq]; exact h3)
      · intro o' ho'
        rcases h.cover o' ho' with hm | ⟨f, hf, he⟩
        · simp only [List.mem_append, List.mem_cons] at hm
          rcases hm with hm | rfl | hm
          · exact Or.inl (by simp [hm])
          · exact Or.inr ⟨(v, e), by simp, h1⟩
          · exact Or.inl (by simp [hm])
        · exact Or.inr ⟨f, by simp [hf], he⟩
      · intro o' ho'; apply h.sub; simp only [List.mem_append, List.mem_cons] at *; tauto
      · intro f hf
        rcases List.mem_append.1 hf with hf | hf
        · exact h.src f hf
        · simp only [List.mem_singleton] at hf; subst hf; exact ⟨o, h.sub o (by simp), h1⟩
      · intro w hw
        rcases List.mem_append.1 hw with hw | hw
        · exact h.safe w hw
        · simp only [List.mem_singleton] at hw; subst hw
          exact hS o (h.sub o (by simp)) _ _ h1 fun w hw => h.safe w (h3 w hw)
    · have := ih (s := s) (k := k ++ [o]) (by simpa using h)
      simpa using this

theorem FnSt.pass_none {s : FnSt α} {l : List (Operation α)} (h : (s.pass l).1.vars.length = s.vars.length) :
    (s.pass l) = (s, l) ∧ ∀ o ∈ l, s.takes o = none := by
  have mono : ∀ (l : List (Operation α)) (s : FnSt α), s.vars.length ≤ (s.pass l).1.vars.length := by
    intro l
    induction l with
    | nil => intro s; simp [FnSt.pass]
    | cons o l ih =>
      intro s
      rw [FnSt.pass]
      split
      · refine le_trans ?_ (ih _); simp
      · exact ih s
  induction l generalizing s with
  | nil => simp [FnSt.pass]
  | cons o l ih =>
    rw [FnSt.pass] at h ⊢
    split at h
    · rename_i v e ht
      have := mono l ⟨s.vars ++ [v], s.fns ++ [(v, e)]⟩
      simp only [List.length_append, List.length_cons, List.length_nil] at this
      omega
    · rename_i ht
      obtain ⟨h1, h2⟩ := ih h
      simp only [ht, h1, true_and]
      intro o' ho'
      rcases List.mem_cons.1 ho' with rfl | ho'
      · exact ht
      · exact h2 o' ho'

theorem FnInv.loop {vars : List Variable} {os : List (Operation α)} {S : Variable → Prop}
    (hS : ∀ o ∈ os, ∀ v e, o.variableAssignment = some (v, e) → (∀ w ∈ e.vars, S w) → S v)
    (s : FnSt α) (l : List (Operation α)) (h : FnInv vars os S s l) :
    FnInv vars os S (s.loop l).1 (s.loop l).2 ∧ ∀ o ∈ (s.loop l).2, (s.loop l).1.takes o = none := by
  induction s, l using FnSt.loop.induct with
  | case1 s l hc =>
    rw [FnSt.loop, if_pos hc]
    obtain ⟨h1, h2⟩ := FnSt.pass_none hc
    rw [h1]; exact ⟨h, h2⟩
  | case2 s l hc ih =>
    rw [FnSt.loop, if_neg hc]
    exact ih (by simpa using FnInv.pass (k := []) hS (by simpa using h))

/-- The function generator computes exactly the variables that get a value. -/
theorem genFunction_spec (atoms : List BodyAtom) (vars : List Variable) (os : List (Operation α))
    (hv : ∀ v, v ∈ vars ↔ v ∈ atomVars atoms) :
    FnInv vars os (SafeVar atoms os) (genFunction vars os).1 (genFunction vars os).2 ∧
    ∀ v, v ∈ (genFunction vars os).1.vars ↔ SafeVar atoms os v := by
  have hS : ∀ o ∈ os, ∀ v e, o.variableAssignment = some (v, e) →
      (∀ w ∈ e.vars, SafeVar atoms os w) → SafeVar atoms os v := fun o ho v e he hw => .assign ho he hw
  have h0 : FnInv vars os (SafeVar atoms os) ⟨vars, []⟩ os := by
    refine ⟨by simp, trivial, fun o ho => Or.inl ho, fun o ho => ho, by simp, ?_⟩
    intro v hv'
    obtain ⟨a, ha, hva⟩ := List.mem_flatMap.1 ((hv v).1 hv')
    exact .atom ha hva
  obtain ⟨h1, h2⟩ := FnInv.loop hS _ _ h0
  refine ⟨h1, fun v => ⟨h1.safe v, fun hs => ?_⟩⟩
  induction hs with
  | atom ha hva =>
    show _ ∈ ((⟨vars, []⟩ : FnSt α).loop os).1.vars
    rw [h1.vars_eq]
    exact List.mem_append_left _ ((hv _).2 (List.mem_flatMap.2 ⟨_, ha, hva⟩))
  | @assign o e v ho he _ ih =>
    rcases h1.cover o ho with hr | ⟨f, hf, hfe⟩
    · exact FnSt.takes_eq_none (h2 o hr) he ih
    · rw [he] at hfe; cases hfe
      show _ ∈ ((⟨vars, []⟩ : FnSt α).loop os).1.vars
      rw [h1.vars_eq]
      exact List.mem_append_right _ (List.mem_map.2 ⟨_, hf, rfl⟩)

theorem mem_genFilter_fst (vars : List Variable) (os : List (Operation α)) (o : Operation α) :
    o ∈ (genFilter vars os).1 ↔ o ∈ os ∧ ∀ v ∈ o.vars, v ∈ vars := by
  simp [genFilter]

theorem mem_genFilter_snd (vars : List Variable) (os : List (Operation α)) (o : Operation α) :
    o ∈ (genFilter vars os).2 ↔ o ∈ os ∧ ¬ ∀ v ∈ o.vars, v ∈ vars := by
  simp [genFilter]

/-- Which conditions are used for which negated atom. -/
theorem genNegation_spec (vars : List Variable) (neg : List BodyAtom) (os : List (Operation α))
    (hos : ∀ o ∈ os, ¬ ∀ v ∈ o.vars, v ∈ vars)
    (hd : neg.Pairwise fun a b => ∀ v ∈ a.terms, v ∈ b.terms → v ∈ vars) :
    (∀ n ∈ (genNegation vars neg os).1, n.1 ∈ neg ∧ (∃ v ∈ n.1.terms, v ∈ vars) ∧
      ∀ o, o ∈ n.2 ↔ o ∈ os ∧ ∀ v ∈ o.vars, v ∈ vars ∨ v ∈ n.1.terms) ∧
    (∀ a ∈ neg, (∃ v ∈ a.terms, v ∈ vars) → ∃ n ∈ (genNegation vars neg os).1, n.1 = a) ∧
    (∀ o, o ∈ (genNegation vars neg os).2 ↔ o ∈ os ∧ ∀ a ∈ neg, (∃ v ∈ a.terms, v ∈ vars) →
      ¬ ∀ v ∈ o.vars, v ∈ vars ∨ v ∈ a.terms) := by
  induction neg generalizing os with
  | nil => simp [genNegation]
  | cons a neg ih =>
    rw [List.pairwise_cons] at hd
    rw [genNegation]
    split
    · rename_i hc
      obtain ⟨i1, i2, i3⟩ := ih os hos hd.2
      have hna : ¬ ∃ v ∈ a.terms, v ∈ vars := by rintro ⟨v, h1, h2⟩; exact hc v h1 h2
      refine ⟨fun n hn => ?_, fun b hb hbv => ?_, fun o => ?_⟩
      · obtain ⟨h1, h2⟩ := i1 n hn; exact ⟨List.mem_cons_of_mem _ h1, h2⟩
      · rcases List.mem_cons.1 hb with rfl | hb
        · exact absurd hbv hna
        · exact i2 b hb hbv
      · rw [i3]
        refine and_congr_right fun _ => ⟨fun h b hb hbv => ?_, fun h b hb => h b (List.mem_cons_of_mem _ hb)⟩
        rcases List.mem_cons.1 hb with rfl | hb
        · exact absurd hbv hna
        · exact h b hb hbv
    · rename_i hc
      have hav : ∃ v ∈ a.terms, v ∈ vars := by
        by_contra hcon; exact hc fun v h1 h2 => hcon ⟨v, h1, h2⟩
      have hos' : ∀ o ∈ (genFilter (vars ++ a.terms) os).2, ¬ ∀ v ∈ o.vars, v ∈ vars :=
        fun o ho => hos o ((mem_genFilter_snd _ _ _).1 ho).1
      obtain ⟨i1, i2, i3⟩ := ih _ hos' hd.2
      have hcap : ∀ b ∈ neg, ∀ o ∈ os, (∀ v ∈ o.vars, v ∈ vars ∨ v ∈ b.terms) →
          ¬ ∀ v ∈ o.vars, v ∈ vars ++ a.terms := by
        intro b hb o ho h1 h2
        apply hos o ho
        intro v hv
        rcases h1 v hv with h | h
        · exact h
        · rcases List.mem_append.1 (h2 v hv) with h' | h'
          · exact h'
          · exact hd.1 b hb v h' h
      refine ⟨fun n hn => ?_, fun b hb hbv => ?_, fun o => ?_⟩
      · simp only [List.mem_cons] at hn
        rcases hn with rfl | hn
        · refine ⟨List.mem_cons_self, hav, fun o => ?_⟩
          rw [mem_genFilter_fst]; simp only [List.mem_append]
        · obtain ⟨h1, h2, h3⟩ := i1 n hn
          refine ⟨List.mem_cons_of_mem _ h1, h2, fun o => ?_⟩
          rw [h3, mem_genFilter_snd]
          exact ⟨fun h => ⟨h.1.1, h.2⟩, fun h => ⟨⟨h.1, hcap _ h1 o h.1 h.2⟩, h.2⟩⟩
      · rcases List.mem_cons.1 hb with rfl | hb
        · exact ⟨_, List.mem_cons_self, rfl⟩
        · obtain ⟨n, hn, he⟩ := i2 b hb hbv
          exact ⟨n, List.mem_cons_of_mem _ hn, he⟩
      · simp only
        rw [i3, mem_genFilter_snd]
        constructor
        · rintro ⟨⟨h1, h2⟩, h3⟩
          refine ⟨h1, fun b hb hbv => ?_⟩
          rcases List.mem_cons.1 hb with rfl | hb
          · simpa only [List.mem_append] using h2
          · exact h3 b hb hbv
        · rintro ⟨h1, h2⟩
          refine ⟨⟨h1, ?_⟩, fun b hb => h2 b (List.mem_cons_of_mem _ hb)⟩
          simpa only [List.mem_append] using h2 a List.mem_cons_self hav

end fn

variable {α : Type} [DecidableEq α] [Dom α]

/-! ## Sources -/

/-- What the table manager provides: `src p lo hi` contains the facts of `p` that were added in one of
the steps `lo, …, hi - 1`, and all of them have the arity of `p`. -/
structure SrcOK (src : Source α) (at_ : Tag → Nat → List α → Prop) (arity : Tag → Nat) (cur : Nat) : Prop where
  mem : ∀ p lo hi row, hi ≤ cur → (row ∈ src p lo hi ↔ ∃ s, lo ≤ s ∧ s < hi ∧ at_ p s row)
  len : ∀ p s row, at_ p s row → row.length = arity p

/-- the facts added before a step -/
def Before (at_ : Tag → Nat → List α → Prop) (n : Nat) : Interp α := fun p row => ∃ s, s < n ∧ at_ p s row

/-- the facts added in a step `≥ lo` and `< hi` -/
def Between (at_ : Tag → Nat → List α → Prop) (lo hi : Nat) : Interp α :=
  fun p row => ∃ s, lo ≤ s ∧ s < hi ∧ at_ p s row

theorem SrcOK.genUnion_wf {src : Source α} {at_ : Tag → Nat → List α → Prop} {arity : Tag → Nat} {cur last : Nat}
    (h : SrcOK src at_ arity cur) (hl : last < cur) (a : BodyAtom) (hn : a.terms.Nodup)
    (ha : a.terms.length = arity a.pred) (range : URange) : (genUnion src cur last a range).WF := by
  refine ⟨hn, ?_⟩
  intro row hr
  simp only [genUnion] at hr ⊢
  rw [h.mem _ _ _ _ (by cases range <;> simp [URange.asRange] <;> omega)] at hr
  obtain ⟨s, -, -, hs⟩ := hr
  rw [h.len _ _ _ hs, ha]

theorem SrcOK.genUnion_holds {src : Source α} {at_ : Tag → Nat → List α → Prop} {arity : Tag → Nat} {cur last : Nat}
    (h : SrcOK src at_ arity cur) (hl : last < cur) (a : BodyAtom) (range : URange) (σ : Variable → α) :
    (genUnion src cur last a range).Holds σ ↔
      Between at_ (range.asRange cur last).1 (range.asRange cur last).2 a.pred (a.terms.map σ) := by
  simp only [Rel.Holds, genUnion]
  rw [h.mem _ _ _ _ (by cases range <;> simp [URange.asRange] <;> omega)]
  rfl

/-! ## Semi-naive joins -/

theorem mem_restrictOrder (order vars : List Variable) (v : Variable) :
    v ∈ restrictOrder order vars ↔ v ∈ order ∧ v ∈ vars := by simp [restrictOrder]

/-- The number of a step from which facts are new -/
def newFrom (last : Nat) (lastIsNew : Bool) : Nat := if lastIsNew then last else last + 1

theorem asRange_variant (lastIsNew : Bool) (cur last i mid : Nat) :
    URange.asRange cur last (if mid < i then (if lastIsNew then .old else .oldInclusive)
      else if i = mid then (if lastIsNew then .new else .newExclusive) else .all) =
    if mid < i then (0, newFrom last lastIsNew) else if i = mid then (newFrom last lastIsNew, cur) else (0, cur) := by
  unfold newFrom
  cases lastIsNew <;> (split <;> [rfl; (split <;> rfl)])

theorem genJoin_spec {src : Source α} {at_ : Tag → Nat → List α → Prop} {arity : Tag → Nat} {cur last : Nat}
    (h : SrcOK src at_ arity cur) (hl : last < cur) (order : List Variable) (hno : order.Nodup)
    (atoms : List BodyAtom) (hcov : ∀ v ∈ atomVars atoms, v ∈ order)
    (ranges : List URange) (hlen : ranges.length = atoms.length) :
    (genJoin src cur last order atoms ranges).WF ∧ ∀ σ,
      (genJoin src cur last order atoms ranges).Holds σ ↔ ∀ (i : Nat) a r, atoms[i]? = some a → ranges[i]? = some r →
        Between at_ (r.asRange cur last).1 (r.asRange cur last).2 a.pred (a.terms.map σ) := by
  refine ⟨Rel.join_wf _ _ (hno.filter _), fun σ => ?_⟩
  unfold genJoin
  rw [Rel.join_holds]
  · constructor
    · intro hj i a r ha hr
      rw [← h.genUnion_holds hl]
      apply hj
      refine List.mem_map.2 ⟨(a, r), ?_, rfl⟩
      exact List.mem_of_getElem? (i := i) (by rw [List.getElem?_zip_eq_some]; exact ⟨ha, hr⟩)
    · intro hj R hR
      obtain ⟨⟨a, r⟩, hm, rfl⟩ := List.mem_map.1 hR
      obtain ⟨i, hi⟩ := List.getElem?_of_mem hm
      rw [List.getElem?_zip_eq_some] at hi
      rw [h.genUnion_holds hl]
      exact hj i a r hi.1 hi.2
  · intro R hR v hv
    obtain ⟨⟨a, r⟩, hm, rfl⟩ := List.mem_map.1 hR
    have hva : v ∈ atomVars atoms := List.mem_flatMap.2 ⟨a, (List.of_mem_zip hm).1, hv⟩
    exact (mem_restrictOrder _ _ _).2 ⟨hcov v hva, hva⟩
  · intro v hv
    obtain ⟨a, ha, hva⟩ := List.mem_flatMap.1 ((mem_restrictOrder _ _ _).1 hv).2
    obtain ⟨i, hi⟩ := List.getElem?_of_mem ha
    have hlt : i < ranges.length := by rw [hlen]; exact (List.getElem?_eq_some_iff.1 hi).1
    refine ⟨_, List.mem_map.2 ⟨(a, ranges[i]), List.mem_of_getElem? (i := i) ?_, rfl⟩, hva⟩
    rw [List.getElem?_zip_eq_some]
    exact ⟨hi, List.getElem?_eq_getElem hlt⟩

/-- there is a last index with a property -/
theorem exists_last {P : Nat → Prop} {n : Nat} (h : ∃ i, i < n ∧ P i) :
    ∃ i, i < n ∧ P i ∧ ∀ j, i < j → j < n → ¬ P j := by
  induction n with
  | zero => obtain ⟨i, hi, _⟩ := h; omega
  | succ n ih =>
    by_cases hp : P n
    · exact ⟨n, by omega, hp, fun j h1 h2 => by omega⟩
    · obtain ⟨i, hi, hpi⟩ := h
      have : i ≠ n := fun e => hp (e ▸ hpi)
      obtain ⟨k, h1, h2, h3⟩ := ih ⟨i, by omega, hpi⟩
      refine ⟨k, by omega, h2, fun j h4 h5 => ?_⟩
      by_cases hjn : j = n
      · exact hjn ▸ hp
      · exact h3 j h4 (by omega)

/-- **Semi-naive evaluation.**  The union of the variants contains a match iff all atoms are matched by
known facts and at least one of them by a new fact. -/
theorem genSeminaive_spec {src : Source α} {at_ : Tag → Nat → List α → Prop} {arity : Tag → Nat} {cur last : Nat}
    (h : SrcOK src at_ arity cur) (hl : last < cur) (lastIsNew : Bool) (order : List Variable) (hno : order.Nodup)
    (atoms : List BodyAtom) (hcov : ∀ v ∈ atomVars atoms, v ∈ order) :
    (genSeminaive src cur last lastIsNew order atoms).WF ∧
    (genSeminaive src cur last lastIsNew order atoms).cols = restrictOrder order (atomVars atoms) ∧
    ∀ σ, (genSeminaive src cur last lastIsNew order atoms).Holds σ ↔
      (∀ a ∈ atoms, Before at_ cur a.pred (a.terms.map σ)) ∧
      (atoms = [] ∨ ∃ a ∈ atoms, Between at_ (newFrom last lastIsNew) cur a.pred (a.terms.map σ)) := by
  by_cases he : atoms = []
  · subst he
    simp only [genSeminaive, List.isEmpty_nil, if_true]
    refine ⟨⟨by simp, by simp⟩, by simp [restrictOrder, atomVars], fun σ => by simp [Rel.Holds]⟩
  have he' : atoms.isEmpty = false := by simpa using he
  have hlen : ∀ mid, (variantRanges lastIsNew atoms.length mid).length = atoms.length := by simp [variantRanges]
  have hget : ∀ mid (i : Nat), i < atoms.length → (variantRanges lastIsNew atoms.length mid)[i]? =
      some (if mid < i then (if lastIsNew then .old else .oldInclusive)
      else if i = mid then (if lastIsNew then .new else .newExclusive) else .all) := by
    intro mid i hi
    simp only [variantRanges, List.getElem?_map, List.getElem?_range hi, Option.map_some]
  have hnf : newFrom last lastIsNew ≤ cur := by unfold newFrom; split <;> omega
  rw [genSeminaive, he']
  simp only [Bool.false_eq_true, if_false]
  refine ⟨Rel.union_wf _ _ (hno.filter _) ?_, rfl, fun σ => ?_⟩
  · intro R hR
    simp only [List.mem_map, List.mem_filter, List.mem_range] at hR
    obtain ⟨ranges, ⟨⟨mid, -, rfl⟩, -⟩, rfl⟩ := hR
    exact ⟨(genJoin_spec h hl order hno atoms hcov _ (hlen mid)).1, rfl⟩
  · rw [Rel.union_holds]
    swap
    · intro R hR
      simp only [List.mem_map, List.mem_filter, List.mem_range] at hR
      obtain ⟨ranges, ⟨⟨mid, -, rfl⟩, -⟩, rfl⟩ := hR
      rfl
    simp only [he, false_or]
    constructor
    · rintro ⟨R, hR, hσ⟩
      simp only [List.mem_map, List.mem_filter, List.mem_range] at hR
      obtain ⟨ranges, ⟨⟨mid, hmid, rfl⟩, -⟩, rfl⟩ := hR
      rw [(genJoin_spec h hl order hno atoms hcov _ (hlen mid)).2] at hσ
      constructor
      · intro a ha
        obtain ⟨i, hi⟩ := List.getElem?_of_mem ha
        have hlt := (List.getElem?_eq_some_iff.1 hi).1
        obtain ⟨s, -, h2, h3⟩ := hσ i a _ hi (hget mid i hlt)
        rw [asRange_variant] at h2
        refine ⟨s, ?_, h3⟩
        split at h2
        · exact lt_of_lt_of_le h2 hnf
        · split at h2 <;> exact h2
      · refine ⟨atoms[mid], List.getElem_mem hmid, ?_⟩
        have := hσ mid atoms[mid] _ (List.getElem?_eq_getElem hmid) (hget mid mid hmid)
        rw [asRange_variant] at this
        simpa using this
    · rintro ⟨hall, a, ha, hnew⟩
      obtain ⟨i, hi⟩ := List.getElem?_of_mem ha
      obtain ⟨mid, hmid, ⟨b, hb, hbn⟩, hlast⟩ := exists_last (n := atoms.length)
        (P := fun i => ∃ b, atoms[i]? = some b ∧ Between at_ (newFrom last lastIsNew) cur b.pred (b.terms.map σ))
        ⟨i, (List.getElem?_eq_some_iff.1 hi).1, a, hi, hnew⟩
      have hbet : ∀ (j : Nat) c r, atoms[j]? = some c → (variantRanges lastIsNew atoms.length mid)[j]? = some r →
          Between at_ (r.asRange cur last).1 (r.asRange cur last).2 c.pred (c.terms.map σ) := by
        intro j c r hc hr
        have hj := (List.getElem?_eq_some_iff.1 hc).1
        rw [hget mid j hj] at hr
        simp only [Option.some.injEq] at hr
        subst hr
        rw [asRange_variant]
        obtain ⟨s, hs, hat⟩ := hall c (List.mem_of_getElem? hc)
        split
        · rename_i hlt
          refine ⟨s, Nat.zero_le _, ?_, hat⟩
          by_contra hge
          exact hlast j hlt hj ⟨c, hc, s, by simpa using hge, hs, hat⟩
        · split
          · rename_i heq
            subst heq
            rw [hb] at hc; cases hc
            exact hbn
          · exact ⟨s, Nat.zero_le _, hs, hat⟩
      refine ⟨genJoin src cur last order atoms (variantRanges lastIsNew atoms.length mid), ?_, ?_⟩
      · simp only [List.mem_map, List.mem_filter, List.mem_range]
        refine ⟨_, ⟨⟨mid, hmid, rfl⟩, ?_⟩, rfl⟩
        rw [Bool.not_eq_true']
        rw [genJoinEmpty, List.any_eq_false]
        intro r hr
        obtain ⟨j, hj⟩ := List.getElem?_of_mem hr
        have hjl : j < atoms.length := by rw [← hlen mid]; exact (List.getElem?_eq_some_iff.1 hj).1
        obtain ⟨s, h1, h2, -⟩ := hbet j atoms[j] r (List.getElem?_eq_getElem hjl) hj
        simp only [decide_eq_true_eq]; omega
      · rw [(genJoin_spec h hl order hno atoms hcov _ (hlen mid)).2]; exact hbet

/-! ## Rule bodies -/

/-- The rules that are considered: this follows from the normalization of atoms and the validation of
rules, except `negShared` (negated atoms without a variable that has a value elsewhere are not evaluated
at all, see `negated_atom_ignored`) and `negLocal` (conditions that relate variables of the positive
body to variables that only occur in a negated atom make the program panic). -/
structure RuleOK (r : NRule α) (arity : Tag → Nat) : Prop where
  posNodup : ∀ a ∈ r.positive, a.terms.Nodup
  negNodup : ∀ a ∈ r.negative, a.terms.Nodup
  posArity : ∀ a ∈ r.positive, a.terms.length = arity a.pred
  negArity : ∀ a ∈ r.negative, a.terms.length = arity a.pred
  orderNodup : r.order.Nodup
  orderCov : ∀ v ∈ atomVars r.positive, v ∈ r.order
  negShared : ∀ a ∈ r.negative, ∃ v ∈ a.terms, SafeVar r.positive r.operations v
  negLocal : ∀ a ∈ r.negative, ∀ o ∈ r.operations,
    (∀ v ∈ o.vars, SafeVar r.positive r.operations v ∨ v ∈ a.terms) →
    (∀ v ∈ o.vars, SafeVar r.positive r.operations v) ∨ ∀ v ∈ o.vars, v ∈ a.terms
  negDisjoint : r.negative.Pairwise fun a b => ∀ v ∈ a.terms, v ∈ b.terms → SafeVar r.positive r.operations v

/-- The valuation matches a positive atom with a fact that was added since the last application. -/
def UsesNew (r : NRule α) (at_ : Tag → Nat → List α → Prop) (last cur : Nat) (σ : Variable → α) : Prop :=
  r.positive = [] ∨ ∃ a ∈ r.positive, Between at_ last cur a.pred (a.terms.map σ)

/-- Computing functions, filtering and negation on a table of matches of the positive atoms. -/
theorem genFFN_spec {src : Source α} {at_ : Tag → Nat → List α → Prop} {arity : Tag → Nat} {cur last : Nat}
    (h : SrcOK src at_ arity cur) (hl : last < cur) (r : NRule α) (hr : RuleOK r arity) (J : Rel α) (jw : J.WF)
    (hJv : ∀ v, v ∈ J.cols ↔ v ∈ atomVars r.positive) :
    (genFFN src cur last J r.operations r.negative).1.WF ∧
    (genFFN src cur last J r.operations r.negative).1.cols = (genFunction J.cols r.operations).1.vars ∧
    (∀ v, v ∈ (genFFN src cur last J r.operations r.negative).1.cols ↔ SafeVar r.positive r.operations v) ∧
    (∀ σ, (genFFN src cur last J r.operations r.negative).1.Holds σ ↔ J.Holds σ ∧
      (∀ o ∈ r.operations, (∀ v ∈ o.vars, SafeVar r.positive r.operations v) → o.eval σ = some Dom.tru) ∧
      ∀ a ∈ r.negative, ¬ ∃ τ : Variable → α,
        (∀ v, SafeVar r.positive r.operations v → τ v = σ v) ∧ Before at_ cur a.pred (a.terms.map τ) ∧
        ∀ o ∈ r.operations, (∀ v ∈ o.vars, SafeVar r.positive r.operations v ∨ v ∈ a.terms) →
          o.eval τ = some Dom.tru) ∧
    ∀ o, o ∈ (genFFN src cur last J r.operations r.negative).2 ↔ o ∈ r.operations ∧
      ¬ (∀ v ∈ o.vars, SafeVar r.positive r.operations v) ∧
      ∀ a ∈ r.negative, ¬ ∀ v ∈ o.vars, SafeVar r.positive r.operations v ∨ v ∈ a.terms := by
  obtain ⟨finv, fsafe⟩ := genFunction_spec r.positive J.cols r.operations hJv
  set F := genFunction J.cols r.operations with hF
  obtain ⟨fw, fh⟩ := Rel.function_spec jw F.1.fns finv.ok
  have fcols : (J.function F.1.fns).cols = F.1.vars := by rw [Rel.function_cols, finv.vars_eq]
  set flt := genFilter F.1.vars F.2 with hflt
  have gw := Rel.filter_wf fw flt.1
  have gh := Rel.filter_holds (J.function F.1.fns) flt.1 (by
    intro o ho v hv; rw [fcols]; exact ((mem_genFilter_fst _ _ _).1 ho).2 v hv)
  have hns : ∀ o ∈ flt.2, ¬ ∀ v ∈ o.vars, v ∈ F.1.vars := fun o ho => ((mem_genFilter_snd _ _ _).1 ho).2
  obtain ⟨n1, n2, n3⟩ := genNegation_spec F.1.vars r.negative flt.2 hns
    (hr.negDisjoint.imp fun {a b} hab v h1 h2 => (fsafe v).2 (hab v h1 h2))
  set N := genNegation F.1.vars r.negative flt.2 with hN
  have hE : genFFN src cur last J r.operations r.negative = (evalNegation src cur last F.1.vars N.1 ((J.function F.1.fns).filter flt.1), N.2) := rfl
  -- which operations remain
  have hrem : ∀ o, o ∈ flt.2 ↔ o ∈ r.operations ∧ ¬ ∀ v ∈ o.vars, SafeVar r.positive r.operations v := by
    intro o
    rw [hflt, mem_genFilter_snd]
    constructor
    · rintro ⟨h1, h2⟩
      refine ⟨finv.sub o h1, fun hs => h2 fun v hv => (fsafe v).2 (hs v hv)⟩
    · rintro ⟨h1, h2⟩
      have h2' : ¬ ∀ v ∈ o.vars, v ∈ F.1.vars := fun hs => h2 fun v hv => (fsafe v).1 (hs v hv)
      refine ⟨?_, h2'⟩
      rcases finv.cover o h1 with ho | ⟨f, hf, hfe⟩
      · exact ho
      · exfalso; apply h2'
        intro v hv
        rcases (Operation.vars_assignment hfe v).1 hv with rfl | hv
        · rw [finv.vars_eq]; exact List.mem_append_right _ (List.mem_map.2 ⟨_, hf, rfl⟩)
        · -- the variables of a function are available
          have key : ∀ (fs : List (Variable × Operation α)) vars, Rel.FnsOK vars fs → ∀ f ∈ fs,
              ∀ v ∈ f.2.vars, v ∈ vars ++ fs.map (·.1) := by
            intro fs
            induction fs with
            | nil => intro vars _ f hf; simp at hf
            | cons g fs ih =>
              intro vars hok f hf v hv
              rcases List.mem_cons.1 hf with rfl | hf
              · exact List.mem_append_left _ (hok.2.1 v hv)
              · have := ih _ hok.2.2 f hf v hv
                simpa [List.append_assoc] using this
          rw [finv.vars_eq]; exact key _ _ finv.ok f hf v hv
  -- the safe operations
  have hops : ∀ σ, ((∀ f ∈ F.1.fns, f.2.eval σ = some (σ f.1)) ∧ ∀ o ∈ flt.1, o.eval σ = some Dom.tru) ↔
      ∀ o ∈ r.operations, (∀ v ∈ o.vars, SafeVar r.positive r.operations v) → o.eval σ = some Dom.tru := by
    intro σ
    constructor
    · rintro ⟨h1, h2⟩ o ho hs
      rcases finv.cover o ho with hm | ⟨f, hf, hfe⟩
      · exact h2 o ((mem_genFilter_fst _ _ _).2 ⟨hm, fun v hv => (fsafe v).2 (hs v hv)⟩)
      · rw [Operation.eval_assignment hfe]; exact h1 f hf
    · intro hh
      constructor
      · intro f hf
        obtain ⟨o, ho, hfe⟩ := finv.src f hf
        rw [← Operation.eval_assignment hfe]
        apply hh o ho
        by_contra hcon
        have := (hrem o).2 ⟨ho, hcon⟩
        have hin := (mem_genFilter_snd _ _ _).1 this
        apply hin.2
        intro v hv
        rcases (Operation.vars_assignment hfe v).1 hv with rfl | hv
        · rw [finv.vars_eq]; exact List.mem_append_right _ (List.mem_map.2 ⟨_, hf, rfl⟩)
        · have key : ∀ (fs : List (Variable × Operation α)) vars, Rel.FnsOK vars fs → ∀ f ∈ fs,
              ∀ v ∈ f.2.vars, v ∈ vars ++ fs.map (·.1) := by
            intro fs
            induction fs with
            | nil => intro vars _ f hf; simp at hf
            | cons g fs ih =>
              intro vars hok f hf v hv
              rcases List.mem_cons.1 hf with rfl | hf
              · exact List.mem_append_left _ (hok.2.1 v hv)
              · have := ih _ hok.2.2 f hf v hv
                simpa [List.append_assoc] using this
          rw [finv.vars_eq]; exact key _ _ finv.ok f hf v hv
      · intro o ho
        obtain ⟨h1, h2⟩ := (mem_genFilter_fst _ _ _).1 ho
        exact hh o (finv.sub o h1) fun v hv => (fsafe v).1 (h2 v hv)
  rw [hE]
  refine ⟨Rel.subtract_wf gw _, fcols, ?_, ?_, ?_⟩
  · intro v
    show v ∈ (J.function F.1.fns).cols ↔ _
    rw [fcols, fsafe]
  · intro σ
    show ((J.function F.1.fns |>.filter flt.1).subtract _).Holds σ ↔ _
    rw [Rel.subtract_holds]
    swap
    · intro s hs v hv
      obtain ⟨n, -, rfl⟩ := List.mem_map.1 hs
      show v ∈ (J.function F.1.fns).cols
      rw [fcols]
      exact (List.mem_filter.1 hv).1
    rw [gh, fh, and_assoc (a := J.Holds σ), hops]
    -- the negated atoms
    have hneg : ∀ a ∈ r.negative, ∀ n ∈ N.1, n.1 = a →
        (∀ o ∈ r.operations, (∀ v ∈ o.vars, SafeVar r.positive r.operations v) → o.eval σ = some Dom.tru) →
        ((((genUnion src cur last n.1 .all).filter n.2).project
          (F.1.vars.filter fun v => decide (v ∈ n.1.terms))).Holds σ ↔
        ∃ τ : Variable → α, (∀ v, SafeVar r.positive r.operations v → τ v = σ v) ∧
          Before at_ cur a.pred (a.terms.map τ) ∧ ∀ o ∈ r.operations,
          (∀ v ∈ o.vars, SafeVar r.positive r.operations v ∨ v ∈ a.terms) → o.eval τ = some Dom.tru) := by
      rintro a ha n hn rfl hsafeops
      obtain ⟨-, -, hfl⟩ := n1 n hn
      have uw := h.genUnion_wf hl n.1 (hr.negNodup _ ha) (hr.negArity _ ha) .all
      have hloc : ∀ o ∈ n.2, ∀ v ∈ o.vars, v ∈ n.1.terms := by
        intro o ho
        obtain ⟨h1, h2⟩ := (hfl o).1 ho
        obtain ⟨h3, h4⟩ := (hrem o).1 h1
        rcases hr.negLocal _ ha o h3 (fun v hv => (h2 v hv).imp_left (fsafe v).1) with h5 | h5
        · exact absurd h5 h4
        · exact h5
      rw [Rel.project_holds _ _ (Rel.filter_wf uw _)
        (fun v hv => (by show v ∈ n.1.terms; simpa using (List.mem_filter.1 hv).2))]
      constructor
      · rintro ⟨τ, hag, hτ⟩
        rw [Rel.filter_holds _ _ hloc, h.genUnion_holds hl] at hτ
        obtain ⟨hτ1, hτ2⟩ := hτ
        classical
        let τ' : Variable → α := fun v => if v ∈ n.1.terms then τ v else σ v
        have e1 : ∀ v ∈ n.1.terms, τ' v = τ v := fun v hv => if_pos hv
        have e2 : ∀ v, SafeVar r.positive r.operations v → τ' v = σ v := by
          intro v hv
          by_cases hvt : v ∈ n.1.terms
          · rw [e1 v hvt]; exact hag v (List.mem_filter.2 ⟨(fsafe v).2 hv, by simpa using hvt⟩)
          · exact if_neg hvt
        refine ⟨τ', e2, ?_, ?_⟩
        · rw [List.map_congr_left e1]
          obtain ⟨s, -, h2, h3⟩ := hτ1
          exact ⟨s, h2, h3⟩
        · intro o ho hov
          by_cases hs : ∀ v ∈ o.vars, SafeVar r.positive r.operations v
          · rw [Operation.eval_congr o (fun v hv => e2 v (hs v hv))]; exact hsafeops o ho hs
          · have hon : o ∈ n.2 := (hfl o).2 ⟨(hrem o).2 ⟨ho, hs⟩, fun v hv => (hov v hv).imp_left (fsafe v).2⟩
            rw [Operation.eval_congr o (fun v hv => e1 v (hloc o hon v hv))]; exact hτ2 o hon
      · rintro ⟨τ, h1, ⟨s, hs1, hs2⟩, h3⟩
        refine ⟨τ, fun v hv => h1 v ((fsafe v).1 (List.mem_filter.1 hv).1), ?_⟩
        rw [Rel.filter_holds _ _ hloc, h.genUnion_holds hl]
        refine ⟨⟨s, Nat.zero_le _, hs1, hs2⟩, fun o ho => ?_⟩
        obtain ⟨h4, h5⟩ := (hfl o).1 ho
        exact h3 o ((hrem o).1 h4).1 fun v hv => (h5 v hv).imp_left (fsafe v).1
    constructor
    · rintro ⟨⟨hpos, hop⟩, hn⟩
      refine ⟨hpos, hop, ?_⟩
      intro a ha
      obtain ⟨v, hv1, hv2⟩ := hr.negShared a ha
      obtain ⟨n, hn', hna⟩ := n2 a ha ⟨v, hv1, (fsafe v).2 hv2⟩
      rw [← hneg a ha n hn' hna hop]
      exact hn _ (List.mem_map.2 ⟨n, hn', rfl⟩)
    · rintro ⟨hpos, hop, hn⟩
      refine ⟨⟨hpos, hop⟩, ?_⟩
      intro s hs
      obtain ⟨n, hn', rfl⟩ := List.mem_map.1 hs
      rw [hneg n.1 (n1 n hn').1 n hn' rfl hop]
      exact hn n.1 (n1 n hn').1
  · intro o
    show o ∈ N.2 ↔ _
    rw [n3, hrem, and_assoc]
    refine and_congr_right fun _ => and_congr_right fun _ => forall₂_congr fun a ha => ?_
    obtain ⟨v, hv1, hv2⟩ := hr.negShared a ha
    constructor
    · intro hh hc
      exact hh ⟨v, hv1, (fsafe v).2 hv2⟩ fun w hw => (hc w hw).imp_left (fsafe w).2
    · intro hh _ hc
      exact hh fun w hw => (hc w hw).imp_left (fsafe w).1

theorem evalBody_spec {src : Source α} {at_ : Tag → Nat → List α → Prop} {arity : Tag → Nat} {cur last : Nat}
    (h : SrcOK src at_ arity cur) (hl : last < cur) (r : NRule α) (hr : RuleOK r arity) :
    (evalBody src cur last r).1.WF ∧
    (∀ v, v ∈ (evalBody src cur last r).1.cols ↔ SafeVar r.positive r.operations v) ∧
    (∀ σ, (evalBody src cur last r).1.Holds σ ↔
      BodyHolds r (Before at_ cur) (Before at_ cur) σ ∧ UsesNew r at_ last cur σ) ∧
    ∀ o, o ∈ (evalBody src cur last r).2 ↔ o ∈ r.operations ∧
      ¬ (∀ v ∈ o.vars, SafeVar r.positive r.operations v) ∧
      ∀ a ∈ r.negative, ¬ ∀ v ∈ o.vars, SafeVar r.positive r.operations v ∨ v ∈ a.terms := by
  obtain ⟨jw, jc, jh⟩ := genSeminaive_spec h hl true r.order hr.orderNodup r.positive hr.orderCov
  set J := genSeminaive src cur last true r.order r.positive with hJ
  have hJv : ∀ v, v ∈ J.cols ↔ v ∈ atomVars r.positive := by
    intro v; rw [jc, mem_restrictOrder]; exact ⟨fun h => h.2, fun h => ⟨hr.orderCov v h, h⟩⟩
  obtain ⟨g1, -, g2, g3, g4⟩ := genFFN_spec h hl r hr J jw hJv
  have hE : evalBody src cur last r = genFFN src cur last J r.operations r.negative := rfl
  rw [hE]
  refine ⟨g1, g2, fun σ => ?_, g4⟩
  rw [g3, jh]
  constructor
  · rintro ⟨⟨h1, h2⟩, h3, h4⟩; exact ⟨⟨h1, h3, h4⟩, h2⟩
  · rintro ⟨⟨h1, h3, h4⟩, h2⟩; exact ⟨⟨h1, h2⟩, h3, h4⟩

end Verif
