import Verif.HeadEval

/-!
# Rules with existential variables: the restricted chase

The meaning of an application of an existential rule (`evalRestricted` and the part of `executeRule` that uses it):
nulls are created exactly for those values of the frontier variables that belong to a new match of the body and
are neither recorded as satisfied nor satisfied because of a new fact.
-/

set_option linter.unusedSimpArgs false
set_option linter.unusedSectionVars false

namespace Verif
variable {α : Type} [DecidableEq α] [Dom α]

/-! ## Normalization of the head -/

/-- The variables whose name is one of the generated names `n, …, m - 1`. -/
def Generated (n m : Nat) (v : Variable) : Prop := ∃ k, v = .universal k ∧ n ≤ k ∧ k < m

theorem Generated.name {n m : Nat} {v : Variable} (h : Generated n m v) : n ≤ v.name ∧ v.name < m := by
  obtain ⟨k, rfl, h1, h2⟩ := h; exact ⟨h1, h2⟩

/-- What `normHeadTerms` provides. -/
structure NormTerms (ts : List (Primitive α)) (used : List Variable) (n : Nat)
    (r : List Variable × List (Operation α) × Nat) : Prop where
  len : r.1.length = ts.length
  le : n ≤ r.2.2
  nodup : r.1.Nodup
  fresh : ∀ v ∈ r.1, v ∉ used ∧ (v ∈ ts.filterMap Primitive.var? ∨ Generated n r.2.2 v)
  cover : ∀ v ∈ ts.filterMap Primitive.var?, v ∈ r.1 ∨ v ∈ used
  opVars : ∀ o ∈ r.2.1, ∀ v ∈ o.vars, (v ∈ r.1 ∨ v ∈ used) ∧ v.name < r.2.2
  correct : ∀ τ : Variable → α, (∀ o ∈ r.2.1, o.eval τ = some Dom.tru) → r.1.map τ = ts.map (Primitive.inst τ)
  ext : ∀ σ : Variable → α, ∃ τ : Variable → α, (∀ v, ¬ Generated n r.2.2 v → τ v = σ v) ∧
    ∀ o ∈ r.2.1, o.eval τ = some Dom.tru

theorem eval_var_eq (τ : Variable → α) (v : Variable) (e : Operation α) :
    (Operation.equal (.var v) e).eval τ = some Dom.tru ↔ e.eval τ = some (τ v) := by
  rw [Operation.eval_equal_tru]
  simp only [Operation.eval, Option.some.injEq]
  constructor
  · rintro ⟨a, rfl, h⟩; exact h
  · intro h; exact ⟨_, rfl, h⟩

/-- A generated variable for the term `p`, whose value is that of `e`. -/
theorem NormTerms.generated {ts : List (Primitive α)} {used : List Variable} {n : Nat}
    {r : List Variable × List (Operation α) × Nat} (h : NormTerms ts used (n + 1) r) (p : Primitive α)
    (e : Operation α) (hp : ∀ v, p.var? = some v → v ∈ used) (he : ∀ v ∈ e.vars, v ∈ used)
    (heq : ∀ τ : Variable → α, e.eval τ = some (p.inst τ))
    (hn : ∀ v ∈ (p :: ts).filterMap Primitive.var? ++ used, v.name < n) :
    NormTerms (p :: ts) used n (.universal n :: r.1, .equal (.var (.universal n)) e :: r.2.1, r.2.2) := by
  have hun : Variable.universal n ∉ used := fun hm => by
    have := hn _ (List.mem_append_right _ hm); simp [Variable.name] at this
  have hvn : ∀ v ∈ used, v.name < n := fun v hv => hn v (List.mem_append_right _ hv)
  have hts : ∀ v ∈ ts.filterMap Primitive.var?, v ∈ (p :: ts).filterMap Primitive.var? := by
    intro v hv
    obtain ⟨t, ht, htv⟩ := List.mem_filterMap.1 hv
    exact List.mem_filterMap.2 ⟨t, List.mem_cons_of_mem _ ht, htv⟩
  have hle := h.le
  refine ⟨by simp [h.len], by show n ≤ r.2.2; omega, ?_, ?_, ?_, ?_, ?_, ?_⟩
  · refine List.nodup_cons.2 ⟨fun hm => ?_, h.nodup⟩
    rcases (h.fresh _ hm).2 with h1 | h1
    · have := hn _ (List.mem_append_left _ (hts _ h1)); simp [Variable.name] at this
    · have := h1.name.1; simp [Variable.name] at this
  · intro v hv
    rcases List.mem_cons.1 hv with rfl | hv
    · exact ⟨hun, Or.inr ⟨n, rfl, le_rfl, by show n < r.2.2; omega⟩⟩
    · obtain ⟨h1, h2⟩ := h.fresh v hv
      refine ⟨h1, h2.imp (hts v) ?_⟩
      rintro ⟨k, hk, h3, h4⟩
      exact ⟨k, hk, by omega, h4⟩
  · intro v hv
    obtain ⟨t, ht, htv⟩ := List.mem_filterMap.1 hv
    rcases List.mem_cons.1 ht with rfl | ht
    · exact Or.inr (hp v htv)
    · exact (h.cover v (List.mem_filterMap.2 ⟨t, ht, htv⟩)).imp_left (List.mem_cons_of_mem _)
  · intro o ho v hv
    rcases List.mem_cons.1 ho with rfl | ho
    · simp only [Operation.vars, List.mem_append, List.mem_singleton] at hv
      rcases hv with rfl | hv
      · exact ⟨Or.inl List.mem_cons_self, by show n < r.2.2; omega⟩
      · have := hvn v (he v hv)
        exact ⟨Or.inr (he v hv), by show v.name < r.2.2; omega⟩
    · obtain ⟨h1, h2⟩ := h.opVars o ho v hv
      exact ⟨h1.imp_left (List.mem_cons_of_mem _), h2⟩
  · intro τ hτ
    have h1 := hτ _ List.mem_cons_self
    rw [eval_var_eq, heq] at h1
    rw [List.map_cons, List.map_cons, h.correct τ fun o ho => hτ o (List.mem_cons_of_mem _ ho)]
    rw [Option.some.injEq] at h1; rw [h1]
  · intro σ
    classical
    obtain ⟨τ, h1, h2⟩ := h.ext (fun v => if v = .universal n then p.inst σ else σ v)
    have hu : ∀ v ∈ used, τ v = σ v := by
      intro v hv
      have := hvn v hv
      rw [h1 v (fun hg => by have := hg.name; omega), if_neg (by rintro rfl; exact hun hv)]
    refine ⟨τ, fun v hv => ?_, ?_⟩
    · rw [h1 v fun ⟨k, hk, h3, h4⟩ => hv ⟨k, hk, by omega, h4⟩, if_neg]
      rintro rfl
      exact hv ⟨n, rfl, le_rfl, by show n < r.2.2; omega⟩
    · intro o ho
      rcases List.mem_cons.1 ho with rfl | ho
      · rw [eval_var_eq, heq]
        rw [h1 (.universal n) (by rintro ⟨k, hk, h3, -⟩; cases hk; omega), if_pos rfl]
        cases p with
        | const a => rfl
        | var v => simp only [Primitive.inst]; rw [hu v (hp v rfl)]
      · exact h2 o ho

theorem normHeadTerms_spec (ts : List (Primitive α)) (used : List Variable) (n : Nat)
    (hn : ∀ v ∈ ts.filterMap Primitive.var? ++ used, v.name < n) : NormTerms ts used n (normHeadTerms ts used n) := by
  induction ts generalizing used n with
  | nil =>
    refine ⟨rfl, le_rfl, by simp [normHeadTerms], by simp [normHeadTerms], by simp, by simp [normHeadTerms],
      by simp [normHeadTerms], fun σ => ⟨σ, fun _ _ => rfl, by simp [normHeadTerms]⟩⟩
  | cons t ts ih =>
    cases t with
    | const c =>
      have h := ih used (n + 1) (fun v hv => by
        have := hn v (by simpa [List.filterMap_cons, Primitive.var?] using hv); omega)
      exact h.generated (.const c) (.const c) (by simp [Primitive.var?]) (by simp [Operation.vars])
        (fun τ => rfl) hn
    | var v =>
      rw [normHeadTerms]
      split
      · rename_i hu
        have h := ih used (n + 1) (fun w hw => by
          have := hn w (by
            simp only [List.filterMap_cons, Primitive.var?, List.mem_append, List.mem_cons] at hw ⊢; tauto)
          omega)
        exact h.generated (.var v) (.var v) (by simp [Primitive.var?]; exact hu) (by simpa [Operation.vars] using hu)
          (fun τ => rfl) hn
      · rename_i hu
        have hvn : v.name < n := hn v (by simp [Primitive.var?])
        have h := ih (v :: used) n (fun w hw => hn w (by
          simp only [List.filterMap_cons, Primitive.var?, List.mem_append, List.mem_cons] at hw ⊢; tauto))
        set r := normHeadTerms ts (v :: used) n with hr
        have hle := h.le
        have hts : ∀ w ∈ ts.filterMap Primitive.var?, w ∈ (Primitive.var v :: ts).filterMap Primitive.var? := by
          intro w hw
          simp only [List.filterMap_cons, Primitive.var?]; exact List.mem_cons_of_mem _ hw
        refine ⟨by simp [h.len], hle, ?_, ?_, ?_, ?_, ?_, ?_⟩
        · exact List.nodup_cons.2 ⟨fun hm => (h.fresh v hm).1 List.mem_cons_self, h.nodup⟩
        · intro w hw
          rcases List.mem_cons.1 hw with rfl | hw
          · exact ⟨hu, Or.inl (by simp [Primitive.var?])⟩
          · obtain ⟨h1, h2⟩ := h.fresh w hw
            exact ⟨fun hm => h1 (List.mem_cons_of_mem _ hm), h2.imp_left (hts w)⟩
        · intro w hw
          simp only [List.filterMap_cons, Primitive.var?, List.mem_cons] at hw
          rcases hw with rfl | hw
          · exact Or.inl List.mem_cons_self
          · rcases h.cover w hw with h1 | h1
            · exact Or.inl (List.mem_cons_of_mem _ h1)
            · rcases List.mem_cons.1 h1 with rfl | h1
              · exact Or.inl List.mem_cons_self
              · exact Or.inr h1
        · intro o ho w hw
          obtain ⟨h1, h2⟩ := h.opVars o ho w hw
          refine ⟨?_, h2⟩
          rcases h1 with h1 | h1
          · exact Or.inl (List.mem_cons_of_mem _ h1)
          · rcases List.mem_cons.1 h1 with rfl | h1
            · exact Or.inl List.mem_cons_self
            · exact Or.inr h1
        · intro τ hτ
          show τ v :: r.1.map τ = τ v :: ts.map _
          rw [h.correct τ hτ]
        · exact h.ext

/-- What `normHead` provides: atoms without repeated variables and constants that have the same meaning as the head,
together with the equations between the new variables and the terms they replace. -/
structure NormHead (hs : List (HeadAtom α)) (n : Nat) (r : List BodyAtom × List (Operation α)) : Prop where
  nodup : ∀ a ∈ r.1, a.terms.Nodup
  shape : List.Forall₂ (fun (a : BodyAtom) (h : HeadAtom α) => a.pred = h.pred ∧ a.terms.length = h.terms.length) r.1 hs
  fresh : ∀ v ∈ atomVars r.1, v ∈ hs.flatMap (·.vars) ∨ (v.isExistential = false ∧ n ≤ v.name)
  cover : ∀ v ∈ hs.flatMap (·.vars), v ∈ atomVars r.1
  opVars : ∀ o ∈ r.2, ∀ v ∈ o.vars, v ∈ atomVars r.1
  correct : ∀ τ : Variable → α, (∀ o ∈ r.2, o.eval τ = some Dom.tru) →
    List.Forall₂ (fun (a : BodyAtom) (h : HeadAtom α) => a.pred = h.pred ∧ a.terms.map τ = h.inst τ) r.1 hs
  ext : ∀ σ : Variable → α, ∃ τ : Variable → α, (∀ v, v.name < n → τ v = σ v) ∧ ∀ o ∈ r.2, o.eval τ = some Dom.tru

theorem normHead_spec (hs : List (HeadAtom α)) (n : Nat) (hn : ∀ v ∈ hs.flatMap (·.vars), v.name < n) :
    NormHead hs n (normHead hs n) := by
  induction hs generalizing n with
  | nil =>
    exact ⟨by simp [normHead], by simp [normHead], by simp [normHead, atomVars], by simp, by simp [normHead],
      by simp [normHead], fun σ => ⟨σ, fun _ _ => rfl, by simp [normHead]⟩⟩
  | cons h hs ih =>
    have ht := normHeadTerms_spec h.terms [] n (fun v hv => hn v (by
      simp only [List.append_nil] at hv
      exact List.mem_flatMap.2 ⟨h, List.mem_cons_self, hv⟩))
    rw [normHead]
    set t := normHeadTerms h.terms [] n with htd
    have hle := ht.le
    have hi := ih t.2.2 (fun v hv => by
      obtain ⟨h', h1, h2⟩ := List.mem_flatMap.1 hv
      have := hn v (List.mem_flatMap.2 ⟨h', List.mem_cons_of_mem _ h1, h2⟩)
      omega)
    set r := normHead hs t.2.2 with hrd
    have hav : ∀ v, v ∈ atomVars (⟨h.pred, t.1⟩ :: r.1) ↔ v ∈ t.1 ∨ v ∈ atomVars r.1 := by
      intro v; simp [atomVars]
    refine ⟨?_, ?_, ?_, ?_, ?_, ?_, ?_⟩
    · intro a ha
      rcases List.mem_cons.1 ha with rfl | ha
      · exact ht.nodup
      · exact hi.nodup a ha
    · exact .cons ⟨rfl, ht.len⟩ hi.shape
    · intro v hv
      rcases (hav v).1 hv with hv | hv
      · rcases (ht.fresh v hv).2 with h1 | ⟨k, rfl, h2, h3⟩
        · exact Or.inl (List.mem_flatMap.2 ⟨h, List.mem_cons_self, h1⟩)
        · exact Or.inr ⟨rfl, h2⟩
      · rcases hi.fresh v hv with h1 | ⟨h1, h2⟩
        · left
          obtain ⟨h', h3, h4⟩ := List.mem_flatMap.1 h1
          exact List.mem_flatMap.2 ⟨h', List.mem_cons_of_mem _ h3, h4⟩
        · exact Or.inr ⟨h1, by omega⟩
    · intro v hv
      rw [hav]
      obtain ⟨h', h3, h4⟩ := List.mem_flatMap.1 hv
      rcases List.mem_cons.1 h3 with rfl | h3
      · exact Or.inl ((ht.cover v h4).resolve_right (by simp))
      · exact Or.inr (hi.cover v (List.mem_flatMap.2 ⟨h', h3, h4⟩))
    · intro o ho v hv
      rw [hav]
      rcases List.mem_append.1 ho with ho | ho
      · exact Or.inl ((ht.opVars o ho v hv).1.resolve_right (by simp))
      · exact Or.inr (hi.opVars o ho v hv)
    · intro τ hτ
      refine .cons ⟨rfl, ht.correct τ fun o ho => hτ o (List.mem_append_left _ ho)⟩
        (hi.correct τ fun o ho => hτ o (List.mem_append_right _ ho))
    · intro σ
      obtain ⟨τ1, a1, a2⟩ := ht.ext σ
      obtain ⟨τ2, b1, b2⟩ := hi.ext τ1
      refine ⟨τ2, fun v hv => ?_, fun o ho => ?_⟩
      · rw [b1 v (by omega), a1 v (fun hg => by have := hg.name.1; omega)]
      · rcases List.mem_append.1 ho with ho | ho
        · rw [Operation.eval_congr o fun v hv => b1 v (ht.opVars o ho v hv).2]
          exact a2 o ho
        · exact b2 o ho

theorem foldl_max_le (l : List Nat) (m : Nat) : m ≤ l.foldl max m ∧ ∀ x ∈ l, x ≤ l.foldl max m := by
  induction l generalizing m with
  | nil => simp
  | cons a l ih =>
    obtain ⟨h1, h2⟩ := ih (max m a)
    rw [List.foldl_cons]
    refine ⟨by omega, fun x hx => ?_⟩
    rcases List.mem_cons.1 hx with rfl | hx
    · omega
    · exact h2 x hx

theorem NRule.name_lt_fresh (r : NRule α) : ∀ v ∈ r.head.flatMap (·.vars), v.name < r.freshName := by
  intro v hv
  have := (foldl_max_le ((r.head.flatMap (·.vars)).map Variable.name) 0).2 v.name (List.mem_map_of_mem hv)
  unfold NRule.freshName
  omega

/-! ## Satisfied heads -/

/-- The head of the rule is satisfied for the valuation `σ`: there are values for the existential variables that make
all head atoms true. -/
def HeadSat (r : NRule α) (I : Interp α) (σ : Variable → α) : Prop :=
  ∃ τ : Variable → α, (∀ v, v.isExistential = false → τ v = σ v) ∧ ∀ h ∈ r.head, I h.pred (h.inst τ)

theorem HeadSat.mono {r : NRule α} {I J : Interp α} (h : I.le J) {σ : Variable → α} (hs : HeadSat r I σ) :
    HeadSat r J σ := by
  obtain ⟨τ, h1, h2⟩ := hs
  exact ⟨τ, h1, fun hd hm => h _ _ (h2 hd hm)⟩

/-- The existential rules that are considered: the frontier consists of all head variables that are not existential (a
head variable that is computed by a condition makes the program panic), the head contains no aggregate, and
the variable order for the head contains its variables. -/
structure ExOK (r : NRule α) (cfg : RuleCfg) (arity : Tag → Nat) : Prop where
  agg : r.aggregation = none
  headArity : ∀ h ∈ r.head, h.terms.length = arity h.pred
  frontier : ∀ h ∈ r.head, ∀ v ∈ h.vars, v.isExistential = false → v ∈ atomVars r.positive
  bodyUniversal : ∀ v ∈ atomVars r.positive, v.isExistential = false
  orderNodup : cfg.exOrder.Nodup
  orderCov : ∀ h ∈ r.head, ∀ v ∈ h.vars, v ∈ cfg.exOrder
  satArity : arity cfg.sat = (cfg.exOrder.filter r.inFrontier).length
  satFresh : cfg.sat ∉ r.predsHead

/-- the frontier variables, in the order of the helper table -/
def NRule.fr (r : NRule α) (cfg : RuleCfg) : List Variable := cfg.exOrder.filter r.inFrontier

/-- the existential variables -/
def NRule.exVars (r : NRule α) : List Variable := (r.head.flatMap (·.varsExistential)).dedup

section
variable {r : NRule α} {cfg : RuleCfg} {arity : Tag → Nat}

theorem NRule.inFrontier_iff (r : NRule α) (v : Variable) :
    r.inFrontier v = true ↔ v ∈ r.head.flatMap (·.vars) ∧ v ∈ atomVars r.positive := by
  simp [NRule.inFrontier]

theorem ExOK.mem_fr (h : ExOK r cfg arity) (v : Variable) :
    v ∈ r.fr cfg ↔ v ∈ r.head.flatMap (·.vars) ∧ v.isExistential = false := by
  unfold NRule.fr
  rw [List.mem_filter, NRule.inFrontier_iff]
  constructor
  · rintro ⟨-, h1, h2⟩; exact ⟨h1, h.bodyUniversal v h2⟩
  · rintro ⟨h1, h2⟩
    obtain ⟨hd, h3, h4⟩ := List.mem_flatMap.1 h1
    exact ⟨h.orderCov hd h3 v h4, h1, h.frontier hd h3 v h4 h2⟩

theorem NRule.mem_exVars (r : NRule α) (v : Variable) :
    v ∈ r.exVars ↔ v ∈ r.head.flatMap (·.vars) ∧ v.isExistential = true := by
  unfold NRule.exVars
  rw [List.mem_dedup]
  simp only [List.mem_flatMap, HeadAtom.varsExistential, List.mem_filter]
  constructor
  · rintro ⟨h, h1, h2, h3⟩; exact ⟨⟨h, h1, h2⟩, h3⟩
  · rintro ⟨⟨h, h1, h2⟩, h3⟩; exact ⟨h, h1, h2, h3⟩

theorem ExOK.fr_nodup (h : ExOK r cfg arity) : (r.fr cfg).Nodup := h.orderNodup.filter _

theorem ExOK.cols_nodup (h : ExOK r cfg arity) : (r.fr cfg ++ r.exVars).Nodup := by
  refine List.nodup_append.2 ⟨h.fr_nodup, List.nodup_dedup _, ?_⟩
  rintro v hv w hw rfl
  have h1 := ((h.mem_fr v).1 hv).2
  have h2 := ((r.mem_exVars v).1 hw).2
  rw [h1] at h2; cases h2

theorem ExOK.mem_cols (h : ExOK r cfg arity) (v : Variable) :
    v ∈ r.fr cfg ++ r.exVars ↔ v ∈ r.head.flatMap (·.vars) := by
  rw [List.mem_append, h.mem_fr, r.mem_exVars]
  cases v.isExistential <;> simp

/-- Whether the head is satisfied only depends on the values of the frontier variables. -/
theorem ExOK.headSat_iff (h : ExOK r cfg arity) (I : Interp α) (σ : Variable → α) :
    HeadSat r I σ ↔ ∃ τ : Variable → α, (r.fr cfg).map τ = (r.fr cfg).map σ ∧ ∀ hd ∈ r.head, I hd.pred (hd.inst τ) := by
  constructor
  · rintro ⟨τ, h1, h2⟩
    exact ⟨τ, List.map_congr_left fun v hv => h1 v ((h.mem_fr v).1 hv).2, h2⟩
  · rintro ⟨τ, h1, h2⟩
    refine ⟨fun v => if v.isExistential then τ v else σ v, fun v hv => by simp [hv], fun hd hm => ?_⟩
    rw [HeadAtom.inst_congr hd (τ := τ)]
    · exact h2 hd hm
    · intro v hv
      show (if v.isExistential then τ v else σ v) = τ v
      cases he : v.isExistential with
      | true => rfl
      | false =>
        have := (List.map_eq_map_iff.1 h1) v ((h.mem_fr v).2 ⟨List.mem_flatMap.2 ⟨hd, hm, hv⟩, he⟩)
        simpa using this.symm

/-! ## Newly satisfied frontier values -/

theorem newSatisfied_spec {src : Source α} {at_ : Tag → Nat → List α → Prop} {cur last : Nat}
    (hs : SrcOK src at_ arity cur) (hl : last < cur) (h : ExOK r cfg arity) (hne : r.head ≠ []) :
    (newSatisfied src cur last r cfg.hasFacts cfg.sat cfg.exOrder).WF ∧
    (newSatisfied src cur last r cfg.hasFacts cfg.sat cfg.exOrder).cols = r.fr cfg ∧
    ∀ σ, (newSatisfied src cur last r cfg.hasFacts cfg.sat cfg.exOrder).Holds σ ↔
      (∃ τ : Variable → α, (r.fr cfg).map τ = (r.fr cfg).map σ ∧ (∀ hd ∈ r.head, Before at_ cur hd.pred (hd.inst τ)) ∧
        ∃ hd ∈ r.head, Between at_ (newFrom last (!applyOptimization r cfg.hasFacts)) cur hd.pred (hd.inst τ)) ∧
      ¬ Before at_ cur cfg.sat ((r.fr cfg).map σ) := by
  have hn := normHead_spec r.head r.freshName r.name_lt_fresh
  set n := normHead r.head r.freshName with hnd
  set order' := cfg.exOrder ++ ((atomVars n.1).filter fun v => decide (v ∉ cfg.exOrder)).dedup with hod
  have hno : order'.Nodup := by
    refine List.nodup_append.2 ⟨h.orderNodup, List.nodup_dedup _, ?_⟩
    rintro v hv w hw rfl
    rw [List.mem_dedup, List.mem_filter] at hw
    simp at hw; exact hw.2 hv
  have hcov : ∀ v ∈ atomVars n.1, v ∈ order' := by
    intro v hv
    rw [hod, List.mem_append, List.mem_dedup, List.mem_filter]
    by_cases hm : v ∈ cfg.exOrder
    · exact Or.inl hm
    · exact Or.inr ⟨hv, by simpa using hm⟩
  obtain ⟨jw, jc, jh⟩ := genSeminaive_spec hs hl (!applyOptimization r cfg.hasFacts) order' hno n.1 hcov
  set J := genSeminaive src cur last (!applyOptimization r cfg.hasFacts) order' n.1 with hJ
  have hJv : ∀ v, v ∈ J.cols ↔ v ∈ atomVars n.1 := by
    intro v; rw [jc, mem_restrictOrder]; exact ⟨fun h => h.2, fun h => ⟨hcov v h, h⟩⟩
  have fw := Rel.filter_wf jw n.2
  have fh := Rel.filter_holds J n.2 (fun o ho v hv => (hJv v).2 (hn.opVars o ho v hv))
  have hfr : ∀ v ∈ r.fr cfg, v ∈ (J.filter n.2).cols := by
    intro v hv
    exact (hJv v).2 (hn.cover v ((h.mem_fr v).1 hv).1)
  have pw := Rel.project_wf (r.fr cfg) (J.filter n.2) h.fr_nodup
  have ph := Rel.project_holds (r.fr cfg) (J.filter n.2) fw hfr
  set P := Rel.project (r.fr cfg) (J.filter n.2) with hP
  have hE : newSatisfied src cur last r cfg.hasFacts cfg.sat cfg.exOrder = ⟨r.fr cfg, genDuplicates src cur cfg.sat P.rows⟩ := rfl
  have hnne : n.1 ≠ [] := by
    intro he
    have := hn.shape
    rw [he] at this
    cases hh : r.head with
    | nil => exact hne hh
    | cons a b => rw [hh] at this; cases this
  -- the join in terms of the head
  have key : ∀ τ : Variable → α, (∀ o ∈ n.2, o.eval τ = some Dom.tru) →
      ∀ I : Interp α, ((∀ a ∈ n.1, I a.pred (a.terms.map τ)) ↔ ∀ hd ∈ r.head, I hd.pred (hd.inst τ)) ∧
        ((∃ a ∈ n.1, I a.pred (a.terms.map τ)) ↔ ∃ hd ∈ r.head, I hd.pred (hd.inst τ)) := by
    intro τ hτ I
    have := hn.correct τ hτ
    generalize n.1 = as, r.head = hds at this
    clear hs
    induction this with
    | nil => simp
    | @cons a hd as hds hab _ ih =>
      obtain ⟨e1, e2⟩ := hab
      constructor
      · simp only [List.forall_mem_cons, e1, e2, ih.1]
      · simp only [List.exists_mem_cons_iff, e1, e2, ih.2]
  rw [hE]
  refine ⟨⟨h.fr_nodup, fun row hr => pw.len row (List.mem_of_mem_filter hr)⟩, rfl, fun σ => ?_⟩
  show (r.fr cfg).map σ ∈ genDuplicates src cur cfg.sat P.rows ↔ _
  rw [mem_genDuplicates hs]
  refine and_congr_left fun _ => ?_
  show P.Holds σ ↔ _
  rw [ph]
  constructor
  · rintro ⟨τ, h1, h2⟩
    rw [fh, jh] at h2
    obtain ⟨⟨h3, h4⟩, h5⟩ := h2
    refine ⟨τ, List.map_congr_left h1, (key τ h5 _).1.1 h3, (key τ h5 _).2.1 (h4.resolve_left hnne)⟩
  · rintro ⟨σ', h1, h2, h3⟩
    obtain ⟨τ, t1, t2⟩ := hn.ext σ'
    have hag : ∀ hd ∈ r.head, hd.inst σ' = hd.inst τ := by
      intro hd hm
      exact HeadAtom.inst_congr hd fun v hv => (t1 v (r.name_lt_fresh v (List.mem_flatMap.2 ⟨hd, hm, hv⟩))).symm
    refine ⟨τ, fun v hv => ?_, ?_⟩
    · rw [t1 v (r.name_lt_fresh v ((h.mem_fr v).1 hv).1)]
      exact List.map_eq_map_iff.1 h1 v hv
    · rw [fh, jh]
      refine ⟨⟨(key τ t2 _).1.2 fun hd hm => hag hd hm ▸ h2 hd hm, Or.inr ((key τ t2 _).2.2 ?_)⟩, t2⟩
      obtain ⟨hd, hm, hb⟩ := h3
      exact ⟨hd, hm, hag hd hm ▸ hb⟩

/-! ## Nulls -/

theorem Rel.mem_nullRows (k n : Nat) (rows : List (List α)) (row : List α) :
    row ∈ Rel.nullRows k n rows ↔ ∃ (i : Nat) (x : List α), rows[i]? = some x ∧
      row = x ++ (List.range k).map fun j => Dom.null (n + i * k + j) := by
  induction rows generalizing n with
  | nil => simp [Rel.nullRows]
  | cons y rows ih =>
    rw [Rel.nullRows, List.mem_cons, ih]
    constructor
    · rintro (rfl | ⟨i, x, h1, rfl⟩)
      · exact ⟨0, y, rfl, by simp⟩
      · refine ⟨i + 1, x, by simpa using h1, ?_⟩
        congr 1
        apply List.map_congr_left
        intro j _
        congr 1
        rw [Nat.succ_mul]; omega
    · rintro ⟨i, x, h1, rfl⟩
      cases i with
      | zero => simp at h1; subst h1; left; simp
      | succ i =>
        right
        refine ⟨i, x, by simpa using h1, ?_⟩
        congr 1
        apply List.map_congr_left
        intro j _
        congr 1
        rw [Nat.succ_mul]; omega

/-- the frontier values for which the head is satisfied by known facts, one of them new -/
def NewSat (r : NRule α) (cfg : RuleCfg) (at_ : Tag → Nat → List α → Prop) (last cur : Nat) (x : List α) : Prop :=
  ∃ τ : Variable → α, (r.fr cfg).map τ = x ∧ (∀ hd ∈ r.head, Before at_ cur hd.pred (hd.inst τ)) ∧
    ∃ hd ∈ r.head, Between at_ (newFrom last (!applyOptimization r cfg.hasFacts)) cur hd.pred (hd.inst τ)

/-- The frontier values that get nulls: those of a new match that are not recorded as satisfied and not newly satisfied. -/
def Unsat (r : NRule α) (cfg : RuleCfg) (at_ : Tag → Nat → List α → Prop) (last cur : Nat) (x : List α) : Prop :=
  (∃ σ, NewMatch r at_ last cur σ ∧ x = (r.fr cfg).map σ) ∧ ¬ Before at_ cur cfg.sat x ∧ ¬ NewSat r cfg at_ last cur x

/-- The valuation gives the frontier variables the values of the `i`-th tuple of `U`, and the existential variables the
nulls reserved for this tuple. -/
structure NullVal (r : NRule α) (cfg : RuleCfg) (next : Nat) (U : List (List α)) (i : Nat) (τ : Variable → α) : Prop where
  frontier : U[i]? = some ((r.fr cfg).map τ)
  nulls : ∀ (j : Nat) v, r.exVars[j]? = some v → τ v = Dom.null (next + i * r.exVars.length + j)

/-- The facts that an application of an existential rule adds. -/
inductive ExAdded (r : NRule α) (cfg : RuleCfg) (at_ : Tag → Nat → List α → Prop) (last cur next : Nat)
    (U : List (List α)) : Tag → List α → Prop
  | plain {hd : HeadAtom α} {σ : Variable → α} : hd ∈ r.head → hd.varsExistential = [] → NewMatch r at_ last cur σ →
      ¬ Before at_ cur hd.pred (hd.inst σ) → ExAdded r cfg at_ last cur next U hd.pred (hd.inst σ)
  | null {hd : HeadAtom α} {i : Nat} {τ : Variable → α} : hd ∈ r.head → hd.varsExistential ≠ [] →
      NullVal r cfg next U i τ → ExAdded r cfg at_ last cur next U hd.pred (hd.inst τ)
  | unsat {x : List α} : x ∈ U → ExAdded r cfg at_ last cur next U cfg.sat x
  | newSat {x : List α} {σ : Variable → α} : NewMatch r at_ last cur σ → NewSat r cfg at_ last cur x →
      ¬ Before at_ cur cfg.sat x → ExAdded r cfg at_ last cur next U cfg.sat x

theorem isExistential_head {r : NRule α} (h : r.isExistential = true) : r.head ≠ [] := by
  rintro he; simp [NRule.isExistential, he] at h

/-- `evalRestricted` computes the unsatisfied frontier values and gives them nulls. -/
theorem evalRestricted_spec {src : Source α} {at_ : Tag → Nat → List α → Prop} {cur last : Nat}
    (hs : SrcOK src at_ arity cur) (hl : last < cur) (h : ExOK r cfg arity) (hne : r.head ≠ [])
    {body : Rel α} (bw : body.WF) (bc : ∀ v ∈ atomVars r.positive, v ∈ body.cols)
    (bh : ∀ σ, body.Holds σ ↔ NewMatch r at_ last cur σ) (next : Nat) :
    ∃ U : List (List α), U.Nodup ∧ (∀ x, x ∈ U ↔ Unsat r cfg at_ last cur x) ∧
      (evalRestricted src cur last r cfg.hasFacts cfg.sat cfg.exOrder body next).2.2 = next + r.exVars.length * U.length ∧
      (∀ x, x ∈ (evalRestricted src cur last r cfg.hasFacts cfg.sat cfg.exOrder body next).2.1 ↔
        x ∈ U ∨ (NewSat r cfg at_ last cur x ∧ ¬ Before at_ cur cfg.sat x)) ∧
      (evalRestricted src cur last r cfg.hasFacts cfg.sat cfg.exOrder body next).1.WF ∧
      (evalRestricted src cur last r cfg.hasFacts cfg.sat cfg.exOrder body next).1.cols = r.fr cfg ++ r.exVars ∧
      ∀ τ, (evalRestricted src cur last r cfg.hasFacts cfg.sat cfg.exOrder body next).1.Holds τ ↔
        ∃ i, NullVal r cfg next U i τ := by
  obtain ⟨sw, sc, sh⟩ := newSatisfied_spec hs hl h hne
  set S := newSatisfied src cur last r cfg.hasFacts cfg.sat cfg.exOrder with hS
  have hfb : ∀ v ∈ r.fr cfg, v ∈ body.cols := by
    intro v hv
    obtain ⟨h1, h2⟩ := (h.mem_fr v).1 hv
    obtain ⟨hd, h3, h4⟩ := List.mem_flatMap.1 h1
    exact bc v (h.frontier hd h3 v h4 h2)
  have pw := Rel.project_wf (r.fr cfg) body h.fr_nodup
  have ph := Rel.project_holds (r.fr cfg) body bw hfb
  set F := Rel.project (r.fr cfg) body with hF
  set A : Rel α := ⟨S.cols, S.rows ++ src cfg.sat 0 cur⟩ with hA
  have uw := Rel.subtract_wf pw [A]
  have uh := Rel.subtract_holds F [A] (by
    intro s hm v hv
    rw [List.mem_singleton] at hm; subst hm
    show v ∈ r.fr cfg
    rw [← sc]; exact hv)
  set U := (F.subtract [A]).rows.dedup with hU
  have hE : evalRestricted src cur last r cfg.hasFacts cfg.sat cfg.exOrder body next =
    (⟨r.fr cfg ++ r.exVars, Rel.nullRows r.exVars.length next U⟩, U ++ S.rows, next + r.exVars.length * U.length) := rfl
  have hAh : ∀ σ, A.Holds σ ↔ S.Holds σ ∨ Before at_ cur cfg.sat ((r.fr cfg).map σ) := by
    intro σ
    show S.cols.map σ ∈ S.rows ++ _ ↔ _
    rw [List.mem_append, sc, hs.mem _ _ _ _ le_rfl]
    show S.cols.map σ ∈ S.rows ∨ _ ↔ _
    simp only [sc, Rel.Holds, Before, Nat.zero_le, true_and]
  have hnf : ∀ σ, F.Holds σ ↔ ∃ σ', NewMatch r at_ last cur σ' ∧ (r.fr cfg).map σ = (r.fr cfg).map σ' := by
    intro σ
    rw [ph]
    constructor
    · rintro ⟨τ, h1, h2⟩
      exact ⟨τ, (bh τ).1 h2, List.map_congr_left fun v hv => (h1 v hv).symm⟩
    · rintro ⟨τ, h1, h2⟩
      exact ⟨τ, fun v hv => (List.map_eq_map_iff.1 h2 v hv).symm, (bh τ).2 h1⟩
  have hSr : ∀ x, x ∈ S.rows ↔ NewSat r cfg at_ last cur x ∧ ¬ Before at_ cur cfg.sat x := by
    intro x
    rw [sw.mem_rows, sc]
    constructor
    · rintro ⟨σ, h1, rfl⟩; exact (sh σ).1 h1
    · rintro ⟨⟨τ, rfl, h1⟩, h2⟩
      exact ⟨τ, (sh τ).2 ⟨⟨τ, rfl, h1⟩, h2⟩, rfl⟩
  have hUm : ∀ x, x ∈ U ↔ Unsat r cfg at_ last cur x := by
    intro x
    rw [hU, List.mem_dedup, uw.mem_rows]
    have hc : (F.subtract [A]).cols = r.fr cfg := rfl
    rw [hc]
    constructor
    · rintro ⟨σ, h1, rfl⟩
      rw [uh, hnf] at h1
      obtain ⟨⟨σ', h2, h3⟩, h4⟩ := h1
      have h5 := h4 A (List.mem_singleton_self _)
      rw [hAh, sh] at h5
      push Not at h5
      refine ⟨⟨σ', h2, h3⟩, h5.2, fun hn => h5.2 (h5.1 hn)⟩
    · rintro ⟨⟨σ, h1, rfl⟩, h2, h3⟩
      refine ⟨σ, ?_, rfl⟩
      rw [uh, hnf]
      refine ⟨⟨σ, h1, rfl⟩, fun s hm => ?_⟩
      rw [List.mem_singleton] at hm; subst hm
      rw [hAh, sh]
      rintro (⟨h4, -⟩ | h4)
      · exact h3 h4
      · exact h2 h4
  have hUl : ∀ x ∈ U, x.length = (r.fr cfg).length := by
    intro x hx
    obtain ⟨⟨σ, -, rfl⟩, -⟩ := (hUm x).1 hx
    simp
  refine ⟨U, List.nodup_dedup _, hUm, by rw [hE], ?_, ?_, by rw [hE], ?_⟩
  · intro x
    rw [hE, List.mem_append, hSr]
  · rw [hE]
    refine ⟨h.cols_nodup, fun row hr => ?_⟩
    obtain ⟨i, x, h1, rfl⟩ := (Rel.mem_nullRows _ _ _ _).1 hr
    simp [hUl x (List.mem_of_getElem? h1)]
  · intro τ
    rw [hE]
    show (r.fr cfg ++ r.exVars).map τ ∈ Rel.nullRows _ _ _ ↔ _
    rw [Rel.mem_nullRows, List.map_append]
    constructor
    · rintro ⟨i, x, h1, h2⟩
      obtain ⟨e1, e2⟩ := List.append_inj h2 (by simp [hUl x (List.mem_of_getElem? h1)])
      refine ⟨i, ⟨by rw [e1]; exact h1, fun j v hv => ?_⟩⟩
      have hj := (List.getElem?_eq_some_iff.1 hv).1
      have := congrArg (·[j]?) e2
      simp only [List.getElem?_map, hv, Option.map_some, List.getElem?_range hj] at this
      exact Option.some.inj this
    · rintro ⟨i, h1, h2⟩
      refine ⟨i, _, h1, ?_⟩
      congr 1
      apply List.ext_getElem (by simp)
      intro j h3 h4
      simp only [List.getElem_map, List.getElem_range]
      exact h2 j _ (List.getElem?_eq_getElem (by simpa using h3))

/-- **An application of an existential rule.** -/
theorem executeRule_ex_spec {src : Source α} {at_ : Tag → Nat → List α → Prop} {cur last : Nat}
    (hs : SrcOK src at_ arity cur) (hl : last < cur) (hr : RuleOK r arity) (h : ExOK r cfg arity)
    (hex : r.isExistential = true) (next : Nat) :
    ∃ U : List (List α), U.Nodup ∧ (∀ x, x ∈ U ↔ Unsat r cfg at_ last cur x) ∧
      (executeRule src cur last r cfg next).2 = next + r.exVars.length * U.length ∧
      ((executeRule src cur last r cfg next).1.map (·.1)).Nodup ∧
      ∀ p row, InTables (executeRule src cur last r cfg next).1 p row ↔ ExAdded r cfg at_ last cur next U p row := by
  obtain ⟨bw, bc, bh, -⟩ := evalBody_spec hs hl r hr
  set body := evalBody src cur last r with hbody
  have bh' : ∀ σ, body.1.Holds σ ↔ NewMatch r at_ last cur σ := bh
  by_cases he : body.1.rows.isEmpty
  · have hE : executeRule src cur last r cfg next = ([], next) := by
      unfold executeRule; rw [← hbody]; simp only [he, if_true]
    have hno : ∀ σ, ¬ NewMatch r at_ last cur σ := by
      rw [List.isEmpty_iff, bw.rows_empty] at he
      exact fun σ hσ => he σ ((bh' σ).2 hσ)
    refine ⟨[], by simp, fun x => ?_, by rw [hE]; simp, by rw [hE]; simp, fun p row => ?_⟩
    · simp only [List.not_mem_nil, false_iff]
      rintro ⟨⟨σ, h1, -⟩, -⟩; exact hno σ h1
    · rw [hE]
      constructor
      · rintro ⟨t, ht, -⟩; simp at ht
      · intro ha
        exfalso
        cases ha with
        | plain _ _ h1 _ => exact hno _ h1
        | null _ _ h1 => have := h1.frontier; simp at this
        | unsat h1 => simp at h1
        | newSat h1 _ _ => exact hno _ h1
  · have hne := isExistential_head hex
    obtain ⟨σ0, hσ0⟩ : ∃ σ, NewMatch r at_ last cur σ := by
      by_contra hc
      push Not at hc
      apply he
      rw [List.isEmpty_iff, bw.rows_empty]
      exact fun σ hσ => hc σ ((bh' σ).1 hσ)
    obtain ⟨U, u1, u2, u3, u4, u5, u6, u7⟩ := evalRestricted_spec hs hl h hne bw
      (fun v hv => by
        obtain ⟨a, ha, hva⟩ := List.mem_flatMap.1 hv
        exact (bc v).2 (.atom ha hva)) bh' next
    set R := evalRestricted src cur last r cfg.hasFacts cfg.sat cfg.exOrder body.1 next with hR
    set T := (r.head.map (·.pred)).dedup.map (fun p => (p, (r.head.zipIdx.flatMap fun x =>
      if x.1.pred = p then headAtomRows src cur r body.1 ⟨[], []⟩ R.1 x.2 x.1 else []).dedup)) with hT
    have hE : executeRule src cur last r cfg next =
        ((T ++ [(cfg.sat, R.2.1.dedup)]).filter fun t => !t.2.isEmpty, R.2.2) := by
      unfold executeRule
      rw [← hbody]
      simp only [he, hex, h.agg, if_true, if_false, Bool.false_eq_true, Option.map_none, Option.getD_none]
      rfl
    have key : ∀ (i : Nat) (hd : HeadAtom α), r.head[i]? = some hd → ∀ row,
        (row ∈ headAtomRows src cur r body.1 ⟨[], []⟩ R.1 i hd ↔
          (hd.varsExistential = [] ∧ (∃ σ, NewMatch r at_ last cur σ ∧ row = hd.inst σ) ∧ ¬ Before at_ cur hd.pred row) ∨
          (hd.varsExistential ≠ [] ∧ ∃ i τ, NullVal r cfg next U i τ ∧ row = hd.inst τ)) := by
      intro i hd hi row
      have hm := List.mem_of_getElem? hi
      unfold headAtomRows
      rw [h.agg]
      simp only [Option.map_none, reduceCtorEq, if_false]
      by_cases hve : hd.varsExistential = []
      · simp only [hve, ne_eq, not_true_eq_false, if_false, true_and, false_and, or_false]
        have hnoex : ∀ v ∈ hd.vars, v.isExistential = false := by
          unfold HeadAtom.varsExistential at hve
          rw [List.filter_eq_nil_iff] at hve
          intro v hv; simpa using hve v hv
        rw [mem_genDuplicates hs, mem_headRows hd _ bw (fun v hv => by
          obtain ⟨a, ha, hva⟩ := List.mem_flatMap.1 (h.frontier hd hm v hv (hnoex v hv))
          exact (bc v).2 (.atom ha hva))]
        refine and_congr_left fun _ => exists_congr fun σ => and_congr_left fun _ => bh' σ
      · simp only [hve, ne_eq, not_false_eq_true, if_true, true_and, false_and, false_or]
        rw [mem_headRows hd _ u5 (fun v hv => by
          rw [u6]; exact (h.mem_cols v).2 (List.mem_flatMap.2 ⟨hd, hm, hv⟩))]
        constructor
        · rintro ⟨σ, h1, rfl⟩
          obtain ⟨i, hi⟩ := (u7 σ).1 h1
          exact ⟨i, σ, hi, rfl⟩
        · rintro ⟨i, τ, h1, rfl⟩
          exact ⟨τ, (u7 τ).2 ⟨i, h1⟩, rfl⟩
    have hTmem : ∀ p row, (∃ t, (p, t) ∈ T ∧ row ∈ t) ↔ ∃ (i : Nat) (hd : HeadAtom α), r.head[i]? = some hd ∧ p = hd.pred ∧
        row ∈ headAtomRows src cur r body.1 ⟨[], []⟩ R.1 i hd := by
      intro p row
      rw [hT]
      simp only [List.mem_map (f := fun p => (p, _)), Prod.mk.injEq]
      constructor
      · rintro ⟨t, ⟨q, hq, rfl, rfl⟩, hrow⟩
        rw [List.mem_dedup, List.mem_flatMap] at hrow
        obtain ⟨⟨hd, i⟩, hm, hrow⟩ := hrow
        rw [List.mem_zipIdx_iff_getElem?] at hm
        simp only at hrow hm
        split at hrow
        · rename_i hp
          exact ⟨i, hd, hm, hp.symm, hrow⟩
        · simp at hrow
      · rintro ⟨i, hd, hi, rfl, hrow⟩
        refine ⟨_, ⟨hd.pred, ?_, rfl, rfl⟩, ?_⟩
        · rw [List.mem_dedup]; exact List.mem_map.2 ⟨hd, List.mem_of_getElem? hi, rfl⟩
        · rw [List.mem_dedup, List.mem_flatMap]
          exact ⟨(hd, i), List.mem_zipIdx_iff_getElem?.2 hi, by simpa using hrow⟩
    have hin : ∀ p row, InTables (executeRule src cur last r cfg next).1 p row ↔
        (∃ t, (p, t) ∈ T ∧ row ∈ t) ∨ (p = cfg.sat ∧ row ∈ R.2.1) := by
      intro p row
      rw [hE]
      unfold InTables
      simp only [List.mem_filter, List.mem_append, List.mem_singleton, Prod.mk.injEq]
      constructor
      · rintro ⟨t, ⟨h1 | ⟨rfl, rfl⟩, -⟩, h2⟩
        · exact Or.inl ⟨t, h1, h2⟩
        · exact Or.inr ⟨rfl, List.mem_dedup.1 h2⟩
      · have aux : ∀ t : List (List α), row ∈ t → (!t.isEmpty) = true := by
          intro t ht; cases t with
          | nil => simp at ht
          | cons => rfl
        rintro (⟨t, h1, h2⟩ | ⟨rfl, h2⟩)
        · exact ⟨t, ⟨Or.inl h1, aux t h2⟩, h2⟩
        · exact ⟨_, ⟨Or.inr ⟨rfl, rfl⟩, aux _ (List.mem_dedup.2 h2)⟩, List.mem_dedup.2 h2⟩
    refine ⟨U, u1, u2, by rw [hE]; exact u3, ?_, ?_⟩
    · rw [hE]
      refine List.Nodup.sublist (List.filter_sublist.map _) ?_
      rw [List.map_append, hT, List.map_map]
      have : (r.head.map (·.pred)).dedup.map ((fun x : Tag × List (List α) => x.1) ∘ fun p =>
          (p, (r.head.zipIdx.flatMap fun x => if x.1.pred = p then headAtomRows src cur r body.1 ⟨[], []⟩ R.1 x.2 x.1
            else []).dedup)) = (r.head.map (·.pred)).dedup := List.map_id'' (fun _ => rfl) _
      rw [this]
      refine List.nodup_append.2 ⟨List.nodup_dedup _, by simp, ?_⟩
      rintro p hp q hq rfl
      simp only [List.map_cons, List.map_nil, List.mem_singleton] at hq
      subst hq
      rw [List.mem_dedup] at hp
      exact h.satFresh hp
    · intro p row
      rw [hin, hTmem, u4]
      constructor
      · rintro (⟨i, hd, hi, rfl, hrow⟩ | ⟨rfl, h1 | ⟨h1, h2⟩⟩)
        · rcases (key i hd hi row).1 hrow with ⟨h1, ⟨σ, h2, rfl⟩, h3⟩ | ⟨h1, i', τ, h2, rfl⟩
          · exact .plain (List.mem_of_getElem? hi) h1 h2 h3
          · exact .null (List.mem_of_getElem? hi) h1 h2
        · exact .unsat h1
        · exact .newSat hσ0 h1 h2
      · intro ha
        cases ha with
        | @plain hd σ h1 h2 h3 h4 =>
          obtain ⟨i, hi⟩ := List.getElem?_of_mem h1
          exact Or.inl ⟨i, hd, hi, rfl, (key i hd hi _).2 (Or.inl ⟨h2, ⟨σ, h3, rfl⟩, h4⟩)⟩
        | @null hd i' τ h1 h2 h3 =>
          obtain ⟨i, hi⟩ := List.getElem?_of_mem h1
          exact Or.inl ⟨i, hd, hi, rfl, (key i hd hi _).2 (Or.inr ⟨h2, i', τ, h3, rfl⟩)⟩
        | unsat h1 => exact Or.inr ⟨rfl, Or.inl h1⟩
        | newSat _ h1 h2 => exact Or.inr ⟨rfl, Or.inr ⟨h1, h2⟩⟩

end
end Verif
