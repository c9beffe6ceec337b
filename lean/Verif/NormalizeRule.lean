import Verif.NormalizeBody

/-!
# A normalized rule derives the same facts (C43)
-/

set_option linter.unusedSimpArgs false
set_option linter.unusedSectionVars false
set_option linter.unusedVariables false

namespace Verif
variable {α : Type} [DecidableEq α] [Dom α]
variable {S : SRule α} (order : List Variable)

theorem norm_head (j : Nat) : (normalizeRule S order).head[j]? =
    S.head[j]?.map fun h => ⟨h.pred, (headParts S j h).terms⟩ := normHeadAtoms_atoms _ _ _ _

theorem norm_agg_none (h : (normalizeRule S order).aggregation = none) : ∀ h ∈ S.head, ∀ t ∈ h.terms, t.agg? = none := by
  have := normHeadAtoms_agg S.head 0 (negGen S)
  have h' : (normHeadAtoms S.head 0 (negGen S)).2.2 = none := h
  rw [h'] at this; exact this

theorem norm_agg_some {a : Aggregation} {j : Nat} (h : (normalizeRule S order).aggregation = some (a, j)) :
    ∃ (h : SHead α) (x : Nat × Operation α × List Variable) (outer : List Variable) (j' : Nat) (t : HTerm α),
      S.head[j]? = some h ∧ (headParts S j h).agg = some (x, outer, j') ∧ h.terms[j']? = some t ∧ t.agg? = some x ∧
      a = ⟨x.1, (normAggInput x.2.1).1, aggOut, x.2.2,
        groupByVars (headParts S j h).terms (t.norm.vars.filter fun v => !decide (v = aggOut)) j'⟩ := by
  have := normHeadAtoms_agg S.head 0 (negGen S)
  have h' : (normHeadAtoms S.head 0 (negGen S)).2.2 = some (a, j) := h
  rw [h'] at this
  obtain ⟨i, h, hi, h1, h2⟩ := this
  obtain rfl : j = i := by omega
  rw [normHeadAtom_agg, Option.map_eq_some_iff] at h2
  obtain ⟨⟨x, outer, j'⟩, h3, h4⟩ := h2
  obtain ⟨t, h5, h6, h7⟩ := headParts_agg h3
  exact ⟨h, x, outer, j', t, h1, h3, h5, h6, by rw [← h4, h7]⟩

theorem agg_count {t : HTerm α} {a : Nat × Operation α × List Variable} (h : t.agg? = some a) : t.aggCount ≠ 0 := by
  intro hc; rw [(HTerm.agg?_none t).2 hc] at h; cases h

theorem norm_hasAgg : (normalizeRule S order).containsAggregates = true ↔ S.HasAgg := by
  rw [NRule.containsAggregates]
  rcases h : (normalizeRule S order).aggregation with _ | ⟨a, j⟩
  · refine ⟨by simp, ?_⟩
    rintro ⟨h', hh, t, ht, hne⟩
    exact absurd ((HTerm.agg?_none t).1 (norm_agg_none order h h' hh t ht)) hne
  · refine ⟨fun _ => ?_, by simp⟩
    obtain ⟨h', x, outer, j', t, h1, h2, h3, h4, -⟩ := norm_agg_some order h
    exact ⟨h', List.mem_of_getElem? h1, t, List.mem_of_getElem? h3, agg_count h4⟩

/-- An atom without the aggregate of the rule contains no aggregates. -/
theorem plain_atom (hV : SValid S) {i : Nat} {h : SHead α} (hi : S.head[i]? = some h)
    (hno : ∀ a k, (normalizeRule S order).aggregation = some (a, k) → k ≠ i) : ∀ t ∈ h.terms, t.aggCount = 0 := by
  intro t ht
  by_contra hne
  rcases ha : (normalizeRule S order).aggregation with _ | ⟨a, k⟩
  · exact hne ((HTerm.agg?_none t).1 (norm_agg_none order ha h (List.mem_of_getElem? hi) t ht))
  · obtain ⟨h', x, outer, j', t', h1, h2, h3, h4, -⟩ := norm_agg_some order ha
    exact hno a k ha (hV.oneAggAtom k i h' h h1 hi ⟨t', List.mem_of_getElem? h3, agg_count h4⟩ ⟨t, ht, hne⟩)

theorem exists_agg (hV : SValid S) {i : Nat} {h : SHead α} (hi : S.head[i]? = some h) {t : HTerm α} (ht : t ∈ h.terms)
    {x : Nat × Operation α × List Variable} (hx : t.agg? = some x) : ∃ j' : Nat, h.terms[j']? = some t ∧
      (normalizeRule S order).aggregation = some (⟨x.1, (normAggInput x.2.1).1, aggOut, x.2.2,
        groupByVars (headParts S i h).terms (t.norm.vars.filter fun v => !decide (v = aggOut)) j'⟩, i) := by
  rcases ha : (normalizeRule S order).aggregation with _ | ⟨a, k⟩
  · rw [norm_agg_none order ha h (List.mem_of_getElem? hi) t ht] at hx; cases hx
  · obtain ⟨h', x', outer, j', t', h1, h2, h3, h4, h5⟩ := norm_agg_some order ha
    have := hV.oneAggAtom k i h' h h1 hi ⟨t', List.mem_of_getElem? h3, agg_count h4⟩ ⟨t, ht, agg_count hx⟩
    subst this
    rw [hi] at h1; cases h1
    obtain ⟨l, hl⟩ := List.mem_iff_getElem?.1 ht
    have := HTerm.aggCountList_unique (hV.oneAgg h (List.mem_of_getElem? hi)) hl h3 (agg_count hx) (agg_count h4)
    subst this
    rw [hl] at h3; cases h3
    rw [hx] at h4; cases h4
    exact ⟨l, hl, by rw [h5]⟩

theorem forall₂_of_getElem? {β γ : Type} {R : β → γ → Prop} : ∀ (l : List β) (m : List γ), l.length = m.length →
    (∀ (i : Nat) (x : β) (y : γ), l[i]? = some x → m[i]? = some y → R x y) → List.Forall₂ R l m
  | [], [], _, _ => .nil
  | x :: l, y :: m, h, hr => .cons (hr 0 x y rfl rfl) (forall₂_of_getElem? l m (by simpa using h) fun i x y hx hy =>
      hr (i + 1) x y (by simpa using hx) (by simpa using hy))
  | [], _ :: _, h, _ => by simp at h
  | _ :: _, [], h, _ => by simp at h

theorem forall₂_getElem? {β γ : Type} {R : β → γ → Prop} {l : List β} {m : List γ} (h : List.Forall₂ R l m) :
    ∀ (i : Nat) (x : β) (y : γ), l[i]? = some x → m[i]? = some y → R x y := by
  induction h with
  | nil => intro i x y hx; simp at hx
  | cons h0 _ ih =>
    intro i x y hx hy
    rcases i with _ | i
    · simp only [List.getElem?_cons_zero, Option.some.injEq] at hx hy; subst hx hy; exact h0
    · exact ih i x y (by simpa using hx) (by simpa using hy)

theorem inst_getElem? (j : Nat) (h : SHead α) (σ : Variable → α) (i : Nat) :
    (HeadAtom.inst ⟨h.pred, (headParts S j h).terms⟩ σ)[i]? = h.terms[i]?.map fun t =>
      (t.prim (headGen h.terms (headsGen S.head (negGen S) j) i)).inst σ := by
  rw [HeadAtom.inst, List.getElem?_map, normHeadLoop_terms, Option.map_map]; rfl

theorem inst_length (j : Nat) (h : SHead α) (σ : Variable → α) :
    (HeadAtom.inst ⟨h.pred, (headParts S j h).terms⟩ σ).length = h.terms.length := by
  rw [HeadAtom.inst, List.length_map, normHeadLoop_length]

/-- the operation for a term of the head -/
theorem head_op_mem {j : Nat} {h : SHead α} (hj : S.head[j]? = some h) {i : Nat} {t : HTerm α} (hi : h.terms[i]? = some t)
    (hop : t.isOper = true) : .equal (.var (freshVar "HEAD" (headGen h.terms (headsGen S.head (negGen S) j) i + 1))) t.norm ∈
      (headParts S j h).ops := (mem_normHeadLoop_ops _ _ _ _).2 ⟨i, t, hi, hop, rfl⟩

/-- The value of a head term without aggregates. -/
theorem prim_value (hV : SValid S) {P N : Interp α} {σ : Variable → α} (hB : BodyHolds (normalizeRule S order) P N σ)
    {j : Nat} {h : SHead α} (hj : S.head[j]? = some h) {i : Nat} {t : HTerm α} (hi : h.terms[i]? = some t)
    (hc : t.aggCount = 0) (x : α) :
    t.value σ x = some ((t.prim (headGen h.terms (headsGen S.head (negGen S) j) i)).inst σ) := by
  by_cases hop : t.isOper = true
  · have hin := head_op_mem hj hi hop
    have hmem := (mem_norm_ops S order _).2 (.inr (.inr (.inr (.inl ⟨j, h, hj, hin⟩))))
    have hr : ∀ w ∈ t.norm.vars, NSafe S order w := by
      intro w hw
      rcases (HTerm.mem_norm_vars w t).1 hw with h' | h'
      · exact (hV.headTermSafe (List.mem_of_getElem? hj) (List.mem_of_getElem? hi)
          (by rintro v rfl; simp [HTerm.isOper] at hop) (HTerm.outerVars_sub t h')).norm order hV
      · exact absurd hc h'.2
    have := hB.ops _ hmem fun w hw => by
      rcases List.mem_append.1 hw with hw | hw
      · obtain rfl : w = _ := by simpa [Operation.vars] using hw
        exact .assign hmem rfl hr
      · exact hr w hw
    have := (eval_assign σ _ _).1 this
    rw [HTerm.norm_eval, HTerm.value_indep σ _ x t hc] at this
    rw [this, HTerm.prim_oper hop]; rfl
  · cases t <;> simp_all [HTerm.isOper, HTerm.value, HTerm.prim, Primitive.inst, HTerm.aggCount]

/-- The value of the aggregated variable. -/
theorem input_value (hV : SValid S) {P N : Interp α} {σ : Variable → α} (hB : BodyHolds (normalizeRule S order) P N σ)
    {j : Nat} {h : SHead α} (hj : S.head[j]? = some h) {x : Nat × Operation α × List Variable} {outer : List Variable}
    {j' : Nat} (hx : (headParts S j h).agg = some (x, outer, j')) : x.2.1.eval σ = some (σ (normAggInput x.2.1).1) := by
  obtain ⟨t, h4, h5, -⟩ := headParts_agg hx
  rcases normAggInput_cases x.2.1 with ⟨w, e, hi⟩ | hi
  · rw [hi, e]; rfl
  · have hmem := (mem_norm_ops S order (.equal (.var aggIn) x.2.1)).2 (.inr (.inr (.inr (.inr
      ⟨j, h, _, _, _, hj, hx, by rw [hi]; exact List.mem_singleton.2 rfl⟩))))
    have hin : ∀ w ∈ x.2.1.vars, NSafe S order w := fun w hw =>
      (agg_vars_safe hV (List.mem_of_getElem? hj) (List.mem_of_getElem? h4) h5 (List.mem_append_left _ hw)).norm order hV
    have := hB.ops _ hmem fun w hw => by
      rcases List.mem_append.1 hw with hw | hw
      · obtain rfl : w = aggIn := by simpa [Operation.vars] using hw
        exact .assign hmem rfl hin
      · exact hin w hw
    rw [hi]; exact (eval_assign σ _ _).1 this

theorem mem_groupByVars (terms : List (Primitive α)) (outer : List Variable) (j : Nat) (v : Variable) :
    v ∈ groupByVars terms outer j ↔ v ∈ outer ∨ ∃ i p, terms[i]? = some p ∧ i ≠ j ∧ p.var? = some v := by
  rw [groupByVars, List.mem_dedup, List.mem_append, List.mem_filterMap]
  refine or_congr_right ⟨?_, ?_⟩
  · rintro ⟨⟨p, i⟩, h, hv⟩
    obtain ⟨h1, h2⟩ := List.mem_filter.1 h
    have := List.mem_zipIdx_iff_getElem?.1 h1
    exact ⟨i, p, this, by simpa using h2, hv⟩
  · rintro ⟨i, p, h1, h2, hv⟩
    refine ⟨(p, i), List.mem_filter.2 ⟨List.mem_zipIdx_iff_getElem?.2 h1, by simpa using h2⟩, hv⟩

/-- the group-by variables of the aggregate of a head atom -/
theorem mem_group (hV : SValid S) {j : Nat} {h : SHead α} (hj : S.head[j]? = some h) {j' : Nat} {t : HTerm α}
    (ht : h.terms[j']? = some t) (v : Variable) :
    v ∈ groupByVars (headParts S j h).terms (t.norm.vars.filter fun v => !decide (v = aggOut)) j' ↔
      v ∈ t.outerVars ∨ ∃ (i : Nat) (t' : HTerm α), h.terms[i]? = some t' ∧ i ≠ j' ∧
        (t'.prim (headGen h.terms (headsGen S.head (negGen S) j) i)).var? = some v := by
  rw [mem_groupByVars, List.mem_filter, HTerm.mem_norm_vars]
  refine or_congr ?_ ?_
  · constructor
    · rintro ⟨h1 | h1, h2⟩
      · exact h1
      · simp [h1.1] at h2
    · intro h1
      refine ⟨.inl h1, ?_⟩
      have := hV.userHead (List.mem_of_getElem? hj) t (List.mem_of_getElem? ht) v (HTerm.outerVars_sub t h1)
      simp only [Bool.not_eq_true', decide_eq_false_iff_not]
      rintro rfl; exact this aggOut_reserved
  · constructor
    · rintro ⟨i, p, h1, h2, h3⟩
      rw [normHeadLoop_terms, Option.map_eq_some_iff] at h1
      obtain ⟨t', h4, rfl⟩ := h1
      exact ⟨i, t', h4, h2, h3⟩
    · rintro ⟨i, t', h1, h2, h3⟩
      exact ⟨i, _, by rw [normHeadLoop_terms, h1]; rfl, h2, h3⟩

/-- Two valuations of the normalized body agree on the group-by variables exactly if they belong to the same group. -/
theorem group_iff (hV : SValid S) {P N : Interp α} {τ τ' : Variable → α} (hB : BodyHolds (normalizeRule S order) P N τ)
    (hB' : BodyHolds (normalizeRule S order) P N τ') {j : Nat} {h : SHead α} (hj : S.head[j]? = some h) {j' : Nat} {t : HTerm α}
    (ht : h.terms[j']? = some t) (hc : t.aggCount ≠ 0) :
    (∀ v ∈ groupByVars (headParts S j h).terms (t.norm.vars.filter fun v => !decide (v = aggOut)) j', τ' v = τ v) ↔
      SameGroup h τ' τ := by
  have huniq : ∀ (i : Nat) (t' : HTerm α), h.terms[i]? = some t' → t'.aggCount ≠ 0 → i = j' := fun i t' h1 h2 =>
    HTerm.aggCountList_unique (hV.oneAgg h (List.mem_of_getElem? hj)) h1 ht h2 hc
  constructor
  · intro hg t' ht'
    obtain ⟨i, hi⟩ := List.mem_iff_getElem?.1 ht'
    constructor
    · intro h0 x
      rw [prim_value order hV hB hj hi h0, prim_value order hV hB' hj hi h0]
      have hne : i ≠ j' := by rintro rfl; rw [ht] at hi; cases hi; exact hc h0
      congr 1
      rcases hp : t'.prim (headGen h.terms (headsGen S.head (negGen S) j) i) with v | a
      · exact hg v ((mem_group hV hj ht v).2 (.inr ⟨i, t', hi, hne, by rw [hp]; rfl⟩))
      · rfl
    · intro hne v hv
      have := huniq i t' hi hne
      subst this
      rw [ht] at hi; cases hi
      exact hg v ((mem_group hV hj ht v).2 (.inl hv))
  · intro hs v hv
    rcases (mem_group hV hj ht v).1 hv with h1 | ⟨i, t', h1, h2, h3⟩
    · exact (hs t (List.mem_of_getElem? ht)).2 hc v h1
    · have h0 : t'.aggCount = 0 := by by_contra hne; exact h2 (huniq i t' h1 hne)
      have := (hs t' (List.mem_of_getElem? h1)).1 h0 Dom.tru
      rw [prim_value order hV hB hj h1 h0, prim_value order hV hB' hj h1 h0] at this
      rcases hp : t'.prim (headGen h.terms (headsGen S.head (negGen S) j) i) with w | a
      · rw [hp] at h3 this
        cases h3
        exact Option.some.inj this
      · rw [hp] at h3; cases h3

theorem SameGroup.congr (hV : SValid S) {h : SHead α} (hh : h ∈ S.head) {τ τ' ρ ρ' : Variable → α}
    (h1 : ∀ v, ¬ v.Reserved → ρ v = τ v) (h2 : ∀ v, ¬ v.Reserved → ρ' v = τ' v) (hs : SameGroup h τ τ') : SameGroup h ρ ρ' := by
  intro t ht
  have hu := hV.userHead hh t ht
  refine ⟨fun h0 x => ?_, fun h0 v hv => ?_⟩
  · rw [HTerm.value_congr x t fun v hv => h1 v (hu v (HTerm.outerVars_sub t hv)),
      HTerm.value_congr x t fun v hv => h2 v (hu v (HTerm.outerVars_sub t hv))]
    exact (hs t ht).1 h0 x
  · rw [h1 v (hu v (HTerm.outerVars_sub t hv)), h2 v (hu v (HTerm.outerVars_sub t hv))]
    exact (hs t ht).2 h0 v hv

/-- The operations that remain after the body was evaluated belong to the aggregate. -/
theorem remaining_head (hV : SValid S) {o : Operation α} (ho : (normalizeRule S order).Remaining o) :
    ∃ (j : Nat) (h : SHead α) (i : Nat) (t : HTerm α), S.head[j]? = some h ∧ h.terms[i]? = some t ∧ t.isOper = true ∧
      t.aggCount ≠ 0 ∧ o = .equal (.var (freshVar "HEAD" (headGen h.terms (headsGen S.head (negGen S) j) i + 1))) t.norm := by
  obtain ⟨hm, hs, hn⟩ := ho
  rcases (mem_norm_ops S order o).1 hm with h | ⟨b, l, hl, hb⟩ | ⟨b, l, hl, hb⟩ | ⟨j, h, h1, h2⟩ |
    ⟨j, h, x, outer, j', h1, h2, h3⟩
  · exfalso
    rcases hV.opsScoped o h with h' | ⟨a, ha, h'⟩
    · exact hs fun v hv => (h' v hv).norm order hV
    · obtain ⟨k, hk⟩ := exists_atomAt (posGen S) ha
      refine hn _ ((mem_norm_neg S order _).2 ⟨a, k, hk, rfl⟩) fun v hv => ?_
      exact (h' v hv).imp (fun h => h.norm order hV) fun h => (normBodyTerms_has a.terms [] k h).resolve_left (by simp)
  · exact absurd (fun v hv => pos_op_safe order hV hl hb hv) hs
  · exfalso
    refine hn _ ((mem_norm_neg S order _).2 ⟨b, l, hl, rfl⟩) fun v hv => ?_
    obtain ⟨f, e, rfl, hf, hf', hr⟩ := neg_op_right hV hl hb
    rcases List.mem_append.1 hv with hv | hv
    · obtain rfl : v = f := by simpa [Operation.vars] using hv
      exact .inr hf'
    · exact (hr v hv).imp (fun h => h.norm order hV) fun h => (normBodyTerms_has b.terms [] l h).resolve_left (by simp)
  · obtain ⟨i, t, hi, hop, rfl⟩ := (mem_normHeadLoop_ops _ _ _ _).1 h2
    refine ⟨j, h, i, t, h1, hi, hop, fun h0 => hs fun v hv => ?_, rfl⟩
    have hr : ∀ w ∈ t.norm.vars, NSafe S order w := by
      intro w hw
      rcases (HTerm.mem_norm_vars w t).1 hw with h' | h'
      · exact (hV.headTermSafe (List.mem_of_getElem? h1) (List.mem_of_getElem? hi)
          (by rintro v rfl; simp [HTerm.isOper] at hop) (HTerm.outerVars_sub t h')).norm order hV
      · exact absurd h0 h'.2
    rcases List.mem_append.1 hv with hv | hv
    · obtain rfl : v = _ := by simpa [Operation.vars] using hv
      exact .assign hm rfl hr
    · exact hr v hv
  · exfalso
    obtain ⟨t, h4, h5, -⟩ := headParts_agg h2
    rcases normAggInput_cases x.2.1 with ⟨w, -, hi⟩ | hi
    · rw [hi] at h3; cases h3
    · rw [hi, List.mem_singleton] at h3
      subst h3
      have hin : ∀ w ∈ x.2.1.vars, NSafe S order w := fun w hw =>
        (agg_vars_safe hV (List.mem_of_getElem? h1) (List.mem_of_getElem? h4) h5
          (List.mem_append_left _ hw)).norm order hV
      refine hs fun w hw => ?_
      rcases List.mem_append.1 hw with hw | hw
      · obtain rfl : w = aggIn := by simpa [Operation.vars] using hw
        exact .assign hm rfl hin
      · exact hin w hw

/-- ... and conversely. -/
theorem head_remaining (hV : SValid S) {j : Nat} {h : SHead α} (hj : S.head[j]? = some h) {i : Nat} {t : HTerm α}
    (hi : h.terms[i]? = some t) (hop : t.isOper = true) (hc : t.aggCount ≠ 0) : (normalizeRule S order).Remaining
      (.equal (.var (freshVar "HEAD" (headGen h.terms (headsGen S.head (negGen S) j) i + 1))) t.norm) := by
  have hin : aggOut ∈ (Operation.equal (.var (freshVar "HEAD" (headGen h.terms (headsGen S.head (negGen S) j) i + 1)))
      t.norm).vars := List.mem_append_right _ ((HTerm.mem_norm_vars _ t).2 (.inr ⟨rfl, hc⟩))
  refine ⟨(mem_norm_ops S order _).2 (.inr (.inr (.inr (.inl ⟨j, h, hj, head_op_mem hj hi hop⟩)))), fun hs => ?_, ?_⟩
  · exact NSafe.ne_aggOut order hV (hs aggOut hin) rfl
  · rintro b hb hs
    rcases hs aggOut hin with h' | h'
    · exact NSafe.ne_aggOut order hV h' rfl
    · obtain ⟨a, k, hk, rfl⟩ := (mem_norm_neg S order _).1 hb
      rcases normBodyTerms_vars a.terms [] k h' with h'' | ⟨k', _, _, e⟩
      · exact (hV.userNeg hk.mem).1 _ h''.1 aggOut_reserved
      · exact (fresh_ne_agg k').2.1 e.symm

/-- The values of a group are the same before and after normalization. -/
theorem group_values (hV : SValid S) {P N : Interp α} {τ τ1 : Variable → α}
    (hB : BodyHolds (normalizeRule S order) P N τ1) (hu : ∀ v, ¬ v.Reserved → τ1 v = τ v) {j : Nat} {h : SHead α}
    (hj : S.head[j]? = some h) {x : Nat × Operation α × List Variable} {outer : List Variable} {j' : Nat} {t : HTerm α}
    (hx : (headParts S j h).agg = some (x, outer, j')) (ht : h.terms[j']? = some t) (htx : t.agg? = some x) (y : List α) :
    (∃ τ', BodyHolds (normalizeRule S order) P N τ' ∧ (∀ v ∈ groupByVars (headParts S j h).terms
        (t.norm.vars.filter fun v => !decide (v = aggOut)) j', τ' v = τ1 v) ∧
        y = ((normAggInput x.2.1).1 :: x.2.2).map τ') ↔
      ∃ τ' b, SBody S P N τ' ∧ SameGroup h τ' τ ∧ x.2.1.eval τ' = some b ∧ y = b :: x.2.2.map τ' := by
  have hh := List.mem_of_getElem? hj
  have hsafe : ∀ v ∈ x.2.1.vars ++ x.2.2, ¬ v.Reserved := fun v hv =>
    (agg_vars_safe hV hh (List.mem_of_getElem? ht) htx hv).user hV
  constructor
  · rintro ⟨τ', hB', hg, rfl⟩
    refine ⟨τ', _, bodyHolds_source order hV hB', ?_, input_value order hV hB' hj hx, rfl⟩
    exact SameGroup.congr hV hh (fun _ _ => rfl) (fun v hv => (hu v hv).symm)
      ((group_iff order hV hB hB' hj ht (agg_count htx)).1 hg)
  · rintro ⟨τ', b, hB', hg, hb, rfl⟩
    obtain ⟨τ2, u2, hB2⟩ := source_bodyHolds order hV hB'
    refine ⟨τ2, hB2, (group_iff order hV hB hB2 hj ht (agg_count htx)).2 (SameGroup.congr hV hh u2 hu hg), ?_⟩
    have h1 := input_value order hV hB2 hj hx
    rw [Operation.eval_congr _ fun v hv => u2 v (hsafe v (List.mem_append_left _ hv)), hb] at h1
    rw [List.map_cons, ← Option.some.inj h1]
    congr 1
    exact (List.map_congr_left fun v hv => u2 v (hsafe v (List.mem_append_right _ hv))).symm

theorem headParts_agg_of (hV : SValid S) {i : Nat} {h : SHead α} (hi : S.head[i]? = some h) {t : HTerm α} (ht : t ∈ h.terms)
    {x : Nat × Operation α × List Variable} (hx : t.agg? = some x) :
    ∃ outer j', (headParts S i h).agg = some (x, outer, j') ∧ h.terms[j']? = some t := by
  obtain ⟨l, hl⟩ := List.mem_iff_getElem?.1 ht
  rcases ha : (headParts S i h).agg with _ | ⟨x', outer, j'⟩
  · have := normHeadLoop_agg h.terms 0 (headsGen S.head (negGen S) i)
    rw [ha] at this
    rw [this t ht] at hx; cases hx
  · obtain ⟨t', h3, h4, -⟩ := headParts_agg ha
    have := HTerm.aggCountList_unique (hV.oneAgg h (List.mem_of_getElem? hi)) hl h3 (agg_count hx) (agg_count h4)
    subst this
    rw [hl] at h3; cases h3
    rw [hx] at h4; cases h4
    exact ⟨outer, l, rfl, hl⟩

theorem derivesWith_norm (hV : SValid S) (P N : Interp α) (p : Tag) (row : List α) :
    DerivesWith (normalizeRule S order) (BodyHolds (normalizeRule S order) P N) p row ↔
      SDerivesWith S (SBody S P N) p row := by
  constructor
  · intro hd
    cases hd with
    | @plain σ h' i hB hi hno =>
      rw [norm_head, Option.map_eq_some_iff] at hi
      obtain ⟨h, hi, rfl⟩ := hi
      have h0 := plain_atom order hV hi hno
      refine .plain (bodyHolds_source order hV hB) (List.mem_of_getElem? hi) h0 fun x => ?_
      refine forall₂_of_getElem? _ _ (inst_length i h σ).symm fun k t b hk hb => ?_
      rw [inst_getElem?, hk] at hb
      cases hb
      exact prim_value order hV hB hi hk (h0 t (List.mem_of_getElem? hk)) x
    | @agg σ h' i a ha hagg hi =>
      rw [norm_head, Option.map_eq_some_iff] at hi
      obtain ⟨h, hi, rfl⟩ := hi
      obtain ⟨h', x, outer, j', t, h1, h2, h3, h4, rfl⟩ := norm_agg_some order hagg
      rw [hi] at h1; cases h1
      obtain ⟨⟨τ, l, hB, hg, hl, hv⟩, hops⟩ := ha
      dsimp only at hg hl hv
      have hc := agg_count h4
      refine .agg (τ := τ) (t := t) (k := x.1) (i := x.2.1) (d := x.2.2) (l := l) (x := σ aggOut)
        (bodyHolds_source order hV hB) (List.mem_of_getElem? hi) (List.mem_of_getElem? h3) h4 (fun y => ?_) hv ?_
      · rw [hl]
        exact group_values order hV hB (fun _ _ => rfl) hi h2 h3 h4 y
      · refine forall₂_of_getElem? _ _ (inst_length i h σ).symm fun k t' b hk hb => ?_
        rw [inst_getElem?, hk] at hb
        cases hb
        dsimp only
        by_cases h0 : t'.aggCount = 0
        · rw [prim_value order hV hB hi hk h0]
          congr 1
          have hne : k ≠ j' := by rintro rfl; rw [h3] at hk; cases hk; exact hc h0
          rcases hp : t'.prim (headGen h.terms (headsGen S.head (negGen S) i) k) with v | a
          · exact hg v ((mem_group hV hi h3 v).2 (.inr ⟨k, t', hk, hne, by rw [hp]; rfl⟩))
          · rfl
        · have := HTerm.aggCountList_unique (hV.oneAgg h (List.mem_of_getElem? hi)) hk h3 h0 hc
          subst this
          rw [h3] at hk; cases hk
          by_cases hop : t.isOper = true
          · have hr := head_remaining order hV hi h3 hop hc
            have := (eval_assign σ _ _).1 (hops _ hr.1 hr.2.1 hr.2.2)
            rw [HTerm.norm_eval] at this
            rw [HTerm.prim_oper hop, Primitive.inst, ← this]
            exact HTerm.value_congr _ t fun v hv => hg v ((mem_group hV hi h3 v).2 (.inl hv))
          · cases t <;> simp_all [HTerm.isOper, HTerm.value, HTerm.prim, Primitive.inst, HTerm.aggCount]
  · intro hd
    cases hd with
    | @plain σ h row hB hh h0 hrow =>
      obtain ⟨σ', hu, hB'⟩ := source_bodyHolds order hV hB
      obtain ⟨i, hi⟩ := List.mem_iff_getElem?.1 hh
      have hrow := hrow Dom.tru
      have : row = HeadAtom.inst ⟨h.pred, (headParts S i h).terms⟩ σ' := by
        refine List.ext_getElem? fun k => ?_
        rw [inst_getElem?]
        rcases hk : h.terms[k]? with _ | t
        · rw [List.getElem?_eq_none_iff] at hk
          rw [Option.map_none, List.getElem?_eq_none_iff, ← hrow.length_eq]
          exact hk
        · have hlt : k < row.length := by rw [← hrow.length_eq]; exact (List.getElem?_eq_some_iff.1 hk).1
          have hb := forall₂_getElem? hrow k t row[k] hk (List.getElem?_eq_getElem hlt)
          rw [List.getElem?_eq_getElem hlt, Option.map_some, ← hb,
            ← prim_value order hV hB' hi hk (h0 t (List.mem_of_getElem? hk)) Dom.tru]
          exact (HTerm.value_congr _ t fun v hv =>
            hu v (hV.userHead hh t (List.mem_of_getElem? hk) v (HTerm.outerVars_sub t hv))).symm
      rw [this]
      refine DerivesWith.plain (h := ⟨h.pred, (headParts S i h).terms⟩) hB' (i := i) ?_ ?_
      · rw [norm_head, hi]; rfl
      · rintro a k ha rfl
        obtain ⟨h', x, outer, j', t, h1, h2, h3, h4, -⟩ := norm_agg_some order ha
        rw [hi] at h1; cases h1
        exact agg_count h4 (h0 t (List.mem_of_getElem? h3))
    | @agg τ h t k inp d l x row hB hh ht hta hl hv hrow =>
      obtain ⟨i, hi⟩ := List.mem_iff_getElem?.1 hh
      obtain ⟨j', h3, hagg⟩ := exists_agg order hV hi ht hta
      obtain ⟨outer, j'', h2, h3'⟩ := headParts_agg_of hV hi ht hta
      have hc := agg_count hta
      obtain rfl : j'' = j' := HTerm.aggCountList_unique (hV.oneAgg h hh) h3' h3 hc hc
      obtain ⟨τ1, hu, hB1⟩ := source_bodyHolds order hV hB
      obtain ⟨σ3, hσ3⟩ : ∃ σ3 : Variable → α, σ3 = fun v => if v = aggOut then x else τ1 v := ⟨_, rfl⟩
      obtain ⟨σ, w1, w2⟩ := normHeadAtoms_assign S.head (fun h hh => hV.userHead hh) 0 (negGen S) σ3
      have hout : σ aggOut = x := by
        rw [w1 aggOut fun g' hf => hf.ne_aggOut rfl, hσ3]; exact if_pos rfl
      have huser : ∀ v, ¬ v.Reserved → σ v = τ1 v := by
        intro v hv
        rw [w1 v fun g' hf => hv hf.reserved, hσ3]
        exact if_neg (by rintro rfl; exact hv aggOut_reserved)
      have h3user : ∀ v, ¬ v.Reserved → σ3 v = τ1 v := by
        intro v hv; rw [hσ3]; exact if_neg (by rintro rfl; exact hv aggOut_reserved)
      have h3out : σ3 aggOut = x := by rw [hσ3]; exact if_pos rfl
      -- values of the new variables
      have hnew : ∀ (m : Nat) (t' : HTerm α), h.terms[m]? = some t' → t'.isOper = true → t'.value τ1 x ≠ none →
          t'.value τ1 x = some (σ (freshVar "HEAD" (headGen h.terms (headsGen S.head (negGen S) i) m + 1))) := by
        intro m t' hm hop hdef
        have hut := hV.userHead hh t' (List.mem_of_getElem? hm)
        have h1 : t'.value σ3 x = t'.value τ1 x := HTerm.value_congr x t' fun v hv =>
          h3user v (hut v (HTerm.outerVars_sub t' hv))
        have := w2 i h _ _ hi (head_op_mem hi hm hop) (by rw [HTerm.norm_eval, h3out, h1]; exact hdef)
        have := (eval_assign σ _ _).1 this
        rw [HTerm.norm_eval, hout] at this
        rw [← this]
        exact (HTerm.value_congr x t' fun v hv => huser v (hut v (HTerm.outerVars_sub t' hv))).symm
      have hval : ∀ t' ∈ h.terms, ∀ y, t'.value τ1 y = t'.value τ y := fun t' ht' y =>
        HTerm.value_congr y t' fun v hv => hu v (hV.userHead hh t' ht' v (HTerm.outerVars_sub t' hv))
      -- all positions have the value of the row
      have hpos : ∀ (m : Nat) (t' : HTerm α) b, h.terms[m]? = some t' → t'.value τ x = some b →
          (t'.prim (headGen h.terms (headsGen S.head (negGen S) i) m)).inst σ = b := by
        intro m t' b hm hb
        have hmm := List.mem_of_getElem? hm
        by_cases hop : t'.isOper = true
        · have := hnew m t' hm hop (by rw [hval t' hmm, hb]; simp)
          rw [hval t' hmm, hb] at this
          rw [HTerm.prim_oper hop]
          exact (Option.some.inj this).symm
        · rw [← hval t' hmm] at hb
          cases t' with
          | var v =>
            rw [HTerm.value] at hb
            rw [HTerm.prim, Primitive.inst, huser v (hV.userHead hh _ hmm v (by simp [HTerm.vars]))]
            exact Option.some.inj hb
          | const c => exact Option.some.inj hb
          | agg _ _ _ =>
            rw [HTerm.prim, Primitive.inst, hout]
            exact Option.some.inj hb
          | equal _ _ => simp [HTerm.isOper] at hop
          | op _ _ => simp [HTerm.isOper] at hop
      have : row = HeadAtom.inst ⟨h.pred, (headParts S i h).terms⟩ σ := by
        refine List.ext_getElem? fun m => ?_
        rw [inst_getElem?]
        rcases hk : h.terms[m]? with _ | t'
        · rw [List.getElem?_eq_none_iff] at hk
          rw [Option.map_none, List.getElem?_eq_none_iff, ← hrow.length_eq]
          exact hk
        · have hlt : m < row.length := by rw [← hrow.length_eq]; exact (List.getElem?_eq_some_iff.1 hk).1
          have hb := forall₂_getElem? hrow m t' row[m] hk (List.getElem?_eq_getElem hlt)
          rw [List.getElem?_eq_getElem hlt, Option.map_some, hpos m t' _ hk hb]
      rw [this]
      refine DerivesWith.agg (h := ⟨h.pred, (headParts S i h).terms⟩) (i := i) ⟨⟨τ1, l, hB1, ?_, ?_, ?_⟩, ?_⟩ hagg ?_
      · intro v hv
        rcases (mem_group hV hi h3 v).1 hv with h1 | ⟨m, t', hm, hne, hp⟩
        · exact (huser v (hV.userHead hh t ht v (HTerm.outerVars_sub t h1))).symm
        · have h0 : t'.aggCount = 0 := by
            by_contra hne'
            exact hne (HTerm.aggCountList_unique (hV.oneAgg h hh) hm h3 hne' hc)
          have e1 := prim_value order hV hB1 hi hm h0 x
          have e2 := hpos m t' _ hm ((hval t' (List.mem_of_getElem? hm) x).symm.trans e1)
          rcases hq : t'.prim (headGen h.terms (headsGen S.head (negGen S) i) m) with w | c
          · rw [hq] at hp e2
            cases hp
            exact e2.symm
          · rw [hq] at hp; cases hp
      · intro y
        rw [hl]
        exact (group_values order hV hB1 hu hi h2 h3 hta y).symm
      · rw [hv]; exact congrArg some hout.symm
      · intro o ho hs hn
        obtain ⟨j2, h', m, t', g1, g2, g3, g4, rfl⟩ := remaining_head order hV ⟨ho, hs, hn⟩
        have := hV.oneAggAtom j2 i h' h g1 hi ⟨t', List.mem_of_getElem? g2, g4⟩ ⟨t, ht, hc⟩
        subst this
        rw [hi] at g1; cases g1
        have hlt : m < row.length := by rw [← hrow.length_eq]; exact (List.getElem?_eq_some_iff.1 g2).1
        have hb := forall₂_getElem? hrow m t' row[m] g2 (List.getElem?_eq_getElem hlt)
        have hmm := List.mem_of_getElem? g2
        rw [eval_assign, ← hnew m t' g2 g3 (by rw [hval t' hmm, hb]; simp), HTerm.norm_eval, hout]
        exact HTerm.value_congr x t' fun v hv => huser v (hV.userHead hh t' hmm v (HTerm.outerVars_sub t' hv))
      · rw [norm_head, hi]; rfl

/-- **C43.**  A rule and its normalization derive the same facts. -/
theorem derives_norm_partial (hV : SValid S) (P N : Interp α) (p : Tag) (row : List α) :
    Derives (normalizeRule S order) P N p row ↔ SDerives S P N p row := by
  unfold Derives SDerives
  by_cases ha : S.HasAgg
  · rw [(norm_hasAgg order).2 ha, if_pos rfl, derivesWith_norm order hV]
    simp [ha]
  · have : (normalizeRule S order).containsAggregates = false := by
      rw [← Bool.not_eq_true, norm_hasAgg]; exact ha
    rw [this, if_neg (by simp), derivesWith_norm order hV]
    simp [ha]

end Verif
