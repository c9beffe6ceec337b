import Verif.MergeSparql

/-!
# Merging the SPARQL imports of a rule: what does not change

The positive import clauses of a rule are replaced by one clause, and the rule derives the same facts (C60).
-/

set_option linter.unusedSimpArgs false
set_option linter.unusedSectionVars false

namespace Verif.Sq
open Verif Verif.Inc
variable {α : Type}

/-! ## Positions -/

section positions
variable {eqs : List (Variable × α)} {vars : List Variable}

theorem mem_constPositions {i : Nat} {a : α} : (i, a) ∈ constPositions eqs vars ↔ ∃ v, vars[i]? = some v ∧ eqs.lookup v = some a := by
  simp only [constPositions, List.mem_filterMap, Option.map_eq_some_iff, Prod.mk.injEq]
  constructor
  · rintro ⟨x, hx, b, h1, rfl, rfl⟩
    exact ⟨x.1, List.mem_zipIdx_iff_getElem?.1 hx, h1⟩
  · rintro ⟨v, h1, h2⟩
    exact ⟨(v, i), List.mem_zipIdx_iff_getElem?.2 h1, a, h2, rfl, rfl⟩

theorem constPositions_nodup : ((constPositions eqs vars).map (·.1)).Nodup := by
  have h : List.Sublist ((constPositions eqs vars).map (·.1)) (vars.zipIdx.map (·.2)) := by
    unfold constPositions
    generalize vars.zipIdx = l
    induction l with
    | nil => exact List.Sublist.refl _
    | cons x l ih =>
      rw [List.filterMap_cons, List.map_cons]
      cases h : eqs.lookup x.1 with
      | none => exact ih.cons _
      | some a => exact ih.cons_cons _
  refine List.Nodup.sublist h ?_
  rw [List.zipIdx_map_snd]
  exact List.nodup_range'

theorem constPositions_lt : ∀ c ∈ constPositions eqs vars, c.1 < vars.length := by
  rintro ⟨i, a⟩ h
  obtain ⟨v, h1, -⟩ := mem_constPositions.1 h
  exact (List.getElem?_eq_some_iff.1 h1).1

theorem constPositions_isNone {i : Nat} {v : Variable} (h : vars[i]? = some v) :
    ((constPositions eqs vars).lookup i).isNone = (eqs.lookup v).isNone := by
  rw [Bool.eq_iff_iff, lookup_isNone]
  constructor
  · intro h1
    cases h2 : eqs.lookup v with
    | none => rfl
    | some a => exact absurd rfl (h1 (i, a) (mem_constPositions.2 ⟨v, h, h2⟩))
  · rintro h1 ⟨k, a⟩ h2 rfl
    obtain ⟨w, h3, h4⟩ := mem_constPositions.1 h2
    rw [h] at h3
    cases h3
    rw [h4] at h1
    cases h1

theorem keep_all {A : Type} (k : Nat) (xs : List A) : keep (fun _ => true) k xs = xs := by
  induction xs generalizing k with
  | nil => rfl
  | cons x xs ih => rw [keep_cons, if_pos rfl, ih]

theorem openVars_keep : openVars eqs vars = keep (fun i => ((constPositions eqs vars).lookup i).isNone) 0 vars := by
  conv_lhs => rw [openVars, ← keep_all 0 vars]
  exact keep_filter _ _ _ _ _ fun i v h => by rw [Nat.zero_add, constPositions_isNone h, Bool.true_and]

theorem lastPosition_spec {v : Variable} (hv : v ∈ vars) (hn : eqs.lookup v = none) : ∃ i, lastPosition eqs vars v = some i ∧ vars[i]? = some v := by
  unfold lastPosition
  rw [hn, if_neg (by simp)]
  obtain ⟨i, hi⟩ := List.getElem?_of_mem hv
  have hmem : (v, i) ∈ vars.zipIdx.filter fun x => decide (x.1 = v) :=
    List.mem_filter.2 ⟨List.mem_zipIdx_iff_getElem?.2 hi, by simp⟩
  cases h : (vars.zipIdx.filter fun x => decide (x.1 = v)).getLast? with
  | none => rw [List.getLast?_eq_none_iff.1 h] at hmem; cases hmem
  | some x =>
    have h1 := List.mem_filter.1 (List.mem_of_getLast? h)
    have h2 : x.1 = v := by simpa using h1.2
    exact ⟨x.2, rfl, h2 ▸ List.mem_zipIdx_iff_getElem?.1 h1.1⟩

theorem mapM_some {A B : Type} (f : A → Option B) (g : A → B) (l : List A) (h : ∀ x ∈ l, f x = some (g x)) : l.mapM f = some (l.map g) := by
  induction l with
  | nil => rfl
  | cons x l ih =>
    rw [List.mapM_cons, h x List.mem_cons_self, ih fun y hy => h y (List.mem_cons_of_mem _ hy)]
    rfl

end positions

/-! ## Clauses -/

/-- Conditions on an import clause, where `D` are the data of its endpoint: the query is a projection to different variables that have a value
in each solution, and the clause has a variable for each of them. -/
def ClauseOK (D : Dataset α) (c : QClause α) : Prop :=
  ∃ inner vs, c.query.pattern = .project inner vs ∧ Plain D inner vs ∧ c.vars.length = vs.length

/-- Two clauses that can be merged: they share no variables for which there is a constant, and a shared variable occurs only once in the second one. -/
def Mergeable (eqs : List (Variable × α)) (vars vars' : List Variable) : Prop :=
  ∀ v ∈ vars, v ∈ vars' → eqs.lookup v = none ∧ ∀ i k : Nat, vars'[i]? = some v → vars'[k]? = some v → i = k

theorem rows_length {D : Dataset α} {u : α} {inner : Pat α} {vs : List SVar} {row : List α} (h : Rows D u (.project inner vs) row) : row.length = vs.length := by
  obtain ⟨μ, -, rfl⟩ := h
  exact List.length_map _

section clauses
variable {W : Web α} {u : α} {order : Pat α → List SVar} (ho : Enumerates order) {eqs : List (Variable × α)}
include ho

/-- The rows that a clause needs for a valuation -/
def Holds (W : Web α) (u : α) (c : QClause α) (σ : Variable → α) : Prop := Rows (W c.endpoint) u c.query.pattern (c.vars.map σ)

theorem push_clause {c : QClause α} (hc : ClauseOK (W c.endpoint) c) :
    ClauseOK (W c.endpoint) (c.push order eqs) ∧ (c.push order eqs).query.header = c.query.header ∧
      ∀ σ : Variable → α, (∀ v a, eqs.lookup v = some a → σ v = a) → (Holds W u (c.push order eqs) σ ↔ Holds W u c σ) := by
  obtain ⟨inner, vs, h1, h2, h3⟩ := hc
  obtain ⟨inner', vs', h4, h5, h6, h7⟩ := push_rows ho u h2 (constants := constPositions eqs c.vars) (fun x hx => h3 ▸ constPositions_lt x hx)
    constPositions_nodup
  have hq : (c.push order eqs).query.pattern = .project inner' vs' := by
    simp only [QClause.push, pushConstants, h1, h4, Option.getD_some]
  have hv : (c.push order eqs).vars = keep (fun i => ((constPositions eqs c.vars).lookup i).isNone) 0 c.vars := openVars_keep
  refine ⟨⟨inner', vs', hq, h5, ?_⟩, rfl, fun σ hσ => ?_⟩
  · rw [hv, h6]; exact keep_length _ _ h3
  · have he : (c.push order eqs).endpoint = c.endpoint := rfl
    unfold Holds
    rw [hq, h1, he, h7, hv, ← keep_map]
    constructor
    · rintro ⟨l, hl, h8, h9⟩
      have hlen : (c.vars.map σ).length = l.length := by rw [List.length_map, h3, rows_length hl]
      have : c.vars.map σ = l := by
        refine List.ext_getElem? fun i => ?_
        cases hi : c.vars[i]? with
        | none =>
          have h10 : (c.vars.map σ)[i]? = none := by rw [List.getElem?_map, hi]; rfl
          rw [h10, eq_comm, List.getElem?_eq_none_iff, ← hlen]
          exact List.getElem?_eq_none_iff.1 h10
        | some v =>
          cases hcv : eqs.lookup v with
          | none => exact (keep_eq _ 0 hlen).1 h9 i (by rw [Nat.zero_add, constPositions_isNone hi, hcv]; rfl)
          | some a => rw [List.getElem?_map, hi, Option.map_some, hσ v a hcv, h8 (i, a) (mem_constPositions.2 ⟨v, hi, hcv⟩)]
      rwa [this]
    · intro h
      refine ⟨_, h, fun x hx => ?_, rfl⟩
      obtain ⟨v, h8, h9⟩ := mem_constPositions.1 (show (x.1, x.2) ∈ _ from hx)
      rw [List.getElem?_map, h8, Option.map_some, hσ v _ h9]

theorem merge_clause {c d : QClause α} (hc : ClauseOK (W c.endpoint) c) (hd : ClauseOK (W d.endpoint) d) (he : c.endpoint = d.endpoint)
    (hh : c.query.header = d.query.header) (hm : Mergeable eqs c.vars d.vars) :
    ∃ e, tryMerge order eqs c d = some (some e) ∧ ClauseOK (W e.endpoint) e ∧ e.endpoint = c.endpoint ∧ e.pred = c.pred ∧ e.positive = c.positive ∧
      e.query.header = c.query.header ∧ (∀ v, v ∈ e.vars ↔ (v ∈ c.vars ∨ v ∈ d.vars) ∧ eqs.lookup v = none) ∧
      ∀ σ : Variable → α, (∀ v a, eqs.lookup v = some a → σ v = a) → (Holds W u e σ ↔ Holds W u c σ ∧ Holds W u d σ) := by
  obtain ⟨li, lv, hl1, hl2, hl3⟩ := hc
  obtain ⟨ri, rv, hr1, hr2, hr3⟩ := hd
  have hJ : ∀ v, v ∈ joinVars c.vars d.vars ↔ v ∈ c.vars ∧ v ∈ d.vars := by
    intro v; simp [joinVars]
  have hJn : (joinVars c.vars d.vars).Nodup := (List.nodup_dedup _).filter _
  -- the positions of the shared variables
  have hL : ∀ v ∈ joinVars c.vars d.vars, lastPosition eqs c.vars v = some ((lastPosition eqs c.vars v).getD 0) ∧
      c.vars[(lastPosition eqs c.vars v).getD 0]? = some v := by
    intro v hv
    have h := (hJ v).1 hv
    obtain ⟨i, h1, h2⟩ := lastPosition_spec h.1 (hm v h.1 h.2).1
    rw [h1]; exact ⟨rfl, h2⟩
  have hR : ∀ v ∈ joinVars c.vars d.vars, lastPosition eqs d.vars v = some ((lastPosition eqs d.vars v).getD 0) ∧
      d.vars[(lastPosition eqs d.vars v).getD 0]? = some v := by
    intro v hv
    have h := (hJ v).1 hv
    obtain ⟨i, h1, h2⟩ := lastPosition_spec h.2 (hm v h.1 h.2).1
    rw [h1]; exact ⟨rfl, h2⟩
  generalize hg : (fun v => ((lastPosition eqs c.vars v).getD 0, (lastPosition eqs d.vars v).getD 0)) = g at *
  have hg1 : ∀ v ∈ joinVars c.vars d.vars, c.vars[(g v).1]? = some v := fun v hv => by rw [← hg]; exact (hL v hv).2
  have hg2 : ∀ v ∈ joinVars c.vars d.vars, d.vars[(g v).2]? = some v := fun v hv => by rw [← hg]; exact (hR v hv).2
  have hjp : joinPositions eqs c.vars d.vars = some ((joinVars c.vars d.vars).map g) := by
    refine mapM_some _ _ _ fun v hv => ?_
    rw [(hL v hv).1, (hR v hv).1, ← hg]
    rfl
  generalize hjpd : (joinVars c.vars d.vars).map g = jp at *
  have hjmem : ∀ x, x ∈ jp ↔ ∃ v ∈ joinVars c.vars d.vars, g v = x := fun x => by rw [← hjpd, List.mem_map]
  have hpos : PositionsOK lv.length rv.length jp (constPositions eqs c.vars) (constPositions eqs d.vars) := by
    refine ⟨fun x hx => ?_, ?_, ?_, fun x hx => hl3 ▸ constPositions_lt x hx, constPositions_nodup, fun x hx => hr3 ▸ constPositions_lt x hx,
      constPositions_nodup⟩
    · obtain ⟨v, hv, rfl⟩ := (hjmem x).1 hx
      exact ⟨hl3 ▸ (List.getElem?_eq_some_iff.1 (hg1 v hv)).1, hr3 ▸ (List.getElem?_eq_some_iff.1 (hg2 v hv)).1⟩
    · rw [← hjpd, List.map_map]
      exact List.Nodup.map_on (fun v hv w hw h => by
        have := hg1 v hv
        rw [show (g v).1 = (g w).1 from h, hg1 w hw] at this
        exact (Option.some.inj this).symm) hJn
    · rw [← hjpd, List.map_map]
      exact List.Nodup.map_on (fun v hv w hw h => by
        have := hg2 v hv
        rw [show (g v).2 = (g w).2 from h, hg2 w hw] at this
        exact (Option.some.inj this).symm) hJn
  have hl2' : Plain (W c.endpoint) li lv := hl2
  have hr2' : Plain (W c.endpoint) ri rv := he ▸ hr2
  obtain ⟨inner, vs, h1, h2, h3, h4⟩ := merge_rows ho u hl2' hr2' hpos
  -- the variables
  have hdup : ∀ (i : Nat) (v : Variable), d.vars[i]? = some v → (i ∉ jp.map (·.2) ↔ v ∉ joinVars c.vars d.vars) := by
    intro i v hi
    refine not_congr ⟨fun h => ?_, fun h => ?_⟩
    · obtain ⟨x, hx, rfl⟩ := List.mem_map.1 h
      obtain ⟨w, hw, rfl⟩ := (hjmem x).1 hx
      rw [hg2 w hw] at hi
      exact Option.some.inj hi ▸ hw
    · have h5 := (hJ v).1 h
      have h6 := (hm v h5.1 h5.2).2 i _ hi (hg2 v h)
      exact List.mem_map.2 ⟨g v, (hjmem _).2 ⟨v, h, rfl⟩, h6.symm⟩
  have hvars : openVars eqs (c.vars ++ d.vars.filter fun v => decide (v ∉ joinVars c.vars d.vars)) =
      keep (fun i => ((constPositions eqs c.vars).lookup i).isNone) 0 c.vars ++
        keep (fun i => ((constPositions eqs d.vars).lookup i).isNone && decide (i ∉ jp.map (·.2))) 0 d.vars := by
    rw [openVars, List.filter_append]
    congr 1
    · exact openVars_keep
    · rw [List.filter_filter]
      refine (congrArg _ (keep_all 0 d.vars).symm).trans (keep_filter (fun _ => true) _ _ _ _ fun i v hi => ?_)
      rw [Nat.zero_add, constPositions_isNone hi, Bool.true_and]
      congr 1
      exact decide_eq_decide.2 (hdup i v hi)
  refine ⟨{ c with query := ⟨c.query.header, .project inner vs⟩, vars := openVars eqs (c.vars ++ d.vars.filter fun v => decide (v ∉ joinVars c.vars d.vars)) },
    ?_, ⟨inner, vs, rfl, h2, ?_⟩, rfl, rfl, rfl, rfl, fun v => ?_, fun σ hσ => ?_⟩
  · rw [tryMerge, if_pos he, hjp, Option.map_some, mergeQueries, if_pos hh, hl1, hr1, h1]
    rfl
  · show (openVars eqs _).length = _
    rw [hvars, List.length_append, h3, keep_length _ _ hl3, keep_length _ _ hr3]
  · show v ∈ openVars eqs _ ↔ _
    simp only [openVars, List.mem_filter, List.mem_append, decide_eq_true_eq, hJ, Option.isNone_iff_eq_none]
    by_cases hv : v ∈ c.vars <;> simp [hv]
  · show Rows (W c.endpoint) u (.project inner vs) (List.map σ (openVars eqs _)) ↔ Rows _ u c.query.pattern _ ∧ Rows _ u d.query.pattern _
    rw [h4, hvars, List.map_append, ← keep_map, ← keep_map, hl1, hr1]
    constructor
    · rintro ⟨l, r, h5, h6, h7, h8, h9, h10⟩
      have hll : (c.vars.map σ).length = l.length := by rw [List.length_map, hl3, rows_length h5]
      have hrl : (d.vars.map σ).length = r.length := by rw [List.length_map, hr3, rows_length h6]
      obtain ⟨h11, h12⟩ := List.append_inj h10 (keep_length _ _ hll)
      have e1 : c.vars.map σ = l := by
        refine List.ext_getElem? fun i => ?_
        cases hi : c.vars[i]? with
        | none =>
          have h13 : (c.vars.map σ)[i]? = none := by rw [List.getElem?_map, hi]; rfl
          rw [h13, eq_comm, List.getElem?_eq_none_iff, ← hll]
          exact List.getElem?_eq_none_iff.1 h13
        | some v =>
          cases hcv : eqs.lookup v with
          | none => exact (keep_eq _ 0 hll).1 h11 i (by rw [Nat.zero_add, constPositions_isNone hi, hcv]; rfl)
          | some a => rw [List.getElem?_map, hi, Option.map_some, hσ v a hcv, h8 (i, a) (mem_constPositions.2 ⟨v, hi, hcv⟩)]
      have e2 : d.vars.map σ = r := by
        refine List.ext_getElem? fun i => ?_
        cases hi : d.vars[i]? with
        | none =>
          have h13 : (d.vars.map σ)[i]? = none := by rw [List.getElem?_map, hi]; rfl
          rw [h13, eq_comm, List.getElem?_eq_none_iff, ← hrl]
          exact List.getElem?_eq_none_iff.1 h13
        | some v =>
          cases hcv : eqs.lookup v with
          | some a => rw [List.getElem?_map, hi, Option.map_some, hσ v a hcv, h9 (i, a) (mem_constPositions.2 ⟨v, hi, hcv⟩)]
          | none =>
            by_cases hk : i ∈ jp.map (·.2)
            · obtain ⟨x, hx, rfl⟩ := List.mem_map.1 hk
              obtain ⟨w, hw, rfl⟩ := (hjmem x).1 hx
              have h14 := h7 _ hx
              rw [hg2 w hw] at hi
              obtain rfl := Option.some.inj hi
              rw [← h14, ← e1, List.getElem?_map, List.getElem?_map, hg1 w hw, hg2 w hw]
            · refine (keep_eq _ 0 hrl).1 h12 i ?_
              rw [Nat.zero_add, constPositions_isNone hi, hcv, Bool.and_eq_true, decide_eq_true_eq]
              exact ⟨rfl, hk⟩
      rw [e1, e2]
      exact ⟨h5, he ▸ h6⟩
    · rintro ⟨h5, h6⟩
      refine ⟨_, _, h5, he ▸ h6, fun x hx => ?_, fun x hx => ?_, fun x hx => ?_, rfl⟩
      · obtain ⟨v, hv, rfl⟩ := (hjmem x).1 hx
        rw [List.getElem?_map, List.getElem?_map, hg1 v hv, hg2 v hv]
      · obtain ⟨v, h8, h9⟩ := mem_constPositions.1 (show (x.1, x.2) ∈ _ from hx)
        rw [List.getElem?_map, h8, Option.map_some, hσ v _ h9]
      · obtain ⟨v, h8, h9⟩ := mem_constPositions.1 (show (x.1, x.2) ∈ _ from hx)
        rw [List.getElem?_map, h8, Option.map_some, hσ v _ h9]

/-- Conditions on the clauses of a rule -/
structure ClausesOK (W : Web α) (eqs : List (Variable × α)) (cs : List (QClause α)) : Prop where
  ok : ∀ c ∈ cs, ClauseOK (W c.endpoint) c
  endpoint : ∀ c ∈ cs, ∀ d ∈ cs, c.endpoint = d.endpoint
  header : ∀ c ∈ cs, ∀ d ∈ cs, c.query.header = d.query.header
  mergeable : cs.Pairwise fun c d => Mergeable eqs c.vars d.vars

/-- The result of merging the clauses `cs` -/
structure Merged (W : Web α) (u : α) (eqs : List (Variable × α)) (cs : List (QClause α)) (c : QClause α) : Prop where
  ok : ClauseOK (W c.endpoint) c
  endpoint : ∀ d ∈ cs, c.endpoint = d.endpoint
  header : ∀ d ∈ cs, c.query.header = d.query.header
  pred : ∃ d ∈ cs, c.pred = d.pred
  positive : ∃ d ∈ cs, c.positive = d.positive
  vars : ∀ v, v ∈ c.vars ↔ (∃ d ∈ cs, v ∈ d.vars) ∧ eqs.lookup v = none
  rows : ∀ σ : Variable → α, (∀ v a, eqs.lookup v = some a → σ v = a) → (Holds W u c σ ↔ ∀ d ∈ cs, Holds W u d σ)

theorem mergeFold_ok (cs : List (QClause α)) {c : QClause α} {done : List (QClause α)} (h : Merged W u eqs done c) (hcs : ClausesOK W eqs (done ++ cs)) :
    ∃ e, mergeFold order eqs c cs = some (some e) ∧ Merged W u eqs (done ++ cs) e := by
  induction cs generalizing c done with
  | nil => exact ⟨c, rfl, by rwa [List.append_nil]⟩
  | cons d ds ih =>
    have hd : d ∈ done ++ d :: ds := List.mem_append_right _ List.mem_cons_self
    obtain ⟨x, hx, -⟩ := h.pred
    have hx' : x ∈ done ++ d :: ds := List.mem_append_left _ hx
    have hm : Mergeable eqs c.vars d.vars := by
      intro v hv hv'
      obtain ⟨⟨y, hy, hvy⟩, -⟩ := (h.vars v).1 hv
      exact (List.pairwise_append.1 hcs.mergeable).2.2 y hy d List.mem_cons_self v hvy hv'
    obtain ⟨e, h1, h2, h3, h4, h5, h6, h7, h8⟩ := merge_clause (u := u) ho h.ok (hcs.ok d hd) ((h.endpoint x hx).trans (hcs.endpoint x hx' d hd))
      ((h.header x hx).trans (hcs.header x hx' d hd)) hm
    have hM : Merged W u eqs (done ++ [d]) e := by
      refine ⟨h2, fun y hy => ?_, fun y hy => ?_, ?_, ?_, fun v => ?_, fun σ hσ => ?_⟩
      · rw [h3, h.endpoint x hx]
        refine hcs.endpoint x hx' y ?_
        simp only [List.mem_append, List.mem_cons, List.not_mem_nil, or_false] at hy ⊢
        tauto
      · rw [h6, h.header x hx]
        refine hcs.header x hx' y ?_
        simp only [List.mem_append, List.mem_cons, List.not_mem_nil, or_false] at hy ⊢
        tauto
      · obtain ⟨y, hy, h9⟩ := h.pred
        exact ⟨y, List.mem_append_left _ hy, by rw [h4, h9]⟩
      · obtain ⟨y, hy, h9⟩ := h.positive
        exact ⟨y, List.mem_append_left _ hy, by rw [h5, h9]⟩
      · rw [h7, h.vars]
        constructor
        · rintro ⟨⟨⟨y, hy, hv⟩, -⟩ | hv, h⟩
          · exact ⟨⟨y, List.mem_append_left _ hy, hv⟩, h⟩
          · exact ⟨⟨d, List.mem_append_right _ List.mem_cons_self, hv⟩, h⟩
        · rintro ⟨⟨y, hy, hv⟩, h⟩
          rcases List.mem_append.1 hy with hy | hy
          · exact ⟨.inl ⟨⟨y, hy, hv⟩, h⟩, h⟩
          · rw [List.mem_singleton.1 hy] at hv
            exact ⟨.inr hv, h⟩
      · rw [h8 σ hσ, h.rows σ hσ]
        simp only [List.mem_append, List.mem_singleton, or_imp, forall_and, forall_eq]
    obtain ⟨f, h9, h10⟩ := ih hM (by rwa [List.append_assoc])
    refine ⟨f, ?_, by rwa [List.append_assoc] at h10⟩
    rw [mergeFold, h1]
    exact h9

theorem mergeAndPush_ok {cs : List (QClause α)} (hne : cs ≠ []) (hcs : ClausesOK W eqs cs) :
    ∃ e, mergeAndPush order eqs cs = some (some e) ∧ Merged W u eqs cs e := by
  match cs, hne with
  | [c], _ =>
    obtain ⟨h1, h2, h3⟩ := push_clause (u := u) (eqs := eqs) ho (hcs.ok c List.mem_cons_self)
    refine ⟨_, rfl, h1, ?_, ?_, ⟨c, List.mem_cons_self, rfl⟩, ⟨c, List.mem_cons_self, rfl⟩, fun v => ?_, fun σ hσ => ?_⟩
    · simp [QClause.push]
    · simp [h2]
    · simp [QClause.push, openVars, and_comm]
    · simp [h3 σ hσ]
  | c :: d :: ds, _ =>
    have hm : Mergeable eqs c.vars d.vars := (List.pairwise_cons.1 hcs.mergeable).1 d List.mem_cons_self
    have hc : c ∈ c :: d :: ds := List.mem_cons_self
    have hd : d ∈ c :: d :: ds := List.mem_cons_of_mem _ List.mem_cons_self
    obtain ⟨e, h1, h2, h3, h4, h5, h6, h7, h8⟩ := merge_clause (u := u) ho (hcs.ok c hc) (hcs.ok d hd) (hcs.endpoint c hc d hd) (hcs.header c hc d hd) hm
    have hM : Merged W u eqs [c, d] e := by
      refine ⟨h2, fun y hy => ?_, fun y hy => ?_, ⟨c, List.mem_cons_self, h4⟩, ⟨c, List.mem_cons_self, h5⟩, fun v => ?_, fun σ hσ => ?_⟩
      · rw [h3]; exact hcs.endpoint c hc y (List.mem_append_left ds hy)
      · rw [h6]; exact hcs.header c hc y (List.mem_append_left ds hy)
      · rw [h7]; simp
      · rw [h8 σ hσ]; simp
    obtain ⟨f, h9, h10⟩ := mergeFold_ok ho ds hM hcs
    refine ⟨f, ?_, h10⟩
    rw [mergeAndPush, mergeFold, h1]
    · exact h9
    · simp

end clauses
end Verif.Sq
