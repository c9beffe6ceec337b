import Verif.ChaseStep

/-!
# Programs with existential rules satisfy their rules

When the engine stops, all rules are satisfied: rules without existential variables have no further consequences, and for each
match of the body of an existential rule there are values of the existential variables that make the head true.
-/

set_option linter.unusedSimpArgs false
set_option linter.unusedSectionVars false

namespace Verif
variable {α : Type} [DecidableEq α] [Dom α]

/-- The rule is satisfied in `I` for the matches of its body, where positive atoms are looked up in `P` and
negated ones in `N`. -/
def SatIn (r : NRule α) (P N I : Interp α) : Prop :=
  (r.isExistential = false → (Derives r P N).le I) ∧
  (r.isExistential = true → ∀ σ, BodyHolds r P N σ → HeadSat r I σ)

theorem SatIn.congr {r : NRule α}
    {P P' N N' I : Interp α} (hP : ∀ p ∈ r.predsPositive, ∀ row, P p row ↔ P' p row)
    (hN : ∀ p ∈ r.predsStrict, ∀ row, N p row ↔ N' p row) (h : SatIn r P N I) : SatIn r P' N' I := by
  refine ⟨fun he p row hd => h.1 he p row ((Derives.congr hP hN p row).2 hd), fun he σ hb => h.2 he σ ?_⟩
  exact (BodyHolds.congr hP (fun p hp => hN p (by simp [NRule.predsStrict, hp])) σ).2 hb

theorem SatIn.mono {r : NRule α} {P N I J : Interp α} (hIJ : I.le J) (h : SatIn r P N I) : SatIn r P N J :=
  ⟨fun he p row hd => hIJ _ _ (h.1 he p row hd), fun he σ hb => (h.2 he σ hb).mono hIJ⟩

/-- the invariant while a group of rules is processed -/
structure XGInv (rules : List (NRule α)) (cfgs : List RuleCfg) (arity : Tag → Nat) (ph : List Nat) (st0 : Eng α)
    (N : Interp α) (st : Eng α) : Prop where
  ok : st.OK arity
  fresh : st.Fresh
  cur : st0.cur ≤ st.cur
  keep : ∀ p s row, s < st0.cur → (st.At p s row ↔ st0.At p s row)
  heads : ∀ p s row, st0.cur ≤ s → st.At p s row → IsHelper cfgs p ∨ ∃ i ∈ ph, ∃ r, rules[i]? = some r ∧ p ∈ r.predsHead
  complete : ∀ i ∈ ph, ∀ r, rules[i]? = some r → st.last i = 0 ∨ (st0.cur ≤ st.last i ∧
    SatIn r (Before st.At (st.last i)) N st.Facts)
  satSound : ∀ (i : Nat) r cfg, rules[i]? = some r → cfgs[i]? = some cfg → r.isExistential = true →
    ∀ σ, st.Facts cfg.sat ((r.fr cfg).map σ) → HeadSat r st.Facts σ
  others : ∀ i, i ∉ ph → st.last i = st0.last i

section group
variable {rules : List (NRule α)} {cfgs : List RuleCfg} {arity : Tag → Nat} {ph : List Nat} {st0 : Eng α}
  {N : Interp α}

theorem XProgOK.not_helper (hp : XProgOK rules cfgs arity) {r : NRule α} (hr : r ∈ rules) {p : Tag}
    (h : p ∈ r.predsHead ∨ p ∈ r.predsPositive ∨ p ∈ r.predsNegative) : ¬ IsHelper cfgs p := by
  rintro ⟨cfg, hc, rfl⟩
  obtain ⟨h1, h2, h3⟩ := hp.satFresh cfg hc r hr
  tauto

theorem mem_predsStrict {r : NRule α} {p : Tag} (h : p ∈ r.predsStrict) : p ∈ r.predsPositive ∨ p ∈ r.predsNegative := by
  unfold NRule.predsStrict at h
  rw [List.mem_append] at h
  rcases h with h | h
  · exact Or.inr h
  · split at h
    · exact Or.inl h
    · simp at h

theorem XProgOK.exAgg (hp : XProgOK rules cfgs arity) {i : Nat} {r : NRule α} (hr : rules[i]? = some r)
    (he : r.isExistential = true) : r.containsAggregates = false := by
  have hlt := (List.getElem?_eq_some_iff.1 hr).1
  have := (hp.ex i r _ hr (List.getElem?_eq_getElem (by rw [hp.len]; exact hlt)) he).agg
  rw [NRule.containsAggregates, this]; rfl

theorem XGInv.strict_step (hp : XProgOK rules cfgs arity) (hg : GroupOK rules ph) {st : Eng α}
    (h : XGInv rules cfgs arity ph st0 N st) {i : Nat}
    (hi : i ∈ ph) {r : NRule α} (hr : rules[i]? = some r) {p : Tag} (hps : p ∈ r.predsStrict) {s : Nat} {row : List α}
    (hat : st.At p s row) : s < st0.cur := by
  by_contra hge
  rcases h.heads p s row (by omega) hat with hh | ⟨j, hj, r', hr', hpr⟩
  · exact hp.not_helper (List.mem_of_getElem? hr) (Or.inr (mem_predsStrict hps)) hh
  · exact hg.strict j hj i hi r' r hr' hr p hpr hps

theorem XGInv.strict_facts (hp : XProgOK rules cfgs arity) (hg : GroupOK rules ph) (h0 : st0.OK arity) {st : Eng α}
    (h : XGInv rules cfgs arity ph st0 N st) {i : Nat} (hi : i ∈ ph) {r : NRule α} (hr : rules[i]? = some r) {p : Tag}
    (hps : p ∈ r.predsStrict) (row : List α) : st.Facts p row ↔ st0.Facts p row := by
  constructor
  · rintro ⟨s, hs⟩
    exact ⟨s, (h.keep p s row (h.strict_step hp hg hi hr hps hs)).1 hs⟩
  · rintro ⟨s, hs⟩
    obtain ⟨e, he, rfl, hrow⟩ := hs
    exact ⟨e.1, (h.keep p e.1 row (h0.steps p e he)).2 ⟨e, he, rfl, hrow⟩⟩

theorem XGInv.match_iff (hp : XProgOK rules cfgs arity) (hg : GroupOK rules ph) (h0 : st0.OK arity)
    (hN : ∀ i ∈ ph, ∀ r, rules[i]? = some r → ∀ p ∈ r.predsStrict, ∀ row, N p row ↔ st0.Facts p row)
    {st : Eng α} (h : XGInv rules cfgs arity ph st0 N st) {i : Nat} (hi : i ∈ ph) {r : NRule α} (hr : rules[i]? = some r)
    (σ : Variable → α) : NewMatch r st.At (st.last i) st.cur σ ↔
      BodyHolds r (if r.containsAggregates then N else st.Facts) N σ ∧ UsesNew r st.At (st.last i) st.cur σ := by
  unfold NewMatch
  refine and_congr_left fun _ => BodyHolds.congr ?_ ?_ σ
  · intro p hpp row
    rw [h.ok.before_iff]
    split
    · rename_i ha
      have hps : p ∈ r.predsStrict := by simp [NRule.predsStrict, ha, hpp]
      rw [h.strict_facts hp hg h0 hi hr hps, hN i hi r hr p hps]
    · rfl
  · intro p hpp row
    have hps : p ∈ r.predsStrict := by simp [NRule.predsStrict, hpp]
    rw [h.ok.before_iff, h.strict_facts hp hg h0 hi hr hps, hN i hi r hr p hps]

/-- The matches of a rule with aggregates: all of them in the first application, none later. -/
theorem XGInv.agg_match (hp : XProgOK rules cfgs arity) (hg : GroupOK rules ph) (h0 : st0.OK arity)
    (hN : ∀ i ∈ ph, ∀ r, rules[i]? = some r → ∀ p ∈ r.predsStrict, ∀ row, N p row ↔ st0.Facts p row)
    {st : Eng α} (h : XGInv rules cfgs arity ph st0 N st) {i : Nat} (hi : i ∈ ph) {r : NRule α} (hr : rules[i]? = some r)
    (ha : r.containsAggregates = true) :
    (∀ σ, NewMatch r st.At (st.last i) st.cur σ ↔ BodyHolds r N N σ) ∨
    (st.last i ≠ 0 ∧ ∀ σ, ¬ NewMatch r st.At (st.last i) st.cur σ) := by
  have hm := h.match_iff hp hg h0 hN hi hr
  simp only [ha, if_true] at hm
  by_cases hn : r.positive = []
  · left; intro σ; rw [hm]; exact ⟨fun h => h.1, fun h => ⟨h, Or.inl hn⟩⟩
  rcases h.complete i hi r hr with hl | ⟨hl, -⟩
  · left; intro σ; rw [hm, hl]
    refine ⟨fun h => h.1, fun hb => ⟨hb, usesNew_zero ?_ hb⟩⟩
    intro p hpp row hrow
    have hps : p ∈ r.predsStrict := by simp [NRule.predsStrict, ha, hpp]
    rw [hN i hi r hr p hps, ← h.strict_facts hp hg h0 hi hr hps, ← h.ok.before_iff] at hrow
    exact hrow
  · right
    refine ⟨by have := h0.pos; omega, fun σ => ?_⟩
    rw [hm]
    rintro ⟨-, hu | ⟨a, ha', s, h1, h2, h3⟩⟩
    · exact hn hu
    · have hps : a.pred ∈ r.predsStrict := by
        simp only [NRule.predsStrict, ha, if_true, List.mem_append]
        exact Or.inr (List.mem_map.2 ⟨a, ha', rfl⟩)
      have := h.strict_step hp hg hi hr hps h3
      omega

/-- A match that does not use a new fact has been considered before. -/
theorem old_match {r : NRule α} {st : Eng α} (ho : st.OK arity) {N : Interp α} {l : Nat} {σ : Variable → α}
    (hb : BodyHolds r st.Facts N σ) (hu : ¬ UsesNew r st.At l st.cur σ) :
    r.positive ≠ [] ∧ BodyHolds r (Before st.At l) N σ := by
  unfold UsesNew at hu
  push Not at hu
  obtain ⟨hne, hu⟩ := hu
  refine ⟨hne, fun a ha'' => ?_, hb.ops, hb.neg⟩
  obtain ⟨s, hs⟩ := hb.pos a ha''
  have hsc : s < st.cur := by
    obtain ⟨e, he, rfl, _⟩ := hs; exact ho.steps _ e he
  refine ⟨s, ?_, hs⟩
  by_contra hge
  exact hu a ha'' ⟨s, by omega, hsc, hs⟩

variable [NullDom α]

/-- After the application of an existential rule, the head is satisfied for the frontier values that were given nulls. -/
theorem headSat_unsat {st : Eng α} (ho : st.OK arity) {i : Nat} {r : NRule α} {cfg : RuleCfg} (hx : ExOK r cfg arity)
    {U : List (List α)} (hU : ∀ x, x ∈ U ↔ Unsat r cfg st.At (st.last i) st.cur x) {I : Interp α}
    (hI : st.Facts.le I) (hA : ∀ p row, ExAdded r cfg st.At (st.last i) st.cur st.nextNull U p row → I p row)
    {σ : Variable → α} (hσ : (r.fr cfg).map σ ∈ U) : HeadSat r I σ := by
  rw [hx.headSat_iff]
  obtain ⟨k, hk⟩ := List.getElem?_of_mem hσ
  obtain ⟨⟨σ', h1, h2⟩, -⟩ := (hU _).1 hσ
  let τ : Variable → α := fun v =>
    if v ∈ r.exVars then Dom.null (st.nextNull + k * r.exVars.length + r.exVars.idxOf v) else σ' v
  have hfr : ∀ v ∈ r.fr cfg, τ v = σ' v := by
    intro v hv
    refine if_neg fun hm => ?_
    have h3 := ((hx.mem_fr v).1 hv).2
    rw [((r.mem_exVars v).1 hm).2] at h3; cases h3
  have hmap : (r.fr cfg).map τ = (r.fr cfg).map σ := by rw [List.map_congr_left hfr, h2]
  have hnv : NullVal r cfg st.nextNull U k τ := by
    refine ⟨by rw [hmap]; exact hk, fun j v hv => ?_⟩
    have hm := List.mem_of_getElem? hv
    have : r.exVars.idxOf v = j := by
      have hj := (List.getElem?_eq_some_iff.1 hv)
      obtain ⟨hj1, hj2⟩ := hj
      rw [← hj2]
      exact (List.nodup_dedup _).idxOf_getElem j hj1
    show (if v ∈ r.exVars then _ else _) = _
    rw [if_pos hm, this]
  refine ⟨τ, hmap, fun hd hm => ?_⟩
  by_cases he : hd.varsExistential = []
  · have hag : hd.inst τ = hd.inst σ' := by
      apply HeadAtom.inst_congr
      intro v hv
      apply hfr
      refine (hx.mem_fr v).2 ⟨List.mem_flatMap.2 ⟨hd, hm, hv⟩, ?_⟩
      unfold HeadAtom.varsExistential at he
      rw [List.filter_eq_nil_iff] at he
      simpa using he v hv
    rw [hag]
    by_cases hb : Before st.At st.cur hd.pred (hd.inst σ')
    · exact hI _ _ ((ho.before_iff _ _).1 hb)
    · exact hA _ _ (.plain hm he h1 hb)
  · exact hA _ _ (.null hm he hnv)

/-- The invariant is kept by the application of a rule of the group. -/
theorem XGInv.step (hp : XProgOK rules cfgs arity) (hg : GroupOK rules ph) (h0 : st0.OK arity)
    (hN : ∀ i ∈ ph, ∀ r, rules[i]? = some r → ∀ p ∈ r.predsStrict, ∀ row, N p row ↔ st0.Facts p row)
    {st st' : Eng α} (h : XGInv rules cfgs arity ph st0 N st) {i : Nat} (hi : i ∈ ph) {d : Bool}
    (hit : st.iterate rules cfgs i = some (st', d)) :
    XGInv rules cfgs arity ph st0 N st' ∧ st'.cur = st.cur + 1 ∧ st'.last i = st.cur ∧
    (∀ j, j ≠ i → st'.last j = st.last j) ∧ (d = false → ∀ p s row, st'.At p s row ↔ st.At p s row) ∧
    st.Facts.le st'.Facts := by
  have hlt := hg.bound i hi
  obtain ⟨r, cfg, st'', d', A, n, hr, hc, e1, e2, e2', e3, e4, hstep, e7, e8, e5, e6, e9, e10⟩ :=
    Eng.iterate_x hp h.ok h.fresh hlt
  rw [hit] at e1
  simp only [Option.some.injEq, Prod.mk.injEq] at e1
  obtain ⟨rfl, rfl⟩ := e1
  have hmem := List.mem_of_getElem? hr
  have hsub : st.Facts.le st'.Facts := by
    rintro p row ⟨s, hs⟩; exact ⟨s, (e5 p s row).2 (Or.inl hs)⟩
  have hfacts : ∀ p row, st'.Facts p row ↔ st.Facts p row ∨ A p row := by
    intro p row
    constructor
    · rintro ⟨s, hs⟩
      rcases (e5 p s row).1 hs with h1 | ⟨-, h1⟩
      · exact Or.inl ⟨s, h1⟩
      · exact Or.inr h1
    · rintro (h1 | h1)
      · exact hsub _ _ h1
      · exact ⟨st.cur, (e5 p _ row).2 (Or.inr ⟨rfl, h1⟩)⟩
  have hold : ∀ p s row, s < st.cur → (st'.At p s row ↔ st.At p s row) := by
    intro p s row hs
    rw [e5]
    exact ⟨fun h => h.resolve_right fun h' => by omega, Or.inl⟩
  have hbef : ∀ n, n ≤ st.cur → ∀ p row, Before st'.At n p row ↔ Before st.At n p row := by
    intro n hn p row
    refine exists_congr fun s => and_congr_right fun hs => hold p s row (by omega)
  have hm := h.match_iff hp hg h0 hN hi hr
  -- the rule itself
  have hself : SatIn r st.Facts N st'.Facts := by
    cases hstep with
    | datalog hex =>
      refine ⟨fun _ p row hd' => ?_, fun he => by rw [hex] at he; cases he⟩
      rw [hfacts]
      by_cases hfact : st.Facts p row
      · exact Or.inl hfact
      right
      refine ⟨?_, hfact⟩
      unfold Derives at hd'
      by_cases ha : r.containsAggregates
      · simp only [ha, if_true] at hd'
        rcases h.agg_match hp hg h0 hN hi hr ha with hall | ⟨hl, -⟩
        · exact (DerivesWith.congr hall p row).2 hd'
        · rcases h.complete i hi r hr with hl' | ⟨-, hc⟩
          · exact absurd hl' hl
          · refine absurd (hc.1 hex p row ?_) hfact
            unfold Derives; simp only [ha, if_true]; exact hd'
      · simp only [ha] at hd'
        have ha' : r.containsAggregates = false := by simpa using ha
        cases hd' with
        | agg _ h2 _ => rw [NRule.containsAggregates, h2] at ha'; simp at ha'
        | @plain σ hd k hb hk hna =>
          simp only [Bool.false_eq_true, if_false] at hb
          by_cases hu : UsesNew r st.At (st.last i) st.cur σ
          · refine .plain ((hm σ).2 ⟨?_, hu⟩) hk hna
            simp only [ha', Bool.false_eq_true, if_false]; exact hb
          · exfalso
            obtain ⟨hne, hold'⟩ := old_match h.ok hb hu
            rcases h.complete i hi r hr with hl' | ⟨-, hc⟩
            · rw [hl'] at hold'
              obtain ⟨a, ha''⟩ := List.exists_mem_of_ne_nil _ hne
              obtain ⟨s, hs, -⟩ := hold'.pos a ha''
              omega
            · apply hfact
              apply hc.1 hex
              unfold Derives
              simp only [ha', Bool.false_eq_true, if_false]
              exact .plain hold' hk hna
    | @ex U hex u1 u2 =>
      refine ⟨fun he => absurd he (by simp [hex]), fun _ σ hb => ?_⟩
      have hx := hp.ex i r cfg hr hc hex
      have hca := hp.exAgg hr hex
      simp only [hca, Bool.false_eq_true, if_false] at hm
      by_cases hu : UsesNew r st.At (st.last i) st.cur σ
      · have hnm := (hm σ).2 ⟨hb, hu⟩
        by_cases hs : Before st.At st.cur cfg.sat ((r.fr cfg).map σ)
        · exact (h.satSound i r cfg hr hc hex σ ((h.ok.before_iff _ _).1 hs)).mono hsub
        by_cases hns : NewSat r cfg st.At (st.last i) st.cur ((r.fr cfg).map σ)
        · obtain ⟨τ, t1, t2, -⟩ := hns
          rw [hx.headSat_iff]
          exact ⟨τ, t1, fun hd hmd => hsub _ _ ((h.ok.before_iff _ _).1 (t2 hd hmd))⟩
        · refine headSat_unsat h.ok hx u2 hsub (fun p row ha => (hfacts p row).2 (Or.inr ha)) ?_
          exact (u2 _).2 ⟨⟨σ, hnm, rfl⟩, hs, hns⟩
      · obtain ⟨hne, hold'⟩ := old_match h.ok hb hu
        rcases h.complete i hi r hr with hl' | ⟨-, hcm⟩
        · rw [hl'] at hold'
          obtain ⟨a, ha''⟩ := List.exists_mem_of_ne_nil _ hne
          obtain ⟨s, hs, -⟩ := hold'.pos a ha''
          omega
        · exact (hcm.2 hex σ hold').mono hsub
  refine ⟨⟨e2, e2', by have := h.cur; omega, ?_, ?_, ?_, ?_, ?_⟩, e3, by rw [e4, if_pos rfl],
    fun j hj => by rw [e4, if_neg hj], ?_, hsub⟩
  · intro p s row hs
    rw [hold p s row (lt_of_lt_of_le hs h.cur), h.keep p s row hs]
  · intro p s row hs hat
    rcases (e5 p s row).1 hat with h1 | ⟨-, h1⟩
    · exact h.heads p s row hs h1
    · rcases e10 p row h1 with h2 | h2
      · exact Or.inr ⟨i, hi, r, hr, h2⟩
      · exact Or.inl ⟨cfg, List.mem_of_getElem? hc, h2⟩
  · intro j hj r' hr'
    rw [e4]
    by_cases hji : j = i
    · subst hji
      rw [hr] at hr'; cases hr'
      right
      rw [if_pos rfl]
      refine ⟨h.cur, hself.congr (fun q _ row' => ?_) (fun _ _ _ => Iff.rfl)⟩
      rw [hbef _ le_rfl, h.ok.before_iff]
    · rw [if_neg hji]
      rcases h.complete j hj r' hr' with hl | ⟨hl, hc⟩
      · exact Or.inl hl
      · exact Or.inr ⟨hl, (hc.mono hsub).congr
          (fun q _ row' => (hbef _ (h.ok.last j).le q row').symm) (fun _ _ _ => Iff.rfl)⟩
  · intro j r' cfg' hr' hc' hex' σ hs
    rcases (hfacts _ _).1 hs with h1 | h1
    · exact (h.satSound j r' cfg' hr' hc' hex' σ h1).mono hsub
    · -- the row was added by the rule itself
      have hij : j = i := by
        rcases e10 _ _ h1 with h2 | h2
        · exact absurd h2 (hp.satFresh cfg' (List.mem_of_getElem? hc') r hmem).1
        · exact hp.satInj j i cfg' cfg hc' hc h2
      subst hij
      rw [hr] at hr'; cases hr'
      rw [hc] at hc'; cases hc'
      have hx := hp.ex j r cfg hr hc hex'
      cases hstep with
      | datalog hex => rw [hex] at hex'; cases hex'
      | @ex U hex u1 u2 =>
        have hall : ∀ p row, ExAdded r cfg st.At (st.last j) st.cur st.nextNull U p row → st'.Facts p row :=
          fun p row ha => (hfacts p row).2 (Or.inr ha)
        generalize hrow : (r.fr cfg).map σ = x at h1
        generalize hpp : cfg.sat = p at h1
        cases h1 with
        | @plain hd σ' g1 g2 g3 g4 =>
          exact absurd (List.mem_map.2 ⟨hd, g1, hpp.symm⟩) (hp.satFresh cfg (List.mem_of_getElem? hc) r hmem).1
        | @null hd k τ g1 g2 g3 =>
          exact absurd (List.mem_map.2 ⟨hd, g1, hpp.symm⟩) (hp.satFresh cfg (List.mem_of_getElem? hc) r hmem).1
        | unsat g1 => exact headSat_unsat h.ok hx u2 hsub hall (by rw [hrow]; exact g1)
        | newSat g1 g2 g3 =>
          obtain ⟨τ, t1, t2, -⟩ := g2
          rw [hx.headSat_iff]
          exact ⟨τ, t1.trans hrow.symm, fun hd hmd => hsub _ _ ((h.ok.before_iff _ _).1 (t2 hd hmd))⟩
  · intro j hj
    rw [e4, if_neg (by rintro rfl; exact hj hi)]
    exact h.others j hj
  · rintro rfl p s row
    rw [e5]
    constructor
    · rintro (h1 | ⟨-, h1⟩)
      · exact h1
      · exact absurd (e6.2 ⟨p, row, h1⟩) (by simp)
    · exact Or.inl

theorem XGInv.exec (hp : XProgOK rules cfgs arity) (hg : GroupOK rules ph) (h0 : st0.OK arity)
    (hN : ∀ i ∈ ph, ∀ r, rules[i]? = some r → ∀ p ∈ r.predsStrict, ∀ row, N p row ↔ st0.Facts p row)
    {st st' : Eng α} {tr : List (Nat × Bool)} (hex : Exec rules cfgs st tr st')
    (h : XGInv rules cfgs arity ph st0 N st) (hi : ∀ x ∈ tr, x.1 ∈ ph) : XGInv rules cfgs arity ph st0 N st' := by
  induction hex with
  | nil => exact h
  | cons h1 _ ih =>
    have := (h.step hp hg h0 hN (hi _ List.mem_cons_self) h1).1
    exact ih this fun x hx => hi x (List.mem_cons_of_mem _ hx)

/-- The last part of the processing of a group: nothing changes, and each applied rule has seen all facts. -/
theorem XGInv.quiet (hp : XProgOK rules cfgs arity) (hg : GroupOK rules ph) (h0 : st0.OK arity)
    (hN : ∀ i ∈ ph, ∀ r, rules[i]? = some r → ∀ p ∈ r.predsStrict, ∀ row, N p row ↔ st0.Facts p row)
    {st st' : Eng α} {tr : List (Nat × Bool)} (hex : Exec rules cfgs st tr st') (hq : ∀ x ∈ tr, x.2 = false)
    (h : XGInv rules cfgs arity ph st0 N st) (hi : ∀ x ∈ tr, x.1 ∈ ph) :
    (∀ p s row, st'.At p s row ↔ st.At p s row) ∧ (∀ i, st.last i ≤ st'.last i) ∧
    ∀ x ∈ tr, st.cur ≤ st'.last x.1 := by
  induction hex with
  | nil => exact ⟨fun _ _ _ => Iff.rfl, fun _ => le_rfl, by simp⟩
  | @cons st st1 st2 i d tr h1 h2 ih =>
    have hd : d = false := hq (i, d) List.mem_cons_self
    obtain ⟨g1, g2, g3, g4, g5, -⟩ := h.step hp hg h0 hN (hi _ List.mem_cons_self) h1
    obtain ⟨i1, i2, i3⟩ := ih (fun x hx => hq x (List.mem_cons_of_mem _ hx)) g1
      (fun x hx => hi x (List.mem_cons_of_mem _ hx))
    refine ⟨fun p s row => (i1 p s row).trans (g5 hd p s row), fun j => ?_, fun x hx => ?_⟩
    · refine le_trans ?_ (i2 j)
      by_cases hj : j = i
      · subst hj; rw [g3]; exact (h.ok.last j).le
      · rw [g4 j hj]
    · rcases List.mem_cons.1 hx with rfl | hx
      · have := i2 i; rw [g3] at this; exact this
      · have := i3 x hx; omega

/-- The helper tables are sound in a state. -/
def SatSound (rules : List (NRule α)) (cfgs : List RuleCfg) (st : Eng α) : Prop :=
  ∀ (i : Nat) r cfg, rules[i]? = some r → cfgs[i]? = some cfg → r.isExistential = true →
    ∀ σ, st.Facts cfg.sat ((r.fr cfg).map σ) → HeadSat r st.Facts σ

/-- **After a group has been processed, its rules are satisfied.** -/
theorem xgroup_spec (hp : XProgOK rules cfgs arity) (hg : GroupOK rules ph) (h0 : st0.OK arity) (hf : st0.Fresh)
    (hs0 : SatSound rules cfgs st0)
    (hN : ∀ i ∈ ph, ∀ r, rules[i]? = some r → ∀ p ∈ r.predsStrict, ∀ row, N p row ↔ st0.Facts p row)
    (hlast : ∀ i ∈ ph, st0.last i = 0) {tr : List (Nat × Bool)} (ht : PhaseTrace ph tr) {st : Eng α}
    (hex : Exec rules cfgs st0 tr st) :
    XGInv rules cfgs arity ph st0 N st ∧ ∀ i ∈ ph, ∀ r, rules[i]? = some r → SatIn r st.Facts N st.Facts := by
  have hinit : XGInv rules cfgs arity ph st0 N st0 := by
    refine ⟨h0, hf, le_rfl, fun _ _ _ _ => Iff.rfl, ?_, fun i hi r _ => Or.inl (hlast i hi), hs0, fun _ _ => rfl⟩
    rintro p s row hs ⟨e, he, rfl, _⟩
    have := h0.steps p e he; omega
  obtain ⟨hmem, pre, suf, rfl, hq, hcov⟩ := ht
  obtain ⟨st1, x1, x2⟩ := hex.append_inv
  have g1 := hinit.exec hp hg h0 hN x1 fun x hx => hmem x (List.mem_append_left _ hx)
  have g2 := g1.exec hp hg h0 hN x2 fun x hx => hmem x (List.mem_append_right _ hx)
  obtain ⟨q1, q2, q3⟩ := g1.quiet hp hg h0 hN x2 hq fun x hx => hmem x (List.mem_append_right _ hx)
  refine ⟨g2, ?_⟩
  intro i hi r hr
  obtain ⟨x, hx, rfl⟩ := hcov i hi
  have hl := q3 x hx
  rcases g2.complete x.1 hi r hr with hz | ⟨-, hc⟩
  · have := g1.ok.pos; omega
  · refine hc.congr (fun q _ row' => ?_) (fun _ _ _ => Iff.rfl)
    constructor
    · rintro ⟨s, -, hs⟩; exact ⟨s, hs⟩
    · rintro ⟨s, hs⟩
      refine ⟨s, ?_, hs⟩
      obtain ⟨e, he, rfl, _⟩ := (q1 q s row').1 hs
      have := g1.ok.steps q e he
      omega

end group

section phases
variable [NullDom α]

theorem xphases_spec {rules : List (NRule α)} {cfgs : List RuleCfg} {arity : Tag → Nat} (hp : XProgOK rules cfgs arity)
    {phases : List (List Nat)} (hph : PhasesOK rules phases) {tr : List (Nat × Bool)} (ht : PhasedTrace phases tr)
    {st0 st : Eng α} (h0 : st0.OK arity) (hf : st0.Fresh) (hs0 : SatSound rules cfgs st0)
    (hlast : ∀ ph ∈ phases, ∀ i ∈ ph, st0.last i = 0) (hex : Exec rules cfgs st0 tr st) :
    st.OK arity ∧ st.Fresh ∧ SatSound rules cfgs st ∧ st0.Facts.le st.Facts ∧
    (∀ p row, st.Facts p row → st0.Facts p row ∨ IsHelper cfgs p ∨
      ∃ ph ∈ phases, ∃ i ∈ ph, ∃ r, rules[i]? = some r ∧ p ∈ r.predsHead) ∧
    (∀ ph ∈ phases, ∀ i ∈ ph, ∀ r, rules[i]? = some r → SatIn r st.Facts st.Facts st.Facts) := by
  obtain ⟨trs, hft, rfl⟩ := ht
  induction hft generalizing st0 with
  | nil =>
    cases hex
    exact ⟨h0, hf, hs0, fun _ _ h => h, fun p row h => Or.inl h, by simp⟩
  | @cons ph t phases trs hpt hrest ih =>
    rw [List.flatten_cons] at hex
    obtain ⟨st1, x1, x2⟩ := hex.append_inv
    have hg := hph.group ph List.mem_cons_self
    have hdis := List.pairwise_cons.1 hph.disjoint
    have hlat := List.pairwise_cons.1 hph.later
    obtain ⟨g1, g2⟩ := xgroup_spec (N := st0.Facts) hp hg h0 hf hs0 (fun _ _ _ _ _ _ _ => Iff.rfl)
      (hlast ph List.mem_cons_self) hpt x1
    have hph' : PhasesOK rules phases := ⟨fun ph hm => hph.group ph (List.mem_cons_of_mem _ hm), hdis.2, hlat.2⟩
    obtain ⟨i1, i1', i1'', i2, i3, i4⟩ := ih hph' g1.ok g1.fresh g1.satSound (by
      intro ph' hm i hi
      rw [g1.others i fun hi' => hdis.1 ph' hm i hi' hi]
      exact hlast ph' (List.mem_cons_of_mem _ hm) i hi) x2
    have hle0 : st0.Facts.le st1.Facts := by
      rintro p row ⟨s, hs⟩
      obtain ⟨e, he, rfl, hrow⟩ := hs
      exact ⟨e.1, (g1.keep p e.1 row (h0.steps p e he)).2 ⟨e, he, rfl, hrow⟩⟩
    have hstable : ∀ i ∈ ph, ∀ r, rules[i]? = some r → ∀ p, p ∈ r.predsPositive ∨ p ∈ r.predsNegative →
        ∀ row, st.Facts p row ↔ st1.Facts p row := by
      intro i hi r hr p hpp row
      refine ⟨fun hf => ?_, fun hf => i2 p row hf⟩
      rcases i3 p row hf with h1 | h1 | ⟨ph', hm, j, hj, r', hr', hpr⟩
      · exact h1
      · exact absurd h1 (hp.not_helper (List.mem_of_getElem? hr) (Or.inr hpp))
      · obtain ⟨n1, n2⟩ := hlat.1 ph' hm i hi j hj r r' hr hr' p hpr
        exact absurd hpp (by tauto)
    have hstrict : ∀ i ∈ ph, ∀ r, rules[i]? = some r → ∀ p ∈ r.predsStrict, ∀ row,
        st.Facts p row ↔ st0.Facts p row := by
      intro i hi r hr p hps row
      rw [hstable i hi r hr p (mem_predsStrict hps) row, g1.strict_facts hp hg h0 hi hr hps]
    refine ⟨i1, i1', i1'', fun p row h => i2 p row (hle0 p row h), ?_, ?_⟩
    · intro p row hf
      rcases i3 p row hf with ⟨s, hs⟩ | h1 | ⟨ph', hm, h1⟩
      · by_cases hsc : s < st0.cur
        · exact Or.inl ⟨s, (g1.keep p s row hsc).1 hs⟩
        · rcases g1.heads p s row (by omega) hs with h2 | h2
          · exact Or.inr (Or.inl h2)
          · exact Or.inr (Or.inr ⟨ph, List.mem_cons_self, h2⟩)
      · exact Or.inr (Or.inl h1)
      · exact Or.inr (Or.inr ⟨ph', List.mem_cons_of_mem _ hm, h1⟩)
    · intro ph' hm i hi r hr
      rcases List.mem_cons.1 hm with rfl | hm
      · refine ((g2 i hi r hr).mono i2).congr
          (fun q hq row' => (hstable i hi r hr q (Or.inl hq) row').symm)
          (fun q hq row' => (hstrict i hi r hr q hq row').symm)
      · exact i4 ph' hm i hi r hr

/-- The input contains no nulls and no facts for helper predicates. -/
structure XEdbOK (edb : List (Tag × List (List α))) (cfgs : List RuleCfg) (arity : Tag → Nat) : Prop where
  ok : EdbOK edb arity
  nulls : ∀ p row, edbFacts edb p row → ∀ a ∈ row, ∀ n, a ≠ Dom.null n
  helpers : ∀ p row, edbFacts edb p row → ¬ IsHelper cfgs p

theorem addEdbs_nextNull (edb : List (Tag × List (List α))) (st : Eng α) :
    (edb.foldl (fun st x => st.addEdb x.1 x.2) st).nextNull = st.nextNull := by
  induction edb generalizing st with
  | nil => rfl
  | cons x edb ih => rw [List.foldl_cons, ih]; rfl

variable {cond : Nat → List (Nat × Nat) → List (List Nat)} {rules : List (NRule α)} {cfgs : List RuleCfg}
  {arity : Tag → Nat} {edb : List (Tag × List (List α))} {outs : List Tag} {fuel : Nat} {st : Eng α}

/-- The state in which the rules are applied: the input has been loaded, and the tables of the output predicates combined. -/
theorem start_spec (he : XEdbOK edb cfgs arity) :
    (outs.foldl Eng.combinePredicate (Eng.init edb)).OK arity ∧
    (outs.foldl Eng.combinePredicate (Eng.init edb)).Fresh ∧
    SatSound rules cfgs (outs.foldl Eng.combinePredicate (Eng.init edb)) ∧
    (∀ i, (outs.foldl Eng.combinePredicate (Eng.init edb)).last i = 0) ∧
    (outs.foldl Eng.combinePredicate (Eng.init edb)).Facts = edbFacts edb := by
  obtain ⟨i1, i2, i3⟩ := Eng.init_spec (arity := arity) edb he.ok.preds he.ok.rows
  obtain ⟨c1, c2, c3⟩ := Eng.combinePredicates_spec outs i1
  have hf : (outs.foldl Eng.combinePredicate (Eng.init edb)).Facts = edbFacts edb := by
    funext p row
    apply propext
    rw [edbFacts, ← i2]
    exact exists_congr fun s => c2 p s row
  refine ⟨c1, ?_, ?_, by rw [c3]; exact i3, hf⟩
  · intro p row hrow a ha n hn
    rw [hf] at hrow
    exact absurd hn (he.nulls p row hrow a ha n)
  · intro i r cfg hr hc hex σ hs
    rw [hf] at hs
    exact absurd ⟨cfg, List.mem_of_getElem? hc, rfl⟩ (he.helpers _ _ hs)

/-- **C25: when the engine stops, all rules are satisfied.** -/
theorem execute_model (hcond : CondOK cond) (hp : XProgOK rules cfgs arity) (he : XEdbOK edb cfgs arity)
    (h : Eng.execute cond rules cfgs outs fuel (Eng.init edb) = some (some st)) :
    (edbFacts edb).le st.answers ∧
    (∀ r ∈ rules, r.isExistential = false → (Derives r st.answers st.answers).le st.answers) ∧
    (∀ r ∈ rules, r.isExistential = true → ∀ σ, BodyHolds r st.answers st.answers σ →
      ∃ τ : Variable → α, (∀ v, v.isExistential = false → τ v = σ v) ∧ ∀ hd ∈ r.head, hd.inst τ ∈ st.predicateRows hd.pred) := by
  unfold Eng.execute at h
  rw [Option.map_eq_some_iff] at h
  obtain ⟨strata, hs, h⟩ := h
  obtain ⟨tr, h1, h2⟩ := execLoop_exec h
  have h3 := stratified_trace h1
  obtain ⟨p1, p2⟩ := phases_ok cond hcond rules hs
  obtain ⟨s1, s2, s3, s4, s5⟩ := start_spec (outs := outs) (rules := rules) he
  obtain ⟨r1, -, -, r4, -, r6⟩ := xphases_spec hp p1 h3 s1 s2 s3 (fun _ _ i _ => s4 i) h2
  rw [answers_eq r1]
  have hall : ∀ r ∈ rules, SatIn r st.Facts st.Facts st.Facts := by
    intro r hr
    obtain ⟨i, hi⟩ := List.getElem?_of_mem hr
    obtain ⟨ph, hm, him⟩ := p2 i (List.getElem?_eq_some_iff.1 hi).1
    exact r6 ph hm i him r hi
  refine ⟨by rw [← s5]; exact r4, fun r hr => (hall r hr).1, fun r hr hex σ hb => ?_⟩
  obtain ⟨τ, t1, t2⟩ := (hall r hr).2 hex σ hb
  refine ⟨τ, t1, fun hd hm => ?_⟩
  have := t2 hd hm
  rw [← answers_eq r1] at this
  exact this

end phases
end Verif
