import Verif.Strategies

/-!
# Evaluation of a program, group by group

If the rules are processed in groups such that no group uses predicates derived by later groups, and
negated or aggregated predicates are only derived by earlier groups, then the engine computes a stable
model, which is contained in every set of facts closed under the rules.
-/

set_option linter.unusedSimpArgs false
set_option linter.unusedSectionVars false

namespace Verif
variable {α : Type} [DecidableEq α] [Dom α]

/-! ## The loop of the engine -/

/-- A sequence of rule applications by the engine with the answers whether there were new derivations. -/
inductive Exec (rules : List (NRule α)) (cfgs : List RuleCfg) : Eng α → List (Nat × Bool) → Eng α → Prop
  | nil {st : Eng α} : Exec rules cfgs st [] st
  | cons {st st1 st2 : Eng α} {i : Nat} {d : Bool} {tr : List (Nat × Bool)} :
      st.iterate rules cfgs i = some (st1, d) → Exec rules cfgs st1 tr st2 → Exec rules cfgs st ((i, d) :: tr) st2

/-- The loop of `execute` (execution_engine.rs:334-339) with a bound on the number of iterations; `none` if
the bound is reached or a rule does not exist. -/
def execLoop {S : Type} (next : S → Option Bool → Option Nat × S) (rules : List (NRule α)) (cfgs : List RuleCfg) :
    Nat → S → Option Bool → Eng α → Option (Eng α)
  | 0, _, _, _ => none
  | fuel + 1, s, nd, st =>
    match next s nd with
    | (none, _) => some st
    | (some i, s') => (st.iterate rules cfgs i).bind fun x => execLoop next rules cfgs fuel s' (some x.2) x.1

theorem execLoop_exec {S : Type} {next : S → Option Bool → Option Nat × S} {rules : List (NRule α)}
    {cfgs : List RuleCfg} {fuel : Nat} {s : S} {nd : Option Bool} {st st' : Eng α}
    (h : execLoop next rules cfgs fuel s nd st = some st') :
    ∃ tr, STrace next s nd tr ∧ Exec rules cfgs st tr st' := by
  induction fuel generalizing s nd st with
  | zero => simp [execLoop] at h
  | succ fuel ih =>
    rw [execLoop] at h
    split at h
    · rename_i s' hn
      cases h
      exact ⟨[], .stop (by rw [hn]), .nil⟩
    · rename_i i s' hn
      rw [Option.bind_eq_some_iff] at h
      obtain ⟨⟨st1, d⟩, h1, h2⟩ := h
      obtain ⟨tr, h3, h4⟩ := ih h2
      exact ⟨(i, d) :: tr, .step hn h3, .cons h1 h4⟩

theorem Exec.append_inv {rules : List (NRule α)} {cfgs : List RuleCfg} {st st' : Eng α} {t1 t2 : List (Nat × Bool)}
    (h : Exec rules cfgs st (t1 ++ t2) st') : ∃ st1, Exec rules cfgs st t1 st1 ∧ Exec rules cfgs st1 t2 st' := by
  induction t1 generalizing st with
  | nil => exact ⟨st, .nil, h⟩
  | cons x t1 ih =>
    cases h with
    | cons h1 h2 =>
      obtain ⟨st1, h3, h4⟩ := ih h2
      exact ⟨st1, .cons h1 h3, h4⟩

/-! ## Dependence on facts -/

theorem BodyHolds.congr {r : NRule α} {P P' N N' : Interp α} (hP : ∀ p ∈ r.predsPositive, ∀ row, P p row ↔ P' p row)
    (hN : ∀ p ∈ r.predsNegative, ∀ row, N p row ↔ N' p row) (σ : Variable → α) :
    BodyHolds r P N σ ↔ BodyHolds r P' N' σ := by
  have pp : ∀ a ∈ r.positive, ∀ row, P a.pred row ↔ P' a.pred row := fun a ha =>
    hP _ (List.mem_map.2 ⟨a, ha, rfl⟩)
  have nn : ∀ a ∈ r.negative, ∀ row, N a.pred row ↔ N' a.pred row := fun a ha =>
    hN _ (List.mem_map.2 ⟨a, ha, rfl⟩)
  constructor
  · rintro ⟨h1, h2, h3⟩
    refine ⟨fun a ha => (pp a ha _).1 (h1 a ha), h2, fun a ha ⟨τ, t1, t2, t3⟩ => h3 a ha ⟨τ, t1, (nn a ha _).2 t2, t3⟩⟩
  · rintro ⟨h1, h2, h3⟩
    refine ⟨fun a ha => (pp a ha _).2 (h1 a ha), h2, fun a ha ⟨τ, t1, t2, t3⟩ => h3 a ha ⟨τ, t1, (nn a ha _).1 t2, t3⟩⟩

theorem BodyHolds.mono {r : NRule α} {P P' N : Interp α} (hP : P.le P') {σ : Variable → α} (h : BodyHolds r P N σ) :
    BodyHolds r P' N σ :=
  ⟨fun a ha => hP _ _ (h.pos a ha), h.ops, h.neg⟩

theorem DerivesWith.mono {r : NRule α} (hr : r.containsAggregates = false) {B B' : (Variable → α) → Prop}
    (hB : ∀ σ, B σ → B' σ) {p : Tag} {row : List α} (h : DerivesWith r B p row) : DerivesWith r B' p row := by
  cases h with
  | plain h1 h2 h3 => exact .plain (hB _ h1) h2 h3
  | agg _ h2 _ => rw [NRule.containsAggregates, h2] at hr; simp at hr

/-- the predicates whose facts must be complete before the rule is applied -/
def NRule.predsStrict (r : NRule α) : List Tag :=
  r.predsNegative ++ if r.containsAggregates then r.predsPositive else []

theorem Derives.congr {r : NRule α} {P P' N N' : Interp α} (hP : ∀ p ∈ r.predsPositive, ∀ row, P p row ↔ P' p row)
    (hN : ∀ p ∈ r.predsStrict, ∀ row, N p row ↔ N' p row) (p : Tag) (row : List α) :
    Derives r P N p row ↔ Derives r P' N' p row := by
  unfold Derives
  apply DerivesWith.congr
  intro σ
  apply BodyHolds.congr
  · by_cases ha : r.containsAggregates
    · simp only [ha, if_true]
      intro q hq; exact hN q (by simp [NRule.predsStrict, ha, hq])
    · simp only [ha]; exact hP
  · intro q hq; exact hN q (by simp [NRule.predsStrict, hq])

theorem Derives.mono {r : NRule α} {P P' N : Interp α} (hP : P.le P') : (Derives r P N).le (Derives r P' N) := by
  intro p row h
  unfold Derives at *
  by_cases ha : r.containsAggregates
  · simp only [ha, if_true] at *; exact h
  · have ha' : r.containsAggregates = false := by simpa using ha
    simp only [ha', Bool.false_eq_true, if_false] at h ⊢
    exact h.mono ha' fun σ hs => hs.mono hP

/-! ## One group of rules -/

/-- The rules that are considered in this part: no existential variables. -/
structure ProgOK (rules : List (NRule α)) (cfgs : List RuleCfg) (arity : Tag → Nat) : Prop where
  rule : ∀ r ∈ rules, RuleOK r arity ∧ HeadOK r arity ∧ r.isExistential = false
  cfgs : cfgs.length = rules.length

/-- A group of rules whose negated and aggregated predicates are not derived by the group. -/
structure GroupOK (rules : List (NRule α)) (ph : List Nat) : Prop where
  bound : ∀ i ∈ ph, i < rules.length
  strict : ∀ i ∈ ph, ∀ j ∈ ph, ∀ r r', rules[i]? = some r → rules[j]? = some r' →
    ∀ p ∈ r.predsHead, p ∉ r'.predsStrict

/-- the invariant while a group of rules is processed -/
structure GInv (rules : List (NRule α)) (arity : Tag → Nat) (ph : List Nat) (st0 : Eng α) (N : Interp α)
    (st : Eng α) : Prop where
  ok : st.OK arity
  cur : st0.cur ≤ st.cur
  /-- the facts of the start are kept -/
  keep : ∀ p s row, s < st0.cur → (st.At p s row ↔ st0.At p s row)
  /-- new facts belong to heads of the group -/
  heads : ∀ p s row, st0.cur ≤ s → st.At p s row → ∃ i ∈ ph, ∃ r, rules[i]? = some r ∧ p ∈ r.predsHead
  complete : ∀ i ∈ ph, ∀ r, rules[i]? = some r → st.last i = 0 ∨ (st0.cur ≤ st.last i ∧
    (Derives r (Before st.At (st.last i)) N).le st.Facts)
  sound : ∀ I, st0.Facts.le I → (∀ i ∈ ph, ∀ r, rules[i]? = some r → (Derives r I N).le I) → st.Facts.le I
  others : ∀ i, i ∉ ph → st.last i = st0.last i

section group
variable {rules : List (NRule α)} {cfgs : List RuleCfg} {arity : Tag → Nat} {ph : List Nat} {st0 : Eng α}
  {N : Interp α}

theorem GInv.strict_step (hg : GroupOK rules ph) {st : Eng α} (h : GInv rules arity ph st0 N st) {i : Nat}
    (hi : i ∈ ph) {r : NRule α} (hr : rules[i]? = some r) {p : Tag} (hp : p ∈ r.predsStrict) {s : Nat} {row : List α}
    (hat : st.At p s row) : s < st0.cur := by
  by_contra hge
  obtain ⟨j, hj, r', hr', hpr⟩ := h.heads p s row (by omega) hat
  exact hg.strict j hj i hi r' r hr' hr p hpr hp

theorem GInv.strict_facts (hg : GroupOK rules ph) (h0 : st0.OK arity) {st : Eng α} (h : GInv rules arity ph st0 N st)
    {i : Nat} (hi : i ∈ ph) {r : NRule α} (hr : rules[i]? = some r) {p : Tag} (hp : p ∈ r.predsStrict) (row : List α) :
    st.Facts p row ↔ st0.Facts p row := by
  constructor
  · rintro ⟨s, hs⟩
    exact ⟨s, (h.keep p s row (h.strict_step hg hi hr hp hs)).1 hs⟩
  · rintro ⟨s, hs⟩
    obtain ⟨e, he, rfl, hrow⟩ := hs
    exact ⟨e.1, (h.keep p e.1 row (h0.steps p e he)).2 ⟨e, he, rfl, hrow⟩⟩

theorem GInv.match_iff (hg : GroupOK rules ph) (h0 : st0.OK arity)
    (hN : ∀ i ∈ ph, ∀ r, rules[i]? = some r → ∀ p ∈ r.predsStrict, ∀ row, N p row ↔ st0.Facts p row)
    {st : Eng α} (h : GInv rules arity ph st0 N st) {i : Nat} (hi : i ∈ ph) {r : NRule α} (hr : rules[i]? = some r)
    (σ : Variable → α) : NewMatch r st.At (st.last i) st.cur σ ↔
      BodyHolds r (if r.containsAggregates then N else st.Facts) N σ ∧ UsesNew r st.At (st.last i) st.cur σ := by
  unfold NewMatch
  refine and_congr_left fun _ => BodyHolds.congr ?_ ?_ σ
  · intro p hp row
    rw [h.ok.before_iff]
    split
    · rename_i ha
      have hps : p ∈ r.predsStrict := by simp [NRule.predsStrict, ha, hp]
      rw [h.strict_facts hg h0 hi hr hps, hN i hi r hr p hps]
    · rfl
  · intro p hp row
    have hps : p ∈ r.predsStrict := by simp [NRule.predsStrict, hp]
    rw [h.ok.before_iff, h.strict_facts hg h0 hi hr hps, hN i hi r hr p hps]

/-- If the rule has not been applied yet, every match is new. -/
theorem usesNew_zero {r : NRule α} {st : Eng α} {P : Interp α} {N' : Interp α} {σ : Variable → α}
    (hP : ∀ p ∈ r.predsPositive, ∀ row, P p row → ∃ s, s < st.cur ∧ st.At p s row) (hb : BodyHolds r P N' σ) :
    UsesNew r st.At 0 st.cur σ := by
  unfold UsesNew
  by_cases hn : r.positive = []
  · exact Or.inl hn
  · obtain ⟨a, ha⟩ := List.exists_mem_of_ne_nil _ hn
    obtain ⟨s, hs, hat⟩ := hP a.pred (List.mem_map.2 ⟨a, ha, rfl⟩) _ (hb.pos a ha)
    exact Or.inr ⟨a, ha, s, Nat.zero_le _, hs, hat⟩

/-- The matches of a rule with aggregates: all of them in the first application, none later (unless the
body is empty). -/
theorem GInv.agg_match (hg : GroupOK rules ph) (h0 : st0.OK arity)
    (hN : ∀ i ∈ ph, ∀ r, rules[i]? = some r → ∀ p ∈ r.predsStrict, ∀ row, N p row ↔ st0.Facts p row)
    {st : Eng α} (h : GInv rules arity ph st0 N st) {i : Nat} (hi : i ∈ ph) {r : NRule α} (hr : rules[i]? = some r)
    (ha : r.containsAggregates = true) :
    (∀ σ, NewMatch r st.At (st.last i) st.cur σ ↔ BodyHolds r N N σ) ∨
    (st.last i ≠ 0 ∧ ∀ σ, ¬ NewMatch r st.At (st.last i) st.cur σ) := by
  have hm := h.match_iff hg h0 hN hi hr
  simp only [ha, if_true] at hm
  by_cases hn : r.positive = []
  · left; intro σ; rw [hm]; exact ⟨fun h => h.1, fun h => ⟨h, Or.inl hn⟩⟩
  rcases h.complete i hi r hr with hl | ⟨hl, -⟩
  · left; intro σ; rw [hm, hl]
    refine ⟨fun h => h.1, fun hb => ⟨hb, usesNew_zero ?_ hb⟩⟩
    intro p hp row hrow
    have hps : p ∈ r.predsStrict := by simp [NRule.predsStrict, ha, hp]
    rw [hN i hi r hr p hps, ← h.strict_facts hg h0 hi hr hps, ← h.ok.before_iff] at hrow
    exact hrow
  · right
    refine ⟨by have := h0.pos; omega, fun σ => ?_⟩
    rw [hm]
    rintro ⟨-, hu | ⟨a, ha', s, h1, h2, h3⟩⟩
    · exact hn hu
    · have hps : a.pred ∈ r.predsStrict := by
        simp only [NRule.predsStrict, ha, if_true, List.mem_append]
        exact Or.inr (List.mem_map.2 ⟨a, ha', rfl⟩)
      have := h.strict_step hg hi hr hps h3
      omega

/-- The invariant is kept by the application of a rule of the group. -/
theorem GInv.step (hp : ProgOK rules cfgs arity) (hg : GroupOK rules ph) (h0 : st0.OK arity)
    (hN : ∀ i ∈ ph, ∀ r, rules[i]? = some r → ∀ p ∈ r.predsStrict, ∀ row, N p row ↔ st0.Facts p row)
    {st st' : Eng α} (h : GInv rules arity ph st0 N st) {i : Nat} (hi : i ∈ ph) {d : Bool}
    (hit : st.iterate rules cfgs i = some (st', d)) :
    GInv rules arity ph st0 N st' ∧ st'.cur = st.cur + 1 ∧ st'.last i = st.cur ∧
    (∀ j, j ≠ i → st'.last j = st.last j) ∧ (d = false → ∀ p s row, st'.At p s row ↔ st.At p s row) ∧
    (d = true → ∃ p row, st'.Facts p row ∧ ¬ st.Facts p row) ∧ st.Facts.le st'.Facts := by
  have hlt := hg.bound i hi
  obtain ⟨r, hr⟩ : ∃ r, rules[i]? = some r := ⟨_, List.getElem?_eq_getElem hlt⟩
  obtain ⟨hr1, hr2, hr3⟩ := hp.rule r (List.mem_of_getElem? hr)
  obtain ⟨st'', d', e1, e2, e3, e4, e5, e6⟩ := Eng.iterate_spec (cfgs := cfgs) h.ok hr (by rw [hp.cfgs]; exact hlt) hr1 hr2 hr3
  rw [hit] at e1
  simp only [Option.some.injEq, Prod.mk.injEq] at e1
  obtain ⟨rfl, rfl⟩ := e1
  have hsub : st.Facts.le st'.Facts := by
    rintro p row ⟨s, hs⟩; exact ⟨s, (e5 p s row).2 (Or.inl hs)⟩
  have hfacts : ∀ p row, st'.Facts p row ↔ st.Facts p row ∨ st.Added r i p row := by
    intro p row
    constructor
    · rintro ⟨s, hs⟩
      rcases (e5 p s row).1 hs with h1 | ⟨-, h1⟩
      · exact Or.inl ⟨s, h1⟩
      · exact Or.inr h1
    · rintro (h1 | h1)
      · exact hsub _ _ h1
      · exact ⟨st.cur, (e5 p _ row).2 (Or.inr ⟨rfl, h1⟩)⟩
  have hold : ∀ p s row, s < st.cur → (st'.At p s row ↔ st.At p s row) := by
    intro p s row hs
    rw [e5]
    exact ⟨fun h => h.resolve_right fun h' => by omega, Or.inl⟩
  have hbef : ∀ n, n ≤ st.cur → ∀ p row, Before st'.At n p row ↔ Before st.At n p row := by
    intro n hn p row
    refine exists_congr fun s => and_congr_right fun hs => hold p s row (by omega)
  have hm := h.match_iff hg h0 hN hi hr
  refine ⟨⟨e2, by have := h.cur; omega, ?_, ?_, ?_, ?_, ?_⟩, e3, by rw [e4, if_pos rfl],
    fun j hj => by rw [e4, if_neg hj], ?_, ?_, hsub⟩
  · intro p s row hs
    rw [hold p s row (lt_of_lt_of_le hs h.cur), h.keep p s row hs]
  · intro p s row hs hat
    rcases (e5 p s row).1 hat with h1 | ⟨-, h1, -⟩
    · exact h.heads p s row hs h1
    · exact ⟨i, hi, r, hr, (h1.arity hr2).2⟩
  · intro j hj r' hr'
    rw [e4]
    by_cases hji : j = i
    · subst hji
      rw [hr] at hr'; cases hr'
      right
      rw [if_pos rfl]
      refine ⟨h.cur, ?_⟩
      intro p row hd
      rw [hfacts]
      have hd' : Derives r st.Facts N p row := by
        refine (Derives.congr ?_ (fun _ _ _ => Iff.rfl) p row).1 hd
        intro q _ row'
        rw [hbef _ le_rfl, h.ok.before_iff]
      by_cases hfact : st.Facts p row
      · exact Or.inl hfact
      right
      refine ⟨?_, hfact⟩
      unfold Derives at hd'
      by_cases ha : r.containsAggregates
      · simp only [ha, if_true] at hd'
        rcases h.agg_match hg h0 hN hi hr ha with hall | ⟨hl, -⟩
        · exact (DerivesWith.congr hall p row).2 hd'
        · rcases h.complete j hi r hr with hl' | ⟨-, hc⟩
          · exact absurd hl' hl
          · refine absurd (hc p row ?_) hfact
            unfold Derives; simp only [ha, if_true]; exact hd'
      · simp only [ha] at hd'
        have ha' : r.containsAggregates = false := by simpa using ha
        cases hd' with
        | agg _ h2 _ => rw [NRule.containsAggregates, h2] at ha'; simp at ha'
        | @plain σ hd k hb hk hna =>
          simp only [Bool.false_eq_true, if_false] at hb
          by_cases hu : UsesNew r st.At (st.last j) st.cur σ
          · refine .plain ((hm σ).2 ⟨?_, hu⟩) hk hna
            simp only [ha', Bool.false_eq_true, if_false]; exact hb
          · exfalso
            unfold UsesNew at hu
            push Not at hu
            obtain ⟨hne, hu⟩ := hu
            have hold' : BodyHolds r (Before st.At (st.last j)) N σ := by
              refine ⟨fun a ha'' => ?_, hb.ops, hb.neg⟩
              obtain ⟨s, hs⟩ := hb.pos a ha''
              have hsc : s < st.cur := by
                obtain ⟨e, he, rfl, _⟩ := hs; exact h.ok.steps _ e he
              refine ⟨s, ?_, hs⟩
              by_contra hge
              exact hu a ha'' ⟨s, by omega, hsc, hs⟩
            rcases h.complete j hi r hr with hl' | ⟨-, hc⟩
            · rw [hl'] at hold'
              obtain ⟨a, ha''⟩ := List.exists_mem_of_ne_nil _ hne
              obtain ⟨s, hs, -⟩ := hold'.pos a ha''
              omega
            · apply hfact
              apply hc
              unfold Derives
              simp only [ha', Bool.false_eq_true, if_false]
              exact .plain hold' hk hna
    · rw [if_neg hji]
      rcases h.complete j hj r' hr' with hl | ⟨hl, hc⟩
      · exact Or.inl hl
      · refine Or.inr ⟨hl, fun p row hd => hsub _ _ (hc p row ?_)⟩
        exact (Derives.congr (fun q _ row' => hbef _ (h.ok.last j).le q row') (fun _ _ _ => Iff.rfl) p row).1 hd
  · intro I hI hcl p row hf
    rcases (hfacts p row).1 hf with h1 | ⟨h1, -⟩
    · exact h.sound I hI hcl p row h1
    · have hle := h.sound I hI hcl
      apply hcl i hi r hr
      unfold Derives
      by_cases ha : r.containsAggregates
      · simp only [ha, if_true]
        rcases h.agg_match hg h0 hN hi hr ha with hall | ⟨-, hnone⟩
        · exact (DerivesWith.congr hall p row).1 h1
        · exfalso
          cases h1 with
          | plain h2 _ _ => exact hnone _ h2
          | agg h2 _ _ => obtain ⟨τ, l, h3, -⟩ := h2.group; exact hnone _ h3
      · simp only [ha, if_false]
        refine h1.mono (by simpa using ha) fun σ hσ => ?_
        have := ((hm σ).1 hσ).1
        simp only [ha, if_false] at this
        exact this.mono hle
  · intro j hj
    rw [e4, if_neg (by rintro rfl; exact hj hi)]
    exact h.others j hj
  · rintro rfl p s row
    rw [e5]
    constructor
    · rintro (h1 | ⟨-, h1⟩)
      · exact h1
      · exact absurd (e6.2 ⟨p, row, h1⟩) (by simp)
    · exact Or.inl
  · intro hd
    obtain ⟨p, row, ha⟩ := e6.1 hd
    exact ⟨p, row, (hfacts p row).2 (Or.inr ha), ha.2⟩

theorem GInv.exec (hp : ProgOK rules cfgs arity) (hg : GroupOK rules ph) (h0 : st0.OK arity)
    (hN : ∀ i ∈ ph, ∀ r, rules[i]? = some r → ∀ p ∈ r.predsStrict, ∀ row, N p row ↔ st0.Facts p row)
    {st st' : Eng α} {tr : List (Nat × Bool)} (hex : Exec rules cfgs st tr st')
    (h : GInv rules arity ph st0 N st) (hi : ∀ x ∈ tr, x.1 ∈ ph) : GInv rules arity ph st0 N st' := by
  induction hex with
  | nil => exact h
  | cons h1 _ ih =>
    have := (h.step hp hg h0 hN (hi _ List.mem_cons_self) h1).1
    exact ih this fun x hx => hi x (List.mem_cons_of_mem _ hx)

/-- The last part of the processing of a group: nothing changes, and each applied rule has seen all facts. -/
theorem GInv.quiet (hp : ProgOK rules cfgs arity) (hg : GroupOK rules ph) (h0 : st0.OK arity)
    (hN : ∀ i ∈ ph, ∀ r, rules[i]? = some r → ∀ p ∈ r.predsStrict, ∀ row, N p row ↔ st0.Facts p row)
    {st st' : Eng α} {tr : List (Nat × Bool)} (hex : Exec rules cfgs st tr st') (hq : ∀ x ∈ tr, x.2 = false)
    (h : GInv rules arity ph st0 N st) (hi : ∀ x ∈ tr, x.1 ∈ ph) :
    (∀ p s row, st'.At p s row ↔ st.At p s row) ∧ (∀ i, st.last i ≤ st'.last i) ∧
    ∀ x ∈ tr, st.cur ≤ st'.last x.1 := by
  induction hex with
  | nil => exact ⟨fun _ _ _ => Iff.rfl, fun _ => le_rfl, by simp⟩
  | @cons st st1 st2 i d tr h1 h2 ih =>
    have hd : d = false := hq (i, d) List.mem_cons_self
    obtain ⟨g1, g2, g3, g4, g5, -, -⟩ := h.step hp hg h0 hN (hi _ List.mem_cons_self) h1
    obtain ⟨i1, i2, i3⟩ := ih (fun x hx => hq x (List.mem_cons_of_mem _ hx)) g1
      (fun x hx => hi x (List.mem_cons_of_mem _ hx))
    refine ⟨fun p s row => (i1 p s row).trans (g5 hd p s row), fun j => ?_, fun x hx => ?_⟩
    · refine le_trans ?_ (i2 j)
      by_cases hj : j = i
      · subst hj; rw [g3]; exact (h.ok.last j).le
      · rw [g4 j hj]
    · rcases List.mem_cons.1 hx with rfl | hx
      · have := i2 i; rw [g3] at this; exact this
      · have := i3 x hx; omega

/-- **After a group has been processed, its rules have no further consequences.** -/
theorem group_spec (hp : ProgOK rules cfgs arity) (hg : GroupOK rules ph) (h0 : st0.OK arity)
    (hN : ∀ i ∈ ph, ∀ r, rules[i]? = some r → ∀ p ∈ r.predsStrict, ∀ row, N p row ↔ st0.Facts p row)
    (hlast : ∀ i ∈ ph, st0.last i = 0) {tr : List (Nat × Bool)} (ht : PhaseTrace ph tr) {st : Eng α}
    (hex : Exec rules cfgs st0 tr st) :
    GInv rules arity ph st0 N st ∧ ∀ i ∈ ph, ∀ r, rules[i]? = some r → (Derives r st.Facts N).le st.Facts := by
  have hinit : GInv rules arity ph st0 N st0 := by
    refine ⟨h0, le_rfl, fun _ _ _ _ => Iff.rfl, ?_, fun i hi r _ => Or.inl (hlast i hi), fun I hI _ => hI, fun _ _ => rfl⟩
    rintro p s row hs ⟨e, he, rfl, _⟩
    have := h0.steps p e he; omega
  obtain ⟨hmem, pre, suf, rfl, hq, hcov⟩ := ht
  obtain ⟨st1, x1, x2⟩ := hex.append_inv
  have g1 := hinit.exec hp hg h0 hN x1 fun x hx => hmem x (List.mem_append_left _ hx)
  have g2 := g1.exec hp hg h0 hN x2 fun x hx => hmem x (List.mem_append_right _ hx)
  obtain ⟨q1, q2, q3⟩ := g1.quiet hp hg h0 hN x2 hq fun x hx => hmem x (List.mem_append_right _ hx)
  refine ⟨g2, ?_⟩
  intro i hi r hr p row hd
  obtain ⟨x, hx, rfl⟩ := hcov i hi
  have hl := q3 x hx
  rcases g2.complete x.1 hi r hr with hz | ⟨-, hc⟩
  · have := g1.ok.pos; omega
  · apply hc
    refine (Derives.congr ?_ (fun _ _ _ => Iff.rfl) p row).1 hd
    intro q _ row'
    constructor
    · rintro ⟨s, hs⟩
      refine ⟨s, ?_, hs⟩
      obtain ⟨e, he, rfl, _⟩ := (q1 q s row').1 hs
      have := g1.ok.steps q e he
      omega
    · rintro ⟨s, -, hs⟩; exact ⟨s, hs⟩

end group

/-! ## All groups -/

/-- The groups partition the rules, no group uses predicates that are derived by a later group, and the
negated and aggregated predicates of a group are not derived by the group itself. -/
structure PhasesOK (rules : List (NRule α)) (phases : List (List Nat)) : Prop where
  group : ∀ ph ∈ phases, GroupOK rules ph
  disjoint : phases.Pairwise fun ph ph' => ∀ i ∈ ph, i ∉ ph'
  later : phases.Pairwise fun ph ph' => ∀ i ∈ ph, ∀ j ∈ ph', ∀ r r', rules[i]? = some r → rules[j]? = some r' →
    ∀ p ∈ r'.predsHead, p ∉ r.predsPositive ∧ p ∉ r.predsNegative

theorem phases_spec {rules : List (NRule α)} {cfgs : List RuleCfg} {arity : Tag → Nat} (hp : ProgOK rules cfgs arity)
    {phases : List (List Nat)} (hph : PhasesOK rules phases) {tr : List (Nat × Bool)} (ht : PhasedTrace phases tr)
    {st0 st : Eng α} (h0 : st0.OK arity) (hlast : ∀ ph ∈ phases, ∀ i ∈ ph, st0.last i = 0)
    (hex : Exec rules cfgs st0 tr st) :
    st.OK arity ∧ st0.Facts.le st.Facts ∧
    (∀ p row, st.Facts p row → st0.Facts p row ∨ ∃ ph ∈ phases, ∃ i ∈ ph, ∃ r, rules[i]? = some r ∧ p ∈ r.predsHead) ∧
    (∀ ph ∈ phases, ∀ i ∈ ph, ∀ r, rules[i]? = some r → (Derives r st.Facts st.Facts).le st.Facts) ∧
    (∀ I, st0.Facts.le I → (∀ ph ∈ phases, ∀ i ∈ ph, ∀ r, rules[i]? = some r → (Derives r I st.Facts).le I) →
      st.Facts.le I) := by
  obtain ⟨trs, hf, rfl⟩ := ht
  induction hf generalizing st0 with
  | nil =>
    cases hex
    refine ⟨h0, fun _ _ h => h, fun p row h => Or.inl h, by simp, fun I hI _ => hI⟩
  | @cons ph t phases trs hpt hrest ih =>
    rw [List.flatten_cons] at hex
    obtain ⟨st1, x1, x2⟩ := hex.append_inv
    have hg := hph.group ph List.mem_cons_self
    have hdis := List.pairwise_cons.1 hph.disjoint
    have hlat := List.pairwise_cons.1 hph.later
    obtain ⟨g1, g2⟩ := group_spec (N := st0.Facts) hp hg h0 (fun _ _ _ _ _ _ _ => Iff.rfl)
      (hlast ph List.mem_cons_self) hpt x1
    have hph' : PhasesOK rules phases := ⟨fun ph hm => hph.group ph (List.mem_cons_of_mem _ hm), hdis.2, hlat.2⟩
    obtain ⟨i1, i2, i3, i4, i5⟩ := ih hph' g1.ok (by
      intro ph' hm i hi
      rw [g1.others i fun hi' => hdis.1 ph' hm i hi' hi]
      exact hlast ph' (List.mem_cons_of_mem _ hm) i hi) x2
    have hle0 : st0.Facts.le st1.Facts := by
      rintro p row ⟨s, hs⟩
      obtain ⟨e, he, rfl, hrow⟩ := hs
      exact ⟨e.1, (g1.keep p e.1 row (h0.steps p e he)).2 ⟨e, he, rfl, hrow⟩⟩
    -- the predicates used by the group do not change any more
    have hstable : ∀ i ∈ ph, ∀ r, rules[i]? = some r → ∀ p, p ∈ r.predsPositive ∨ p ∈ r.predsNegative →
        ∀ row, st.Facts p row ↔ st1.Facts p row := by
      intro i hi r hr p hpp row
      refine ⟨fun hf => ?_, fun hf => i2 p row hf⟩
      rcases i3 p row hf with h1 | ⟨ph', hm, j, hj, r', hr', hpr⟩
      · exact h1
      · obtain ⟨n1, n2⟩ := hlat.1 ph' hm i hi j hj r r' hr hr' p hpr
        exact absurd hpp (by tauto)
    have hstrict : ∀ i ∈ ph, ∀ r, rules[i]? = some r → ∀ p ∈ r.predsStrict, ∀ row,
        st.Facts p row ↔ st0.Facts p row := by
      intro i hi r hr p hps row
      rw [hstable i hi r hr p ?_ row, g1.strict_facts hg h0 hi hr hps]
      unfold NRule.predsStrict at hps
      rw [List.mem_append] at hps
      rcases hps with h1 | h1
      · exact Or.inr h1
      · split at h1
        · exact Or.inl h1
        · simp at h1
    refine ⟨i1, fun p row h => i2 p row (hle0 p row h), ?_, ?_, ?_⟩
    · intro p row hf
      rcases i3 p row hf with ⟨s, hs⟩ | ⟨ph', hm, h1⟩
      · by_cases hsc : s < st0.cur
        · exact Or.inl ⟨s, (g1.keep p s row hsc).1 hs⟩
        · exact Or.inr ⟨ph, List.mem_cons_self, g1.heads p s row (by omega) hs⟩
      · exact Or.inr ⟨ph', List.mem_cons_of_mem _ hm, h1⟩
    · intro ph' hm i hi r hr
      rcases List.mem_cons.1 hm with rfl | hm
      · intro p row hd
        apply i2
        apply g2 i hi r hr
        exact (Derives.congr (fun q hq row' => hstable i hi r hr q (Or.inl hq) row')
          (fun q hq row' => hstrict i hi r hr q hq row') p row).1 hd
      · exact i4 ph' hm i hi r hr
    · intro I hI hcl
      apply i5 I
      · apply g1.sound I hI
        intro i hi r hr p row hd
        apply hcl ph List.mem_cons_self i hi r hr
        exact (Derives.congr (fun _ _ _ => Iff.rfl) (fun q hq row' => hstrict i hi r hr q hq row') p row).2 hd
      · intro ph' hm; exact hcl ph' (List.mem_cons_of_mem _ hm)

/-- **The engine computes a stable model.**  If all rules belong to a group, the facts at the end are the
least set of facts that contains the given facts and is closed under the rules, where negated atoms are
looked up in this very set. -/
theorem engine_stable {rules : List (NRule α)} {cfgs : List RuleCfg} {arity : Tag → Nat} (hp : ProgOK rules cfgs arity)
    {phases : List (List Nat)} (hph : PhasesOK rules phases) (hall : ∀ i < rules.length, ∃ ph ∈ phases, i ∈ ph)
    {tr : List (Nat × Bool)} (ht : PhasedTrace phases tr)
    {st0 st : Eng α} (h0 : st0.OK arity) (hlast : ∀ i, st0.last i = 0) (hex : Exec rules cfgs st0 tr st) :
    st.OK arity ∧ IsStable rules st0.Facts st.Facts := by
  obtain ⟨h1, h2, -, h4, h5⟩ := phases_spec hp hph ht h0 (fun _ _ i _ => hlast i) hex
  refine ⟨h1, ?_⟩
  unfold IsStable
  funext p row
  apply propext
  constructor
  · intro hf I hI
    apply h5 I hI.1 _ p row hf
    intro ph _ i _ r hr
    exact hI.2 r (List.mem_of_getElem? hr)
  · intro hl
    apply hl st.Facts
    refine ⟨h2, ?_⟩
    intro r hr
    obtain ⟨i, hi⟩ := List.getElem?_of_mem hr
    obtain ⟨ph, hm, him⟩ := hall i (List.getElem?_eq_some_iff.1 hi).1
    exact h4 ph hm i him r hi

end Verif
