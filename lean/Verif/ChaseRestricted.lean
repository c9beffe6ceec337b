import Verif.ChaseUniversal
import Verif.EngineSafety

/-!
# When are nulls created? (C25)

The chase is *restricted* if nulls are only created for matches whose head is not satisfied yet.  The engine
looks for newly satisfied heads only among facts that are new for the rule, and relies on the helper table for older ones.  This
is correct if the helper table is up to date (`UpToDate`), which is kept by applications of the rule that find a match
(`RExec`, `regular_restricted_partial`), and in programs where only the rule itself derives facts for its head
(`exclusive_restricted_partial`).  It is not correct in general, see `ChaseExamples.lean`.
-/

set_option linter.unusedSimpArgs false
set_option linter.unusedSectionVars false

namespace Verif
variable {α : Type} [DecidableEq α] [Dom α]

/-- The facts that contain new nulls are needed: they belong to a match of the body of a rule whose head is not
satisfied by the facts before the application. -/
def NullsNeeded (rules : List (NRule α)) (st st' : Eng α) (helper : Tag → Prop) : Prop :=
  ∀ p row, ¬ helper p → st'.Facts p row → (∃ n, st.nextNull ≤ n ∧ Dom.null n ∈ row) →
    ∃ r ∈ rules, ∃ σ : Variable → α, BodyHolds r st.Facts st.Facts σ ∧
      (¬ ∃ τ : Variable → α, (∀ v, v.isExistential = false → τ v = σ v) ∧ ∀ hd ∈ r.head, st.Facts hd.pred (hd.inst τ)) ∧
      ∃ τ : Variable → α, (∀ v, v.isExistential = false → τ v = σ v) ∧ ∃ hd ∈ r.head, p = hd.pred ∧ row = hd.inst τ

/-- The frontier values whose heads are satisfied by facts that are old for the rule are recorded in the helper table. -/
def UpToDate (r : NRule α) (cfg : RuleCfg) (st : Eng α) (i : Nat) : Prop :=
  ∀ σ, HeadSat r (Before st.At (newFrom (st.last i) (!applyOptimization r cfg.hasFacts))) σ →
    st.Facts cfg.sat ((r.fr cfg).map σ)

section
variable {rules : List (NRule α)} {cfgs : List RuleCfg} {arity : Tag → Nat} [NullDom α]

/-- If the helper table is up to date, nulls are only created for unsatisfied heads. -/
theorem UpToDate.unsat {r : NRule α} {cfg : RuleCfg} {st : Eng α} {i : Nat} (h : UpToDate r cfg st i) (ho : st.OK arity)
    (hx : ExOK r cfg arity) {σ : Variable → α} (hu : Unsat r cfg st.At (st.last i) st.cur ((r.fr cfg).map σ)) :
    ¬ HeadSat r st.Facts σ := by
  intro hs
  obtain ⟨τ, t1, t2⟩ := (hx.headSat_iff _ _).1 hs
  obtain ⟨-, u2, u3⟩ := hu
  by_cases hn : ∃ hd ∈ r.head, Between st.At (newFrom (st.last i) (!applyOptimization r cfg.hasFacts)) st.cur hd.pred (hd.inst τ)
  · exact u3 ⟨τ, t1, fun hd hm => (ho.before_iff _ _).2 (t2 hd hm), hn⟩
  · apply u2
    rw [ho.before_iff]
    refine h σ ((hx.headSat_iff _ _).2 ⟨τ, t1, fun hd hm => ?_⟩)
    obtain ⟨s, hsc, hat⟩ := (ho.before_iff _ _).2 (t2 hd hm)
    refine ⟨s, ?_, hat⟩
    by_contra hc
    exact hn ⟨hd, hm, s, by omega, hsc, hat⟩

theorem iterate_lt {st st' : Eng α} {i : Nat} {b : Bool} (hit : st.iterate rules cfgs i = some (st', b)) : i < rules.length := by
  by_contra hc
  have hn : rules[i]? = none := List.getElem?_eq_none (by omega)
  unfold Eng.iterate Eng.step at hit
  simp [hn] at hit

/-- `Eng.iterate_x` for a given iteration -/
theorem iterate_x' (hp : XProgOK rules cfgs arity) {st st' : Eng α} (ho : st.OK arity) (hf : st.Fresh) {i : Nat} {b : Bool}
    (hit : st.iterate rules cfgs i = some (st', b)) :
    ∃ r cfg A, rules[i]? = some r ∧ cfgs[i]? = some cfg ∧
      st'.OK arity ∧ st'.Fresh ∧ st'.cur = st.cur + 1 ∧ (∀ j, st'.last j = if j = i then st.cur else st.last j) ∧
      Step st i r cfg A st'.nextNull ∧ st.nextNull ≤ st'.nextNull ∧
      (∀ p s row, st'.At p s row ↔ st.At p s row ∨ (s = st.cur ∧ A p row)) ∧
      (∀ p row, A p row → ¬ st.Facts p row) ∧ (∀ p row, A p row → p ∈ r.predsHead ∨ p = cfg.sat) ∧
      (∀ p row, st'.Facts p row ↔ st.Facts p row ∨ A p row) := by
  obtain ⟨r, cfg, st1, b1, A, n, hr, hc, h1, h2, h3, h4, h5, h6, h7, h8, h9, h10, h11, h12⟩ :=
    Eng.iterate_x hp ho hf (iterate_lt hit)
  rw [hit] at h1
  obtain ⟨rfl, rfl⟩ := Prod.mk.injEq .. ▸ (Option.some.injEq .. ▸ h1)
  refine ⟨r, cfg, A, hr, hc, h2, h3, h4, h5, h7 ▸ h6, h7 ▸ h8, h9, h11, h12, ?_⟩
  intro p row
  constructor
  · rintro ⟨s, hs⟩
    rcases (h9 p s row).1 hs with h | ⟨-, h⟩
    · exact Or.inl ⟨s, h⟩
    · exact Or.inr h
  · rintro (⟨s, hs⟩ | h)
    · exact ⟨s, (h9 p s row).2 (Or.inl hs)⟩
    · exact ⟨st.cur, (h9 p _ row).2 (Or.inr ⟨rfl, h⟩)⟩

theorem NewMatch.body {st : Eng α} (ho : st.OK arity) {r : NRule α} {last : Nat} {σ : Variable → α}
    (h : NewMatch r st.At last st.cur σ) : BodyHolds r st.Facts st.Facts σ := by
  have e : Before st.At st.cur = st.Facts := by
    funext p row; exact propext (ho.before_iff p row)
  have := h.1
  rwa [e] at this

/-- **If the helper table is up to date, an iteration only creates nulls that are needed.** -/
theorem UpToDate.iterate (hp : XProgOK rules cfgs arity) {st st' : Eng α} (ho : st.OK arity) (hf : st.Fresh) {i : Nat}
    {b : Bool} (hit : st.iterate rules cfgs i = some (st', b))
    (hup : ∀ r cfg, rules[i]? = some r → cfgs[i]? = some cfg → r.isExistential = true → UpToDate r cfg st i) :
    NullsNeeded rules st st' (IsHelper cfgs) := by
  obtain ⟨r, cfg, A, hr, hc, h2, h3, h4, h5, h6, h8, h9, h11, h12, hfacts⟩ := iterate_x' hp ho hf hit
  have hm := List.mem_of_getElem? hr
  have hnn := (hp.rule r hm).2
  have hf' : KnownFacts st.nextNull (Before st.At st.cur) := by
    intro p row hrow; exact hf p row ((ho.before_iff p row).1 hrow)
  intro p row hnh hrow ⟨n, hn1, hn2⟩
  rcases (hfacts p row).1 hrow with h | h
  · have := hf p row h _ hn2 n rfl; omega
  generalize st'.nextNull = nn at h6
  cases h6 with
  | datalog hex =>
    have := h.1.known hnn (hp.datalog r hm hex) hex hf' (fun σ hσ => hσ.1) _ hn2 n rfl
    omega
  | @ex U hex u1 u2 =>
    have hx := hp.ex i r cfg hr hc hex
    cases h with
    | @plain hd σ q1 q2 q3 q4 =>
      exfalso
      have hσ : ∀ v ∈ hd.vars, Known st.nextNull (σ v) := by
        intro v hv
        have hve : v.isExistential = false := by
          unfold HeadAtom.varsExistential at q2
          rw [List.filter_eq_nil_iff] at q2
          simpa using q2 v hv
        obtain ⟨a, ha, hva⟩ := List.mem_flatMap.1 (hx.frontier hd q1 v hv hve)
        exact q3.1.known hnn hf' (.atom ha hva)
      have := HeadAtom.inst_known hnn q1 hσ _ hn2 n rfl
      omega
    | @null hd k τ q1 q2 q3 =>
      have hmem := List.mem_of_getElem? q3.frontier
      have hun := (u2 _).1 hmem
      obtain ⟨⟨σ, w1, w2⟩, -⟩ := (u2 _).1 hmem
      rw [w2] at hun
      refine ⟨r, hm, σ, w1.body ho, (hup r cfg hr hc hex).unsat ho hx hun, ?_⟩
      refine ⟨fun v => if v.isExistential then τ v else σ v, fun v hv => by simp [hv], hd, q1, rfl, ?_⟩
      refine HeadAtom.inst_congr hd fun v hv => ?_
      show τ v = if v.isExistential then τ v else σ v
      cases he : v.isExistential with
      | true => rfl
      | false =>
        have hvf : v ∈ r.fr cfg := (hx.mem_fr v).2 ⟨List.mem_flatMap.2 ⟨hd, q1, hv⟩, he⟩
        simpa using List.map_eq_map_iff.1 w2 v hvf
    | unsat q1 => exact absurd ⟨cfg, List.mem_of_getElem? hc, rfl⟩ hnh
    | newSat q1 q2 q3 => exact absurd ⟨cfg, List.mem_of_getElem? hc, rfl⟩ hnh

/-! ## Applications that find a match -/

/-- The optimization for the facts of the last application is not used, or the head is a single atom. -/
def SingleOrAll (r : NRule α) (cfg : RuleCfg) : Prop :=
  applyOptimization r cfg.hasFacts = false ∨ ∃ hd, r.head = [hd]

theorem headSat_congr {r : NRule α} {I J : Interp α} (h : ∀ p ∈ r.predsHead, ∀ row, I p row → J p row) {σ : Variable → α}
    (hs : HeadSat r I σ) : HeadSat r J σ := by
  obtain ⟨τ, t1, t2⟩ := hs
  exact ⟨τ, t1, fun hd hm => h _ (List.mem_map_of_mem hm) _ (t2 hd hm)⟩

/-- With a single head atom, the frontier values can be read off the facts with nulls. -/
theorem null_single {r : NRule α} {cfg : RuleCfg} (hx : ExOK r cfg arity) {hd : HeadAtom α} (he : r.head = [hd])
    {τ τ' : Variable → α} (h : hd.inst τ = hd.inst τ') : (r.fr cfg).map τ = (r.fr cfg).map τ' := by
  refine List.map_congr_left fun v hv => ?_
  have hvm := ((hx.mem_fr v).1 hv).1
  rw [he] at hvm
  simp only [List.flatMap_cons, List.flatMap_nil, List.append_nil] at hvm
  obtain ⟨t, ht, htv⟩ := List.mem_filterMap.1 hvm
  cases t with
  | const c => simp [Primitive.var?] at htv
  | var w =>
    simp only [Primitive.var?, Option.some.injEq] at htv
    subst htv
    have := List.map_eq_map_iff.1 h _ ht
    exact this

/-- The helper table stays up to date. -/
theorem UpToDate.step (hp : XProgOK rules cfgs arity) {st st' : Eng α} (ho : st.OK arity) (hf : st.Fresh) {i : Nat}
    {b : Bool} (hit : st.iterate rules cfgs i = some (st', b))
    (hreg : ∀ r, rules[i]? = some r → r.isExistential = true → (∃ σ, NewMatch r st.At (st.last i) st.cur σ) ∨
      ∃ hd ∈ r.head, ∀ row, ¬ st.Facts hd.pred row)
    {j : Nat} {r : NRule α} {cfg : RuleCfg} (hr : rules[j]? = some r) (hc : cfgs[j]? = some cfg)
    (hex : r.isExistential = true) (hso : SingleOrAll r cfg) (hup : UpToDate r cfg st j) : UpToDate r cfg st' j := by
  obtain ⟨r1, cfg1, A, hr1, hc1, h2, h3, h4, h5, h6, h8, h9, h11, h12, hfacts⟩ := iterate_x' hp ho hf hit
  have hx := hp.ex j r cfg hr hc hex
  have hne := isExistential_head hex
  intro σ hs
  rw [hfacts]
  by_cases hji : j = i
  · subst hji
    rw [hr] at hr1; rw [hc] at hc1
    obtain rfl := Option.some.inj hr1
    obtain rfl := Option.some.inj hc1
    generalize st'.nextNull = nn at h6
    cases h6 with
    | datalog hex' => rw [hex] at hex'; cases hex'
    | @ex U _ u1 u2 =>
      rw [h5, if_pos rfl] at hs
      -- the heads that were satisfied before the application
      have hbefore : ∀ σ, HeadSat r st.Facts σ → st.Facts cfg.sat ((r.fr cfg).map σ) ∨
          ExAdded r cfg st.At (st.last j) st.cur st.nextNull U cfg.sat ((r.fr cfg).map σ) := by
        intro σ hs
        by_cases hsat : Before st.At st.cur cfg.sat ((r.fr cfg).map σ)
        · exact Or.inl ((ho.before_iff _ _).1 hsat)
        obtain ⟨τ, t1, t2⟩ := (hx.headSat_iff _ _).1 hs
        rcases hreg r hr hex with ⟨σ', hσ'⟩ | ⟨hd, hm, hno⟩
        · by_cases hn : NewSat r cfg st.At (st.last j) st.cur ((r.fr cfg).map σ)
          · exact Or.inr (.newSat hσ' hn hsat)
          · refine Or.inl (hup σ ((hx.headSat_iff _ _).2 ⟨τ, t1, fun hd hm => ?_⟩))
            obtain ⟨s, hsc, hat⟩ := (ho.before_iff _ _).2 (t2 hd hm)
            refine ⟨s, ?_, hat⟩
            by_contra hc'
            exact hn ⟨τ, t1, fun hd hm => (ho.before_iff _ _).2 (t2 hd hm), hd, hm, s, by omega, hsc, hat⟩
        · exact absurd (t2 hd hm) (hno _)
      have holdc : ∀ p s row, s < st.cur → st'.At p s row → st.Facts p row := by
        intro p s row hs' hat
        rcases (h9 p s row).1 hat with h | ⟨h, -⟩
        · exact ⟨s, h⟩
        · omega
      rcases hso with hopt | ⟨hd, hhd⟩
      · rw [hopt] at hs
        simp only [newFrom, Bool.not_false, if_true] at hs
        exact hbefore σ (headSat_congr (fun p _ row ⟨s, hs', hat⟩ => holdc p s row hs' hat) hs)
      · obtain ⟨τ, t1, t2⟩ := (hx.headSat_iff _ _).1 hs
        obtain ⟨s, hs', hat⟩ := t2 hd (by simp [hhd])
        rcases (h9 _ s _).1 hat with h | ⟨h, h'⟩
        · refine hbefore σ ((hx.headSat_iff _ _).2 ⟨τ, t1, fun hd' hm' => ?_⟩)
          rw [hhd, List.mem_singleton] at hm'
          subst hm'
          exact ⟨s, h⟩
        · right
          obtain ⟨p, hpe⟩ : ∃ p, p = hd.pred := ⟨_, rfl⟩
          obtain ⟨row, hrow⟩ : ∃ row, row = hd.inst τ := ⟨_, rfl⟩
          have hnsat : p ≠ cfg.sat := by
            rintro rfl
            exact hx.satFresh (by rw [hpe]; exact List.mem_map_of_mem (by simp [hhd]))
          rw [← hpe, ← hrow] at h'
          cases h' with
          | @plain hd' σ' q1 q2 q3 q4 =>
            exfalso
            rw [hhd, List.mem_singleton] at q1
            subst q1
            unfold HeadAtom.varsExistential at q2
            rw [List.filter_eq_nil_iff] at q2
            simp only [NRule.isExistential, hhd, List.any_cons, List.any_nil, Bool.or_false, List.any_eq_true] at hex
            obtain ⟨v, v1, v2⟩ := hex
            exact q2 v v1 v2
          | @null hd' k τ' q1 q2 q3 =>
            rw [hhd, List.mem_singleton] at q1
            subst q1
            have e := null_single hx hhd hrow
            rw [← t1, ← e]
            exact .unsat (List.mem_of_getElem? q3.frontier)
          | unsat q1 => exact absurd rfl hnsat
          | newSat q1 q2 q3 => exact absurd rfl hnsat
  · -- another rule has been applied
    rw [h5, if_neg hji] at hs
    left
    refine hup σ (headSat_congr (fun p _ row ⟨s, hs', hat⟩ => ?_) hs)
    rcases (h9 p s row).1 hat with h | ⟨h, -⟩
    · exact ⟨s, hs', h⟩
    · exfalso
      have := ho.last j
      unfold newFrom at hs'
      split at hs' <;> omega

/-- A run in which each application of an existential rule finds a match of the body, or there is no fact for some atom of its
head yet. -/
inductive RExec (rules : List (NRule α)) (cfgs : List RuleCfg) : Eng α → Eng α → Prop
  | nil {st : Eng α} : RExec rules cfgs st st
  | cons {st st1 st2 : Eng α} {i : Nat} {d : Bool} : st.iterate rules cfgs i = some (st1, d) →
      (∀ r, rules[i]? = some r → r.isExistential = true → (∃ σ, NewMatch r st.At (st.last i) st.cur σ) ∨
        ∃ hd ∈ r.head, ∀ row, ¬ st.Facts hd.pred row) →
      RExec rules cfgs st1 st2 → RExec rules cfgs st st2

theorem RExec.upToDate (hp : XProgOK rules cfgs arity) {st st' : Eng α} (h : RExec rules cfgs st st')
    (ho : st.OK arity) (hf : st.Fresh)
    (hso : ∀ (i : Nat) r cfg, rules[i]? = some r → cfgs[i]? = some cfg → r.isExistential = true → SingleOrAll r cfg)
    (hup : ∀ (i : Nat) r cfg, rules[i]? = some r → cfgs[i]? = some cfg → r.isExistential = true → UpToDate r cfg st i) :
    st'.OK arity ∧ st'.Fresh ∧
    ∀ (i : Nat) r cfg, rules[i]? = some r → cfgs[i]? = some cfg → r.isExistential = true → UpToDate r cfg st' i := by
  induction h with
  | nil => exact ⟨ho, hf, hup⟩
  | cons h1 h2 _ ih =>
    obtain ⟨r1, cfg1, A, -, -, g2, g3, -⟩ := iterate_x' hp ho hf h1
    exact ih g2 g3 fun i r cfg hr hc hex => (hup i r cfg hr hc hex).step hp ho hf h1 h2 hr hc hex (hso i r cfg hr hc hex)

/-- The optimization is used only if the input contains no facts for some atom of the head. -/
def FactsKnown (edb : Interp α) (rules : List (NRule α)) (cfgs : List RuleCfg) : Prop :=
  ∀ (i : Nat) r cfg, rules[i]? = some r → cfgs[i]? = some cfg → r.isExistential = true →
    applyOptimization r cfg.hasFacts = false ∨ ∃ hd ∈ r.head, ∀ row, ¬ edb hd.pred row

variable {edb : List (Tag × List (List α))} {outs : List Tag} {st st' : Eng α}

theorem start_upToDate (he : XEdbOK edb cfgs arity) (hk : FactsKnown (edbFacts edb) rules cfgs)
    (i : Nat) (r : NRule α) (cfg : RuleCfg) (hr : rules[i]? = some r) (hc : cfgs[i]? = some cfg) (hex : r.isExistential = true) :
    UpToDate r cfg (outs.foldl Eng.combinePredicate (Eng.init edb)) i := by
  obtain ⟨s1, s2, s3, s4, s5⟩ := start_spec (outs := outs) (rules := rules) he
  rintro σ ⟨τ, t1, t2⟩
  exfalso
  rw [s4] at t2
  rcases hk i r cfg hr hc hex with h | ⟨hd, hm, hno⟩
  · obtain ⟨hd, hm⟩ := List.exists_mem_of_ne_nil _ (isExistential_head hex)
    rw [h] at t2
    obtain ⟨s, hs, -⟩ := t2 hd hm
    simp [newFrom] at hs
  · obtain ⟨s, -, hat⟩ := t2 hd hm
    exact hno _ (by rw [← s5]; exact ⟨s, hat⟩)

/-- **C25: in a regular run, nulls are only created for unsatisfied heads.**  (Partial: the run must be regular, the input
facts for head predicates must be known when the program is analysed, and the heads are single atoms or repeat a predicate.) -/
theorem regular_restricted_partial (hp : XProgOK rules cfgs arity) (he : XEdbOK edb cfgs arity)
    (hk : FactsKnown (edbFacts edb) rules cfgs)
    (hso : ∀ (i : Nat) r cfg, rules[i]? = some r → cfgs[i]? = some cfg → r.isExistential = true → SingleOrAll r cfg)
    (h : RExec rules cfgs (outs.foldl Eng.combinePredicate (Eng.init edb)) st) {i : Nat} {b : Bool}
    (hit : st.iterate rules cfgs i = some (st', b)) : NullsNeeded rules st st' (IsHelper cfgs) := by
  obtain ⟨s1, s2, s3, s4, s5⟩ := start_spec (outs := outs) (rules := rules) he
  obtain ⟨r1, r2, r3⟩ := h.upToDate hp s1 s2 hso (start_upToDate he hk)
  exact UpToDate.iterate hp r1 r2 hit fun r cfg hr hc hex => r3 i r cfg hr hc hex

/-! ## Heads that only the rule itself derives -/

/-- The head is a single atom, and neither the input nor another rule provides facts for it. -/
def Exclusive (edb : Interp α) (rules : List (NRule α)) (i : Nat) (r : NRule α) : Prop :=
  ∃ hd, r.head = [hd] ∧ (∀ row, ¬ edb hd.pred row) ∧
    ∀ (j : Nat) r', rules[j]? = some r' → j ≠ i → hd.pred ∉ r'.predsHead

/-- All satisfied heads are recorded. -/
def Recorded (r : NRule α) (cfg : RuleCfg) (st : Eng α) : Prop :=
  ∀ σ, HeadSat r st.Facts σ → st.Facts cfg.sat ((r.fr cfg).map σ)

theorem Recorded.upToDate {r : NRule α} {cfg : RuleCfg} {st : Eng α} (h : Recorded r cfg st) (i : Nat) : UpToDate r cfg st i :=
  fun σ hs => h σ (headSat_congr (fun _ _ _ ⟨s, _, hat⟩ => ⟨s, hat⟩) hs)

theorem Recorded.step (hp : XProgOK rules cfgs arity) {ed : Interp α} (ho : st.OK arity) (hf : st.Fresh) {i : Nat}
    {b : Bool} (hit : st.iterate rules cfgs i = some (st', b))
    {j : Nat} {r : NRule α} {cfg : RuleCfg} (hr : rules[j]? = some r) (hc : cfgs[j]? = some cfg)
    (hex : r.isExistential = true) (hso : Exclusive ed rules j r) (hup : Recorded r cfg st) : Recorded r cfg st' := by
  obtain ⟨r1, cfg1, A, hr1, hc1, h2, h3, h4, h5, h6, h8, h9, h11, h12, hfacts⟩ := iterate_x' hp ho hf hit
  have hx := hp.ex j r cfg hr hc hex
  obtain ⟨hd, hhd, -, hexc⟩ := hso
  intro σ hs
  rw [hfacts]
  obtain ⟨τ, t1, t2⟩ := (hx.headSat_iff _ _).1 hs
  have hmd : hd ∈ r.head := by simp [hhd]
  rcases (hfacts _ _).1 (t2 hd hmd) with h | h'
  · left
    refine hup σ ((hx.headSat_iff _ _).2 ⟨τ, t1, fun hd' hm' => ?_⟩)
    rw [hhd, List.mem_singleton] at hm'
    subst hm'
    exact h
  · right
    have hji : j = i := by
      by_contra hji
      rcases h12 _ _ h' with h | h
      · exact hexc i r1 hr1 (Ne.symm hji) h
      · exact (hp.satFresh cfg1 (List.mem_of_getElem? hc1) r (List.mem_of_getElem? hr)).1
          (h ▸ List.mem_map_of_mem hmd)
    subst hji
    rw [hr] at hr1; rw [hc] at hc1
    obtain rfl := Option.some.inj hr1
    obtain rfl := Option.some.inj hc1
    obtain ⟨p, hpe⟩ : ∃ p, p = hd.pred := ⟨_, rfl⟩
    obtain ⟨row, hrow⟩ : ∃ row, row = hd.inst τ := ⟨_, rfl⟩
    have hnsat : p ≠ cfg.sat := by
      rintro rfl
      exact hx.satFresh (by rw [hpe]; exact List.mem_map_of_mem hmd)
    generalize st'.nextNull = nn at h6
    cases h6 with
    | datalog hex' => rw [hex] at hex'; cases hex'
    | @ex U _ u1 u2 =>
      rw [← hpe, ← hrow] at h'
      cases h' with
      | @plain hd' σ' q1 q2 q3 q4 =>
        exfalso
        rw [hhd, List.mem_singleton] at q1
        subst q1
        unfold HeadAtom.varsExistential at q2
        rw [List.filter_eq_nil_iff] at q2
        simp only [NRule.isExistential, hhd, List.any_cons, List.any_nil, Bool.or_false, List.any_eq_true] at hex
        obtain ⟨v, v1, v2⟩ := hex
        exact q2 v v1 v2
      | @null hd' k τ' q1 q2 q3 =>
        rw [hhd, List.mem_singleton] at q1
        subst q1
        have e := null_single hx hhd hrow
        rw [← t1, ← e]
        exact .unsat (List.mem_of_getElem? q3.frontier)
      | unsat q1 => exact absurd rfl hnsat
      | newSat q1 q2 q3 => exact absurd rfl hnsat

theorem Exec.recorded (hp : XProgOK rules cfgs arity) {ed : Interp α} {st st' : Eng α} {tr : List (Nat × Bool)}
    (h : Exec rules cfgs st tr st') (ho : st.OK arity) (hf : st.Fresh)
    (hso : ∀ (i : Nat) r, rules[i]? = some r → r.isExistential = true → Exclusive ed rules i r)
    (hup : ∀ (i : Nat) r cfg, rules[i]? = some r → cfgs[i]? = some cfg → r.isExistential = true → Recorded r cfg st) :
    st'.OK arity ∧ st'.Fresh ∧
    ∀ (i : Nat) r cfg, rules[i]? = some r → cfgs[i]? = some cfg → r.isExistential = true → Recorded r cfg st' := by
  induction h with
  | nil => exact ⟨ho, hf, hup⟩
  | cons h1 _ ih =>
    obtain ⟨r1, cfg1, A, -, -, g2, g3, -⟩ := iterate_x' hp ho hf h1
    exact ih g2 g3 fun i r cfg hr hc hex => (hup i r cfg hr hc hex).step hp ho hf h1 hr hc hex (hso i r hr hex)

/-- **C25: nulls are only created for unsatisfied heads** in programs where each existential rule has a single head atom that
neither the input nor another rule provides facts for.  (Partial: see `ChaseExamples.lean` for other programs.) -/
theorem exclusive_restricted_partial (hp : XProgOK rules cfgs arity) (he : XEdbOK edb cfgs arity)
    (hso : ∀ (i : Nat) r, rules[i]? = some r → r.isExistential = true → Exclusive (edbFacts edb) rules i r)
    {tr : List (Nat × Bool)} (h : Exec rules cfgs (outs.foldl Eng.combinePredicate (Eng.init edb)) tr st) {i : Nat} {b : Bool}
    (hit : st.iterate rules cfgs i = some (st', b)) : NullsNeeded rules st st' (IsHelper cfgs) := by
  obtain ⟨s1, s2, s3, s4, s5⟩ := start_spec (outs := outs) (rules := rules) he
  obtain ⟨r1, r2, r3⟩ := h.recorded hp s1 s2 hso (by
    intro i r cfg hr hc hex σ hs
    obtain ⟨hd, hhd, hno, -⟩ := hso i r hr hex
    obtain ⟨τ, -, t2⟩ := hs
    exact absurd (s5 ▸ t2 hd (by simp [hhd])) (hno _))
  exact UpToDate.iterate hp r1 r2 hit fun r cfg hr hc hex => (r3 i r cfg hr hc hex).upToDate i

/-! ## Every reached state -/

theorem Exec.ok_fresh (hp : XProgOK rules cfgs arity) {st st' : Eng α} {tr : List (Nat × Bool)}
    (h : Exec rules cfgs st tr st') (ho : st.OK arity) (hf : st.Fresh) : st'.OK arity ∧ st'.Fresh := by
  induction h with
  | nil => exact ⟨ho, hf⟩
  | cons h1 _ ih =>
    obtain ⟨r1, cfg1, A, -, -, g2, g3, -⟩ := iterate_x' hp ho hf h1
    exact ih g2 g3

variable {cond : Nat → List (Nat × Nat) → List (List Nat)}

theorem Reached.ok_fresh (hp : XProgOK rules cfgs arity) (he : XEdbOK edb cfgs arity)
    (h : Reached cond rules cfgs outs edb st) : st.OK arity ∧ st.Fresh := by
  obtain ⟨strata, tr, h1, h2, h3⟩ := h
  obtain ⟨s1, s2, -⟩ := start_spec (outs := outs) (rules := rules) he
  exact h3.ok_fresh hp s1 s2

/-- **C28 for programs with existential rules: no fact is stored twice.** -/
theorem reached_x_no_duplicates (hp : XProgOK rules cfgs arity) (he : XEdbOK edb cfgs arity)
    (h : Reached cond rules cfgs outs edb st) (p : Tag) :
    (∀ e ∈ (st.handlers p).single, ∀ e' ∈ (st.handlers p).single, ∀ row, row ∈ st.rows e.2 → row ∈ st.rows e'.2 → e.1 = e'.1) ∧
    (∀ e ∈ (st.handlers p).single, (st.rows e.2).Nodup) ∧ (st.predicateRows p).Nodup := by
  obtain ⟨hok, -⟩ := h.ok_fresh hp he
  refine ⟨fun e h1 e' h2 row h3 h4 => hok.unique p e.1 e'.1 row ⟨e, h1, rfl, h3⟩ ⟨e', h2, rfl, h4⟩,
    fun e _ => hok.nodup e.2, (Eng.predicateRows_spec hok p).2⟩

/-- **C12: the nulls created by a rule application are new, and shared only by the head atoms of one match.**  A null with a
number that was unused before occurs in no fact stored before; and two facts in which the same new null occurs are instances of
head atoms of the applied rule for a single valuation that gives different existential variables different nulls. -/
theorem iterate_nulls (hp : XProgOK rules cfgs arity) (he : XEdbOK edb cfgs arity)
    (h : Reached cond rules cfgs outs edb st) {i : Nat} {b : Bool} (hit : st.iterate rules cfgs i = some (st', b))
    {n : Nat} (hn : st.nextNull ≤ n) :
    (∀ p row, st.Facts p row → Dom.null n ∉ row) ∧
    ∀ p row p' row', ¬ IsHelper cfgs p → ¬ IsHelper cfgs p' → st'.Facts p row → st'.Facts p' row' →
      Dom.null n ∈ row → Dom.null n ∈ row' →
      ∃ r hd hd' τ, rules[i]? = some r ∧ hd ∈ r.head ∧ hd' ∈ r.head ∧ p = hd.pred ∧ row = hd.inst τ ∧
        p' = hd'.pred ∧ row' = hd'.inst τ ∧
        (∀ v ∈ r.exVars, ∃ m, st.nextNull ≤ m ∧ τ v = Dom.null m) ∧
        ∀ v ∈ r.exVars, ∀ w ∈ r.exVars, τ v = τ w → v = w := by
  obtain ⟨ho, hf⟩ := h.ok_fresh hp he
  have hold : ∀ p row, st.Facts p row → Dom.null n ∉ row := by
    intro p row hrow hc
    have := hf p row hrow _ hc n rfl
    omega
  refine ⟨hold, ?_⟩
  obtain ⟨r, cfg, A, hr, hc, h2, h3, h4, h5, h6, h8, h9, h11, h12, hfacts⟩ := iterate_x' hp ho hf hit
  have hm := List.mem_of_getElem? hr
  have hnn := (hp.rule r hm).2
  have hf' : KnownFacts st.nextNull (Before st.At st.cur) := by
    intro p row hrow; exact hf p row ((ho.before_iff p row).1 hrow)
  intro p row p' row' hh hh' hrow hrow' hnr hnr'
  have hA := ((hfacts p row).1 hrow).resolve_left fun h => hold p row h hnr
  have hA' := ((hfacts p' row').1 hrow').resolve_left fun h => hold p' row' h hnr'
  generalize st'.nextNull = nn at h6
  cases h6 with
  | datalog hex =>
    have := hA.1.known hnn (hp.datalog r hm hex) hex hf' (fun σ hσ => hσ.1) _ hnr n rfl
    omega
  | @ex U hex u1 u2 =>
    have hx := hp.ex i r cfg hr hc hex
    -- a fact with the null belongs to a tuple of `U`
    have key : ∀ p row, ¬ IsHelper cfgs p → ExAdded r cfg st.At (st.last i) st.cur st.nextNull U p row → Dom.null n ∈ row →
        ∃ hd k j τ, hd ∈ r.head ∧ NullVal r cfg st.nextNull U k τ ∧ p = hd.pred ∧ row = hd.inst τ ∧
          j < r.exVars.length ∧ n = st.nextNull + k * r.exVars.length + j := by
      intro p row hh hA hnr
      cases hA with
      | @plain hd σ q1 q2 q3 q4 =>
        exfalso
        have hσ : ∀ v ∈ hd.vars, Known st.nextNull (σ v) := by
          intro v hv
          have hve : v.isExistential = false := by
            unfold HeadAtom.varsExistential at q2
            rw [List.filter_eq_nil_iff] at q2
            simpa using q2 v hv
          obtain ⟨a, ha, hva⟩ := List.mem_flatMap.1 (hx.frontier hd q1 v hv hve)
          exact q3.1.known hnn hf' (.atom ha hva)
        have := HeadAtom.inst_known hnn q1 hσ _ hnr n rfl
        omega
      | @null hd k τ q1 q2 q3 =>
        obtain ⟨t, ht, hti⟩ := List.mem_map.1 hnr
        cases t with
        | const c => exact absurd hti (hnn.head hd q1 c ht n)
        | var v =>
          have hti' : τ v = Dom.null n := hti
          have hv : v ∈ hd.vars := List.mem_filterMap.2 ⟨_, ht, rfl⟩
          have hvm : v ∈ r.fr cfg ++ r.exVars := (hx.mem_cols v).2 (List.mem_flatMap.2 ⟨hd, q1, hv⟩)
          rcases List.mem_append.1 hvm with hvf | hve
          · exfalso
            obtain ⟨⟨σ, w1, w2⟩, -⟩ := (u2 _).1 (List.mem_of_getElem? q3.frontier)
            obtain ⟨a, ha, hva⟩ := List.mem_flatMap.1 (hx.frontier hd q1 v hv ((hx.mem_fr v).1 hvf).2)
            have := w1.1.known hnn hf' (.atom ha hva)
            rw [← List.map_eq_map_iff.1 w2 v hvf, hti'] at this
            have := this n rfl
            omega
          · obtain ⟨j, hj⟩ := List.getElem?_of_mem hve
            refine ⟨hd, k, j, τ, q1, q3, rfl, rfl, (List.getElem?_eq_some_iff.1 hj).1, ?_⟩
            rw [q3.nulls j v hj] at hti'
            exact (NullDom.null_inj _ _ hti').symm
      | unsat q1 => exact absurd ⟨cfg, List.mem_of_getElem? hc, rfl⟩ hh
      | newSat q1 q2 q3 => exact absurd ⟨cfg, List.mem_of_getElem? hc, rfl⟩ hh
    obtain ⟨hd, k, j, τ, q1, q2, q3, q4, q5, q6⟩ := key p row hh hA hnr
    obtain ⟨hd', k', j', τ', q1', q2', q3', q4', q5', q6'⟩ := key p' row' hh' hA' hnr'
    obtain ⟨rfl, rfl⟩ := mul_add_inj q5 q5' (by omega : k * r.exVars.length + j = k' * r.exVars.length + j')
    have hag : hd'.inst τ' = hd'.inst τ := by
      refine HeadAtom.inst_congr hd' fun v hv => ?_
      have hvm : v ∈ r.fr cfg ++ r.exVars := (hx.mem_cols v).2 (List.mem_flatMap.2 ⟨hd', q1', hv⟩)
      rcases List.mem_append.1 hvm with hvf | hve
      · have := q2.frontier.symm.trans q2'.frontier
        rw [Option.some.injEq] at this
        exact (List.map_eq_map_iff.1 this v hvf).symm
      · obtain ⟨l, hl⟩ := List.getElem?_of_mem hve
        rw [q2.nulls l v hl, q2'.nulls l v hl]
    refine ⟨r, hd, hd', τ, hr, q1, q1', q3, q4, q3', by rw [q4', hag], ?_, ?_⟩
    · intro v hv
      obtain ⟨l, hl⟩ := List.getElem?_of_mem hv
      exact ⟨_, by omega, q2.nulls l v hl⟩
    · intro v hv w hw hvw
      obtain ⟨l, hl⟩ := List.getElem?_of_mem hv
      obtain ⟨l', hl'⟩ := List.getElem?_of_mem hw
      rw [q2.nulls l v hl, q2.nulls l' w hl'] at hvw
      have := NullDom.null_inj _ _ hvw
      have : l = l' := by omega
      subst this
      rw [hl, Option.some.injEq] at hl'
      exact hl'

end
end Verif
