import Verif.RestrictedHead
import Verif.PropEngine

/-!
# The engine with existential rules

One iteration of the engine for arbitrary rules: the invariants of the engine are kept, and new nulls do not occur in the
facts that are already stored.
-/

set_option linter.unusedSimpArgs false
set_option linter.unusedSectionVars false

namespace Verif
variable {α : Type} [DecidableEq α] [Dom α]

/-! ## Values that are known -/

/-- Nulls are different from each other and from the Boolean values, and functions and aggregates do not invent nulls. -/
class NullDom (α : Type) [Dom α] : Prop where
  null_inj : ∀ m n : Nat, (Dom.null m : α) = Dom.null n → m = n
  tru_ne : ∀ n : Nat, (Dom.null n : α) ≠ Dom.tru
  fls_ne : ∀ n : Nat, (Dom.null n : α) ≠ Dom.fls
  app_null : ∀ k l (n : Nat), Dom.app k l = some (Dom.null n : α) → Dom.null n ∈ l
  agg_null : ∀ k l (n : Nat), Dom.agg k l = some (Dom.null n : α) → ∃ row ∈ l, Dom.null n ∈ row

/-- The value is not a null with a number `≥ B`. -/
def Known (B : Nat) (a : α) : Prop := ∀ n, a = Dom.null n → n < B

theorem Known.mono {B B' : Nat} (h : B ≤ B') {a : α} (ha : Known B a) : Known B' a :=
  fun n hn => lt_of_lt_of_le (ha n hn) h

namespace Operation
mutual
/-- the constants of a term -/
def consts : Operation α → List α
  | .var _ => []
  | .const a => [a]
  | .equal l r => l.consts ++ r.consts
  | .op _ subterms => constsList subterms
/-- the constants of a list of terms -/
def constsList : List (Operation α) → List α
  | [] => []
  | t :: ts => t.consts ++ constsList ts
end

variable [NullDom α]

mutual
theorem eval_known {B : Nat} {σ : Variable → α} : (o : Operation α) → (∀ v ∈ o.vars, Known B (σ v)) →
    (∀ c ∈ o.consts, Known B c) → ∀ a, o.eval σ = some a → Known B a
  | .var v, h, _, a, ha => by
    simp only [eval, Option.some.injEq] at ha; subst ha; exact h v (by simp [vars])
  | .const c, _, h, a, ha => by
    simp only [eval, Option.some.injEq] at ha; subst ha; exact h c (by simp [consts])
  | .equal l r, _, _, a, ha => by
    simp only [eval] at ha
    intro n hn
    subst hn
    cases hl : l.eval σ <;> cases hr : r.eval σ <;> simp [hl, hr] at ha
    split at ha
    · exact absurd ha.symm (NullDom.tru_ne n)
    · exact absurd ha.symm (NullDom.fls_ne n)
  | .op k ts, h, hc, a, ha => by
    simp only [eval] at ha
    cases hl : evalList σ ts with
    | none => simp [hl] at ha
    | some l =>
      simp only [hl, Option.bind_eq_bind, Option.bind_some] at ha
      rintro n rfl
      have := NullDom.app_null k l n ha
      exact evalList_known ts (fun v hv => h v (by simpa [vars] using hv))
        (fun c hc' => hc c (by simpa [consts] using hc')) l hl _ this n rfl
theorem evalList_known {B : Nat} {σ : Variable → α} : (ts : List (Operation α)) →
    (∀ v ∈ varsList ts, Known B (σ v)) → (∀ c ∈ constsList ts, Known B c) →
    ∀ l, evalList σ ts = some l → ∀ a ∈ l, Known B a
  | [], _, _, l, hl, a, ha => by simp only [evalList, Option.some.injEq] at hl; subst hl; simp at ha
  | t :: ts, h, hc, l, hl, a, ha => by
    simp only [evalList] at hl
    cases h1 : t.eval σ with
    | none => simp [h1] at hl
    | some b =>
      cases h2 : evalList σ ts with
      | none => simp [h1, h2] at hl
      | some l' =>
        simp [h1, h2] at hl
        subst hl
        rcases List.mem_cons.1 ha with rfl | ha
        · exact eval_known t (fun v hv => h v (by simp [varsList, hv])) (fun c hc' => hc c (by simp [constsList, hc'])) _ h1
        · exact evalList_known ts (fun v hv => h v (by simp [varsList, hv]))
            (fun c hc' => hc c (by simp [constsList, hc'])) l' h2 a ha
end
end Operation

/-- The constants of the rule are not nulls. -/
structure NoNulls (r : NRule α) : Prop where
  ops : ∀ o ∈ r.operations, ∀ c ∈ o.consts, ∀ n, c ≠ Dom.null n
  head : ∀ h ∈ r.head, ∀ c, Primitive.const c ∈ h.terms → ∀ n, c ≠ Dom.null n

/-- All values in the facts are known. -/
def KnownFacts (B : Nat) (I : Interp α) : Prop := ∀ p row, I p row → ∀ a ∈ row, Known B a

section known
variable [NullDom α] {r : NRule α} {B : Nat}

theorem BodyHolds.known (hr : NoNulls r) {P N : Interp α} (hP : KnownFacts B P) {σ : Variable → α}
    (hb : BodyHolds r P N σ) {v : Variable} (hv : SafeVar r.positive r.operations v) : Known B (σ v) := by
  induction hv with
  | atom ha hva => exact hP _ _ (hb.pos _ ha) _ (List.mem_map_of_mem hva)
  | @assign o e v ho he hw ih =>
    have hs : ∀ w ∈ o.vars, SafeVar r.positive r.operations w := by
      intro w hw'
      rcases (Operation.vars_assignment he w).1 hw' with rfl | hw'
      · exact .assign ho he hw
      · exact hw w hw'
    have h1 := (Operation.eval_assignment he).1 (hb.ops o ho hs)
    refine Operation.eval_known e ih (fun c hc n hn => ?_) _ h1
    refine absurd hn (hr.ops o ho c ?_ n)
    unfold Operation.variableAssignment at he
    split at he
    · simp only [Option.some.injEq, Prod.mk.injEq] at he
      obtain ⟨rfl, rfl⟩ := he
      simp [Operation.consts, hc]
    · simp only [Option.some.injEq, Prod.mk.injEq] at he
      obtain ⟨rfl, rfl⟩ := he
      simp [Operation.consts, hc]
    · cases he

theorem HeadAtom.inst_known (hr : NoNulls r) {h : HeadAtom α} (hm : h ∈ r.head) {σ : Variable → α}
    (hv : ∀ v ∈ h.vars, Known B (σ v)) : ∀ a ∈ h.inst σ, Known B a := by
  intro a ha
  obtain ⟨t, ht, rfl⟩ := List.mem_map.1 ha
  cases t with
  | const c => intro n hn; exact absurd hn (hr.head h hm c ht n)
  | var v => exact hv v (List.mem_filterMap.2 ⟨_, ht, rfl⟩)

theorem consts_assignment {o e : Operation α} {v : Variable} (h : o.variableAssignment = some (v, e)) :
    ∀ c ∈ e.consts, c ∈ o.consts := by
  intro c hc
  unfold Operation.variableAssignment at h
  split at h
  · simp only [Option.some.injEq, Prod.mk.injEq] at h
    obtain ⟨rfl, rfl⟩ := h
    simp [Operation.consts, hc]
  · simp only [Option.some.injEq, Prod.mk.injEq] at h
    obtain ⟨rfl, rfl⟩ := h
    simp [Operation.consts, hc]
  · cases h

/-- A rule without existential variables only derives known values. -/
theorem DerivesWith.known (hr : NoNulls r) {arity : Tag → Nat} (hh : HeadOK r arity) (hex : r.isExistential = false)
    {P N : Interp α} (hP : KnownFacts B P) {Q : (Variable → α) → Prop} (hQ : ∀ σ, Q σ → BodyHolds r P N σ)
    {p : Tag} {row : List α} (hd : DerivesWith r Q p row) : ∀ a ∈ row, Known B a := by
  cases hd with
  | @plain σ h i h1 h2 h3 =>
    have hm := List.mem_of_getElem? h2
    exact HeadAtom.inst_known hr hm fun v hv =>
      (hQ _ h1).known hr hP (hh.headSafe i h h2 h3 v hv ((not_isExistential hex hm).2 v hv))
  | @agg σ h i a h1 h2 h3 =>
    have hm := List.mem_of_getElem? h3
    obtain ⟨⟨τ, l, g1, g2, g3, g4⟩, h4⟩ := h1
    have hgrp : ∀ v ∈ a.groupBy, Known B (σ v) := fun v hv => by
      rw [← g2 v hv]; exact (hQ _ g1).known hr hP ((hh.agg a i h2).groupSafe v hv)
    have hout : Known B (σ a.output) := by
      intro n hn
      rw [hn] at g4
      obtain ⟨x, hx, hnx⟩ := NullDom.agg_null _ _ _ g4
      obtain ⟨τ', t1, -, rfl⟩ := (g3 x).1 hx
      obtain ⟨v, hv, hvn⟩ := List.mem_map.1 hnx
      exact (hQ _ t1).known hr hP ((hh.agg a i h2).inputSafe v hv) n hvn
    refine HeadAtom.inst_known hr hm fun v hv => ?_
    rcases hh.aggSafe a i h h2 h3 v hv with h5 | rfl | ⟨o, e, h5, h6⟩
    · exact hgrp v h5
    · exact hout
    · obtain ⟨v', e', h7, h8, -, -⟩ := (hh.agg a i h2).assigns o h5
      rw [h6] at h7
      simp only [Option.some.injEq, Prod.mk.injEq] at h7
      obtain ⟨rfl, rfl⟩ := h7
      have h9 := (Operation.eval_assignment h6).1 (h4 o h5.1 h5.2.1 h5.2.2)
      refine Operation.eval_known e (fun w hw => ?_) (fun c hc n hn => ?_) _ h9
      · rcases h8 w hw with h10 | rfl
        · exact hgrp w h10
        · exact hout
      · exact absurd hn (hr.ops o h5.1 c (consts_assignment h6 c hc) n)

end known

/-! ## One iteration -/

namespace Eng

theorem combineTables_nextNull (st : Eng α) (p : Tag) (lo hi : Nat) : (st.combineTables p lo hi).nextNull = st.nextNull := by
  unfold combineTables
  simp only
  split
  · rfl
  · split <;> rfl

theorem defrag_nextNull (st : Eng α) (ps : List Tag) : (st.defrag ps).nextNull = st.nextNull := by
  induction ps generalizing st with
  | nil => rfl
  | cons p ps ih =>
    show ((st.defragOne p).defrag ps).nextNull = _
    rw [ih]
    unfold defragOne
    split
    · exact combineTables_nextNull _ _ _ _
    · rfl

variable {arity : Tag → Nat}

/-- One iteration of the engine for any rule, provided that the tables of the rule application are new. -/
theorem iterate_general {rules : List (NRule α)} {cfgs : List RuleCfg} {st : Eng α} (h : st.OK arity) {i : Nat}
    {r : NRule α} {cfg : RuleCfg} (hri : rules[i]? = some r) (hc : cfgs[i]? = some cfg)
    (k1 : ((executeRule st.source st.cur (st.last i) r cfg st.nextNull).1.map (·.1)).Nodup)
    (hlen : ∀ p row, InTables (executeRule st.source st.cur (st.last i) r cfg st.nextNull).1 p row → row.length = arity p)
    (hnew : ∀ p row, InTables (executeRule st.source st.cur (st.last i) r cfg st.nextNull).1 p row → ¬ st.Facts p row) :
    ∃ st' b, st.iterate rules cfgs i = some (st', b) ∧ st'.OK arity ∧ st'.cur = st.cur + 1 ∧
      (∀ j, st'.last j = if j = i then st.cur else st.last j) ∧
      (∀ p s row, st'.At p s row ↔ st.At p s row ∨
        (s = st.cur ∧ InTables (executeRule st.source st.cur (st.last i) r cfg st.nextNull).1 p row)) ∧
      (b = true ↔ ∃ p row, InTables (executeRule st.source st.cur (st.last i) r cfg st.nextNull).1 p row) ∧
      st'.nextNull = (executeRule st.source st.cur (st.last i) r cfg st.nextNull).2 := by
  set res := executeRule st.source st.cur (st.last i) r cfg st.nextNull with hres
  have ktab := executeRule_tables st.source st.cur (st.last i) r cfg st.nextNull
  rw [← hres] at ktab
  obtain ⟨a1, a2, a3, a4, a5⟩ := addResults_spec h.core res.1 k1 (fun t ht => (ktab t ht).2)
    (fun p e he => Or.inl (h.steps p e he))
  set st1 : Eng α := { st.addResults res.1 with
    history := st.history ++ [i]
    last := fun j => if j = i then st.cur else st.last j
    cur := st.cur + 1
    nextNull := res.2 } with hst1
  have core1 : st1.Core := ⟨a1.handler, a1.ids, a1.nodup⟩
  obtain ⟨d1, d2, d3, d4, d5⟩ := defrag_spec core1 (res.1.map (·.1))
  have hat : ∀ p s row, (st1.defrag (res.1.map (·.1))).At p s row ↔
      st.At p s row ∨ (s = st.cur ∧ InTables res.1 p row) := by
    intro p s row
    rw [d2]
    show (st.addResults res.1).At p s row ↔ _
    rw [a4]
  have hstep : st.iterate rules cfgs i = some (st1.defrag (res.1.map (·.1)), !(res.1.map (·.1)).isEmpty) := by
    simp only [iterate, step, hri, hc, Option.bind_eq_bind, Option.bind_some, Option.pure_def]
    rfl
  refine ⟨_, _, hstep, ?_, d4, ?_, hat, ?_, defrag_nextNull _ _⟩
  · have hcur : (st1.defrag (res.1.map (·.1))).cur = st.cur + 1 := d4
    refine ⟨d1.handler, d1.ids, ?_, ?_, ?_, ?_, ?_, d1.nodup⟩
    · intro p e he
      rw [d3] at he
      rw [hcur]
      rcases a5 p e he with he | he
      · have := h.steps p e he; omega
      · omega
    · rw [hcur]; omega
    · intro j
      rw [d5, hcur]
      show (if j = i then st.cur else st.last j) < _
      split
      · omega
      · have := h.last j; omega
    · intro p s row hrow
      rcases (hat p s row).1 hrow with h1 | ⟨-, h1⟩
      · exact h.len p s row h1
      · exact hlen p row h1
    · intro p s s' row h1 h2
      rcases (hat p s row).1 h1 with h1 | ⟨h1, h1'⟩
      · rcases (hat p s' row).1 h2 with h2 | ⟨h2, h2'⟩
        · exact h.unique p s s' row h1 h2
        · exact absurd ⟨s, h1⟩ (hnew p row h2')
      · rcases (hat p s' row).1 h2 with h2 | ⟨h2, h2'⟩
        · exact absurd ⟨s', h2⟩ (hnew p row h1')
        · rw [h1, h2]
  · intro j; rw [d5]
  · rw [Bool.not_eq_true', List.isEmpty_eq_false_iff]
    constructor
    · intro hne
      cases hl : res.1 with
      | nil => rw [hl] at hne; simp at hne
      | cons t ts =>
        have ht : t ∈ res.1 := by rw [hl]; exact List.mem_cons_self
        obtain ⟨h1, -⟩ := ktab t ht
        obtain ⟨row, hrow⟩ := List.exists_mem_of_ne_nil _ h1
        exact ⟨t.1, row, t.2, by rw [← hl]; exact ht, hrow⟩
    · rintro ⟨p, row, t, ht, -⟩
      intro hnil
      rw [List.map_eq_nil_iff] at hnil
      rw [hnil] at ht; simp at ht

/-- All nulls in the facts have a number below the next unused one. -/
def Fresh (st : Eng α) : Prop := KnownFacts st.nextNull st.Facts

end Eng

/-- Programs with existential rules.  The helper predicates are different from each other and do not occur in the program. -/
structure XProgOK (rules : List (NRule α)) (cfgs : List RuleCfg) (arity : Tag → Nat) : Prop where
  len : cfgs.length = rules.length
  rule : ∀ r ∈ rules, RuleOK r arity ∧ NoNulls r
  datalog : ∀ r ∈ rules, r.isExistential = false → HeadOK r arity
  ex : ∀ (i : Nat) r cfg, rules[i]? = some r → cfgs[i]? = some cfg → r.isExistential = true → ExOK r cfg arity
  satFresh : ∀ cfg ∈ cfgs, ∀ r ∈ rules, cfg.sat ∉ r.predsHead ∧ cfg.sat ∉ r.predsPositive ∧ cfg.sat ∉ r.predsNegative
  satInj : ∀ (i j : Nat) cfg cfg', cfgs[i]? = some cfg → cfgs[j]? = some cfg' → cfg.sat = cfg'.sat → i = j

/-- a helper predicate -/
def IsHelper (cfgs : List RuleCfg) (p : Tag) : Prop := ∃ cfg ∈ cfgs, p = cfg.sat

/-- What an iteration adds: for rules without existential variables the new consequences; for an existential rule the facts
given by `ExAdded`, where `U` lists the frontier values that get nulls. -/
inductive Step (st : Eng α) (i : Nat) (r : NRule α) (cfg : RuleCfg) : Interp α → Nat → Prop
  | datalog : r.isExistential = false → Step st i r cfg (st.Added r i) st.nextNull
  | ex {U : List (List α)} : r.isExistential = true → U.Nodup →
      (∀ x, x ∈ U ↔ Unsat r cfg st.At (st.last i) st.cur x) →
      Step st i r cfg (ExAdded r cfg st.At (st.last i) st.cur st.nextNull U) (st.nextNull + r.exVars.length * U.length)

section
variable {rules : List (NRule α)} {cfgs : List RuleCfg} {arity : Tag → Nat} [NullDom α]

theorem NullVal.known {st : Eng α} (hf : KnownFacts st.nextNull (Before st.At st.cur)) {i : Nat} {r : NRule α} {cfg : RuleCfg} (hn : NoNulls r)
    (h : ExOK r cfg arity) {U : List (List α)} (hU : ∀ x, x ∈ U ↔ Unsat r cfg st.At (st.last i) st.cur x)
    {k : Nat} {τ : Variable → α} (hτ : NullVal r cfg st.nextNull U k τ) {v : Variable}
    (hv : v ∈ r.head.flatMap (·.vars)) : Known (st.nextNull + r.exVars.length * U.length) (τ v) := by
  rw [← h.mem_cols, List.mem_append] at hv
  rcases hv with hv | hv
  · obtain ⟨⟨σ, h1, h2⟩, -⟩ := (hU _).1 (List.mem_of_getElem? hτ.frontier)
    rw [List.map_eq_map_iff.1 h2 v hv]
    obtain ⟨hd, h3, h4⟩ := List.mem_flatMap.1 ((h.mem_fr v).1 hv).1
    obtain ⟨a, ha, hva⟩ := List.mem_flatMap.1 (h.frontier hd h3 v h4 ((h.mem_fr v).1 hv).2)
    exact (h1.1.known hn hf (.atom ha hva)).mono (Nat.le_add_right _ _)
  · obtain ⟨j, hj⟩ := List.getElem?_of_mem hv
    rw [hτ.nulls j v hj]
    intro n hn'
    have := NullDom.null_inj _ _ hn'
    subst this
    have h1 := (List.getElem?_eq_some_iff.1 hj).1
    have h2 := (List.getElem?_eq_some_iff.1 hτ.frontier).1
    have h3 : k * r.exVars.length + j < r.exVars.length * U.length := by
      calc k * r.exVars.length + j < k * r.exVars.length + r.exVars.length := by omega
        _ = (k + 1) * r.exVars.length := by rw [Nat.succ_mul]
        _ ≤ U.length * r.exVars.length := Nat.mul_le_mul_right _ h2
        _ = _ := Nat.mul_comm _ _
    omega

/-- The rows that an existential rule adds with nulls are new. -/
theorem ExAdded.not_facts {st : Eng α} (ho : st.OK arity) (hf : st.Fresh) {i : Nat} {r : NRule α} {cfg : RuleCfg}
    {U : List (List α)} (hU : ∀ x, x ∈ U ↔ Unsat r cfg st.At (st.last i) st.cur x) {p : Tag} {row : List α}
    (ha : ExAdded r cfg st.At (st.last i) st.cur st.nextNull U p row) : ¬ st.Facts p row := by
  cases ha with
  | plain _ _ _ h4 => rwa [ho.before_iff] at h4
  | @null hd k τ h1 h2 h3 =>
    intro hc
    obtain ⟨v, hv⟩ := List.exists_mem_of_ne_nil _ h2
    have hvv : v ∈ hd.vars := List.mem_of_mem_filter hv
    have hve : v ∈ r.exVars := by
      unfold NRule.exVars
      rw [List.mem_dedup]
      exact List.mem_flatMap.2 ⟨hd, h1, hv⟩
    obtain ⟨j, hj⟩ := List.getElem?_of_mem hve
    obtain ⟨t, ht, htv⟩ := List.mem_filterMap.1 hvv
    have : τ v ∈ hd.inst τ := by
      refine List.mem_map.2 ⟨t, ht, ?_⟩
      cases t with
      | const c => simp [Primitive.var?] at htv
      | var w => simp [Primitive.var?] at htv; subst htv; rfl
    have hk := hf _ _ hc _ this _ (h3.nulls j v hj)
    omega
  | unsat h1 =>
    rw [← ho.before_iff]
    exact ((hU _).1 h1).2.1
  | newSat _ _ h2 => rwa [ho.before_iff] at h2

/-- **One iteration of the engine**, for any rule of the program. -/
theorem Eng.iterate_x (hp : XProgOK rules cfgs arity) {st : Eng α} (ho : st.OK arity) (hf : st.Fresh) {i : Nat}
    (hi : i < rules.length) :
    ∃ r cfg st' b A n, rules[i]? = some r ∧ cfgs[i]? = some cfg ∧ st.iterate rules cfgs i = some (st', b) ∧
      st'.OK arity ∧ st'.Fresh ∧ st'.cur = st.cur + 1 ∧ (∀ j, st'.last j = if j = i then st.cur else st.last j) ∧
      Step st i r cfg A n ∧ st'.nextNull = n ∧ st.nextNull ≤ n ∧
      (∀ p s row, st'.At p s row ↔ st.At p s row ∨ (s = st.cur ∧ A p row)) ∧ (b = true ↔ ∃ p row, A p row) ∧
      (∀ p row, A p row → ¬ st.Facts p row) ∧ (∀ p row, A p row → p ∈ r.predsHead ∨ p = cfg.sat) := by
  obtain ⟨r, hr⟩ : ∃ r, rules[i]? = some r := ⟨_, List.getElem?_eq_getElem hi⟩
  obtain ⟨cfg, hc⟩ : ∃ c, cfgs[i]? = some c := ⟨_, List.getElem?_eq_getElem (by rw [hp.len]; exact hi)⟩
  have hm := List.mem_of_getElem? hr
  obtain ⟨ok1, ok2⟩ := hp.rule r hm
  have hf' : KnownFacts st.nextNull (Before st.At st.cur) := by
    intro p row hrow; exact hf p row ((ho.before_iff p row).1 hrow)
  -- what has to be checked
  have main : ∀ (A : Interp α) n, Step st i r cfg A n → st.nextNull ≤ n →
      ((executeRule st.source st.cur (st.last i) r cfg st.nextNull).1.map (·.1)).Nodup →
      (executeRule st.source st.cur (st.last i) r cfg st.nextNull).2 = n →
      (∀ p row, InTables (executeRule st.source st.cur (st.last i) r cfg st.nextNull).1 p row ↔ A p row) →
      (∀ p row, A p row → row.length = arity p) → (∀ p row, A p row → ¬ st.Facts p row) →
      (∀ p row, A p row → ∀ a ∈ row, Known n a) → (∀ p row, A p row → p ∈ r.predsHead ∨ p = cfg.sat) →
      ∃ r cfg st' b A n, rules[i]? = some r ∧ cfgs[i]? = some cfg ∧ st.iterate rules cfgs i = some (st', b) ∧
      st'.OK arity ∧ st'.Fresh ∧ st'.cur = st.cur + 1 ∧ (∀ j, st'.last j = if j = i then st.cur else st.last j) ∧
      Step st i r cfg A n ∧ st'.nextNull = n ∧ st.nextNull ≤ n ∧
      (∀ p s row, st'.At p s row ↔ st.At p s row ∨ (s = st.cur ∧ A p row)) ∧ (b = true ↔ ∃ p row, A p row) ∧
      (∀ p row, A p row → ¬ st.Facts p row) ∧ (∀ p row, A p row → p ∈ r.predsHead ∨ p = cfg.sat) := by
    intro A n hs hle k1 k2 k3 k4 k5 k6 k7
    obtain ⟨st', b, g1, g2, g3, g4, g5, g6, g7⟩ := Eng.iterate_general (rules := rules) (cfgs := cfgs) ho hr hc k1
      (fun p row h => k4 p row ((k3 p row).1 h)) (fun p row h => k5 p row ((k3 p row).1 h))
    refine ⟨r, cfg, st', b, A, n, hr, hc, g1, g2, ?_, g3, g4, hs, by rw [g7, k2], hle, ?_, ?_, k5, k7⟩
    · rintro p row ⟨s, hat⟩ a ha
      rw [g7, k2]
      rcases (g5 p s row).1 hat with h1 | ⟨-, h1⟩
      · exact (hf p row ⟨s, h1⟩ a ha).mono hle
      · exact k6 p row ((k3 p row).1 h1) a ha
    · intro p s row; rw [g5, k3]
    · rw [g6]; simp only [k3]
  by_cases hex : r.isExistential
  · have hx := hp.ex i r cfg hr hc hex
    obtain ⟨U, u1, u2, u3, u4, u5⟩ := executeRule_ex_spec ho.srcOK (ho.last i) ok1 hx hex st.nextNull
    refine main _ _ (.ex hex u1 u2) (Nat.le_add_right _ _) u4 u3 u5 ?_ ?_ ?_ ?_
    · intro p row ha
      cases ha with
      | plain h1 _ _ _ => simp [HeadAtom.inst, hx.headArity _ h1]
      | null h1 _ _ => simp [HeadAtom.inst, hx.headArity _ h1]
      | unsat h1 => obtain ⟨⟨σ, -, rfl⟩, -⟩ := (u2 _).1 h1; rw [hx.satArity]; simp [NRule.fr]
      | newSat _ h1 _ => obtain ⟨σ, rfl, -⟩ := h1; rw [hx.satArity]; simp [NRule.fr]
    · intro p row ha; exact ha.not_facts ho hf u2
    · intro p row ha
      have hsat : ∀ τ : Variable → α, (∀ hd ∈ r.head, Before st.At st.cur hd.pred (hd.inst τ)) →
          ∀ v ∈ r.fr cfg, Known st.nextNull (τ v) := by
        intro τ hτ v hv
        obtain ⟨hd, h3, h4⟩ := List.mem_flatMap.1 ((hx.mem_fr v).1 hv).1
        obtain ⟨t, ht, htv⟩ := List.mem_filterMap.1 h4
        refine hf' _ _ (hτ hd h3) _ (List.mem_map.2 ⟨t, ht, ?_⟩)
        cases t with
        | const c => simp [Primitive.var?] at htv
        | var w => simp [Primitive.var?] at htv; subst htv; rfl
      have hmatch : ∀ σ, NewMatch r st.At (st.last i) st.cur σ → ∀ hd ∈ r.head, ∀ v ∈ hd.vars, v.isExistential = false →
          Known st.nextNull (σ v) := by
        intro σ hσ hd h3 v h4 h5
        obtain ⟨a, ha, hva⟩ := List.mem_flatMap.1 (hx.frontier hd h3 v h4 h5)
        exact hσ.1.known ok2 hf' (.atom ha hva)
      cases ha with
      | @plain hd σ h1 h2 h3 h4 =>
        intro a ha
        refine Known.mono (Nat.le_add_right _ _) (HeadAtom.inst_known ok2 h1 (fun v hv => hmatch σ h3 hd h1 v hv ?_) a ha)
        unfold HeadAtom.varsExistential at h2
        rw [List.filter_eq_nil_iff] at h2
        simpa using h2 v hv
      | null h1 _ h3 =>
        exact HeadAtom.inst_known ok2 h1 fun v hv => h3.known hf' ok2 hx u2 (List.mem_flatMap.2 ⟨_, h1, hv⟩)
      | unsat h1 =>
        obtain ⟨⟨σ, h2, rfl⟩, -⟩ := (u2 _).1 h1
        intro a ha
        obtain ⟨v, hv, rfl⟩ := List.mem_map.1 ha
        obtain ⟨h5, h6⟩ := (hx.mem_fr v).1 hv
        obtain ⟨hd, h3, h4⟩ := List.mem_flatMap.1 h5
        exact (hmatch σ h2 hd h3 v h4 h6).mono (Nat.le_add_right _ _)
      | newSat _ h1 _ =>
        obtain ⟨τ, rfl, h2, -⟩ := h1
        intro a ha
        obtain ⟨v, hv, rfl⟩ := List.mem_map.1 ha
        exact (hsat τ h2 v hv).mono (Nat.le_add_right _ _)
    · intro p row ha
      cases ha with
      | plain h1 _ _ _ => exact Or.inl (List.mem_map.2 ⟨_, h1, rfl⟩)
      | null h1 _ _ => exact Or.inl (List.mem_map.2 ⟨_, h1, rfl⟩)
      | unsat h1 => exact Or.inr rfl
      | newSat _ h1 _ => exact Or.inr rfl
  · have hex' : r.isExistential = false := by simpa using hex
    have hh := hp.datalog r hm hex'
    obtain ⟨k1, -, k3⟩ := executeRule_keys st.source st.cur (st.last i) r hex' cfg st.nextNull
    refine main _ _ (.datalog hex') le_rfl k1 k3 ?_ ?_ ?_ ?_ ?_
    · intro p row
      rw [executeRule_spec ho.srcOK (ho.last i) r ok1 hh hex' cfg st.nextNull p row, ho.before_iff]
      rfl
    · intro p row ha; exact (ha.1.arity hh).1
    · intro p row ha; exact ha.2
    · intro p row ha
      exact ha.1.known ok2 hh hex' hf' fun σ hσ => hσ.1
    · intro p row ha; exact Or.inl (ha.1.arity hh).2

end
end Verif
