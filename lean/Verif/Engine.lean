import Verif.Subtables
import Verif.HeadEval

/-!
# The execution engine

Model of `ExecutionEngine` (/repo/nemo/src/execution/execution_engine.rs) and of the part of `TableManager`
(/repo/nemo/src/table_manager.rs) that it uses.  The state of the rule selection strategy is abstract
here; see `Strategies.lean`.
-/

set_option linter.unusedSimpArgs false
set_option linter.unusedSectionVars false

namespace Verif
variable {α : Type} [DecidableEq α] [Dom α]

/-- The state of `ExecutionEngine` (execution_engine.rs:52-79) with its `TableManager`
(table_manager.rs:332-341) and database.  Tables are identified by their index in `tables`. -/
structure Eng (α : Type) where
  tables : List (List (List α))
  handlers : Tag → Handler Nat
  cur : Nat
  last : Nat → Nat
  history : List Nat
  frag : Tag → Nat
  lastUnion : Tag → Option Nat
  nextNull : Nat

namespace Eng

/-- the rows of a table of the database -/
def rows (st : Eng α) (id : Nat) : List (List α) := (st.tables[id]?).getD []

/-- `tables_in_range` (table_manager.rs:627-632) and the union of these tables. A panic in
`cover_range` is modelled by the empty list (it does not happen, see `Handler.coverRange_spec`). -/
def source (st : Eng α) : Source α := fun p lo hi => (((st.handlers p).coverRange lo hi).getD []).flatMap st.rows

/-- `add_subtable` (table_manager.rs:490-497) for a newly registered table -/
def addSubtable (st : Eng α) (p : Tag) (step : Nat) (t : List (List α)) : Eng α :=
  { st with
    tables := st.tables ++ [t]
    handlers := fun q => if q = p then (st.handlers p).addSingle step st.tables.length else st.handlers q }

/-- `TableManager::execute_plan` (table_manager.rs:683-701) after the evaluation of the plan -/
def addResults (st : Eng α) : List (Tag × List (List α)) → Eng α
  | [] => st
  | (p, t) :: ts => addResults (st.addSubtable p st.cur t) ts

/-- `combine_tables` (table_manager.rs:635-675) -/
def combineTables (st : Eng α) (p : Tag) (lo hi : Nat) : Eng α :=
  let ids := ((st.handlers p).coverRange lo hi).getD []
  if ids.length = 1 then st
  else
    let t := (ids.flatMap st.rows).dedup
    if t = [] then st
    else
      { st with
        tables := st.tables ++ [t]
        handlers := fun q =>
          if q = p then (st.handlers p).addCombined lo hi st.tables.length else st.handlers q }

/-- `step` (execution_engine.rs:222-261); returns the updated predicates. -/
def step (rules : List (NRule α)) (cfgs : List RuleCfg) (st : Eng α) (i : Nat) : Option (Eng α × List Tag) := do
  let r ← rules[i]?
  let cfg ← cfgs[i]?
  let res := executeRule st.source st.cur (st.last i) r cfg st.nextNull
  let st' := st.addResults res.1
  return ({ st' with
    history := st.history ++ [i]
    last := fun j => if j = i then st.cur else st.last j
    cur := st.cur + 1
    nextNull := res.2 }, res.1.map (·.1))

/-- `MAX_FRAGMENTATION` (execution_engine.rs:34) -/
def maxFragmentation : Nat := 8

/-- One iteration of `defrag` (execution_engine.rs:264-289) -/
def defragOne (st : Eng α) (p : Tag) : Eng α :=
  if st.frag p + 1 = maxFragmentation then
    let start := match st.lastUnion p with | some n => n + 1 | none => 0
    let st' := st.combineTables p start (st.cur + 1)
    { st' with
      frag := fun q => if q = p then 0 else st'.frag q
      lastUnion := fun q => if q = p then some st.cur else st'.lastUnion q }
  else { st with frag := fun q => if q = p then st.frag p + 1 else st.frag q }

/-- `defrag` (execution_engine.rs:263-292) -/
def defrag (st : Eng α) (ps : List Tag) : Eng α := ps.foldl defragOne st

/-- One iteration of the loop of `execute` (execution_engine.rs:334-339): apply a rule; the Boolean value
says whether there were new derivations. -/
def iterate (rules : List (NRule α)) (cfgs : List RuleCfg) (st : Eng α) (i : Nat) : Option (Eng α × Bool) := do
  let (st', updated) ← st.step rules cfgs i
  return (st'.defrag updated, !updated.isEmpty)

/-- `add_edb` (table_manager.rs:501-517): one table for all sources, at step 0. -/
def addEdb (st : Eng α) (p : Tag) (t : List (List α)) : Eng α := st.addSubtable p 0 t.dedup

/-- `initialize` (execution_engine.rs:126-160) for the given facts by predicate, which must be different -/
def init (edb : List (Tag × List (List α))) : Eng α :=
  edb.foldl (fun st x => st.addEdb x.1 x.2)
    { tables := [], handlers := fun _ => ⟨[], []⟩, cur := 1, last := fun _ => 0, history := [2 ^ 64 - 1],
      frag := fun _ => 0, lastUnion := fun _ => none, nextNull := 0 }

/-! ## The facts stored by the engine -/

/-- the facts that were added in a step -/
def At (st : Eng α) (p : Tag) (s : Nat) (row : List α) : Prop :=
  ∃ e ∈ (st.handlers p).single, e.1 = s ∧ row ∈ st.rows e.2

/-- all facts: what `predicate_rows` (execution_engine.rs:367-376) returns -/
def Facts (st : Eng α) : Interp α := fun p row => ∃ s, st.At p s row

/-- the invariant of the engine -/
structure OK (st : Eng α) (arity : Tag → Nat) : Prop where
  handler : ∀ p, (st.handlers p).OK (fun id => {x | x ∈ st.rows id})
  ids : ∀ p, (∀ e ∈ (st.handlers p).single, e.2 < st.tables.length) ∧
    ∀ c ∈ (st.handlers p).combined, c.2 < st.tables.length
  steps : ∀ p, ∀ e ∈ (st.handlers p).single, e.1 < st.cur
  pos : 0 < st.cur
  last : ∀ i, st.last i < st.cur
  len : ∀ p s row, st.At p s row → row.length = arity p
  unique : ∀ p s s' row, st.At p s row → st.At p s' row → s = s'
  nodup : ∀ id, (st.rows id).Nodup

variable {arity : Tag → Nat}

theorem OK.mem_source {st : Eng α} (h : ∀ p, (st.handlers p).OK (fun id => {x | x ∈ st.rows id}))
    (p : Tag) (lo hi : Nat) (row : List α) :
    row ∈ st.source p lo hi ↔ ∃ s, lo ≤ s ∧ s < hi ∧ st.At p s row := by
  obtain ⟨ids, e1, e2⟩ := Handler.coverRange_spec (h p) lo hi
  simp only [source, e1, Option.getD_some, List.mem_flatMap]
  have := e2 row
  simp only [Set.mem_ofPred_eq] at this
  rw [this]
  constructor
  · rintro ⟨e, h1, h2, h3, h4⟩; exact ⟨e.1, h2, h3, e, h1, rfl, h4⟩
  · rintro ⟨s, h1, h2, e, h3, rfl, h4⟩; exact ⟨e, h3, h1, h2, h4⟩

theorem OK.srcOK {st : Eng α} (h : st.OK arity) : SrcOK st.source st.At arity st.cur :=
  ⟨fun p lo hi row _ => OK.mem_source h.handler p lo hi row, h.len⟩

theorem rows_append (st : Eng α) (t : List (List α)) (id : Nat) (h : id < st.tables.length) :
    ((st.tables ++ [t])[id]?).getD [] = st.rows id := by
  rw [List.getElem?_append_left h]; rfl

theorem rows_append_nodup (st : Eng α) (t : List (List α)) (h : ∀ id, (st.rows id).Nodup) (ht : t.Nodup) (id : Nat) :
    (((st.tables ++ [t])[id]?).getD []).Nodup := by
  rcases Nat.lt_trichotomy id st.tables.length with hl | rfl | hl
  · rw [rows_append st t id hl]; exact h id
  · simpa using ht
  · rw [List.getElem?_eq_none (by simp; omega)]; simp

/-- The invariants that do not depend on the steps: kept while tables are added -/
structure Core (st : Eng α) : Prop where
  handler : ∀ p, (st.handlers p).OK (fun id => {x | x ∈ st.rows id})
  ids : ∀ p, (∀ e ∈ (st.handlers p).single, e.2 < st.tables.length) ∧
    ∀ c ∈ (st.handlers p).combined, c.2 < st.tables.length
  nodup : ∀ id, (st.rows id).Nodup

theorem OK.core {st : Eng α} (h : st.OK arity) : st.Core := ⟨h.handler, h.ids, h.nodup⟩

/-- Handlers stay valid if the tables they refer to stay the same. -/
theorem handlerOK_congr {h : Handler Nat} {rows rows' : Nat → Set (List α)} (hok : h.OK rows)
    (hids : (∀ e ∈ h.single, rows e.2 = rows' e.2) ∧ ∀ c ∈ h.combined, rows c.2 = rows' c.2) : h.OK rows' := by
  refine ⟨hok.steps, fun c hc => ?_⟩
  obtain ⟨h1, h2, h3⟩ := hok.comb c hc
  refine ⟨h1, h2, ?_⟩
  rw [← hids.2 c hc, h3]
  ext x
  constructor
  · rintro ⟨i, h4, h5, e, h6, h7⟩
    exact ⟨i, h4, h5, e, h6, by rw [← hids.1 e (List.mem_of_getElem? h6)]; exact h7⟩
  · rintro ⟨i, h4, h5, e, h6, h7⟩
    exact ⟨i, h4, h5, e, h6, by rw [hids.1 e (List.mem_of_getElem? h6)]; exact h7⟩

theorem addSubtable_spec {st : Eng α} (h : st.Core) (p : Tag) (step : Nat) (t : List (List α)) (ht : t.Nodup)
    (hstep : ∀ e ∈ (st.handlers p).single, e.1 < step) :
    (st.addSubtable p step t).Core ∧
    (∀ q s row, (st.addSubtable p step t).At q s row ↔ st.At q s row ∨ (q = p ∧ s = step ∧ row ∈ t)) ∧
    (∀ q, ∀ e ∈ ((st.addSubtable p step t).handlers q).single, e ∈ (st.handlers q).single ∨ (q = p ∧ e.1 = step)) := by
  have hrows : ∀ id, id < st.tables.length → (st.addSubtable p step t).rows id = st.rows id :=
    fun id hid => rows_append st t id hid
  have hnew : (st.addSubtable p step t).rows st.tables.length = t := by
    simp [addSubtable, rows]
  have hok : ∀ q, (st.handlers q).OK (fun id => {x | x ∈ (st.addSubtable p step t).rows id}) := by
    intro q
    refine handlerOK_congr (h.handler q) ⟨fun e he => ?_, fun c hc => ?_⟩
    · rw [hrows _ ((h.ids q).1 e he)]
    · rw [hrows _ ((h.ids q).2 c hc)]
  have hs : ∀ q, ((st.addSubtable p step t).handlers q).single =
      if q = p then (st.handlers p).single ++ [(step, st.tables.length)] else (st.handlers q).single := by
    intro q; simp only [addSubtable]; split <;> rfl
  have hc : ∀ q, ((st.addSubtable p step t).handlers q).combined = (st.handlers q).combined := by
    intro q; simp only [addSubtable]; split
    · subst_vars; rfl
    · rfl
  have hsm : ∀ q e, e ∈ ((st.addSubtable p step t).handlers q).single ↔
      e ∈ (st.handlers q).single ∨ (q = p ∧ e = (step, st.tables.length)) := by
    intro q e; rw [hs]
    split
    · rename_i hq; subst hq; simp
    · rename_i hq; simp [hq]
  refine ⟨⟨?_, ?_, ?_⟩, ?_, ?_⟩
  · intro q
    by_cases hq : q = p
    · subst hq
      have : (st.addSubtable q step t).handlers q = (st.handlers q).addSingle step st.tables.length := by
        simp [addSubtable]
      rw [this]
      exact Handler.addSingle_ok (hok q) hstep
    · have : (st.addSubtable p step t).handlers q = st.handlers q := by simp [addSubtable, hq]
      rw [this]; exact hok q
  · intro q
    have hlen : (st.addSubtable p step t).tables.length = st.tables.length + 1 := by simp [addSubtable]
    rw [hlen]
    constructor
    · intro e he
      rcases (hsm q e).1 he with he | ⟨-, rfl⟩
      · have := (h.ids q).1 e he; omega
      · simp
    · intro c hc'
      rw [hc] at hc'
      have := (h.ids q).2 c hc'; omega
  · exact rows_append_nodup st t h.nodup ht
  · intro q s row
    constructor
    · rintro ⟨e, he, rfl, hr⟩
      rcases (hsm q e).1 he with he | ⟨rfl, rfl⟩
      · left; rw [hrows _ ((h.ids q).1 e he)] at hr; exact ⟨e, he, rfl, hr⟩
      · right; rw [hnew] at hr; exact ⟨rfl, rfl, hr⟩
    · rintro (⟨e, he, rfl, hr⟩ | ⟨rfl, rfl, hr⟩)
      · exact ⟨e, (hsm q e).2 (Or.inl he), rfl, by rw [hrows _ ((h.ids q).1 e he)]; exact hr⟩
      · exact ⟨_, (hsm q _).2 (Or.inr ⟨rfl, rfl⟩), rfl, by rw [hnew]; exact hr⟩
  · intro q e he
    rcases (hsm q e).1 he with he | ⟨h1, rfl⟩
    · exact Or.inl he
    · exact Or.inr ⟨h1, rfl⟩

@[simp] theorem addSubtable_cur (st : Eng α) (p : Tag) (s : Nat) (t : List (List α)) :
    (st.addSubtable p s t).cur = st.cur := rfl

theorem addResults_spec {st : Eng α} (h : st.Core) (ts : List (Tag × List (List α)))
    (hn : (ts.map (·.1)).Nodup) (ht : ∀ t ∈ ts, t.2.Nodup)
    (hstep : ∀ p, ∀ e ∈ (st.handlers p).single, e.1 < st.cur ∨ (e.1 = st.cur ∧ p ∉ ts.map (·.1))) :
    (st.addResults ts).Core ∧ (st.addResults ts).cur = st.cur ∧ (st.addResults ts).last = st.last ∧
    (∀ q s row, (st.addResults ts).At q s row ↔ st.At q s row ∨ (s = st.cur ∧ InTables ts q row)) ∧
    (∀ q, ∀ e ∈ ((st.addResults ts).handlers q).single, e ∈ (st.handlers q).single ∨ e.1 = st.cur) := by
  induction ts generalizing st with
  | nil => refine ⟨h, rfl, rfl, by simp [addResults, InTables], fun q e he => Or.inl he⟩
  | cons x ts ih =>
    obtain ⟨p, t⟩ := x
    simp only [List.map_cons, List.nodup_cons] at hn
    obtain ⟨a1, a2, a3⟩ := addSubtable_spec h p st.cur t (ht (p, t) List.mem_cons_self) (by
      intro e he
      rcases hstep p e he with h1 | ⟨-, h1⟩
      · exact h1
      · exact absurd List.mem_cons_self h1)
    obtain ⟨i1, i2, i3, i4, i5⟩ := ih (st := st.addSubtable p st.cur t) a1 hn.2
      (fun t ht' => ht t (List.mem_cons_of_mem _ ht')) (by
        intro q e he
        rcases a3 q e he with he | ⟨rfl, he'⟩
        · exact (hstep q e he).imp_right fun h => ⟨h.1, fun hm => h.2 (List.mem_cons_of_mem _ hm)⟩
        · exact Or.inr ⟨he', hn.1⟩)
    rw [addResults]
    refine ⟨i1, i2, i3, fun q s row => ?_, fun q e he => ?_⟩
    · rw [i4, a2]
      simp only [addSubtable_cur, InTables, List.mem_cons, Prod.mk.injEq]
      constructor
      · rintro ((h1 | ⟨rfl, rfl, h3⟩) | ⟨rfl, t', h2, h3⟩)
        · exact Or.inl h1
        · exact Or.inr ⟨rfl, t, Or.inl ⟨rfl, rfl⟩, h3⟩
        · exact Or.inr ⟨rfl, t', Or.inr h2, h3⟩
      · rintro (h1 | ⟨rfl, t', ⟨rfl, rfl⟩ | h2, h3⟩)
        · exact Or.inl (Or.inl h1)
        · exact Or.inl (Or.inr ⟨rfl, rfl, h3⟩)
        · exact Or.inr ⟨rfl, t', h2, h3⟩
    · rcases i5 q e he with he | he
      · rcases a3 q e he with he | he
        · exact Or.inl he
        · exact Or.inr he.2
      · exact Or.inr he

/-- Combining tables does not change the facts of any step. -/
theorem combineTables_spec {st : Eng α} (h : st.Core) (p : Tag) (lo hi : Nat) :
    (st.combineTables p lo hi).Core ∧ (∀ q s row, (st.combineTables p lo hi).At q s row ↔ st.At q s row) ∧
    (∀ q, ((st.combineTables p lo hi).handlers q).single = (st.handlers q).single) ∧
    (st.combineTables p lo hi).cur = st.cur ∧ (st.combineTables p lo hi).last = st.last := by
  obtain ⟨ids, e1, e2⟩ := Handler.coverRange_spec (h.handler p) lo hi
  unfold combineTables
  simp only [e1, Option.getD_some]
  split
  · exact ⟨h, fun _ _ _ => Iff.rfl, fun _ => rfl, rfl, rfl⟩
  split
  · exact ⟨h, fun _ _ _ => Iff.rfl, fun _ => rfl, rfl, rfl⟩
  set t := (ids.flatMap st.rows).dedup with htdef
  set st' : Eng α := { st with
        tables := st.tables ++ [t]
        handlers := fun q =>
          if q = p then (st.handlers p).addCombined lo hi st.tables.length else st.handlers q } with hst
  have hrows : ∀ id, id < st.tables.length → st'.rows id = st.rows id := fun id hid => rows_append st t id hid
  have hnew : st'.rows st.tables.length = t := by simp [hst, rows]
  have hok : ∀ q, (st.handlers q).OK (fun id => {x | x ∈ st'.rows id}) := by
    intro q
    refine handlerOK_congr (h.handler q) ⟨fun e he => ?_, fun c hc => ?_⟩
    · rw [hrows _ ((h.ids q).1 e he)]
    · rw [hrows _ ((h.ids q).2 c hc)]
  have hcomb := Handler.addCombined_ok (hok p) (lo := lo) (hi := hi) (id := st.tables.length) (by
    ext x
    rw [hnew]
    simp only [Set.mem_ofPred_eq, htdef, List.mem_dedup, List.mem_flatMap]
    have := e2 x
    simp only [Set.mem_ofPred_eq] at this
    rw [this]
    refine exists_congr fun e => and_congr_right fun he => ?_
    rw [hrows _ ((h.ids p).1 e he)])
  have hsingle : ∀ q, (st'.handlers q).single = (st.handlers q).single := by
    intro q
    simp only [hst]
    split
    · rename_i hq; subst hq; exact hcomb.2
    · rfl
  have hmemc : ∀ q, ∀ c ∈ (st'.handlers q).combined, c ∈ (st.handlers q).combined ∨ c.2 = st.tables.length := by
    intro q c hc
    simp only [hst] at hc
    split at hc
    · rename_i hq; subst hq
      unfold Handler.addCombined at hc
      simp only at hc
      split at hc
      · exact Or.inl hc
      · simp only at hc
        rw [(List.mergeSort_perm _ _).mem_iff, List.mem_append, List.mem_singleton] at hc
        rcases hc with hc | rfl
        · exact Or.inl hc
        · exact Or.inr rfl
    · exact Or.inl hc
  have hlen : st'.tables.length = st.tables.length + 1 := by simp [hst]
  refine ⟨⟨?_, ?_, ?_⟩, ?_, hsingle, rfl, rfl⟩
  · intro q
    show Handler.OK (if q = p then _ else _) _
    split
    · exact hcomb.1
    · exact hok q
  · intro q
    rw [hlen]
    refine ⟨fun e he => ?_, fun c hc => ?_⟩
    · rw [hsingle] at he
      have := (h.ids q).1 e he; omega
    · rcases hmemc q c hc with hc | hc
      · have := (h.ids q).2 c hc; omega
      · omega
  · exact rows_append_nodup st t h.nodup (List.nodup_dedup _)
  · intro q s row
    unfold At
    rw [hsingle]
    refine exists_congr fun e => and_congr_right fun he => ?_
    rw [hrows _ ((h.ids q).1 e he)]

theorem defragOne_spec {st : Eng α} (h : st.Core) (p : Tag) :
    (st.defragOne p).Core ∧ (∀ q s row, (st.defragOne p).At q s row ↔ st.At q s row) ∧
    (∀ q, ((st.defragOne p).handlers q).single = (st.handlers q).single) ∧
    (st.defragOne p).cur = st.cur ∧ (st.defragOne p).last = st.last := by
  unfold defragOne
  split
  · obtain ⟨h1, h2, h3, h4, h5⟩ := combineTables_spec h p
      (match st.lastUnion p with | some n => n + 1 | none => 0) (st.cur + 1)
    exact ⟨⟨h1.handler, h1.ids, h1.nodup⟩, h2, h3, h4, h5⟩
  · exact ⟨⟨h.handler, h.ids, h.nodup⟩, fun _ _ _ => Iff.rfl, fun _ => rfl, rfl, rfl⟩

/-- **Defragmentation is invisible.** -/
theorem defrag_spec {st : Eng α} (h : st.Core) (ps : List Tag) :
    (st.defrag ps).Core ∧ (∀ q s row, (st.defrag ps).At q s row ↔ st.At q s row) ∧
    (∀ q, ((st.defrag ps).handlers q).single = (st.handlers q).single) ∧
    (st.defrag ps).cur = st.cur ∧ (st.defrag ps).last = st.last := by
  induction ps generalizing st with
  | nil => exact ⟨h, fun _ _ _ => Iff.rfl, fun _ => rfl, rfl, rfl⟩
  | cons p ps ih =>
    obtain ⟨h1, h2, h3, h4, h5⟩ := defragOne_spec h p
    obtain ⟨i1, i2, i3, i4, i5⟩ := ih h1
    have : st.defrag (p :: ps) = (st.defragOne p).defrag ps := rfl
    rw [this]
    exact ⟨i1, fun q s row => (i2 q s row).trans (h2 q s row), fun q => (i3 q).trans (h3 q),
      i4.trans h4, i5.trans h5⟩

/-- The facts that an application of a rule adds. -/
def Added (st : Eng α) (r : NRule α) (i : Nat) : Interp α := fun p row =>
  DerivesWith r (NewMatch r st.At (st.last i) st.cur) p row ∧ ¬ st.Facts p row

theorem OK.before_iff {st : Eng α} (h : st.OK arity) (p : Tag) (row : List α) :
    Before st.At st.cur p row ↔ st.Facts p row := by
  constructor
  · rintro ⟨s, -, hs⟩; exact ⟨s, hs⟩
  · rintro ⟨s, e, he, rfl, hr⟩; exact ⟨e.1, h.steps p e he, e, he, rfl, hr⟩

/-- **One iteration of the engine** for a rule without existential variables. -/
theorem iterate_spec {rules : List (NRule α)} {cfgs : List RuleCfg} {st : Eng α} (h : st.OK arity) {i : Nat}
    {r : NRule α} (hri : rules[i]? = some r) (hcfg : i < cfgs.length)
    (hr : RuleOK r arity) (hh : HeadOK r arity) (hex : r.isExistential = false) :
    ∃ st' b, st.iterate rules cfgs i = some (st', b) ∧ st'.OK arity ∧ st'.cur = st.cur + 1 ∧
      (∀ j, st'.last j = if j = i then st.cur else st.last j) ∧
      (∀ p s row, st'.At p s row ↔ st.At p s row ∨ (s = st.cur ∧ st.Added r i p row)) ∧
      (b = true ↔ ∃ p row, st.Added r i p row) := by
  obtain ⟨cfg, hc⟩ : ∃ cfg, cfgs[i]? = some cfg := ⟨_, List.getElem?_eq_getElem hcfg⟩
  set res := executeRule st.source st.cur (st.last i) r cfg st.nextNull with hres
  obtain ⟨k1, k2, -⟩ := executeRule_keys st.source st.cur (st.last i) r hex cfg st.nextNull
  rw [← hres] at k1 k2
  have ktab := executeRule_tables st.source st.cur (st.last i) r cfg st.nextNull
  rw [← hres] at ktab
  have kspec : ∀ p row, InTables res.1 p row ↔ st.Added r i p row := by
    intro p row
    rw [hres, executeRule_spec h.srcOK (h.last i) r hr hh hex cfg st.nextNull p row, h.before_iff]
    rfl
  obtain ⟨a1, a2, a3, a4, a5⟩ := addResults_spec h.core res.1 k1 (fun t ht => (ktab t ht).2)
    (fun p e he => Or.inl (h.steps p e he))
  set st1 : Eng α := { st.addResults res.1 with
    history := st.history ++ [i]
    last := fun j => if j = i then st.cur else st.last j
    cur := st.cur + 1
    nextNull := res.2 } with hst1
  have core1 : st1.Core := ⟨a1.handler, a1.ids, a1.nodup⟩
  obtain ⟨d1, d2, d3, d4, d5⟩ := defrag_spec core1 (res.1.map (·.1))
  have hat : ∀ p s row, (st1.defrag (res.1.map (·.1))).At p s row ↔
      st.At p s row ∨ (s = st.cur ∧ st.Added r i p row) := by
    intro p s row
    rw [d2]
    show (st.addResults res.1).At p s row ↔ _
    rw [a4, kspec]
  have hstep : st.iterate rules cfgs i = some (st1.defrag (res.1.map (·.1)), !(res.1.map (·.1)).isEmpty) := by
    simp only [iterate, step, hri, hc, Option.bind_eq_bind, Option.bind_some, Option.pure_def]
    rfl
  refine ⟨_, _, hstep, ?_, d4, ?_, hat, ?_⟩
  · have hcur : (st1.defrag (res.1.map (·.1))).cur = st.cur + 1 := d4
    refine ⟨d1.handler, d1.ids, ?_, ?_, ?_, ?_, ?_, d1.nodup⟩
    · intro p e he
      rw [d3] at he
      rw [hcur]
      rcases a5 p e he with he | he
      · have := h.steps p e he; omega
      · omega
    · rw [hcur]; omega
    · intro j
      rw [d5, hcur]
      show (if j = i then st.cur else st.last j) < _
      split
      · omega
      · have := h.last j; omega
    · intro p s row hrow
      rcases (hat p s row).1 hrow with h1 | ⟨-, h1, -⟩
      · exact h.len p s row h1
      · exact (h1.arity hh).1
    · intro p s s' row h1 h2
      rcases (hat p s row).1 h1 with h1 | ⟨h1, -, h1'⟩
      · rcases (hat p s' row).1 h2 with h2 | ⟨h2, -, h2'⟩
        · exact h.unique p s s' row h1 h2
        · exact absurd ⟨s, h1⟩ h2'
      · rcases (hat p s' row).1 h2 with h2 | ⟨h2, -, h2'⟩
        · exact absurd ⟨s', h2⟩ h1'
        · rw [h1, h2]
  · intro j; rw [d5]
  · rw [Bool.not_eq_true', List.isEmpty_eq_false_iff]
    constructor
    · intro hne
      cases hl : res.1 with
      | nil => rw [hl] at hne; simp at hne
      | cons t ts =>
        have ht : t ∈ res.1 := by rw [hl]; exact List.mem_cons_self
        obtain ⟨h1, -⟩ := ktab t ht
        obtain ⟨row, hrow⟩ := List.exists_mem_of_ne_nil _ h1
        exact ⟨t.1, row, (kspec _ _).1 ⟨t.2, ht, hrow⟩⟩
    · rintro ⟨p, row, ha⟩
      obtain ⟨t, ht, -⟩ := (kspec p row).2 ha
      intro hnil
      rw [List.map_eq_nil_iff] at hnil
      rw [hnil] at ht; simp at ht

end Eng
end Verif
