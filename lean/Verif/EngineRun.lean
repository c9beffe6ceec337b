import Verif.Stratify
import Mathlib.Data.Finset.Card
import Mathlib.Data.Finset.Prod
import Mathlib.Data.List.Sublists

/-!
# Complete runs of the engine

`Eng.init` and `Eng.execute` model the initialization and `ExecutionEngine::execute`, `Eng.predicateRows` what the
user gets.  The file shows that the initial state satisfies the invariants, that topological orders of
the strongly connected components (the contract of petgraph) always exist, and when the loop terminates.
-/

set_option linter.unusedSimpArgs false
set_option linter.unusedSectionVars false

namespace Verif

/-! ## The contract of petgraph can be met -/

/-- Every finite graph has a topological order of its strongly connected components. -/
theorem exists_topoCond_aux (edges : List (Nat × Nat)) (k : Nat) : ∀ S : List Nat, S.length ≤ k → S.Nodup →
    ∃ sccs : List (List Nat), sccs.flatten.Perm S ∧ (∀ scc ∈ sccs, scc ≠ []) ∧
      (∀ scc ∈ sccs, ∀ u ∈ scc, ∀ v ∈ scc, Reach edges u v) ∧
      (∀ u v, Reach edges u v → ∀ (i j : Nat) a b, sccs[i]? = some a → sccs[j]? = some b → u ∈ a → v ∈ b → i ≤ j) := by
  classical
  induction k with
  | zero =>
    intro S hS _
    have : S = [] := List.length_eq_zero_iff.1 (by omega)
    subst this
    exact ⟨[], by simp, by simp, by simp, by simp⟩
  | succ k ih =>
    intro S hS hn
    by_cases hnil : S = []
    · subst hnil; exact ⟨[], by simp, by simp, by simp, by simp⟩
    -- a node with the fewest predecessors
    obtain ⟨u, hu, hmin⟩ : ∃ u ∈ S, ∀ v ∈ S, (S.filter fun w => decide (Reach edges w u)).length ≤
        (S.filter fun w => decide (Reach edges w v)).length := by
      have : ∀ l : List Nat, l ≠ [] → ∃ u ∈ l, ∀ v ∈ l, (S.filter fun w => decide (Reach edges w u)).length ≤
          (S.filter fun w => decide (Reach edges w v)).length := by
        intro l
        induction l with
        | nil => intro h; exact absurd rfl h
        | cons x l ihl =>
          intro _
          by_cases hl : l = []
          · subst hl; exact ⟨x, by simp, by simp⟩
          · obtain ⟨y, hy, hy'⟩ := ihl hl
            rcases le_total (S.filter fun w => decide (Reach edges w x)).length
              (S.filter fun w => decide (Reach edges w y)).length with h | h
            · refine ⟨x, List.mem_cons_self, fun v hv => ?_⟩
              rcases List.mem_cons.1 hv with rfl | hv
              · exact le_rfl
              · exact h.trans (hy' v hv)
            · refine ⟨y, List.mem_cons_of_mem _ hy, fun v hv => ?_⟩
              rcases List.mem_cons.1 hv with rfl | hv
              · exact h
              · exact hy' v hv
      exact this S hnil
    set p : Nat → Bool := fun v => decide (Reach edges u v ∧ Reach edges v u) with hp
    -- nodes that reach `u` belong to its component
    have hback : ∀ v ∈ S, Reach edges v u → Reach edges u v := by
      intro v hv hvu
      by_contra hcon
      have hlt : (S.filter fun w => decide (Reach edges w v)).length < (S.filter fun w => decide (Reach edges w u)).length := by
        have hsub : (S.filter fun w => decide (Reach edges w v)) =
            ((S.filter fun w => decide (Reach edges w u)).filter fun w => decide (Reach edges w v)) := by
          rw [List.filter_filter]
          apply List.filter_congr
          intro w _
          by_cases hw : Reach edges w v
          · have hwu : Reach edges w u := Relation.ReflTransGen.trans hw hvu
            simp [hw, hwu]
          · simp [hw]
        rw [hsub]
        refine List.length_filter_lt_length_iff_exists.2 ⟨u, ?_, ?_⟩
        · rw [List.mem_filter]; exact ⟨hu, decide_eq_true (Relation.ReflTransGen.refl : Reach edges u u)⟩
        · simpa using hcon
      have := hmin v hv
      omega
    have huc : u ∈ S.filter p := by
      rw [List.mem_filter]
      exact ⟨hu, by simp only [hp, decide_eq_true_eq]; exact ⟨Relation.ReflTransGen.refl, Relation.ReflTransGen.refl⟩⟩
    have hlen : (S.filter fun v => !p v).length ≤ k := by
      have h1 : (S.filter fun v => !p v).length < S.length := by
        refine List.length_filter_lt_length_iff_exists.2 ⟨u, hu, ?_⟩
        have := (List.mem_filter.1 huc).2
        simp [this]
      omega
    obtain ⟨sccs, s1, s2, s3, s4⟩ := ih _ hlen (hn.filter _)
    refine ⟨S.filter p :: sccs, ?_, ?_, ?_, ?_⟩
    · rw [List.flatten_cons]
      exact (List.Perm.append_left _ s1).trans (List.filter_append_perm p S)
    · intro scc hs
      rcases List.mem_cons.1 hs with rfl | hs
      · exact List.ne_nil_of_mem huc
      · exact s2 scc hs
    · intro scc hs
      rcases List.mem_cons.1 hs with rfl | hs
      · intro a ha b hb
        have h1 := (List.mem_filter.1 ha).2
        have h2 := (List.mem_filter.1 hb).2
        simp only [hp, decide_eq_true_eq] at h1 h2
        exact Relation.ReflTransGen.trans h1.2 h2.1
      · exact s3 scc hs
    · intro x y hxy i j a b hi hj hx hy
      cases i with
      | zero => exact Nat.zero_le _
      | succ i =>
        cases j with
        | succ j =>
          simp only [List.getElem?_cons_succ] at hi hj
          have := s4 x y hxy i j a b hi hj hx hy
          omega
        | zero =>
          exfalso
          simp only [List.getElem?_cons_zero, Option.some.injEq, List.getElem?_cons_succ] at hi hj
          subst hj
          have h2 := (List.mem_filter.1 hy).2
          simp only [hp, decide_eq_true_eq] at h2
          have hxs : x ∈ S.filter fun v => !p v := s1.mem_iff.1 (List.mem_flatten.2 ⟨a, List.mem_of_getElem? hi, hx⟩)
          rw [List.mem_filter] at hxs
          have hxu := Relation.ReflTransGen.trans hxy h2.2
          have := hback x hxs.1 hxu
          have hpx : p x = true := by simp only [hp, decide_eq_true_eq]; exact ⟨this, hxu⟩
          simp [hpx] at hxs

theorem exists_topoCond (n : Nat) (edges : List (Nat × Nat)) : ∃ sccs, IsTopoCond n edges sccs := by
  obtain ⟨sccs, h1, h2, h3, h4⟩ := exists_topoCond_aux edges n (List.range n) (by simp) List.nodup_range
  exact ⟨sccs, h1, h2, h3, fun u v he => h4 u v (Relation.ReflTransGen.single he)⟩

/-- `cond` satisfies the contract of petgraph's `toposort ∘ condensation`. -/
def CondOK (cond : Nat → List (Nat × Nat) → List (List Nat)) : Prop :=
  ∀ n e, (∀ x ∈ e, x.1 < n ∧ x.2 < n) → IsTopoCond n e (cond n e)

theorem exists_condOK : ∃ cond, CondOK cond :=
  ⟨fun n e => Classical.choose (exists_topoCond n e), fun n e _ => Classical.choose_spec (exists_topoCond n e)⟩

variable {α : Type} [DecidableEq α] [Dom α]

/-! ## Runs -/

namespace Eng

/-- `combine_predicate` (table_manager.rs:423-431), the new state -/
def combinePredicate (st : Eng α) (p : Tag) : Eng α :=
  match (st.handlers p).lastStep with
  | some s => st.combineTables p 0 (s + 1)
  | none => st

/-- `predicate_rows` (execution_engine.rs:367-376): the rows of the combined table.  If there is only one
table it is used, otherwise the union is computed (table_manager.rs:649-667). -/
def predicateRows (st : Eng α) (p : Tag) : List (List α) :=
  match (st.handlers p).lastStep with
  | some s =>
    let ids := ((st.handlers p).coverRange 0 (s + 1)).getD []
    if ids.length = 1 then st.rows (ids.getD 0 0) else (ids.flatMap st.rows).dedup
  | none => []

/-- `execute` (execution_engine.rs:295-345) with the strategy created by `initialize`; `outs` are the output
predicates, and `fuel` bounds the number of iterations.  `none` means that the program is rejected, `some none` that
the bound was reached. -/
def execute (cond : Nat → List (Nat × Nat) → List (List Nat)) (rules : List (NRule α)) (cfgs : List RuleCfg)
    (outs : List Tag) (fuel : Nat) (st : Eng α) : Option (Option (Eng α)) :=
  (newStrategy cond rules).map fun strata =>
    execLoop defaultNext rules cfgs fuel (newStratified (rules.map (·.isRecursive)) strata) none
      (outs.foldl combinePredicate st)

theorem combinePredicate_spec {arity : Tag → Nat} {st : Eng α} (h : st.OK arity) (p : Tag) :
    (st.combinePredicate p).OK arity ∧ (∀ q s row, (st.combinePredicate p).At q s row ↔ st.At q s row) ∧
    (st.combinePredicate p).last = st.last := by
  unfold combinePredicate
  split
  · rename_i s hs
    obtain ⟨h1, h2, h3, h4, h5⟩ := combineTables_spec h.core p 0 (s + 1)
    refine ⟨⟨h1.handler, h1.ids, ?_, ?_, ?_, ?_, ?_, h1.nodup⟩, h2, h5⟩
    · intro q e he; rw [h3] at he; rw [h4]; exact h.steps q e he
    · rw [h4]; exact h.pos
    · rw [h4, h5]; exact h.last
    · intro q s row hr; exact h.len q s row ((h2 q s row).1 hr)
    · intro q s s' row h6 h7; exact h.unique q s s' row ((h2 _ _ _).1 h6) ((h2 _ _ _).1 h7)
  · exact ⟨h, fun _ _ _ => Iff.rfl, rfl⟩

theorem combinePredicates_spec {arity : Tag → Nat} (outs : List Tag) {st : Eng α} (h : st.OK arity) :
    (outs.foldl combinePredicate st).OK arity ∧
    (∀ q s row, (outs.foldl combinePredicate st).At q s row ↔ st.At q s row) ∧
    (outs.foldl combinePredicate st).last = st.last := by
  induction outs generalizing st with
  | nil => exact ⟨h, fun _ _ _ => Iff.rfl, rfl⟩
  | cons p outs ih =>
    obtain ⟨h1, h2, h3⟩ := combinePredicate_spec h p
    obtain ⟨i1, i2, i3⟩ := ih h1
    exact ⟨i1, fun q s row => (i2 q s row).trans (h2 q s row), i3.trans h3⟩

/-- **Each fact is returned, and it is returned once.** -/
theorem predicateRows_spec {arity : Tag → Nat} {st : Eng α} (h : st.OK arity) (p : Tag) :
    (∀ row, row ∈ st.predicateRows p ↔ st.Facts p row) ∧ (st.predicateRows p).Nodup := by
  unfold predicateRows
  split
  · rename_i s hs
    obtain ⟨ids, e1, e2⟩ := Handler.coverRange_spec (h.handler p) 0 (s + 1)
    have hmem : ∀ row, (∃ id ∈ ids, row ∈ st.rows id) ↔ st.Facts p row := by
      intro row
      have := e2 row
      simp only [Set.mem_ofPred_eq] at this
      rw [this]
      constructor
      · rintro ⟨e, h1, -, -, h2⟩; exact ⟨e.1, e, h1, rfl, h2⟩
      · rintro ⟨_, e, h1, rfl, h2⟩
        refine ⟨e, h1, Nat.zero_le _, ?_, h2⟩
        -- the last step is the largest
        have hpw := (h.handler p).steps
        unfold Handler.lastStep at hs
        have hne : ((st.handlers p).single.map (·.1)) ≠ [] := by intro hn; rw [hn] at hs; simp at hs
        rw [List.getLast?_eq_some_getLast hne, Option.some.injEq] at hs
        have hin : e.1 ∈ (st.handlers p).single.map (·.1) := List.mem_map.2 ⟨e, h1, rfl⟩
        rw [← List.dropLast_append_getLast hne] at hin hpw
        rw [hs] at hin hpw
        rcases List.mem_append.1 hin with hin | hin
        · have := (List.pairwise_append.1 hpw).2.2 _ hin s (by simp); omega
        · simp at hin; omega
    simp only [e1, Option.getD_some]
    split
    · rename_i hl
      obtain ⟨id, rfl⟩ := List.length_eq_one_iff.1 hl
      refine ⟨fun row => ?_, h.nodup _⟩
      rw [← hmem]; simp
    · refine ⟨fun row => ?_, List.nodup_dedup _⟩
      rw [← hmem, List.mem_dedup, List.mem_flatMap]
  · rename_i hs
    have hnil : (st.handlers p).single = [] := by
      unfold Handler.lastStep at hs
      rw [List.getLast?_eq_none_iff, List.map_eq_nil_iff] at hs
      exact hs
    refine ⟨fun row => ⟨fun h => by simp at h, ?_⟩, by simp⟩
    rintro ⟨_, e, he, -, -⟩
    rw [hnil] at he; simp at he

/-- **The initial state**: it contains exactly the given facts. -/
theorem init_spec {arity : Tag → Nat} (edb : List (Tag × List (List α))) (hn : (edb.map (·.1)).Nodup)
    (ha : ∀ x ∈ edb, ∀ row ∈ x.2, row.length = arity x.1) :
    (init edb).OK arity ∧ (∀ p row, (init edb).Facts p row ↔ ∃ t, (p, t) ∈ edb ∧ row ∈ t) ∧
    ∀ i, (init edb).last i = 0 := by
  have key : ∀ (edb : List (Tag × List (List α))) (st : Eng α), (edb.map (·.1)).Nodup → st.Core → st.cur = 1 →
      (∀ i, st.last i = 0) → (∀ p, ∀ e ∈ (st.handlers p).single, e.1 = 0) →
      (∀ p, p ∈ edb.map (·.1) → (st.handlers p).single = []) →
      (edb.foldl (fun st x => st.addEdb x.1 x.2) st).Core ∧ (edb.foldl (fun st x => st.addEdb x.1 x.2) st).cur = 1 ∧
      (∀ i, (edb.foldl (fun st x => st.addEdb x.1 x.2) st).last i = 0) ∧
      (∀ p, ∀ e ∈ ((edb.foldl (fun st x => st.addEdb x.1 x.2) st).handlers p).single, e.1 = 0) ∧
      ∀ p s row, (edb.foldl (fun st x => st.addEdb x.1 x.2) st).At p s row ↔
        st.At p s row ∨ (s = 0 ∧ ∃ t, (p, t) ∈ edb ∧ row ∈ t) := by
    intro edb
    induction edb with
    | nil => intro st _ h1 h2 h3 h4 _; exact ⟨h1, h2, h3, h4, by simp⟩
    | cons x edb ih =>
      intro st hn h1 h2 h3 h4 h5
      obtain ⟨p, t⟩ := x
      simp only [List.map_cons, List.nodup_cons] at hn
      have hp : (st.handlers p).single = [] := h5 p (by simp)
      obtain ⟨a1, a2, a3⟩ := addSubtable_spec h1 p 0 t.dedup (List.nodup_dedup _) (by rw [hp]; simp)
      obtain ⟨i1, i2, i3, i4, i5⟩ := ih (st.addEdb p t) hn.2 a1 h2 h3
        (by
          intro q e he
          rcases a3 q e he with he | ⟨-, he⟩
          · exact h4 q e he
          · exact he)
        (by
          intro q hq
          have hqp : q ≠ p := by rintro rfl; exact hn.1 hq
          have hs : ((st.addEdb p t).handlers q) = st.handlers q := by simp [addEdb, addSubtable, hqp]
          rw [hs]; exact h5 q (by simp [hq]))
      refine ⟨i1, i2, i3, i4, ?_⟩
      intro q s row
      simp only [List.foldl_cons]
      rw [i5, addEdb, a2]
      simp only [List.mem_cons, Prod.mk.injEq, List.mem_dedup]
      constructor
      · rintro ((h | ⟨rfl, rfl, h⟩) | ⟨rfl, t', h, h'⟩)
        · exact Or.inl h
        · exact Or.inr ⟨rfl, t, Or.inl ⟨rfl, rfl⟩, h⟩
        · exact Or.inr ⟨rfl, t', Or.inr h, h'⟩
      · rintro (h | ⟨rfl, t', ⟨rfl, rfl⟩ | h, h'⟩)
        · exact Or.inl (Or.inl h)
        · exact Or.inl (Or.inr ⟨rfl, rfl, h'⟩)
        · exact Or.inr ⟨rfl, t', h, h'⟩
  obtain ⟨k1, k2, k3, k4, k5⟩ := key edb
    { tables := [], handlers := fun _ => ⟨[], []⟩, cur := 1, last := fun _ => 0, history := [2 ^ 64 - 1],
      frag := fun _ => 0, lastUnion := fun _ => none, nextNull := 0 } hn
    ⟨fun _ => Handler.ok_empty, fun _ => ⟨by simp, by simp⟩, fun id => by simp [rows]⟩ rfl (fun _ => rfl) (by simp) (by simp)
  have k5' : ∀ p s row, (init edb).At p s row ↔ (s = 0 ∧ ∃ t, (p, t) ∈ edb ∧ row ∈ t) := by
    intro p s row
    refine (k5 p s row).trans ⟨fun h => h.resolve_left ?_, Or.inr⟩
    rintro ⟨e, he, -⟩; simp at he
  refine ⟨⟨k1.handler, k1.ids, ?_, ?_, ?_, ?_, ?_, k1.nodup⟩, ?_, k3⟩
  · intro p e he; have := k4 p e he; show e.1 < (init edb).cur; rw [this]; show 0 < _; unfold init; omega
  · show 0 < (init edb).cur; unfold init; omega
  · intro i; show (init edb).last i < (init edb).cur; unfold init; rw [k3]; omega
  · intro p s row h; obtain ⟨-, t, h1, h2⟩ := (k5' p s row).1 h; exact ha _ h1 row h2
  · intro p s s' row h h'; rw [((k5' p s row).1 h).1, ((k5' p s' row).1 h').1]
  · intro p row
    constructor
    · rintro ⟨s, hs⟩; exact ((k5' p s row).1 hs).2
    · intro h; exact ⟨0, (k5' p 0 row).2 ⟨rfl, h⟩⟩

end Eng

/-! ## Termination -/

/-- The strategy stops if there are no new derivations: a number that decreases with each selected rule. -/
structure QuietTerm {S : Type} (next : S → Option Bool → Option Nat × S) (rank : S → Nat) : Prop where
  start : ∀ s i s', next s none = (some i, s') → rank s' ≤ rank s
  quiet : ∀ s i s', next s (some false) = (some i, s') → rank s' < rank s

theorem rr_quiet : QuietTerm RoundRobin.next (fun s => s.ruleCount - s.withoutDerivation) := by
  constructor
  · intro s i s' h
    unfold RoundRobin.next at h
    split at h
    · simp at h
    · simp only [Prod.mk.injEq] at h; rw [← h.2]
  · intro s i s' h
    unfold RoundRobin.next at h
    split at h
    · simp at h
    · simp only [RoundRobin.advance] at h
      split at h
      · simp at h
      · simp only [Prod.mk.injEq] at h
        rw [← h.2]; simp only; omega

theorem seq_quiet {S : Type} {next : S → Option Bool → Option Nat × S} {rank : S → Nat} (h : QuietTerm next rank) :
    QuietTerm (seqNext next) (fun l => (l.map fun x => rank x.2 + 1).sum) := by
  have hstart : ∀ l i l', seqNext next l none = (some i, l') →
      (l'.map fun x => rank x.2 + 1).sum ≤ (l.map fun x => rank x.2 + 1).sum := by
    intro l
    induction l with
    | nil => intro i l' h; simp [seqNext] at h
    | cons x l ih =>
      intro i l' hn
      obtain ⟨ids, s⟩ := x
      rw [seqNext] at hn
      split at hn
      · rename_i k s' hk
        simp only [Prod.mk.injEq] at hn
        rw [← hn.2]
        have := h.start s k s' hk
        simp only [List.map_cons, List.sum_cons]; omega
      · have := ih i l' hn
        simp only [List.map_cons, List.sum_cons]; omega
  refine ⟨hstart, ?_⟩
  intro l i l' hn
  cases l with
  | nil => simp [seqNext] at hn
  | cons x l =>
    obtain ⟨ids, s⟩ := x
    rw [seqNext] at hn
    split at hn
    · rename_i k s' hk
      simp only [Prod.mk.injEq] at hn
      rw [← hn.2]
      have := h.quiet s k s' hk
      simp only [List.map_cons, List.sum_cons]; omega
    · have := hstart l i l' hn
      simp only [List.map_cons, List.sum_cons]; omega

theorem default_quiet : ∃ rank, QuietTerm defaultNext rank := ⟨_, seq_quiet (seq_quiet rr_quiet)⟩

/-- A finite set of facts that is closed under the rules, whatever the negated atoms. -/
structure FiniteBase (rules : List (NRule α)) (edb : Interp α) (base : Finset (Tag × List α)) : Prop where
  edb : ∀ p row, edb p row → (p, row) ∈ base
  closed : ∀ r ∈ rules, ∀ B : (Variable → α) → Prop,
    (∀ σ, B σ → ∃ N, BodyHolds r (fun p row => (p, row) ∈ base) N σ) → ∀ p row, DerivesWith r B p row → (p, row) ∈ base

/-- The loop of the engine ends if there are only finitely many facts that can be derived.  `good` is what is
known about the rules that the strategy selects. -/
theorem execLoop_terminates {S : Type} {next : S → Option Bool → Option Nat × S} {rank : S → Nat}
    (hq : QuietTerm next rank) (good : S → Prop) {rules : List (NRule α)} {cfgs : List RuleCfg} {arity : Tag → Nat}
    (hgood : ∀ s nd i s', good s → next s nd = (some i, s') → good s' ∧ i < rules.length)
    (hp : ProgOK rules cfgs arity) {edb : Interp α} {base : Finset (Tag × List α)} (hb : FiniteBase rules edb base)
    {s : S} (hs : good s) {st : Eng α} (hok : st.OK arity) (hf : ∀ p row, st.Facts p row → (p, row) ∈ base) (nd : Option Bool) :
    ∃ fuel st', execLoop next rules cfgs fuel s nd st = some st' := by
  classical
  have key : ∀ (m k : Nat) (s : S) (i : Nat) (st : Eng α), good s → i < rules.length → st.OK arity →
      (∀ p row, st.Facts p row → (p, row) ∈ base) →
      (base.filter fun x => ¬ st.Facts x.1 x.2).card = m → rank s = k →
      ∃ fuel st', (st.iterate rules cfgs i).bind (fun x => execLoop next rules cfgs fuel s (some x.2) x.1) = some st' := by
    intro m
    induction m using Nat.strong_induction_on with
    | _ m ihm =>
      intro k
      induction k using Nat.strong_induction_on with
      | _ k ihk =>
        intro s i st hg hi hok hf hm hk
        obtain ⟨r, hr⟩ : ∃ r, rules[i]? = some r := ⟨_, List.getElem?_eq_getElem hi⟩
        obtain ⟨hr1, hr2, hr3⟩ := hp.rule r (List.mem_of_getElem? hr)
        obtain ⟨st', d, e1, e2, e3, e4, e5, e6⟩ := Eng.iterate_spec (cfgs := cfgs) hok hr (by rw [hp.cfgs]; exact hi) hr1 hr2 hr3
        have hadd : ∀ p row, st.Added r i p row → (p, row) ∈ base := by
          rintro p row ⟨h1, -⟩
          refine hb.closed r (List.mem_of_getElem? hr) _ ?_ p row h1
          rintro σ ⟨h2, -⟩
          exact ⟨_, h2.mono fun p row h => hf p row ((hok.before_iff p row).1 h)⟩
        have hf' : ∀ p row, st'.Facts p row → (p, row) ∈ base := by
          rintro p row ⟨s, h⟩
          rcases (e5 p s row).1 h with h | ⟨-, h⟩
          · exact hf p row ⟨s, h⟩
          · exact hadd p row h
        have hle : ∀ p row, st.Facts p row → st'.Facts p row := by
          rintro p row ⟨s, h⟩; exact ⟨s, (e5 p s row).2 (Or.inl h)⟩
        rw [e1]
        simp only [Option.bind_some]
        cases hn : next s (some d) with
        | mk o s' =>
          cases o with
          | none => exact ⟨1, st', by rw [execLoop, hn]⟩
          | some j =>
            obtain ⟨hg', hj⟩ := hgood s (some d) j s' hg hn
            have : ∃ fuel st'', (st'.iterate rules cfgs j).bind
                (fun x => execLoop next rules cfgs fuel s' (some x.2) x.1) = some st'' := by
              cases d with
              | true =>
                obtain ⟨p, row, ha⟩ := e6.1 rfl
                refine ihm _ ?_ _ s' j st' hg' hj e2 hf' rfl rfl
                rw [← hm]
                apply Finset.card_lt_card
                rw [Finset.ssubset_iff_of_subset]
                · refine ⟨(p, row), ?_, ?_⟩
                  · rw [Finset.mem_filter]; exact ⟨hadd p row ha, ha.2⟩
                  · rw [Finset.mem_filter]
                    rintro ⟨-, h⟩
                    exact h ⟨st.cur, (e5 p _ row).2 (Or.inr ⟨rfl, ha⟩)⟩
                · intro x hx
                  rw [Finset.mem_filter] at hx ⊢
                  exact ⟨hx.1, fun h => hx.2 (hle _ _ h)⟩
              | false =>
                have hno : ∀ p row, st'.Facts p row ↔ st.Facts p row := by
                  intro p row
                  refine ⟨?_, hle p row⟩
                  rintro ⟨s, h⟩
                  rcases (e5 p s row).1 h with h | ⟨-, h⟩
                  · exact ⟨s, h⟩
                  · exact absurd (e6.2 ⟨p, row, h⟩) (by simp)
                refine ihk (rank s') (by rw [← hk]; exact hq.quiet s j s' hn) s' j st' hg' hj e2 hf' ?_ rfl
                rw [← hm]
                congr 1
                ext x; rw [Finset.mem_filter, Finset.mem_filter, hno]
            obtain ⟨fuel, st'', h⟩ := this
            exact ⟨fuel + 1, st'', by rw [execLoop, hn]; exact h⟩
  cases hn : next s nd with
  | mk o s' =>
    cases o with
    | none => exact ⟨1, st, by rw [execLoop, hn]⟩
    | some j =>
      obtain ⟨hg', hj⟩ := hgood s nd j s' hs hn
      obtain ⟨fuel, st', h⟩ := key _ _ s' j st hg' hj hok hf rfl rfl
      exact ⟨fuel + 1, st', by rw [execLoop, hn]; exact h⟩

/-! ### The default strategy selects existing rules -/

/-- `G n s`: in state `s` the strategy selects among `n` rules. -/
def Bounded {S : Type} (next : S → Option Bool → Option Nat × S) (G : Nat → S → Prop) : Prop :=
  ∀ n s nd i s', G n s → next s nd = (some i, s') → G n s' ∧ i < n

theorem rr_bounded : Bounded RoundRobin.next fun n s => s.ruleCount = n ∧ (n = 0 ∨ s.current < n) := by
  rintro n s nd i s' ⟨h1, h2⟩ h
  unfold RoundRobin.next at h
  split at h
  · simp at h
  rename_i h0
  have hadv : ∀ w u, s.advance w u = (some i, s') → (s'.ruleCount = n ∧ (n = 0 ∨ s'.current < n)) ∧ i < n := by
    intro w u h
    unfold RoundRobin.advance at h
    split at h
    · simp at h
    · simp only [Prod.mk.injEq, Option.some.injEq] at h
      obtain ⟨ha, hb⟩ := h
      have : i < n := by
        rw [← ha]; split
        · rw [h1]; exact Nat.mod_lt _ (by omega)
        · omega
      refine ⟨⟨by rw [← hb]; exact h1, Or.inr ?_⟩, this⟩
      rw [← hb]; simp only; rw [ha]; exact this
  split at h
  · simp only [Prod.mk.injEq, Option.some.injEq] at h
    rw [← h.2]
    exact ⟨⟨h1, h2⟩, by omega⟩
  · exact hadv _ _ h
  · exact hadv _ _ h

theorem seq_bounded {S : Type} {next : S → Option Bool → Option Nat × S} {G : Nat → S → Prop} (h : Bounded next G) :
    Bounded (seqNext next) fun N l => ∀ x ∈ l, (∃ n, G n x.2 ∧ n ≤ x.1.length) ∧ ∀ id ∈ x.1, id < N := by
  intro N l
  induction l with
  | nil => intro nd i l' _ hn; simp [seqNext] at hn
  | cons x l ih =>
    intro nd i l' hl hn
    obtain ⟨ids, s⟩ := x
    obtain ⟨⟨n, h1, h2⟩, h3⟩ := hl (ids, s) List.mem_cons_self
    rw [seqNext] at hn
    split at hn
    · rename_i k s' hk
      simp only [Prod.mk.injEq, Option.some.injEq] at hn
      obtain ⟨g1, g2⟩ := h n s nd k s' h1 hk
      rw [← hn.1, ← hn.2]
      refine ⟨?_, ?_⟩
      · intro y hy
        rcases List.mem_cons.1 hy with rfl | hy
        · exact ⟨⟨n, g1, h2⟩, h3⟩
        · exact hl y (List.mem_cons_of_mem _ hy)
      · apply h3
        simp only at h2
        rw [List.getD_eq_getElem?_getD, List.getElem?_eq_getElem (by omega)]
        exact List.getElem_mem _
    · exact ih none i l' (fun y hy => hl y (List.mem_cons_of_mem _ hy)) hn

theorem newStratified_bounded {cond : Nat → List (Nat × Nat) → List (List Nat)} (hcond : CondOK cond)
    {rules : List (NRule α)} {strata : List (List Nat × List (List Nat))} (h : newStrategy cond rules = some strata)
    (recursive : List Bool) : ∀ x ∈ newStratified recursive strata,
      (∃ n, (∀ y ∈ x.2, (∃ n', (y.2.ruleCount = n' ∧ (n' = 0 ∨ y.2.current < n')) ∧ n' ≤ y.1.length) ∧ ∀ id ∈ y.1, id < n) ∧
        n ≤ x.1.length) ∧ ∀ id ∈ x.1, id < rules.length := by
  unfold newStrategy at h
  simp only [Option.bind_eq_bind, Option.pure_def, Option.bind_eq_some_iff, Option.some.injEq] at h
  obtain ⟨st, hst, rfl⟩ := h
  have hb : ∀ e ∈ negationGraph rules, e.1 < rules.length ∧ e.2.1 < rules.length := negationGraph_bound rules
  have hc := hcond rules.length ((negationGraph rules).map fun e => (e.1, e.2.1)) (by
    intro x hx; obtain ⟨e, he, rfl⟩ := List.mem_map.1 hx; exact hb e he)
  obtain ⟨-, s2, -⟩ := stratify_spec hc hb hst
  intro x hx
  simp only [newStratified, List.map_map, List.mem_map, Function.comp_apply] at hx
  obtain ⟨s, hs, rfl⟩ := hx
  obtain ⟨m, hm⟩ := List.getElem?_of_mem hs
  have hids : ∀ id ∈ s.mergeSort (fun a b => decide (a ≤ b)), id < rules.length := by
    intro id hid
    rw [(List.mergeSort_perm s _).mem_iff] at hid
    exact (((s2 m s hm).2 id).1 hid).1
  refine ⟨⟨(s.mergeSort (fun a b => decide (a ≤ b))).length, ?_, le_rfl⟩, hids⟩
  intro y hy
  simp only [newGraph, List.mem_map] at hy
  obtain ⟨scc, hscc, rfl⟩ := hy
  have hl : ((s.mergeSort fun a b => decide (a ≤ b)).filterMap fun i => rules[i]?).length =
      (s.mergeSort fun a b => decide (a ≤ b)).length := by
    generalize (s.mergeSort fun a b => decide (a ≤ b)) = l at hids
    clear hscc
    induction l with
    | nil => rfl
    | cons a l ih =>
      rw [List.filterMap_cons, List.getElem?_eq_getElem (hids a List.mem_cons_self)]
      simp only [List.length_cons]
      rw [ih fun i hi => hids i (List.mem_cons_of_mem _ hi)]
  have hc' := hcond (s.mergeSort fun a b => decide (a ≤ b)).length
    (positiveGraph ((s.mergeSort fun a b => decide (a ≤ b)).filterMap fun i => rules[i]?)) (by
      rintro ⟨i, j⟩ he
      obtain ⟨r, r', p, h1, h2, -⟩ := (mem_positiveGraph _ i j).1 he
      have h3 := (List.getElem?_eq_some_iff.1 h1).1
      have h4 := (List.getElem?_eq_some_iff.1 h2).1
      rw [hl] at h3 h4
      exact ⟨h3, h4⟩)
  refine ⟨⟨scc.length, ⟨by simp [RoundRobin.new], ?_⟩, le_rfl⟩, fun id hid => hc'.mem_lt hscc hid⟩
  simp only [RoundRobin.new]; omega

/-! ### Programs without functions -/

/-- The operation is a variable or a constant -/
def Operation.IsPrimitive : Operation α → Prop
  | .var _ => True
  | .const _ => True
  | _ => False

/-- No values are computed by functions: variables that do not occur in a positive atom are only equated with
variables or constants.  (There can be arbitrary conditions and aggregates.) -/
structure FunctionFree (r : NRule α) : Prop where
  assign : ∀ o ∈ r.operations, ∀ v e, o.variableAssignment = some (v, e) → v ∈ atomVars r.positive ∨ e.IsPrimitive
  remaining : ∀ o v e, r.Remaining o → o.variableAssignment = some (v, e) → e.IsPrimitive

/-- the constants that are assigned to variables -/
def assignedConsts (ops : List (Operation α)) : List α :=
  ops.filterMap fun o => match o.variableAssignment with
    | some (_, .const c) => some c
    | _ => none

/-- the constants of a head -/
def headConsts (hs : List (HeadAtom α)) : List α :=
  hs.flatMap fun h => h.terms.filterMap fun t => match t with
    | .const c => some c
    | .var _ => none

/-- The values of the aggregates of a rule, for all groups of values from a domain -/
def aggValues (dom : List α) (r : NRule α) : List α :=
  match r.aggregation with
  | some (a, _) => (tuplesOf dom (a.distinct.length + 1)).sublists.filterMap (Dom.agg a.kind)
  | none => []
where
  /-- tuples over a domain -/
  tuplesOf (dom : List α) (n : Nat) : List (List α) := Rel.tuples dom n

/-- The values that can occur in facts of a level -/
def levelDom (rules : List (NRule α)) (d0 : List α) : Nat → List α
  | 0 => d0
  | k + 1 => levelDom rules d0 k ++ rules.flatMap (aggValues (levelDom rules d0 k))

theorem levelDom_mono (rules : List (NRule α)) (d0 : List α) {k l : Nat} (h : k ≤ l) :
    ∀ x ∈ levelDom rules d0 k, x ∈ levelDom rules d0 l := by
  induction l with
  | zero => intro x hx; rw [Nat.le_zero.1 h] at hx; exact hx
  | succ l ih =>
    intro x hx
    rcases Nat.lt_or_eq_of_le h with h | rfl
    · rw [levelDom]; exact List.mem_append_left _ (ih (by omega) x hx)
    · exact hx

/-- The values of safe variables -/
theorem safe_value {r : NRule α} (hff : FunctionFree r) {D : List α} (hconst : ∀ c ∈ assignedConsts r.operations, c ∈ D)
    {P N : Interp α} {σ : Variable → α} (hP : ∀ a ∈ r.positive, P a.pred (a.terms.map σ) → ∀ v ∈ a.terms, σ v ∈ D)
    (hb : BodyHolds r P N σ) {v : Variable} (hv : SafeVar r.positive r.operations v) : σ v ∈ D := by
  induction hv with
  | atom ha hv => exact hP _ ha (hb.pos _ ha) _ hv
  | @assign o e v ho he hw ih =>
    rcases hff.assign o ho v e he with hv | hprim
    · simp only [atomVars, List.mem_flatMap] at hv
      obtain ⟨a, ha, hv⟩ := hv
      exact hP _ ha (hb.pos _ ha) _ hv
    · have hsafe : ∀ w ∈ o.vars, SafeVar r.positive r.operations w := by
        intro w hw'
        have hvs : SafeVar r.positive r.operations v := .assign ho he hw
        unfold Operation.variableAssignment at he
        split at he
        · simp only [Option.some.injEq, Prod.mk.injEq] at he
          obtain ⟨rfl, rfl⟩ := he
          simp only [Operation.vars, List.singleton_append, List.mem_cons] at hw'
          rcases hw' with rfl | hw'
          · exact hvs
          · exact hw w hw'
        · simp only [Option.some.injEq, Prod.mk.injEq] at he
          obtain ⟨rfl, rfl⟩ := he
          simp only [Operation.vars, List.mem_append, List.mem_cons, List.not_mem_nil, or_false] at hw'
          rcases hw' with hw' | rfl
          · exact hw w hw'
          · exact hvs
        · simp at he
      have hev := (Operation.eval_assignment he).1 (hb.ops o ho hsafe)
      cases e with
      | var w =>
        simp only [Operation.eval, Option.some.injEq] at hev
        rw [← hev]; exact ih w (by simp [Operation.vars])
      | const c =>
        simp only [Operation.eval, Option.some.injEq] at hev
        rw [← hev]
        exact hconst c (List.mem_filterMap.2 ⟨o, ho, by rw [he]⟩)
      | equal _ _ => exact absurd hprim id
      | op _ _ => exact absurd hprim id

/-- **Programs without functions and existential variables only derive facts from a finite set.** -/
theorem functionFree_base {rules : List (NRule α)} {cfgs : List RuleCfg} {arity : Tag → Nat} (hp : ProgOK rules cfgs arity)
    (hff : ∀ r ∈ rules, FunctionFree r) (hs : IsStratifiable rules) (edb : List (Tag × List (List α)))
    (ha : ∀ x ∈ edb, ∀ row ∈ x.2, row.length = arity x.1) :
    ∃ base, FiniteBase rules (fun p row => ∃ t, (p, t) ∈ edb ∧ row ∈ t) base := by
  classical
  obtain ⟨level, hlev⟩ := hs
  set d0 : List α := edb.flatMap (fun x => x.2.flatten) ++
    (rules.flatMap fun r => assignedConsts r.operations ++ headConsts r.head) with hd0
  set D := levelDom rules d0 with hD
  let tags : List Tag := edb.map (·.1) ++ rules.flatMap (·.predsHead)
  let base : List (Tag × List α) := tags.flatMap fun p => (Rel.tuples (D (level p + 1)) (arity p)).map fun t => (p, t)
  have hmem : ∀ p row, (p, row) ∈ base.toFinset ↔ p ∈ tags ∧ row.length = arity p ∧ ∀ x ∈ row, x ∈ D (level p + 1) := by
    intro p row
    simp only [base, List.mem_toFinset, List.mem_flatMap, List.mem_map, Rel.mem_tuples, Prod.mk.injEq]
    constructor
    · rintro ⟨q, h1, t, h2, rfl, rfl⟩; exact ⟨h1, h2⟩
    · rintro ⟨h1, h2⟩; exact ⟨p, h1, row, h2, rfl, rfl⟩
  have h0 : ∀ k, ∀ x ∈ d0, x ∈ D k := fun k x hx => levelDom_mono rules d0 (Nat.zero_le k) x hx
  refine ⟨base.toFinset, ?_, ?_⟩
  · rintro p row ⟨t, h1, h2⟩
    rw [hmem]
    refine ⟨List.mem_append_left _ (List.mem_map.2 ⟨_, h1, rfl⟩), ha _ h1 row h2, fun x hx => h0 _ x ?_⟩
    rw [hd0]
    exact List.mem_append_left _ (List.mem_flatMap.2 ⟨_, h1, List.mem_flatten.2 ⟨row, h2, hx⟩⟩)
  · intro r hr B hB p row hd
    obtain ⟨hr1, hr2, hr3⟩ := hp.rule r hr
    obtain ⟨har, hhead⟩ := hd.arity hr2
    have hcr : ∀ c ∈ assignedConsts r.operations, c ∈ d0 := by
      intro c hc; rw [hd0]
      exact List.mem_append_right _ (List.mem_flatMap.2 ⟨r, hr, List.mem_append_left _ hc⟩)
    have hch : ∀ c ∈ headConsts r.head, c ∈ d0 := by
      intro c hc; rw [hd0]
      exact List.mem_append_right _ (List.mem_flatMap.2 ⟨r, hr, List.mem_append_right _ hc⟩)
    rw [hmem]
    refine ⟨List.mem_append_right _ (List.mem_flatMap.2 ⟨r, hr, hhead⟩), har, ?_⟩
    obtain ⟨l1, l2, l3⟩ := hlev r hr p hhead
    have hsafe : ∀ k, (∀ q ∈ r.predsPositive, level q + 1 ≤ k) → ∀ σ, B σ → ∀ v, SafeVar r.positive r.operations v → σ v ∈ D k := by
      intro k hk σ hσ v hv
      obtain ⟨N, hb⟩ := hB σ hσ
      refine safe_value (hff r hr) (fun c hc => h0 _ c (hcr c hc)) (N := N) ?_ hb hv
      intro a ha' hP w hw
      rw [hmem] at hP
      exact levelDom_mono rules d0 (hk _ (List.mem_map.2 ⟨a, ha', rfl⟩)) _ (hP.2.2 _ (List.mem_map.2 ⟨w, hw, rfl⟩))
    have hterm : ∀ (h : HeadAtom α) (i : Nat) (σ : Variable → α), r.head[i]? = some h → (∀ v ∈ h.vars, σ v ∈ D (level p + 1)) →
        ∀ x ∈ h.inst σ, x ∈ D (level p + 1) := by
      intro h i σ hi hv x hx
      obtain ⟨t, ht, rfl⟩ := List.mem_map.1 hx
      cases t with
      | var v => exact hv v (List.mem_filterMap.2 ⟨_, ht, rfl⟩)
      | const c =>
        apply h0; apply hch
        exact List.mem_flatMap.2 ⟨h, List.mem_of_getElem? hi, List.mem_filterMap.2 ⟨_, ht, rfl⟩⟩
    have hnoex : ∀ (h : HeadAtom α), h ∈ r.head → ∀ v ∈ h.vars, v.isExistential = false := by
      intro h hh v hv
      have := hr3
      unfold NRule.isExistential at this
      rw [List.any_eq_false] at this
      have := this h hh
      rw [Bool.not_eq_true, List.any_eq_false] at this
      simpa using this v hv
    cases hd with
    | @plain σ h i hσ hi hna =>
      refine hterm h i σ hi fun v hv => ?_
      exact hsafe _ (fun q hq => Nat.succ_le_succ (l1 q hq)) σ hσ v (hr2.headSafe i h hi hna v hv (hnoex h (List.mem_of_getElem? hi) v hv))
    | @agg σ h i a hag hai hi =>
      have hca : r.containsAggregates = true := by rw [NRule.containsAggregates, hai]; rfl
      have haok := hr2.agg a i hai
      have l3' := l3 hca
      obtain ⟨τ, l, t1, t2, t3, t4⟩ := hag.group
      have hval : ∀ τ', B τ' → ∀ v, SafeVar r.positive r.operations v → τ' v ∈ D (level h.pred) :=
        hsafe _ fun q hq => l3' q hq
      -- the value of the aggregate
      have hout : σ a.output ∈ D (level h.pred + 1) := by
        rw [hD, levelDom]
        refine List.mem_append_right _ (List.mem_flatMap.2 ⟨r, hr, ?_⟩)
        unfold aggValues
        rw [hai]
        simp only [List.mem_filterMap, List.mem_sublists, aggValues.tuplesOf]
        refine ⟨(Rel.tuples (levelDom rules d0 (level h.pred)) (a.distinct.length + 1)).filter fun x => decide (x ∈ l),
          List.filter_sublist, ?_⟩
        rw [← t4]
        apply Dom.agg_set
        intro x
        rw [List.mem_filter, decide_eq_true_eq, and_iff_right_iff_imp]
        intro hx
        obtain ⟨τ', b1, b2, rfl⟩ := (t3 x).1 hx
        rw [Rel.mem_tuples]
        refine ⟨by simp, fun y hy => ?_⟩
        obtain ⟨v, hv, rfl⟩ := List.mem_map.1 hy
        exact hval τ' b1 v (haok.inputSafe v hv)
      have hgrp : ∀ v ∈ a.groupBy, σ v ∈ D (level h.pred + 1) := by
        intro v hv
        rw [← t2 v hv]
        exact levelDom_mono rules d0 (Nat.le_succ _) _ (hval τ t1 v (haok.groupSafe v hv))
      refine hterm h i σ hi fun v hv => ?_
      rcases hr2.aggSafe a i h hai hi v hv with hv | rfl | ⟨o, e, ho, he⟩
      · exact hgrp v hv
      · exact hout
      · have hev := (Operation.eval_assignment he).1 (hag.ops o ho.1 ho.2.1 ho.2.2)
        have hprim := (hff r hr).remaining o v e ho he
        obtain ⟨v', e', he', hw, -⟩ := haok.assigns o ho
        rw [he] at he'
        simp only [Option.some.injEq, Prod.mk.injEq] at he'
        obtain ⟨rfl, rfl⟩ := he'
        cases e with
        | var w =>
          simp only [Operation.eval, Option.some.injEq] at hev
          rw [← hev]
          rcases hw w (by simp [Operation.vars]) with hw | rfl
          · exact hgrp w hw
          · exact hout
        | const c =>
          simp only [Operation.eval, Option.some.injEq] at hev
          rw [← hev]
          exact h0 _ _ (hcr c (List.mem_filterMap.2 ⟨o, ho.1, by rw [he]⟩))
        | equal _ _ => exact absurd hprim id
        | op _ _ => exact absurd hprim id

end Verif
