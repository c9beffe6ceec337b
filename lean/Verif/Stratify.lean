import Verif.PhaseEval
import Mathlib.Data.List.Sort
import Mathlib.Logic.Relation

/-!
# Stratification

Model of `StrategyStratifiedNegation::new` (/repo/nemo/src/execution/selection_strategy/strategy_stratified_negation.rs),
`StrategyDependencyGraph::new` (strategy_graph.rs), the dependency graphs and `LabeledGraph::stratify`
(/repo/nemo/src/util/labeled_graph.rs).  The library functions `petgraph::algo::condensation` and
`petgraph::algo::toposort` are described by their contract `IsTopoCond`.
-/

set_option linter.unusedSimpArgs false
set_option linter.unusedSectionVars false

namespace Verif
variable {α : Type}

/-! ## Contract of petgraph -/

/-- `v` can be reached from `u` -/
def Reach (edges : List (Nat × Nat)) : Nat → Nat → Prop := Relation.ReflTransGen fun u v => (u, v) ∈ edges

/-- `sccs` are the strongly connected components of the graph with nodes `0, …, n-1`, in topological
order: the contract of `toposort(condensation(graph))`. -/
structure IsTopoCond (n : Nat) (edges : List (Nat × Nat)) (sccs : List (List Nat)) : Prop where
  perm : sccs.flatten.Perm (List.range n)
  ne : ∀ scc ∈ sccs, scc ≠ []
  conn : ∀ scc ∈ sccs, ∀ u ∈ scc, ∀ v ∈ scc, Reach edges u v
  topo : ∀ u v, (u, v) ∈ edges → ∀ (i j : Nat) a b, sccs[i]? = some a → sccs[j]? = some b → u ∈ a → v ∈ b → i ≤ j

/-! ## Graphs -/

/-- The indices of rules with a property -/
def ruleIdxs (rules : List (NRule α)) (f : NRule α → Bool) : List Nat :=
  (rules.zipIdx.filter fun x => f x.1).map (·.2)

/-- `build_graph` (strategy_stratified_negation.rs:35-101): edges from rules that derive a predicate to rules
that use it; the Boolean value is true for negative edges. -/
def negationGraph (rules : List (NRule α)) : List (Nat × Nat × Bool) :=
  (rules.flatMap (·.predsHead)).dedup.flatMap fun p =>
    (ruleIdxs rules fun r => decide (p ∈ r.predsHead)).flatMap fun h =>
      ((ruleIdxs rules fun r => !r.containsAggregates && decide (p ∈ r.predsPositive)).map fun b => (h, b, false)) ++
      ((ruleIdxs rules fun r => decide (p ∈ r.predsNegative) || (r.containsAggregates && decide (p ∈ r.predsPositive))).map
        fun b => (h, b, true))

/-- `GraphConstructorPositive::build_graph` (dependency_graph/graph_positive.rs:18-60) -/
def positiveGraph (rules : List (NRule α)) : List (Nat × Nat) :=
  (rules.flatMap (·.predsHead)).dedup.flatMap fun p =>
    (ruleIdxs rules fun r => decide (p ∈ r.predsHead)).flatMap fun h =>
      (ruleIdxs rules fun r => decide (p ∈ r.predsPositive)).map fun b => (h, b)

/-! ## Stratification -/

/-- the index of the component of a node -/
def sccIndex (sccs : List (List Nat)) (u : Nat) : Nat := sccs.findIdx fun scc => decide (u ∈ scc)

/-- `remove_self_cycles` (labeled_graph.rs:74-92): whether there is a negative edge within a component -/
def hasNegativeCycle (edges : List (Nat × Nat × Bool)) (sccs : List (List Nat)) : Bool :=
  edges.any fun e => e.2.2 && decide (sccIndex sccs e.1 = sccIndex sccs e.2.1)

/-- The stratum of a component (labeled_graph.rs:125-146); `acc` are the strata of the previous components. (That
the stratum of the source of an edge is known follows from the topological order.) -/
def stratumOf (edges : List (Nat × Nat × Bool)) (sccs : List (List Nat)) (acc : List Nat) (scc : List Nat) : Nat :=
  (edges.filter fun e => decide (e.2.1 ∈ scc) && !decide (e.1 ∈ scc)).foldl
    (fun s e => max s ((acc.getD (sccIndex sccs e.1) 0) + if e.2.2 then 1 else 0)) 0

/-- The loop over the components (labeled_graph.rs:123-149) -/
def strataLoop (edges : List (Nat × Nat × Bool)) (sccs : List (List Nat)) : List (List Nat) → List Nat → List Nat
  | [], acc => acc
  | scc :: rest, acc => strataLoop edges sccs rest (acc ++ [stratumOf edges sccs acc scc])

/-- the components with a stratum -/
def withStratum (sccs : List (List Nat)) (strata : List Nat) (k : Nat) : List (List Nat) :=
  ((sccs.zip strata).filter fun x => decide (x.2 = k)).map (·.1)

/-- `stratify` (labeled_graph.rs:111-167) -/
def stratify (edges : List (Nat × Nat × Bool)) (sccs : List (List Nat)) : Option (List (List Nat)) :=
  if hasNegativeCycle edges sccs then none
  else
    some ((((List.range sccs.length).map (withStratum sccs (strataLoop edges sccs sccs []))).takeWhile
      fun l => !l.isEmpty).map List.flatten)

/-- `StrategyStratifiedNegation::new` (strategy_stratified_negation.rs:108-138) with `StrategyDependencyGraph::new`
(strategy_graph.rs:29-56) for each stratum: the strata, each with the components of its rules.
`cond` is petgraph's `toposort ∘ condensation`. -/
def newStrategy (cond : Nat → List (Nat × Nat) → List (List Nat)) (rules : List (NRule α)) :
    Option (List (List Nat × List (List Nat))) := do
  let g := negationGraph rules
  let strata ← stratify g (cond rules.length (g.map fun e => (e.1, e.2.1)))
  return strata.map fun s =>
    let s := s.mergeSort (fun a b => decide (a ≤ b))
    (s, cond s.length (positiveGraph (s.filterMap fun i => rules[i]?)))

/-! ## Specification -/

/-- The textbook definition: predicates can be assigned to levels such that the predicates in the head of
a rule have at least the level of the predicates in its body, and a higher level than those that occur
negated, or in the body of a rule with aggregates. -/
def IsStratifiable (rules : List (NRule α)) : Prop :=
  ∃ level : Tag → Nat, ∀ r ∈ rules, ∀ h ∈ r.predsHead,
    (∀ p ∈ r.predsPositive, level p ≤ level h) ∧ (∀ p ∈ r.predsNegative, level p < level h) ∧
    (r.containsAggregates = true → ∀ p ∈ r.predsPositive, level p < level h)

/-! ## Proofs -/

theorem mem_ruleIdxs (rules : List (NRule α)) (f : NRule α → Bool) (i : Nat) :
    i ∈ ruleIdxs rules f ↔ ∃ r, rules[i]? = some r ∧ f r = true := by
  simp only [ruleIdxs, List.mem_map, List.mem_filter]
  constructor
  · rintro ⟨⟨r, j⟩, ⟨h1, h2⟩, rfl⟩
    exact ⟨r, List.mem_zipIdx_iff_getElem?.1 h1, h2⟩
  · rintro ⟨r, h1, h2⟩
    exact ⟨(r, i), ⟨List.mem_zipIdx_iff_getElem?.2 h1, h2⟩, rfl⟩

theorem mem_negationGraph (rules : List (NRule α)) (i j : Nat) (b : Bool) :
    (i, j, b) ∈ negationGraph rules ↔ ∃ r r' p, rules[i]? = some r ∧ rules[j]? = some r' ∧ p ∈ r.predsHead ∧
      ((b = false ∧ r'.containsAggregates = false ∧ p ∈ r'.predsPositive) ∨ (b = true ∧ p ∈ r'.predsStrict)) := by
  have hstr : ∀ (r' : NRule α) p, p ∈ r'.predsStrict ↔ p ∈ r'.predsNegative ∨ (r'.containsAggregates = true ∧ p ∈ r'.predsPositive) := by
    intro r' p
    unfold NRule.predsStrict
    rw [List.mem_append]
    split
    · rename_i h; simp [h]
    · rename_i h; simp [h]
  simp only [negationGraph, List.mem_flatMap, List.mem_dedup, List.mem_append, List.mem_map, mem_ruleIdxs,
    Prod.mk.injEq, Bool.and_eq_true, Bool.or_eq_true, decide_eq_true_eq, Bool.not_eq_true']
  constructor
  · rintro ⟨p, -, i', ⟨r, h1, h2⟩, ⟨j', ⟨r', h3, h4⟩, rfl, rfl, rfl⟩ | ⟨j', ⟨r', h3, h4⟩, rfl, rfl, rfl⟩⟩
    · exact ⟨r, r', p, h1, h3, h2, Or.inl ⟨rfl, h4⟩⟩
    · exact ⟨r, r', p, h1, h3, h2, Or.inr ⟨rfl, (hstr _ _).2 h4⟩⟩
  · rintro ⟨r, r', p, h1, h2, h3, h4⟩
    refine ⟨p, ⟨r, List.mem_of_getElem? h1, h3⟩, i, ⟨r, h1, h3⟩, ?_⟩
    rcases h4 with ⟨rfl, h4⟩ | ⟨rfl, h4⟩
    · exact Or.inl ⟨j, ⟨r', h2, h4⟩, rfl, rfl, rfl⟩
    · exact Or.inr ⟨j, ⟨r', h2, (hstr _ _).1 h4⟩, rfl, rfl, rfl⟩

theorem mem_positiveGraph (rules : List (NRule α)) (i j : Nat) :
    (i, j) ∈ positiveGraph rules ↔ ∃ r r' p, rules[i]? = some r ∧ rules[j]? = some r' ∧ p ∈ r.predsHead ∧
      p ∈ r'.predsPositive := by
  simp only [positiveGraph, List.mem_flatMap, List.mem_dedup, List.mem_map, mem_ruleIdxs,
    Prod.mk.injEq, decide_eq_true_eq]
  constructor
  · rintro ⟨p, -, i', ⟨r, h1, h2⟩, j', ⟨r', h3, h4⟩, rfl, rfl⟩
    exact ⟨r, r', p, h1, h3, h2, h4⟩
  · rintro ⟨r, r', p, h1, h2, h3, h4⟩
    exact ⟨p, ⟨r, List.mem_of_getElem? h1, h3⟩, i, ⟨r, h1, h3⟩, j, ⟨r', h2, h4⟩, rfl, rfl⟩

section cond
variable {n : Nat} {edges : List (Nat × Nat)} {sccs : List (List Nat)}

theorem IsTopoCond.exists_index (h : IsTopoCond n edges sccs) {u : Nat} (hu : u < n) :
    ∃ a, sccs[sccIndex sccs u]? = some a ∧ u ∈ a ∧ sccIndex sccs u < sccs.length := by
  have : u ∈ sccs.flatten := h.perm.mem_iff.2 (List.mem_range.2 hu)
  obtain ⟨a, ha, hua⟩ := List.mem_flatten.1 this
  have hlt : sccIndex sccs u < sccs.length := List.findIdx_lt_length_of_exists ⟨a, ha, by simpa using hua⟩
  refine ⟨_, List.getElem?_eq_getElem hlt, ?_, hlt⟩
  have := List.findIdx_getElem (w := hlt) (p := fun scc => decide (u ∈ scc))
  exact of_decide_eq_true this

theorem IsTopoCond.index_unique (h : IsTopoCond n edges sccs) {u i j : Nat} {a b : List Nat}
    (hi : sccs[i]? = some a) (hj : sccs[j]? = some b) (ha : u ∈ a) (hb : u ∈ b) : i = j := by
  have hnd : sccs.flatten.Nodup := h.perm.nodup_iff.2 List.nodup_range
  rw [List.nodup_flatten] at hnd
  obtain ⟨-, hp⟩ := hnd
  by_contra hne
  rw [List.pairwise_iff_getElem] at hp
  obtain ⟨hi', rfl⟩ := List.getElem?_eq_some_iff.1 hi
  obtain ⟨hj', rfl⟩ := List.getElem?_eq_some_iff.1 hj
  rcases Nat.lt_or_gt_of_ne hne with hlt | hlt
  · exact hp i j hi' hj' hlt ha hb
  · exact hp j i hj' hi' hlt hb ha

theorem IsTopoCond.mem_lt (h : IsTopoCond n edges sccs) {a : List Nat} (ha : a ∈ sccs) {u : Nat} (hu : u ∈ a) : u < n :=
  List.mem_range.1 (h.perm.mem_iff.1 (List.mem_flatten.2 ⟨a, ha, hu⟩))

theorem IsTopoCond.index_eq (h : IsTopoCond n edges sccs) {u i : Nat} {a : List Nat} (hi : sccs[i]? = some a)
    (ha : u ∈ a) : sccIndex sccs u = i := by
  obtain ⟨b, h1, h2, -⟩ := h.exists_index (h.mem_lt (List.mem_of_getElem? hi) ha)
  exact h.index_unique h1 hi h2 ha

end cond

/-! ### The strata -/

theorem strataLoop_spec (edges : List (Nat × Nat × Bool)) (sccs rest : List (List Nat)) (acc : List Nat) :
    (strataLoop edges sccs rest acc).length = acc.length + rest.length ∧
    (∀ (i : Nat), i < acc.length → (strataLoop edges sccs rest acc)[i]? = acc[i]?) ∧
    ∀ (i : Nat) scc, rest[i]? = some scc → (strataLoop edges sccs rest acc)[acc.length + i]? =
      some (stratumOf edges sccs ((strataLoop edges sccs rest acc).take (acc.length + i)) scc) := by
  induction rest generalizing acc with
  | nil => simp [strataLoop]
  | cons x rest ih =>
    rw [strataLoop]
    obtain ⟨h1, h2, h3⟩ := ih (acc ++ [stratumOf edges sccs acc x])
    set res := strataLoop edges sccs rest (acc ++ [stratumOf edges sccs acc x]) with hres
    have htake : res.take acc.length = acc := by
      apply List.ext_getElem?
      intro i
      by_cases hi : i < acc.length
      · rw [List.getElem?_take_of_lt hi, h2 i (by simp; omega), List.getElem?_append_left hi]
      · rw [List.getElem?_eq_none (by simp; omega), List.getElem?_eq_none (by omega)]
    refine ⟨by rw [h1]; simp; omega, ?_, ?_⟩
    · intro i hi
      rw [h2 i (by simp; omega), List.getElem?_append_left hi]
    · intro i scc hi
      cases i with
      | zero =>
        simp only [List.getElem?_cons_zero, Option.some.injEq] at hi
        subst hi
        rw [Nat.add_zero, htake, h2 acc.length (by simp), List.getElem?_append_right le_rfl]
        simp
      | succ i =>
        have := h3 i scc (by simpa using hi)
        simp only [List.length_append, List.length_cons, List.length_nil] at this
        rw [show acc.length + (i + 1) = acc.length + (0 + 1) + i by omega]
        exact this

theorem foldl_max_spec {β : Type} (l : List β) (f : β → Nat) (s : Nat) :
    s ≤ l.foldl (fun s e => max s (f e)) s ∧ (∀ e ∈ l, f e ≤ l.foldl (fun s e => max s (f e)) s) ∧
    (l.foldl (fun s e => max s (f e)) s = s ∨ ∃ e ∈ l, l.foldl (fun s e => max s (f e)) s = f e) := by
  induction l generalizing s with
  | nil => simp
  | cons x l ih =>
    rw [List.foldl_cons]
    obtain ⟨h1, h2, h3⟩ := ih (max s (f x))
    refine ⟨le_trans (le_max_left _ _) h1, ?_, ?_⟩
    · intro e he
      rcases List.mem_cons.1 he with rfl | he
      · exact le_trans (le_max_right _ _) h1
      · exact h2 e he
    · rcases h3 with h3 | ⟨e, he, h3⟩
      · rcases max_choice s (f x) with hm | hm
        · left; rw [h3, hm]
        · right; exact ⟨x, List.mem_cons_self, by rw [h3, hm]⟩
      · exact Or.inr ⟨e, List.mem_cons_of_mem _ he, h3⟩

section strata
variable {n : Nat} {edges : List (Nat × Nat × Bool)} {sccs : List (List Nat)}

/-- the stratum of a node -/
def stratLevel (edges : List (Nat × Nat × Bool)) (sccs : List (List Nat)) (u : Nat) : Nat :=
  (strataLoop edges sccs sccs []).getD (sccIndex sccs u) 0

theorem strata_get (i : Nat) (scc : List Nat) (hi : sccs[i]? = some scc) :
    (strataLoop edges sccs sccs [])[i]? = some (stratumOf edges sccs ((strataLoop edges sccs sccs []).take i) scc) := by
  have := (strataLoop_spec edges sccs sccs []).2.2 i scc hi
  simpa using this

theorem stratLevel_edge (hc : IsTopoCond n (edges.map fun e => (e.1, e.2.1)) sccs) (hb : ∀ e ∈ edges, e.1 < n ∧ e.2.1 < n)
    (hneg : hasNegativeCycle edges sccs = false) {e : Nat × Nat × Bool} (he : e ∈ edges) :
    stratLevel edges sccs e.1 + (if e.2.2 then 1 else 0) ≤ stratLevel edges sccs e.2.1 := by
  obtain ⟨h1, h2⟩ := hb e he
  obtain ⟨a, a1, a2, a3⟩ := hc.exists_index h1
  obtain ⟨b, b1, b2, b3⟩ := hc.exists_index h2
  by_cases heq : sccIndex sccs e.1 = sccIndex sccs e.2.1
  · unfold stratLevel
    rw [heq]
    have : e.2.2 = false := by
      rw [hasNegativeCycle, List.any_eq_false] at hneg
      have := hneg e he
      simp only [heq, decide_true, Bool.and_true, Bool.not_eq_true] at this
      exact this
    rw [this]; simp
  · have hle := hc.topo e.1 e.2.1 (List.mem_map.2 ⟨e, he, rfl⟩) _ _ a b a1 b1 a2 b2
    have hlt : sccIndex sccs e.1 < sccIndex sccs e.2.1 := by omega
    have hg := strata_get (edges := edges) (sccIndex sccs e.2.1) b b1
    have hlv : stratLevel edges sccs e.2.1 = stratumOf edges sccs ((strataLoop edges sccs sccs []).take (sccIndex sccs e.2.1)) b := by
      unfold stratLevel; rw [List.getD_eq_getElem?_getD, hg]; rfl
    rw [hlv]
    have hmem : e ∈ edges.filter fun e => decide (e.2.1 ∈ b) && !decide (e.1 ∈ b) := by
      rw [List.mem_filter]
      refine ⟨he, ?_⟩
      have : e.1 ∉ b := fun hin => heq (hc.index_eq b1 hin)
      simp [b2, this]
    unfold stratumOf
    refine le_trans ?_ ((foldl_max_spec (edges.filter fun e => decide (e.2.1 ∈ b) && !decide (e.1 ∈ b))
      (fun e' => (((strataLoop edges sccs sccs []).take (sccIndex sccs e.2.1)).getD (sccIndex sccs e'.1) 0) + if e'.2.2 then 1 else 0) 0).2.1 e hmem)
    have : ((strataLoop edges sccs sccs []).take (sccIndex sccs e.2.1)).getD (sccIndex sccs e.1) 0 = stratLevel edges sccs e.1 := by
      unfold stratLevel
      rw [List.getD_eq_getElem?_getD, List.getD_eq_getElem?_getD, List.getElem?_take_of_lt hlt]
    rw [this]

theorem strata_length : (strataLoop edges sccs sccs []).length = sccs.length := by
  have := (strataLoop_spec edges sccs sccs []).1; simpa using this

/-- Strata are not larger than the index of the component, and there are no gaps. -/
theorem strata_bound (hc : IsTopoCond n (edges.map fun e => (e.1, e.2.1)) sccs) (hb : ∀ e ∈ edges, e.1 < n ∧ e.2.1 < n) :
    ∀ (i k : Nat), (strataLoop edges sccs sccs [])[i]? = some k →
      k ≤ i ∧ ∀ m, m < k → ∃ j : Nat, (strataLoop edges sccs sccs [])[j]? = some m := by
  intro i
  induction i using Nat.strong_induction_on with
  | _ i ih =>
    intro k hk
    have hil : i < sccs.length := by rw [← strata_length (edges := edges)]; exact (List.getElem?_eq_some_iff.1 hk).1
    obtain ⟨scc, hscc⟩ : ∃ s, sccs[i]? = some s := ⟨_, List.getElem?_eq_getElem hil⟩
    rw [strata_get i scc hscc] at hk
    simp only [Option.some.injEq] at hk
    unfold stratumOf at hk
    rcases (foldl_max_spec (edges.filter fun e => decide (e.2.1 ∈ scc) && !decide (e.1 ∈ scc))
      (fun e' => (((strataLoop edges sccs sccs []).take i).getD (sccIndex sccs e'.1) 0) + if e'.2.2 then 1 else 0) 0).2.2 with h0 | ⟨e, he, h0⟩
    · rw [h0] at hk; subst hk; exact ⟨Nat.zero_le _, fun m hm => by omega⟩
    · rw [h0] at hk
      rw [List.mem_filter] at he
      obtain ⟨he1, he2⟩ := he
      simp only [Bool.and_eq_true, decide_eq_true_eq, Bool.not_eq_true', decide_eq_false_iff_not] at he2
      obtain ⟨a, a1, a2, a3⟩ := hc.exists_index (hb e he1).1
      have hle := hc.topo e.1 e.2.1 (List.mem_map.2 ⟨e, he1, rfl⟩) _ _ a scc a1 hscc a2 he2.1
      have hne : sccIndex sccs e.1 ≠ i := by
        intro h; rw [h, hscc] at a1; cases a1; exact he2.2 a2
      have hlt : sccIndex sccs e.1 < i := by omega
      rw [List.getD_eq_getElem?_getD, List.getElem?_take_of_lt hlt, strata_get _ a a1] at hk
      simp only [Option.getD_some] at hk
      have hj := strata_get (edges := edges) _ a a1
      obtain ⟨i1, i2⟩ := ih _ hlt _ hj
      set k' := stratumOf edges sccs (List.take (sccIndex sccs e.1) (strataLoop edges sccs sccs [])) a with hk'
      refine ⟨?_, fun m hm => ?_⟩
      · rw [← hk]; split <;> omega
      · by_cases hmk : m < k'
        · exact i2 m hmk
        · refine ⟨_, hj.trans ?_⟩
          congr 1
          split at hk <;> omega

theorem mem_withStratum (strata : List Nat) (k : Nat) (scc : List Nat) :
    scc ∈ withStratum sccs strata k ↔ ∃ i : Nat, sccs[i]? = some scc ∧ strata[i]? = some k := by
  simp only [withStratum, List.mem_map, List.mem_filter, decide_eq_true_eq]
  constructor
  · rintro ⟨⟨s, k'⟩, ⟨h1, h2⟩, rfl⟩
    obtain ⟨i, hi⟩ := List.getElem?_of_mem h1
    rw [List.getElem?_zip_eq_some] at hi
    simp only at h2; subst h2
    exact ⟨i, hi⟩
  · rintro ⟨i, h1, h2⟩
    exact ⟨(scc, k), ⟨List.mem_of_getElem? (i := i) (List.getElem?_zip_eq_some.2 ⟨h1, h2⟩), rfl⟩, rfl⟩

/-- a list that is cut at the first element with a property -/
theorem takeWhile_range {β : Type} (f : Nat → β) (p : β → Bool) (m K : Nat) (hK : K ≤ m)
    (h1 : ∀ k, k < K → p (f k) = true) (h2 : K < m → p (f K) = false) :
    ((List.range m).map f).takeWhile p = (List.range K).map f := by
  have hsplit : List.range m = List.range K ++ (List.range (m - K)).map (K + ·) := by
    rw [← List.range_add]; congr 1; omega
  rw [hsplit, List.map_append, List.takeWhile_append_of_pos]
  · have : (List.map f (List.map (fun x => K + x) (List.range (m - K)))).takeWhile p = [] := by
      cases hm : m - K with
      | zero => simp
      | succ q =>
        rw [List.range_succ_eq_map]
        simp [h2 (by omega)]
    rw [this, List.append_nil]
  · intro x hx
    obtain ⟨k, hk, rfl⟩ := List.mem_map.1 hx
    exact h1 k (List.mem_range.1 hk)

/-- **Stratification**: the nodes are partitioned by their level. -/
theorem stratify_spec (hc : IsTopoCond n (edges.map fun e => (e.1, e.2.1)) sccs) (hb : ∀ e ∈ edges, e.1 < n ∧ e.2.1 < n)
    {strata : List (List Nat)} (h : stratify edges sccs = some strata) :
    (∀ e ∈ edges, stratLevel edges sccs e.1 + (if e.2.2 then 1 else 0) ≤ stratLevel edges sccs e.2.1) ∧
    (∀ (k : Nat) s, strata[k]? = some s → s.Nodup ∧ ∀ u, u ∈ s ↔ u < n ∧ stratLevel edges sccs u = k) ∧
    (∀ u < n, stratLevel edges sccs u < strata.length) := by
  unfold stratify at h
  split at h
  · simp at h
  rename_i hneg
  rw [Bool.not_eq_true] at hneg
  simp only [Option.some.injEq] at h
  set lv := strataLoop edges sccs sccs [] with hlv
  have hlvl : lv.length = sccs.length := strata_length
  -- the number of strata
  obtain ⟨K, hK1, hK2, hK3⟩ : ∃ K, K ≤ sccs.length ∧ (∀ k, k < K → ∃ i : Nat, lv[i]? = some k) ∧
      ∀ (i k : Nat), lv[i]? = some k → k < K := by
    by_cases hnil : lv = []
    · exact ⟨0, Nat.zero_le _, fun k hk => by omega, fun i k hi => by simp [hnil] at hi⟩
    · set M := lv.foldl (fun s e => max s e) 0 with hM
      obtain ⟨-, m2, m3⟩ := foldl_max_spec lv (fun e => e) 0
      have hin : ∃ i : Nat, lv[i]? = some M := by
        rcases m3 with m3 | ⟨e, he, m3⟩
        · obtain ⟨x, hx⟩ := List.exists_mem_of_ne_nil _ hnil
          have := m2 x hx
          simp only [m3] at this
          obtain ⟨i, hi⟩ := List.getElem?_of_mem hx
          exact ⟨i, by rw [hi, hM]; simp only [m3]; congr 1; omega⟩
        · obtain ⟨i, hi⟩ := List.getElem?_of_mem he
          exact ⟨i, by rw [hi, hM]; simp only [m3]⟩
      obtain ⟨i, hi⟩ := hin
      obtain ⟨b1, b2⟩ := strata_bound hc hb i M hi
      refine ⟨M + 1, ?_, ?_, ?_⟩
      · have := (List.getElem?_eq_some_iff.1 hi).1; omega
      · intro k hk
        rcases Nat.lt_or_eq_of_le (Nat.lt_succ_iff.1 hk) with hk | rfl
        · exact b2 k hk
        · exact ⟨i, hi⟩
      · intro j k hj
        have := m2 k (List.mem_of_getElem? hj)
        exact Nat.lt_succ_of_le this
  rw [takeWhile_range _ _ _ K hK1 ?_ ?_] at h
  rotate_left
  · intro k hk
    obtain ⟨i, hi⟩ := hK2 k hk
    have hil : i < sccs.length := by rw [← hlvl]; exact (List.getElem?_eq_some_iff.1 hi).1
    rw [Bool.not_eq_true', List.isEmpty_eq_false_iff]
    exact List.ne_nil_of_mem ((mem_withStratum lv k sccs[i]).2 ⟨i, List.getElem?_eq_getElem hil, hi⟩)
  · intro _
    rw [Bool.not_eq_false', List.isEmpty_iff, List.eq_nil_iff_forall_not_mem]
    intro scc hs
    obtain ⟨i, -, hi⟩ := (mem_withStratum lv K scc).1 hs
    have := hK3 i K hi; omega
  have hlev : ∀ u (i : Nat) a, sccs[i]? = some a → u ∈ a → lv[i]? = some (stratLevel edges sccs u) := by
    intro u i a hi ha
    have := hc.index_eq hi ha
    unfold stratLevel
    rw [this, ← hlv, List.getD_eq_getElem?_getD, strata_get i a hi]; rfl
  refine ⟨fun e he => stratLevel_edge hc hb hneg he, ?_, ?_⟩
  · intro k s hs
    rw [← h, List.map_map, List.getElem?_map] at hs
    have hkK : k < K := by
      by_contra hcon
      rw [List.getElem?_eq_none (by simp; omega)] at hs
      simp at hs
    rw [List.getElem?_range hkK] at hs
    simp only [Option.map_some, Option.some.injEq, Function.comp_apply] at hs
    subst hs
    have hnd : sccs.flatten.Nodup := hc.perm.nodup_iff.2 List.nodup_range
    constructor
    · have hsub : (withStratum sccs lv k).Sublist sccs := by
        unfold withStratum
        have h1 : List.Sublist (((sccs.zip lv).filter fun x => decide (x.2 = k)).map (·.1)) ((sccs.zip lv).map (·.1)) :=
          (List.filter_sublist).map _
        refine h1.trans ?_
        rw [show (fun x : List Nat × Nat => x.1) = Prod.fst from rfl, List.map_fst_zip (by omega)]
      rw [List.nodup_flatten] at hnd ⊢
      exact ⟨fun l hl => hnd.1 l (hsub.subset hl), hnd.2.sublist hsub⟩
    · intro u
      rw [List.mem_flatten]
      constructor
      · rintro ⟨scc, hm, hu⟩
        obtain ⟨i, h1, h2⟩ := (mem_withStratum lv k scc).1 hm
        refine ⟨hc.mem_lt (List.mem_of_getElem? h1) hu, ?_⟩
        have := hlev u i scc h1 hu
        rw [h2] at this
        exact (Option.some.inj this).symm
      · rintro ⟨hu, rfl⟩
        obtain ⟨a, a1, a2, a3⟩ := hc.exists_index hu
        exact ⟨a, (mem_withStratum lv _ a).2 ⟨_, a1, hlev u _ a a1 a2⟩, a2⟩
  · intro u hu
    rw [← h]
    simp only [List.length_map, List.length_range]
    obtain ⟨a, a1, a2, a3⟩ := hc.exists_index hu
    exact hK3 _ _ (hlev u _ a a1 a2)

end strata

/-! ### The groups of the default strategy -/

theorem negationGraph_bound (rules : List (NRule α)) : ∀ e ∈ negationGraph rules, e.1 < rules.length ∧ e.2.1 < rules.length := by
  rintro ⟨i, j, b⟩ he
  obtain ⟨r, r', p, h1, h2, -⟩ := (mem_negationGraph rules i j b).1 he
  exact ⟨(List.getElem?_eq_some_iff.1 h1).1, (List.getElem?_eq_some_iff.1 h2).1⟩

theorem filterMap_get {β : Type} (rules : List β) (l : List Nat) (hall : ∀ i ∈ l, i < rules.length) :
    ∀ k : Nat, k < l.length → (l.filterMap fun i => rules[i]?)[k]? = rules[l.getD k 0]? := by
  induction l with
  | nil => intro k hk; simp at hk
  | cons a l ih =>
    intro k hk
    rw [List.filterMap_cons, List.getElem?_eq_getElem (hall a List.mem_cons_self)]
    cases k with
    | zero => simp [List.getElem?_eq_getElem (hall a List.mem_cons_self)]
    | succ k =>
      simp only [List.getElem?_cons_succ, List.getD_cons_succ]
      exact ih (fun i hi => hall i (List.mem_cons_of_mem _ hi)) k (by simpa using hk)

/-- **The groups processed by the default strategy are suitable**: no group uses predicates derived
by later groups, negated and aggregated predicates are derived by earlier groups, and each rule
belongs to a group. -/
theorem phases_ok (cond : Nat → List (Nat × Nat) → List (List Nat)) (hcond : ∀ n e, (∀ x ∈ e, x.1 < n ∧ x.2 < n) → IsTopoCond n e (cond n e))
    (rules : List (NRule α)) {strata : List (List Nat × List (List Nat))} (h : newStrategy cond rules = some strata) :
    PhasesOK rules (phasesOf strata) ∧ ∀ i < rules.length, ∃ ph ∈ phasesOf strata, i ∈ ph := by
  unfold newStrategy at h
  simp only [Option.bind_eq_bind, Option.pure_def, Option.bind_eq_some_iff, Option.some.injEq] at h
  obtain ⟨st, hst, rfl⟩ := h
  set g := negationGraph rules with hg
  set sccs := cond rules.length (g.map fun e => (e.1, e.2.1)) with hsccs
  have hb : ∀ e ∈ g, e.1 < rules.length ∧ e.2.1 < rules.length := negationGraph_bound rules
  have hc : IsTopoCond rules.length (g.map fun e => (e.1, e.2.1)) sccs := hcond _ _ (by
    intro x hx; obtain ⟨e, he, rfl⟩ := List.mem_map.1 hx; exact hb e he)
  obtain ⟨s1, s2, s3⟩ := stratify_spec hc hb hst
  set L := stratLevel g sccs with hL
  -- edges between rules
  have hpos : ∀ i j r r', rules[i]? = some r → rules[j]? = some r' → ∀ p ∈ r.predsHead,
      (p ∈ r'.predsPositive ∨ p ∈ r'.predsNegative) → L i ≤ L j := by
    intro i j r r' hi hj p hp hu
    by_cases hstr : p ∈ r'.predsStrict
    · have := s1 (i, j, true) ((mem_negationGraph rules i j true).2 ⟨r, r', p, hi, hj, hp, Or.inr ⟨rfl, hstr⟩⟩)
      simp only at this; omega
    · have hna : r'.containsAggregates = false ∧ p ∈ r'.predsPositive := by
        unfold NRule.predsStrict at hstr
        rw [List.mem_append] at hstr
        push Not at hstr
        obtain ⟨h1, h2⟩ := hstr
        have hpp := hu.resolve_right h1
        refine ⟨?_, hpp⟩
        cases hag : r'.containsAggregates with
        | false => rfl
        | true => rw [hag] at h2; exact absurd hpp h2
      have := s1 (i, j, false) ((mem_negationGraph rules i j false).2 ⟨r, r', p, hi, hj, hp, Or.inl ⟨rfl, hna⟩⟩)
      simpa using this
  have hstrict : ∀ i j r r', rules[i]? = some r → rules[j]? = some r' → ∀ p ∈ r.predsHead, p ∈ r'.predsStrict → L i < L j := by
    intro i j r r' hi hj p hp hstr
    have := s1 (i, j, true) ((mem_negationGraph rules i j true).2 ⟨r, r', p, hi, hj, hp, Or.inr ⟨rfl, hstr⟩⟩)
    simp only [if_true] at this; omega
  -- the strata
  let srt : List Nat → List Nat := fun s => s.mergeSort (fun a b => decide (a ≤ b))
  have hmem_srt : ∀ s u, u ∈ srt s ↔ u ∈ s := fun s u => (List.mergeSort_perm s _).mem_iff
  have hst_mem : ∀ s ∈ st, ∃ k : Nat, st[k]? = some s := fun s hs => List.getElem?_of_mem hs
  have hget : ∀ s ∈ st, ∀ k, k < (srt s).length → ∃ r, rules[(srt s).getD k 0]? = some r ∧
      (s.mergeSort fun a b => decide (a ≤ b)).getD k 0 ∈ s := by
    intro s hs k hk
    obtain ⟨m, hm⟩ := hst_mem s hs
    have hin : (srt s).getD k 0 ∈ s := by
      rw [← hmem_srt, List.getD_eq_getElem?_getD, List.getElem?_eq_getElem hk]; exact List.getElem_mem hk
    have := (((s2 m s hm).2 _).1 hin).1
    exact ⟨_, List.getElem?_eq_getElem this, hin⟩
  have hsub : ∀ s ∈ st, ∀ k : Nat, k < (srt s).length →
      ((srt s).filterMap fun i => rules[i]?)[k]? = rules[(srt s).getD k 0]? := by
    intro s hs k hk
    obtain ⟨m, hm⟩ := hst_mem s hs
    have hall : ∀ i ∈ srt s, i < rules.length := fun i hi => (((s2 m s hm).2 i).1 ((hmem_srt s i).1 hi)).1
    exact filterMap_get rules (srt s) hall k hk
  have hlenf : ∀ s ∈ st, ((srt s).filterMap fun i => rules[i]?).length = (srt s).length := by
    intro s hs
    obtain ⟨m, hm⟩ := hst_mem s hs
    have hall : ∀ i ∈ srt s, i < rules.length := fun i hi => (((s2 m s hm).2 i).1 ((hmem_srt s i).1 hi)).1
    generalize srt s = l at hall
    induction l with
    | nil => rfl
    | cons a l ih =>
      rw [List.filterMap_cons, List.getElem?_eq_getElem (hall a List.mem_cons_self)]
      simp only [List.length_cons]
      rw [ih fun i hi => hall i (List.mem_cons_of_mem _ hi)]
  -- the components of a stratum
  have hlc : ∀ s ∈ st, IsTopoCond (srt s).length (positiveGraph ((srt s).filterMap fun i => rules[i]?))
      (cond (srt s).length (positiveGraph ((srt s).filterMap fun i => rules[i]?))) := by
    intro s hs
    apply hcond
    rintro ⟨i, j⟩ he
    obtain ⟨r, r', p, h1, h2, -⟩ := (mem_positiveGraph _ i j).1 he
    have h3 := (List.getElem?_eq_some_iff.1 h1).1
    have h4 := (List.getElem?_eq_some_iff.1 h2).1
    rw [hlenf s hs] at h3 h4
    exact ⟨h3, h4⟩
  -- membership in phases
  have hphase : ∀ ph, ph ∈ phasesOf (st.map fun s => (srt s, cond (srt s).length (positiveGraph ((srt s).filterMap fun i => rules[i]?)))) ↔
      ∃ s ∈ st, ∃ scc ∈ cond (srt s).length (positiveGraph ((srt s).filterMap fun i => rules[i]?)),
        ph = scc.map fun k => (srt s).getD k 0 := by
    intro ph
    simp only [phasesOf, List.mem_flatMap, List.mem_map]
    constructor
    · rintro ⟨_, ⟨s, hs, rfl⟩, scc, hscc, rfl⟩; exact ⟨s, hs, scc, hscc, rfl⟩
    · rintro ⟨s, hs, scc, hscc, rfl⟩; exact ⟨_, ⟨s, hs, rfl⟩, scc, hscc, rfl⟩
  have hlevel : ∀ (m : Nat) s, st[m]? = some s → ∀ scc ∈ cond (srt s).length (positiveGraph ((srt s).filterMap fun i => rules[i]?)),
      ∀ i ∈ scc.map fun k => (srt s).getD k 0, i < rules.length ∧ L i = m := by
    intro m s hm scc hscc i hi
    obtain ⟨k, hk, rfl⟩ := List.mem_map.1 hi
    have hs := List.mem_of_getElem? hm
    have hkl := (hlc s hs).mem_lt hscc hk
    obtain ⟨-, -, hin⟩ := hget s hs k hkl
    exact ((s2 m s hm).2 _).1 hin
  -- phases of the same or different strata
  have hpair : ∀ (Q : List Nat → List Nat → Prop),
      (∀ (m m' : Nat) s s', m < m' → st[m]? = some s → st[m']? = some s' →
        ∀ a ∈ cond (srt s).length (positiveGraph ((srt s).filterMap fun i => rules[i]?)),
        ∀ b ∈ cond (srt s').length (positiveGraph ((srt s').filterMap fun i => rules[i]?)),
        Q (a.map fun k => (srt s).getD k 0) (b.map fun k => (srt s').getD k 0)) →
      (∀ s ∈ st, (cond (srt s).length (positiveGraph ((srt s).filterMap fun i => rules[i]?))).Pairwise
        fun a b => Q (a.map fun k => (srt s).getD k 0) (b.map fun k => (srt s).getD k 0)) →
      (phasesOf (st.map fun s => (srt s, cond (srt s).length (positiveGraph ((srt s).filterMap fun i => rules[i]?))))).Pairwise Q := by
    intro Q hQ1 hQ2
    unfold phasesOf
    rw [List.pairwise_flatMap]
    constructor
    · intro x hx
      obtain ⟨s, hs, rfl⟩ := List.mem_map.1 hx
      simp only
      rw [List.pairwise_map]
      exact hQ2 s hs
    · rw [List.pairwise_map, List.pairwise_iff_getElem]
      intro m m' hm hm' hlt x hx y hy
      obtain ⟨a, ha, rfl⟩ := List.mem_map.1 hx
      obtain ⟨b, hb, rfl⟩ := List.mem_map.1 hy
      exact hQ1 m m' _ _ hlt (List.getElem?_eq_getElem hm) (List.getElem?_eq_getElem hm') a ha b hb
  refine ⟨⟨?_, ?_, ?_⟩, ?_⟩
  · intro ph hph
    obtain ⟨s, hs, scc, hscc, rfl⟩ := (hphase ph).1 hph
    obtain ⟨m, hm⟩ := hst_mem s hs
    refine ⟨fun i hi => (hlevel m s hm scc hscc i hi).1, ?_⟩
    intro i hi j hj r r' hr hr' p hp hps
    have h1 := (hlevel m s hm scc hscc i hi).2
    have h2 := (hlevel m s hm scc hscc j hj).2
    have := hstrict i j r r' hr hr' p hp hps
    omega
  · apply hpair
    · intro m m' s s' hlt hm hm' a ha b hb i hi hj
      have h1 := (hlevel m s hm a ha i hi).2
      have h2 := (hlevel m' s' hm' b hb i hj).2
      omega
    · intro s hs
      have hnd : (cond (srt s).length (positiveGraph ((srt s).filterMap fun i => rules[i]?))).flatten.Nodup :=
        (hlc s hs).perm.nodup_iff.2 List.nodup_range
      rw [List.nodup_flatten] at hnd
      refine List.Pairwise.imp_of_mem ?_ hnd.2
      intro a b ha hb hdis i hi hj
      obtain ⟨k, hk, rfl⟩ := List.mem_map.1 hi
      obtain ⟨k', hk', he⟩ := List.mem_map.1 hj
      have hkl := (hlc s hs).mem_lt ha hk
      have hkl' := (hlc s hs).mem_lt hb hk'
      obtain ⟨m, hm⟩ := hst_mem s hs
      have hsn : (srt s).Nodup := (List.mergeSort_perm s _).nodup_iff.2 (s2 m s hm).1
      have : k' = k := by
        simp only [List.getD_eq_getElem?_getD, List.getElem?_eq_getElem hkl, List.getElem?_eq_getElem hkl',
          Option.getD_some] at he
        exact (hsn.getElem_inj_iff).1 he
      subst this
      exact hdis hk hk'
  · apply hpair
    · intro m m' s s' hlt hm hm' a ha b hb i hi j hj r r' hr hr' p hp
      have h1 := (hlevel m s hm a ha i hi).2
      have h2 := (hlevel m' s' hm' b hb j hj).2
      have := hpos j i r' r hr' hr p hp
      constructor
      · intro h'; have := this (Or.inl h'); omega
      · intro h'; have := this (Or.inr h'); omega
    · intro s hs
      rw [List.pairwise_iff_getElem]
      intro x y hx hy hxy i hi j hj r r' hr hr' p hp
      obtain ⟨m, hm⟩ := hst_mem s hs
      have hxm := List.getElem_mem hx
      have hym := List.getElem_mem hy
      have h1 := (hlevel m s hm _ hxm i hi).2
      have h2 := (hlevel m s hm _ hym j hj).2
      constructor
      · intro h'
        obtain ⟨k, hk, rfl⟩ := List.mem_map.1 hi
        obtain ⟨k', hk', rfl⟩ := List.mem_map.1 hj
        have hkl := (hlc s hs).mem_lt hxm hk
        have hkl' := (hlc s hs).mem_lt hym hk'
        have hedge : (k', k) ∈ positiveGraph ((srt s).filterMap fun i => rules[i]?) := by
          rw [mem_positiveGraph]
          exact ⟨r', r, p, by rw [hsub s hs k' hkl']; exact hr', by rw [hsub s hs k hkl]; exact hr, hp, h'⟩
        have := (hlc s hs).topo k' k hedge y x _ _ (List.getElem?_eq_getElem hy) (List.getElem?_eq_getElem hx) hk' hk
        omega
      · intro h'
        have hps : p ∈ r.predsStrict := by simp [NRule.predsStrict, h']
        have := hstrict j i r' r hr' hr p hp hps
        omega
  · intro i hi
    have hlt := s3 i hi
    have hm : st[L i]? = some st[L i] := List.getElem?_eq_getElem hlt
    have hs := List.getElem_mem hlt
    have hin : i ∈ st[L i] := ((s2 _ _ hm).2 i).2 ⟨hi, rfl⟩
    rw [← hmem_srt] at hin
    obtain ⟨k, hk, hke⟩ := List.getElem_of_mem hin
    have hc' := hlc _ hs
    obtain ⟨a, a1, a2, -⟩ := hc'.exists_index hk
    refine ⟨_, (hphase _).2 ⟨_, hs, a, List.mem_of_getElem? a1, rfl⟩, List.mem_map.2 ⟨k, a2, ?_⟩⟩
    rw [List.getD_eq_getElem?_getD, List.getElem?_eq_getElem hk]; exact hke

/-- **A program is rejected iff it is not stratifiable.** -/
theorem newStrategy_isSome_iff (cond : Nat → List (Nat × Nat) → List (List Nat))
    (hcond : ∀ n e, (∀ x ∈ e, x.1 < n ∧ x.2 < n) → IsTopoCond n e (cond n e)) (rules : List (NRule α)) :
    (newStrategy cond rules).isSome = true ↔ IsStratifiable rules := by
  set g := negationGraph rules with hg
  set sccs := cond rules.length (g.map fun e => (e.1, e.2.1)) with hsccs
  have hb : ∀ e ∈ g, e.1 < rules.length ∧ e.2.1 < rules.length := negationGraph_bound rules
  have hc : IsTopoCond rules.length (g.map fun e => (e.1, e.2.1)) sccs := hcond _ _ (by
    intro x hx; obtain ⟨e, he, rfl⟩ := List.mem_map.1 hx; exact hb e he)
  have hsome : (newStrategy cond rules).isSome = (stratify g sccs).isSome := by
    unfold newStrategy
    simp only [Option.bind_eq_bind, Option.pure_def, ← hg, ← hsccs]
    cases stratify g sccs <;> rfl
  rw [hsome]
  constructor
  · intro h
    obtain ⟨st, hst⟩ := Option.isSome_iff_exists.1 h
    obtain ⟨s1, -, -⟩ := stratify_spec hc hb hst
    set L := stratLevel g sccs with hL
    let lv : Tag → Nat := fun p => ((ruleIdxs rules fun r => decide (p ∈ r.predsHead)).map fun i => L i + 1).foldl (fun s e => max s e) 0
    have hlv1 : ∀ p i r, rules[i]? = some r → p ∈ r.predsHead → L i + 1 ≤ lv p := by
      intro p i r hi hp
      apply (foldl_max_spec _ (fun e => e) 0).2.1
      exact List.mem_map.2 ⟨i, (mem_ruleIdxs _ _ _).2 ⟨r, hi, by simpa using hp⟩, rfl⟩
    have hlv2 : ∀ p, lv p = 0 ∨ ∃ i r, rules[i]? = some r ∧ p ∈ r.predsHead ∧ lv p = L i + 1 := by
      intro p
      rcases (foldl_max_spec ((ruleIdxs rules fun r => decide (p ∈ r.predsHead)).map fun i => L i + 1) (fun e => e) 0).2.2 with h0 | ⟨e, he, h0⟩
      · exact Or.inl h0
      · obtain ⟨i, hi, rfl⟩ := List.mem_map.1 he
        obtain ⟨r, h1, h2⟩ := (mem_ruleIdxs _ _ _).1 hi
        exact Or.inr ⟨i, r, h1, by simpa using h2, h0⟩
    have hS : ∀ r ∈ rules, ∀ h ∈ r.predsHead, ∀ p ∈ r.predsStrict, lv p < lv h := by
      intro r hr h hh p hp
      obtain ⟨j, hj⟩ := List.getElem?_of_mem hr
      have h1 := hlv1 h j r hj hh
      rcases hlv2 p with h0 | ⟨i, r', hi, hp', h0⟩
      · omega
      · have := s1 (i, j, true) ((mem_negationGraph rules i j true).2 ⟨r', r, p, hi, hj, hp', Or.inr ⟨rfl, hp⟩⟩)
        simp only [if_true] at this; omega
    refine ⟨lv, fun r hr h hh => ⟨fun p hp => ?_, fun p hp => hS r hr h hh p (by simp [NRule.predsStrict, hp]),
      fun ha p hp => hS r hr h hh p (by simp [NRule.predsStrict, hp, ha])⟩⟩
    by_cases ha : r.containsAggregates = true
    · exact (hS r hr h hh p (by simp [NRule.predsStrict, hp, ha])).le
    · obtain ⟨j, hj⟩ := List.getElem?_of_mem hr
      have h1 := hlv1 h j r hj hh
      rcases hlv2 p with h0 | ⟨i, r', hi, hp', h0⟩
      · omega
      · have := s1 (i, j, false) ((mem_negationGraph rules i j false).2 ⟨r', r, p, hi, hj, hp',
          Or.inl ⟨rfl, by simpa using ha, hp⟩⟩)
        simp only [Bool.false_eq_true, if_false] at this; omega
  · rintro ⟨lv, hlv⟩
    by_contra hcon
    have hneg : hasNegativeCycle g sccs = true := by
      by_contra hn
      apply hcon
      unfold stratify
      rw [if_neg hn]; rfl
    rw [hasNegativeCycle, List.any_eq_true] at hneg
    obtain ⟨⟨u, v, b⟩, he, hcyc⟩ := hneg
    simp only [Bool.and_eq_true, decide_eq_true_eq] at hcyc
    obtain ⟨rfl, hidx⟩ := hcyc
    obtain ⟨hu, hv⟩ := hb _ he
    obtain ⟨a, a1, a2, -⟩ := hc.exists_index hu
    obtain ⟨a', b1, b2, -⟩ := hc.exists_index hv
    rw [← hidx, a1] at b1; cases b1
    have hreach := hc.conn a (List.mem_of_getElem? a1) v b2 u a2
    obtain ⟨r, r', p, hr, hr', hp, hs⟩ := (mem_negationGraph rules u v true).1 he
    have hs : p ∈ r'.predsStrict := by rcases hs with ⟨h, -⟩ | ⟨-, h⟩ <;> [cases h; exact h]
    have hlt : ∀ h ∈ r'.predsHead, lv p < lv h := by
      intro h hh
      obtain ⟨l1, l2, l3⟩ := hlv r' (List.mem_of_getElem? hr') h hh
      unfold NRule.predsStrict at hs
      rw [List.mem_append] at hs
      rcases hs with hs | hs
      · exact l2 p hs
      · split at hs
        · rename_i ha; exact l3 ha p hs
        · simp at hs
    -- levels do not decrease along paths
    have key : ∀ x y, Reach (g.map fun e => (e.1, e.2.1)) x y → ∀ r2, rules[y]? = some r2 → ∀ h ∈ r2.predsHead,
        ∃ r1 q, rules[x]? = some r1 ∧ q ∈ r1.predsHead ∧ lv q ≤ lv h := by
      intro x y hxy
      induction hxy using Relation.ReflTransGen.head_induction_on with
      | refl => intro r2 hr2 h hh; exact ⟨r2, h, hr2, hh, le_rfl⟩
      | @head x z hxz _ ih =>
        intro r2 hr2 h hh
        obtain ⟨r1, q, hz, hq, hle⟩ := ih r2 hr2 h hh
        obtain ⟨⟨x', z', b⟩, he', heq⟩ := List.mem_map.1 hxz
        simp only [Prod.mk.injEq] at heq
        obtain ⟨rfl, rfl⟩ := heq
        obtain ⟨ra, rb, p', e1, e2, e3, e4⟩ := (mem_negationGraph rules x' z' b).1 he'
        rw [hz] at e2; cases e2
        refine ⟨ra, p', e1, e3, le_trans ?_ hle⟩
        obtain ⟨l1, l2, l3⟩ := hlv r1 (List.mem_of_getElem? hz) q hq
        rcases e4 with ⟨-, -, e4⟩ | ⟨-, e4⟩
        · exact l1 p' e4
        · unfold NRule.predsStrict at e4
          rw [List.mem_append] at e4
          rcases e4 with e4 | e4
          · exact (l2 p' e4).le
          · split at e4
            · exact l1 p' e4
            · simp at e4
    obtain ⟨r1, q, h1, h2, h3⟩ := key v u hreach r hr p hp
    rw [hr'] at h1; cases h1
    have := hlt q h2
    omega

end Verif
