import Verif.Engine

/-!
# Rule selection strategies

Model of `/repo/nemo/src/execution/selection_strategy/`: the strategies are state machines which are told
whether the last rule application derived something and return the next rule.
-/

set_option linter.unusedSimpArgs false
set_option linter.unusedSectionVars false

namespace Verif

/-- `StrategyRoundRobin` (strategy_round_robin.rs:14-20) -/
structure RoundRobin where
  ruleCount : Nat
  selfRecursive : List Bool
  withoutDerivation : Nat
  current : Nat

namespace RoundRobin

/-- `new` (strategy_round_robin.rs:24-33) -/
def new (recursive : List Bool) : RoundRobin := ⟨recursive.length, recursive, 0, 0⟩

/-- The end of `next_rule` (strategy_round_robin.rs:58-67) -/
def advance (s : RoundRobin) (w : Nat) (update : Bool) : Option Nat × RoundRobin :=
  if s.ruleCount ≤ w then (none, { s with withoutDerivation := w })
  else
    let c := if update then (s.current + 1) % s.ruleCount else s.current
    (some c, { s with withoutDerivation := w, current := c })

/-- `next_rule` (strategy_round_robin.rs:35-68) -/
def next (s : RoundRobin) (nd : Option Bool) : Option Nat × RoundRobin :=
  if s.ruleCount = 0 then (none, s)
  else
    match nd with
    | none => (some 0, s)
    | some true => s.advance 0 (!(s.selfRecursive[s.current]?).getD false)
    | some false => s.advance (s.withoutDerivation + 1) true

end RoundRobin

/-- The common part of `StrategyDependencyGraph` (strategy_graph.rs:14-24) and `StrategyStratifiedNegation`
(strategy_stratified_negation.rs:27-32): the parts (groups of rules with a strategy for each) are
processed one after the other.  The parts before the current one are dropped.
`next_rule` (strategy_graph.rs:58-71, strategy_stratified_negation.rs:140-153); the index of a rule within
its part is always valid, see `seq_trace`. -/
def seqNext {S : Type} (next : S → Option Bool → Option Nat × S) :
    List (List Nat × S) → Option Bool → Option Nat × List (List Nat × S)
  | [], _ => (none, [])
  | (ids, s) :: rest, nd =>
    match next s nd with
    | (some k, s') => (some (ids.getD k 0), (ids, s') :: rest)
    | (none, _) => seqNext next rest none

/-- A complete run of a strategy: the rules it selects, each with the answer whether there were new
derivations, until it stops. -/
inductive STrace {S : Type} (next : S → Option Bool → Option Nat × S) :
    S → Option Bool → List (Nat × Bool) → Prop
  | stop {s : S} {nd : Option Bool} : (next s nd).1 = none → STrace next s nd []
  | step {s s' : S} {nd : Option Bool} {i : Nat} {d : Bool} {tr : List (Nat × Bool)} :
      next s nd = (some i, s') → STrace next s' (some d) tr → STrace next s nd ((i, d) :: tr)

/-- What a strategy must ensure for a group of rules: only these rules are applied, and at the end each
of them has been applied without any new derivation since the last change. -/
structure PhaseTrace (ids : List Nat) (tr : List (Nat × Bool)) : Prop where
  mem : ∀ x ∈ tr, x.1 ∈ ids
  quiet : ∃ pre suf, tr = pre ++ suf ∧ (∀ x ∈ suf, x.2 = false) ∧ ∀ k ∈ ids, ∃ x ∈ suf, x.1 = k

/-- The groups are processed one after the other. -/
def PhasedTrace (phases : List (List Nat)) (tr : List (Nat × Bool)) : Prop :=
  ∃ trs, List.Forall₂ PhaseTrace phases trs ∧ tr = trs.flatten

/-! ## Round robin -/

/-- the rules applied since the last change -/
structure RRInv (s : RoundRobin) (hist : List (Nat × Bool)) : Prop where
  lt : s.current < s.ruleCount
  w : s.withoutDerivation < s.ruleCount
  mem : ∀ x ∈ hist, x.1 < s.ruleCount
  suf : ∃ pre suf, hist = pre ++ suf ∧ suf.length = s.withoutDerivation ∧
    ∀ j, j < s.withoutDerivation →
      suf[j]? = some ((s.current + s.ruleCount - s.withoutDerivation + j) % s.ruleCount, false)

theorem rr_trace_aux {s : RoundRobin} {nd : Option Bool} {tr : List (Nat × Bool)} (h : STrace RoundRobin.next s nd tr) :
    ∀ hist d, nd = some d → RRInv s hist → PhaseTrace (List.range s.ruleCount) (hist ++ (s.current, d) :: tr) := by
  induction h with
  | @stop s nd hn =>
    rintro hist d rfl ⟨hlt, hw, hmem, pre, suf, hh, hl, hsuf⟩
    have hc : s.ruleCount ≠ 0 := by omega
    cases d with
    | true => simp [RoundRobin.next, RoundRobin.advance, hc] at hn
    | false =>
      simp only [RoundRobin.next, hc, if_false, RoundRobin.advance] at hn
      split at hn
      · rename_i hge
        refine ⟨?_, pre, suf ++ [(s.current, false)], by simp [hh], ?_, ?_⟩
        · intro x hx
          rw [List.mem_append, List.mem_singleton] at hx
          rw [List.mem_range]
          rcases hx with hx | rfl
          · exact hmem x hx
          · exact hlt
        · intro x hx
          rw [List.mem_append, List.mem_singleton] at hx
          rcases hx with hx | rfl
          · obtain ⟨j, hj⟩ := List.getElem?_of_mem hx
            have hjl := (List.getElem?_eq_some_iff.1 hj).1
            rw [hsuf j (by omega)] at hj
            simp only [Option.some.injEq] at hj
            rw [← hj]
          · rfl
        · intro k hk
          rw [List.mem_range] at hk
          by_cases hkc : k = s.current
          · exact ⟨(s.current, false), by simp, hkc.symm⟩
          · -- position of `k` among the rules applied before
            have hw1 : s.withoutDerivation + 1 = s.ruleCount := by omega
            let j := if k < s.current then k + s.ruleCount - s.current - 1 else k - s.current - 1
            have hj : j < s.withoutDerivation := by simp only [j]; split <;> omega
            have e := hsuf j hj
            refine ⟨_, List.mem_append_left _ (List.mem_of_getElem? e), ?_⟩
            simp only
            have e2 : s.current + s.ruleCount - s.withoutDerivation = s.current + 1 := by omega
            rw [e2]
            simp only [j]
            split
            · have : s.current + 1 + (k + s.ruleCount - s.current - 1) = k + s.ruleCount := by omega
              rw [this, Nat.add_mod_right, Nat.mod_eq_of_lt hk]
            · have : s.current + 1 + (k - s.current - 1) = k := by omega
              rw [this, Nat.mod_eq_of_lt hk]
      · simp at hn
  | @step s s' nd i d' tr hn _ ih =>
    rintro hist d rfl ⟨hlt, hw, hmem, pre, suf, hh, hl, hsuf⟩
    have hc : s.ruleCount ≠ 0 := by omega
    have hmem' : ∀ x ∈ hist ++ [(s.current, d)], x.1 < s.ruleCount := by
      intro x hx
      rw [List.mem_append, List.mem_singleton] at hx
      rcases hx with hx | rfl
      · exact hmem x hx
      · exact hlt
    have key : RRInv s' (hist ++ [(s.current, d)]) ∧ s'.current = i ∧ s'.ruleCount = s.ruleCount := by
      cases d with
      | true =>
        simp only [RoundRobin.next, hc, if_false, RoundRobin.advance, Nat.le_zero_eq] at hn
        simp only [Prod.mk.injEq, Option.some.injEq] at hn
        obtain ⟨rfl, rfl⟩ := hn
        refine ⟨⟨?_, by simp only; omega, hmem', hist ++ [(s.current, true)], [], by simp, rfl, ?_⟩, rfl, rfl⟩
        · simp only; split
          · exact Nat.mod_lt _ (by omega)
          · exact hlt
        · intro j hj; simp at hj
      | false =>
        simp only [RoundRobin.next, hc, if_false, RoundRobin.advance] at hn
        split at hn
        · simp at hn
        · rename_i hge
          simp only [if_true, Prod.mk.injEq, Option.some.injEq] at hn
          obtain ⟨rfl, rfl⟩ := hn
          refine ⟨⟨Nat.mod_lt _ (by omega), by simp only; omega, hmem', pre, suf ++ [(s.current, false)],
            by simp [hh], by simp [hl], ?_⟩, rfl, rfl⟩
          intro j hj
          simp only at hj ⊢
          have e : ((s.current + 1) % s.ruleCount + s.ruleCount - (s.withoutDerivation + 1) + j) % s.ruleCount =
              (s.current + s.ruleCount - s.withoutDerivation + j) % s.ruleCount := by
            by_cases hcn : s.current + 1 < s.ruleCount
            · rw [Nat.mod_eq_of_lt hcn]; congr 1; omega
            · have : s.current + 1 = s.ruleCount := by omega
              rw [this, Nat.mod_self]
              have e3 : s.current + s.ruleCount - s.withoutDerivation + j =
                  0 + s.ruleCount - (s.withoutDerivation + 1) + j + s.ruleCount := by omega
              rw [e3, Nat.add_mod_right]
          rw [e]
          by_cases hjw : j < s.withoutDerivation
          · rw [List.getElem?_append_left (by omega)]; exact hsuf j hjw
          · have hjw' : j = s.withoutDerivation := by omega
            subst hjw'
            rw [List.getElem?_append_right (by omega), hl]
            have : s.current + s.ruleCount - s.withoutDerivation + s.withoutDerivation = s.current + s.ruleCount := by omega
            simp [this, Nat.mod_eq_of_lt hlt]
    obtain ⟨k1, k2, k3⟩ := key
    have := ih (hist ++ [(s.current, d)]) d' rfl k1
    rw [k2, k3] at this
    simpa using this

/-- **Round robin only stops when all rules have been applied without new derivations.** -/
theorem rr_trace {recursive : List Bool} {tr : List (Nat × Bool)}
    (h : STrace RoundRobin.next (RoundRobin.new recursive) none tr) :
    PhaseTrace (List.range recursive.length) tr := by
  cases h with
  | stop hn =>
    by_cases h0 : recursive.length = 0
    · refine ⟨by simp, [], [], rfl, by simp, by simp [h0]⟩
    · simp [RoundRobin.next, RoundRobin.new, h0] at hn
  | @step s s' nd i d tr hn ht =>
    by_cases h0 : recursive.length = 0
    · simp [RoundRobin.next, RoundRobin.new, h0] at hn
    · simp only [RoundRobin.next, RoundRobin.new, h0, if_false, Prod.mk.injEq, Option.some.injEq] at hn
      obtain ⟨rfl, rfl⟩ := hn
      have := rr_trace_aux ht [] d rfl ⟨by simp only; omega, by simp only; omega, by simp, [], [], rfl, rfl,
        by intro j hj; simp at hj⟩
      simpa using this

/-! ## Sequences of strategies -/

/-- the rules of a part, by their indices in the part -/
def liftTrace (ids : List Nat) (tr : List (Nat × Bool)) : List (Nat × Bool) := tr.map fun x => (ids.getD x.1 0, x.2)

theorem seq_trace {S : Type} {next : S → Option Bool → Option Nat × S} {parts : List (List Nat × S)} {nd : Option Bool}
    {tr : List (Nat × Bool)} (h : STrace (seqNext next) parts nd tr) :
    (parts = [] ∧ tr = []) ∨ ∃ ids s rest tr1 tr2, parts = (ids, s) :: rest ∧ tr = liftTrace ids tr1 ++ tr2 ∧
      STrace next s nd tr1 ∧ STrace (seqNext next) rest none tr2 := by
  induction h with
  | @stop parts nd hn =>
    cases parts with
    | nil => exact Or.inl ⟨rfl, rfl⟩
    | cons p rest =>
      obtain ⟨ids, s⟩ := p
      right
      rw [seqNext] at hn
      split at hn
      · simp at hn
      · rename_i s' he
        exact ⟨ids, s, rest, [], [], rfl, rfl, .stop (by rw [he]), .stop hn⟩
  | @step parts parts' nd i d tr hn ht ih =>
    cases parts with
    | nil => simp [seqNext] at hn
    | cons p rest =>
      obtain ⟨ids, s⟩ := p
      right
      rw [seqNext] at hn
      split at hn
      · rename_i k s' he
        simp only [Prod.mk.injEq, Option.some.injEq] at hn
        obtain ⟨rfl, rfl⟩ := hn
        rcases ih with ⟨h1, -⟩ | ⟨ids', s'', rest', tr1, tr2, h1, h2, h3, h4⟩
        · simp at h1
        · simp only [List.cons.injEq, Prod.mk.injEq] at h1
          obtain ⟨⟨rfl, rfl⟩, rfl⟩ := h1
          exact ⟨ids, s, rest, (k, d) :: tr1, tr2, rfl, by simp [liftTrace, h2], .step he h3, h4⟩
      · rename_i s' he
        exact ⟨ids, s, rest, [], (i, d) :: tr, rfl, rfl, .stop (by rw [he]), .step hn ht⟩

/-- The run of a sequence of strategies is the concatenation of runs of these strategies. -/
theorem seq_traces {S : Type} {next : S → Option Bool → Option Nat × S} {parts : List (List Nat × S)}
    {tr : List (Nat × Bool)} (h : STrace (seqNext next) parts none tr) :
    ∃ trs, tr = trs.flatten ∧ List.Forall₂ (fun p t => ∃ t', t = liftTrace p.1 t' ∧ STrace next p.2 none t') parts trs := by
  induction parts generalizing tr with
  | nil =>
    rcases seq_trace h with ⟨-, rfl⟩ | ⟨_, _, _, _, _, h1, _⟩
    · exact ⟨[], rfl, .nil⟩
    · simp at h1
  | cons p parts ih =>
    rcases seq_trace h with ⟨h1, -⟩ | ⟨ids, s, rest, tr1, tr2, h1, rfl, h3, h4⟩
    · simp at h1
    · simp only [List.cons.injEq] at h1
      obtain ⟨rfl, rfl⟩ := h1
      obtain ⟨trs, rfl, h5⟩ := ih h4
      exact ⟨liftTrace ids tr1 :: trs, by simp, .cons ⟨tr1, rfl, h3⟩ h5⟩

theorem liftTrace_phase {ids : List Nat} {n : Nat} (hn : n = ids.length) {tr : List (Nat × Bool)}
    (h : PhaseTrace (List.range n) tr) : PhaseTrace ids (liftTrace ids tr) := by
  subst hn
  obtain ⟨h1, pre, suf, rfl, h2, h3⟩ := h
  refine ⟨?_, liftTrace ids pre, liftTrace ids suf, by simp [liftTrace], ?_, ?_⟩
  · intro x hx
    obtain ⟨y, hy, rfl⟩ := List.mem_map.1 hx
    have := List.mem_range.1 (h1 y hy)
    simp only
    rw [List.getD_eq_getElem?_getD, List.getElem?_eq_getElem this]
    exact List.getElem_mem this
  · intro x hx
    obtain ⟨y, hy, rfl⟩ := List.mem_map.1 hx
    exact h2 y hy
  · intro k hk
    obtain ⟨j, hj, rfl⟩ := List.getElem_of_mem hk
    obtain ⟨y, hy, hyj⟩ := h3 j (List.mem_range.2 hj)
    refine ⟨_, List.mem_map.2 ⟨y, hy, rfl⟩, ?_⟩
    simp only
    rw [hyj, List.getD_eq_getElem?_getD, List.getElem?_eq_getElem hj]; rfl

/-- mapping local phases to global ones -/
theorem liftTrace_comp {ids ph : List Nat} {tr : List (Nat × Bool)}
    (h : PhaseTrace ph tr) : PhaseTrace (ph.map fun k => ids.getD k 0) (liftTrace ids tr) := by
  obtain ⟨h1, pre, suf, rfl, h2, h3⟩ := h
  refine ⟨?_, liftTrace ids pre, liftTrace ids suf, by simp [liftTrace], ?_, ?_⟩
  · intro x hx
    obtain ⟨y, hy, rfl⟩ := List.mem_map.1 hx
    exact List.mem_map.2 ⟨y.1, h1 y hy, rfl⟩
  · intro x hx
    obtain ⟨y, hy, rfl⟩ := List.mem_map.1 hx
    exact h2 y hy
  · intro k hk
    obtain ⟨j, hj, rfl⟩ := List.mem_map.1 hk
    obtain ⟨y, hy, rfl⟩ := h3 j hj
    exact ⟨_, List.mem_map.2 ⟨y, hy, rfl⟩, rfl⟩

theorem PhasedTrace.append {p1 p2 : List (List Nat)} {t1 t2 : List (Nat × Bool)} (h1 : PhasedTrace p1 t1)
    (h2 : PhasedTrace p2 t2) : PhasedTrace (p1 ++ p2) (t1 ++ t2) := by
  obtain ⟨a, ha, rfl⟩ := h1
  obtain ⟨b, hb, rfl⟩ := h2
  exact ⟨a ++ b, List.rel_append ha hb, by simp⟩

/-- A dependency-graph strategy with round robin: the strongly connected components in order. -/
def newGraph (recursive : List Bool) (sccs : List (List Nat)) : List (List Nat × RoundRobin) :=
  sccs.map fun scc => (scc, RoundRobin.new (scc.map fun i => recursive.getD i false))

theorem graph_trace {recursive : List Bool} {sccs : List (List Nat)} {tr : List (Nat × Bool)}
    (h : STrace (seqNext RoundRobin.next) (newGraph recursive sccs) none tr) : PhasedTrace sccs tr := by
  obtain ⟨trs, rfl, hf⟩ := seq_traces h
  refine ⟨trs, ?_, rfl⟩
  clear h
  unfold newGraph at hf
  rw [List.forall₂_map_left_iff] at hf
  refine hf.imp ?_
  rintro scc t ⟨t', rfl, ht⟩
  exact liftTrace_phase (by simp) (rr_trace ht)

/-- The default strategy: for each stratum (a list of rules), the strongly connected components of its
rules, given by indices into the stratum. -/
def newStratified (recursive : List Bool) (strata : List (List Nat × List (List Nat))) :
    List (List Nat × List (List Nat × RoundRobin)) :=
  strata.map fun s => (s.1, newGraph (s.1.map fun i => recursive.getD i false) s.2)

/-- `next_rule` of the default strategy -/
def defaultNext := seqNext (seqNext RoundRobin.next)

/-- The groups of rules that the default strategy processes one after the other. -/
def phasesOf (strata : List (List Nat × List (List Nat))) : List (List Nat) :=
  strata.flatMap fun s => s.2.map fun scc => scc.map fun k => s.1.getD k 0

/-- **The default strategy only stops when the rules of each group, one group after the other, have been
applied without new derivations.** -/
theorem stratified_trace {recursive : List Bool} {strata : List (List Nat × List (List Nat))} {tr : List (Nat × Bool)}
    (h : STrace defaultNext (newStratified recursive strata) none tr) : PhasedTrace (phasesOf strata) tr := by
  obtain ⟨trs, rfl, hf⟩ := seq_traces h
  clear h
  unfold newStratified at hf
  rw [List.forall₂_map_left_iff] at hf
  induction hf with
  | nil => exact ⟨[], .nil, rfl⟩
  | @cons s t strata trs hst hrest ih =>
    have hr := ih
    obtain ⟨t', rfl, ht⟩ := hst
    simp only at ht ⊢
    obtain ⟨sub, hsub, rfl⟩ := graph_trace ht
    have h1 : PhasedTrace (s.2.map fun scc => scc.map fun k => s.1.getD k 0) (liftTrace s.1 sub.flatten) := by
      refine ⟨sub.map (liftTrace s.1), ?_, ?_⟩
      · rw [List.forall₂_map_left_iff, List.forall₂_map_right_iff]
        exact hsub.imp fun _ _ h => liftTrace_comp h
      · simp only [liftTrace, List.map_flatten]; rfl
    have := h1.append hr
    simpa [phasesOf] using this

end Verif
