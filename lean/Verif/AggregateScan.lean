import Verif.Prune
import Verif.PropTries

/-!
# Aggregation

Model of `TrieScanAggregate` (/repo/nemo-physical/src/tabular/operations/aggregate.rs:84-325) and of
`Trie::from_full_trie_scan` (/repo/nemo-physical/src/tabular/trie.rs:337-396), which together compute aggregates.
-/

set_option linter.unusedSimpArgs false
set_option linter.unusedSectionVars false
set_option linter.unusedVariables false

namespace Verif

/-- `AggregateGroupProcessor` (/repo/nemo-physical/src/aggregates/processors/processor.rs:37-52): `new` is the processor
created for a group; `none` is a panic for `write`, and a panic or a missing result for `finish` (the caller turns the
latter into a panic, aggregate.rs:295-300). -/
structure AggProc (P α : Type) where
  new : P
  write : P → α → Option P
  finish : P → Option α

/-- the value computed for the sequence of values written to a processor -/
def AggProc.run {P α : Type} (A : AggProc P α) (vals : List α) : Option α := do
  let p ← vals.foldlM A.write A.new
  A.finish p

/-- `AggregatedOutputValue` (aggregate.rs:189-197). -/
inductive AggCur (α : Type) where
  | none
  | notYet
  | some (v : α)

/-- `TrieScanAggregate` (aggregate.rs:149-157); `peek` is `peeked_row_information` (aggregate.rs:164-170): the result of
`advance_on_layer` and the group-by values. -/
structure AggSt (S α : Type) where
  scan : S
  cur : AggCur α
  peek : Option (Option Nat × List α)

/-- Input scan, processor and `AggregationInstructions` (aggregate.rs:84-104): `g` is `group_by_column_count`, `a` is
`aggregated_column_index` and `d` is `last_distinct_column_index`. -/
structure AggCfg (S α P : Type) where
  ops : FullOps S α
  proc : AggProc P α
  g : Nat
  a : Nat
  d : Nat

namespace AggCfg
variable {S α P : Type} (cfg : AggCfg S α P)

/-- `is_valid` (aggregate.rs:108-111). -/
def valid : Bool := decide (cfg.a ≥ cfg.g) && decide (cfg.d ≥ cfg.a)

/-- `TrieScanAggregate::new` (aggregate.rs:174-186). -/
def start (s : S) : Option (AggSt S α) := if cfg.valid then some ⟨s, .none, none⟩ else none

/-- `output_layer_to_input_layer` (aggregate.rs:124-131). -/
def inLayer (l : Nat) : Nat := if l < cfg.g then l else cfg.a

/-- The peeked row answers a call of `advance_on_layer` (aggregate.rs:207-214). -/
def peekHit (st : AggSt S α) (l : Nat) : Option Nat :=
  match st.peek with
  | some (some u, _) => if u ≤ l then some u else none
  | _ => none

/-- `advance_on_layer` after the peeked row was ruled out (aggregate.rs:217-237). -/
def advanceInput (st : AggSt S α) (l : Nat) : Option (Option Nat × AggSt S α) := do
  let r ← cfg.ops.advance st.scan (cfg.inLayer l)
  match r.1 with
  | none => return (none, ⟨r.2, .none, none⟩)
  | some u => return (some (if u < cfg.g then u else cfg.g), ⟨r.2, .notYet, none⟩)

/-- `advance_on_layer` (aggregate.rs:204-238). -/
def advance (st : AggSt S α) (l : Nat) : Option (Option Nat × AggSt S α) :=
  match peekHit st l with
  | some u => some (some u, ⟨st.scan, .notYet, none⟩)
  | none => cfg.advanceInput st l

/-- The loop over the rows of a group (aggregate.rs:262-293): the result contains the peeked layer. -/
def groupLoop (s : S) (p : P) : Option (S × P × Option Nat) := do
  let v ← cfg.ops.current s cfg.a
  let p ← cfg.proc.write p v.1
  let r ← cfg.ops.advance v.2 cfg.d
  match r.1 with
  | none => return (r.2, p, none)
  | some u => if u < cfg.g then return (r.2, p, some u) else groupLoop r.2 p
partial_fixpoint

/-- read `n` layers starting with layer `k` (aggregate.rs:253-256; trie.rs:356-366, 374-392) -/
def readVals {T : Type} (ops : FullOps T α) : Nat → Nat → T → Option (List α × T)
  | 0, _, s => some ([], s)
  | n + 1, k, s => do
    let v ← ops.current s k
    let r ← readVals ops n (k + 1) v.2
    return (v.1 :: r.1, r.2)

/-- The computation of the aggregate (aggregate.rs:246-300). -/
def compute (st : AggSt S α) : Option (α × AggSt S α) := do
  let vals ← readVals cfg.ops cfg.g 0 st.scan
  let r ← cfg.groupLoop vals.2 cfg.proc.new
  let v ← cfg.proc.finish r.2.1
  return (v, ⟨r.1, .some v, some (r.2.2, vals.1)⟩)

/-- read a layer of the input -/
def readInput (st : AggSt S α) (k : Nat) : Option (α × AggSt S α) := do
  let v ← cfg.ops.current st.scan k
  return (v.1, { st with scan := v.2 })

/-- `current_value` of a group-by layer (aggregate.rs:303-317). -/
def currentGroup (st : AggSt S α) (k : Nat) : Option (α × AggSt S α) :=
  match st.cur, st.peek with
  | .none, _ => none
  | .some _, some (_, vals) => (vals[k]?).map fun v => (v, st)
  | .some _, none => cfg.readInput st k
  | .notYet, _ => cfg.readInput st k

/-- `current_value` of the aggregated layer (aggregate.rs:241-302). -/
def currentAgg (st : AggSt S α) : Option (α × AggSt S α) :=
  match st.cur with
  | .none => none
  | .some v => some (v, st)
  | .notYet => cfg.compute st

/-- `TrieScanAggregate` as a full scan with `g + 1` columns (aggregate.rs:199-320). -/
def full : FullOps (AggSt S α) α where
  advance := cfg.advance
  current st k := if k < cfg.g then cfg.currentGroup st k else cfg.currentAgg st

end AggCfg

/-- The rows after the first one in `from_full_trie_scan` (trie.rs:370-393), each with the changed layer; the layers above
the changed layer are not read, they have the values of the previous row. -/
def fullRowsFrom {T α : Type} (ops : FullOps T α) (n : Nat) (prev : List α) (s : T) :
    Option (List (List α × Nat)) := do
  let r ← ops.advance s (n - 1)
  match r.1 with
  | none => return []
  | some c => do
    let v ← AggCfg.readVals ops (n - c) c r.2
    let rest ← fullRowsFrom ops n (prev.take c ++ v.1) v.2
    return (prev.take c ++ v.1, c) :: rest
partial_fixpoint

/-- The rows read by `from_full_trie_scan` (trie.rs:352-393). -/
def fullRows {T α : Type} (ops : FullOps T α) (n : Nat) (s : T) : Option (List (List α × Nat)) := do
  let r ← ops.advance s (n - 1)
  match r.1 with
  | none => return []
  | some _ => do
    let v ← AggCfg.readVals ops n 0 r.2
    let rest ← fullRowsFrom ops n v.1 v.2
    return (v.1, 0) :: rest

/-- `Trie::from_full_trie_scan` (trie.rs:337-396) without cut layers; the scan has `n` columns. -/
def fromFullScan {T α : Type} [SVal α] (ops : FullOps T α) (n : Nat) (s : T) : Option (Trie α) := do
  let rows ← if n = 0 then some [] else fullRows ops n s
  return Trie.fromScanRows n rows

/-! ## Specification by consecutive rows -/

section
variable {α : Type} [DecidableEq α]

/-- the rows following `z` in its group, without those which agree with their predecessor on columns `0..d` -/
def groupReps (g d : Nat) (z : List α) : List (List α) → List (List α)
  | [] => []
  | r :: rs =>
    if r.take g ≠ z.take g then []
    else if r.take (d + 1) = z.take (d + 1) then groupReps g d z rs
    else r :: groupReps g d r rs

/-- the rows after the group of `z` -/
def nextGroup (g : Nat) (z : List α) (rs : List (List α)) : List (List α) :=
  rs.dropWhile fun r => decide (r.take g = z.take g)

theorem nextGroup_length (g : Nat) (z : List α) (rs : List (List α)) : (nextGroup g z rs).length ≤ rs.length :=
  (List.dropWhile_sublist _).length_le

/-- the rows of the result -/
def aggRows (g d a : Nat) (agg : List α → Option α) : List (List α) → Option (List (List α))
  | [] => some []
  | z :: rs => do
    let v ← agg ((z :: groupReps g d z rs).filterMap (·[a]?))
    let rest ← aggRows g d a agg (nextGroup g z rs)
    return (z.take g ++ [v]) :: rest
termination_by l => l.length
decreasing_by
  have := nextGroup_length g z rs
  simp; omega

end

namespace AggCfg
variable {S α P : Type} [SVal α] {cfg : AggCfg S α P} {n first : Nat} {L : List (List α)} {R : S → FullPos α → Prop}

/-- dropping further rows of the group does not change its representatives -/
theorem groupReps_drop {g d : Nat} (hgd : g ≤ d + 1) (z : List α) (rs : List (List α)) :
    groupReps g d z (rs.dropWhile fun r => decide (r.take (d + 1) = z.take (d + 1))) = groupReps g d z rs ∧
    nextGroup g z (rs.dropWhile fun r => decide (r.take (d + 1) = z.take (d + 1))) = nextGroup g z rs := by
  induction rs with
  | nil => simp
  | cons r rs ih =>
    by_cases h : r.take (d + 1) = z.take (d + 1)
    · have hg : r.take g = z.take g := by
        have := congrArg (List.take g) h
        simpa [List.take_take, Nat.min_eq_left hgd] using this
      rw [List.dropWhile_cons_of_pos (by simpa using h)]
      refine ⟨?_, ?_⟩
      · rw [ih.1, groupReps, if_neg (by simpa using hg), if_pos h]
      · rw [ih.2, nextGroup, nextGroup, List.dropWhile_cons_of_pos (by simpa using hg)]
    · rw [List.dropWhile_cons_of_neg (by simpa using h)]
      exact ⟨rfl, rfl⟩

theorem cpl_take_congr {z w r : List α} {g : Nat} (hzw : z.take g = w.take g) (hz : g ≤ z.length) (hw : g ≤ w.length)
    (h : cpl z r < g) : cpl w r = cpl z r := by
  induction z generalizing w r g with
  | nil => simp at hz; omega
  | cons a z ih =>
    cases g with
    | zero => omega
    | succ g =>
      cases w with
      | nil => simp at hw
      | cons b w =>
        simp only [List.take_succ_cons, List.cons.injEq] at hzw
        obtain ⟨rfl, hzw⟩ := hzw
        cases r with
        | nil => simp [cpl]
        | cons c r =>
          rw [cpl, cpl]
          rw [cpl] at h
          by_cases hac : a = c
          · rw [if_pos hac, if_pos hac]
            rw [if_pos hac] at h
            rw [ih hzw (by simpa using hz) (by simpa using hw) (by omega)]
          · rw [if_neg hac, if_neg hac]

/-- where the input is after the loop over a group -/
def AfterGroup (cfg : AggCfg S α P) (R : S → FullPos α → Prop) (z : List α) (rs : List (List α)) (s : S) (u : Option Nat) :
    Prop :=
  (nextGroup cfg.g z rs = [] ∧ u = none ∧ R s .done) ∨
  ∃ r rs', nextGroup cfg.g z rs = r :: rs' ∧ u = some (cpl z r) ∧ cpl z r < cfg.g ∧ R s (.at r rs')

theorem groupLoop_spec (hF : FullSim cfg.ops n L first R) (hga : cfg.g ≤ cfg.a) (had : cfg.a ≤ cfg.d) (hdn : cfg.d < n) :
    ∀ (m : Nat) (s : S) (z : List α) (rs : List (List α)) (p : P), rs.length < m → R s (.at z rs) →
      (((z :: groupReps cfg.g cfg.d z rs).filterMap (·[cfg.a]?)).foldlM cfg.proc.write p = none ∧
        cfg.groupLoop s p = none) ∨
      ∃ p' s' u, ((z :: groupReps cfg.g cfg.d z rs).filterMap (·[cfg.a]?)).foldlM cfg.proc.write p = some p' ∧
        cfg.groupLoop s p = some (s', p', u) ∧ AfterGroup cfg R z rs s' u := by
  intro m
  induction m with
  | zero => intro s z rs p hm; omega
  | succ m ih =>
    intro s z rs p hm hR
    have hz := (hF.length _ _ _ hR).1
    have hv : z[cfg.a]? = some (z[cfg.a]'(by omega)) := List.getElem?_eq_getElem (by omega)
    set v := z[cfg.a]'(by omega) with hvd
    obtain ⟨s1, e1, e2⟩ := hF.current _ _ _ _ _ hR hv
    rw [List.filterMap_cons_some (f := fun x : List α => x[cfg.a]?) hv, List.foldlM_cons, groupLoop, e1]
    simp only [Option.bind_eq_bind, Option.bind_some]
    cases hw : cfg.proc.write p v with
    | none => left; simp
    | some p1 =>
      simp only [Option.bind_some]
      obtain ⟨hd1, hd2⟩ := groupReps_drop (g := cfg.g) (d := cfg.d) (by omega) z rs
      cases hdrop : rs.dropWhile (fun r => decide (r.take (cfg.d + 1) = z.take (cfg.d + 1))) with
      | nil =>
        right
        obtain ⟨s2, f1, f2⟩ := hF.next_nil _ _ _ _ e2 hdn hdrop
        rw [hdrop] at hd1 hd2
        rw [← hd1, f1]
        simp only [Option.bind_some]
        exact ⟨p1, s2, none, rfl, rfl, Or.inl ⟨by rw [← hd2]; rfl, rfl, f2⟩⟩
      | cons r rs' =>
        obtain ⟨s2, f1, f2⟩ := hF.next_cons _ _ _ _ _ _ e2 hdn hdrop
        rw [hdrop] at hd1 hd2
        rw [← hd1, f1]
        simp only [Option.bind_some]
        have hrz : ¬ (r.take (cfg.d + 1) = z.take (cfg.d + 1)) := by
          intro h
          have h2 := List.head?_dropWhile_not (fun r => decide (r.take (cfg.d + 1) = z.take (cfg.d + 1))) rs
          simp [hdrop] at h2
          exact h2 h
        have hrlen := (hF.length _ _ _ f2).1
        by_cases hu : cpl z r < cfg.g
        · right
          have hne : r.take cfg.g ≠ z.take cfg.g := fun h => take_ne_of_cpl_lt (by omega) hu h.symm
          rw [if_pos hu]
          rw [groupReps, if_pos hne]
          refine ⟨p1, s2, some (cpl z r), rfl, rfl, Or.inr ⟨r, rs', ?_, rfl, hu, f2⟩⟩
          rw [← hd2, nextGroup, List.dropWhile_cons_of_neg (by simpa using hne)]
        · have heq : z.take cfg.g = r.take cfg.g := take_eq_of_le_cpl (by omega)
          rw [if_neg hu, groupReps, if_neg (by simp [heq]), if_neg hrz]
          have hl : rs'.length < m := by
            have : (r :: rs').length ≤ rs.length := by rw [← hdrop]; exact (List.dropWhile_sublist _).length_le
            simp at this; omega
          rcases ih s2 r rs' p1 hl f2 with h | ⟨p', s', u, h1, h2, h3⟩
          · exact Or.inl h
          · refine Or.inr ⟨p', s', u, h1, h2, ?_⟩
            have hng : nextGroup cfg.g z rs = nextGroup cfg.g r rs' := by
              rw [← hd2, nextGroup, nextGroup, List.dropWhile_cons_of_pos (by simp [heq])]
              rw [heq]
            rcases h3 with ⟨k1, k2, k3⟩ | ⟨r', rs'', k1, k2, k3, k4⟩
            · exact Or.inl ⟨by rw [hng]; exact k1, k2, k3⟩
            · have hc := cpl_take_congr heq.symm (by omega) (by omega) k3
              exact Or.inr ⟨r', rs'', by rw [hng]; exact k1, by rw [k2, hc], by omega, k4⟩

/-! ## Reading the result -/

theorem readVals_spec {T : Type} {ops : FullOps T α} {Q : T → Prop} {w : List α}
    (h : ∀ s k a, Q s → w[k]? = some a → ∃ s', ops.current s k = some (a, s') ∧ Q s') :
    ∀ (m k : Nat) (s : T), Q s → k + m ≤ w.length → ∃ s', readVals ops m k s = some ((w.drop k).take m, s') ∧ Q s' := by
  intro m
  induction m with
  | zero => intro k s hQ _; exact ⟨s, by simp [readVals], hQ⟩
  | succ m ih =>
    intro k s hQ hk
    have hw : w[k]? = some (w[k]'(by omega)) := List.getElem?_eq_getElem (by omega)
    obtain ⟨s1, e1, e2⟩ := h s k _ hQ hw
    obtain ⟨s2, f1, f2⟩ := ih (k + 1) s1 e2 (by omega)
    refine ⟨s2, ?_, f2⟩
    rw [readVals, e1]
    simp only [Option.bind_eq_bind, Option.bind_some, f1, Option.pure_def]
    rw [List.drop_eq_getElem_cons (i := k) (by omega), List.take_succ_cons]

/-- reading a row of the result right after `advance_on_layer` -/
theorem read_row (hF : FullSim cfg.ops n L first R) (hga : cfg.g ≤ cfg.a) (had : cfg.a ≤ cfg.d) (hdn : cfg.d < n)
    {st : AggSt S α} {z : List α} {rs : List (List α)} (hR : R st.scan (.at z rs)) (hc : st.cur = .notYet)
    (hp : st.peek = none) :
    ∀ (m c : Nat), c + m = cfg.g →
    (cfg.proc.run ((z :: groupReps cfg.g cfg.d z rs).filterMap (·[cfg.a]?)) = none ∧
        readVals cfg.full (m + 1) c st = none) ∨
      ∃ v st' u, cfg.proc.run ((z :: groupReps cfg.g cfg.d z rs).filterMap (·[cfg.a]?)) = some v ∧
        readVals cfg.full (m + 1) c st = some ((z.take cfg.g).drop c ++ [v], st') ∧
        st'.peek = some (u, z.take cfg.g) ∧ AfterGroup cfg R z rs st'.scan u := by
  intro m
  induction m generalizing st with
  | zero =>
    intro c hcg
    have hz := (hF.length _ _ _ hR).1
    obtain ⟨s1, e1, e2⟩ := readVals_spec (ops := cfg.ops) (Q := fun s => R s (.at z rs)) (w := z)
      (fun s k a h1 h2 => hF.current s z rs k a h1 h2) cfg.g 0 st.scan hR (by omega)
    have hcur : ∀ st, cfg.full.current st c = cfg.currentAgg st := fun st => by
      show (if c < cfg.g then _ else _) = _
      rw [if_neg (by omega)]
    rw [readVals, hcur, currentAgg, hc]
    simp only [compute, e1, Option.bind_eq_bind, Option.bind_some, List.drop_zero, AggProc.run]
    rcases groupLoop_spec hF hga had hdn (rs.length + 1) s1 z rs cfg.proc.new (by omega) e2 with ⟨h1, h2⟩ | ⟨p', s', u, h1, h2, h3⟩
    · left; rw [h1, h2]; exact ⟨rfl, rfl⟩
    · rw [h1, h2]
      simp only [Option.bind_some]
      cases hf : cfg.proc.finish p' with
      | none => left; exact ⟨rfl, rfl⟩
      | some v =>
        right
        exact ⟨v, ⟨s', .some v, some (u, z.take cfg.g)⟩, u, rfl, by simp [readVals, hcg.symm], rfl, h3⟩
  | succ m ih =>
    intro c hcg
    have hz := (hF.length _ _ _ hR).1
    have hv : z[c]? = some (z[c]'(by omega)) := List.getElem?_eq_getElem (by omega)
    obtain ⟨s1, e1, e2⟩ := hF.current _ _ _ _ _ hR hv
    have hcur : cfg.full.current st c = some (z[c]'(by omega), { st with scan := s1 }) := by
      show (if c < cfg.g then _ else _) = _
      rw [if_pos (by omega), currentGroup, hc]
      simp [readInput, e1, hc, hp]
    rw [readVals, hcur]
    simp only [Option.bind_eq_bind, Option.bind_some]
    rcases ih (st := { st with scan := s1 }) e2 hc hp (c + 1) (by omega) with ⟨h1, h2⟩ | ⟨v, st', u, h1, h2, h3, h4⟩
    · left; rw [h2]; exact ⟨h1, rfl⟩
    · right
      rw [h2]
      refine ⟨v, st', u, h1, ?_, h3, h4⟩
      simp only [Option.bind_some, Option.pure_def, Option.some.injEq, Prod.mk.injEq, and_true]
      rw [List.drop_eq_getElem_cons (i := c) (l := z.take cfg.g) (by simp; omega)]
      simp

/-- the rows of the result with the layers that change -/
def withChanges (prev : List α) (out : List (List α)) : List (List α × Nat) :=
  (attachFrom prev (out.map fun r => (r, ([] : List α)))).map fun x => (x.1, x.2.2)

theorem cpl_append_take {z r : List α} {g : Nat} {x y : List α} (hz : g ≤ z.length) (hr : g ≤ r.length)
    (h : cpl z r < g) : cpl (z.take g ++ x) (r.take g ++ y) = cpl z r := by
  induction z generalizing r g with
  | nil => simp at hz; omega
  | cons a z ih =>
    cases g with
    | zero => omega
    | succ g =>
      cases r with
      | nil => simp at hr
      | cons c r =>
        simp only [List.take_succ_cons, List.cons_append]
        rw [cpl, cpl]
        rw [cpl] at h
        by_cases hac : a = c
        · rw [if_pos hac] at h
          rw [if_pos hac, if_pos hac, ih (by simpa using hz) (by simpa using hr) (by omega)]
        · rw [if_neg hac, if_neg hac]

theorem rows_from (hF : FullSim cfg.ops n L first R) (hga : cfg.g ≤ cfg.a) (had : cfg.a ≤ cfg.d) (hdn : cfg.d < n) :
    ∀ (m : Nat) (st : AggSt S α) (z : List α) (v : α) (rs : List (List α)) (u : Option Nat), rs.length < m →
      z.length = n → st.peek = some (u, z.take cfg.g) → AfterGroup cfg R z rs st.scan u →
      fullRowsFrom cfg.full (cfg.g + 1) (z.take cfg.g ++ [v]) st =
        (aggRows cfg.g cfg.d cfg.a cfg.proc.run (nextGroup cfg.g z rs)).map (withChanges (z.take cfg.g ++ [v])) := by
  intro m
  induction m with
  | zero => intro st z v rs u hm; omega
  | succ m ih =>
    intro st z v rs u hm hzl hp hA
    have hfa : ∀ st l, cfg.full.advance st l = cfg.advance st l := fun _ _ => rfl
    rw [fullRowsFrom, hfa, advance]
    rcases hA with ⟨h1, h2, h3⟩ | ⟨r, rs', h1, h2, h3, h4⟩
    · subst h2
      have : peekHit st (cfg.g + 1 - 1) = none := by simp [peekHit, hp]
      obtain ⟨s', e1, _⟩ := hF.done _ cfg.a h3 (by omega)
      rw [this, h1, aggRows]
      simp [advanceInput, inLayer, e1, withChanges, attachFrom]
    · subst h2
      have : peekHit st (cfg.g + 1 - 1) = some (cpl z r) := by simp [peekHit, hp]; omega
      rw [this, h1]
      simp only [Option.bind_eq_bind, Option.bind_some]
      have hrl := (hF.length _ _ _ h4).1
      rw [aggRows]
      have hlen : rs'.length < m := by
        have := nextGroup_length cfg.g z rs
        rw [h1] at this; simp at this; omega
      have hcl : cfg.g + 1 - cpl z r = (cfg.g - cpl z r) + 1 := by omega
      rw [hcl]
      rcases read_row hF hga had hdn (st := ⟨st.scan, .notYet, none⟩) h4 rfl rfl (cfg.g - cpl z r) (cpl z r) (by omega)
        with ⟨k1, k2⟩ | ⟨v', st', u', k1, k2, k3, k4⟩
      · rw [k1, k2]; rfl
      · rw [k1, k2]
        simp only [Option.bind_eq_bind, Option.bind_some]
        have hrow : (z.take cfg.g ++ [v]).take (cpl z r) ++ ((r.take cfg.g).drop (cpl z r) ++ [v']) = r.take cfg.g ++ [v'] := by
          rw [List.take_append_of_le_length (by simp; omega), List.take_take, Nat.min_eq_left (by omega),
            take_eq_of_le_cpl (le_refl _), ← List.append_assoc]
          congr 1
          rw [List.drop_take]
          conv => rhs; rw [← List.take_append_drop (cpl z r) (r.take cfg.g)]
          rw [List.take_take, Nat.min_eq_left (by omega), List.drop_take]
        rw [hrow, ih st' r v' rs' u' hlen hrl k3 k4]
        cases aggRows cfg.g cfg.d cfg.a cfg.proc.run (nextGroup cfg.g r rs') with
        | none => rfl
        | some out =>
          simp only [Option.map_some, Option.bind_some, Option.pure_def, Option.some.injEq, withChanges, List.map_cons,
            attachFrom, List.cons.injEq, and_true, Prod.mk.injEq, true_and]
          exact (cpl_append_take (by omega) (by omega) h3).symm

/-- **`from_full_trie_scan` reads the groups of the input**, or panics when an aggregate cannot be computed. -/
theorem rows_all (hF : FullSim cfg.ops n L cfg.a R) (hga : cfg.g ≤ cfg.a) (had : cfg.a ≤ cfg.d) (hdn : cfg.d < n)
    {st : AggSt S α} (hs : R st.scan .start) (hp : st.peek = none) :
    fullRows cfg.full (cfg.g + 1) st = (aggRows cfg.g cfg.d cfg.a cfg.proc.run L).map
      fun out => (attach 0 (out.map fun r => (r, ([] : List α)))).map fun x => (x.1, x.2.2) := by
  have hfa : ∀ st l, cfg.full.advance st l = cfg.advance st l := fun _ _ => rfl
  rw [fullRows, hfa, advance]
  have : peekHit st (cfg.g + 1 - 1) = none := by simp [peekHit, hp]
  rw [this]
  have hil : cfg.inLayer (cfg.g + 1 - 1) = cfg.a := by simp [inLayer]
  simp only [advanceInput, hil]
  cases hL : L with
  | nil =>
    obtain ⟨s', e1⟩ := hF.first_nil _ hs hL
    rw [e1, aggRows]
    simp [attach]
  | cons z rs =>
    obtain ⟨s', e1, e2⟩ := hF.first_cons _ _ _ hs hL
    rw [e1, aggRows]
    simp only [Option.bind_eq_bind, Option.bind_some, Option.pure_def]
    have hzl := (hF.length _ _ _ e2).1
    rcases read_row hF hga had hdn (st := ⟨s', .notYet, none⟩) e2 rfl rfl cfg.g 0 (by omega)
      with ⟨k1, k2⟩ | ⟨v', st', u', k1, k2, k3, k4⟩
    · rw [k1, k2]; rfl
    · rw [k1, k2]
      simp only [Option.bind_eq_bind, Option.bind_some, List.drop_zero]
      rw [rows_from hF hga had hdn (rs.length + 1) st' z v' rs u' (by omega) hzl k3 k4]
      cases aggRows cfg.g cfg.d cfg.a cfg.proc.run (nextGroup cfg.g z rs) with
      | none => rfl
      | some out => simp [withChanges, attach]

end AggCfg
end Verif

namespace Verif
/-! ## Specification by sets of rows -/
section
variable {α : Type} [SVal α]

/-- `ps` lists, in ascending order and without repetition, the projections to columns `0..d` of the rows in `L` whose first
`g` columns are `w`. -/
def DistinctIn (L : List (List α)) (g d : Nat) (w : List α) (ps : List (List α)) : Prop :=
  ps.Pairwise (· < ·) ∧ ∀ q, q ∈ ps ↔ ∃ x ∈ L, x.take g = w ∧ x.take (d + 1) = q

theorem DistinctIn.unique {L : List (List α)} {g d : Nat} {w : List α} {ps qs : List (List α)}
    (h1 : DistinctIn L g d w ps) (h2 : DistinctIn L g d w qs) : ps = qs :=
  asc_ext h1.1 h2.1 fun q => (h1.2 q).trans (h2.2 q).symm

theorem nextGroup_mem {g : Nat} {z : List α} {rs : List (List α)} (hs : (z :: rs).Pairwise (· < ·)) (x : List α) :
    x ∈ nextGroup g z rs ↔ x ∈ rs ∧ x.take g ≠ z.take g := by
  induction rs with
  | nil => simp [nextGroup]
  | cons r rs ih =>
    have hs' : (z :: rs).Pairwise (· < ·) := by
      rw [List.pairwise_cons] at hs ⊢
      exact ⟨fun y hy => hs.1 y (by simp [hy]), (List.pairwise_cons.mp hs.2).2⟩
    rw [nextGroup]
    by_cases h : r.take g = z.take g
    · rw [List.dropWhile_cons_of_pos (by simpa using h)]
      rw [nextGroup] at ih
      rw [ih hs']
      constructor
      · rintro ⟨h1, h2⟩; exact ⟨by simp [h1], h2⟩
      · rintro ⟨h1, h2⟩
        rcases List.mem_cons.mp h1 with rfl | h1
        · exact absurd h h2
        · exact ⟨h1, h2⟩
    · rw [List.dropWhile_cons_of_neg (by simpa using h)]
      refine ⟨fun hx => ⟨hx, fun he => h ?_⟩, fun hx => hx.1⟩
      have hzr : z < r := (List.pairwise_cons.mp hs).1 r (by simp)
      have hrx : r ≤ x := by
        rcases List.mem_cons.mp hx with rfl | hx
        · exact le_refl _
        · exact ((List.pairwise_cons.mp (List.pairwise_cons.mp hs).2).1 x hx).le
      exact le_antisymm (he ▸ take_le_take hrx g) (take_le_take hzr.le g)

theorem groupReps_spec {g d : Nat} (hgd : g ≤ d + 1) {z : List α} {rs : List (List α)} (hs : (z :: rs).Pairwise (· < ·)) :
    DistinctIn (z :: rs) g d (z.take g) ((z :: groupReps g d z rs).map (·.take (d + 1))) := by
  induction rs generalizing z with
  | nil =>
    refine ⟨by simp [groupReps], fun q => ?_⟩
    simp [groupReps, eq_comm]
  | cons r rs ih =>
    have hs' : (z :: rs).Pairwise (· < ·) := by
      rw [List.pairwise_cons] at hs ⊢
      exact ⟨fun y hy => hs.1 y (by simp [hy]), (List.pairwise_cons.mp hs.2).2⟩
    have hzr : z < r := (List.pairwise_cons.mp hs).1 r (by simp)
    rw [groupReps]
    by_cases h : r.take g ≠ z.take g
    · rw [if_pos h]
      refine ⟨by simp, fun q => ?_⟩
      have hno : ∀ x ∈ r :: rs, x.take g ≠ z.take g := by
        intro x hx
        have := (nextGroup_mem hs x (g := g)).mp (by
          rw [nextGroup, List.dropWhile_cons_of_neg (by simpa using h)]; exact hx)
        exact this.2
      simp only [List.map_cons, List.map_nil, List.mem_singleton]
      constructor
      · rintro rfl; exact ⟨z, by simp, rfl, rfl⟩
      · rintro ⟨x, hx, h1, h2⟩
        rcases List.mem_cons.mp hx with rfl | hx
        · exact h2.symm
        · exact absurd h1 (hno x hx)
    · rw [if_neg h]
      have h : r.take g = z.take g := by simpa using h
      by_cases hd : r.take (d + 1) = z.take (d + 1)
      · rw [if_pos hd]
        obtain ⟨i1, i2⟩ := ih hs'
        refine ⟨i1, fun q => (i2 q).trans ?_⟩
        constructor
        · rintro ⟨x, hx, h1, h2⟩
          exact ⟨x, by rcases List.mem_cons.mp hx with rfl | hx <;> simp [*], h1, h2⟩
        · rintro ⟨x, hx, h1, h2⟩
          simp only [List.mem_cons] at hx
          rcases hx with rfl | rfl | hx
          · exact ⟨x, by simp, h1, h2⟩
          · exact ⟨z, by simp, rfl, by rw [← hd, h2]⟩
          · exact ⟨x, by simp [hx], h1, h2⟩
      · rw [if_neg hd]
        obtain ⟨i1, i2⟩ := ih (List.pairwise_cons.mp hs).2
        have hlt : z.take (d + 1) < r.take (d + 1) := lt_of_le_of_ne (take_le_take hzr.le _) (fun e => hd e.symm)
        refine ⟨?_, fun q => ?_⟩
        · rw [List.map_cons, List.pairwise_cons]
          refine ⟨fun q hq => ?_, i1⟩
          obtain ⟨x, hx, _, rfl⟩ := (i2 q).mp hq
          have hrx : r ≤ x := by
            rcases List.mem_cons.mp hx with rfl | hx
            · exact le_refl _
            · exact ((List.pairwise_cons.mp (List.pairwise_cons.mp hs).2).1 x hx).le
          exact lt_of_lt_of_le hlt (take_le_take hrx _)
        · rw [List.map_cons, List.mem_cons, i2 q]
          constructor
          · rintro (rfl | ⟨x, hx, h1, h2⟩)
            · exact ⟨z, by simp, rfl, rfl⟩
            · exact ⟨x, List.mem_cons_of_mem _ hx, by rw [h1, h], h2⟩
          · rintro ⟨x, hx, h1, h2⟩
            rcases List.mem_cons.mp hx with rfl | hx
            · exact Or.inl h2.symm
            · exact Or.inr ⟨x, hx, by rw [h1, h], h2⟩

theorem filterMap_take {a d : Nat} (had : a ≤ d) (l : List (List α)) :
    (l.map (·.take (d + 1))).filterMap (·[a]?) = l.filterMap (·[a]?) := by
  rw [List.filterMap_map]
  congr 1
  funext x
  simp [Function.comp, List.getElem?_take, show a < d + 1 by omega]

theorem append_lt_append {x y : List α} (hl : x.length = y.length) (h : x < y) (u v : List α) : x ++ u < y ++ v := by
  induction x generalizing y with
  | nil =>
    cases y with
    | nil => exact absurd h (lt_irrefl _)
    | cons b y => simp at hl
  | cons a x ih =>
    cases y with
    | nil => simp at hl
    | cons b y =>
      rw [List.cons_lt_cons_iff] at h
      rw [List.cons_append, List.cons_append, List.cons_lt_cons_iff]
      rcases h with h | ⟨h, h2⟩
      · exact Or.inl h
      · exact Or.inr ⟨h, ih (by simpa using hl) h2⟩

/-- **Result of an aggregation over the sorted rows `L`**: one row for each group, whose last column is the aggregate of
the values of column `a` in the distinct projections of the group to columns `0..d`.  It fails if and only if the aggregate of
some group fails. -/
theorem aggRows_spec {g d a n : Nat} (hga : g ≤ a) (had : a ≤ d) (hdn : d < n) (agg : List α → Option α) :
    ∀ (m : Nat) (L : List (List α)), L.length < m → L.Pairwise (· < ·) → (∀ r ∈ L, r.length = n) →
      (aggRows g d a agg L = none ∧ ∃ w ps, (∃ x ∈ L, x.take g = w) ∧ DistinctIn L g d w ps ∧
        agg (ps.filterMap (·[a]?)) = none) ∨
      ∃ out, aggRows g d a agg L = some out ∧ out.Pairwise (· < ·) ∧ (∀ r ∈ out, r.length = g + 1) ∧
        (∀ w, (∃ x ∈ L, x.take g = w) → ∃ ps v, DistinctIn L g d w ps ∧ agg (ps.filterMap (·[a]?)) = some v) ∧
        ∀ r, r ∈ out ↔ ∃ w v ps, r = w ++ [v] ∧ (∃ x ∈ L, x.take g = w) ∧ DistinctIn L g d w ps ∧
          agg (ps.filterMap (·[a]?)) = some v := by
  intro m
  induction m with
  | zero => intro L h; omega
  | succ m ih =>
    intro L hm hs hl
    cases L with
    | nil => exact Or.inr ⟨[], by rw [aggRows], by simp, by simp, by simp, by simp⟩
    | cons z rs =>
      have hD := groupReps_spec (g := g) (d := d) (by omega) hs
      have hag : agg ((z :: groupReps g d z rs).filterMap (·[a]?)) =
          agg (((z :: groupReps g d z rs).map (·.take (d + 1))).filterMap (·[a]?)) := by rw [filterMap_take had]
      rw [aggRows, hag]
      have hzg : ∃ x ∈ z :: rs, x.take g = z.take g := ⟨z, by simp, rfl⟩
      generalize (z :: groupReps g d z rs).map (·.take (d + 1)) = ps0 at hD
      cases hv : agg (ps0.filterMap (·[a]?)) with
      | none => exact Or.inl ⟨rfl, z.take g, ps0, hzg, hD, hv⟩
      | some v =>
        have hsub : (nextGroup g z rs).Sublist rs := List.dropWhile_sublist _
        have hs2 : (nextGroup g z rs).Pairwise (· < ·) := (List.pairwise_cons.mp hs).2.sublist hsub
        have hnl := nextGroup_length g z rs
        have hzl : z.length = n := hl z (by simp)
        have hmem := fun x => nextGroup_mem (g := g) hs x
        -- distinct rows of other groups
        have hDist : ∀ w ps, w ≠ z.take g → (DistinctIn (nextGroup g z rs) g d w ps ↔ DistinctIn (z :: rs) g d w ps) := by
          intro w ps hw
          unfold DistinctIn
          refine and_congr_right fun _ => forall_congr' fun q => iff_congr Iff.rfl ?_
          constructor
          · rintro ⟨x, hx, h1, h2⟩
            exact ⟨x, by simp [((hmem x).mp hx).1], h1, h2⟩
          · rintro ⟨x, hx, h1, h2⟩
            rcases List.mem_cons.mp hx with rfl | hx
            · exact absurd h1.symm hw
            · exact ⟨x, (hmem x).mpr ⟨hx, by rw [h1]; exact hw⟩, h1, h2⟩
        have hEx : ∀ w, w ≠ z.take g → ((∃ x ∈ nextGroup g z rs, x.take g = w) ↔ ∃ x ∈ z :: rs, x.take g = w) := by
          intro w hw
          constructor
          · rintro ⟨x, hx, h1⟩
            exact ⟨x, by simp [((hmem x).mp hx).1], h1⟩
          · rintro ⟨x, hx, h1⟩
            rcases List.mem_cons.mp hx with rfl | hx
            · exact absurd h1.symm hw
            · exact ⟨x, (hmem x).mpr ⟨hx, by rw [h1]; exact hw⟩, h1⟩
        have hNe : ∀ w, (∃ x ∈ nextGroup g z rs, x.take g = w) → w ≠ z.take g := by
          rintro w ⟨x, hx, h1⟩
          rw [← h1]; exact ((hmem x).mp hx).2
        rcases ih (nextGroup g z rs) (by simp at hm; omega) hs2 (fun r hr => hl r (by simp [((hmem r).mp hr).1]))
          with ⟨h1, w, ps, h2, h3, h4⟩ | ⟨out, h1, h2, h3, h4, h5⟩
        · left
          rw [h1]
          have hw := hNe w h2
          exact ⟨rfl, w, ps, (hEx w hw).mp h2, (hDist w ps hw).mp h3, h4⟩
        · right
          rw [h1]
          refine ⟨(z.take g ++ [v]) :: out, rfl, ?_, ?_, ?_, ?_⟩
          · rw [List.pairwise_cons]
            refine ⟨fun r hr => ?_, h2⟩
            obtain ⟨w, v', ps, rfl, ⟨x, hx, rfl⟩, _, _⟩ := (h5 r).mp hr
            have hx' := (hmem x).mp hx
            have hzx : z < x := (List.pairwise_cons.mp hs).1 x hx'.1
            have hxl := hl x (by simp [hx'.1])
            exact append_lt_append (by simp; omega) (lt_of_le_of_ne (take_le_take hzx.le g) (Ne.symm hx'.2)) _ _
          · intro r hr
            rcases List.mem_cons.mp hr with rfl | hr
            · simp; omega
            · exact h3 r hr
          · intro w hw
            by_cases hwz : w = z.take g
            · subst hwz; exact ⟨ps0, v, hD, hv⟩
            · obtain ⟨ps, v', k1, k2⟩ := h4 w ((hEx w hwz).mpr hw)
              exact ⟨ps, v', (hDist w ps hwz).mp k1, k2⟩
          · intro r
            rw [List.mem_cons, h5 r]
            constructor
            · rintro (rfl | ⟨w, v', ps, k1, k2, k3, k4⟩)
              · exact ⟨z.take g, v, ps0, rfl, hzg, hD, hv⟩
              · have hw := hNe w k2
                exact ⟨w, v', ps, k1, (hEx w hw).mp k2, (hDist w ps hw).mp k3, k4⟩
            · rintro ⟨w, v', ps, k1, k2, k3, k4⟩
              by_cases hwz : w = z.take g
              · subst hwz
                rw [k3.unique hD, hv] at k4
                simp only [Option.some.injEq] at k4
                left; rw [k1, k4]
              · exact Or.inr ⟨w, v', ps, k1, (hEx w hwz).mpr k2, (hDist w ps hwz).mpr k3, k4⟩

end
end Verif
