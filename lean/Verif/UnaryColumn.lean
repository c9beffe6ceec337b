import Verif.TrieTable

/-!
# Columns of trie operators with one input

The columns of the filtering scan and of the scan that computes functions
(/repo/nemo-physical/src/tabular/operations/filter.rs and function.rs) pass on a column of the
input, filter it, select one value in it, or consist of one computed value.
-/

set_option linter.unusedSimpArgs false
set_option linter.unusedSectionVars false
set_option linter.unusedVariables false

namespace Verif

/-- The kinds of column scans: `ColumnScanPass`, `ColumnScanFilter`, `ColumnScanFilterConstant`,
`ColumnScanConstant`. -/
inductive UKind (β : Type)
  | pass
  | filtered (check : β → Bool)
  | one (k : β)
  | const (o : Option β)

/-- The state of such a column scan, apart from the input: `current_value` of `ColumnScanFilter`,
`state` of the scans with a constant. -/
structure ULoc (β : Type) where
  cur : Option β
  st : TriState

/-- the state after construction and after `reset` (filter.rs:116-118, filter_constant.rs:105-107,
constant.rs:95-97 in columnar/operations) -/
def ULoc.fresh {β : Type} : ULoc β := ⟨none, .start⟩

namespace UCol
variable {T β : Type} [LinearOrder β]

/-- `next` -/
def next (ops : ScanOps T β) (k : UKind β) (l : ULoc β) (s : T) : Option (Option β × ULoc β × T) :=
  match k with
  | .pass => (ops.next s).map fun r => (r.1, l, r.2)
  | .filtered check => ((FilterScan.ops ops check).next ⟨s, l.cur⟩).map fun r => (r.1, ⟨r.2.cur, l.st⟩, r.2.child)
  | .one k => ((OneScan.ops ops (some k)).next ⟨s, l.st⟩).map fun r => (r.1, ⟨l.cur, r.2.state⟩, r.2.child)
  | .const o => (ConstScan.ops.next ⟨o, l.st⟩).map fun r => (r.1, ⟨l.cur, r.2.state⟩, s)

/-- `seek` -/
def seek (ops : ScanOps T β) (k : UKind β) (l : ULoc β) (s : T) (v : β) : Option (Option β × ULoc β × T) :=
  match k with
  | .pass => (ops.seek s v).map fun r => (r.1, l, r.2)
  | .filtered check =>
    ((FilterScan.ops ops check).seek ⟨s, l.cur⟩ v).map fun r => (r.1, ⟨r.2.cur, l.st⟩, r.2.child)
  | .one k => ((OneScan.ops ops (some k)).seek ⟨s, l.st⟩ v).map fun r => (r.1, ⟨l.cur, r.2.state⟩, r.2.child)
  | .const o => (ConstScan.ops.seek ⟨o, l.st⟩ v).map fun r => (r.1, ⟨l.cur, r.2.state⟩, s)

/-- `current` -/
def current (ops : ScanOps T β) (k : UKind β) (l : ULoc β) (s : T) : Option β :=
  match k with
  | .pass => ops.current s
  | .filtered check => (FilterScan.ops ops check).current ⟨s, l.cur⟩
  | .one k => (OneScan.ops ops (some k)).current ⟨s, l.st⟩
  | .const o => ConstScan.ops.current ⟨o, l.st⟩

/-- the values of the column, if the input has the values `M` -/
def contents (k : UKind β) (M : List β) : List β :=
  match k with
  | .pass => M
  | .filtered check => M.filter check
  | .one k => M.filter (fun x => some x = some k)
  | .const o => o.toList

/-- Relation between the state of a column, the cursor of the input and the cursor of the column.
`strict`: the stored value of a filter is right even at the end. -/
def Sim (strict : Bool) (k : UKind β) (M : List β) (l : ULoc β) (cm c : Cur β) : Prop :=
  match k with
  | .pass => c = cm
  | .filtered check => FilterScan.Sim curOps check ⟨cm, l.cur⟩ c ∧ (strict = true → l.cur = c.current)
  | .one k => OneScan.Sim curOps (some k) M ⟨cm, l.st⟩ c
  | .const o => ConstScan.Sim ⟨o, l.st⟩ c

theorem sim_new (strict : Bool) (k : UKind β) {M : List β} (ha : Asc M) :
    Sim strict k M .fresh (.fresh M) (.fresh (contents k M)) := by
  cases k with
  | pass => rfl
  | filtered check => exact ⟨FilterScan.sim_new curOps check _ M (behaves_cur _) ha, fun _ => rfl⟩
  | one k => exact OneScan.sim_new curOps (some k) M _ (behaves_cur _)
  | const o =>
    cases o with
    | none => exact Or.inl rfl
    | some k => rfl

/-- does the column use the input -/
def uses : UKind β → Prop
  | .const _ => False
  | _ => True

/-- does the column seek in the input even for `next` -/
def seeks : UKind β → Prop
  | .one _ => True
  | _ => False

/-- is the column filtered by a program -/
def isFiltered : UKind β → Prop
  | .filtered _ => True
  | _ => False

/-- the input stands on the value the column stands on -/
theorem sim_some {strict : Bool} {k : UKind β} {M : List β} {l : ULoc β} {cm c : Cur β} (h : Sim strict k M l cm c)
    (hu : uses k) {v : β} (hv : c.current = some v) : cm.current = some v := by
  cases k with
  | pass => have h : c = cm := h; rw [← h]; exact hv
  | filtered check =>
    obtain ⟨⟨-, cm', hb, -, -, -, hat⟩, -⟩ := h
    have e : cm.current = cm'.current := hb.current
    cases c with
    | fresh l => simp [Cur.current] at hv
    | «at» l =>
      obtain ⟨m, rfl, hh⟩ := hat l rfl
      rw [e]
      simp only [Cur.current] at hv ⊢
      rw [hh]; exact hv
  | one k =>
    obtain ⟨cur, st⟩ := l
    cases st with
    | start =>
      obtain ⟨-, rfl⟩ := h
      simp [Cur.current] at hv
    | value =>
      obtain ⟨rfl, t, hb⟩ := h
      have e : cm.current = (Cur.at (k :: t)).current := hb.current
      rw [e]
      simpa [Cur.current] using hv
    | finished =>
      have h : c = .at [] := h
      subst h
      simp [Cur.current] at hv
  | const o => exact absurd hu (by simp [uses])

theorem sim_current {strict : Bool} {k : UKind β} {M : List β} {l : ULoc β} {cm c : Cur β} (h : Sim strict k M l cm c)
    {ops : ScanOps T β} {s : T} (hc : uses k → (cm ≠ .at [] ∨ strict = true) → ops.current s = cm.current)
    (he : c ≠ .at [] ∨ strict = true) : current ops k l s = c.current := by
  cases k with
  | pass =>
    have h : c = cm := h
    subst h
    exact hc trivial he
  | filtered check =>
    obtain ⟨h1, h2⟩ := h
    rcases he with he | he
    · exact h1.cur he
    · exact h2 he
  | one k =>
    obtain ⟨cur, st⟩ := l
    cases st with
    | start => obtain ⟨-, rfl⟩ := h; rfl
    | value =>
      have hk := sim_some (strict := strict) (k := .one k) (l := ⟨cur, .value⟩) h trivial
        (v := k) (by obtain ⟨rfl, -⟩ := h; rfl)
      obtain ⟨rfl, -⟩ := h
      show ops.current s = _
      rw [hc trivial (.inl (by rintro rfl; simp [Cur.current] at hk)), hk]
      rfl
    | finished =>
      have h : c = .at [] := h
      subst h
      rfl
  | const o =>
    obtain ⟨cur, st⟩ := l
    cases o with
    | none =>
      rcases h with rfl | rfl <;> cases st <;> rfl
    | some k =>
      cases st <;> · cases h; rfl

variable {ops : ScanOps T β} {Q : T → Cur β → Prop}

theorem one_start {k : β} {cm : Cur β} {st : TriState} {r : Option β × OneScan (Cur β)}
    (hK : SeekOn ops Q) (h : OneScan.start curOps (some k) ⟨cm, st⟩ = some r) {s : T} (hq : Q s cm) :
    ∃ s', OneScan.start ops (some k) ⟨s, st⟩ = some (r.1, ⟨s', r.2.state⟩) ∧ Q s' r.2.child := by
  obtain ⟨s', h1, h2⟩ := hK s cm k hq
  simp only [OneScan.start, curOps, Option.map_some, Option.some.injEq] at h
  simp only [OneScan.start, h1, Option.map_some]
  subst h
  split
  · exact ⟨s', rfl, h2⟩
  · exact ⟨s', rfl, h2⟩

theorem sim_next {strict : Bool} {k : UKind β} {M : List β} (hM : Asc M) {l : ULoc β} {cm c : Cur β} {s : T}
    (hN : uses k → SimOn ops Q) (hK : seeks k → SeekOn ops Q) (h : Sim strict k M l cm c) (hq : Q s cm) :
    ∃ l' cm' s', next ops k l s = some (c.next.current, l', s') ∧ Sim strict k M l' cm' c.next ∧ Q s' cm' := by
  cases k with
  | pass =>
    have h : c = cm := h
    subst h
    obtain ⟨s', h1, h2⟩ := (hN trivial).next s c hq
    exact ⟨l, c.next, s', by simp [next, h1], rfl, h2⟩
  | filtered check =>
    obtain ⟨h1, h2⟩ := h
    obtain ⟨f, h3, h4⟩ := FilterScan.sim_next curOps check _ _ h1
    simp only [FilterScan.ops] at h3
    obtain ⟨r, h5, h6⟩ := Option.map_eq_some_iff.mp h3
    obtain ⟨s', h7, h8⟩ := FilterScan.param_findNext (hN trivial) h5 hq
    simp only [FilterScan.store, Prod.mk.injEq] at h6
    obtain ⟨e1, e2⟩ := h6
    subst e2
    refine ⟨⟨r.1, l.st⟩, r.2, s', ?_, ⟨h4, fun _ => e1⟩, h8⟩
    simp [next, FilterScan.ops, h7, FilterScan.store, e1]
  | one k =>
    obtain ⟨f, h3, h4⟩ := OneScan.sim_next curOps (some k) M hM _ _ h
    obtain ⟨cur, st⟩ := l
    cases st with
    | start =>
      obtain ⟨s', h5, h6⟩ := one_start (hK trivial) (show OneScan.start curOps (some k) ⟨cm, .start⟩ = some (_, f) from h3) hq
      refine ⟨⟨cur, f.state⟩, f.child, s', ?_, h4, h6⟩
      simp only [next, OneScan.ops, OneScan.next, h5, Option.map_some]
    | value =>
      simp only [OneScan.ops, OneScan.next, Option.some.injEq, Prod.mk.injEq] at h3
      obtain ⟨e1, e2⟩ := h3
      subst e2
      exact ⟨⟨cur, .finished⟩, cm, s, by simp [next, OneScan.ops, OneScan.next, ← e1], h4, hq⟩
    | finished =>
      simp only [OneScan.ops, OneScan.next, Option.some.injEq, Prod.mk.injEq] at h3
      obtain ⟨e1, e2⟩ := h3
      subst e2
      exact ⟨⟨cur, .finished⟩, cm, s, by simp [next, OneScan.ops, OneScan.next, ← e1], h4, hq⟩
  | const o =>
    obtain ⟨cur, st⟩ := l
    cases o with
    | none =>
      rcases h with rfl | rfl <;> cases st <;> exact ⟨_, cm, s, rfl, Or.inr rfl, hq⟩
    | some k =>
      cases st <;> · cases h; exact ⟨_, cm, s, rfl, rfl, hq⟩

theorem sim_seek {strict : Bool} {k : UKind β} {M : List β} (hM : Asc M) {l : ULoc β} {cm c : Cur β} {s : T}
    (hs : strict = true → ¬ isFiltered k)
    (hN : uses k → SimOn ops Q) (hK : uses k → SeekOn ops Q) (v : β) (h : Sim strict k M l cm c) (hq : Q s cm) :
    ∃ l' cm' s', seek ops k l s v = some ((c.seek v).current, l', s') ∧ Sim strict k M l' cm' (c.seek v) ∧
      Q s' cm' := by
  cases k with
  | pass =>
    have h : c = cm := h
    subst h
    obtain ⟨s', h1, h2⟩ := hK trivial s c v hq
    exact ⟨l, c.seek v, s', by simp [seek, h1], rfl, h2⟩
  | filtered check =>
    obtain ⟨h1, h2⟩ := h
    obtain ⟨f, h3, h4⟩ := FilterScan.sim_seek curOps check _ _ v h1
    have hst : strict = true → False := fun e => hs e trivial
    obtain ⟨s1, g1, g2⟩ := hK trivial s cm v hq
    simp only [FilterScan.ops, FilterScan.seek, curOps, Option.bind_some] at h3
    simp only [seek, FilterScan.ops, FilterScan.seek, g1, Option.bind_some]
    cases hc : (cm.seek v).current with
    | none =>
      simp only [hc, Option.some.injEq, Prod.mk.injEq] at h3
      obtain ⟨e1, e2⟩ := h3
      subst e2
      exact ⟨_, _, _, by rw [← e1]; rfl, ⟨h4, fun e => (hst e).elim⟩, g2⟩
    | some x =>
      simp only [hc] at h3 ⊢
      by_cases hx : check x = true
      · rw [if_pos hx] at h3 ⊢
        simp only [FilterScan.store, Option.some.injEq, Prod.mk.injEq] at h3
        obtain ⟨e1, e2⟩ := h3
        subst e2
        exact ⟨_, _, _, by rw [← e1]; rfl, ⟨h4, fun e => (hst e).elim⟩, g2⟩
      · rw [if_neg hx] at h3 ⊢
        obtain ⟨r, h5, h6⟩ := Option.map_eq_some_iff.mp h3
        obtain ⟨s', h7, h8⟩ := FilterScan.param_findNext (hN trivial) h5 g2
        simp only [FilterScan.store, Prod.mk.injEq] at h6
        obtain ⟨e1, e2⟩ := h6
        subst e2
        rw [h7]
        exact ⟨_, _, _, by rw [← e1]; rfl, ⟨h4, fun e => (hst e).elim⟩, h8⟩
  | one k =>
    obtain ⟨f, h3, h4⟩ := OneScan.sim_seek curOps (some k) M hM _ _ v h
    obtain ⟨cur, st⟩ := l
    simp only [OneScan.ops, OneScan.seek] at h3
    simp only [seek, OneScan.ops, OneScan.seek]
    by_cases e : k < v ∨ st = .finished
    · rw [if_pos e] at h3 ⊢
      simp only [Option.some.injEq, Prod.mk.injEq] at h3
      obtain ⟨e1, e2⟩ := h3
      subst e2
      exact ⟨⟨cur, .finished⟩, cm, s, by rw [← e1]; rfl, h4, hq⟩
    · rw [if_neg e] at h3 ⊢
      obtain ⟨s', h5, h6⟩ := one_start (hK trivial) h3 hq
      rw [h5]
      exact ⟨⟨cur, f.state⟩, f.child, s', rfl, h4, h6⟩
  | const o =>
    obtain ⟨cur, st⟩ := l
    have hb := ConstScan.behaves_new (α := β) none
    cases o with
    | none =>
      rcases h with rfl | rfl <;> exact ⟨_, cm, s, rfl, Or.inr rfl, hq⟩
    | some k =>
      cases st
      all_goals
        cases h
        by_cases hv : k < v <;>
          simp [seek, ConstScan.ops, ConstScan.seek, hv, Cur.seek, Cur.rem, Cur.current, Sim, ConstScan.Sim]
        all_goals exact ⟨cm, hq⟩

end UCol
end Verif
