import Verif.ColumnSubtract

/-!
# Filtering column cursors, constant columns

Models `filter.rs`, `filter_constant.rs`, `filter_equal.rs`, `filter_interval.rs`, `constant.rs` and
`pass.rs` in `/repo/nemo-physical/src/columnar/operations/`.
-/

set_option linter.unusedSimpArgs false
set_option linter.unusedSectionVars false

namespace Verif
variable {S α : Type} [LinearOrder α]

/-! ## Filter by a predicate -/

/-- `ColumnScanFilter` (filter.rs:15-32).  Dictionary, stack program and referenced values appear as
one predicate `check`, a parameter of the operations below. -/
structure FilterScan (S α : Type) where
  child : S
  cur : Option α

namespace FilterScan

/-- `find_next` (filter.rs:73-81); `check x` is `check_value(x) == Some(true)` -/
def findNext (ops : ScanOps S α) (check : α → Bool) (s : S) : Option (Option α × S) :=
  ops.next s >>= fun r =>
    match r.1 with
    | none => some (none, r.2)
    | some x => if check x then some (some x, r.2) else findNext ops check r.2
partial_fixpoint

/-- remember the answer as `current_value` (filter.rs:91-92, 103-109) -/
def store (r : Option α × S) : Option α × FilterScan S α := (r.1, ⟨r.2, r.1⟩)

/-- `seek` (filter.rs:100-110): the `?` in line 101 returns before `current_value` is changed. -/
def seek (ops : ScanOps S α) (check : α → Bool) (s : FilterScan S α) (v : α) :
    Option (Option α × FilterScan S α) :=
  (ops.seek s.child v).bind fun r =>
    match r.1 with
    | none => some (none, { s with child := r.2 })
    | some x => if check x then some (store (some x, r.2)) else (findNext ops check r.2).map store

/-- `ColumnScanFilter` as a cursor: `next` (90-93), `seek` (100-110), `current` (112-114) -/
def ops (ops : ScanOps S α) (check : α → Bool) : ScanOps (FilterScan S α) α where
  next s := (findNext ops check s.child).map store
  seek := seek ops check
  current s := s.cur

/-- `ColumnScanFilter::new` (39-52) -/
def new (child : S) : FilterScan S α := ⟨child, none⟩

theorem findNext_spec (cops : ScanOps S α) (check : α → Bool) (s : S) (c : Cur α)
    (hb : Behaves cops s c) (m : List α) (hm : c.next = .at m) :
    ∃ s' m', findNext cops check s = some (m'.head?, s') ∧ Behaves cops s' (.at m') ∧
      m' = m.dropWhile (fun x => ! check x) := by
  induction m generalizing s c with
  | nil =>
    obtain ⟨s', h1, h2⟩ := hb.next
    rw [hm] at h1 h2
    rw [findNext]
    exact ⟨s', [], by simp [h1, Cur.current], h2, rfl⟩
  | cons x t ih =>
    obtain ⟨s', h1, h2⟩ := hb.next
    rw [hm] at h1 h2
    rw [findNext]
    simp only [h1, Option.bind_eq_bind, Option.bind_some, Cur.current, List.head?_cons]
    by_cases hx : check x
    · exact ⟨s', x :: t, by simp [hx], h2, by simp [hx]⟩
    · obtain ⟨s'', m', h3, h4, h5⟩ := ih s' (.at (x :: t)) h2 rfl
      refine ⟨s'', m', by simp [hx, h3], h4, by simp [hx, h5]⟩

theorem filter_dropWhile_not (check : α → Bool) (m : List α) :
    (m.dropWhile (fun x => ! check x)).filter check = m.filter check := by
  induction m with
  | nil => rfl
  | cons x t ih =>
    by_cases hx : check x
    · simp [hx]
    · simp [hx, ih]

theorem head_dropWhile_not (check : α → Bool) (m : List α) :
    (m.dropWhile (fun x => ! check x)).head? = (m.filter check).head? := by
  induction m with
  | nil => rfl
  | cons x t ih =>
    by_cases hx : check x
    · simp [hx]
    · simp [hx, ih]

/-- simulation relation; the stored value may be stale once the cursor is exhausted -/
structure Sim (cops : ScanOps S α) (check : α → Bool) (s : FilterScan S α) (c : Cur α) : Prop where
  cur : c ≠ .at [] → s.cur = c.current
  ex : ∃ cm : Cur α, Behaves cops s.child cm ∧ Asc cm.rem ∧ c.rem = cm.rem.filter check ∧
    (∀ l, c = .fresh l → ∃ m, cm = .fresh m) ∧
    (∀ l, c = .at l → ∃ m, cm = .at m ∧ m.head? = l.head?)

theorem store_spec (cops : ScanOps S α) (check : α → Bool) (s : S) (m : List α)
    (hb : Behaves cops s (.at m)) (ha : Asc m) (l : List α) (hl : l = m.filter check)
    (hh : m.head? = l.head?) :
    store (m.head?, s) = ((Cur.at l).current, ⟨s, l.head?⟩) ∧
      Sim cops check ⟨s, l.head?⟩ (.at l) :=
  ⟨by simp [store, Cur.current, hh], fun _ => rfl, .at m, hb, ha, hl, by simp,
    fun l' e => ⟨m, rfl, by injection e with e; rw [← e]; exact hh⟩⟩

theorem sim_next (cops : ScanOps S α) (check : α → Bool) (s : FilterScan S α) (c : Cur α)
    (h : Sim cops check s c) :
    ∃ s', (ops cops check).next s = some (c.next.current, s') ∧ Sim cops check s' c.next := by
  obtain ⟨cm, hb, ha, hc, hf, hat⟩ := h.ex
  obtain ⟨m, hm, hm'⟩ := Cur.next_isAt cm
  obtain ⟨l, hl, hl'⟩ := Cur.next_isAt c
  have hma : Asc m := by rw [hm']; exact Cur.next_asc ha
  obtain ⟨s', m', h1, h2, h3⟩ := findNext_spec cops check s.child cm hb m hm
  have hlm : l = m.filter check := by
    rw [hl', hm']
    cases c with
    | fresh l0 => obtain ⟨m0, rfl⟩ := hf l0 rfl; exact hc
    | «at» l0 =>
      obtain ⟨m0, rfl, hh⟩ := hat l0 rfl
      simp only [Cur.next, Cur.rem] at hc ⊢
      cases m0 with
      | nil => subst hc; rfl
      | cons a t =>
        cases l0 with
        | nil => simp at hh
        | cons b l0 =>
          simp at hh
          subst hh
          rw [List.filter_cons] at hc
          split at hc
          · simpa using hc
          · have : a ∈ t := (List.mem_filter.mp (by rw [← hc]; simp)).1
            exact absurd ((asc_cons.mp ha).1 a this) (lt_irrefl _)
  have hm'a : Asc m' := by rw [h3]; exact hma.sublist (List.dropWhile_sublist _)
  have h4 := store_spec cops check s' m' h2 hm'a l
    (by rw [hlm, h3, filter_dropWhile_not]) (by rw [hlm, h3, head_dropWhile_not])
  refine ⟨_, ?_, by rw [hl]; exact h4.2⟩
  simp only [ops, h1, Option.map_some, h4.1, hl]

theorem sim_seek (cops : ScanOps S α) (check : α → Bool) (s : FilterScan S α) (c : Cur α) (v : α)
    (h : Sim cops check s c) :
    ∃ s', (ops cops check).seek s v = some ((c.seek v).current, s') ∧
      Sim cops check s' (c.seek v) := by
  obtain ⟨cm, hb, ha, hc, hf, hat⟩ := h.ex
  obtain ⟨sc, h1, h2⟩ := hb.seek v
  have hca : Asc c.rem := by rw [hc]; exact ha.filter _
  have hl : (c.seek v).rem = (cm.seek v).rem.filter check := by
    rw [Cur.seek_rem c hca, Cur.seek_rem cm ha, hc, List.filter_filter, List.filter_filter]
    exact List.filter_congr fun x _ => Bool.and_comm _ _
  have hma := Cur.seek_asc ha v
  simp only [ops, seek, h1, Option.bind_some]
  rw [Cur.seek_isAt c v]
  rw [Cur.seek_isAt cm v] at h2 ⊢
  obtain ⟨m, hm⟩ : ∃ m, m = (cm.seek v).rem := ⟨_, rfl⟩
  obtain ⟨l, hl0⟩ : ∃ l, l = (c.seek v).rem := ⟨_, rfl⟩
  rw [← hm] at hl h2 hma ⊢
  rw [← hl0] at hl ⊢
  cases m with
  | nil =>
    simp at hl
    subst hl
    exact ⟨_, rfl, fun h => absurd rfl h, .at [], h2, hma, rfl, by simp,
      fun l e => by injection e with e; subst e; exact ⟨[], rfl, rfl⟩⟩
  | cons x t =>
    simp only [Cur.at_current, List.head?_cons]
    by_cases hx : check x
    · rw [if_pos hx]
      have h4 := store_spec cops check sc (x :: t) h2 hma l hl (by rw [hl]; simp [hx])
      exact ⟨_, congrArg some h4.1, h4.2⟩
    · rw [if_neg hx]
      obtain ⟨s', m', g1, g2, g3⟩ := findNext_spec cops check sc (.at (x :: t)) h2 t rfl
      have hm'a : Asc m' := by rw [g3]; exact (asc_cons.mp hma).2.sublist (List.dropWhile_sublist _)
      have hlt : l = t.filter check := by rw [hl]; simp [hx]
      have h4 := store_spec cops check s' m' g2 hm'a l
        (by rw [hlt, g3, filter_dropWhile_not]) (by rw [hlt, g3, head_dropWhile_not])
      refine ⟨_, ?_, h4.2⟩
      simp only [g1, Option.map_some, h4.1, Cur.at_current]

theorem sim_new (cops : ScanOps S α) (check : α → Bool) (child : S) (M : List α)
    (hb : Behaves cops child (.fresh M)) (ha : Asc M) :
    Sim cops check (new child) (.fresh (M.filter check)) :=
  ⟨fun _ => rfl, .fresh M, hb, ha, rfl, fun _ _ => ⟨M, rfl⟩, by simp⟩

end FilterScan

/-! ## Filter by one value -/

/-- `ColumnScanState` (filter_constant.rs:11-18, filter_equal.rs:11-18, constant.rs:10-17) -/
inductive TriState
  | start | value | finished
deriving DecidableEq

/-- `ColumnScanFilterConstant` (filter_constant.rs:22-34) and `ColumnScanFilterEqual`
(filter_equal.rs:22-35).  The latter takes its constant from the current value of a reference scan
of an earlier layer, which does not move while this layer is iterated; hence `ref` below: `some k`
for the constant filter, the current value of the reference scan for the equality filter. -/
structure OneScan (S : Type) where
  child : S
  state : TriState

namespace OneScan

/-- the `Start` case of `next` (filter_constant.rs:58-70, filter_equal.rs:67-81) -/
def start (ops : ScanOps S α) (ref : Option α) (s : OneScan S) : Option (Option α × OneScan S) :=
  match ref with
  | none => some (none, s)
  | some k => (ops.seek s.child k).map fun r =>
      if r.1 = some k then (r.1, ⟨r.2, .value⟩) else (none, ⟨r.2, .finished⟩)

/-- `next` (filter_constant.rs:56-77, filter_equal.rs:65-88) -/
def next (ops : ScanOps S α) (ref : Option α) (s : OneScan S) : Option (Option α × OneScan S) :=
  match s.state with
  | .start => start ops ref s
  | .value => some (none, { s with state := .finished })
  | .finished => some (none, s)

/-- `seek` (filter_constant.rs:84-95, filter_equal.rs:95-108) -/
def seek (ops : ScanOps S α) (ref : Option α) (s : OneScan S) (v : α) :
    Option (Option α × OneScan S) :=
  match ref with
  | none => some (none, s)
  | some k =>
    if k < v ∨ s.state = .finished then some (none, { s with state := .finished })
    else start ops ref s

/-- as a cursor; `current` (filter_constant.rs:97-103, filter_equal.rs:110-116) -/
def ops (ops : ScanOps S α) (ref : Option α) : ScanOps (OneScan S) α where
  next := next ops ref
  seek := seek ops ref
  current s := match s.state with
    | .value => ops.current s.child
    | _ => none

/-- `ColumnScanFilterConstant::new` (41-47), `ColumnScanFilterEqual::new` (47-56) -/
def new (child : S) : OneScan S := ⟨child, .start⟩

/-- simulation relation -/
def Sim (cops : ScanOps S α) (ref : Option α) (M : List α) (s : OneScan S) (c : Cur α) : Prop :=
  match ref with
  | none => (c = .fresh [] ∨ c = .at []) ∧ s.state = .start
  | some k => match s.state with
    | .start => Behaves cops s.child (.fresh M) ∧ c = .fresh (M.filter (· = k))
    | .value => c = .at [k] ∧ ∃ t, Behaves cops s.child (.at (k :: t))
    | .finished => c = .at []

theorem filter_eq_of_asc {M : List α} (h : Asc M) (k : α) :
    M.filter (· = k) = if k ∈ M then [k] else [] := by
  apply asc_ext (h.filter _)
  · split <;> simp
  · intro x
    by_cases hk : k ∈ M
    · simp only [hk, if_true, List.mem_singleton]
      constructor
      · intro hx; simpa using (List.mem_filter.mp hx).2
      · intro hx; subst hx; simp [hk]
    · simp only [hk, if_false, List.not_mem_nil, iff_false]
      intro hx
      have := List.mem_filter.mp hx
      simp at this
      exact hk (this.2 ▸ this.1)

/-- `seek k` on a cursor whose remaining values are `≥ `-closed hits `k` iff it is there -/
theorem seek_hit {c : Cur α} (h : Asc c.rem) (k : α) :
    (k ∈ c.rem → ∃ t, c.seek k = .at (k :: t)) ∧ (k ∉ c.rem → (c.seek k).current ≠ some k) := by
  constructor
  · intro hk
    have hk' := (Cur.mem_seek h k k).mpr ⟨hk, le_rfl⟩
    have ha := Cur.seek_asc h k
    rw [Cur.seek_isAt]
    cases hl : (c.seek k).rem with
    | nil => rw [hl] at hk'; simp at hk'
    | cons b t =>
      rw [hl] at hk' ha
      have hb := ((Cur.mem_seek h k b).mp (by rw [hl]; simp)).2
      rcases List.mem_cons.mp hk' with e | e
      · exact ⟨t, by rw [e]⟩
      · exact absurd ((asc_cons.mp ha).1 k e) (not_lt.mpr hb)
  · intro hk e
    obtain ⟨t, ht, -⟩ := Cur.seek_current_some h e
    exact hk ((Cur.mem_seek h k k).mp (by rw [ht]; simp [Cur.rem])).1

theorem start_fresh (cops : ScanOps S α) (k : α) (M : List α) (ha : Asc M) (s : OneScan S)
    (hb : Behaves cops s.child (.fresh M)) :
    ∃ s', start cops (some k) s = some ((M.filter (· = k)).head?, s') ∧
      Sim cops (some k) M s' (.at (M.filter (· = k))) := by
  obtain ⟨s', h1, h2⟩ := hb.seek k
  rw [filter_eq_of_asc ha]
  have hh := seek_hit (c := .fresh M) ha k
  simp only [start, h1, Option.map_some]
  by_cases hk : k ∈ M
  · obtain ⟨t, ht⟩ := hh.1 hk
    rw [ht] at h2 ⊢
    simp only [hk, if_true, Cur.current, List.head?_cons]
    exact ⟨_, rfl, rfl, t, h2⟩
  · simp only [hh.2 hk, hk, if_false]
    exact ⟨_, rfl, rfl⟩

theorem sim_current (cops : ScanOps S α) (ref : Option α) (M : List α) :
    ∀ (s : OneScan S) (c : Cur α), Sim cops ref M s c → (ops cops ref).current s = c.current := by
  intro s c h
  cases ref with
  | none =>
    obtain ⟨h1, h2⟩ := h
    rcases h1 with rfl | rfl <;> simp [ops, h2, Cur.current]
  | some k =>
    obtain ⟨ch, st⟩ := s
    cases st with
    | start =>
      obtain ⟨_, rfl⟩ := h
      rfl
    | value =>
      obtain ⟨rfl, t, h2⟩ := h
      simp [ops, h2.current, Cur.current]
    | finished =>
      have h : c = .at [] := h
      subst h
      rfl

theorem sim_next (cops : ScanOps S α) (ref : Option α) (M : List α) (ha : Asc M) :
    ∀ (s : OneScan S) (c : Cur α), Sim cops ref M s c →
      ∃ s', (ops cops ref).next s = some (c.next.current, s') ∧ Sim cops ref M s' c.next := by
  intro s c h
  cases ref with
  | none =>
    obtain ⟨h1, h2⟩ := h
    refine ⟨s, ?_, ?_⟩
    · simp only [ops, next, h2, start]
      rcases h1 with rfl | rfl <;> rfl
    · rcases h1 with rfl | rfl <;> exact ⟨Or.inr rfl, h2⟩
  | some k =>
    obtain ⟨ch, st⟩ := s
    cases st with
    | start =>
      obtain ⟨h1, rfl⟩ := h
      exact start_fresh cops k M ha ⟨ch, .start⟩ h1
    | value =>
      obtain ⟨rfl, -⟩ := h
      exact ⟨_, rfl, rfl⟩
    | finished =>
      have h : c = .at [] := h
      subst h
      exact ⟨_, rfl, rfl⟩

theorem sim_seek (cops : ScanOps S α) (ref : Option α) (M : List α) (ha : Asc M) :
    ∀ (s : OneScan S) (c : Cur α) (v : α), Sim cops ref M s c →
      ∃ s', (ops cops ref).seek s v = some ((c.seek v).current, s') ∧ Sim cops ref M s' (c.seek v) := by
  intro s c v h
  cases ref with
  | none =>
    obtain ⟨h1, h2⟩ := h
    refine ⟨s, ?_, ?_⟩
    · simp only [ops, seek]
      rcases h1 with rfl | rfl <;> rfl
    · rcases h1 with rfl | rfl <;> exact ⟨Or.inr rfl, h2⟩
  | some k =>
    obtain ⟨ch, st⟩ := s
    cases st with
    | start =>
      obtain ⟨h1, rfl⟩ := h
      by_cases hkv : k < v
      · have e : (Cur.fresh (M.filter (· = k))).seek v = .at [] := by
          rw [Cur.seek_isAt, Cur.seek_rem _ (ha.filter _)]
          congr 1
          rw [List.filter_eq_nil_iff]
          intro x hx
          have := (List.mem_filter.mp hx).2
          simp at this
          simp [this, hkv]
        rw [e]
        exact ⟨⟨ch, .finished⟩, by simp [ops, seek, hkv, Cur.current], rfl⟩
      · have e : (Cur.fresh (M.filter (· = k))).seek v = .at (M.filter (· = k)) := by
          rw [Cur.seek_isAt, Cur.seek_rem _ (ha.filter _)]
          congr 1
          simp only [Cur.rem]; rw [List.filter_eq_self]
          intro x hx
          have := (List.mem_filter.mp hx).2
          simp at this
          simp [this, not_lt.mp hkv]
        rw [e]
        obtain ⟨s', g1, g2⟩ := start_fresh cops k M ha ⟨ch, .start⟩ h1
        exact ⟨s', by simp [ops, seek, hkv, g1, Cur.current], g2⟩
    | value =>
      obtain ⟨rfl, t, h2⟩ := h
      by_cases hkv : k < v
      · have e : (Cur.at [k]).seek v = .at [] := by simp [Cur.seek, Cur.rem, hkv]
        rw [e]
        exact ⟨⟨ch, .finished⟩, by simp [ops, seek, hkv, Cur.current], rfl⟩
      · have e : (Cur.at [k]).seek v = .at [k] := by simp [Cur.seek, Cur.rem, hkv]
        rw [e]
        obtain ⟨s', g1, g2⟩ := h2.seek k
        have e2 : (Cur.at (k :: t)).seek k = .at (k :: t) := by simp [Cur.seek, Cur.rem]
        rw [e2] at g1 g2
        refine ⟨⟨s', .value⟩, ?_, rfl, t, g2⟩
        simp [ops, seek, hkv, start, g1, Cur.current]
    | finished =>
      have h : c = .at [] := h
      subst h
      exact ⟨⟨ch, .finished⟩, by simp [ops, seek, Cur.current, Cur.seek, Cur.rem], rfl⟩

theorem sim_new (cops : ScanOps S α) (ref : Option α) (M : List α) (child : S)
    (hb : Behaves cops child (.fresh M)) :
    Sim cops ref M (new child) (.fresh (M.filter (fun x => some x = ref))) := by
  cases ref with
  | none =>
    refine ⟨Or.inl ?_, rfl⟩
    congr 1
    rw [List.filter_eq_nil_iff]
    simp
  | some k => exact ⟨hb, by simp⟩

theorem behaves_new (cops : ScanOps S α) (ref : Option α) (M : List α) (ha : Asc M) (child : S)
    (hb : Behaves cops child (.fresh M)) :
    Behaves (ops cops ref) (new child) (.fresh (M.filter (fun x => some x = ref))) :=
  Behaves.of_sim (Sim cops ref M) (sim_current cops ref M) (sim_next cops ref M ha) (sim_seek cops ref M ha)
    (sim_new cops ref M child hb)

end OneScan

/-! ## Constant columns -/

/-- `ColumnScanConstant` (constant.rs:21-30) -/
structure ConstScan (α : Type) where
  const : Option α
  state : TriState

namespace ConstScan

/-- `next` (constant.rs:55-67) -/
def next (s : ConstScan α) : Option α × ConstScan α :=
  match s.state with
  | .start => (s.const, { s with state := .value })
  | .value => (none, { s with state := .finished })
  | .finished => (none, s)

/-- `seek` (constant.rs:74-85) -/
def seek (s : ConstScan α) (v : α) : Option α × ConstScan α :=
  match s.const with
  | none => (none, s)
  | some k =>
    if k < v ∨ s.state = .finished then (none, { s with state := .finished })
    else (some k, { s with state := .value })

/-- as a cursor; `current` (constant.rs:87-93) -/
def ops : ScanOps (ConstScan α) α where
  next s := some s.next
  seek s v := some (s.seek v)
  current s := match s.state with
    | .value => s.const
    | _ => none

/-- `ColumnScanConstant::new` (36-41) -/
def new (k : Option α) : ConstScan α := ⟨k, .start⟩

/-- simulation relation -/
def Sim (s : ConstScan α) (c : Cur α) : Prop :=
  match s.const with
  | none => c = .fresh [] ∨ c = .at []
  | some k => match s.state with
    | .start => c = .fresh [k]
    | .value => c = .at [k]
    | .finished => c = .at []

theorem behaves_new (k : Option α) : Behaves ops (new k) (.fresh k.toList) := by
  apply Behaves.of_sim Sim
  · rintro ⟨k, st⟩ c h
    cases k with
    | none => rcases h with rfl | rfl <;> cases st <;> rfl
    | some k => cases st <;> · cases h; rfl
  · rintro ⟨k, st⟩ c h
    cases k with
    | none => rcases h with rfl | rfl <;> cases st <;> exact ⟨_, rfl, Or.inr rfl⟩
    | some k => cases st <;> · cases h; exact ⟨_, rfl, rfl⟩
  · rintro ⟨k, st⟩ c v h
    cases k with
    | none => rcases h with rfl | rfl <;> exact ⟨_, rfl, Or.inr rfl⟩
    | some k =>
      cases st
      all_goals
        cases h
        by_cases hv : k < v <;>
          simp [ops, seek, hv, Cur.seek, Cur.rem, Cur.current, Sim]
  · cases k with
    | none => exact Or.inl rfl
    | some k => rfl

end ConstScan

/-! ## Filter by an interval -/

/-- `IntervalBoundConstant` (filter_interval.rs:34-42) -/
structure Bound (α : Type) where
  excl : Bool
  value : α
deriving DecidableEq

namespace Bound

/-- `Ord for IntervalBoundConstant` (filter_interval.rs:80-89): by value, `Inclusive < Exclusive` -/
def lt (a b : Bound α) : Prop := a.value < b.value ∨ (a.value = b.value ∧ a.excl = false ∧ b.excl = true)

instance (a b : Bound α) : Decidable (lt a b) := by unfold lt; infer_instance

/-- `max` of two bounds -/
def max (a b : Bound α) : Bound α := if lt a b then b else a

/-- `min` of two bounds -/
def min (a b : Bound α) : Bound α := if lt b a then b else a

/-- `aggregate_lower_bounds` (filter_interval.rs:173-177), `Iterator::max` -/
def maximum : List (Bound α) → Option (Bound α)
  | [] => none
  | b :: bs => some (bs.foldl max b)

/-- `aggregate_upper_bounds` (filter_interval.rs:180-184), `Iterator::min` -/
def minimum : List (Bound α) → Option (Bound α)
  | [] => none
  | b :: bs => some (bs.foldl min b)

/-- `x` satisfies the bound as a lower bound -/
def okLower (b : Bound α) (x : α) : Prop := if b.excl then b.value < x else b.value ≤ x

/-- `x` satisfies the bound as an upper bound -/
def okUpper (b : Bound α) (x : α) : Prop := if b.excl then x < b.value else x ≤ b.value

instance (b : Bound α) (x : α) : Decidable (b.okLower x) := by unfold okLower; infer_instance
instance (b : Bound α) (x : α) : Decidable (b.okUpper x) := by unfold okUpper; infer_instance

end Bound

/-- `ColumnScanState` (filter_interval.rs:13-23) -/
inductive IvState (α : Type)
  | before
  | within (upper : Option (Bound α))
  | after

/-- `ColumnScanFilterInterval` (filter_interval.rs:123-145).  `lowers` / `uppers`: the constant bounds
and the bounds read from other scans (fixed while this layer is iterated). -/
structure IntervalScan (S α : Type) where
  child : S
  lowers : List (Bound α)
  uppers : List (Bound α)
  state : IvState α

namespace IntervalScan

/-- `satisfy_lower_bound` (filter_interval.rs:214-222) -/
def satisfyLower (ops : ScanOps S α) (child : S) (b : Bound α) : Option S :=
  (ops.seek child b.value).bind fun r =>
    if b.excl = true ∧ r.1 = some b.value then (ops.next r.2).map Prod.snd else some r.2

/-- `check_upper_bound` (filter_interval.rs:224-237) -/
def checkUpper (ops : ScanOps S α) (child : S) (ub : Option (Bound α)) : Bool :=
  match ops.current child with
  | none => false
  | some x => match ub with
    | none => true
    | some b => decide (b.okUpper x)

/-- `current` (filter_interval.rs:318-324) -/
def current (ops : ScanOps S α) (s : IntervalScan S α) : Option α :=
  match s.state with
  | .within _ => ops.current s.child
  | _ => none

/-- move the value scan to the lower bound, if there is one, else call `next`
(filter_interval.rs:252-256, 293-297) -/
def moveToLower (ops : ScanOps S α) (child : S) (lb : Option (Bound α)) : Option S :=
  match lb with
  | some b => satisfyLower ops child b
  | none => (ops.next child).map Prod.snd

/-- the `Before` case of `next` and `seek` (filter_interval.rs:252-262, 293-303) -/
def enter (ops : ScanOps S α) (s : IntervalScan S α) (lb : Option (Bound α)) :
    Option (IntervalScan S α) :=
  (moveToLower ops s.child lb).map fun ch =>
    { s with
      child := ch
      state := if checkUpper ops ch (Bound.minimum s.uppers) then
        .within (Bound.minimum s.uppers) else .after }

/-- after the value scan moved in state `Within` (filter_interval.rs:267-269, 308-310) -/
def stay (ops : ScanOps S α) (s : IntervalScan S α) (ub : Option (Bound α)) (ch : S) :
    IntervalScan S α :=
  { s with child := ch, state := if checkUpper ops ch ub then .within ub else .after }

/-- `next` without the final `self.current()` (filter_interval.rs:247-272) -/
def nextState (ops : ScanOps S α) (s : IntervalScan S α) : Option (IntervalScan S α) :=
  match s.state with
  | .before => enter ops s (Bound.maximum s.lowers)
  | .within ub => (ops.next s.child).map fun r => stay ops s ub r.2
  | .after => some s

/-- `seek` without the final `self.current()` (filter_interval.rs:283-313) -/
def seekState (ops : ScanOps S α) (s : IntervalScan S α) (v : α) : Option (IntervalScan S α) :=
  match s.state with
  | .before => enter ops s ((Bound.maximum s.lowers).map fun b => b.max ⟨false, v⟩)
  | .within ub => (ops.seek s.child v).map fun r => stay ops s ub r.2
  | .after => some s

/-- as a cursor (`next` 246-275, `seek` 282-316) -/
def ops (ops : ScanOps S α) : ScanOps (IntervalScan S α) α where
  next s := (nextState ops s).map fun s' => (current ops s', s')
  seek s v := (seekState ops s v).map fun s' => (current ops s', s')
  current := current ops

/-- `ColumnScanFilterInterval::new` (153-170) -/
def new (child : S) (lowers uppers : List (Bound α)) : IntervalScan S α :=
  ⟨child, lowers, uppers, .before⟩

/-! ### proof -/

theorem okLower_max (a b : Bound α) (x : α) :
    (a.max b).okLower x ↔ a.okLower x ∧ b.okLower x := by
  unfold Bound.max
  split
  · next h =>
    constructor
    · intro hb
      refine ⟨?_, hb⟩
      unfold Bound.okLower Bound.lt at *
      rcases h with h | ⟨h1, h2, h3⟩
      · split at hb <;> split <;> order
      · simp [h3] at hb; simp [h2, h1]; exact hb.le
    · exact fun h => h.2
  · next h =>
    constructor
    · intro ha
      refine ⟨ha, ?_⟩
      unfold Bound.okLower Bound.lt at *
      simp only [not_or, not_lt, not_and] at h
      obtain ⟨h1, h2⟩ := h
      rcases lt_or_eq_of_le h1 with h1 | h1
      · split at ha <;> split <;> order
      · have h2 := h2 h1.symm
        cases hb : b.excl <;> cases ha' : a.excl <;> simp_all
        exact ha.le
    · exact fun h => h.1

theorem okLower_maximum (bs : List (Bound α)) (x : α) :
    (∀ b, Bound.maximum bs = some b → b.okLower x) ↔ ∀ b ∈ bs, b.okLower x := by
  cases bs with
  | nil => simp [Bound.maximum]
  | cons b bs =>
    simp only [Bound.maximum, Option.some.injEq, forall_eq']
    induction bs generalizing b with
    | nil => simp
    | cons b' bs ih =>
      rw [List.foldl_cons, ih]
      simp only [List.mem_cons, forall_eq_or_imp, okLower_max]
      tauto

theorem okUpper_minimum (bs : List (Bound α))
    (hc : ∀ b ∈ bs, ∀ b' ∈ bs, b.value = b'.value → b.excl = b'.excl) (x : α) :
    (∀ b, Bound.minimum bs = some b → b.okUpper x) ↔ ∀ b ∈ bs, b.okUpper x := by
  cases bs with
  | nil => simp [Bound.minimum]
  | cons b bs =>
    simp only [Bound.minimum, Option.some.injEq, forall_eq']
    induction bs generalizing b with
    | nil => simp
    | cons b' bs ih =>
      rw [List.foldl_cons, ih]
      · simp only [List.mem_cons, forall_eq_or_imp]
        have key : (b.min b').okUpper x ↔ b.okUpper x ∧ b'.okUpper x := by
          have hcc := hc b (by simp) b' (by simp)
          unfold Bound.min
          split
          · next h =>
            refine ⟨fun hb => ⟨?_, hb⟩, fun h => h.2⟩
            unfold Bound.okUpper Bound.lt at *
            rcases h with h | ⟨h1, h2, h3⟩
            · split at hb <;> split <;> order
            · have := hcc h1.symm; simp [h2, h3] at this
          · next h =>
            refine ⟨fun ha => ⟨ha, ?_⟩, fun h => h.1⟩
            unfold Bound.okUpper Bound.lt at *
            simp only [not_or, not_lt, not_and] at h
            obtain ⟨h1, h2⟩ := h
            rcases lt_or_eq_of_le h1 with h1 | h1
            · split at ha <;> split <;> order
            · have := hcc h1
              rw [← this, ← h1]; exact ha
        rw [key]; tauto
      · intro a ha a' ha'
        have : ∀ a ∈ b.min b' :: bs, a ∈ b :: b' :: bs := by
          intro a ha
          rcases List.mem_cons.mp ha with e | e
          · subst e; unfold Bound.min; split <;> simp
          · simp [e]
        exact hc a (this a ha) a' (this a' ha')

theorem satisfyLower_spec (cops : ScanOps S α) (ch : S) (c : Cur α) (hb : Behaves cops ch c)
    (ha : Asc c.rem) (b : Bound α) :
    ∃ ch', satisfyLower cops ch b = some ch' ∧
      Behaves cops ch' (.at (c.rem.filter fun x => b.okLower x)) := by
  obtain ⟨s', h1, h2⟩ := hb.seek b.value
  have hs := Cur.seek_rem c ha b.value
  have hsa := Cur.seek_asc ha b.value
  rw [Cur.seek_isAt] at h1 h2
  simp only [satisfyLower, h1, Option.bind_some]
  cases he : b.excl
  · refine ⟨s', by simp, ?_⟩
    rw [hs] at h2
    simpa [Bound.okLower, he] using h2
  · simp only [true_and]
    have hmem : ∀ x, x ∈ c.rem.filter (fun x => decide (b.okLower x)) ↔
        x ∈ (c.seek b.value).rem ∧ x ≠ b.value := by
      intro x
      rw [Cur.mem_seek ha, List.mem_filter]
      simp only [Bound.okLower, he, if_true, decide_eq_true_eq]
      constructor
      · exact fun ⟨h1, h2⟩ => ⟨⟨h1, h2.le⟩, h2.ne'⟩
      · exact fun ⟨⟨h1, h2⟩, h3⟩ => ⟨h1, lt_of_le_of_ne h2 (Ne.symm h3)⟩
    split
    · next hc =>
      obtain ⟨s2, g1, g2⟩ := h2.next
      refine ⟨s2, by rw [g1]; rfl, ?_⟩
      have : (Cur.at (c.seek b.value).rem).next =
          .at (c.rem.filter fun x => b.okLower x) := by
        simp only [Cur.next]
        congr 1
        apply asc_ext hsa.tail (ha.filter _)
        intro x
        rw [hmem]
        simp only [Cur.at_current] at hc
        cases hl : (c.seek b.value).rem with
        | nil => simp [hl] at hc
        | cons y t =>
          simp [hl] at hc
          subst hc
          rw [hl] at hsa
          simp only [List.tail_cons, List.mem_cons]
          constructor
          · intro hx
            exact ⟨Or.inr hx, fun e => absurd ((asc_cons.mp hsa).1 x hx) (by rw [e]; exact lt_irrefl _)⟩
          · rintro ⟨e | e, hne⟩
            · exact absurd e hne
            · exact e
      rw [← this]; exact g2
    · next hc =>
      refine ⟨s', rfl, ?_⟩
      have : (c.seek b.value).rem = c.rem.filter fun x => b.okLower x := by
        apply asc_ext hsa (ha.filter _)
        intro x
        rw [hmem]
        refine ⟨fun hx => ⟨hx, fun e => ?_⟩, fun hx => hx.1⟩
        subst e
        obtain ⟨t, ht⟩ := (OneScan.seek_hit ha b.value).1 ((Cur.mem_seek ha _ _).mp hx).1
        rw [ht] at hc
        exact hc rfl
      rw [← this]; exact h2

/-- values allowed by the upper bound -/
def UpOk (ub : Option (Bound α)) (x : α) : Prop := ∀ b, ub = some b → b.okUpper x

instance (ub : Option (Bound α)) (x : α) : Decidable (UpOk ub x) := by
  cases ub with
  | none => exact isTrue (by simp [UpOk])
  | some b => exact decidable_of_iff (b.okUpper x) (by simp [UpOk])

theorem checkUpper_iff (cops : ScanOps S α) (ch : S) (m : List α) (hb : Behaves cops ch (.at m))
    (ub : Option (Bound α)) : checkUpper cops ch ub = true ↔ ∃ x, m.head? = some x ∧ UpOk ub x := by
  unfold checkUpper
  rw [hb.current, Cur.at_current]
  cases m.head? with
  | none => simp
  | some x => cases ub <;> simp [UpOk]

theorem UpOk.down {ub : Option (Bound α)} {x y : α} (h : UpOk ub x) (hy : y ≤ x) : UpOk ub y := by
  intro b hb
  have := h b hb
  unfold Bound.okUpper at *
  split at this <;> split <;> order

/-- simulation relation -/
def Sim (cops : ScanOps S α) (M : List α) (lo up : List (Bound α)) (s : IntervalScan S α)
    (c : Cur α) : Prop :=
  s.lowers = lo ∧ s.uppers = up ∧
  match s.state with
  | .before => Behaves cops s.child (.fresh M) ∧
      c = .fresh (M.filter fun x => (∀ b ∈ lo, b.okLower x) ∧ UpOk (Bound.minimum up) x)
  | .within ub => ub = Bound.minimum up ∧ ∃ m, Behaves cops s.child (.at m) ∧ Asc m ∧
      c = .at (m.filter fun x => UpOk ub x) ∧ ∃ x, m.head? = some x ∧ UpOk ub x
  | .after => c = .at []

theorem settle (cops : ScanOps S α) (M : List α) (lo up : List (Bound α)) (s : IntervalScan S α)
    (hlo : s.lowers = lo) (hup : s.uppers = up) (ch : S) (m : List α) (ha : Asc m)
    (hb : Behaves cops ch (.at m)) :
    let s' : IntervalScan S α := { s with
      child := ch
      state := if checkUpper cops ch (Bound.minimum up) then .within (Bound.minimum up) else .after }
    current cops s' = (m.filter fun x => UpOk (Bound.minimum up) x).head? ∧
      Sim cops M lo up s' (.at (m.filter fun x => UpOk (Bound.minimum up) x)) := by
  intro s'
  by_cases hc : checkUpper cops ch (Bound.minimum up) = true
  · have hs : s' = { s with child := ch, state := .within (Bound.minimum up) } := by
      simp [s', hc]
    obtain ⟨x, hx, hux⟩ := (checkUpper_iff cops ch m hb _).mp hc
    rw [hs]
    refine ⟨?_, hlo, hup, rfl, m, hb, ha, rfl, x, hx, hux⟩
    simp only [current, hb.current, Cur.at_current, hx]
    cases m with
    | nil => simp at hx
    | cons y t => simp at hx; subst hx; simp [hux]
  · have hs : s' = { s with child := ch, state := .after } := by simp [s', hc]
    rw [hs]
    have : m.filter (fun x => decide (UpOk (Bound.minimum up) x)) = [] := by
      cases m with
      | nil => rfl
      | cons y t =>
        have hy : ¬ UpOk (Bound.minimum up) y := fun h =>
          hc ((checkUpper_iff cops ch _ hb _).mpr ⟨y, rfl, h⟩)
        rw [List.filter_eq_nil_iff]
        intro x hx hxu
        simp at hxu
        rcases List.mem_cons.mp hx with e | e
        · exact hy (e ▸ hxu)
        · exact hy (hxu.down ((asc_cons.mp ha).1 x e).le)
    rw [this]
    exact ⟨rfl, hlo, hup, rfl⟩

/-- simulation of `seek` needs a lower bound, see `C06_interval_seek_ignored` -/
theorem behaves_new (cops : ScanOps S α) (M : List α) (ha : Asc M) (child : S)
    (hb : Behaves cops child (.fresh M)) (lo up : List (Bound α)) (hlo : lo ≠ [])
    (hup : ∀ b ∈ up, ∀ b' ∈ up, b.value = b'.value → b.excl = b'.excl) :
    Behaves (ops cops) (new child lo up)
      (.fresh (M.filter fun x => (∀ b ∈ lo, b.okLower x) ∧ (∀ b ∈ up, b.okUpper x))) := by
  have hu : ∀ x, UpOk (Bound.minimum up) x ↔ ∀ b ∈ up, b.okUpper x :=
    fun x => okUpper_minimum up hup x
  obtain ⟨lb, hlb⟩ : ∃ lb, Bound.maximum lo = some lb := by
    cases lo with
    | nil => exact absurd rfl hlo
    | cons b bs => exact ⟨_, rfl⟩
  have hl : ∀ x, lb.okLower x ↔ ∀ b ∈ lo, b.okLower x := by
    intro x
    rw [← okLower_maximum, hlb]; simp
  apply Behaves.of_sim (Sim cops M lo up)
  · rintro ⟨ch, l, u, st⟩ c ⟨h1, h2, h3⟩
    cases st with
    | before => obtain ⟨_, rfl⟩ := h3; rfl
    | within ub =>
      obtain ⟨_, m, g1, g2, rfl, x, hx, hux⟩ := h3
      simp only [ops, current, g1.current, Cur.at_current, hx]
      cases m with
      | nil => simp at hx
      | cons y t => simp at hx; subst hx; simp [hux]
    | after => have h3 : c = .at [] := h3; subst h3; rfl
  · rintro ⟨ch, l, u, st⟩ c ⟨h1, h2, h3⟩
    simp only at h1 h2
    subst h1 h2
    cases st with
    | before =>
      obtain ⟨g1, rfl⟩ := h3
      obtain ⟨ch', e1, e2⟩ := satisfyLower_spec cops ch _ g1 ha lb
      have := settle cops M l u ⟨ch, l, u, .before⟩ rfl rfl ch' _ (ha.filter _) e2
      simp only [List.filter_filter, Cur.rem] at this
      have e3 : M.filter (fun x => decide (UpOk (Bound.minimum u) x) && decide (lb.okLower x)) =
          M.filter (fun x => (∀ b ∈ l, b.okLower x) ∧ UpOk (Bound.minimum u) x) := by
        apply List.filter_congr
        intro x _
        simp [← hl, Bool.and_comm]
      rw [e3] at this
      refine ⟨_, ?_, this.2⟩
      simp only [ops, nextState, enter, moveToLower, hlb, e1, Option.map_some, Cur.next,
        Cur.at_current, this.1]
    | within ub =>
      obtain ⟨rfl, m, g1, g2, rfl, x, hx, hux⟩ := h3
      obtain ⟨ch', e1, e2⟩ := g1.next
      have := settle cops M l u ⟨ch, l, u, .within (Bound.minimum u)⟩ rfl rfl ch' _ g2.tail e2
      have e3 : (Cur.at (m.filter fun x => UpOk (Bound.minimum u) x)).next =
          .at (m.tail.filter fun x => UpOk (Bound.minimum u) x) := by
        cases m with
        | nil => rfl
        | cons y t => simp at hx; subst hx; simp [Cur.next, hux]
      rw [e3]
      refine ⟨_, ?_, this.2⟩
      simp only [ops, nextState, stay, e1, Option.map_some, Cur.next, Cur.at_current, this.1]
    | after =>
      have h3 : c = .at [] := h3
      subst h3
      exact ⟨⟨ch, l, u, .after⟩, rfl, rfl, rfl, rfl⟩
  · rintro ⟨ch, l, u, st⟩ c v ⟨h1, h2, h3⟩
    simp only at h1 h2
    subst h1 h2
    cases st with
    | before =>
      obtain ⟨g1, rfl⟩ := h3
      obtain ⟨ch', e1, e2⟩ := satisfyLower_spec cops ch _ g1 ha (lb.max ⟨false, v⟩)
      have := settle cops M l u ⟨ch, l, u, .before⟩ rfl rfl ch' _ (ha.filter _) e2
      simp only [List.filter_filter, Cur.rem] at this
      have e3 : (Cur.fresh (M.filter
          (fun x => (∀ b ∈ l, b.okLower x) ∧ UpOk (Bound.minimum u) x))).seek v =
          .at (M.filter (fun x => decide (UpOk (Bound.minimum u) x) &&
            decide ((lb.max ⟨false, v⟩).okLower x))) := by
        rw [Cur.seek_isAt, Cur.seek_rem _ (ha.filter _)]
        simp only [Cur.rem, List.filter_filter]
        congr 1
        apply List.filter_congr
        intro x _
        rw [Bool.eq_iff_iff]
        simp only [Bool.and_eq_true, decide_eq_true_eq, okLower_max, ← hl]
        simp only [Bound.okLower, Bool.false_eq_true, if_false]
        tauto
      rw [e3]
      refine ⟨_, ?_, this.2⟩
      simp only [ops, seekState, enter, moveToLower, hlb, e1, Option.map_some,
        Cur.at_current, this.1]
    | within ub =>
      obtain ⟨rfl, m, g1, g2, rfl, x, hx, hux⟩ := h3
      obtain ⟨ch', e1, e2⟩ := g1.seek v
      rw [Cur.seek_isAt, Cur.seek_rem _ g2] at e2
      have := settle cops M l u ⟨ch, l, u, .within (Bound.minimum u)⟩ rfl rfl ch' _
        (g2.filter _) e2
      have e3 : (Cur.at (m.filter fun x => UpOk (Bound.minimum u) x)).seek v =
          .at (((Cur.at m).rem.filter (v ≤ ·)).filter fun x => UpOk (Bound.minimum u) x) := by
        rw [Cur.seek_isAt, Cur.seek_rem _ (g2.filter _)]
        simp only [Cur.rem, List.filter_filter]
        congr 1
        apply List.filter_congr
        intro x _
        exact Bool.and_comm _ _
      rw [e3]
      refine ⟨_, ?_, this.2⟩
      simp only [ops, seekState, stay, e1, Option.map_some, Cur.at_current, this.1, Cur.rem]
    | after =>
      have h3 : c = .at [] := h3
      subst h3
      exact ⟨⟨ch, l, u, .after⟩, rfl, rfl, rfl, rfl⟩
  · refine ⟨rfl, rfl, hb, ?_⟩
    congr 1
    apply List.filter_congr
    intro x _
    simp [hu]

end IntervalScan

/-! ## Pass -/

/-- `ColumnScanPass` (pass.rs:9-58) forwards every call to the scan it refers to. -/
def passOps (ops : ScanOps S α) : ScanOps S α where
  next := ops.next
  seek := ops.seek
  current := ops.current

end Verif
