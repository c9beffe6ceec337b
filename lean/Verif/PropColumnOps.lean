import Verif.ColumnFilter
import Verif.ColumnVector
import Mathlib.Data.Fin.VecNotation

/-!
# Properties C03–C06: column operators compute set operations

Inputs are arbitrary cursors of which only the cursor contract is assumed (`Behaves`, see
`Verif.Cursor`), in particular plain columns (`VecScan.behaves_new`), constant columns, and the
operators themselves, so the theorems compose to operator trees.
-/

set_option linter.unusedSimpArgs false

namespace Verif
variable {S α : Type} [LinearOrder α]

/-- plain vector columns meet the cursor contract the operators assume -/
theorem VecScan.behaves_new (l : List α) (h : Asc l) :
    Behaves VecScan.ops (VecScan.new l) (.fresh l) := by
  refine Behaves.of_sim (VecScan.Sim l 0 l.length)
    (fun s c h => VecScan.sim_current (le_refl _) s c h)
    (fun s c h => VecScan.sim_next (le_refl _) s c h)
    (fun s c v hh => VecScan.sim_seek (le_refl _) ?_ s c v hh) ?_
  · rw [slice_full]; exact h.imp (fun h => le_of_lt h)
  · exact ⟨rfl, rfl, rfl, .inl ⟨rfl, .inl (by rw [slice_full])⟩⟩

/-! ## C03 -/

/-- **C03** Over any positive number of ascending inputs, the join answers every mixture of `next`,
`seek` and `current` calls like a cursor over the ascending list of the common values (so no call
panics or loops), and plain iteration returns exactly that list. -/
theorem C03_join {n : Nat} (cops : ScanOps S α) (hn : 0 < n) (scans : Fin n → S)
    (L : Fin n → List α) (hb : ∀ j, Behaves cops (scans j) (.fresh (L j))) (ha : ∀ j, Asc (L j)) :
    ∃ l, Asc l ∧ (∀ x, x ∈ l ↔ ∀ j, x ∈ L j) ∧
      Behaves (JoinScan.ops cops) (JoinScan.new scans hn) (.fresh l) ∧
      collect (JoinScan.ops cops) (l.length + 1) (JoinScan.new scans hn) = some l := by
  let l := (L ⟨0, hn⟩).filter fun x => ∀ j, x ∈ L j
  have hl : Asc l := (ha _).filter _
  have hm : ∀ x, x ∈ l ↔ ∀ j, x ∈ L j := by
    intro x
    simp only [l, List.mem_filter, decide_eq_true_eq]
    exact ⟨fun h => h.2, fun h => ⟨h _, h⟩⟩
  have := JoinScan.behaves_new cops hn scans L hb ha l hl hm
  exact ⟨l, hl, hm, this, this.collect_fresh⟩

/-- non-vacuity: three vector columns meet the hypotheses -/
example : ∃ (scans : Fin 3 → VecScan Nat) (L : Fin 3 → List Nat),
    (∀ j, Behaves VecScan.ops (scans j) (.fresh (L j))) ∧ (∀ j, Asc (L j)) ∧
    (∀ j, 4 ∈ L j) ∧ ¬ (∀ j, 7 ∈ L j) := by
  let L : Fin 3 → List Nat := ![[1, 4, 7, 9], [2, 4, 9], [4, 5, 7, 9, 10]]
  have ha : ∀ j, Asc (L j) := by decide
  exact ⟨fun j => VecScan.new (L j), L, fun j => VecScan.behaves_new _ (ha j), ha, by decide,
    by decide⟩

/-! ## C04 -/

/-- **C04** The union of the active inputs answers every mixture of calls like a cursor over the
ascending list of values occurring in some active input; and after every sequence of calls that ends
on a value, the reported inputs are exactly the active inputs that contain this value. -/
theorem C04_union {n : Nat} (cops : ScanOps S α) (scans : Fin n → S) (act : List (Fin n))
    (hnd : act.Nodup) (L : Fin n → List α)
    (hb : ∀ i ∈ act, Behaves cops (scans i) (.fresh (L i))) (ha : ∀ i ∈ act, Asc (L i))
    (l : List α) (hl : Asc l) (hmem : ∀ x, x ∈ l ↔ ∃ i ∈ act, x ∈ L i) :
    Behaves (UnionScan.ops cops) (UnionScan.new scans act) (.fresh l) ∧
    ∀ t : List (Call α), ∃ s', exec (UnionScan.ops cops) (UnionScan.new scans act) t = some s' ∧
      ∀ v, (specExec (.fresh l) t).current = some v →
        s'.smallest.Nodup ∧ ∀ i, i ∈ s'.smallest ↔ i ∈ act ∧ v ∈ L i := by
  refine ⟨UnionScan.behaves_new cops scans act hnd L hb ha l hl hmem, fun t => ?_⟩
  obtain ⟨s', h1, h2⟩ := exec_of_sim (UnionScan.Sim cops L act) (UnionScan.sim_next cops L act)
    (UnionScan.sim_seek cops L act) (UnionScan.sim_new cops scans act hnd L hb ha l hl hmem) t
  refine ⟨s', h1, fun v hv => ?_⟩
  rw [h2.smallest hv]
  exact ⟨hnd.filter _, fun i => by simp⟩

/-- such a list always exists, so C04 says something for all inputs -/
theorem union_list_exists {n : Nat} (act : List (Fin n)) (L : Fin n → List α) :
    ∃ l, Asc l ∧ ∀ x, x ∈ l ↔ ∃ i ∈ act, x ∈ L i := by
  suffices h : ∀ m : List α, ∃ l, Asc l ∧ ∀ x, x ∈ l ↔ x ∈ m by
    obtain ⟨l, h1, h2⟩ := h (act.flatMap L)
    exact ⟨l, h1, fun x => by rw [h2]; simp⟩
  intro m
  induction m with
  | nil => exact ⟨[], by simp, by simp⟩
  | cons a m ih =>
    obtain ⟨l, h1, h2⟩ := ih
    refine ⟨l.filter (· < a) ++ a :: l.filter (a < ·), ?_, ?_⟩
    · refine List.pairwise_append.mpr ⟨h1.filter _, ?_, ?_⟩
      · rw [List.pairwise_cons]
        exact ⟨by simp, h1.filter _⟩
      · intro x hx y hy
        simp at hx hy
        rcases hy with rfl | hy
        · exact hx.2
        · exact hx.2.trans hy.2
    · intro x
      simp only [List.mem_append, List.mem_filter, List.mem_cons, decide_eq_true_eq, ← h2]
      rcases lt_trichotomy x a with h | h | h
      · simp [h, h.ne, h.not_gt]
      · simp [h]
      · simp [h, h.ne', h.not_gt]

/-- non-vacuity: two of three columns active -/
example : ∃ (scans : Fin 3 → VecScan Nat) (L : Fin 3 → List Nat) (act : List (Fin 3)) (l : List Nat),
    act.Nodup ∧ (∀ i ∈ act, Behaves VecScan.ops (scans i) (.fresh (L i))) ∧
    (∀ i ∈ act, Asc (L i)) ∧ Asc l ∧ (∀ x, x ∈ l ↔ ∃ i ∈ act, x ∈ L i) ∧ l ≠ [] := by
  let L : Fin 3 → List Nat := ![[1, 4, 7, 9], [2, 4, 9], [4, 5, 7, 9, 10]]
  have ha : ∀ j, Asc (L j) := by decide
  obtain ⟨l, h1, h2⟩ := union_list_exists [0, 2] L
  refine ⟨fun j => VecScan.new (L j), L, [0, 2], l, by decide,
    fun j _ => VecScan.behaves_new _ (ha j), fun j _ => ha j, h1, h2, ?_⟩
  rintro rfl
  have := (h2 1).mpr ⟨0, by decide, by decide⟩
  simp at this

/-! ## C05 -/

/-- **C05** The subtraction answers every mixture of calls like a cursor over the values of the main
input that occur in no active subtracted input; after every call sequence that ends on a value `v`,
the equality flag of a followed input says whether it is active and contains `v`, and the flag of
every subtracted input is off; the flag of an input without a column here is that of the layer above. -/
theorem C05_subtract {n : Nat} (cops : ScanOps S α) (main : S) (followers : Fin n → Option S)
    (sidx fidx : List (Fin n)) (active equal : Fin n → Bool) (M : List α) (L : Fin n → List α)
    (hnd : fidx.Nodup) (hdis : ∀ j ∈ fidx, j ∉ sidx)
    (hb : Behaves cops main (.fresh M)) (ha : Asc M)
    (hf : ∀ j ∈ sidx ++ fidx, active j = true → ∃ f, followers j = some f ∧
      Behaves cops f (.fresh (L j)) ∧ Asc (L j)) :
    let s : SubScan n S α := SubScan.new main followers sidx fidx active equal
    let l := M.filter fun x => ∀ j ∈ sidx, active j = true → x ∉ L j
    Behaves (SubScan.ops cops) s (.fresh l) ∧
    ∀ t : List (Call α), ∃ s', exec (SubScan.ops cops) s t = some s' ∧
      ∀ v, (specExec (.fresh l) t).current = some v →
        (∀ j ∈ fidx, s'.equal j = true ↔ active j = true ∧ v ∈ L j) ∧
        (∀ j ∈ sidx, s'.equal j = false) ∧
        (∀ j, j ∉ sidx → j ∉ fidx → s'.equal j = active j) := by
  intro s l
  have h0 := SubScan.sim_new cops ⟨sidx, fidx, active, L⟩ main followers equal M hnd hdis hb ha hf
  refine ⟨?_, fun t => ?_⟩
  · exact Behaves.of_sim (SubScan.Sim cops ⟨sidx, fidx, active, L⟩) (fun _ _ h => h.cur)
      (SubScan.sim_next cops _) (SubScan.sim_seek cops _) h0
  · obtain ⟨s', h1, h2⟩ := exec_of_sim (SubScan.Sim cops ⟨sidx, fidx, active, L⟩)
      (SubScan.sim_next cops _) (SubScan.sim_seek cops _) h0 t
    refine ⟨s', h1, fun v hv => ?_⟩
    obtain ⟨cm, -, -, -, -, -, hat⟩ := h2.ex
    cases hc : specExec (.fresh l) t with
    | fresh l' => rw [hc] at hv; simp [Cur.current] at hv
    | «at» l' =>
      rw [hc] at hv
      obtain ⟨-, h3⟩ := hat l' hc
      obtain ⟨h4, h5, h6, -⟩ := h3 v hv
      exact ⟨fun j hj => by rw [h5 j hj]; simp, h4, h6⟩

/-- non-vacuity: one subtracted and one followed input -/
example : ∃ (main : VecScan Nat) (followers : Fin 2 → Option (VecScan Nat)) (M : List Nat)
    (L : Fin 2 → List Nat), Behaves VecScan.ops main (.fresh M) ∧ Asc M ∧
    (∀ j ∈ [0] ++ [1], (true : Bool) = true → ∃ f, followers j = some f ∧
      Behaves VecScan.ops f (.fresh (L j)) ∧ Asc (L j)) ∧
    (M.filter fun x => ∀ j ∈ [(0 : Fin 2)], true = true → x ∉ L j) = [1, 7] := by
  let L : Fin 2 → List Nat := ![[2, 4, 9], [4, 5, 7, 9, 10]]
  have ha : ∀ j, Asc (L j) := by decide
  exact ⟨VecScan.new [1, 4, 7, 9], fun j => some (VecScan.new (L j)), [1, 4, 7, 9], L,
    VecScan.behaves_new _ (by decide), by decide,
    fun j _ _ => ⟨_, rfl, VecScan.behaves_new _ (ha j), ha j⟩, by decide⟩

/-! ## C06 -/

/-- **C06**, equality with a constant (`filter_constant.rs`) or with the current value of a reference
column (`filter_equal.rs`; `none`: the reference has no value). -/
theorem C06_filter_equal (cops : ScanOps S α) (ref : Option α) (M : List α) (ha : Asc M) (child : S)
    (hb : Behaves cops child (.fresh M)) :
    Behaves (OneScan.ops cops ref) (OneScan.new child)
      (.fresh (M.filter fun x => some x = ref)) :=
  OneScan.behaves_new cops ref M ha child hb

/-- **C06**, constant columns (`constant.rs`). -/
theorem C06_constant (k : Option α) : Behaves ConstScan.ops (ConstScan.new k) (.fresh k.toList) :=
  ConstScan.behaves_new k

/-- Answers agree, except that `current` may be anything once the specified cursor has no value. -/
def AgreesUpToStale (t : List (Call α)) (impl spec : List (Option α)) : Prop :=
  impl.length = spec.length ∧
  ∀ i : Nat, i < t.length → impl[i]? = spec[i]? ∨ (t[i]? = some .current ∧ spec[i]? = some none)

/-- **C06**, filter by a condition (`filter.rs`), *partial*: every answer to `next` and `seek`, and
every answer to `current` that should be a value, is right. Missing: `current` after the filter was
exhausted; there it can be wrong, see `C06_filter_stale_current`. -/
theorem C06_filter_partial (cops : ScanOps S α) (check : α → Bool) (M : List α) (ha : Asc M)
    (child : S) (hb : Behaves cops child (.fresh M)) (t : List (Call α)) :
    ∃ r, run (FilterScan.ops cops check) (FilterScan.new child) t = some r ∧
      AgreesUpToStale t r (specRun (.fresh (M.filter check)) t) := by
  have key : ∀ (t : List (Call α)) (s : FilterScan S α) (c : Cur α), FilterScan.Sim cops check s c →
      ∃ r, run (FilterScan.ops cops check) s t = some r ∧ AgreesUpToStale t r (specRun c t) := by
    intro t
    induction t with
    | nil => exact fun s c h => ⟨[], rfl, rfl, by simp⟩
    | cons a t ih =>
      intro s c h
      have lift : ∀ (o o' : Option α) (r sp : List (Option α)), AgreesUpToStale t r sp →
          (o = o' ∨ (a = .current ∧ o' = none)) →
          AgreesUpToStale (a :: t) (o :: r) (o' :: sp) := by
        intro o o' r sp ⟨h1, h2⟩ h3
        refine ⟨by simp [h1], fun i hi => ?_⟩
        cases i with
        | zero => simpa using h3
        | succ i => simpa using h2 i (by simpa using hi)
      cases a with
      | next =>
        obtain ⟨s', h1, h2⟩ := FilterScan.sim_next cops check s c h
        obtain ⟨r, h3, h4⟩ := ih s' _ h2
        exact ⟨_, by simp [run, h1, h3], lift _ _ _ _ h4 (.inl rfl)⟩
      | seek v =>
        obtain ⟨s', h1, h2⟩ := FilterScan.sim_seek cops check s c v h
        obtain ⟨r, h3, h4⟩ := ih s' _ h2
        exact ⟨_, by simp [run, h1, h3], lift _ _ _ _ h4 (.inl rfl)⟩
      | current =>
        obtain ⟨r, h3, h4⟩ := ih s c h
        refine ⟨s.cur :: r, by simp only [run, h3]; rfl, lift _ _ _ _ h4 ?_⟩
        by_cases hc : c = .at []
        · exact .inr ⟨rfl, by rw [hc]; rfl⟩
        · exact .inl (h.cur hc)
  exact key t _ _ (FilterScan.sim_new cops check child M hb ha)

/-- iterating a filter returns exactly the matching values -/
theorem C06_filter_iterate (cops : ScanOps S α) (check : α → Bool) (M : List α) (ha : Asc M)
    (child : S) (hb : Behaves cops child (.fresh M)) :
    collect (FilterScan.ops cops check) ((M.filter check).length + 1) (FilterScan.new child) =
      some (M.filter check) := by
  have key : ∀ (l : List α) (s : FilterScan S α), FilterScan.Sim cops check s (.at l) → ∀ x t,
      l = x :: t → collect (FilterScan.ops cops check) (t.length + 1) s = some t := by
    intro l
    induction l with
    | nil => intro s _ x t h; simp at h
    | cons y l ih =>
      intro s h x t e
      injection e with e1 e2
      subst e1 e2
      obtain ⟨s', h1, h2⟩ := FilterScan.sim_next cops check s _ h
      cases l with
      | nil => simp [collect, h1, Cur.next, Cur.current]
      | cons z l =>
        rw [List.length_cons, collect]
        simp only [h1, Cur.next, Cur.current, List.tail_cons, List.head?_cons,
          Option.bind_eq_bind, Option.bind_some]
        rw [ih s' h2 z l rfl]; rfl
  obtain ⟨s', h1, h2⟩ := FilterScan.sim_next cops check _ _
    (FilterScan.sim_new cops check child M hb ha)
  cases hl : M.filter check with
  | nil => rw [hl] at h1; simp [collect, h1, Cur.next, Cur.current]
  | cons z l =>
    rw [hl] at h1 h2
    rw [List.length_cons, collect]
    simp only [h1, Cur.next, Cur.current, List.head?_cons, Option.bind_eq_bind, Option.bind_some]
    rw [key _ s' h2 z l rfl]; rfl

/-- non-vacuity: the hypotheses hold for a vector column -/
example : Behaves VecScan.ops (VecScan.new [1, 4, 7, 9]) (.fresh [1, 4, 7, 9]) ∧
    Asc ([1, 4, 7, 9] : List Nat) := ⟨VecScan.behaves_new _ (by decide), by decide⟩

/-- **C06 fails for `current`**: after a `seek` that runs off the end (filter.rs:101 returns early)
the filter still reports its previous value. -/
theorem C06_filter_stale_current :
    run (FilterScan.ops VecScan.ops fun _ => true) (FilterScan.new (VecScan.new [1, 2]))
      [.next, .seek 5, .current] = some [some 1, none, some (1 : Nat)] := by
  have h1 : VecScan.ops.next (VecScan.new [1, 2]) = some (some 1, ⟨[1, 2], some 0, 0, 2⟩) := rfl
  have h2 : VecScan.ops.seek ⟨[1, 2], some 0, 0, 2⟩ 5 = some (none, ⟨[1, 2], some 2, 0, 2⟩) := rfl
  simp only [run, FilterScan.ops, FilterScan.seek, FilterScan.new]
  rw [FilterScan.findNext, h1]
  simp [FilterScan.store, h2]

/-- Consequence for a union over filters: the union reports `1` *after* it has already passed it. The
engine never builds a union over filters, so this cannot be observed by users of the engine. -/
theorem C06_filter_union_backwards :
    run (UnionScan.ops (FilterScan.ops VecScan.ops fun _ => true))
      (UnionScan.new ![FilterScan.new (VecScan.new [1, 2]), FilterScan.new (VecScan.new [6, 7])] [0, 1])
      [.next, .seek 5, .next] = some [some 1, some 6, some (1 : Nat)] := by
  have h1 : VecScan.ops.next (VecScan.new [1, 2]) = some (some 1, ⟨[1, 2], some 0, 0, 2⟩) := rfl
  have h2 : VecScan.ops.seek ⟨[1, 2], some 0, 0, 2⟩ 5 = some (none, ⟨[1, 2], some 2, 0, 2⟩) := rfl
  have h3 : VecScan.ops.next (VecScan.new [6, 7]) = some (some 6, ⟨[6, 7], some 0, 0, 2⟩) := rfl
  have h4 : VecScan.ops.seek ⟨[6, 7], some 0, 0, 2⟩ 5 = some (some 6, ⟨[6, 7], some 0, 0, 2⟩) := rfl
  have h5 : VecScan.ops.next ⟨[6, 7], some 0, 0, 2⟩ = some (some 7, ⟨[6, 7], some 1, 0, 2⟩) := rfl
  have f1 : FilterScan.findNext VecScan.ops (fun _ => true) (VecScan.new [1, 2]) =
      some (some 1, ⟨[1, 2], some 0, 0, 2⟩) := by rw [FilterScan.findNext, h1]; rfl
  have f3 : FilterScan.findNext VecScan.ops (fun _ => true) (VecScan.new [6, 7]) =
      some (some 6, ⟨[6, 7], some 0, 0, 2⟩) := by rw [FilterScan.findNext, h3]; rfl
  have f5 : FilterScan.findNext VecScan.ops (fun _ => true) ⟨[6, 7], some 0, 0, 2⟩ =
      some (some 7, ⟨[6, 7], some 1, 0, 2⟩) := by rw [FilterScan.findNext, h5]; rfl
  simp [run, UnionScan.ops, UnionScan.new, UnionScan.pass, UnionScan.nextProbe, UnionScan.finish,
    UnionScan.lower, UnionScan.note, UnionScan.clears, FilterScan.ops, FilterScan.seek,
    FilterScan.new, FilterScan.store, f1, f3, f5, h2, h4]

/-- **C06**, interval filter (`filter_interval.rs`), *partial*: needs at least one lower bound and no
inclusive and exclusive upper bound with the same value. Without these guards the statement is false,
see `C06_interval_seek_ignored` and `C06_interval_min_bound`. (The interval filter is only used by its
own tests.) -/
theorem C06_interval_partial (cops : ScanOps S α) (M : List α) (ha : Asc M) (child : S)
    (hb : Behaves cops child (.fresh M)) (lo up : List (Bound α)) (hlo : lo ≠ [])
    (hup : ∀ b ∈ up, ∀ b' ∈ up, b.value = b'.value → b.excl = b'.excl) :
    Behaves (IntervalScan.ops cops) (IntervalScan.new child lo up)
      (.fresh (M.filter fun x => (∀ b ∈ lo, b.okLower x) ∧ (∀ b ∈ up, b.okUpper x))) :=
  IntervalScan.behaves_new cops M ha child hb lo up hlo hup

/-- non-vacuity: `2 < x`, `3 ≤ x`, `x ≤ 8`, `x < 9` -/
example : ([⟨true, 2⟩, ⟨false, 3⟩] : List (Bound Nat)) ≠ [] ∧
    (∀ b ∈ ([⟨false, 8⟩, ⟨true, 9⟩] : List (Bound Nat)), ∀ b' ∈ ([⟨false, 8⟩, ⟨true, 9⟩] : List (Bound Nat)),
      b.value = b'.value → b.excl = b'.excl) ∧
    (([1, 2, 3, 5, 8, 9] : List Nat).filter fun x =>
      (∀ b ∈ ([⟨true, 2⟩, ⟨false, 3⟩] : List (Bound Nat)), b.okLower x) ∧
      (∀ b ∈ ([⟨false, 8⟩, ⟨true, 9⟩] : List (Bound Nat)), b.okUpper x)) = [3, 5, 8] := by
  decide

/-- **C06 fails for the interval filter without lower bound**: the first `seek` behaves like `next`
(filter_interval.rs:296). -/
theorem C06_interval_seek_ignored :
    run (IntervalScan.ops VecScan.ops) (IntervalScan.new (VecScan.new [1, 2, 3]) [] [])
      [.seek 3] = some [some (1 : Nat)] := by
  decide +kernel

/-- **C06 fails for the interval filter with bounds `x ≤ 2` and `x < 2`**: the weaker one is used
(filter_interval.rs:180-184). -/
theorem C06_interval_min_bound :
    run (IntervalScan.ops VecScan.ops)
      (IntervalScan.new (VecScan.new [1, 2, 3]) [] [⟨false, 2⟩, ⟨true, 2⟩])
      [.next, .next] = some [some 1, some (2 : Nat)] := by
  decide +kernel

end Verif
