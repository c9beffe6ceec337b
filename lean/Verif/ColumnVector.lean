import Verif.Cursor

/-!
# Plain vector columns

Model of `/repo/nemo-physical/src/columnar/column/vector.rs`.
-/

set_option linter.unusedSimpArgs false
set_option linter.unusedSectionVars false

namespace Verif

/-- `ColumnScanVector` (vector.rs:61-66): the column, the position and the interval
(`Range<usize>`, here `start`, `stop`). -/
structure VecScan (α : Type) where
  data : List α
  pos : Option Nat
  start : Nat
  stop : Nat

/-- `usize` subtraction that panics on underflow. -/
def usub (a b : Nat) : Option Nat := if b ≤ a then some (a - b) else none

namespace VecScan
variable {α : Type} [LinearOrder α]

/-- `ColumnScanVector::new` (vector.rs:76-82). -/
def new (data : List α) : VecScan α := ⟨data, none, 0, data.length⟩

/-- `narrow` (vector.rs:170-174) with the assertion of `validate_interval` (vector.rs:84-89). -/
def narrow (s : VecScan α) (a b : Nat) : Option (VecScan α) :=
  if b ≤ s.data.length then some { s with pos := none, start := a, stop := b } else none

/-- `reset` (vector.rs:161-163). -/
def reset (s : VecScan α) : VecScan α := { s with pos := none }

/-- `current` (vector.rs:156-159). -/
def current (s : VecScan α) : Option α :=
  s.pos.bind fun p => if p < s.stop then s.data[p]? else none

/-- `pos` (vector.rs:165-168). -/
def position (s : VecScan α) : Option Nat :=
  s.pos.bind fun p => if p < s.stop then some p else none

/-- `Iterator::next` (vector.rs:98-102). Indexing out of bounds panics (`none`). -/
def next (s : VecScan α) : Option (Option α × VecScan α) :=
  let pos := match s.pos with | none => s.start | some p => p + 1
  let s' := { s with pos := some pos }
  if pos < s.stop then do
    let x ← s.data[pos]?
    return (some x, s')
  else return (none, s')

/-- The binary search loop of `seek` (vector.rs:134-141), `SEEK_BINARY_SEARCH = 10`. -/
def binLoop (data : List α) (v : α) (lower upper : Nat) : Option (Nat × Nat) := do
  let d ← usub upper lower
  if 10 ≤ d then do
    let mid := (lower + upper) / 2
    let x ← data[mid]?
    if x < v then binLoop data v (mid + 1) upper else binLoop data v lower mid
  else return (lower, upper)
partial_fixpoint

/-- The linear scan loop of `seek` (vector.rs:145-147). -/
def linLoop (data : List α) (v : α) (pos upper : Nat) : Option Nat :=
  if pos ≤ upper then do
    let x ← data[pos]?
    if x < v then linLoop data v (pos + 1) upper else return pos
  else return pos
partial_fixpoint

/-- `seek` (vector.rs:109-154). -/
def seek (s : VecScan α) (v : α) : Option (Option α × VecScan α) :=
  if s.stop = 0 then return (none, s) else
  let lower := s.pos.getD s.start
  let s := { s with pos := some lower }
  let upper := s.stop - 1
  if upper < lower then return (none, s) else do
  let xu ← s.data[upper]?
  if xu < v then return (none, { s with pos := some s.data.length }) else
  let xl ← s.data[lower]?
  if v ≤ xl then return (some xl, { s with pos := some lower }) else
  let (lower, upper) ← binLoop s.data v lower upper
  let pos ← linLoop s.data v lower upper
  let s := { s with pos := some pos }
  if upper < pos then return (none, s) else
  let x ← s.data[pos]?
  return (some x, s)

/-- The vector scan as a cursor implementation. -/
def ops : ScanOps (VecScan α) α := ⟨next, seek, current⟩

end VecScan

/-- the elements at positions `a ≤ i < b` -/
def slice {α : Type} (l : List α) (a b : Nat) : List α := (l.take b).drop a

theorem slice_nil {α : Type} {l : List α} {a b : Nat} (h : b ≤ a) : slice l a b = [] := by
  simp [slice]; omega

theorem slice_cons {α : Type} {l : List α} {a b : Nat} (h : a < b) (hb : b ≤ l.length) :
    slice l a b = l[a] :: slice l (a + 1) b := by
  unfold slice
  rw [List.drop_eq_getElem_cons (by simp; omega)]
  simp

theorem slice_tail {α : Type} {l : List α} {a b : Nat} (hb : b ≤ l.length) :
    (slice l a b).tail = slice l (a + 1) b := by
  by_cases h : a < b
  · rw [slice_cons h hb]; rfl
  · rw [slice_nil (by omega), slice_nil (by omega)]; rfl

theorem slice_head {α : Type} {l : List α} {a b : Nat} (hb : b ≤ l.length) :
    (slice l a b).head? = if a < b then l[a]? else none := by
  by_cases h : a < b
  · rw [slice_cons h hb]; simp [h]
  · rw [slice_nil (by omega)]; simp [h]

theorem mem_slice {α : Type} {l : List α} {a b : Nat} {x : α} :
    x ∈ slice l a b ↔ ∃ i, a ≤ i ∧ i < b ∧ l[i]? = some x := by
  unfold slice
  constructor
  · intro h
    obtain ⟨i, hi⟩ := List.mem_iff_getElem?.mp h
    rw [List.getElem?_drop, List.getElem?_take] at hi
    split at hi
    · exact ⟨a + i, by omega, by omega, hi⟩
    · simp at hi
  · rintro ⟨i, h1, h2, h3⟩
    refine List.mem_iff_getElem?.mpr ⟨i - a, ?_⟩
    rw [List.getElem?_drop, List.getElem?_take, if_pos (by omega), ← h3]
    congr 1; omega

theorem slice_length {α : Type} {l : List α} {a b : Nat} (hb : b ≤ l.length) :
    (slice l a b).length = b - a := by
  simp [slice]; omega

theorem slice_full {α : Type} {l : List α} : slice l 0 l.length = l := by simp [slice]

theorem slice_dropWhile {α : Type} [LinearOrder α] {l : List α} {p q b : Nat} {v : α}
    (hb : b ≤ l.length) (hpq : p ≤ q) (hqb : q ≤ b)
    (hlt : ∀ i (h : i < l.length), p ≤ i → i < q → l[i] < v)
    (hge : ∀ h : q < b, v ≤ l[q]) :
    (slice l p b).dropWhile (· < v) = slice l q b := by
  induction hk : q - p generalizing p with
  | zero =>
    have : p = q := by omega
    subst this
    by_cases h : p < b
    · rw [slice_cons h hb, List.dropWhile_cons, if_neg]
      simpa using hge h
    · rw [slice_nil (by omega)]; rfl
  | succ k ih =>
    rw [slice_cons (by omega) hb, List.dropWhile_cons, if_pos]
    · exact ih (p := p + 1) (by omega) (fun i h h1 h2 => hlt i h (by omega) h2) hge (by omega)
    · simpa using hlt p (by omega) (le_refl p) (by omega)

/-- positions of the slice are weakly ascending -/
theorem slice_sorted {α : Type} [LinearOrder α] {l : List α} {a b : Nat} (hb : b ≤ l.length)
    (hs : (slice l a b).Pairwise (· ≤ ·)) {i j : Nat} (hai : a ≤ i) (hij : i ≤ j) (hj : j < b) :
    l[i] ≤ l[j] := by
  rcases Nat.eq_or_lt_of_le hij with h | h
  · subst h; exact le_refl _
  · have hlen := slice_length (l := l) (a := a) hb
    have := List.pairwise_iff_getElem.mp hs (i - a) (j - a) (by omega) (by omega) (by omega)
    have e1 : (slice l a b)[i - a]'(by omega) = l[i] := by
      simp only [slice, List.getElem_drop, List.getElem_take]
      congr 1; omega
    have e2 : (slice l a b)[j - a]'(by omega) = l[j] := by
      simp only [slice, List.getElem_drop, List.getElem_take]
      congr 1; omega
    rwa [e1, e2] at this

namespace VecScan
variable {α : Type} [LinearOrder α]

theorem binLoop_spec (data : List α) (v : α) (n : Nat) :
    ∀ lower upper, upper - lower ≤ n → lower ≤ upper → (hu : upper < data.length) →
    (∀ i j (_ : i ≤ j) (hj : j < data.length), lower ≤ i → j ≤ upper → data[i] ≤ data[j]) →
    v ≤ data[upper] →
    ∃ l u, binLoop data v lower upper = some (l, u) ∧ lower ≤ l ∧ l ≤ u ∧ u ≤ upper ∧
      (∀ i (h : i < data.length), lower ≤ i → i < l → data[i] < v) ∧
      (∀ h : u < data.length, v ≤ data[u]) := by
  induction n with
  | zero =>
    intro lower upper hn hlu hu hs hv
    rw [binLoop]
    have : ¬ 10 ≤ upper - lower := by omega
    simp only [usub, hlu, if_true, Option.bind_eq_bind, Option.bind_some, this, if_false]
    exact ⟨lower, upper, rfl, le_refl _, hlu, le_refl _, fun i h h1 h2 => by omega, fun _ => hv⟩
  | succ n ih =>
    intro lower upper hn hlu hu hs hv
    rw [binLoop]
    simp only [usub, hlu, if_true, Option.bind_eq_bind, Option.bind_some]
    by_cases hd : 10 ≤ upper - lower
    · have hm : (lower + upper) / 2 < data.length := by omega
      simp only [hd, if_true, List.getElem?_eq_getElem hm, Option.bind_some]
      by_cases hx : data[(lower + upper) / 2] < v
      · simp only [hx, if_true]
        obtain ⟨l, u, h1, h2, h3, h4, h5, h6⟩ := ih ((lower + upper) / 2 + 1) upper (by omega)
          (by omega) hu (fun i j hij hj h1 h2 => hs i j hij hj (by omega) h2) hv
        refine ⟨l, u, h1, by omega, h3, h4, fun i h hi1 hi2 => ?_, h6⟩
        by_cases hc : (lower + upper) / 2 + 1 ≤ i
        · exact h5 i h hc hi2
        · exact lt_of_le_of_lt (hs i _ (by omega) hm hi1 (by omega)) hx
      · simp only [hx, if_false]
        obtain ⟨l, u, h1, h2, h3, h4, h5, h6⟩ := ih lower ((lower + upper) / 2) (by omega)
          (by omega) hm (fun i j hij hj h1 h2 => hs i j hij hj h1 (by omega)) (not_lt.mp hx)
        exact ⟨l, u, h1, h2, h3, by omega, h5, h6⟩
    · simp only [hd, if_false]
      exact ⟨lower, upper, rfl, le_refl _, hlu, le_refl _, fun i h h1 h2 => by omega, fun _ => hv⟩

theorem linLoop_spec (data : List α) (v : α) (n : Nat) :
    ∀ pos upper, upper - pos ≤ n → pos ≤ upper → (hu : upper < data.length) → v ≤ data[upper] →
    ∃ q, linLoop data v pos upper = some q ∧ pos ≤ q ∧ q ≤ upper ∧
      (∀ i (h : i < data.length), pos ≤ i → i < q → data[i] < v) ∧
      (∀ h : q < data.length, v ≤ data[q]) := by
  induction n with
  | zero =>
    intro pos upper hn hp hu hv
    have : pos = upper := by omega
    subst this
    rw [linLoop]
    have hv' : ¬ data[pos] < v := not_lt.mpr hv
    simp only [le_refl, if_true, List.getElem?_eq_getElem hu, Option.bind_eq_bind,
      Option.bind_some, hv', if_false]
    exact ⟨pos, rfl, le_refl _, le_refl _, fun i h h1 h2 => by omega, fun _ => hv⟩
  | succ n ih =>
    intro pos upper hn hp hu hv
    have hpl : pos < data.length := by omega
    rw [linLoop]
    simp only [hp, if_true, List.getElem?_eq_getElem hpl, Option.bind_eq_bind, Option.bind_some]
    by_cases hx : data[pos] < v
    · have hne : pos ≠ upper := by
        rintro rfl
        exact absurd hx (not_lt.mpr hv)
      simp only [hx, if_true]
      obtain ⟨q, h1, h2, h3, h4, h5⟩ := ih (pos + 1) upper (by omega) (by omega) hu hv
      refine ⟨q, h1, by omega, h3, fun i h hi1 hi2 => ?_, h5⟩
      by_cases hc : i = pos
      · subst hc; exact hx
      · exact h4 i h (by omega) hi2
    · simp only [hx, if_false]
      exact ⟨pos, rfl, le_refl _, hp, fun i h h1 h2 => by omega, fun _ => not_lt.mp hx⟩

/-- Simulation relation between a vector scan narrowed to `a..b` and the specification cursor. -/
def Sim (data : List α) (a b : Nat) (s : VecScan α) (c : Cur α) : Prop :=
  s.data = data ∧ s.start = a ∧ s.stop = b ∧
  ((s.pos = none ∧ (c = .fresh (slice data a b) ∨ (b = 0 ∧ c = .at []))) ∨
   ∃ p, s.pos = some p ∧ a ≤ p ∧ c = .at (slice data p b))

theorem sim_current {data : List α} {a b : Nat} (hb : b ≤ data.length) (s : VecScan α) (c : Cur α)
    (h : Sim data a b s c) : ops.current s = c.current := by
  obtain ⟨rfl, rfl, rfl, h⟩ := h
  rcases h with ⟨hp, rfl | ⟨_, rfl⟩⟩ | ⟨p, hp, _, rfl⟩
  · simp [ops, current, hp, Cur.current]
  · simp [ops, current, hp, Cur.current]
  · simp [ops, current, hp, Cur.current, slice_head hb]

theorem sim_next {data : List α} {a b : Nat} (hb : b ≤ data.length) (s : VecScan α) (c : Cur α)
    (h : Sim data a b s c) :
    ∃ s', ops.next s = some (c.next.current, s') ∧ Sim data a b s' c.next := by
  obtain ⟨rfl, rfl, rfl, h⟩ := h
  have key : ∀ pos, pos = (match s.pos with | none => s.start | some p => p + 1) → s.start ≤ pos →
      c.next = .at (slice s.data pos s.stop) →
      ∃ s', ops.next s = some (c.next.current, s') ∧ Sim s.data s.start s.stop s' c.next := by
    intro pos hpos hle hc
    refine ⟨{ s with pos := some pos }, ?_, rfl, rfl, rfl, .inr ⟨pos, rfl, hle, hc⟩⟩
    rw [hc, Cur.current, slice_head hb]
    simp only [ops, next, ← hpos]
    by_cases hlt : pos < s.stop
    · simp [hlt, List.getElem?_eq_getElem (show pos < s.data.length by omega)]
    · simp [hlt]
  rcases h with ⟨hp, rfl | ⟨h0, rfl⟩⟩ | ⟨p, hp, hle, rfl⟩
  · exact key _ rfl (by simp [hp]) (by simp [hp, Cur.next])
  · exact key _ rfl (by simp [hp]) (by simp [hp, Cur.next, slice_nil, h0])
  · exact key _ rfl (by simp [hp]; omega) (by simp [hp, Cur.next, slice_tail hb])

theorem sim_seek {data : List α} {a b : Nat} (hb : b ≤ data.length)
    (hs : (slice data a b).Pairwise (· ≤ ·)) (s : VecScan α) (c : Cur α) (v : α)
    (h : Sim data a b s c) :
    ∃ s', ops.seek s v = some ((c.seek v).current, s') ∧ Sim data a b s' (c.seek v) := by
  obtain ⟨rfl, rfl, rfl, h⟩ := h
  by_cases h0 : s.stop = 0
  · refine ⟨s, ?_, rfl, rfl, rfl, ?_⟩
    · have hrem : c.rem = [] := by
        rcases h with ⟨hp, rfl | ⟨_, rfl⟩⟩ | ⟨p, hp, _, rfl⟩ <;> simp [Cur.rem, slice_nil, h0]
      simp [ops, seek, h0, Cur.seek, hrem, Cur.current]
    · rcases h with ⟨hp, rfl | ⟨_, rfl⟩⟩ | ⟨p, hp, hle, rfl⟩
      · exact .inl ⟨hp, .inr ⟨h0, by simp [Cur.seek, Cur.rem, slice_nil, h0]⟩⟩
      · exact .inl ⟨hp, .inr ⟨h0, by simp [Cur.seek, Cur.rem]⟩⟩
      · exact .inr ⟨p, hp, hle, by simp [Cur.seek, Cur.rem, slice_nil, h0]⟩
  · obtain ⟨p, hp, hle, hrem⟩ : ∃ p, s.pos.getD s.start = p ∧ s.start ≤ p ∧
        c.rem = slice s.data p s.stop := by
      rcases h with ⟨hp, rfl | ⟨_, rfl⟩⟩ | ⟨p, hp, hle, rfl⟩
      · exact ⟨s.start, by simp [hp], le_refl _, rfl⟩
      · omega
      · exact ⟨p, by simp [hp], hle, rfl⟩
    -- it suffices to find the final position
    have key : ∀ (o : Option α) (q : Nat), p ≤ q →
        ops.seek s v = some (o, { s with pos := some q }) →
        (slice s.data p s.stop).dropWhile (· < v) = slice s.data q s.stop →
        o = (if q < s.stop then s.data[q]? else none) →
        ∃ s', ops.seek s v = some ((c.seek v).current, s') ∧
          Sim s.data s.start s.stop s' (c.seek v) := by
      intro o q hq h1 h2 h3
      refine ⟨{ s with pos := some q }, ?_, rfl, rfl, rfl, .inr ⟨q, rfl, by omega, ?_⟩⟩
      · rw [h1, h3, Cur.seek, hrem, h2, Cur.current, slice_head hb]
      · rw [Cur.seek, hrem, h2]
    simp only [ops, seek, h0, if_false, hp] at key ⊢
    by_cases h1 : s.stop - 1 < p
    · refine key none p (le_refl _) (by simp [h1]) ?_ ?_
      · rw [slice_nil (by omega)]; rfl
      · rw [if_neg (by omega)]
    · have hul : s.stop - 1 < s.data.length := by omega
      have hpl : p < s.data.length := by omega
      simp only [h1, if_false, List.getElem?_eq_getElem hul, List.getElem?_eq_getElem hpl,
        Option.bind_eq_bind, Option.bind_some] at key ⊢
      have hsort : ∀ i j (_ : i ≤ j) (hj : j < s.data.length), p ≤ i → j ≤ s.stop - 1 →
          s.data[i] ≤ s.data[j] := fun i j hij hj h1 h2 =>
        slice_sorted hb hs (by omega) hij (by omega)
      by_cases h2 : s.data[s.stop - 1] < v
      · refine key none s.data.length (by omega) (by simp [h2]) ?_ ?_
        · rw [slice_dropWhile (q := s.stop) hb (by omega) (le_refl _) (fun i h h3 h4 =>
            lt_of_le_of_lt (hsort i _ (by omega) hul h3 (le_refl _)) h2) (fun h => by omega)]
          rw [slice_nil (le_refl _), slice_nil hb]
        · rw [if_neg (by omega)]
      · by_cases h3 : v ≤ s.data[p]
        · refine key (some s.data[p]) p (le_refl _) (by simp [h2, h3]) ?_ ?_
          · exact slice_dropWhile hb (le_refl _) (by omega) (fun i h h4 h5 => by omega)
              (fun _ => h3)
          · rw [if_pos (by omega), List.getElem?_eq_getElem hpl]
        · obtain ⟨l, u, e1, e2, e3, e4, e5, e6⟩ := binLoop_spec s.data v _ p (s.stop - 1)
            (le_refl _) (by omega) hul hsort (not_lt.mp h2)
          obtain ⟨q, f1, f2, f3, f4, f5⟩ := linLoop_spec s.data v _ l u (le_refl _) e3 (by omega)
            (e6 (by omega))
          have hql : q < s.data.length := by omega
          refine key (some s.data[q]) q (by omega) ?_ ?_ ?_
          · have h4 : ¬ u < q := by omega
            simp [h2, h3, e1, f1, h4, List.getElem?_eq_getElem hql]
          · refine slice_dropWhile hb (by omega) (by omega) (fun i h h4 h5 => ?_) (fun _ => f5 hql)
            by_cases hc : i < l
            · exact e5 i h h4 hc
            · exact f4 i h (by omega) h5
          · rw [if_pos (by omega), List.getElem?_eq_getElem hql]

theorem sim_narrow {s s' : VecScan α} {a b : Nat} (h : s.narrow a b = some s') :
    b ≤ s.data.length ∧ Sim s.data a b s' (.fresh (slice s.data a b)) := by
  unfold narrow at h
  split at h
  · next hb => cases h; exact ⟨hb, rfl, rfl, rfl, .inl ⟨rfl, .inl rfl⟩⟩
  · cases h

end VecScan
end Verif
