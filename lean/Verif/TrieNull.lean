import Verif.TrieTable
import Verif.PropDict
import Verif.TrieLookup

/-!
# Appending nulls

Model of `/repo/nemo-physical/src/tabular/operations/null.rs`: an operator that appends columns with new nulls to a table.  The scan
has a side effect (every `down` to a new column takes a null from the dictionary), so it is not a scan of a fixed table; the result
is described for the way in which it is used: materializing all of its rows.
-/

set_option linter.unusedSimpArgs false
set_option linter.unusedSectionVars false
set_option linter.unusedVariables false

namespace Verif
variable {S α D V : Type}

/-- `NullInstruction` (null.rs:22-29). -/
inductive NullInstr
  | fresh
  | rep (i : Nat)
deriving DecidableEq

/-- `GeneratorNull::new` (null.rs:50-80): the instructions for the columns after the first `n`. -/
def nullInstrs [DecidableEq V] (n : Nat) (output : List V) : List NullInstr :=
  (output.zipIdx.drop n).map fun x =>
    if output.idxOf x.1 = x.2 then .fresh else .rep (output.idxOf x.1 - n)

/-- `TrieScanNull` (null.rs:152-171).  `depth` is `current_layer`, where 0 is `None` and `k + 1` is `Some(k)`; `col` are the column
scans of the new columns; the dictionary is part of the state. -/
structure NullSt (S α D : Type) where
  child : S
  dict : D
  cache : List α
  depth : Nat
  col : Nat → Ty → ConstScan α

namespace NullSt

/-- the scan after construction (null.rs:139-146) -/
def new (child : S) (dict : D) : NullSt S α D := ⟨child, dict, [], 0, fun _ _ => ConstScan.new none⟩

section
variable [SVal α]

/-- the columns after storing a null (null.rs:215-224) -/
def setNull (col : Nat → Ty → ConstScan α) (j : Nat) (v : α) : Nat → Ty → ConstScan α := fun i τ =>
  if i = j ∧ (τ = 0 ∨ τ = 1 ∨ τ = ty v) then ⟨if τ = ty v then some v else none, (col i τ).state⟩ else col i τ

/-- `reset` of a column (null.rs:227) -/
def reset (col : Nat → Ty → ConstScan α) (j : Nat) (σ : Ty) : Nat → Ty → ConstScan α := fun i τ =>
  if i = j ∧ τ = σ then ⟨(col i τ).const, .start⟩ else col i τ

/-- replace the state of a column -/
def setCol (col : Nat → Ty → ConstScan α) (j : Nat) (σ : Ty) (c : ConstScan α) : Nat → Ty → ConstScan α := fun i τ =>
  if i = j ∧ τ = σ then c else col i τ

/-- the value for the next column (null.rs:200-211); `none` is a panic -/
def nextNull (fresh : D → α × D) (t : NullSt S α D) : Option NullInstr → Option (α × D)
  | some .fresh => some (fresh t.dict)
  | some (.rep i) => (t.cache[i]?).map fun v => (v, t.dict)
  | none => none

/-- `down` (null.rs:189-229); `a` is the number of columns of the input -/
def down (cops : TrieOps S α) (a : Nat) (instrs : List NullInstr) (fresh : D → α × D) (t : NullSt S α D) (τ : Ty) :
    Option (NullSt S α D) :=
  if t.depth < a then (cops.down t.child τ).map fun c => { t with child := c, depth := t.depth + 1 }
  else if τ = 0 then (t.nextNull fresh instrs[t.depth - a]?).map fun x =>
    ⟨t.child, x.2, t.cache ++ [x.1], t.depth + 1, reset (setNull t.col (t.depth - a) x.1) (t.depth - a) τ⟩
  else some { t with depth := t.depth + 1, col := reset t.col (t.depth - a) τ }

/-- `up` (null.rs:174-187) -/
def up (cops : TrieOps S α) (a : Nat) (t : NullSt S α D) : Option (NullSt S α D) :=
  if t.depth = 0 then none
  else if t.depth - 1 < a then (cops.up t.child).map fun c => { t with child := c, depth := t.depth - 1 }
  else some { t with cache := t.cache.dropLast, depth := t.depth - 1 }

/-- `next` of the column scan of the current layer (columns of the input are passed on, null.rs:100-124) -/
def next (cops : TrieOps S α) (a : Nat) (t : NullSt S α D) (τ : Ty) : Option (Option α × NullSt S α D) :=
  if t.depth - 1 < a then (cops.next t.child τ).map fun r => (r.1, { t with child := r.2 })
  else let r := (t.col (t.depth - 1 - a) τ).next
    some (r.1, { t with col := setCol t.col (t.depth - 1 - a) τ r.2 })

/-- `seek` of the column scan of the current layer -/
def seek (cops : TrieOps S α) (a : Nat) (t : NullSt S α D) (v : α) : Option (Option α × NullSt S α D) :=
  if t.depth - 1 < a then (cops.seek t.child v).map fun r => (r.1, { t with child := r.2 })
  else let r := (t.col (t.depth - 1 - a) (ty v)).seek v
    some (r.1, { t with col := setCol t.col (t.depth - 1 - a) (ty v) r.2 })

/-- the scan as a partial trie scan -/
def ops (cops : TrieOps S α) (a : Nat) (instrs : List NullInstr) (fresh : D → α × D) : TrieOps (NullSt S α D) α where
  depth t := t.depth
  up := up cops a
  down := down cops a instrs fresh
  next := next cops a
  seek := seek cops a
  current t k τ := if k < a then cops.current t.child k τ else ConstScan.ops.current (t.col (k - a) τ)

/-- `possible_types` (null.rs:239-245): nulls are identifiers of 32 or 64 bits -/
def types (child : Nat → List Ty) (a : Nat) (k : Nat) : List Ty := if k < a then child k else [0, 1]

/-- the row scan over the operator that keeps all columns -/
def cfg (cops : TrieOps S α) (ctypes : Nat → List Ty) (a : Nat) (instrs : List NullInstr) (fresh : D → α × D) :
    RowCfg (NullSt S α D) α :=
  ⟨ops cops a instrs fresh, a + instrs.length, types ctypes a, 0, a + instrs.length⟩

/-- **Specification**: the nulls of one row. -/
def nulls (fresh : D → α × D) : List NullInstr → List α → D → Option (List α × D)
  | [], acc, d => some (acc, d)
  | .fresh :: is, acc, d => nulls fresh is (acc ++ [(fresh d).1]) (fresh d).2
  | .rep i :: is, acc, d => (acc[i]?).bind fun v => nulls fresh is (acc ++ [v]) d

end
end NullSt

/-! ### Iterations of row scans -/

namespace RowCfg
variable {cfg : RowCfg S α}

theorem iter_absent {st : RowSt S α} {k : Nat} {τ : Ty} {s' s'' : S} (hk : cfg.ops.depth st.scan = k + 1)
    (ht : (cfg.types k)[st.used k]? = some τ) (hn : cfg.ops.next st.scan τ = some (none, s')) (hu : cfg.ops.up s' = some s'') :
    cfg.iter st = (cfg.downNext { st with change := min k st.change, scan := s'' } k).map fun x => (false, x) := by
  simp only [iter, hk, Nat.add_sub_cancel, curType, ht, Option.bind_eq_bind, Option.bind_some, hn, hu]
  cases cfg.downNext { st with change := min k st.change, scan := s'' } k <;> rfl

theorem iter_deeper {st : RowSt S α} {k : Nat} {τ : Ty} {s' : S} {v : α} (hk : cfg.ops.depth st.scan = k + 1)
    (ht : (cfg.types k)[st.used k]? = some τ) (hn : cfg.ops.next st.scan τ = some (some v, s')) (hl : k ≠ cfg.arity - 1) :
    cfg.iter st = (cfg.downFirst { st with change := min k st.change, scan := s' } (k + 1)).map fun x => (false, x) := by
  simp only [iter, hk, Nat.add_sub_cancel, curType, ht, Option.bind_eq_bind, Option.bind_some, hn, if_neg hl]
  cases cfg.downFirst { st with change := min k st.change, scan := s' } (k + 1) <;> rfl

theorem iter_found {st : RowSt S α} {k : Nat} {τ : Ty} {s' : S} {v : α} (hk : cfg.ops.depth st.scan = k + 1)
    (ht : (cfg.types k)[st.used k]? = some τ) (hn : cfg.ops.next st.scan τ = some (some v, s')) (hl : k = cfg.arity - 1) :
    cfg.iter st = (cfg.emit { st with change := min k st.change, scan := s' }).map fun x => (true, x) := by
  simp only [iter, hk, Nat.add_sub_cancel, curType, ht, Option.bind_eq_bind, Option.bind_some, hn, if_pos hl]
  cases cfg.emit { st with change := min k st.change, scan := s' } <;> rfl

end RowCfg

namespace NullSt
variable [SVal α] {cops : TrieOps S α} {ctypes : Nat → List Ty} {a : Nat} {instrs : List NullInstr} {fresh : D → α × D}

/-- A state in which the scan stands on `vals`, the last of them nulls. -/
structure At (cops : TrieOps S α) (ctypes : Nat → List Ty) (a : Nat) (instrs : List NullInstr) (fresh : D → α × D)
    (st : RowSt (NullSt S α D) α) (j : Nat) (vals : List α) (c : S) (d : D) : Prop where
  depth : st.scan.depth = a + j
  child : st.scan.child = c
  dict : st.scan.dict = d
  cache : st.scan.cache.length ≤ j
  repeated : (∃ i, .rep i ∈ instrs) → st.scan.cache = vals.drop a ∧ ∀ v ∈ vals.drop a, ty v = 0
  length : vals.length = a + j
  entries : ∀ k < a + j, (cfg cops ctypes a instrs fresh).rowEntry st k = vals[k]?

theorem mapM_range {β : Type} {f : Nat → Option β} {l : List β} (h : ∀ k < l.length, f k = l[k]?) :
    (List.range l.length).mapM f = some l := by
  induction l using List.reverseRecOn with
  | nil => rfl
  | append_singleton l b ih =>
    have h1 : ∀ k < l.length, f k = l[k]? := fun k hk => by
      rw [h k (by simp; omega), List.getElem?_append_left hk]
    have h2 := h l.length (by simp)
    simp only [List.getElem?_append_right (Nat.le_refl _), Nat.sub_self, List.getElem?_cons_zero] at h2
    rw [List.length_append, List.length_singleton, List.range_succ, List.mapM_append, ih h1]
    simp [h2]

theorem rowEntry_congr {N : RowCfg S α} {st st' : RowSt S α} {k : Nat} (hu : st'.used k = st.used k)
    (hc : ∀ τ, N.ops.current st'.scan k τ = N.ops.current st.scan k τ) : N.rowEntry st' k = N.rowEntry st k := by
  simp only [RowCfg.rowEntry, RowCfg.curType, hu, hc]

theorem types_null (j : Nat) : types ctypes a (a + j) = [0, 1] := if_neg (by omega)

theorem current_null (t : NullSt S α D) (j : Nat) (τ : Ty) :
    (ops cops a instrs fresh).current t (a + j) τ = ConstScan.ops.current (t.col j τ) := by
  simp only [ops, if_neg (show ¬ a + j < a by omega), Nat.add_sub_cancel_left]

theorem next_null {t : NullSt S α D} {j : Nat} (hd : t.depth = a + j + 1) (τ : Ty) :
    (ops cops a instrs fresh).next t τ =
      some ((t.col j τ).next.1, { t with col := setCol t.col j τ (t.col j τ).next.2 }) := by
  simp only [ops, next, hd, Nat.add_sub_cancel, if_neg (show ¬ a + j < a by omega), Nat.add_sub_cancel_left]

theorem up_null {t : NullSt S α D} {j : Nat} (hd : t.depth = a + j + 1) :
    (ops cops a instrs fresh).up t = some { t with cache := t.cache.dropLast, depth := a + j } := by
  simp only [ops, up, hd, Nat.add_sub_cancel, if_neg (show ¬ a + j < a by omega)]
  rw [if_neg (by omega)]

theorem down_null {t : NullSt S α D} {j : Nat} (hd : t.depth = a + j) {v : α} {d : D}
    (hv : t.nextNull fresh instrs[j]? = some (v, d)) :
    (ops cops a instrs fresh).down t 0 =
      some ⟨t.child, d, t.cache ++ [v], a + j + 1, reset (setNull t.col j v) j 0⟩ := by
  simp only [ops, down, hd, if_neg (show ¬ a + j < a by omega), Nat.add_sub_cancel_left, hv, if_true, Option.map_some]

theorem down_other {t : NullSt S α D} {j : Nat} (hd : t.depth = a + j) :
    (ops cops a instrs fresh).down t 1 = some { t with depth := a + j + 1, col := reset t.col j 1 } := by
  simp only [ops, down, hd, if_neg (show ¬ a + j < a by omega), Nat.add_sub_cancel_left]
  rw [if_neg (by decide)]

theorem next_value {c : ConstScan α} {v : α} (h : c = ⟨some v, .value⟩) : c.next.1 = none := by subst h; rfl
theorem next_start {c : ConstScan α} {v : α} (h : c = ⟨some v, .start⟩) : c.next = (some v, ⟨some v, .value⟩) := by subst h; rfl
theorem next_nothing {c : ConstScan α} (h : c.const = none) : c.next.1 = none := by
  obtain ⟨k, s⟩ := c
  cases h
  cases s <;> rfl

/-- The end of the first of the two types of a new column. -/
theorem absent_first {st : RowSt (NullSt S α D) α} {j : Nat} (hd : st.scan.depth = a + j + 1) (hu : st.used (a + j) = 0)
    (hn : (st.scan.col j 0).next.1 = none) :
    (cfg cops ctypes a instrs fresh).iter st = some (false, ⟨⟨st.scan.child, st.scan.dict, st.scan.cache.dropLast, a + j + 1,
      reset (setCol st.scan.col j 0 (st.scan.col j 0).next.2) j 1⟩, Function.update st.used (a + j) 1, st.single, st.row,
      min (a + j) st.change⟩) := by
  have h1 := next_null (cops := cops) (instrs := instrs) (fresh := fresh) hd 0
  rw [hn] at h1
  have h2 := up_null (cops := cops) (instrs := instrs) (fresh := fresh)
    (t := { st.scan with col := setCol st.scan.col j 0 (st.scan.col j 0).next.2 }) hd
  rw [RowCfg.iter_absent (cfg := cfg cops ctypes a instrs fresh) (k := a + j) (τ := 0) hd ?_ h1 h2]
  · have h3 := down_other (cops := cops) (instrs := instrs) (fresh := fresh) (j := j)
      (t := (⟨st.scan.child, st.scan.dict, st.scan.cache.dropLast, a + j, setCol st.scan.col j 0 (st.scan.col j 0).next.2⟩ :
        NullSt S α D)) rfl
    simp only [RowCfg.downNext, cfg, types_null, hu, List.length_cons, List.length_nil]
    rw [if_neg (by decide)]
    simp only [Nat.zero_add, List.getElem?_cons_succ, List.getElem?_cons_zero, Option.bind_eq_bind, Option.bind_some]
    simp only [h3, Option.bind_some]
    rfl
  · simp only [cfg, types_null, hu]; rfl

/-- The end of the second of the two types of a new column. -/
theorem absent_last {st : RowSt (NullSt S α D) α} {j : Nat} (hd : st.scan.depth = a + j + 1) (hu : st.used (a + j) = 1)
    (hn : (st.scan.col j 1).next.1 = none) :
    (cfg cops ctypes a instrs fresh).iter st = some (false, ⟨⟨st.scan.child, st.scan.dict, st.scan.cache.dropLast, a + j,
      setCol st.scan.col j 1 (st.scan.col j 1).next.2⟩, Function.update st.used (a + j) 0, st.single, st.row,
      min (a + j) st.change⟩) := by
  have h1 := next_null (cops := cops) (instrs := instrs) (fresh := fresh) hd 1
  rw [hn] at h1
  have h2 := up_null (cops := cops) (instrs := instrs) (fresh := fresh)
    (t := { st.scan with col := setCol st.scan.col j 1 (st.scan.col j 1).next.2 }) hd
  rw [RowCfg.iter_absent (cfg := cfg cops ctypes a instrs fresh) (k := a + j) (τ := 1) hd ?_ h1 h2]
  · simp only [RowCfg.downNext, cfg, types_null, hu, List.length_cons, List.length_nil]
    rw [if_pos (by decide)]
    rfl
  · simp only [cfg, types_null, hu]; rfl

/-- What is left after visiting everything below some values. -/
structure After (a : Nat) (st st' : RowSt (NullSt S α D) α) (j m : Nat) (c : S) (d : D) : Prop where
  depth : st'.scan.depth = a + j
  child : st'.scan.child = c
  dict : st'.scan.dict = d
  cache : st'.scan.cache.length ≤ j
  used : ∀ k < a + j, st'.used k = st.used k
  change : a + j ≤ st'.change + 1
  col : ∀ i < m, st'.scan.col i = st.scan.col i

theorem nulls_prefix {is : List NullInstr} {acc acc' : List α} {d d' : D} (h : nulls fresh is acc d = some (acc', d')) : acc <+: acc' := by
  induction is generalizing acc d with
  | nil => cases h; exact List.prefix_refl _
  | cons i is ih =>
    cases i with
    | fresh => exact (List.prefix_append _ _).trans (ih h)
    | rep i =>
      simp only [nulls] at h
      obtain ⟨v, -, h⟩ := Option.bind_eq_some_iff.1 h
      exact (List.prefix_append _ _).trans (ih h)

/-- Finding the null of a column and visiting what is below it. -/
theorem present {j n : Nat} (hjn : j + n + 1 = instrs.length)
    (ih : 0 < n → ∀ (st : RowSt (NullSt S α D) α) (row acc : List α) (c : S) (d : D) (acc' : List α) (d' : D), row.length = a →
      At cops ctypes a instrs fresh st (j + 1) (row ++ acc) c d → nulls fresh (instrs.drop (j + 1)) acc d = some (acc', d') →
      ((∃ i, .rep i ∈ instrs) → ∀ w ∈ acc', ty w = 0) →
      ∃ st1 st', (cfg cops ctypes a instrs fresh).downFirst st (a + (j + 1)) = some st1 ∧
        RowCfg.Steps (cfg cops ctypes a instrs fresh) st1 [(row ++ acc', min (a + (j + 1)) st.change)] st' ∧
        After a st st' (j + 1) (j + 1) c d')
    {st : RowSt (NullSt S α D) α} {row acc : List α} {c : S} {d d' : D} {acc' : List α} {v : α} {u : Nat} (hrow : row.length = a)
    (hacc : acc.length = j) (hd : st.scan.depth = a + j + 1) (hc : st.scan.child = c) (hdict : st.scan.dict = d)
    (hcache : st.scan.cache.length ≤ j + 1)
    (hrep : (∃ i, .rep i ∈ instrs) → st.scan.cache = acc ++ [v] ∧ ∀ w ∈ acc ++ [v], ty w = 0)
    (hu : st.used (a + j) = u) (hτ : ([0, 1] : List Ty)[u]? = some (ty v)) (hcol : st.scan.col j (ty v) = ⟨some v, .start⟩)
    (hent : ∀ k < a + j, (cfg cops ctypes a instrs fresh).rowEntry st k = (row ++ acc)[k]?)
    (hnulls : nulls fresh (instrs.drop (j + 1)) (acc ++ [v]) d = some (acc', d'))
    (hz : (∃ i, .rep i ∈ instrs) → ∀ w ∈ acc', ty w = 0) :
    ∃ st', RowCfg.Steps (cfg cops ctypes a instrs fresh) st [(row ++ acc', min (a + j) st.change)] st' ∧
      After a st st' (j + 1) j c d' ∧ st'.scan.col j = setCol st.scan.col j (ty v) ⟨some v, .value⟩ j := by
  have h1 := next_null (cops := cops) (instrs := instrs) (fresh := fresh) hd (ty v)
  rw [next_start hcol] at h1
  have ht : ((cfg cops ctypes a instrs fresh).types (a + j))[st.used (a + j)]? = some (ty v) := by
    simp only [cfg, types_null, hu]; exact hτ
  set t2 : NullSt S α D := { st.scan with col := setCol st.scan.col j (ty v) ⟨some v, .value⟩ } with ht2
  set st2 : RowSt (NullSt S α D) α := { st with change := min (a + j) st.change, scan := t2 } with hst2
  have hcur : ∀ k < a + j, (cfg cops ctypes a instrs fresh).rowEntry st2 k = (row ++ (acc ++ [v]))[k]? := by
    intro k hk
    rw [← List.append_assoc, List.getElem?_append_left (by simp; omega), ← hent k hk]
    refine rowEntry_congr rfl fun τ => ?_
    by_cases hka : k < a
    · simp only [cfg, ops, if_pos hka]
      rfl
    · obtain ⟨i, rfl⟩ := Nat.exists_eq_add_of_le (Nat.le_of_not_lt hka)
      simp only [cfg, current_null]
      rw [hst2, ht2]
      simp only [setCol]
      rw [if_neg (by omega)]
  have hlast : (cfg cops ctypes a instrs fresh).rowEntry st2 (a + j) = (row ++ (acc ++ [v]))[a + j]? := by
    rw [← List.append_assoc, List.getElem?_append_right (by simp; omega)]
    simp only [List.length_append, hrow, hacc, Nat.sub_self, List.getElem?_cons_zero]
    simp only [RowCfg.rowEntry, RowCfg.curType]
    have : ((cfg cops ctypes a instrs fresh).types (a + j))[st2.used (a + j)]? = some (ty v) := ht
    rw [this]
    simp only [Option.bind_eq_bind, Option.bind_some, cfg, current_null]
    rw [hst2, ht2]
    simp only [setCol]
    rw [if_pos ⟨trivial, trivial⟩]
    rfl
  have hent2 : ∀ k < a + (j + 1), (cfg cops ctypes a instrs fresh).rowEntry st2 k = (row ++ (acc ++ [v]))[k]? := by
    intro k hk
    by_cases hkj : k < a + j
    · exact hcur k hkj
    · obtain rfl : k = a + j := by omega
      exact hlast
  have hd0 : (cfg cops ctypes a instrs fresh).ops.depth st.scan ≠ 0 := by
    change st.scan.depth ≠ 0
    omega
  cases n with
  | zero =>
    have hdrop : instrs.drop (j + 1) = [] := List.drop_eq_nil_of_le (by omega)
    rw [hdrop] at hnulls
    cases hnulls
    have hi := RowCfg.iter_found (cfg := cfg cops ctypes a instrs fresh) (k := a + j) hd ht h1
      (by simp only [cfg]; omega)
    have hm : (List.range (a + instrs.length)).mapM ((cfg cops ctypes a instrs fresh).rowEntry st2) = some (row ++ (acc ++ [v])) := by
      have hl : (row ++ (acc ++ [v])).length = a + instrs.length := by simp [hrow, hacc]; omega
      rw [← hl]
      exact mapM_range fun k hk => hent2 k (by omega)
    have he : (cfg cops ctypes a instrs fresh).emit st2 = some { st2 with row := row ++ (acc ++ [v]), single := .at } := by
      simp only [RowCfg.emit, show (cfg cops ctypes a instrs fresh).usedCols = a + instrs.length from rfl, hm,
        show (cfg cops ctypes a instrs fresh).existential = 0 from rfl, RowCfg.ups, Option.bind_eq_bind, Option.bind_some]
      rfl
    rw [he, Option.map_some] at hi
    refine ⟨_, .emit hd0 hi ?_ rfl ?_ (.refl _), ?_, ?_⟩
    · simp only [cfg, List.length_append, List.length_singleton, hrow, hacc]; omega
    · change 0 < st.scan.depth; omega
    · refine ⟨hd, hc, hdict, hcache, fun k hk => rfl, ?_, fun i hi => ?_⟩
      · simp only [cfg]; omega
      · funext τ
        simp only [hst2, ht2, setCol]
        rw [if_neg (by omega)]
    · rfl
  | succ n =>
    have hi := RowCfg.iter_deeper (cfg := cfg cops ctypes a instrs fresh) (k := a + j) hd ht h1
      (by simp only [cfg]; omega)
    obtain ⟨st3, st', e1, e2, e3⟩ := ih (by omega) st2 row (acc ++ [v]) c d acc' d' hrow
      ⟨hd, hc, hdict, hcache, fun hr => by
        have := hrep hr
        rw [List.drop_append_of_le_length (by omega), List.drop_eq_nil_of_le (by omega), List.nil_append]
        exact this, by simp [hrow, hacc], hent2⟩ hnulls hz
    rw [show a + j + 1 = a + (j + 1) by omega, e1, Option.map_some] at hi
    rw [show min (a + (j + 1)) st2.change = min (a + j) st.change by simp only [hst2]; omega] at e2
    refine ⟨st', .quiet hd0 hi e2, ⟨e3.depth, e3.child, e3.dict, e3.cache, e3.used, e3.change, fun i hi => ?_⟩, ?_⟩
    · rw [e3.col i (by omega)]
      funext τ
      simp only [hst2, ht2, setCol]
      rw [if_neg (by omega)]
    · rw [e3.col j (by omega)]

theorem visit_step (hty : ∀ d, ty (fresh d).1 = 0 ∨ ty (fresh d).1 = 1) {j n : Nat} (hjn : j + n + 1 = instrs.length)
    (ih : 0 < n → ∀ (st : RowSt (NullSt S α D) α) (row acc : List α) (c : S) (d : D) (acc' : List α) (d' : D), row.length = a →
      At cops ctypes a instrs fresh st (j + 1) (row ++ acc) c d → nulls fresh (instrs.drop (j + 1)) acc d = some (acc', d') →
      ((∃ i, .rep i ∈ instrs) → ∀ w ∈ acc', ty w = 0) →
      ∃ st1 st', (cfg cops ctypes a instrs fresh).downFirst st (a + (j + 1)) = some st1 ∧
        RowCfg.Steps (cfg cops ctypes a instrs fresh) st1 [(row ++ acc', min (a + (j + 1)) st.change)] st' ∧
        After a st st' (j + 1) (j + 1) c d')
    (st : RowSt (NullSt S α D) α) (row acc : List α) (c : S) (d : D) (acc' : List α) (d' : D) (hrow : row.length = a)
    (hA : At cops ctypes a instrs fresh st j (row ++ acc) c d) (hnulls : nulls fresh (instrs.drop j) acc d = some (acc', d'))
    (hz : (∃ i, .rep i ∈ instrs) → ∀ w ∈ acc', ty w = 0) :
    ∃ st1 st', (cfg cops ctypes a instrs fresh).downFirst st (a + j) = some st1 ∧
      RowCfg.Steps (cfg cops ctypes a instrs fresh) st1 [(row ++ acc', min (a + j) st.change)] st' ∧ After a st st' j j c d' := by
  have hj : j < instrs.length := by omega
  have hacc : acc.length = j := by have := hA.length; simp only [List.length_append, hrow] at this; omega
  have hdropa : (row ++ acc).drop a = acc := by
    rw [List.drop_append_of_le_length (by omega), List.drop_eq_nil_of_le (by omega), List.nil_append]
  obtain ⟨v, d1, hv, hty0, hrest⟩ : ∃ v d1, st.scan.nextNull fresh instrs[j]? = some (v, d1) ∧ (ty v = 0 ∨ ty v = 1) ∧
      nulls fresh (instrs.drop (j + 1)) (acc ++ [v]) d1 = some (acc', d') := by
    rw [List.drop_eq_getElem_cons hj] at hnulls
    rw [List.getElem?_eq_getElem hj]
    cases hin : instrs[j] with
    | fresh =>
      rw [hin] at hnulls
      exact ⟨_, _, by rw [nextNull, hA.dict], hty _, hnulls⟩
    | rep i =>
      rw [hin] at hnulls
      have hr : ∃ i, .rep i ∈ instrs := ⟨i, hin ▸ List.getElem_mem hj⟩
      obtain ⟨hc1, hc2⟩ := hA.repeated hr
      rw [hdropa] at hc1 hc2
      simp only [nulls] at hnulls
      cases hai : acc[i]? with
      | none => rw [hai] at hnulls; cases hnulls
      | some v =>
        rw [hai] at hnulls
        have hz0 := hc2 v (List.mem_of_getElem? hai)
        exact ⟨v, d, by rw [nextNull, hc1, hai, hA.dict]; rfl, .inl hz0, hnulls⟩
  have hrep0 : (∃ i, .rep i ∈ instrs) → ty v = 0 := fun h => hz h v ((nulls_prefix hrest).subset (by simp))
  have hdown := down_null (cops := cops) hA.depth hv
  set t1 : NullSt S α D := ⟨st.scan.child, d1, st.scan.cache ++ [v], a + j + 1, reset (setNull st.scan.col j v) j 0⟩ with ht1
  set st1 : RowSt (NullSt S α D) α := ⟨t1, Function.update st.used (a + j) 0, st.single, st.row, st.change⟩ with hst1
  have hfirst : (cfg cops ctypes a instrs fresh).downFirst st (a + j) = some st1 := by
    simp only [RowCfg.downFirst, cfg, types_null, List.getElem?_cons_zero, Option.bind_eq_bind, Option.bind_some, hdown]
    rfl
  have hent1 : ∀ (st2 : RowSt (NullSt S α D) α), st2.scan.child = st.scan.child → (∀ i < j, st2.scan.col i = st.scan.col i) →
      (∀ k < a + j, st2.used k = st.used k) → ∀ k < a + j, (cfg cops ctypes a instrs fresh).rowEntry st2 k = (row ++ acc)[k]? := by
    intro st2 h1 h2 h3 k hk
    rw [← hA.entries k hk]
    refine rowEntry_congr (h3 k hk) fun τ => ?_
    by_cases hka : k < a
    · simp only [cfg, ops, if_pos hka, h1]
    · obtain ⟨i, rfl⟩ := Nat.exists_eq_add_of_le (Nat.le_of_not_lt hka)
      simp only [cfg, current_null, h2 i (by omega)]
  have hcol1 : ∀ i < j, t1.col i = st.scan.col i := by
    intro i hi
    funext τ
    simp only [ht1, reset, setNull]
    rw [if_neg (by omega), if_neg (by omega)]
  have hup : ∀ k < a + j, st1.used k = st.used k := fun k hk => Function.update_of_ne (by omega) _ _
  have hcl := hA.cache
  rcases hty0 with hv0 | hv1
  · -- the null has an identifier of 32 bits
    obtain ⟨st3, s1, s2, s3⟩ := present hjn ih (st := st1) (u := 0) (v := v) (c := c) hrow hacc rfl hA.child rfl
      (by simp only [hst1, ht1, List.length_append, List.length_singleton]; omega)
      (fun hr => by
        obtain ⟨hc1, hc2⟩ := hA.repeated hr
        rw [hdropa] at hc1 hc2
        refine ⟨by simp only [hst1, ht1, hc1], fun w hw => ?_⟩
        rw [List.mem_append, List.mem_singleton] at hw
        rcases hw with hw | rfl
        · exact hc2 w hw
        · exact hv0)
      (by simp [hst1]) (by rw [hv0]; rfl)
      (by simp only [hst1, ht1, reset, setNull, hv0]; simp)
      (hent1 st1 rfl hcol1 hup) hrest hz
    have hu3 : st3.used (a + j) = 0 := by rw [s2.used _ (by omega)]; simp [hst1]
    have hc3 : st3.scan.col j 0 = ⟨some v, .value⟩ := by
      rw [s3]; simp [setCol, hv0]
    have i1 := absent_first (cops := cops) (ctypes := ctypes) (instrs := instrs) (fresh := fresh) (st := st3) (j := j)
      (by rw [s2.depth]; omega) hu3 (next_value hc3)
    have hc4 : (reset (setCol st3.scan.col j 0 (st3.scan.col j 0).next.2) j 1 j 1).const = none := by
      simp only [reset, setCol, s3, and_self, if_true]
      rw [if_neg (by decide), if_neg (by rw [hv0]; decide)]
      simp [hst1, ht1, reset, setNull, hv0]
    set st4 : RowSt (NullSt S α D) α := ⟨⟨st3.scan.child, st3.scan.dict, st3.scan.cache.dropLast, a + j + 1,
      reset (setCol st3.scan.col j 0 (st3.scan.col j 0).next.2) j 1⟩, Function.update st3.used (a + j) 1, st3.single, st3.row,
      min (a + j) st3.change⟩ with hst4
    have i2 := absent_last (cops := cops) (ctypes := ctypes) (instrs := instrs) (fresh := fresh) (st := st4) (j := j)
      rfl (by simp [hst4]) (next_nothing hc4)
    have hd3 : st3.scan.depth ≠ 0 := by rw [s2.depth]; omega
    have s4 := s1.trans (.quiet hd3 i1 (.quiet (Nat.succ_ne_zero _) i2 (.refl _)))
    refine ⟨st1, _, hfirst, s4, rfl, s2.child, s2.dict, ?_, fun k hk => ?_, ?_, fun i hi => ?_⟩
    · have := s2.cache
      simp only [hst4, List.length_dropLast]
      omega
    · change Function.update (Function.update st3.used (a + j) 1) (a + j) 0 k = _
      rw [Function.update_of_ne (by omega), Function.update_of_ne (by omega), s2.used k (by omega), hup k hk]
    · have := s2.change
      simp only [hst4]
      omega
    · rw [← hcol1 i hi]
      funext τ
      simp only [hst4, setCol, reset]
      rw [if_neg (by omega), if_neg (by omega), if_neg (by omega), s2.col i hi]
  · -- the null has an identifier of 64 bits
    have hno : ¬ ∃ i, .rep i ∈ instrs := fun h => absurd (hv1.symm.trans (hrep0 h)) (by decide)
    have hc1 : (st1.scan.col j 0).next.1 = none := by
      refine next_nothing ?_
      simp [hst1, ht1, reset, setNull, hv1]
    have i1 := absent_first (cops := cops) (ctypes := ctypes) (instrs := instrs) (fresh := fresh) (st := st1) (j := j)
      rfl (by simp [hst1]) hc1
    set st2 : RowSt (NullSt S α D) α := ⟨⟨st1.scan.child, st1.scan.dict, st1.scan.cache.dropLast, a + j + 1,
      reset (setCol st1.scan.col j 0 (st1.scan.col j 0).next.2) j 1⟩, Function.update st1.used (a + j) 1, st1.single, st1.row,
      min (a + j) st1.change⟩ with hst2
    have hcol2 : ∀ i < j, st2.scan.col i = st.scan.col i := by
      intro i hi
      rw [← hcol1 i hi]
      funext τ
      simp only [hst2, setCol, reset]
      rw [if_neg (by omega), if_neg (by omega)]
    have hup2 : ∀ k < a + j, st2.used k = st.used k := fun k hk => by
      rw [← hup k hk]; exact Function.update_of_ne (by omega) _ _
    obtain ⟨st3, s1, s2, s3⟩ := present hjn ih (st := st2) (u := 1) (v := v) (c := c) hrow hacc rfl hA.child rfl
      (by simp only [hst2, hst1, ht1, List.dropLast_concat]; omega)
      (fun hr => absurd hr hno)
      (by simp [hst2]) (by rw [hv1]; rfl)
      (by simp [hst2, hst1, ht1, reset, setNull, setCol, hv1])
      (hent1 st2 rfl hcol2 hup2) hrest hz
    have hu3 : st3.used (a + j) = 1 := by rw [s2.used _ (by omega)]; simp [hst2]
    have hc3 : st3.scan.col j 1 = ⟨some v, .value⟩ := by
      rw [s3]; simp [setCol, hv1]
    have i2 := absent_last (cops := cops) (ctypes := ctypes) (instrs := instrs) (fresh := fresh) (st := st3) (j := j)
      (by rw [s2.depth]; omega) hu3 (next_value hc3)
    have hd3 : st3.scan.depth ≠ 0 := by rw [s2.depth]; omega
    have s4 := RowCfg.Steps.quiet (Nat.succ_ne_zero _) i1 (s1.trans (.quiet hd3 i2 (.refl _)))
    have hch : min (a + j) st2.change = min (a + j) st.change := by
      simp only [hst2, hst1]
      omega
    rw [hch] at s4
    refine ⟨st1, _, hfirst, s4, rfl, s2.child, s2.dict, ?_, fun k hk => ?_, ?_, fun i hi => ?_⟩
    · have := s2.cache
      simp only [List.length_dropLast]
      omega
    · change Function.update st3.used (a + j) 0 k = _
      rw [Function.update_of_ne (by omega), s2.used k (by omega), hup2 k hk]
    · have := s2.change
      change a + j ≤ min (a + j) st3.change + 1
      omega
    · rw [← hcol2 i hi]
      funext τ
      simp only [setCol]
      rw [if_neg (by omega), s2.col i hi]

/-- **Below every row, the nulls of the row are visited.** -/
theorem visit (hty : ∀ d, ty (fresh d).1 = 0 ∨ ty (fresh d).1 = 1) :
    ∀ (n j : Nat), j + n + 1 = instrs.length → ∀ (st : RowSt (NullSt S α D) α) (row acc : List α) (c : S) (d : D) (acc' : List α) (d' : D),
      row.length = a → At cops ctypes a instrs fresh st j (row ++ acc) c d → nulls fresh (instrs.drop j) acc d = some (acc', d') →
      ((∃ i, .rep i ∈ instrs) → ∀ w ∈ acc', ty w = 0) →
      ∃ st1 st', (cfg cops ctypes a instrs fresh).downFirst st (a + j) = some st1 ∧
        RowCfg.Steps (cfg cops ctypes a instrs fresh) st1 [(row ++ acc', min (a + j) st.change)] st' ∧ After a st st' j j c d' := by
  intro n
  induction n with
  | zero =>
    intro j hj
    exact visit_step (n := 0) hty hj fun h => absurd h (by omega)
  | succ n ih =>
    intro j hj
    exact visit_step (n := n + 1) hty hj fun _ => ih (j + 1) (by omega)

/-! ### Following the scan of the input -/

/-- the row scan over the input -/
def inner (cops : TrieOps S α) (ctypes : Nat → List Ty) (a : Nat) : RowCfg S α := ⟨cops, a, ctypes, 0, a⟩

/-- A state of the row scan over the input and one of the row scan over the operator, which has not entered a new column. -/
structure Rel (cops : TrieOps S α) (a : Nat) (sc : RowSt S α) (sn : RowSt (NullSt S α D) α) : Prop where
  child : sn.scan.child = sc.scan
  depth : sn.scan.depth = cops.depth sc.scan
  cache : sn.scan.cache = []
  used : ∀ k < a, sn.used k = sc.used k
  change : min (a - 1) sn.change = min (a - 1) sc.change

/-- append the nulls to a list of rows with other data -/
def extend {β : Type} (fresh : D → α × D) (instrs : List NullInstr) : List (List α × β) → D → Option (List (List α × β) × D)
  | [], d => some ([], d)
  | (r, b) :: es, d => (nulls fresh instrs [] d).bind fun x => (extend fresh instrs es x.2).map fun y => ((r ++ x.1, b) :: y.1, y.2)

theorem types_child {k : Nat} (hk : k < a) : types ctypes a k = ctypes k := if_pos hk

theorem next_child {t : NullSt S α D} {k : Nat} (hd : t.depth = k + 1) (hk : k < a) (τ : Ty) :
    (ops cops a instrs fresh).next t τ = (cops.next t.child τ).map fun r => (r.1, { t with child := r.2 }) := by
  simp only [ops, next, hd, Nat.add_sub_cancel, if_pos hk]

theorem up_child {t : NullSt S α D} {k : Nat} (hd : t.depth = k + 1) (hk : k < a) :
    (ops cops a instrs fresh).up t = (cops.up t.child).map fun c => { t with child := c, depth := k } := by
  simp only [ops, up, hd, Nat.add_sub_cancel, if_pos hk]
  rw [if_neg (by omega)]

theorem down_child {t : NullSt S α D} (hk : t.depth < a) (τ : Ty) :
    (ops cops a instrs fresh).down t τ = (cops.down t.child τ).map fun c => { t with child := c, depth := t.depth + 1 } := by
  simp only [ops, down, if_pos hk]

section
variable {ch : List α → Ty → List α} {R : S → TPath α → Prop}

theorem rel_step {sc sc' : RowSt S α} {sn : RowSt (NullSt S α D) α} {k : Nat} {τ : Ty} {o : Option α} {s1 : S} (hka : k < a)
    (hr : Rel cops a sc sn) (hn : cops.next sc.scan τ = some (o, s1)) (hd : cops.depth sc.scan = k + 1)
    (ht : (ctypes k)[sc.used k]? = some τ) :
    ((cfg cops ctypes a instrs fresh).types k)[sn.used k]? = some τ ∧
      (cfg cops ctypes a instrs fresh).ops.next sn.scan τ = some (o, { sn.scan with child := s1 }) := by
  refine ⟨?_, ?_⟩
  · simp only [cfg, types_child hka, hr.used k hka, ht]
  · have := next_child (cops := cops) (instrs := instrs) (fresh := fresh) (t := sn.scan) (k := k) (by rw [hr.depth, hd]) hka τ
    simp only [cfg]
    rw [this, hr.child, hn]
    rfl

/-- Iterations without a row are followed. -/
theorem quiet_sim (hO : RowCfg.OK (inner cops ctypes a) ch R) (ha : 0 < a) (hi : instrs ≠ []) {sc sc1 : RowSt S α}
    {sn : RowSt (NullSt S α D) α} {τ : Ty} {c : Cur α} {p : TPath α} (hG : RowCfg.Good (inner cops ctypes a) R sc ((τ, c) :: p))
    (hf : p.full) (hr : Rel cops a sc sn) (h : (inner cops ctypes a).iter sc = some (false, sc1)) :
    (∃ sn1, (cfg cops ctypes a instrs fresh).iter sn = some (false, sn1) ∧ Rel cops a sc1 sn1 ∧ sn1.scan.dict = sn.scan.dict) ∧
      ∃ q, RowCfg.Good (inner cops ctypes a) R sc1 q ∧ TPath.full q.tail := by
  obtain ⟨hd, hda⟩ := hO.sim.depth _ _ hG.rel
  have hd' : cops.depth sc.scan = p.length + 1 := by simpa [inner] using hd
  have hka : p.length < a := hda
  have hil : 0 < instrs.length := List.length_pos_of_ne_nil hi
  obtain ⟨s1, e1, e2⟩ := hO.sim.next _ _ _ _ hG.rel
  rw [RowCfg.next_current] at e1
  have ht : (ctypes p.length)[sc.used p.length]? = some τ := hG.used.1
  have hndepth : (cfg cops ctypes a instrs fresh).ops.depth sn.scan = p.length + 1 := hr.depth.trans hd'
  have hmin : min p.length sn.change = min p.length sc.change := by have := hr.change; omega
  cases hc : c.next.rem with
  | nil =>
    rw [hc, List.head?_nil] at e1
    have e1' : cops.next sc.scan τ = some (none, s1) := e1
    obtain ⟨s2, e3, e4⟩ := hO.sim.up _ _ _ e2
    have e3' : cops.up s1 = some s2 := e3
    obtain ⟨hnt, hnn⟩ := rel_step (ctypes := ctypes) (instrs := instrs) (fresh := fresh) (sc' := sc) hka hr e1' hd' ht
    have hnu := up_child (cops := cops) (instrs := instrs) (fresh := fresh) (t := { sn.scan with child := s1 }) (k := p.length)
      (by rw [show ({ sn.scan with child := s1 } : NullSt S α D).depth = sn.scan.depth from rfl, hr.depth, hd']) hka
    rw [show ({ sn.scan with child := s1 } : NullSt S α D).child = s1 from rfl, e3', Option.map_some] at hnu
    have hci := RowCfg.iter_absent (cfg := inner cops ctypes a) hd' ht e1 e3
    have hni := RowCfg.iter_absent (cfg := cfg cops ctypes a instrs fresh) hndepth hnt hnn hnu
    obtain ⟨st₁, g1, g2, g3, g4, g5, g6⟩ := RowCfg.iter_none hO.sim hG hf hc
    rw [h] at g1
    obtain ⟨-, rfl⟩ : false = false ∧ sc1 = st₁ := by simpa using g1
    refine ⟨?_, ?_⟩
    · rw [hni]
      rw [h] at hci
      obtain ⟨y, hy, hy2⟩ := Option.map_eq_some_iff.1 hci.symm
      cases hy2
      clear hci hni g1 h
      simp only [RowCfg.downNext, inner] at hy
      simp only [RowCfg.downNext, cfg, types_child hka, hr.used _ hka]
      by_cases hend : sc.used p.length + 1 = (ctypes p.length).length
      · simp only [hend, if_true] at hy ⊢
        cases hy
        refine ⟨_, rfl, ⟨rfl, ?_, hr.cache, fun k hk => ?_, ?_⟩, rfl⟩
        · exact (hO.sim.depth _ _ e4).1.symm
        · simp only [RowCfg.setUsed, Function.update_apply, hr.used k hk]
        · simp only [RowCfg.setUsed]; omega
      · simp only [hend, if_false] at hy ⊢
        cases hty : (ctypes p.length)[sc.used p.length + 1]? with
        | none => rw [hty] at hy; cases hy
        | some τ' =>
          rw [hty] at hy
          simp only [Option.bind_eq_bind, Option.bind_some] at hy ⊢
          obtain ⟨s3, e5, e6⟩ := hO.sim.down _ _ τ' e4 hf hka
          have e5' : cops.down s2 τ' = some s3 := e5
          rw [e5'] at hy
          simp only [Option.bind_some] at hy
          cases hy
          have hnd := down_child (cops := cops) (instrs := instrs) (fresh := fresh)
            (t := (⟨s2, sn.scan.dict, sn.scan.cache, p.length, sn.scan.col⟩ : NullSt S α D)) hka τ'
          rw [show (⟨s2, sn.scan.dict, sn.scan.cache, p.length, sn.scan.col⟩ : NullSt S α D).child = s2 from rfl, e5',
            Option.map_some] at hnd
          rw [hnd]
          refine ⟨_, rfl, ⟨rfl, ?_, hr.cache, fun k hk => ?_, ?_⟩, rfl⟩
          · exact (hO.sim.depth _ _ e6).1.symm
          · simp only [RowCfg.setUsed, Function.update_apply, hr.used k hk]
          · simp only [RowCfg.setUsed]; omega
    · rcases g6 with ⟨-, g⟩ | ⟨τ', -, -, g⟩
      · refine ⟨p, g, fun e he => hf e (List.mem_of_mem_tail he)⟩
      · exact ⟨_, g, hf⟩
  | cons v l =>
    by_cases hlast : p.length + 1 = a
    · obtain ⟨st₁, g1, -⟩ := RowCfg.iter_emit hO.sim hO.ex hO.cols hG hf hc hlast
      rw [h] at g1
      simp at g1
    · obtain ⟨τ₀, hτ₀⟩ : ∃ τ₀, (ctypes (p.length + 1))[0]? = some τ₀ := by
        have := hO.ne (p.length + 1) (by simp [inner]; omega)
        change ctypes (p.length + 1) ≠ [] at this
        cases h : ctypes (p.length + 1) with
        | nil => exact absurd h this
        | cons x l => exact ⟨x, rfl⟩
      obtain ⟨st₁, g1, g2, g3, g4, g5, g6, g7⟩ := RowCfg.iter_down hO.sim hG hf hc (by simp [inner]; omega) hτ₀
      rw [h] at g1
      obtain ⟨-, rfl⟩ : false = false ∧ sc1 = st₁ := by simpa using g1
      refine ⟨?_, ⟨_, g7, GScan.full_cons.mpr ⟨rfl, hf⟩⟩⟩
      rw [RowCfg.next_at, hc] at e2
      rw [hc, List.head?_cons] at e1
      have e1' : cops.next sc.scan τ = some (some v, s1) := e1
      obtain ⟨hnt, hnn⟩ := rel_step (ctypes := ctypes) (instrs := instrs) (fresh := fresh) (sc' := sc) hka hr e1' hd' ht
      have hci := RowCfg.iter_deeper (cfg := inner cops ctypes a) hd' ht e1 (by simp only [inner]; omega)
      have hni := RowCfg.iter_deeper (cfg := cfg cops ctypes a instrs fresh) hndepth hnt hnn (by simp only [cfg]; omega)
      rw [hni]
      rw [h] at hci
      obtain ⟨y, hy, hy2⟩ := Option.map_eq_some_iff.1 hci.symm
      cases hy2
      obtain ⟨s3, e5, e6⟩ := hO.sim.down _ _ τ₀ e2 (GScan.full_cons.mpr ⟨rfl, hf⟩) (by simp [inner]; omega)
      have e5' : cops.down s1 τ₀ = some s3 := e5
      simp only [RowCfg.downFirst, inner, hτ₀, Option.bind_eq_bind, Option.bind_some, e5'] at hy
      cases hy
      have hnd := down_child (cops := cops) (instrs := instrs) (fresh := fresh) (t := { sn.scan with child := s1 })
        (show sn.scan.depth < a by rw [hr.depth, hd']; omega) τ₀
      rw [show ({ sn.scan with child := s1 } : NullSt S α D).child = s1 from rfl, e5', Option.map_some] at hnd
      have ht0 : (types ctypes a (p.length + 1))[0]? = some τ₀ := by rw [types_child (by omega), hτ₀]
      simp only [RowCfg.downFirst, cfg, ht0, Option.bind_eq_bind, Option.bind_some, hnd]
      refine ⟨_, rfl, ⟨rfl, ?_, hr.cache, fun k hk => ?_, ?_⟩, rfl⟩
      · have := (hO.sim.depth _ _ e6).1
        change cops.depth s3 = _ at this
        simp only [RowCfg.setUsed]
        rw [this, hr.depth, hd']
        simp
      · simp only [RowCfg.setUsed, Function.update_apply, hr.used k hk]
      · simp only [RowCfg.setUsed]; omega

theorem mapM_range_getElem {β : Type} {f : Nat → Option β} {n : Nat} {l : List β} (h : (List.range n).mapM f = some l) :
    l.length = n ∧ ∀ k < n, f k = l[k]? := by
  induction n generalizing l with
  | zero => cases h; exact ⟨rfl, fun k hk => absurd hk (by omega)⟩
  | succ n ih =>
    rw [List.range_succ, List.mapM_append] at h
    cases h1 : (List.range n).mapM f with
    | none => rw [h1] at h; cases h
    | some l1 =>
      cases h2 : f n with
      | none => simp [h1, h2] at h
      | some b =>
        simp only [h1, List.mapM_cons, List.mapM_nil, h2, Option.bind_eq_bind, Option.bind_some, Option.pure_def,
          Option.some.injEq] at h
        obtain ⟨g1, g2⟩ := ih h1
        subst h
        refine ⟨by simp [g1], fun k hk => ?_⟩
        by_cases hkn : k < n
        · rw [List.getElem?_append_left (by omega), g2 k hkn]
        · obtain rfl : k = n := by omega
          rw [List.getElem?_append_right (by omega), g1, Nat.sub_self, h2]
          rfl

/-- Iterations with a row are followed by visiting the row with its nulls. -/
theorem emit_sim (hty : ∀ d, ty (fresh d).1 = 0 ∨ ty (fresh d).1 = 1)
    (hO : RowCfg.OK (inner cops ctypes a) ch R) (ha : 0 < a) (hi : instrs ≠ []) {sc sc1 : RowSt S α}
    {sn : RowSt (NullSt S α D) α} {τ : Ty} {c : Cur α} {p : TPath α} (hG : RowCfg.Good (inner cops ctypes a) R sc ((τ, c) :: p))
    (hf : p.full) (hr : Rel cops a sc sn) (h : (inner cops ctypes a).iter sc = some (true, sc1)) {ns : List α} {d' : D}
    (hn : nulls fresh instrs [] sn.scan.dict = some (ns, d')) (hz : (∃ i, .rep i ∈ instrs) → ∀ w ∈ ns, ty w = 0) :
    (∃ sn1, RowCfg.Steps (cfg cops ctypes a instrs fresh) sn [(sc1.row ++ ns, sc1.change)] sn1 ∧
        Rel cops a { sc1 with change := a - 1 } sn1 ∧ sn1.scan.dict = d') ∧
      ∃ q, RowCfg.Good (inner cops ctypes a) R { sc1 with change := a - 1 } q ∧ TPath.full q.tail := by
  obtain ⟨hd, hda⟩ := hO.sim.depth _ _ hG.rel
  have hd' : cops.depth sc.scan = p.length + 1 := by simpa [inner] using hd
  have hka : p.length < a := hda
  have hil : 0 < instrs.length := List.length_pos_of_ne_nil hi
  obtain ⟨s1, e1, e2⟩ := hO.sim.next _ _ _ _ hG.rel
  rw [RowCfg.next_current] at e1
  have ht : (ctypes p.length)[sc.used p.length]? = some τ := hG.used.1
  have hndepth : (cfg cops ctypes a instrs fresh).ops.depth sn.scan = p.length + 1 := hr.depth.trans hd'
  cases hc : c.next.rem with
  | nil =>
    obtain ⟨st₁, g1, -⟩ := RowCfg.iter_none hO.sim hG hf hc
    rw [h] at g1
    simp at g1
  | cons v l =>
    by_cases hlast : p.length + 1 = a
    · obtain ⟨st₁, g1, g2, g3, g4, g5, g6⟩ := RowCfg.iter_emit hO.sim hO.ex hO.cols hG hf hc hlast
      rw [h] at g1
      obtain ⟨-, rfl⟩ : true = true ∧ sc1 = st₁ := by simpa using g1
      have g6' : RowCfg.Good (inner cops ctypes a) R sc1 ((τ, .at (v :: l)) :: p) := g6
      refine ⟨?_, ⟨_, ⟨g6'.rel, g6'.used⟩, hf⟩⟩
      rw [RowCfg.next_at, hc] at e2
      rw [hc, List.head?_cons] at e1
      have e1' : cops.next sc.scan τ = some (some v, s1) := e1
      obtain ⟨hnt, hnn⟩ := rel_step (ctypes := ctypes) (instrs := instrs) (fresh := fresh) (sc' := sc) hka hr e1' hd' ht
      have hci := RowCfg.iter_found (cfg := inner cops ctypes a) hd' ht e1 (by simp only [inner]; omega)
      have hni := RowCfg.iter_deeper (cfg := cfg cops ctypes a instrs fresh) hndepth hnt hnn (by simp only [cfg]; omega)
      rw [h] at hci
      obtain ⟨y, hy, hy2⟩ := Option.map_eq_some_iff.1 hci.symm
      cases hy2
      simp only [RowCfg.emit, inner, RowCfg.ups, Option.bind_eq_bind] at hy
      obtain ⟨row, hrow, hy⟩ := Option.bind_eq_some_iff.1 hy
      simp only [Option.bind_some] at hy
      cases hy
      obtain ⟨hl, hent⟩ := mapM_range_getElem hrow
      set st2 : RowSt (NullSt S α D) α :=
        { sn with change := min p.length sn.change, scan := { sn.scan with child := s1 } } with hst2
      have hmin : min p.length sn.change = min p.length sc.change := by have := hr.change; omega
      have hA : At cops ctypes a instrs fresh st2 0 (row ++ []) s1 sn.scan.dict := by
        refine ⟨?_, rfl, rfl, ?_, fun _ => ?_, by simpa using hl, fun k hk => ?_⟩
        · change sn.scan.depth = a + 0
          rw [hr.depth, hd']; omega
        · change sn.scan.cache.length ≤ 0
          rw [hr.cache]; rfl
        · rw [List.append_nil, List.drop_eq_nil_of_le (by omega)]
          exact ⟨hr.cache, by simp⟩
        · rw [List.append_nil, ← hent k (by omega)]
          simp only [RowCfg.rowEntry, RowCfg.curType, cfg, types_child (show k < a by omega), ops, if_pos (show k < a by omega)]
          rw [show st2.used k = sc.used k from hr.used k (by omega)]
      obtain ⟨sn1, sn2, v1, v2, v3⟩ := visit (n := instrs.length - 1) (j := 0) hty (by omega) st2 row [] s1 sn.scan.dict ns d' hl
        hA hn hz
      rw [show p.length + 1 = a + 0 by omega, v1, Option.map_some] at hni
      refine ⟨sn2, ?_, ⟨v3.child, ?_, ?_, fun k hk => ?_, ?_⟩, v3.dict⟩
      · have hm : min (a + 0) st2.change = min p.length sc.change := by
          simp only [hst2]; omega
        rw [hm] at v2
        refine .quiet ?_ hni v2
        rw [hndepth]; omega
      · rw [v3.depth]
        have := (hO.sim.depth _ _ e2).1
        change cops.depth s1 = _ at this
        simp only [this, List.length_cons]
        omega
      · have := v3.cache
        exact List.eq_nil_of_length_eq_zero (by omega)
      · rw [v3.used k (by omega)]
        exact hr.used k hk
      · have := v3.change
        simp only
        omega
    · obtain ⟨τ₀, hτ₀⟩ : ∃ τ₀, (ctypes (p.length + 1))[0]? = some τ₀ := by
        have := hO.ne (p.length + 1) (by simp [inner]; omega)
        change ctypes (p.length + 1) ≠ [] at this
        cases h : ctypes (p.length + 1) with
        | nil => exact absurd h this
        | cons x l => exact ⟨x, rfl⟩
      obtain ⟨st₁, g1, -⟩ := RowCfg.iter_down hO.sim hG hf hc (by simp [inner]; omega) hτ₀
      rw [h] at g1
      simp at g1

theorem steps_sim (hty : ∀ d, ty (fresh d).1 = 0 ∨ ty (fresh d).1 = 1)
    (hO : RowCfg.OK (inner cops ctypes a) ch R) (ha : 0 < a) (hi : instrs ≠ []) {sc sc' : RowSt S α} {es : List (List α × Nat)}
    (h : RowCfg.Steps (inner cops ctypes a) sc es sc') :
    ∀ {sn : RowSt (NullSt S α D) α}, Rel cops a sc sn → (∃ q, RowCfg.Good (inner cops ctypes a) R sc q ∧ TPath.full q.tail) →
      ∀ {es' : List (List α × Nat)} {d' : D}, extend fresh instrs es sn.scan.dict = some (es', d') →
      ((∃ i, .rep i ∈ instrs) → ∀ e ∈ es', ∀ w ∈ e.1.drop a, ty w = 0) →
      ∃ sn', RowCfg.Steps (cfg cops ctypes a instrs fresh) sn es' sn' ∧ Rel cops a sc' sn' ∧ sn'.scan.dict = d' := by
  induction h with
  | refl st =>
    intro sn hr hg es' d' he hz
    cases he
    exact ⟨sn, .refl _, hr, rfl⟩
  | @quiet st st₁ es st₂ hd hit _ ih =>
    intro sn hr ⟨q, hG, hf⟩ es' d' he hz
    cases q with
    | nil => exact absurd (hO.sim.depth _ _ hG.rel).1 hd
    | cons e p =>
      obtain ⟨τ, c⟩ := e
      obtain ⟨⟨sn1, h1, h2, h3⟩, h4⟩ := quiet_sim (instrs := instrs) (fresh := fresh) hO ha hi hG hf hr hit
      rw [← h3] at he
      obtain ⟨sn', g1, g2⟩ := ih h2 h4 he hz
      refine ⟨sn', .quiet ?_ h1 g1, g2⟩
      change sn.scan.depth ≠ 0
      rw [hr.depth]
      exact hd
  | @emit st st₁ es st₂ hd hit h1 h2 h3 _ ih =>
    intro sn hr ⟨q, hG, hf⟩ es' d' he hz
    cases q with
    | nil => exact absurd (hO.sim.depth _ _ hG.rel).1 hd
    | cons e p =>
      obtain ⟨τ, c⟩ := e
      simp only [extend] at he
      obtain ⟨⟨ns, d1⟩, hns, he⟩ := Option.bind_eq_some_iff.1 he
      obtain ⟨⟨es1, d2⟩, hes, he⟩ := Option.map_eq_some_iff.1 he
      cases he
      have hra : st₁.row.length = a := h1
      obtain ⟨⟨sn1, k1, k2, k3⟩, k4⟩ := emit_sim hty hO ha hi hG hf hr hit hns
        (fun h w hw => hz h (st₁.row ++ ns, st₁.change) List.mem_cons_self w (by simp only [← hra, List.drop_left]; exact hw))
      simp only at hes
      rw [← k3] at hes
      obtain ⟨sn', g1, g2⟩ := ih k2 k4 hes (fun h e he => hz h e (by simp [he]))
      exact ⟨sn', k1.trans g1, g2⟩

/-- The rows that are listed by a row scan over the operator. -/
theorem collect_null (hty : ∀ d, ty (fresh d).1 = 0 ∨ ty (fresh d).1 = 1)
    (hS : Simulates cops a ch R) (hnd : ∀ p, (kidsAt ctypes ch p).Nodup) (ha : 0 < a) (hi : instrs ≠ []) {s : S} (hs : R s [])
    (d0 : D) (x : α) {es' : List (List α × Nat)} {d' : D}
    (he : extend fresh instrs ((attach 0 (extendable ctypes ch a 0)).map (RowCfg.out (inner cops ctypes a))) d0 = some (es', d'))
    (hz : (∃ i, .rep i ∈ instrs) → ∀ e ∈ es', ∀ w ∈ e.1.drop a, ty w = 0) :
    (cfg cops ctypes a instrs fresh).collect ((cfg cops ctypes a instrs fresh).new (NullSt.new s d0) x) = some es' := by
  have hil : 0 < instrs.length := List.length_pos_of_ne_nil hi
  by_cases hne : ∀ k < a, ctypes k ≠ []
  · have hO : RowCfg.OK (inner cops ctypes a) ch R :=
      ⟨hS, by simp [inner], by simp [inner], by simpa [inner] using ha, by simp [inner], hne, hnd⟩
    obtain ⟨st, τ, e1, e2, e3, e4, e5⟩ := RowCfg.enter_spec hO hs x ha
    have hfull : TPath.full ([] : TPath α) := by intro e he; cases he
    obtain ⟨n, rfl⟩ : ∃ n, a = n + 1 := ⟨a - 1, by omega⟩
    have hG : RowCfg.Good (inner cops ctypes (n + 1)) R { st with change := n } [(τ, .fresh (ch [] τ))] := ⟨e4.rel, e4.used⟩
    obtain ⟨st', a1, a2, _, _, _⟩ := RowCfg.layer_spec hO n (RowCfg.child_spec hO n) _ { st with change := n } τ _ [] le_rfl hG hfull
      (by simp [inner]) (by rw [e5]; exact hO.nodup _) _ rfl
    have hp : TPath.pref ([] : TPath α) = [] := rfl
    rw [e5, hp, ← dfs_succ, List.length_nil, Nat.zero_min] at a1
    have hd0 : cops.depth s = 0 := (hS.depth _ _ hs).1
    -- entering the first column
    obtain ⟨τ₀, hτ₀⟩ : ∃ τ₀, (ctypes 0)[0]? = some τ₀ := by
      have := hne 0 ha
      cases h : ctypes 0 with
      | nil => exact absurd h this
      | cons x l => exact ⟨x, rfl⟩
    obtain ⟨s1, f1, f2⟩ := hS.down _ _ τ₀ hs hfull ha
    have hst : st = ⟨s1, Function.update (fun _ => 0) 0 0, .before, List.replicate (n + 1) x, 0⟩ := by
      simp only [RowCfg.enter, RowCfg.new, inner, hd0, if_true, RowCfg.downFirst, hτ₀, Option.bind_eq_bind, Option.bind_some, f1] at e1
      exact (Option.some.inj e1).symm
    have hdn := down_child (cops := cops) (instrs := instrs) (fresh := fresh) (t := (NullSt.new s d0 : NullSt S α D)) ha τ₀
    rw [show (NullSt.new s d0 : NullSt S α D).child = s from rfl, f1, Option.map_some] at hdn
    have hne' : (cfg cops ctypes (n + 1) instrs fresh).empty = false := by
      simp only [RowCfg.empty, Bool.or_eq_false_iff, beq_eq_false_iff_ne, ne_eq, List.any_eq_false, List.mem_range, List.isEmpty_iff]
      refine ⟨by simp [cfg], fun k hk => ?_⟩
      simp only [cfg]
      by_cases hka : k < n + 1
      · rw [types_child hka]; exact hne k hka
      · obtain ⟨j, rfl⟩ := Nat.exists_eq_add_of_le (Nat.le_of_not_lt hka)
        rw [types_null]; simp
    set sn : RowSt (NullSt S α D) α := ⟨{ (NullSt.new s d0 : NullSt S α D) with child := s1, depth := 1 },
      Function.update (fun _ => 0) 0 0, .before, List.replicate (n + 1 + instrs.length) x, n + 1 + instrs.length - 1⟩ with hsn
    have hent : (cfg cops ctypes (n + 1) instrs fresh).enter ((cfg cops ctypes (n + 1) instrs fresh).new (NullSt.new s d0) x) =
        some { sn with change := 0 } := by
      rw [RowCfg.enter, if_pos (show (cfg cops ctypes (n + 1) instrs fresh).ops.depth
        ((cfg cops ctypes (n + 1) instrs fresh).new (NullSt.new s d0) x).scan = 0 from rfl)]
      simp only [RowCfg.new, RowCfg.downFirst]
      simp only [cfg, types_child ha, hτ₀, Option.bind_eq_bind, Option.bind_some, hdn]
      rfl
    have hcoll : (cfg cops ctypes (n + 1) instrs fresh).collect ((cfg cops ctypes (n + 1) instrs fresh).new (NullSt.new s d0) x) =
        RowCfg.cont (cfg cops ctypes (n + 1) instrs fresh) sn := by
      rw [RowCfg.collect, RowCfg.advance, hne', if_neg (by simp), if_neg (by simp [RowCfg.new]), hent]
      simp only [Option.bind_eq_bind, Option.bind_some, usub, RowCfg.cont, hsn, List.length_replicate]
      rw [if_pos (by omega)]
      rfl
    rw [hcoll]
    have hrel : Rel cops (n + 1) { st with change := n } sn := by
      subst hst
      refine ⟨rfl, ?_, rfl, fun k _ => rfl, ?_⟩
      · exact ((hS.depth _ _ f2).1).symm
      · simp only [hsn]; omega
    obtain ⟨sn', b1, b2, b3⟩ := steps_sim hty hO ha hi a1 hrel ⟨_, hG, hfull⟩ he hz
    refine RowCfg.cont_steps hne' (by simp [cfg]) (by simp only [cfg]; omega) b1 ?_
    change sn'.scan.depth = 0
    rw [b2.depth]
    exact (hO.sim.depth _ _ a2.rel).1
  · push Not at hne
    obtain ⟨k, hk, ht⟩ := hne
    have h1 : extendable ctypes ch a 0 = [] := RowCfg.dfs_empty ht _ _ (by simp) (by simpa using hk)
    rw [h1] at he
    cases he
    exact RowCfg.collect_empty (k := k) (by simp only [cfg]; omega) (by simp only [cfg, types_child hk, ht]) rfl x

/-- For an input without columns there is one row of nulls. -/
theorem collect_null_zero (hty : ∀ d, ty (fresh d).1 = 0 ∨ ty (fresh d).1 = 1)
    (hi : instrs ≠ []) (s : S) (d0 : D) (x : α) {ns : List α} {d' : D}
    (hn : nulls fresh instrs [] d0 = some (ns, d')) (hz : (∃ i, .rep i ∈ instrs) → ∀ w ∈ ns, ty w = 0) :
    (cfg cops ctypes 0 instrs fresh).collect ((cfg cops ctypes 0 instrs fresh).new (NullSt.new s d0) x) = some [(ns, 0)] := by
  have hil : 0 < instrs.length := List.length_pos_of_ne_nil hi
  set sn : RowSt (NullSt S α D) α := (cfg cops ctypes 0 instrs fresh).new (NullSt.new s d0) x with hsn
  have hl : sn.row.length = 0 + instrs.length := by simp [hsn, RowCfg.new, cfg]
  have hA : At cops ctypes 0 instrs fresh sn 0 ([] ++ []) s d0 :=
    ⟨rfl, rfl, rfl, Nat.le_refl _, fun _ => ⟨rfl, by simp⟩, rfl, fun k hk => absurd hk (by omega)⟩
  obtain ⟨sn1, sn2, v1, v2, v3⟩ := visit (n := instrs.length - 1) (j := 0) hty (by omega) sn [] [] s d0 ns d' rfl hA hn hz
  have hne' : (cfg cops ctypes 0 instrs fresh).empty = false := by
    simp only [RowCfg.empty, Bool.or_eq_false_iff, beq_eq_false_iff_ne, ne_eq, List.any_eq_false, List.mem_range, List.isEmpty_iff]
    refine ⟨by simp [cfg, hi], fun k hk => ?_⟩
    simp only [cfg]
    rw [show types ctypes 0 k = [0, 1] from if_neg (by omega)]
    simp
  have h0 : (cfg cops ctypes 0 instrs fresh).ops.depth sn.scan = 0 := rfl
  replace v1 : (cfg cops ctypes 0 instrs fresh).downFirst sn 0 = some sn1 := v1
  -- the changes are set after entering the first column
  obtain ⟨sn3, sn4, w1, w2, w3⟩ := visit (n := instrs.length - 1) (j := 0) hty (by omega)
    { sn with change := 0 + instrs.length - 1 } [] [] s d0 ns d' rfl
    (⟨rfl, rfl, rfl, Nat.le_refl _, fun _ => ⟨rfl, by simp⟩, rfl, fun k hk => absurd hk (by omega)⟩ :
      At cops ctypes 0 instrs fresh { sn with change := 0 + instrs.length - 1 } 0 ([] ++ []) s d0) hn hz
  have hdf : ∀ (c : Nat) (st : RowSt (NullSt S α D) α), (cfg cops ctypes 0 instrs fresh).downFirst { st with change := c } 0 =
      ((cfg cops ctypes 0 instrs fresh).downFirst st 0).map fun y => { y with change := c } := by
    intro c st
    simp only [RowCfg.downFirst, Option.bind_eq_bind]
    cases ((cfg cops ctypes 0 instrs fresh).types 0)[0]? with
    | none => rfl
    | some τ =>
      simp only [Option.bind_some]
      cases (cfg cops ctypes 0 instrs fresh).ops.down st.scan τ <;> rfl
  have hrowdf : ∀ (st st' : RowSt (NullSt S α D) α), (cfg cops ctypes 0 instrs fresh).downFirst st 0 = some st' → st'.row = st.row := by
    intro st st' h
    simp only [RowCfg.downFirst, Option.bind_eq_bind] at h
    obtain ⟨τ, -, h⟩ := Option.bind_eq_some_iff.1 h
    obtain ⟨s, -, h⟩ := Option.bind_eq_some_iff.1 h
    cases h
    rfl
  replace w1 : (cfg cops ctypes 0 instrs fresh).downFirst { sn with change := 0 + instrs.length - 1 } 0 = some sn3 := w1
  rw [hdf, v1, Option.map_some] at w1
  cases w1
  have hcoll : (cfg cops ctypes 0 instrs fresh).collect sn =
      RowCfg.cont (cfg cops ctypes 0 instrs fresh) { sn1 with change := instrs.length - 1 } := by
    rw [RowCfg.collect, RowCfg.advance, hne', if_neg (by simp), if_neg (by simp [hsn, RowCfg.new]), RowCfg.enter, if_pos h0, v1]
    simp only [Option.bind_eq_bind, Option.bind_some, usub, RowCfg.cont, hrowdf _ _ v1, hl, Nat.zero_add]
    rw [if_pos (by omega)]
    rfl
  rw [hcoll]
  simp only [List.length_nil, Nat.zero_add, Nat.add_zero, Nat.zero_min, List.nil_append] at w2
  refine RowCfg.cont_steps hne' (by simpa [cfg] using hil) (by simp only [cfg]; omega) w2 ?_
  exact w3.depth

end

/-! ### The nulls of a row -/

section
variable [DecidableEq V]

/-- The instructions for the markers `suf`, after those for `pre`. -/
def instrsFrom : List V → List V → List NullInstr
  | _, [] => []
  | pre, m :: suf => (if m ∈ pre then .rep (pre.idxOf m) else .fresh) :: instrsFrom (pre ++ [m]) suf

theorem instrsFrom_eq (input : List V) (pre suf : List V) (h : ∀ m ∈ suf, m ∉ input) :
    ((suf.zipIdx (input.length + pre.length)).map fun x =>
      if (input ++ (pre ++ suf)).idxOf x.1 = x.2 then NullInstr.fresh else .rep ((input ++ (pre ++ suf)).idxOf x.1 - input.length)) =
    instrsFrom pre suf := by
  induction suf generalizing pre with
  | nil => rfl
  | cons m suf ih =>
    rw [List.zipIdx_cons, List.map_cons, instrsFrom]
    have h1 : (input ++ (pre ++ m :: suf)).idxOf m = input.length + (pre ++ m :: suf).idxOf m :=
      List.idxOf_append_of_notMem (h m (by simp))
    congr 1
    · simp only [h1]
      by_cases hm : m ∈ pre
      · rw [if_pos hm, List.idxOf_append_of_mem hm]
        have := List.idxOf_lt_length_iff.2 hm
        rw [if_neg (by omega)]
        congr 1
        omega
      · rw [if_neg hm, List.idxOf_append_of_notMem hm]
        simp
    · have := ih (pre ++ [m]) (fun x hx => h x (by simp [hx]))
      rw [List.length_append, List.length_singleton, List.append_assoc, List.singleton_append, ← Nat.add_assoc] at this
      exact this

theorem nullInstrs_eq {input suf : List V} (h : ∀ m ∈ suf, m ∉ input) : nullInstrs input.length (input ++ suf) = instrsFrom [] suf := by
  rw [← instrsFrom_eq input [] suf h, nullInstrs]
  congr 1
  rw [List.zipIdx_append, List.drop_left' (by simp)]
  simp

theorem length_instrsFrom (pre suf : List V) : (instrsFrom pre suf).length = suf.length := by
  induction suf generalizing pre with
  | nil => rfl
  | cons m suf ih => simp [instrsFrom, ih]

theorem instrsFrom_rep {pre suf : List V} {i : Nat} (h : NullInstr.rep i ∈ instrsFrom pre suf) : ¬ (pre ++ suf).Nodup := by
  induction suf generalizing pre with
  | nil => cases h
  | cons m suf ih =>
    rw [instrsFrom, List.mem_cons] at h
    rcases h with h | h
    · by_cases hm : m ∈ pre
      · intro hn
        exact (List.nodup_append.1 hn).2.2 m hm m (by simp) rfl
      · rw [if_neg hm] at h; cases h
    · have := ih h
      rwa [List.append_assoc, List.singleton_append] at this

/-- What is assumed of the dictionary: new nulls are not known before, known afterwards, and nothing is forgotten. -/
structure Fresh (fresh : D → α × D) (Known : D → α → Prop) : Prop where
  new : ∀ d, ¬ Known d (fresh d).1
  known : ∀ d, Known (fresh d).2 (fresh d).1
  keep : ∀ d v, Known d v → Known (fresh d).2 v

/-- the dictionary after some new nulls -/
def after (fresh : D → α × D) (n : Nat) (d : D) : D := (fun d => (fresh d).2)^[n] d

theorem nulls_spec {Known : D → α → Prop} (hF : Fresh fresh Known) (d0 : D) (pre suf : List V) (g : V → α) (d : D)
    (hinj : ∀ m ∈ pre, ∀ m' ∈ pre, g m = g m' → m = m') (hnew : ∀ m ∈ pre, ¬ Known d0 (g m)) (hold : ∀ m ∈ pre, Known d (g m))
    (hkeep : ∀ v, Known d0 v → Known d v)
    {k : Nat} (hk : k ≤ pre.length) (hd : d = after fresh k d0) (hval : ∀ m ∈ pre, ∃ i < pre.length, g m = (fresh (after fresh i d0)).1) :
    ∃ (g' : V → α) (d' : D), nulls fresh (instrsFrom pre suf) (pre.map g) d = some ((pre ++ suf).map g', d') ∧
      (∀ m ∈ pre ++ suf, ∀ m' ∈ pre ++ suf, g' m = g' m' → m = m') ∧ (∀ m ∈ pre ++ suf, ¬ Known d0 (g' m)) ∧
      (∀ m ∈ pre ++ suf, Known d' (g' m)) ∧ (∀ v, Known d v → Known d' v) ∧ (∃ k ≤ (pre ++ suf).length, d' = after fresh k d0) ∧
      ∀ m ∈ pre ++ suf, ∃ i < (pre ++ suf).length, g' m = (fresh (after fresh i d0)).1 := by
  induction suf generalizing pre g d k with
  | nil => exact ⟨g, d, by rw [instrsFrom, nulls, List.append_nil], by simpa using hinj, by simpa using hnew, by simpa using hold,
      fun v h => h, ⟨k, by simpa using hk, hd⟩, by simpa using hval⟩
  | cons m suf ih =>
    have happ : pre ++ m :: suf = (pre ++ [m]) ++ suf := by simp
    rw [instrsFrom]
    by_cases hm : m ∈ pre
    · obtain ⟨g', d', e1, e2⟩ := ih (pre ++ [m]) g d (by
        intro x hx y hy
        have hx' : x ∈ pre := by
          rcases List.mem_append.1 hx with hx | hx
          · exact hx
          · rw [List.mem_singleton.1 hx]; exact hm
        have hy' : y ∈ pre := by
          rcases List.mem_append.1 hy with hy | hy
          · exact hy
          · rw [List.mem_singleton.1 hy]; exact hm
        exact hinj x hx' y hy') (by
        intro x hx
        rcases List.mem_append.1 hx with hx | hx
        · exact hnew x hx
        · rw [List.mem_singleton.1 hx]; exact hnew m hm) (by
        intro x hx
        rcases List.mem_append.1 hx with hx | hx
        · exact hold x hx
        · rw [List.mem_singleton.1 hx]; exact hold m hm) hkeep (k := k) (by simp; omega) hd (by
        intro x hx
        have hx' : x ∈ pre := by
          rcases List.mem_append.1 hx with hx | hx
          · exact hx
          · rw [List.mem_singleton.1 hx]; exact hm
        obtain ⟨i, hi, he⟩ := hval x hx'
        exact ⟨i, by simp; omega, he⟩)
      refine ⟨g', d', ?_, by rw [happ]; exact e2⟩
      rw [if_pos hm, nulls, happ, ← e1]
      have hlt := List.idxOf_lt_length_iff.2 hm
      rw [List.getElem?_map, List.getElem?_eq_getElem hlt, List.getElem_idxOf hlt]
      simp
    · set g1 : V → α := Function.update g m (fresh d).1 with hg1
      have hpre : ∀ x ∈ pre, g1 x = g x := fun x hx => Function.update_of_ne (by rintro rfl; exact hm hx) _ _
      have hself : g1 m = (fresh d).1 := Function.update_self _ _ _
      have hne : ∀ x ∈ pre, g x ≠ (fresh d).1 := fun x hx h => hF.new d (h ▸ hold x hx)
      obtain ⟨g', d', e1, e2, e3, e4, e5, e6, e7⟩ := ih (pre ++ [m]) g1 (fresh d).2 (by
        intro x hx y hy hxy
        rcases List.mem_append.1 hx with hx | hx <;> rcases List.mem_append.1 hy with hy | hy
        · rw [hpre x hx, hpre y hy] at hxy; exact hinj x hx y hy hxy
        · rw [hpre x hx, List.mem_singleton.1 hy, hself] at hxy; exact absurd hxy (hne x hx)
        · rw [hpre y hy, List.mem_singleton.1 hx, hself] at hxy; exact absurd hxy.symm (hne y hy)
        · rw [List.mem_singleton.1 hx, List.mem_singleton.1 hy]) (by
        intro x hx
        rcases List.mem_append.1 hx with hx | hx
        · rw [hpre x hx]; exact hnew x hx
        · rw [List.mem_singleton.1 hx, hself]; exact fun h => hF.new d (hkeep _ h)) (by
        intro x hx
        rcases List.mem_append.1 hx with hx | hx
        · rw [hpre x hx]; exact hF.keep _ _ (hold x hx)
        · rw [List.mem_singleton.1 hx, hself]; exact hF.known d) (fun v hv => hF.keep _ _ (hkeep v hv)) (k := k + 1) (by simp; omega) (by
        rw [hd, after, after, Function.iterate_succ_apply']) (by
        intro x hx
        rcases List.mem_append.1 hx with hx | hx
        · obtain ⟨i, hi, he⟩ := hval x hx
          exact ⟨i, by simp; omega, by rw [hpre x hx]; exact he⟩
        · exact ⟨k, by simp; omega, by rw [List.mem_singleton.1 hx, hself, hd]⟩)
      refine ⟨g', d', ?_, by rw [happ]; exact e2, by rw [happ]; exact e3, by rw [happ]; exact e4,
        fun v hv => e5 v (hF.keep _ _ hv), by rw [happ]; exact e6, by rw [happ]; exact e7⟩
      rw [if_neg hm, nulls, happ, ← e1]
      congr 1
      rw [List.map_append, List.map_singleton, hself]
      congr 1
      exact (List.map_congr_left hpre).symm

/-- The nulls of a list of rows. -/
theorem extend_spec {β : Type} {Known : D → α → Prop} (hF : Fresh fresh Known) (ms : List V) (es : List (List α × β))
    (hnd : (es.map (·.1)).Nodup) (d : D) :
    ∃ (g : List α → V → α) (d' : D),
      extend fresh (instrsFrom [] ms) es d = some (es.map fun x => (x.1 ++ ms.map (g x.1), x.2), d') ∧
      (∀ r ∈ es.map (·.1), ∀ m ∈ ms, ∀ r' ∈ es.map (·.1), ∀ m' ∈ ms, g r m = g r' m' → r = r' ∧ m = m') ∧
      (∀ r ∈ es.map (·.1), ∀ m ∈ ms, ¬ Known d (g r m)) ∧ (∀ r ∈ es.map (·.1), ∀ m ∈ ms, Known d' (g r m)) ∧
      (∀ v, Known d v → Known d' v) ∧ ∀ r ∈ es.map (·.1), ∀ m ∈ ms, ∃ i < es.length * ms.length, g r m = (fresh (after fresh i d)).1 := by
  induction es generalizing d with
  | nil => exact ⟨fun _ _ => (fresh d).1, d, rfl, by simp, by simp, by simp, fun v h => h, by simp⟩
  | cons e es ih =>
    obtain ⟨r, b⟩ := e
    rw [List.map_cons, List.nodup_cons] at hnd
    obtain ⟨g0, d1, a1, a2, a3, a4, a5, ⟨k, a6, a7⟩, a8⟩ := nulls_spec hF d [] ms (fun _ => (fresh d).1) d (by simp) (by simp) (by simp)
      (fun v h => h) (k := 0) (by simp) rfl (by simp)
    simp only [List.nil_append, List.map_nil] at a1 a2 a3 a4 a6 a8
    obtain ⟨g, d', b1, b2, b3, b4, b5, b6⟩ := ih hnd.2 d1
    set G : List α → V → α := fun x => if x = r then g0 else g x with hG
    have hr : G r = g0 := if_pos rfl
    have hx : ∀ x ∈ es.map (·.1), G x = g x := fun x hx => if_neg (by rintro rfl; exact hnd.1 hx)
    refine ⟨G, d', ?_, ?_, ?_, ?_, fun v hv => b5 v (a5 v hv), ?_⟩
    · simp only [extend, a1, Option.bind_some, b1, Option.map_some, List.map_cons, hr]
      congr 3
      refine List.map_congr_left fun y hy => ?_
      rw [hx y.1 (List.mem_map_of_mem hy)]
    · intro x hxm m hm y hym m' hm' he
      rw [List.map_cons, List.mem_cons] at hxm hym
      rcases hxm with rfl | hxm <;> rcases hym with rfl | hym
      · rw [hr] at he; exact ⟨rfl, a2 m hm m' hm' he⟩
      · rw [hr, hx y hym] at he
        exact absurd (he ▸ a4 m hm) (b3 y hym m' hm')
      · rw [hr, hx x hxm] at he
        exact absurd (he ▸ a4 m' hm') (b3 x hxm m hm)
      · rw [hx x hxm, hx y hym] at he
        exact b2 x hxm m hm y hym m' hm' he
    · intro x hxm m hm
      rw [List.map_cons, List.mem_cons] at hxm
      rcases hxm with rfl | hxm
      · rw [hr]; exact a3 m hm
      · rw [hx x hxm]; exact fun h => b3 x hxm m hm (a5 _ h)
    · intro x hxm m hm
      rw [List.map_cons, List.mem_cons] at hxm
      rcases hxm with rfl | hxm
      · rw [hr]; exact b5 _ (a4 m hm)
      · rw [hx x hxm]; exact b4 x hxm m hm
    · intro x hxm m hm
      rw [List.map_cons, List.mem_cons] at hxm
      rw [List.length_cons, Nat.succ_mul]
      rcases hxm with rfl | hxm
      · obtain ⟨i, hi, he⟩ := a8 m hm
        exact ⟨i, by omega, by rw [hr]; exact he⟩
      · obtain ⟨i, hi, he⟩ := b6 x hxm m hm
        refine ⟨i + k, by omega, ?_⟩
        rw [hx x hxm, he, a7, after, after, after, ← Function.iterate_add_apply]

theorem cpl_append {r r' : List α} (hl : r.length = r'.length) (hne : r ≠ r') (x x' : List α) : cpl (r ++ x) (r' ++ x') = cpl r r' := by
  induction r generalizing r' with
  | nil => exact absurd (List.eq_nil_of_length_eq_zero hl.symm).symm hne
  | cons v r ih =>
    cases r' with
    | nil => cases hl
    | cons w r' =>
      simp only [List.cons_append, cpl]
      split
      · rename_i h
        subst h
        rw [ih (by simpa using hl) (fun h => hne (by rw [h]))]
      · rfl

theorem attachFrom_append (f : List α → List α) (n : Nat) (q : List α) (E : List (List α × List α)) (hq : q.length = n)
    (hl : ∀ x ∈ E, x.1.length = n) (hnd : (q :: E.map (·.1)).Nodup) :
    (attachFrom (q ++ f q) (E.map fun x => (x.1 ++ f x.1, []))).map (fun x => (x.1, x.2.2)) =
      ((attachFrom q E).map fun x => (x.1, x.2.2)).map fun x => (x.1 ++ f x.1, x.2) := by
  induction E generalizing q with
  | nil => rfl
  | cons e E ih =>
    obtain ⟨r, s⟩ := e
    simp only [List.map_cons, attachFrom]
    rw [ih r (hl (r, s) (by simp)) (fun x hx => hl x (by simp [hx])) (List.nodup_cons.1 hnd).2,
      cpl_append (by rw [hq, hl (r, s) (by simp)]) (by rintro rfl; exact (List.nodup_cons.1 hnd).1 (by simp))]

theorem attach_extend (f : List α → List α) (n : Nat) (E : List (List α × List α)) (hl : ∀ x ∈ E, x.1.length = n)
    (hnd : (E.map (·.1)).Nodup) :
    (attach 0 (E.map fun x => (x.1 ++ f x.1, []))).map (fun x => (x.1, x.2.2)) =
      ((attach 0 E).map fun x => (x.1, x.2.2)).map fun x => (x.1 ++ f x.1, x.2) := by
  cases E with
  | nil => rfl
  | cons e E =>
    obtain ⟨r, s⟩ := e
    simp only [List.map_cons, attach]
    rw [attachFrom_append f n r E (hl (r, s) (by simp)) (fun x hx => hl x (by simp [hx])) hnd]

theorem map_attach_fst (E : List (List α × List α)) : ((attach 0 E).map fun x => (x.1, x.2.2)).map (·.1) = E.map (·.1) := by
  have aux : ∀ (L : List (List α × List α)) q, ((attachFrom q L).map fun x => (x.1, x.2.2)).map (·.1) = L.map (·.1) := by
    intro L
    induction L with
    | nil => intro q; rfl
    | cons x L ih =>
      intro q
      obtain ⟨r, s⟩ := x
      simp only [attachFrom, List.map_cons, ih]
  cases E with
  | nil => rfl
  | cons x E =>
    obtain ⟨r, s⟩ := x
    simp only [attach, List.map_cons, aux]

section
variable {ch : List α → Ty → List α} {R : S → TPath α → Prop}

theorem out_inner (hT : TreeOK ctypes ch a) :
    (attach 0 (extendable ctypes ch a 0)).map (RowCfg.out (inner cops ctypes a)) =
      (attach 0 (extendable ctypes ch a 0)).map fun x => (x.1, x.2.2) := by
  have hl : ∀ x ∈ extendable ctypes ch a 0, x.1.length = a := fun x hx =>
    ((mem_extRows hT (by omega)).mp (List.mem_map_of_mem (f := (·.1)) hx)).1
  have hl2 : ∀ x ∈ extendable ctypes ch a 0, x.2.take a = x.1 := by
    intro x hx
    have := (mem_dfs_gE hT (p := []) trivial (by simp)).mp hx
    have hm := List.mem_of_head? this.2
    obtain ⟨⟨q, hq, _, hpq⟩, _⟩ := this
    simp only [List.nil_append] at hq
    obtain ⟨y, hy, _, _⟩ := (mem_leaves hT (p := x.1) (by rw [hq]; exact hpq) (by rw [hl x hx]; omega)).mp hm
    rw [hy, List.take_left' (hl x hx)]
  generalize extendable ctypes ch a 0 = E at hl2
  have aux : ∀ (L : List (List α × List α)) q, (∀ x ∈ L, x.2.take a = x.1) →
      (attachFrom q L).map (RowCfg.out (inner cops ctypes a)) = (attachFrom q L).map fun x => (x.1, x.2.2) := by
    intro L
    induction L with
    | nil => intro q _; rfl
    | cons x L ih =>
      intro q hL
      simp only [attachFrom, List.map_cons, ih _ (fun y hy => hL y (by simp [hy]))]
      rw [RowCfg.out]
      simp only [inner, hL x (by simp)]
  cases E with
  | nil => rfl
  | cons x E =>
    have : attach 0 (x :: E) = (x.1, x.2, 0) :: attachFrom x.1 E := rfl
    rw [this, List.map_cons, List.map_cons, aux _ _ (fun y hy => hl2 y (by simp [hy])), RowCfg.out]
    simp only [inner, hl2 x (by simp)]

/-- **Appending nulls**: the table that is stored contains every row of the input once, extended by one null for every new column;
the nulls were unknown before, and two of them are equal only if they belong to the same row and the same marker. -/
theorem null_table {Known : D → α → Prop} (hF : Fresh fresh Known) (hty : ∀ d, ty (fresh d).1 = 0 ∨ ty (fresh d).1 = 1)
    {input suf : List V} (hdisj : ∀ m ∈ suf, m ∉ input) (hsuf : suf ≠ []) (hin : input ≠ [])
    (hS : Simulates cops input.length ch R) (hT : TreeOK ctypes ch input.length)
    {s : S} (hs : R s []) (d0 : D) (x : α)
    (hrep : suf.Nodup ∨ ∀ i < (extRows ctypes ch input.length 0).length * suf.length, ty (fresh (after fresh i d0)).1 = 0) :
    ∃ (t : Trie α) (g : List α → V → α) (d' : D),
      materialize (ops cops input.length (nullInstrs input.length (input ++ suf)) fresh) (input ++ suf).length
        (types ctypes input.length) (NullSt.new s d0) 0 x = some t ∧
      t.arity = (input ++ suf).length ∧
      Rep t ((extRows ctypes ch input.length 0).map fun r => r ++ suf.map (g r)) ∧ t.emptyRow = false ∧
      (∀ r ∈ extRows ctypes ch input.length 0, ∀ m ∈ suf, ¬ Known d0 (g r m)) ∧
      (∀ r ∈ extRows ctypes ch input.length 0, ∀ m ∈ suf, Known d' (g r m)) ∧
      ∀ r ∈ extRows ctypes ch input.length 0, ∀ m ∈ suf, ∀ r' ∈ extRows ctypes ch input.length 0, ∀ m' ∈ suf,
        g r m = g r' m' → r = r' ∧ m = m' := by
  set a := input.length with ha
  have ha0 : 0 < a := List.length_pos_of_ne_nil hin
  have hI : nullInstrs a (input ++ suf) = instrsFrom [] suf := nullInstrs_eq hdisj
  have hlen : (instrsFrom [] suf).length = suf.length := length_instrsFrom _ _
  have hne : instrsFrom [] suf ≠ [] := by
    intro h
    rw [h] at hlen
    exact hsuf (List.eq_nil_of_length_eq_zero hlen.symm)
  set E := extendable ctypes ch a 0 with hE
  have hl : ∀ x ∈ E, x.1.length = a := fun x hx => ((mem_extRows hT (by omega)).mp (List.mem_map_of_mem (f := (·.1)) hx)).1
  have hsorted : (E.map (·.1)).Pairwise (· < ·) := extRows_sorted hT a 0
  have hnodup : (E.map (·.1)).Nodup := hsorted.imp fun h => ne_of_lt h
  have hrows : extRows ctypes ch a 0 = E.map (·.1) := rfl
  obtain ⟨g, d', e1, e2, e3, e4, e5, e6⟩ := extend_spec hF suf ((attach 0 E).map fun x => (x.1, x.2.2))
    (by rw [map_attach_fst]; exact hnodup) d0
  have hlenE : ((attach 0 E).map fun x => (x.1, x.2.2)).length = (extRows ctypes ch a 0).length := by
    rw [hrows, ← map_attach_fst E]; simp
  rw [hlenE] at e6
  have hmemE : ∀ e ∈ (attach 0 E).map (fun x => (x.1, x.2.2)), e.1 ∈ E.map (·.1) := by
    intro e he
    rw [← map_attach_fst]
    exact List.mem_map_of_mem he
  rw [map_attach_fst] at e2 e3 e4 e6
  have hcol := collect_null (cops := cops) hty hS (fun p => kidsAt_nodup hT p) ha0 hne hs d0 x
    (by rw [out_inner hT]; exact e1) (by
      rintro ⟨i, hi⟩ e he w hw
      rcases hrep with h | h
      · exact absurd h (instrsFrom_rep hi)
      · obtain ⟨e0, he0, rfl⟩ := List.mem_map.1 he
        have hr0 := hmemE e0 he0
        obtain ⟨y, hy, hy1⟩ := List.mem_map.1 hr0
        simp only at hw
        rw [List.drop_left' (by rw [← hy1]; exact hl y hy)] at hw
        obtain ⟨m, hm, rfl⟩ := List.mem_map.1 hw
        obtain ⟨i, hi, he⟩ := e6 _ hr0 m hm
        rw [he]
        exact h i hi)
  rw [← attach_extend (fun r => suf.map (g r)) a E hl hnodup] at hcol
  have hmap : (E.map fun x => (x.1 ++ suf.map (g x.1), ([] : List α))).map (·.1) = (E.map (·.1)).map fun r => r ++ suf.map (g r) := by
    simp [List.map_map, Function.comp_def]
  obtain ⟨t, t1, t2, t3, t4⟩ := Trie.fromScanRows_rep (m := (input ++ suf).length)
    (rows := E.map fun x => (x.1 ++ suf.map (g x.1), ([] : List α))) (by simp; omega)
    (by
      rw [hmap, List.pairwise_map]
      refine List.Pairwise.imp_of_mem (fun {r r'} hr hr' h => ?_) hsorted
      obtain ⟨y, hy, rfl⟩ := List.mem_map.1 hr
      obtain ⟨z, hz, rfl⟩ := List.mem_map.1 hr'
      exact append_lt_append_of_length (by rw [hl y hy, hl z hz]) h _ _)
    (by
      intro y hy
      obtain ⟨z, hz, rfl⟩ := List.mem_map.1 hy
      simp [hl z hz, ha])
  refine ⟨t, g, d', ?_, t2, ?_, t4, by rw [hrows]; exact e3, by rw [hrows]; exact e4, by rw [hrows]; exact e2⟩
  · unfold materialize
    have hpos : ¬ (input ++ suf).length - 0 = 0 := by rw [List.length_append]; omega
    rw [if_neg hpos, hI]
    have hlen2 : (input ++ suf).length = a + (instrsFrom [] suf).length := by rw [hlen, List.length_append]
    have hcfg : (⟨ops cops a (instrsFrom [] suf) fresh, (input ++ suf).length, types ctypes a, 0, (input ++ suf).length - 0⟩ :
        RowCfg (NullSt S α D) α) = cfg cops ctypes a (instrsFrom [] suf) fresh := by
      rw [cfg, Nat.sub_zero, hlen2]
    rw [hcfg, hcol]
    simp only [Option.bind_eq_bind, Option.bind_some, Nat.sub_zero]
    rw [t1]
    rfl
  · rw [hmap] at t3
    exact t3

/-- The same for an input without columns: one row of nulls. -/
theorem null_table_zero {Known : D → α → Prop} (hF : Fresh fresh Known) (hty : ∀ d, ty (fresh d).1 = 0 ∨ ty (fresh d).1 = 1)
    {suf : List V} (hsuf : suf ≠ []) (s : S) (d0 : D) (x : α)
    (hrep : suf.Nodup ∨ ∀ i < suf.length, ty (fresh (after fresh i d0)).1 = 0) :
    ∃ (t : Trie α) (g : V → α) (d' : D),
      materialize (ops cops 0 (nullInstrs 0 suf) fresh) suf.length (types ctypes 0) (NullSt.new s d0) 0 x = some t ∧
      t.arity = suf.length ∧ Rep t [suf.map g] ∧ t.emptyRow = false ∧ (∀ m ∈ suf, ¬ Known d0 (g m)) ∧
      (∀ m ∈ suf, Known d' (g m)) ∧ ∀ m ∈ suf, ∀ m' ∈ suf, g m = g m' → m = m' := by
  have hI : nullInstrs 0 suf = instrsFrom [] suf := nullInstrs_eq (input := []) (fun m _ h => by cases h)
  have hlen : (instrsFrom [] suf).length = suf.length := length_instrsFrom _ _
  have hpos : 0 < suf.length := List.length_pos_of_ne_nil hsuf
  have hne : instrsFrom [] suf ≠ [] := by
    intro h
    rw [h] at hlen
    exact hsuf (List.eq_nil_of_length_eq_zero hlen.symm)
  obtain ⟨g, d', e1, e2, e3, e4, e5, -, e6⟩ := nulls_spec hF d0 [] suf (fun _ => (fresh d0).1) d0 (by simp) (by simp) (by simp)
    (fun v h => h) (k := 0) (by simp) rfl (by simp)
  simp only [List.nil_append, List.map_nil] at e1 e2 e3 e4 e6
  have hcol := collect_null_zero (cops := cops) (ctypes := ctypes) hty hne s d0 x e1 (by
    rintro ⟨i, hi⟩ w hw
    rcases hrep with h | h
    · exact absurd h (instrsFrom_rep hi)
    · obtain ⟨m, hm, rfl⟩ := List.mem_map.1 hw
      obtain ⟨i, hi, he⟩ := e6 m hm
      rw [he]
      exact h i hi)
  obtain ⟨t, t1, t2, t3, t4⟩ := Trie.fromScanRows_rep (m := suf.length) (rows := [(suf.map g, ([] : List α))]) hpos (by simp) (by simp)
  refine ⟨t, g, d', ?_, t2, t3, t4, e3, e4, e2⟩
  unfold materialize
  rw [if_neg (by omega), hI]
  have hcfg : (⟨ops cops 0 (instrsFrom [] suf) fresh, suf.length, types ctypes 0, 0, suf.length - 0⟩ :
      RowCfg (NullSt S α D) α) = cfg cops ctypes 0 (instrsFrom [] suf) fresh := by
    rw [cfg, Nat.sub_zero, hlen, Nat.zero_add]
  rw [hcfg, hcol]
  simp only [Option.bind_eq_bind, Option.bind_some, Nat.sub_zero]
  rw [← t1]
  rfl

end
end
end NullSt
end Verif
