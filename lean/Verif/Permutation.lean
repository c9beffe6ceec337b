import Mathlib.Data.List.Basic
import Mathlib.Data.List.Perm.Basic
import Mathlib.Data.List.Perm.Subperm
import Mathlib.Data.List.Nodup
import Mathlib.Data.List.Range
import Mathlib.Data.List.Sort
import Mathlib.Order.Basic
import Mathlib.Tactic.Linarith

/-!
# Permutations of columns

Model of `/repo/nemo-physical/src/util/mapping/permutation.rs`.
-/

set_option linter.unusedSimpArgs false
set_option linter.unusedSectionVars false

namespace Verif

/-- `Permutation` (permutation.rs:13-16) -/
structure Permut where
  idxToVal : List Nat
  valToIdx : List Nat
deriving DecidableEq

namespace Permut

/-- `invert` (permutation.rs:18-26): an index out of bounds panics in the code and is ignored here; it
does not happen for the vectors that satisfy the assumptions of the theorems. -/
def invertVec (input : List Nat) : List Nat :=
  input.zipIdx.foldl (fun r x => r.set x.1 x.2) (List.replicate input.length 0)

/-- Remove fixed points at the end (permutation.rs:31-37, 46-52). -/
def trim (v : List Nat) : List Nat :=
  match h : v.getLast? with
  | some l => if l = v.length - 1 then trim v.dropLast else v
  | none => v
termination_by v.length
decreasing_by
  have : v ≠ [] := by rintro rfl; simp at h
  have := List.length_pos_iff.2 this
  simp; omega

/-- `from_vector` (permutation.rs:30-43) -/
def fromVector (v : List Nat) : Permut := ⟨invertVec (trim v), trim v⟩

/-- `from_idx_to_val` (permutation.rs:45-58) -/
def fromIdxToVal (v : List Nat) : Permut := ⟨trim v, invertVec (trim v)⟩

/-- One step of `from_map` (permutation.rs:64-70) -/
def mapStep (v : List Nat) (x : Nat × Nat) : List Nat :=
  (v ++ (List.range' v.length (x.1 + 1 - v.length))).set x.1 x.2

/-- `from_map` (permutation.rs:61-73); `map` are the entries in the order of iteration -/
def fromMap (map : List (Nat × Nat)) : Permut := fromIdxToVal (map.foldl mapStep [])

/-- `from_unsorted` (permutation.rs:76-81) -/
def fromUnsorted {β : Type} [LinearOrder β] [Inhabited β] (values : List β) : Permut :=
  fromVector ((List.range values.length).mergeSort fun a b => decide (values.getD a default ≤ values.getD b default))

/-- `from_transformation` (permutation.rs:134-148); `none` is a panic -/
def fromTransformation {β : Type} [DecidableEq β] (source target : List β) : Option Permut := do
  let map ← source.zipIdx.mapM fun x => do
    if x.1 ∈ target then return (x.2, target.idxOf x.1) else none
  return fromMap map

/-- `get` (permutation.rs:170-172) -/
def get (p : Permut) (i : Nat) : Nat := (p.idxToVal[i]?).getD i

/-- `invert` (permutation.rs:151-156) -/
def invert (p : Permut) : Permut := ⟨p.valToIdx, p.idxToVal⟩

/-- The loop of `permute` (permutation.rs:162-164); `none` is an index out of bounds. -/
def permuteLoop {β : Type} (vec : List β) : List (Nat × Nat) → List β → Option (List β)
  | [], result => some result
  | (value, input) :: rest, result => do
    let a ← vec[input]?
    if value < result.length then permuteLoop vec rest (result.set value a) else none

/-- `permute` (permutation.rs:159-167) -/
def permute {β : Type} (p : Permut) (vec : List β) : Option (List β) := permuteLoop vec p.idxToVal.zipIdx vec

/-- `chain_permutation` (permutation.rs:180-186) -/
def chain (p q : Permut) : Permut :=
  fromIdxToVal ((List.range (max p.idxToVal.length q.idxToVal.length)).map fun i => q.get (p.get i))

/-- `is_identity` (permutation.rs:188-190) -/
def isIdentity (p : Permut) : Bool := p.idxToVal.zipIdx.all fun x => x.2 == x.1

/-- `PartialEq::eq` (permutation.rs:232-236) -/
def beq (p q : Permut) : Bool := p.valToIdx == q.valToIdx

/-- `last_mapped` (permutation.rs:84-92) -/
def lastMapped (p : Permut) : Option Nat := ((p.idxToVal.zipIdx.reverse.find? fun x => x.2 != x.1).map (·.2))

/-! ## Proofs -/

/-- The vector contains each of the numbers `0, …, n-1` once. -/
def IsPerm (v : List Nat) : Prop := v.Nodup ∧ ∀ x ∈ v, x < v.length

/-- two vectors are inverse to each other -/
structure Inverse (a b : List Nat) : Prop where
  len : a.length = b.length
  left : ∀ (i v : Nat), a[i]? = some v → b[v]? = some i
  right : ∀ (i v : Nat), b[i]? = some v → a[v]? = some i

theorem Inverse.symm {a b : List Nat} (h : Inverse a b) : Inverse b a := ⟨h.len.symm, h.right, h.left⟩

/-- the invariant of permutations: the two vectors are inverse, and there is no fixed point at the end -/
structure WF (p : Permut) : Prop where
  inv : Inverse p.idxToVal p.valToIdx
  trimmed : ∀ l, p.idxToVal.getLast? = some l → l ≠ p.idxToVal.length - 1

theorem IsPerm.surj {v : List Nat} (h : IsPerm v) {x : Nat} (hx : x < v.length) : x ∈ v := by
  have hp : v.Subperm (List.range v.length) := List.subperm_of_subset h.1 fun y hy => List.mem_range.2 (h.2 y hy)
  have := hp.perm_of_length_le (by simp)
  exact this.mem_iff.2 (List.mem_range.2 hx)

theorem foldl_set_length (l : List (Nat × Nat)) (r : List Nat) :
    (l.foldl (fun r x => r.set x.1 x.2) r).length = r.length := by
  induction l generalizing r with
  | nil => rfl
  | cons x l ih => simp [ih]

theorem foldl_set_get (l : List (Nat × Nat)) (hn : (l.map (·.1)).Nodup) (r : List Nat) (i : Nat) :
    (l.foldl (fun r x => r.set x.1 x.2) r)[i]? =
      if i < r.length then (match l.find? fun x => x.1 == i with | some x => some x.2 | none => r[i]?) else none := by
  induction l generalizing r with
  | nil =>
    simp only [List.foldl_nil, List.find?_nil]
    split
    · rfl
    · rename_i h; exact List.getElem?_eq_none (by omega)
  | cons x l ih =>
    rw [List.map_cons, List.nodup_cons] at hn
    rw [List.foldl_cons, ih hn.2, List.length_set]
    split
    · rename_i hi
      rw [List.find?_cons]
      by_cases hx : x.1 = i
      · have h1 : (x.1 == i) = true := by simpa using hx
        rw [h1]
        have : l.find? (fun x => x.1 == i) = none := by
          rw [List.find?_eq_none]
          intro y hy
          simp only [beq_iff_eq]
          intro hyi
          exact hn.1 (List.mem_map.2 ⟨y, hy, by rw [hyi, hx]⟩)
        rw [this, hx]
        simp [hi]
      · have h1 : (x.1 == i) = false := by simpa using hx
        rw [h1]
        simp only
        cases l.find? (fun x => x.1 == i) with
        | some y => rfl
        | none => simp [List.getElem?_set, hx]
    · rfl

theorem invertVec_length (v : List Nat) : (invertVec v).length = v.length := by
  rw [invertVec, foldl_set_length, List.length_replicate]

theorem invertVec_inverse {v : List Nat} (h : IsPerm v) : Inverse v (invertVec v) := by
  have hn : (v.zipIdx.map (·.1)).Nodup := by
    have : v.zipIdx.map (·.1) = v := by simp [List.zipIdx_map_fst]
    rw [this]; exact h.1
  have key : ∀ (i x : Nat), v[i]? = some x → (invertVec v)[x]? = some i := by
    intro i x hx
    have hxl : x < v.length := h.2 x (List.mem_of_getElem? hx)
    rw [invertVec, foldl_set_get _ hn, if_pos (by simpa using hxl)]
    have : v.zipIdx.find? (fun y => y.1 == x) = some (x, i) := by
      cases hf : v.zipIdx.find? (fun y => y.1 == x) with
      | none =>
        rw [List.find?_eq_none] at hf
        exact absurd (by simp) (hf (x, i) (List.mem_zipIdx_iff_getElem?.2 hx))
      | some y =>
        obtain ⟨a, j⟩ := y
        have h1 := List.find?_some hf
        have h2 := List.mem_zipIdx_iff_getElem?.1 (List.mem_of_find?_eq_some hf)
        simp only [beq_iff_eq] at h1
        subst h1
        rw [List.getElem?_eq_some_iff] at hx h2
        obtain ⟨p1, p2⟩ := hx
        obtain ⟨q1, q2⟩ := h2
        have : i = j := (List.Nodup.getElem_inj_iff h.1).1 (by rw [p2, q2])
        rw [this]
    rw [this]
  refine ⟨(invertVec_length v).symm, key, ?_⟩
  intro x i hi
  have hxl : x < v.length := by
    rw [← invertVec_length]; exact (List.getElem?_eq_some_iff.1 hi).1
  obtain ⟨j, hj⟩ := List.getElem?_of_mem (h.surj hxl)
  rw [key j x hj] at hi
  rw [← Option.some.inj hi]; exact hj

theorem Inverse.isPerm {a b : List Nat} (h : Inverse a b) : IsPerm a := by
  refine ⟨?_, ?_⟩
  · rw [List.nodup_iff_injective_getElem]
    intro i j hij
    have h1 := h.left i.1 a[i.1] (List.getElem?_eq_getElem i.2)
    have h2 := h.left j.1 a[j.1] (List.getElem?_eq_getElem j.2)
    simp only at hij
    rw [hij] at h1
    exact Fin.ext (Option.some.inj (h1.symm.trans h2))
  · intro x hx
    obtain ⟨i, hi⟩ := List.getElem?_of_mem hx
    rw [h.len]
    exact (List.getElem?_eq_some_iff.1 (h.left i x hi)).1

theorem trim_spec (v : List Nat) : IsPerm v →
    IsPerm (trim v) ∧ (∀ l, (trim v).getLast? = some l → l ≠ (trim v).length - 1) ∧
    (∀ i : Nat, ((trim v)[i]?).getD i = (v[i]?).getD i) ∧ (trim v).length ≤ v.length := by
  induction v using trim.induct with
  | case1 v h ih =>
    intro hp
    rw [trim]
    split
    · rename_i l' h'
      rw [h] at h'
      obtain rfl := Option.some.inj h'
      rw [if_pos rfl]
      have hne : v ≠ [] := by rintro rfl; simp at h
      have hv : v = v.dropLast ++ [v.length - 1] := by
        have := List.dropLast_append_getLast hne
        rw [List.getLast?_eq_some_getLast hne] at h
        rw [← Option.some.inj h]; exact this.symm
      have hd : IsPerm v.dropLast := by
        refine ⟨hp.1.sublist (List.dropLast_sublist v), ?_⟩
        intro x hx
        have h1 := hp.2 x (List.dropLast_subset v hx)
        have h2 : x ≠ v.length - 1 := by
          rintro rfl
          rw [hv] at hp
          have := hp.1
          rw [List.nodup_append] at this
          exact this.2.2 _ hx _ (by simp) rfl
        simp; omega
      obtain ⟨h1, h2, h3, h4⟩ := ih hd
      refine ⟨h1, h2, ?_, by simp at h4; omega⟩
      intro i
      rw [h3 i]
      conv_rhs => rw [hv]
      rw [List.getElem?_append]
      split
      · rfl
      · rename_i hi
        simp only [List.length_dropLast, not_lt] at hi
        rw [List.getElem?_eq_none (by simpa using hi)]
        by_cases he : i = v.length - 1
        · subst he; simp
        · rw [List.getElem?_eq_none (by simp; omega)]
    · rename_i h'; rw [h] at h'; cases h'
  | case2 v l h hl =>
    intro hp
    have : trim v = v := by
      rw [trim]; split
      · rename_i l' h'; rw [h] at h'; obtain rfl := Option.some.inj h'; rw [if_neg hl]
      · rfl
    rw [this]
    exact ⟨hp, fun l' hl' => by rw [h] at hl'; rw [← Option.some.inj hl']; exact hl, fun _ => rfl, le_rfl⟩
  | case3 v h =>
    intro hp
    have : trim v = v := by
      rw [trim]; split
      · rename_i l' h'; rw [h] at h'; cases h'
      · rfl
    rw [this]
    refine ⟨hp, ?_, fun _ => rfl, le_rfl⟩
    intro l' hl'; rw [h] at hl'; cases hl'

theorem WF.eq_of_get {p q : Permut} (hp : p.WF) (hq : q.WF) (h : ∀ i, p.get i = q.get i) : p = q := by
  -- the length is determined by the last index that is moved
  have hlen : ∀ p q : Permut, p.WF → q.WF → (∀ i, p.get i = q.get i) → p.idxToVal.length ≤ q.idxToVal.length := by
    intro p q hp hq h
    by_contra hlt
    push Not at hlt
    have hne : p.idxToVal ≠ [] := by intro he; rw [he] at hlt; simp at hlt
    refine hp.trimmed _ (List.getLast?_eq_some_getLast hne) ?_
    have h1 := h (p.idxToVal.length - 1)
    rw [get, get, List.getElem?_eq_none (l := q.idxToVal) (by omega)] at h1
    rw [List.getLast_eq_getElem, ← Option.getD_some (a := p.idxToVal[p.idxToVal.length - 1]'(by omega)) (b := p.idxToVal.length - 1),
      ← List.getElem?_eq_getElem]
    exact h1
  have hl : p.idxToVal.length = q.idxToVal.length := le_antisymm (hlen p q hp hq h) (hlen q p hq hp fun i => (h i).symm)
  have h1 : p.idxToVal = q.idxToVal := by
    apply List.ext_getElem hl
    intro i h1 h2
    have := h i
    rw [get, get, List.getElem?_eq_getElem h1, List.getElem?_eq_getElem h2] at this
    simpa using this
  have h2 : p.valToIdx = q.valToIdx := by
    apply List.ext_getElem?
    intro i
    cases hv : p.valToIdx[i]? with
    | some v =>
      have := hp.inv.right i v hv
      rw [h1] at this
      exact (hq.inv.left v i this).symm
    | none =>
      rw [List.getElem?_eq_none_iff] at hv
      rw [List.getElem?_eq_none]
      rw [← hq.inv.len, ← hl, hp.inv.len]; exact hv
  cases p; cases q; simp_all

theorem WF.inv_trimmed {p : Permut} (hp : p.WF) : ∀ l, p.valToIdx.getLast? = some l → l ≠ p.valToIdx.length - 1 := by
  rintro l hl rfl
  have hne : p.valToIdx ≠ [] := by intro he; rw [he] at hl; simp at hl
  have h0 := List.length_pos_iff.2 hne
  have h1 : p.valToIdx[p.valToIdx.length - 1]? = some (p.valToIdx.length - 1) := by
    rw [← List.getLast?_eq_getElem?]; exact hl
  have h2 := hp.inv.right _ _ h1
  refine hp.trimmed (p.valToIdx.length - 1) ?_ (by rw [hp.inv.len])
  rw [List.getLast?_eq_getElem?, hp.inv.len]; exact h2

theorem fromIdxToVal_wf {v : List Nat} (h : IsPerm v) : (fromIdxToVal v).WF := by
  obtain ⟨h1, h2, -, -⟩ := trim_spec v h
  exact ⟨invertVec_inverse h1, h2⟩

theorem fromIdxToVal_get {v : List Nat} (h : IsPerm v) (i : Nat) : (fromIdxToVal v).get i = (v[i]?).getD i :=
  (trim_spec v h).2.2.1 i

theorem invert_wf {p : Permut} (h : p.WF) : p.invert.WF := ⟨h.inv.symm, h.inv_trimmed⟩

theorem fromVector_wf {v : List Nat} (h : IsPerm v) : (fromVector v).WF := invert_wf (fromIdxToVal_wf h)

theorem WF.invert_get {p : Permut} (h : p.WF) (i : Nat) : p.invert.get (p.get i) = i := by
  cases hi : p.idxToVal[i]? with
  | some v => simp [get, invert, hi, h.inv.left i v hi]
  | none =>
    have : p.valToIdx[i]? = none := by
      rw [List.getElem?_eq_none_iff, ← h.inv.len]; exact List.getElem?_eq_none_iff.1 hi
    simp [get, invert, hi, this]

theorem WF.get_invert {p : Permut} (h : p.WF) (i : Nat) : p.get (p.invert.get i) = i := WF.invert_get (invert_wf h) i

theorem WF.get_lt {p : Permut} (h : p.WF) {n i : Nat} (hn : p.idxToVal.length ≤ n) (hi : i < n) : p.get i < n := by
  cases he : p.idxToVal[i]? with
  | some v => simp only [get, he, Option.getD_some]; have := h.inv.isPerm.2 v (List.mem_of_getElem? he); omega
  | none => simpa [get, he] using hi

theorem WF.get_inj {p : Permut} (h : p.WF) {i j : Nat} (he : p.get i = p.get j) : i = j := by
  rw [← h.invert_get i, ← h.invert_get j, he]

/-! ## Application to rows -/

theorem permuteLoop_spec {β : Type} (vec : List β) (l : List (Nat × Nat)) (hn : (l.map (·.1)).Nodup)
    (r : List β) (hv : ∀ x ∈ l, x.1 < r.length ∧ x.2 < vec.length) :
    ∃ r', permuteLoop vec l r = some r' ∧ r'.length = r.length ∧
      (∀ x ∈ l, r'[x.1]? = vec[x.2]?) ∧ ∀ i : Nat, (∀ x ∈ l, x.1 ≠ i) → r'[i]? = r[i]? := by
  induction l generalizing r with
  | nil => exact ⟨r, rfl, rfl, by simp, fun _ _ => rfl⟩
  | cons x l ih =>
    obtain ⟨a, b⟩ := x
    obtain ⟨h1, h2⟩ := hv (a, b) List.mem_cons_self
    simp only at h1 h2
    rw [List.map_cons, List.nodup_cons] at hn
    obtain ⟨r', p1, p2, p3, p4⟩ := ih hn.2 (r.set a vec[b]) (fun y hy => by
      simpa using hv y (List.mem_cons_of_mem _ hy))
    have hna : ∀ x ∈ l, x.1 ≠ a := fun x hx he => hn.1 (List.mem_map.2 ⟨x, hx, he⟩)
    refine ⟨r', ?_, by simpa using p2, ?_, ?_⟩
    · simp [permuteLoop, h2, h1, p1]
    · intro y hy
      rcases List.mem_cons.1 hy with rfl | hy
      · rw [p4 _ hna]
        simp [h1, h2]
      · exact p3 y hy
    · intro i hi
      rw [p4 i (fun x hx => hi x (List.mem_cons_of_mem _ hx)), List.getElem?_set_ne]
      exact hi _ List.mem_cons_self

/-- Applying a permutation moves the value at position `i` to position `p.get i`. -/
theorem WF.permute_spec {β : Type} {p : Permut} (h : p.WF) (row : List β) (hl : p.idxToVal.length ≤ row.length) :
    ∃ row', p.permute row = some row' ∧ row'.length = row.length ∧ ∀ i : Nat, row'[p.get i]? = row[i]? := by
  have hp := h.inv.isPerm
  have hn : (p.idxToVal.zipIdx.map (·.1)).Nodup := by
    have : p.idxToVal.zipIdx.map (·.1) = p.idxToVal := by simp [List.zipIdx_map_fst]
    rw [this]; exact hp.1
  obtain ⟨r', h1, h2, h3, h4⟩ := permuteLoop_spec row p.idxToVal.zipIdx hn row (by
    rintro ⟨v, i⟩ hx
    have hx := List.mem_zipIdx_iff_getElem?.1 hx
    have := hp.2 v (List.mem_of_getElem? hx)
    have := (List.getElem?_eq_some_iff.1 hx).1
    simp only; omega)
  refine ⟨r', h1, h2, fun i => ?_⟩
  cases hi : p.idxToVal[i]? with
  | some v =>
    rw [get, hi, Option.getD_some]
    exact h3 (v, i) (List.mem_zipIdx_iff_getElem?.2 hi)
  | none =>
    rw [get, hi, Option.getD_none]
    refine h4 i ?_
    rintro ⟨v, j⟩ hx rfl
    have h5 := hp.2 v (List.mem_of_getElem? (List.mem_zipIdx_iff_getElem?.1 hx))
    have := List.getElem?_eq_none_iff.1 hi
    simp only at h5 this; omega

/-- Rows are determined by their values at moved positions. -/
theorem WF.permute_eq {β : Type} {p : Permut} (h : p.WF) {row row' : List β} (hl : p.idxToVal.length ≤ row.length)
    (hr : ∀ i : Nat, row'[p.get i]? = row[i]?) : p.permute row = some row' := by
  obtain ⟨r, h1, -, h3⟩ := h.permute_spec row hl
  rw [h1]
  congr 1
  apply List.ext_getElem?
  intro i
  rw [← h.get_invert i, h3, hr]

/-! ## Composition -/

theorem chain_isPerm {p q : Permut} (hp : p.WF) (hq : q.WF) :
    IsPerm ((List.range (max p.idxToVal.length q.idxToVal.length)).map fun i => q.get (p.get i)) := by
  refine ⟨?_, ?_⟩
  · refine List.Nodup.map_on ?_ List.nodup_range
    intro i _ j _ hij
    exact hp.get_inj (hq.get_inj hij)
  · intro x hx
    obtain ⟨i, hi, rfl⟩ := List.mem_map.1 hx
    rw [List.mem_range] at hi
    simp only [List.length_map, List.length_range]
    exact hq.get_lt (le_max_right _ _) (hp.get_lt (le_max_left _ _) hi)

theorem chain_wf {p q : Permut} (hp : p.WF) (hq : q.WF) : (p.chain q).WF := fromIdxToVal_wf (chain_isPerm hp hq)

theorem chain_get {p q : Permut} (hp : p.WF) (hq : q.WF) (i : Nat) : (p.chain q).get i = q.get (p.get i) := by
  rw [chain, fromIdxToVal_get (chain_isPerm hp hq), List.getElem?_map]
  by_cases hi : i < max p.idxToVal.length q.idxToVal.length
  · simp [hi]
  · rw [List.getElem?_eq_none (by simpa using hi)]
    simp only [lt_max_iff, not_or, not_lt] at hi
    simp [get, List.getElem?_eq_none hi.1, List.getElem?_eq_none hi.2]

theorem chain_length {p q : Permut} (hp : p.WF) (hq : q.WF) {n : Nat} (h1 : p.idxToVal.length ≤ n)
    (h2 : q.idxToVal.length ≤ n) : (p.chain q).idxToVal.length ≤ n := by
  have := (trim_spec _ (chain_isPerm hp hq)).2.2.2
  simp only [List.length_map, List.length_range] at this
  exact le_trans this (max_le h1 h2)

/-! ## Constructors -/

theorem fromVector_get {v : List Nat} (h : IsPerm v) {k x : Nat} (hk : v[k]? = some x) :
    (fromVector v).get x = k := by
  have h1 : (fromIdxToVal v).get k = x := by rw [fromIdxToVal_get h, hk]; rfl
  have h2 := (fromIdxToVal_wf h).invert_get k
  rw [h1] at h2
  exact h2

theorem fromVector_length {v : List Nat} (h : IsPerm v) : (fromVector v).idxToVal.length ≤ v.length := by
  have := (trim_spec v h).2.2.2
  rw [fromVector]
  simp only [invertVec_length]
  exact this

theorem mapStep_get (v : List Nat) (x : Nat × Nat) (i : Nat) :
    ((mapStep v x)[i]?).getD i = if i = x.1 then x.2 else (v[i]?).getD i := by
  rw [mapStep, List.getElem?_set]
  split
  · rename_i h
    subst h
    rw [if_pos rfl, if_pos (by simp; omega)]; rfl
  · rename_i h
    rw [if_neg (fun hh => h hh.symm), List.getElem?_append]
    split
    · rfl
    · rename_i hi
      rw [List.getElem?_eq_none (l := v) (by omega)]
      by_cases hlt : i - v.length < x.1 + 1 - v.length
      · rw [List.getElem?_range' hlt]
        simp only [Option.getD_some, Option.getD_none]; omega
      · rw [List.getElem?_eq_none (by simpa using hlt)]

theorem mapStep_length (v : List Nat) (x : Nat × Nat) : (mapStep v x).length = max v.length (x.1 + 1) := by
  simp [mapStep]; omega

theorem foldl_mapStep_get (l : List (Nat × Nat)) (hn : (l.map (·.1)).Nodup) (v : List Nat) (i : Nat) :
    ((l.foldl mapStep v)[i]?).getD i = (l.lookup i).getD ((v[i]?).getD i) := by
  induction l generalizing v with
  | nil => rfl
  | cons x l ih =>
    rw [List.map_cons, List.nodup_cons] at hn
    obtain ⟨k, y⟩ := x
    rw [List.foldl_cons, ih hn.2, mapStep_get, List.lookup_cons]
    by_cases hk : i = k
    · subst hk
      have : l.lookup i = none := by
        rw [List.lookup_eq_none_iff]
        intro z hz
        simp only [bne_iff_ne, beq_eq_false_iff_ne, ne_eq]
        intro he
        exact hn.1 (List.mem_map.2 ⟨z, hz, he.symm⟩)
      simp [this]
    · have : (i == k) = false := by simpa using hk
      simp [hk, this]

theorem foldl_mapStep_length (l : List (Nat × Nat)) (v : List Nat) {n : Nat} :
    (l.foldl mapStep v).length ≤ n ↔ v.length ≤ n ∧ ∀ x ∈ l, x.1 < n := by
  induction l generalizing v with
  | nil => simp
  | cons x l ih =>
    rw [List.foldl_cons, ih, mapStep_length]
    simp only [List.mem_cons, forall_eq_or_imp, max_le_iff, Nat.add_one_le_iff]
    tauto

/-- A map whose set of values is its set of keys, as required by `from_map`. -/
structure MapOK (map : List (Nat × Nat)) : Prop where
  keys : (map.map (·.1)).Nodup
  vals : (map.map (·.2)).Perm (map.map (·.1))

theorem MapOK.lookup {map : List (Nat × Nat)} (h : (map.map (·.1)).Nodup) {x : Nat × Nat} (hx : x ∈ map) :
    map.lookup x.1 = some x.2 := by
  induction map with
  | nil => cases hx
  | cons y l ih =>
    rw [List.map_cons, List.nodup_cons] at h
    obtain ⟨k, v⟩ := y
    rw [List.lookup_cons]
    rcases List.mem_cons.1 hx with rfl | hx
    · simp
    · have : (x.1 == k) = false := by
        simp only [beq_eq_false_iff_ne, ne_eq]
        intro he
        exact h.1 (List.mem_map.2 ⟨x, hx, he⟩)
      rw [this]
      exact ih h.2 hx

theorem MapOK.isPerm {map : List (Nat × Nat)} (h : MapOK map) : IsPerm (map.foldl mapStep []) := by
  have hg : ∀ i : Nat, ((map.foldl mapStep [])[i]?).getD i = (map.lookup i).getD i := by
    intro i; rw [foldl_mapStep_get map h.keys]; rfl
  have hlk : ∀ i v, map.lookup i = some v → (i, v) ∈ map := by
    intro i v hv
    have := List.lookup_eq_some_iff.1 hv
    obtain ⟨l1, l2, rfl, -⟩ := this
    simp
  have hlen := (foldl_mapStep_length map [] (n := (map.foldl mapStep []).length)).1 le_rfl
  have hval : ∀ i < (map.foldl mapStep []).length, (map.lookup i).getD i < (map.foldl mapStep []).length := by
    intro i hi
    cases hv : map.lookup i with
    | none => exact hi
    | some v =>
      have h1 : v ∈ map.map (·.1) := h.vals.mem_iff.1 (List.mem_map.2 ⟨(i, v), hlk i v hv, rfl⟩)
      obtain ⟨x, hx, rfl⟩ := List.mem_map.1 h1
      exact hlen.2 x hx
  have hvn : (map.map (·.2)).Nodup := h.vals.nodup_iff.2 h.keys
  have hvinj : ∀ i j v, (i, v) ∈ map → (j, v) ∈ map → i = j := by
    intro i j v hi hj
    have := List.inj_on_of_nodup_map hvn hi hj rfl
    exact congrArg Prod.fst this
  have hvk : ∀ i v, (i, v) ∈ map → ∃ w, map.lookup v = some w := by
    intro i v hi
    have h1 : v ∈ map.map (·.1) := h.vals.mem_iff.1 (List.mem_map.2 ⟨(i, v), hi, rfl⟩)
    obtain ⟨x, hx, rfl⟩ := List.mem_map.1 h1
    exact ⟨_, MapOK.lookup h.keys hx⟩
  have hget : ∀ i (hi : i < (map.foldl mapStep []).length), (map.foldl mapStep [])[i] = (map.lookup i).getD i := by
    intro i hi
    rw [← hg i, List.getElem?_eq_getElem hi]; rfl
  refine ⟨?_, ?_⟩
  · rw [List.nodup_iff_injective_getElem]
    rintro ⟨i, hi⟩ ⟨j, hj⟩ hij
    simp only [hget] at hij
    apply Fin.ext
    simp only
    cases h1 : map.lookup i with
    | none =>
      cases h2 : map.lookup j with
      | none => rw [h1, h2] at hij; exact hij
      | some v =>
        rw [h1, h2] at hij
        simp only [Option.getD_none, Option.getD_some] at hij
        obtain ⟨w, hw⟩ := hvk _ _ (hlk j v h2)
        rw [← hij, h1] at hw; cases hw
    | some v =>
      cases h2 : map.lookup j with
      | none =>
        rw [h1, h2] at hij
        simp only [Option.getD_none, Option.getD_some] at hij
        obtain ⟨w, hw⟩ := hvk _ _ (hlk i v h1)
        rw [hij, h2] at hw; cases hw
      | some w =>
        rw [h1, h2] at hij
        simp only [Option.getD_some] at hij
        subst hij
        exact hvinj _ _ _ (hlk _ _ h1) (hlk _ _ h2)
  · intro x hx
    obtain ⟨i, hi, rfl⟩ := List.mem_iff_getElem.1 hx
    rw [hget i hi]
    exact hval i hi

theorem fromMap_get {map : List (Nat × Nat)} (h : MapOK map) (i : Nat) :
    (fromMap map).get i = (map.lookup i).getD i := by
  rw [fromMap, fromIdxToVal_get h.isPerm, foldl_mapStep_get map h.keys]; rfl

theorem sortedIdx_isPerm {n : Nat} (le : Nat → Nat → Bool) : IsPerm ((List.range n).mergeSort le) := by
  have hp := List.mergeSort_perm (List.range n) le
  refine ⟨hp.nodup_iff.2 List.nodup_range, ?_⟩
  intro x hx
  rw [hp.length_eq, List.length_range]
  exact List.mem_range.1 (hp.mem_iff.1 hx)

/-! ## Summary: the permutations the public functions build -/

/-- Permutations that can be constructed with the functions of `permutation.rs` from arguments that satisfy
their documented requirements; the number bounds the columns that are moved. -/
inductive Built : Permut → Prop
  | default : Built ⟨[], []⟩
  | fromVector {v : List Nat} : IsPerm v → Built (fromVector v)
  | fromMap {map : List (Nat × Nat)} : MapOK map → Built (fromMap map)
  | fromUnsorted {β : Type} [LinearOrder β] [Inhabited β] (values : List β) : Built (fromUnsorted values)
  | invert {p : Permut} : Built p → Built p.invert
  | chain {p q : Permut} : Built p → Built q → Built (p.chain q)

theorem Built.wf {p : Permut} (h : Built p) : p.WF := by
  induction h with
  | default => exact ⟨⟨rfl, by intro i v h; simp at h, by intro i v h; simp at h⟩, by intro l hl; simp at hl⟩
  | fromVector h => exact fromVector_wf h
  | fromMap h => exact fromIdxToVal_wf h.isPerm
  | fromUnsorted values => exact fromVector_wf (sortedIdx_isPerm _)
  | invert _ ih => exact invert_wf ih
  | chain _ _ ihp ihq => exact chain_wf ihp ihq

/-- no column beyond the first `n` is moved -/
def Moves (p : Permut) (n : Nat) : Prop := ∀ i, n ≤ i → p.get i = i

theorem WF.length_le_of_moves {p : Permut} (h : p.WF) {n : Nat} (hm : Moves p n) : p.idxToVal.length ≤ n := by
  by_contra hlt
  push Not at hlt
  have hne : p.idxToVal ≠ [] := by rintro he; rw [he] at hlt; simp at hlt
  have hl := h.trimmed _ (List.getLast?_eq_some_getLast hne)
  apply hl
  have := hm (p.idxToVal.length - 1) (by omega)
  rw [get, ← List.getLast?_eq_getElem?, List.getLast?_eq_some_getLast hne] at this
  exact this

/-- **C29** Applying a permutation to a row of a table with at least as many columns as it moves is defined
and puts the value of column `i` into column `p.get i`. -/
theorem permute_moves {β : Type} {p : Permut} (hp : Built p) (row : List β) (hm : Moves p row.length) :
    ∃ row', p.permute row = some row' ∧ row'.length = row.length ∧ ∀ i : Nat, row'[p.get i]? = row[i]? :=
  hp.wf.permute_spec row (hp.wf.length_le_of_moves hm)

/-- **C29** A permutation followed by its inverse restores the row. -/
theorem permute_invert {β : Type} {p : Permut} (hp : Built p) (row : List β) (hm : Moves p row.length) :
    ((p.permute row).bind p.invert.permute) = some row ∧ ((p.invert.permute row).bind p.permute) = some row := by
  have key : ∀ p : Permut, p.WF → p.idxToVal.length ≤ row.length →
      ((p.permute row).bind p.invert.permute) = some row := by
    intro p hp hl
    obtain ⟨r, h1, h2, h3⟩ := hp.permute_spec row hl
    rw [h1]
    refine (invert_wf hp).permute_eq (by rw [invert, ← hp.inv.len, h2]; exact hl) ?_
    intro i
    rw [← h3, hp.get_invert]
  refine ⟨key p hp.wf (hp.wf.length_le_of_moves hm), ?_⟩
  exact key p.invert (invert_wf hp.wf) (by rw [invert, ← hp.wf.inv.len]; exact hp.wf.length_le_of_moves hm)

/-- **C29** Applying a composed permutation is applying one after the other. -/
theorem permute_chain {β : Type} {p q : Permut} (hp : Built p) (hq : Built q) (row : List β)
    (hmp : Moves p row.length) (hmq : Moves q row.length) :
    (p.chain q).permute row = (p.permute row).bind q.permute := by
  have h1 := hp.wf.length_le_of_moves hmp
  have h2 := hq.wf.length_le_of_moves hmq
  obtain ⟨r, e1, l1, g1⟩ := hp.wf.permute_spec row h1
  obtain ⟨r', e2, l2, g2⟩ := hq.wf.permute_spec r (by omega)
  rw [e1, Option.bind_some, e2]
  refine (chain_wf hp.wf hq.wf).permute_eq (chain_length hp.wf hq.wf h1 h2) ?_
  intro i
  rw [chain_get hp.wf hq.wf, g2, g1]

/-- **C29** Two permutations compare as equal exactly if they move all columns in the same way. -/
theorem beq_iff {p q : Permut} (hp : Built p) (hq : Built q) : p.beq q = true ↔ ∀ i, p.get i = q.get i := by
  rw [beq, beq_iff_eq]
  constructor
  · intro h i
    have hi : ∀ i, p.invert.get i = q.invert.get i := by intro i; rw [get, get, invert, invert, h]
    have h1 := hp.wf.invert_get i
    rw [hi] at h1
    have h2 := hq.wf.get_invert (p.get i)
    rw [h1] at h2
    exact h2.symm
  · intro h
    rw [WF.eq_of_get hp.wf hq.wf h]

/-- **C29** `is_identity` recognises the identity. -/
theorem isIdentity_iff (p : Permut) : p.isIdentity = true ↔ ∀ i, p.get i = i := by
  rw [isIdentity, List.all_eq_true]
  constructor
  · intro h i
    rw [get]
    cases hi : p.idxToVal[i]? with
    | none => rfl
    | some v =>
      have := h (v, i) (List.mem_zipIdx_iff_getElem?.2 hi)
      simp only [beq_iff_eq] at this
      exact this.symm
  · rintro h ⟨v, i⟩ hx
    have hx := List.mem_zipIdx_iff_getElem?.1 hx
    have := h i
    rw [get, hx] at this
    simp only [beq_iff_eq]
    exact this.symm

/-- **C29** `from_vector` takes, for each column of the result, the column of the row to put there. -/
theorem permute_fromVector {β : Type} {v : List Nat} (hv : IsPerm v) (row : List β) (hl : v.length = row.length) :
    ∃ row', (fromVector v).permute row = some row' ∧ row'.length = row.length ∧
      ∀ (k x : Nat), v[k]? = some x → row'[k]? = row[x]? := by
  obtain ⟨r, h1, h2, h3⟩ := (fromVector_wf hv).permute_spec row (by rw [← hl]; exact fromVector_length hv)
  refine ⟨r, h1, h2, ?_⟩
  intro k x hk
  rw [← h3, fromVector_get hv hk]

/-- **C29** `from_unsorted` sorts. -/
theorem permute_fromUnsorted {β : Type} [LinearOrder β] [Inhabited β] (values : List β) :
    ∃ sorted, (fromUnsorted values).permute values = some sorted ∧ sorted.Perm values ∧ sorted.Pairwise (· ≤ ·) := by
  set le : Nat → Nat → Bool := fun a b => decide (values.getD a default ≤ values.getD b default) with hle
  set idx := (List.range values.length).mergeSort le with hidx
  have hperm : idx.Perm (List.range values.length) := List.mergeSort_perm _ _
  obtain ⟨r, h1, h2, h3⟩ := permute_fromVector (sortedIdx_isPerm (n := values.length) le) values
    (by rw [hperm.length_eq, List.length_range])
  have hr : r = idx.map fun x => values.getD x default := by
    apply List.ext_getElem?
    intro k
    by_cases hk : k < idx.length
    · rw [h3 k idx[k] (List.getElem?_eq_getElem hk), List.getElem?_map, List.getElem?_eq_getElem hk]
      have : idx[k] < values.length := List.mem_range.1 (hperm.mem_iff.1 (List.getElem_mem hk))
      simp [List.getD_eq_getElem?_getD, this]
    · rw [List.getElem?_eq_none (by rw [h2]; rw [hperm.length_eq, List.length_range] at hk; omega),
        List.getElem?_eq_none (by simpa using hk)]
  refine ⟨r, h1, ?_, ?_⟩
  · rw [hr]
    have h4 := hperm.map fun x => values.getD x default
    have h5 : (List.range values.length).map (fun x => values.getD x default) = values := by
      apply List.ext_getElem
      · simp
      · intro i hi hi'
        simp [List.getD_eq_getElem?_getD, hi']
    rwa [h5] at h4
  · rw [hr, List.pairwise_map]
    have := List.pairwise_mergeSort (le := le) (by
        intro a b c hab hbc
        simp only [hle, decide_eq_true_eq] at *
        exact le_trans hab hbc)
      (by intro a b; simp only [hle, Bool.or_eq_true, decide_eq_true_eq]; exact le_total _ _)
      (List.range values.length)
    exact this.imp (by intro a b hab; simpa [hle] using hab)

theorem mapM_option_eq {α β : Type} (f : α → Option β) (g : α → β) (l : List α) (h : ∀ x ∈ l, f x = some (g x)) :
    l.mapM f = some (l.map g) := by
  induction l with
  | nil => rfl
  | cons x l ih =>
    rw [List.mapM_cons, h x List.mem_cons_self, ih fun y hy => h y (List.mem_cons_of_mem _ hy)]; rfl

/-- **C29** `from_transformation` turns its first argument into its second. -/
theorem permute_fromTransformation {β : Type} [DecidableEq β] (source target : List β) (hs : source.Nodup)
    (hp : source.Perm target) :
    ∃ p, fromTransformation source target = some p ∧ p.WF ∧ p.permute source = some target := by
  set map := source.zipIdx.map fun x => (x.2, target.idxOf x.1) with hmap
  have h1 : fromTransformation source target = some (fromMap map) := by
    rw [fromTransformation, mapM_option_eq _ (fun x => (x.2, target.idxOf x.1))]
    · rfl
    · intro x hx
      have : x.1 ∈ target := by
        refine hp.mem_iff.1 ?_
        have := List.mem_zipIdx_iff_getElem?.1 (show (x.1, x.2) ∈ source.zipIdx from hx)
        exact List.mem_of_getElem? this
      rw [if_pos this]; rfl
  have hkeys : map.map (·.1) = List.range source.length := by
    rw [hmap, List.map_map, List.range_eq_range']
    exact List.zipIdx_map_snd 0 source
  have hvals : map.map (·.2) = source.map target.idxOf := by
    rw [hmap, List.map_map]
    have : source.zipIdx.map (target.idxOf ∘ Prod.fst) = (source.zipIdx.map Prod.fst).map target.idxOf := by
      rw [List.map_map]
    rw [List.zipIdx_map_fst] at this
    exact this
  have htn : target.Nodup := hp.nodup_iff.1 hs
  have hok : MapOK map := by
    refine ⟨by rw [hkeys]; exact List.nodup_range, ?_⟩
    rw [hkeys, hvals]
    have h2 := hp.map target.idxOf
    refine h2.trans ?_
    have h3 : target.map target.idxOf = List.range target.length := by
      apply List.ext_getElem
      · simp
      · intro i hi hi'
        simp only [List.getElem_map, List.getElem_range]
        exact List.Nodup.idxOf_getElem htn i (by simpa using hi)
    rw [h3, hp.length_eq]
  have hwf : (fromMap map).WF := fromIdxToVal_wf hok.isPerm
  refine ⟨_, h1, hwf, ?_⟩
  have hmv : Moves (fromMap map) source.length := by
    intro i hi
    rw [fromMap_get hok]
    have : map.lookup i = none := by
      rw [List.lookup_eq_none_iff]
      intro z hz
      have : z.1 ∈ List.range source.length := by rw [← hkeys]; exact List.mem_map.2 ⟨z, hz, rfl⟩
      rw [List.mem_range] at this
      simp only [beq_eq_false_iff_ne, ne_eq, bne_iff_ne]
      omega
    rw [this]; rfl
  refine hwf.permute_eq (hwf.length_le_of_moves hmv) ?_
  intro i
  by_cases hi : i < source.length
  · have : (i, target.idxOf source[i]) ∈ map :=
      List.mem_map.2 ⟨(source[i], i), List.mem_zipIdx_iff_getElem?.2 (List.getElem?_eq_getElem hi), rfl⟩
    have h4 : target.idxOf source[i] < target.length :=
      List.idxOf_lt_length_iff.2 (hp.mem_iff.1 (List.getElem_mem hi))
    rw [fromMap_get hok, MapOK.lookup hok.keys this, Option.getD_some, List.getElem?_eq_getElem hi,
      List.getElem?_eq_getElem h4, List.getElem_idxOf]
  · have := hp.length_eq
    rw [hmv i (by omega), List.getElem?_eq_none (by omega), List.getElem?_eq_none (by omega)]

/-! Concrete cases -/

example : (fromVector [2, 0, 1, 3]).permute ['a', 'b', 'c', 'd'] = some ['c', 'a', 'b', 'd'] := by
  have h : trim [2, 0, 1, 3] = [2, 0, 1] := by
    have h1 : trim [2, 0, 1] = [2, 0, 1] := by rw [trim]; rfl
    rw [trim]
    exact h1
  rw [fromVector, h]; rfl
example : IsPerm [2, 0, 1, 3] := by unfold IsPerm; decide
example : MapOK [(0, 2), (2, 0)] := ⟨by decide, by decide⟩

end Permut
end Verif
