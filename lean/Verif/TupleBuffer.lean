import Verif.TypedLookup
import Verif.TrieLookup

/-!
# Tuple buffers

Model of `/repo/nemo-physical/src/tabular/buffer/tuple_buffer.rs` and `sorted_tuple_buffer.rs`: tuples
are written value by value, stored in subtables according to their storage types, and sorted when
the buffer is finalized.
-/

set_option linter.unusedSimpArgs false
set_option linter.unusedSectionVars false

namespace Verif
variable {α : Type} [SVal α]

/-- `TypedTableRecord` with its part of `TypedTableStorage` (tuple_buffer.rs:24-84, 221-230): the
tuples are kept as rows instead of typed columns (`current_length` is the number of rows). -/
structure SubTable (α : Type) where
  types : List Ty
  rows : List (List α)

/-- `TupleBuffer` (tuple_buffer.rs:234-263) without patterns; `cur` is the part of `current_tuple`
before `current_tuple_index`. -/
structure TBuf (α : Type) where
  subtables : List (SubTable α)
  lookup : TLookup
  cur : List α
  cols : Nat

namespace TBuf

/-- `new` (tuple_buffer.rs:267-292). -/
def new (cols : Nat) : TBuf α := ⟨[], .new, [], cols⟩

/-- `push_tuple` (tuple_buffer.rs:40-50): a value is pushed into the typed column of the record; with
other types than those of the record a wrong or missing column would be used, which is an error
here. -/
def pushAt (subs : List (SubTable α)) (id : Nat) (tuple : List α) : Option (List (SubTable α)) := do
  let s ← subs[id]?
  if s.types = tuple.map ty then return subs.set id { s with rows := s.rows ++ [tuple] } else none

/-- `write_tuple` (tuple_buffer.rs:321-342). -/
def writeTuple (b : TBuf α) (tuple : List α) : Option (TBuf α) := do
  let (r, lookup) ← b.lookup.subtableId (tuple.map ty) b.subtables.length
  match r with
  | some id =>
    let subs ← pushAt b.subtables id tuple
    return { b with lookup := lookup, subtables := subs }
  | none =>
    let subs ← pushAt (b.subtables ++ [⟨tuple.map ty, []⟩]) b.subtables.length tuple
    return { b with lookup := lookup, subtables := subs }

/-- `add_tuple_value` (tuple_buffer.rs:349-358). -/
def addTupleValue (b : TBuf α) (v : α) : Option (TBuf α) :=
  if b.cols ≤ b.cur.length + 1 then writeTuple { b with cur := [] } (b.cur ++ [v])
  else some { b with cur := b.cur ++ [v] }

/-- `drop_current_tuple` (tuple_buffer.rs:386-388). -/
def dropCurrent (b : TBuf α) : TBuf α := { b with cur := [] }

/-- write a sequence of values -/
def addAll (b : TBuf α) : List α → Option (TBuf α)
  | [] => some b
  | v :: vs => do
    let b ← b.addTupleValue v
    addAll b vs

/-- `size` (tuple_buffer.rs:408-413). -/
def size (b : TBuf α) : Nat := (b.subtables.map fun s => s.rows.length).sum

/-- `subtable_ids` (sorted_tuple_buffer.rs:27-34). -/
def starts : Nat → List (SubTable α) → List Nat
  | o, [] => [o]
  | o, s :: l => o :: starts (o + s.rows.length) l

/-- `get_subtable_id` (sorted_tuple_buffer.rs:65-75): the list is walked with its predecessor. -/
def locate (i : Nat) : Nat → List Nat → Option (Nat × Nat)
  | j, a :: b :: l => if i < b then some (j, i - a) else locate i (j + 1) (b :: l)
  | _, _ => none

/-- the tuple with a global index (sorted_tuple_buffer.rs:86-91, 132-137) -/
def tupleAt (b : TBuf α) (i : Nat) : Option (List Ty × List α) := do
  let (j, k) ← locate i 0 (starts 0 b.subtables)
  let s ← b.subtables[j]?
  let r ← s.rows[k]?
  return (s.types, r)

/-- the loop of `compare_tuples` (sorted_tuple_buffer.rs:93-118) -/
def compareTuples : List Ty → List α → List Ty → List α → Ordering
  | τ :: ts, a :: r, σ :: us, b :: s =>
    match compare τ σ with
    | .eq =>
      match compare a b with
      | .eq => compareTuples ts r us s
      | o => o
    | o => o
  | _, _, _, _ => .eq

/-- `SortedTupleBuffer::new` and `get_column` (sorted_tuple_buffer.rs:26-59, 128-138): the tuples in
sorted order.  The permutation of indices is applied to the tuples right away. -/
def finalize (b : TBuf α) : Option (List (List α)) := do
  let tuples ← (List.range b.size).mapM b.tupleAt
  return (tuples.mergeSort fun x y => decide (compareTuples x.1 x.2 y.1 y.2 ≠ .gt)).map (·.2)

end TBuf

/-! ## Correctness -/

/-- what a subtable stores -/
def TBuf.stored (b : TBuf α) : List (List α) := b.subtables.flatMap (·.rows)

/-- Invariant of a buffer: the lookup finds the subtable of each type sequence. -/
structure TBuf.OK (b : TBuf α) : Prop where
  pos : 0 < b.cols
  cur : b.cur.length < b.cols
  typed : ∀ s ∈ b.subtables, s.types.length = b.cols ∧ ∀ r ∈ s.rows, r.map ty = s.types
  lookup : ∃ M, TLookup.Stores b.lookup b.cols M ∧ 5 ∣ b.lookup.length ∧
    ∀ ts : List Ty, ts.length = b.cols → ∀ i, M ts = some i ↔
      ∃ s, b.subtables[i]? = some s ∧ s.types = ts

theorem TBuf.ok_new {m : Nat} (hm : 0 < m) : (TBuf.new m : TBuf α).OK where
  pos := hm
  cur := hm
  typed := by simp [new]
  lookup := by
    refine ⟨fun p => if p = [] then some 0 else none, ⟨by simp, ?_, ?_, ?_, ?_⟩,
      by simp [new, TLookup.new], ?_⟩
    · intro p b _ hb
      split at hb <;> simp at hb
      subst hb; simp [new, TLookup.new]
    · intro p b τ _ hb
      split at hb <;> simp at hb
      subst hb
      have := τ.isLt
      rw [if_neg (by simp)]
      simp only [new, TLookup.new]
      rw [List.getElem?_replicate, if_pos (by omega)]
    · intro p q b _ _ hp hq
      split at hp <;> simp at hp
      split at hq <;> simp at hq
      simp_all
    · intro p τ _; simp
    · intro ts hts i
      have : ts ≠ [] := by intro h; subst h; simp [new] at hts; omega
      simp [new, this]

theorem TBuf.writeTuple_spec {b : TBuf α} (hb : b.OK) {r : List α} (hr : r.length = b.cols) :
    ∃ b', b.writeTuple r = some b' ∧ b'.OK ∧ b'.cols = b.cols ∧ b'.cur = b.cur ∧
      b'.stored.Perm (r :: b.stored) := by
  obtain ⟨M, hS, h5, hM⟩ := hb.lookup
  obtain ⟨res, t', M', e1, e2, e3, e4, e5, e6⟩ := TLookup.subtableIdAt_spec hS h5 b.subtables.length
    (r.map ty) [] 0 hS.root (by simp [hr])
  simp only [List.nil_append] at e4 e5 e6
  have hrl : (r.map ty).length = b.cols := by simp [hr]
  cases hres : res with
  | some id =>
    rw [hres] at e4 e5 e1
    obtain ⟨s, hs1, hs2⟩ := (hM _ hrl id).mp e4.symm
    have hlt : id < b.subtables.length := (List.getElem?_eq_some_iff.mp hs1).1
    refine ⟨{ b with lookup := t', subtables := b.subtables.set id { s with rows := s.rows ++ [r] } },
      ?_, ⟨hb.pos, hb.cur, ?_, M', e2, e3, ?_⟩, rfl, rfl, ?_⟩
    · simp [writeTuple, TLookup.subtableId, e1, pushAt, hs1, hs2]
    · intro s' hs'
      rcases List.mem_or_eq_of_mem_set hs' with h | rfl
      · exact hb.typed s' h
      · obtain ⟨h1, h2⟩ := hb.typed s (List.mem_of_getElem? hs1)
        refine ⟨h1, fun x hx => ?_⟩
        rcases List.mem_append.mp hx with h | h
        · exact h2 x h
        · rw [List.mem_singleton.mp h, hs2]
    · intro ts hts i
      have hMM : M' ts = M ts := by
        by_cases h : ts = r.map ty
        · rw [h, e5, ← e4]; rfl
        · exact e6 ts hts h
      rw [hMM, hM ts hts i]
      simp only [List.getElem?_set]
      by_cases hi : id = i
      · subst hi
        simp only [if_true, hlt]
        constructor
        · rintro ⟨s', h1, h2⟩
          rw [hs1] at h1; cases h1
          exact ⟨_, rfl, h2⟩
        · rintro ⟨s', h1, h2⟩
          cases h1
          exact ⟨s, hs1, h2⟩
      · simp [hi]
    · have hsplit : b.subtables = b.subtables.take id ++ s :: b.subtables.drop (id + 1) := by
        obtain ⟨h, hg⟩ := List.getElem?_eq_some_iff.mp hs1
        rw [← hg, ← List.drop_eq_getElem_cons h, List.take_append_drop]
      have hset : b.subtables.set id { s with rows := s.rows ++ [r] } =
          b.subtables.take id ++ { s with rows := s.rows ++ [r] } :: b.subtables.drop (id + 1) := by
        rw [List.set_eq_take_append_cons_drop, if_pos hlt]
      simp only [stored, hset]
      conv_rhs => rw [hsplit]
      simp only [List.flatMap_append, List.flatMap_cons, List.append_assoc, List.singleton_append]
      exact (List.perm_middle (l₁ := (b.subtables.take id).flatMap (·.rows) ++ s.rows)).trans
        (by simp) |> fun h => by simpa using h
  | none =>
    rw [hres] at e4 e5 e1
    refine ⟨{ b with lookup := t', subtables := b.subtables ++ [⟨r.map ty, [r]⟩] },
      ?_, ⟨hb.pos, hb.cur, ?_, M', e2, e3, ?_⟩, rfl, rfl, ?_⟩
    · simp [writeTuple, TLookup.subtableId, e1, pushAt]
    · intro s' hs'
      rcases List.mem_append.mp hs' with h | h
      · exact hb.typed s' h
      · rw [List.mem_singleton.mp h]
        simp [hr]
    · intro ts hts i
      by_cases h : ts = r.map ty
      · subst h
        rw [e5]
        simp only [Option.getD_none, Option.some.injEq]
        constructor
        · rintro rfl; exact ⟨⟨r.map ty, [r]⟩, by simp, rfl⟩
        · rintro ⟨s, h1, h2⟩
          by_contra hne
          have hi : i < b.subtables.length := by
            have := (List.getElem?_eq_some_iff.mp h1).1
            simp at this; omega
          rw [List.getElem?_append_left hi] at h1
          have := (hM _ hrl i).mpr ⟨s, h1, h2⟩
          rw [← e4] at this; cases this
      · rw [e6 ts hts h, hM ts hts i]
        constructor
        · rintro ⟨s, h1, h2⟩
          exact ⟨s, by rw [List.getElem?_append_left (List.getElem?_eq_some_iff.mp h1).1]; exact h1, h2⟩
        · rintro ⟨s, h1, h2⟩
          by_cases hi : i < b.subtables.length
          · rw [List.getElem?_append_left hi] at h1; exact ⟨s, h1, h2⟩
          · rw [List.getElem?_append_right (by omega)] at h1
            have := List.mem_of_getElem? h1
            rw [List.mem_singleton.mp this] at h2
            exact absurd h2.symm h
    · simp only [stored, List.flatMap_append, List.flatMap_cons, List.flatMap_nil, List.append_nil]
      exact List.perm_append_singleton _ _

/-- writing the values of complete rows -/
theorem TBuf.addRow_spec {b : TBuf α} (hb : b.OK) (vs : List α) : ∀ (pre : List α) (rest : List α),
    b.cur = pre → (pre ++ vs).length = b.cols → vs ≠ [] →
    ∃ b' : TBuf α, b.addAll (vs ++ rest) = b'.addAll rest ∧ b'.OK ∧ b'.cols = b.cols ∧ b'.cur = [] ∧
      b'.stored.Perm ((pre ++ vs) :: b.stored) := by
  induction vs generalizing b with
  | nil => intro _ _ _ _ h; exact absurd rfl h
  | cons v vs ih =>
    intro pre rest hcur hlen _
    have hc : b.cur.length + 1 + vs.length = b.cols := by rw [hcur, ← hlen]; simp; omega
    rw [List.cons_append, addAll]
    cases vs with
    | nil =>
      have hOK : ({ b with cur := [] } : TBuf α).OK := ⟨hb.pos, hb.pos, hb.typed, hb.lookup⟩
      obtain ⟨b', e1, e2, e3, e4, e5⟩ := TBuf.writeTuple_spec hOK (r := b.cur ++ [v])
        (by simp; simpa using hc)
      refine ⟨b', ?_, e2, e3, e4, by rw [← hcur]; exact e5⟩
      have hstep : b.addTupleValue v = some b' := by
        rw [addTupleValue, if_pos (by simp at hc; omega), e1]
      rw [hstep]; rfl
    | cons w vs =>
      have hstep : b.addTupleValue v = some { b with cur := b.cur ++ [v] } := by
        rw [addTupleValue, if_neg (by simp at hc; omega)]
      rw [hstep]
      have hOK : ({ b with cur := b.cur ++ [v] } : TBuf α).OK :=
        ⟨hb.pos, by simp at hc ⊢; omega, hb.typed, hb.lookup⟩
      obtain ⟨b', e1, e2, e3, e4, e5⟩ := ih (b := { b with cur := b.cur ++ [v] }) hOK (pre ++ [v]) rest
        (by simp [hcur]) (by simpa using hlen) (by simp)
      exact ⟨b', by simpa using e1, e2, e3, e4, by simpa [stored] using e5⟩

theorem TBuf.addRows_spec {m : Nat} (rows : List (List α)) : ∀ {b : TBuf α}, b.OK → b.cols = m →
    b.cur = [] → (∀ r ∈ rows, r.length = m) →
    ∃ b', b.addAll rows.flatten = some b' ∧ b'.OK ∧ b'.cols = m ∧ b'.cur = [] ∧
      b'.stored.Perm (rows ++ b.stored) := by
  induction rows with
  | nil => intro b hb hm hc _; exact ⟨b, rfl, hb, hm, hc, by simp⟩
  | cons r rows ih =>
    intro b hb hm hc hl
    have hrl := hl r (by simp)
    have hrne : r ≠ [] := by rintro rfl; have := hb.pos; simp at hrl; omega
    obtain ⟨b1, e1, e2, e3, e4, e5⟩ := TBuf.addRow_spec hb r [] rows.flatten hc (by simp [hrl, hm]) hrne
    obtain ⟨b2, f1, f2, f3, f4, f5⟩ := ih e2 (e3.trans hm) e4 (fun x hx => hl x (by simp [hx]))
    refine ⟨b2, by rw [List.flatten_cons, e1, f1], f2, f3, f4, ?_⟩
    refine f5.trans ((List.Perm.append_left rows e5).trans ?_)
    simpa using List.perm_middle

/-! ### Sorting -/

theorem TBuf.locate_spec (l : List (SubTable α)) : ∀ (o i j : Nat), o ≤ i →
    i < o + (l.map fun s => s.rows.length).sum →
    ∃ k n s r, TBuf.locate i j (TBuf.starts o l) = some (j + k, n) ∧ l[k]? = some s ∧
      s.rows[n]? = some r ∧ (l.flatMap (·.rows))[i - o]? = some r := by
  induction l with
  | nil => intro o i j h1 h2; simp at h2; omega
  | cons s l ih =>
    intro o i j h1 h2
    simp only [List.map_cons, List.sum_cons] at h2
    have hst : ∃ l', TBuf.starts (o + s.rows.length) l = (o + s.rows.length) :: l' := by
      cases l with
      | nil => exact ⟨[], rfl⟩
      | cons => exact ⟨_, rfl⟩
    obtain ⟨l', hl'⟩ := hst
    rw [TBuf.starts, hl', TBuf.locate]
    by_cases h : i < o + s.rows.length
    · have hlt : i - o < s.rows.length := by omega
      refine ⟨0, i - o, s, s.rows[i - o], by rw [if_pos h]; rfl, rfl,
        List.getElem?_eq_getElem hlt, ?_⟩
      rw [List.flatMap_cons, List.getElem?_append_left hlt, List.getElem?_eq_getElem hlt]
    · obtain ⟨k, n, s', r, e1, e2, e3, e4⟩ := ih (o + s.rows.length) i (j + 1) (by omega) (by omega)
      refine ⟨k + 1, n, s', r, ?_, by simpa using e2, e3, ?_⟩
      · rw [if_neg h, ← hl', e1]; congr 2; omega
      · rw [List.flatMap_cons, List.getElem?_append_right (by omega),
          show i - o - s.rows.length = i - (o + s.rows.length) by omega, e4]

theorem TBuf.tuples_spec {b : TBuf α} (hb : b.OK) :
    (List.range b.size).mapM b.tupleAt = some (b.stored.map fun r => (r.map ty, r)) := by
  have hlen : b.stored.length = b.size := by
    simp [stored, size, List.length_flatMap]
  have key : ∀ i < b.size, ∃ r, b.stored[i]? = some r ∧ b.tupleAt i = some (r.map ty, r) := by
    intro i hi
    obtain ⟨k, n, s, r, e1, e2, e3, e4⟩ := TBuf.locate_spec b.subtables 0 i 0 (by omega) (by
      simpa [size] using hi)
    have := (hb.typed s (List.mem_of_getElem? e2)).2 r (List.mem_of_getElem? e3)
    refine ⟨r, by simpa [stored] using e4, ?_⟩
    simp [tupleAt, e1, e2, e3, this]
  have aux : ∀ n ≤ b.size, (List.range n).mapM b.tupleAt =
      some ((b.stored.take n).map fun r => (r.map ty, r)) := by
    intro n
    induction n with
    | zero => intro _; simp
    | succ n ih =>
      intro hn
      obtain ⟨r, h1, h2⟩ := key n (by omega)
      rw [List.range_succ, List.mapM_append, ih (by omega)]
      simp [h2, List.take_add_one, h1]
  rw [aux _ le_rfl, ← hlen, List.take_length]

theorem TBuf.compareTuples_eq (r s : List α) (hl : r.length = s.length) :
    TBuf.compareTuples (r.map ty) r (s.map ty) s ≠ .gt ↔ r ≤ s := by
  induction r generalizing s with
  | nil =>
    cases s with
    | nil => simp [compareTuples]
    | cons => simp at hl
  | cons a r ih =>
    cases s with
    | nil => simp at hl
    | cons b s =>
      have ih := ih s (by simpa using hl)
      simp only [List.map_cons, compareTuples]
      rw [cons_le_cons_iff']
      rcases lt_trichotomy (ty a) (ty b) with h | h | h
      · rw [compare_lt_iff_lt.mpr h]
        have : a < b := by
          by_contra hle
          exact absurd (SVal.ty_mono b a (not_lt.mp hle)) (not_le.mpr h)
        simp [this]
      · rw [compare_eq_iff_eq.mpr h]
        rcases lt_trichotomy a b with h' | h' | h'
        · rw [compare_lt_iff_lt.mpr h']; simp [h']
        · rw [compare_eq_iff_eq.mpr h']; simp [h', ih]
        · rw [compare_gt_iff_gt.mpr h']
          simp [not_lt.mpr h'.le, ne_of_gt h']
      · rw [compare_gt_iff_gt.mpr h]
        have : b < a := by
          by_contra hle
          exact absurd (SVal.ty_mono a b (not_lt.mp hle)) (not_le.mpr h)
        simp [not_lt.mpr this.le, ne_of_gt this]

theorem TBuf.finalize_spec {b : TBuf α} (hb : b.OK) :
    ∃ out, b.finalize = some out ∧ SortedRows out ∧ out.Perm b.stored := by
  have hlen : ∀ r ∈ b.stored, r.length = b.cols := by
    intro r hr
    obtain ⟨s, hs, hr⟩ := List.mem_flatMap.mp hr
    obtain ⟨h1, h2⟩ := hb.typed s hs
    have := congrArg List.length (h2 r hr)
    simpa [h1] using this
  let T := b.stored.map fun r => (r.map ty, r)
  let le : List Ty × List α → List Ty × List α → Bool :=
    fun x y => decide (TBuf.compareTuples x.1 x.2 y.1 y.2 ≠ .gt)
  have hT : ∀ x ∈ T, x.1 = x.2.map ty ∧ x.2.length = b.cols := by
    intro x hx
    obtain ⟨r, hr, rfl⟩ := List.mem_map.mp hx
    exact ⟨rfl, hlen r hr⟩
  refine ⟨(T.mergeSort le).map (·.2), ?_, ?_, ?_⟩
  · simp only [finalize, TBuf.tuples_spec hb, Option.bind_eq_bind, Option.bind_some]
    rfl
  · -- on the tuples at hand the comparison agrees with the order of the rows
    have hle : ∀ x ∈ T, ∀ y ∈ T, le x y = decide (x.2 ≤ y.2) := by
      intro x hx y hy
      obtain ⟨h1, h2⟩ := hT x hx
      obtain ⟨h3, h4⟩ := hT y hy
      simp only [le, h1, h3]
      have := TBuf.compareTuples_eq x.2 y.2 (by omega)
      simp only [this]
    rw [List.map_mergeSort (s := fun x y => decide (x ≤ y)) (f := fun x : List Ty × List α => x.2) hle]
    have hsorted := List.pairwise_mergeSort (le := fun x y : List α => decide (x ≤ y)) (by
        intro a b c h1 h2; simp only [decide_eq_true_eq] at *; exact h1.trans h2) (by
        intro a b; simp only [Bool.or_eq_true, decide_eq_true_eq]; exact le_total _ _) (T.map (·.2))
    exact hsorted.imp (fun h => by simpa using h)
  · have := (List.mergeSort_perm T le).map (·.2)
    refine this.trans ?_
    simp [T, List.map_map, Function.comp_def]

end Verif
