import Verif.ProjectReorder

/-!
# Tables in several column orders

Model of `/repo/nemo-physical/src/management/database/order.rs` (`OrderedReferenceManager`), of
`/repo/nemo-physical/src/management/database/storage.rs` (`TableStorage`) and of `closest_order`
(`/repo/nemo-physical/src/management/util.rs`).

A table stored under the order `o` contains `o.permute row` for each of its rows `row`.
-/

set_option linter.unusedSimpArgs false
set_option linter.unusedSectionVars false

namespace Verif

/-! ## Model -/

/-- `TableStorage` (storage.rs:16-26); a list of sources is modelled by their arity and the rows they provide -/
inductive Storage (α : Type)
  | empty
  | mem (t : Trie α)
  | sources (arity : Nat) (rows : List (List α))

namespace Storage
variable {α : Type} [SVal α]

/-- `TableStorage::trie` (storage.rs:65-87): load the table if it is not in memory.  `none` is a panic; errors of
the sources are not modelled. -/
def load : Storage α → Option (Trie α)
  | .empty => none
  | .mem t => some t
  | .sources n rows => tableOf n rows

/-- `TableStorage::arity` (storage.rs:101-110) -/
def arity : Storage α → Nat
  | .empty => 0
  | .mem t => t.arity
  | .sources n _ => n

end Storage

/-- `OrderedReferenceManager` (order.rs:40-53) -/
structure Mgr (α : Type) where
  stored : List (Storage α)
  smap : List (Nat × List (Permut × Nat))
  refs : List (Nat × Nat × Permut)

/-- one iteration of the loop of `distance` (util.rs:31-46): the score and the last position -/
def distStep (frm toInv : Permut) (acc : Nat × Int) (position : Nat) : Nat × Int :=
  let pos : Int := frm.get (toInv.get position)
  let diff := pos - acc.2
  (acc.1 + (if diff ≤ 0 then diff.natAbs else (diff - 1).toNat), pos)

/-- `Option::max` of the last mapped indices, or 0 (util.rs:24) -/
def maxMapped (p q : Permut) : Nat := max ((p.lastMapped).getD 0) ((q.lastMapped).getD 0)

/-- `distance` (util.rs:23-49) -/
def orderDistance (frm tgt : Permut) : Nat :=
  ((List.range (maxMapped frm tgt + 1)).foldl (distStep frm tgt.invert) (0, -1)).1

/-- `min_by` (util.rs:51-53): the first element with the least key -/
def minBy {β : Type} (key : β → Nat) : List β → Option β
  | [] => none
  | x :: l => some (l.foldl (fun best y => if key y < key best then y else best) x)

/-- `closest_order` (util.rs:11-54), together with the storage of that order -/
def closestOrder (om : List (Permut × Nat)) (o : Permut) : Option (Permut × Nat) :=
  minBy (fun x => orderDistance x.1 o) om

/-- `HashMap::get` for a map whose keys are orders; keys are compared with `PartialEq` for permutations. -/
def findOrder (om : List (Permut × Nat)) (o : Permut) : Option Nat := (om.find? fun x => x.1.beq o).map (·.2)

namespace Mgr
variable {α : Type} [SVal α]

/-- `Default` (order.rs:39) -/
def new : Mgr α := ⟨[], [], []⟩

/-- `resolve_reference` (order.rs:78-91) -/
def resolve (m : Mgr α) (id : Nat) (o : Permut) : Nat × Permut :=
  match m.refs.lookup id with
  | some (i, π) => (i, o.chain π)
  | none => (id, o)

/-- `add_storage` (order.rs:158-184) after resolving the reference -/
def addStorageAt (m : Mgr α) (id : Nat) (o : Permut) : Nat × Mgr α :=
  match m.smap.lookup id with
  | some om =>
    match findOrder om o with
    | some sid => (sid, m)
    | none => (m.stored.length,
        ⟨m.stored ++ [.empty], hmInsert m.smap id ((o, m.stored.length) :: om), m.refs⟩)
  | none => (m.stored.length, ⟨m.stored ++ [.empty], hmInsert m.smap id [(o, m.stored.length)], m.refs⟩)

/-- `add_storage` (order.rs:158-184) -/
def addStorage (m : Mgr α) (id : Nat) (o : Permut) : Nat × Mgr α :=
  m.addStorageAt (m.resolve id o).1 (m.resolve id o).2

/-- assignment to `stored_tables[storage_id]` -/
def setStored (m : Mgr α) (sid : Nat) (st : Storage α) : Mgr α := { m with stored := m.stored.set sid st }

/-- `add_trie` (order.rs:190-200) -/
def addTrie (m : Mgr α) (id : Nat) (o : Permut) (t : Trie α) : Nat × Mgr α :=
  ((m.addStorage id o).1, (m.addStorage id o).2.setStored (m.addStorage id o).1 (.mem t))

/-- `add_sources` (order.rs:206-216) -/
def addSources (m : Mgr α) (id : Nat) (o : Permut) (n : Nat) (rows : List (List α)) : Nat × Mgr α :=
  ((m.addStorage id o).1, (m.addStorage id o).2.setStored (m.addStorage id o).1 (.sources n rows))

/-- The storage after adding a source (order.rs:231-234) -/
def withSource (st : Option (Storage α)) (n : Nat) (rows : List (List α)) : Storage α :=
  match st with
  | some (.sources n' rows') => .sources n' (rows' ++ rows)
  | _ => .sources n rows

/-- `add_source` (order.rs:224-237) -/
def addSource (m : Mgr α) (id : Nat) (o : Permut) (n : Nat) (rows : List (List α)) : Nat × Mgr α :=
  let r := m.addStorage id o
  (r.1, r.2.setStored r.1 (withSource r.2.stored[r.1]? n rows))

/-- `add_reference` (order.rs:240-263) -/
def addReference (m : Mgr α) (existing reference : Nat) (π : Permut) : Mgr α :=
  match m.refs.lookup existing with
  | some (i, ρ) => { m with refs := hmInsert m.refs reference (i, ρ.chain π) }
  | none => { m with refs := hmInsert m.refs reference (existing, π) }

/-- `delete_tables_from` (order.rs:60-71) -/
def deleteFrom (m : Mgr α) (sid tid : Nat) : Mgr α :=
  ⟨m.stored.take sid,
   (m.smap.filter fun x => decide (x.1 < tid)).map fun x => (x.1, x.2.filter fun y => decide (y.2 < sid)),
   m.refs.filter fun x => decide (x.1 < tid)⟩

/-- Load the table in some storage (order.rs:285, 306-308, 318-320). -/
def loadAt (m : Mgr α) (sid : Nat) : Option (Trie α × Mgr α) := do
  let st ← m.stored[sid]?
  let t ← st.load
  return (t, m.setStored sid (.mem t))

/-- Compute the table in a new order from the closest one (order.rs:288-322) -/
def reorder (m : Mgr α) (id : Nat) (o : Permut) (om : List (Permut × Nat)) (d : α) : Option (Nat × Mgr α) := do
  let c ← closestOrder om o
  let st ← m.stored[c.2]?
  let g := GenPR.fromReordering c.1 o st.arity
  let l ← m.loadAt c.2
  if g.isNoop then return (c.2, l.2)
  else do
    let t ← g.apply GScan.ops l.1.arity l.1.possibleTypes (GScan.new l.1) d
    return l.2.addTrie id o t

/-- `trie_id` (order.rs:275-327) after resolving the reference -/
def trieIdAt (m : Mgr α) (id : Nat) (o : Permut) (d : α) : Option (Nat × Mgr α) := do
  let om ← m.smap.lookup id
  match findOrder om o with
  | some sid => do
    let l ← m.loadAt sid
    return (sid, l.2)
  | none => m.reorder id o om d

/-- `trie_id` (order.rs:275-327) -/
def trieId (m : Mgr α) (id : Nat) (o : Permut) (d : α) : Option (Nat × Mgr α) :=
  m.trieIdAt (m.resolve id o).1 (m.resolve id o).2 d

/-- `trie` (order.rs:354-358) -/
def trie (m : Mgr α) (sid : Nat) : Option (Trie α) :=
  match m.stored[sid]? with
  | some (.mem t) => some t
  | _ => none

end Mgr

/-! ## Specification -/

section
variable {α : Type} [SVal α]

/-- the rows with permuted columns -/
def permuteRows (o : Permut) (rows : List (List α)) : List (List α) := rows.filterMap o.permute

/-- a table of the given arity with the given rows -/
def TableHas (t : Trie α) (n : Nat) (rows : List (List α)) : Prop :=
  t.arity = n ∧ ∃ sorted, SortedRows sorted ∧ Rep t sorted ∧ ∀ r, r ∈ sorted ↔ r ∈ rows

/-- the same for a storage -/
def Holds (st : Storage α) (n : Nat) (rows : List (List α)) : Prop :=
  match st with
  | .empty => False
  | .mem t => TableHas t n rows
  | .sources n' rows' => n' = n ∧ ∀ r, r ∈ rows' ↔ r ∈ rows

/-- The logical content of a database: for each table its arity and its rows. -/
abbrev Content (α : Type) := Nat → Option (Nat × List (List α))

/-- One more entry. -/
def Content.set (c : Content α) (id : Nat) (n : Nat) (rows : List (List α)) : Content α :=
  fun i => if i = id then some (n, rows) else c i

/-- tables have at least one column and rows of the right length -/
def RowsOK (n : Nat) (rows : List (List α)) : Prop := 0 < n ∧ ∀ r ∈ rows, r.length = n

/-- One call to the manager and its effect on the logical content of the tables; ids for new tables are at least
`tid`.  Adding data in the order `o` means that the stored rows are the logical rows permuted by `o`; a
reference by `π` to a table has the rows of the table permuted by `π`. -/
inductive MgrStep (tid : Nat) : Mgr α → Content α → Mgr α → Content α → Prop
  | addTrie {m c id o t n rows} : tid ≤ id → c id = none → Permut.Built o → Permut.Moves o n → RowsOK n rows →
      TableHas t n (permuteRows o rows) → MgrStep tid m c (m.addTrie id o t).2 (c.set id n rows)
  | addSources {m c id o n rows} : tid ≤ id → c id = none → Permut.Built o → Permut.Moves o n → RowsOK n rows →
      MgrStep tid m c (m.addSources id o n (permuteRows o rows)).2 (c.set id n rows)
  | addSource {m c id o n rows} : tid ≤ id → c id = none → Permut.Built o → Permut.Moves o n → RowsOK n rows →
      MgrStep tid m c (m.addSource id o n (permuteRows o rows)).2 (c.set id n rows)
  | addReference {m c id r n rows π} : tid ≤ r → c id = some (n, rows) → c r = none → Permut.Built π →
      Permut.Moves π n → MgrStep tid m c (m.addReference id r π) (c.set r n (permuteRows π rows))
  | request {m c id o n rows d sid m'} : c id = some (n, rows) → Permut.Built o → Permut.Moves o n →
      m.trieId id o d = some (sid, m') → MgrStep tid m c m' c

/-- several calls -/
inductive MgrSteps (tid : Nat) (m : Mgr α) (c : Content α) : Mgr α → Content α → Prop
  | refl : MgrSteps tid m c m c
  | step {m' c' m'' c''} : MgrSteps tid m c m' c' → MgrStep tid m' c' m'' c'' → MgrSteps tid m c m'' c''

/-- The states of the manager that can be reached by its functions, together with the logical content of the
tables.  `rollback` deletes everything that was added since an earlier state. -/
inductive History : Mgr α → Content α → Prop
  | new : History Mgr.new fun _ => none
  | step {m c m' c'} : History m c → MgrStep 0 m c m' c' → History m' c'
  | rollback {m c m' c' tid} : History m c → (∀ i, tid ≤ i → c i = none) → MgrSteps tid m c m' c' →
      History (m'.deleteFrom m.stored.length tid) c

/-! ## Proofs -/

theorem TableHas.congr {t : Trie α} {n : Nat} {rows rows' : List (List α)} (h : ∀ r, r ∈ rows ↔ r ∈ rows')
    (ht : TableHas t n rows) : TableHas t n rows' := by
  obtain ⟨h1, s, h2, h3, h4⟩ := ht
  exact ⟨h1, s, h2, h3, fun r => (h4 r).trans (h r)⟩

theorem mem_permuteRows {o : Permut} (ho : Permut.Built o) {n : Nat} (hm : Permut.Moves o n) {rows : List (List α)}
    (hl : ∀ r ∈ rows, r.length = n) {r : List α} :
    r ∈ permuteRows o rows ↔ ∃ x ∈ rows, ∀ i : Nat, r[o.get i]? = x[i]? := by
  rw [permuteRows, List.mem_filterMap]
  constructor
  · rintro ⟨x, hx, h⟩
    obtain ⟨r', h1, _, h3⟩ := Permut.permute_moves ho x (by rw [hl x hx]; exact hm)
    rw [h1] at h
    obtain rfl := Option.some.inj h
    exact ⟨x, hx, h3⟩
  · rintro ⟨x, hx, h⟩
    exact ⟨x, hx, ho.wf.permute_eq (ho.wf.length_le_of_moves (by rw [hl x hx]; exact hm)) h⟩

theorem permuteRows_length {o : Permut} (ho : Permut.Built o) {n : Nat} (hm : Permut.Moves o n) {rows : List (List α)}
    (hl : ∀ r ∈ rows, r.length = n) : ∀ r ∈ permuteRows o rows, r.length = n := by
  intro r hr
  rw [permuteRows, List.mem_filterMap] at hr
  obtain ⟨x, hx, h⟩ := hr
  obtain ⟨r', h1, h2, _⟩ := Permut.permute_moves ho x (by rw [hl x hx]; exact hm)
  rw [h1] at h
  obtain rfl := Option.some.inj h
  rw [h2, hl x hx]

theorem minBy_mem {β : Type} {key : β → Nat} {l : List β} (h : l ≠ []) : ∃ x ∈ l, minBy key l = some x := by
  cases l with
  | nil => exact absurd rfl h
  | cons x l =>
    refine ⟨_, ?_, rfl⟩
    clear h
    have : ∀ (l : List β) (b : β), l.foldl (fun best y => if key y < key best then y else best) b ∈ b :: l := by
      intro l
      induction l with
      | nil => intro b; simp
      | cons y l ih =>
        intro b
        rw [List.foldl_cons]
        have := ih (if key y < key b then y else b)
        rcases List.mem_cons.1 this with h | h
        · rw [h]; split <;> simp
        · simp [h]
    exact this l x

theorem Built.eq_of_beq {p q : Permut} (hp : Permut.Built p) (hq : Permut.Built q) (h : p.beq q = true) : p = q :=
  Permut.WF.eq_of_get hp.wf hq.wf ((Permut.beq_iff hp hq).1 h)

/-- the entries of the map built by `from_reordering` -/
theorem fromReordering_map {source target : Permut} (hs : source.WF) (n : Nat) :
    (GenPR.fromReordering source target n).choice.map =
      ((List.range n).map fun i => (source.get i, target.get i)).reverse := by
  rw [GenPR.fromReordering]
  simp only
  rw [foldl_hmInsert_fresh (fun i => source.get i) (fun i => target.get i) _ ?_ _ (by simp), List.append_nil]
  refine List.Nodup.map_on ?_ List.nodup_range
  intro i _ j _ h
  exact hs.get_inj h

theorem Moves.get_lt {p : Permut} (hp : p.WF) {n : Nat} (hm : Permut.Moves p n) {i : Nat} (hi : i < n) : p.get i < n := by
  by_contra h
  push Not at h
  have h1 := hm _ h
  have := hp.get_inj h1
  omega

theorem fromReordering_valid {source target : Permut} (hs : source.WF) (ht : target.WF) {n : Nat}
    (hms : Permut.Moves source n) (hmt : Permut.Moves target n) : (GenPR.fromReordering source target n).choice.Valid := by
  have hmap := fromReordering_map (target := target) hs n
  refine ⟨?_, ?_⟩
  · rw [hmap, List.map_reverse, List.nodup_reverse, List.map_map]
    refine List.Nodup.map_on ?_ List.nodup_range
    intro i _ j _ h
    exact ht.get_inj h
  · intro x hx
    rw [hmap] at hx ⊢
    rw [List.mem_reverse] at hx
    obtain ⟨i, hi, rfl⟩ := List.mem_map.1 hx
    rw [List.mem_range] at hi
    simp only [List.length_reverse, List.length_map, List.length_range]
    exact ⟨Moves.get_lt ht hmt hi, Moves.get_lt hs hms hi⟩

theorem fromReordering_vec {source target : Permut} (hs : source.WF) (ht : target.WF) {n : Nat}
    (hms : Permut.Moves source n) (hmt : Permut.Moves target n) {i : Nat} (hi : i < n) :
    (GenPR.fromReordering source target n).choice.asVector[target.get i]? = some (source.get i) := by
  refine Choice.asVector_spec (fromReordering_valid hs ht hms hmt) ?_
  rw [fromReordering_map hs, List.mem_reverse]
  exact List.mem_map.2 ⟨i, List.mem_range.2 hi, rfl⟩

theorem fromReordering_length {source target : Permut} (hs : source.WF) (n : Nat) :
    (GenPR.fromReordering source target n).choice.asVector.length = n := by
  rw [Choice.asVector_length, fromReordering_map hs]; simp

/-- `from_reordering` returns the identity only if the two orders agree. -/
theorem fromReordering_noop {source target : Permut} (hs : source.WF) (ht : target.WF) {n : Nat}
    (hms : Permut.Moves source n) (hmt : Permut.Moves target n)
    (h : (GenPR.fromReordering source target n).isNoop = true) : source = target := by
  rw [GenPR.isNoop, Choice.isIdentity, Bool.and_eq_true, List.all_eq_true] at h
  refine Permut.WF.eq_of_get hs ht ?_
  intro i
  by_cases hi : i < n
  · have := h.2 (source.get i, target.get i) (by
      rw [fromReordering_map hs, List.mem_reverse]
      exact List.mem_map.2 ⟨i, List.mem_range.2 hi, rfl⟩)
    simpa using this
  · rw [hms i (by omega), hmt i (by omega)]

/-- Reordering a table from one order into another. -/
theorem reorder_table {source target : Permut} (hs : Permut.Built source) (ht : Permut.Built target) {n : Nat} (hn : 0 < n)
    (hms : Permut.Moves source n) (hmt : Permut.Moves target n) {rows : List (List α)} (hl : ∀ r ∈ rows, r.length = n)
    {t : Trie α} (hT : TableHas t n (permuteRows source rows)) (d : α) :
    ∃ t', (GenPR.fromReordering source target n).apply GScan.ops t.arity t.possibleTypes (GScan.new t) d = some t' ∧
      TableHas t' n (permuteRows target rows) := by
  obtain ⟨h1, sorted, h2, h3, h4⟩ := hT
  have hlen : ∀ r ∈ sorted, r.length = n := fun r hr => permuteRows_length hs hms hl r ((h4 r).1 hr)
  obtain ⟨t', s', a1, a2, a3, a4, a5, a6⟩ := GenPR.apply_spec (GScan.simulates h2 h3) (treeOK_chOf h2 h3) GScan.inv_new d
    (GenPR.fromReordering source target n)
    (by rw [h1]; simp only [GenPR.fromReordering]; omega)
    (by
      intro i hi
      obtain ⟨k, hk, rfl⟩ := List.mem_iff_getElem.1 hi
      have hk' : k < n := by rw [fromReordering_length hs.wf] at hk; exact hk
      obtain ⟨j, hj⟩ : ∃ j, target.get j = k := ⟨_, ht.wf.get_invert k⟩
      have hjn : j < n := by
        by_contra hc
        have := hmt j (by omega)
        omega
      have := fromReordering_vec hs.wf ht.wf hms hmt hjn
      rw [hj, List.getElem?_eq_getElem hk] at this
      rw [Option.some.inj this]
      have := Moves.get_lt hs.wf hms hjn
      simp only [GenPR.fromReordering]; omega)
    (by rw [fromReordering_length hs.wf]; rfl) hn
  refine ⟨t', a1, a2, s', a3, a4, ?_⟩
  intro r
  rw [a6, mem_permuteRows ht hmt hl]
  have key : ∀ x y : List α, x.length = n → y.length = n → (∀ i : Nat, x[source.get i]? = y[i]?) →
      ((GenPR.fromReordering source target n).choice.asVector.map (fun i => x[i]?) = r.map some ↔
        ∀ i : Nat, r[target.get i]? = y[i]?) := by
    intro x y hx hy hxy
    constructor
    · intro he
      have hrl : r.length = n := by
        have := congrArg List.length he
        simpa [fromReordering_length hs.wf] using this.symm
      intro i
      by_cases hi : i < n
      · have h5 := congrArg (fun l : List (Option α) => l[target.get i]?) he
        simp only [List.getElem?_map, fromReordering_vec hs.wf ht.wf hms hmt hi, Option.map_some] at h5
        rw [hxy i] at h5
        have h6 : target.get i < r.length := by rw [hrl]; exact Moves.get_lt ht.wf hmt hi
        rw [List.getElem?_eq_getElem h6] at h5 ⊢
        exact (Option.some.inj h5).symm
      · rw [hmt i (by omega), List.getElem?_eq_none (by omega), List.getElem?_eq_none (by omega)]
    · intro hr
      have hrl : r.length = n := by
        apply le_antisymm
        · by_contra hc
          have h5 := hr n
          rw [hmt n le_rfl, List.getElem?_eq_none (l := y) (by omega), List.getElem?_eq_none_iff] at h5
          omega
        · by_contra hc
          have h5 := hr (target.invert.get r.length)
          rw [ht.wf.get_invert, List.getElem?_eq_none (l := r) le_rfl] at h5
          have h6 := (List.getElem?_eq_none_iff.1 h5.symm)
          have h7 := hmt _ (show n ≤ target.invert.get r.length by omega)
          rw [ht.wf.get_invert] at h7
          omega
      apply List.ext_getElem?
      intro k
      by_cases hk : k < n
      · obtain ⟨j, hj⟩ : ∃ j, target.get j = k := ⟨_, ht.wf.get_invert k⟩
        have hjn : j < n := by
          by_contra hc
          have := hmt j (by omega)
          omega
        rw [← hj, List.getElem?_map, List.getElem?_map, fromReordering_vec hs.wf ht.wf hms hmt hjn, hr j]
        simp only [Option.map_some]
        rw [hxy j, List.getElem?_eq_getElem (by omega)]; rfl
      · rw [List.getElem?_eq_none (by rw [List.length_map, fromReordering_length hs.wf]; omega),
          List.getElem?_eq_none (by simp; omega)]
  rw [h1]
  constructor
  · rintro ⟨x, hx, he⟩
    rw [rowsOf_chOf hn hlen] at hx
    obtain ⟨y, hy, hxy⟩ := (mem_permuteRows hs hms hl).1 ((h4 x).1 hx)
    exact ⟨y, hy, (key x y (hlen x hx) (hl y hy) hxy).1 he⟩
  · rintro ⟨y, hy, hr⟩
    obtain ⟨x, h5, h6, h7⟩ := Permut.permute_moves hs y (by rw [hl y hy]; exact hms)
    have hx : x ∈ sorted := (h4 x).2 ((mem_permuteRows hs hms hl).2 ⟨y, hy, h7⟩)
    exact ⟨x, (rowsOf_chOf hn hlen).2 hx, (key x y (hlen x hx) (hl y hy) h7).2 hr⟩

/-! ### The invariant -/

/-- one available order of a table -/
def EntryOK (m : Mgr α) (n : Nat) (rows : List (List α)) (x : Permut × Nat) : Prop :=
  Permut.Built x.1 ∧ Permut.Moves x.1 n ∧ ∃ st, m.stored[x.2]? = some st ∧ Holds st n (permuteRows x.1 rows)

/-- All stored orders of a table have the same content. -/
structure Mgr.Inv (m : Mgr α) (c : Content α) : Prop where
  known : ∀ id n rows, c id = some (n, rows) →
    RowsOK n rows ∧ (m.smap.lookup id ≠ none ∨ m.refs.lookup id ≠ none)
  tables : ∀ id om, m.smap.lookup id = some om → om ≠ [] ∧ m.refs.lookup id = none ∧
    ∃ n rows, c id = some (n, rows) ∧ ∀ x ∈ om, EntryOK m n rows x
  refs : ∀ id i π, m.refs.lookup id = some (i, π) → ∃ n rows, c i = some (n, rows) ∧ m.smap.lookup i ≠ none ∧
    Permut.Built π ∧ Permut.Moves π n ∧ ∃ rows', c id = some (n, rows') ∧ ∀ r, r ∈ rows' ↔ r ∈ permuteRows π rows

theorem EntryOK.mono {m m' : Mgr α} {n : Nat} {rows : List (List α)} {x : Permut × Nat}
    (h : ∀ (sid : Nat) (st : Storage α), m.stored[sid]? = some st → ∃ st', m'.stored[sid]? = some st' ∧
      ∀ n rows, Holds st n rows → Holds st' n rows)
    (hx : EntryOK m n rows x) : EntryOK m' n rows x := by
  obtain ⟨h1, h2, st, h3, h4⟩ := hx
  obtain ⟨st', h5, h6⟩ := h _ _ h3
  exact ⟨h1, h2, st', h5, h6 _ _ h4⟩

theorem Holds.arity {st : Storage α} {n : Nat} {rows : List (List α)} (h : Holds st n rows) : st.arity = n := by
  cases st with
  | empty => exact h.elim
  | mem t => exact h.1
  | sources n' r => exact h.1

theorem Holds.load {st : Storage α} {n : Nat} {rows : List (List α)} (hr : RowsOK n rows) (h : Holds st n rows) :
    ∃ t, st.load = some t ∧ TableHas t n rows := by
  cases st with
  | empty => exact h.elim
  | mem t => exact ⟨t, rfl, h⟩
  | sources n' rows' =>
    obtain ⟨rfl, h2⟩ := h
    obtain ⟨t, sorted, h1, h3, h4, h5, h6⟩ := tableOf_rep hr.1 (rows := rows') fun r hr' => hr.2 r ((h2 r).1 hr')
    exact ⟨t, h1, h3, sorted, h4, h6, fun r => h5.mem_iff.trans (h2 r)⟩

/-- A storage that can be loaded has the same content after loading. -/
theorem load_holds {st : Storage α} {t : Trie α} (h : st.load = some t) (n : Nat) (rows : List (List α))
    (hr : RowsOK n rows) (hh : Holds st n rows) : Holds (.mem t) n rows := by
  obtain ⟨t', h1, h2⟩ := hh.load hr
  rw [h] at h1
  obtain rfl := Option.some.inj h1
  exact h2

theorem permuteRows_ok {o : Permut} (ho : Permut.Built o) {n : Nat} (hm : Permut.Moves o n) {rows : List (List α)}
    (h : RowsOK n rows) : RowsOK n (permuteRows o rows) := ⟨h.1, permuteRows_length ho hm h.2⟩

/-- Loading a table keeps the invariant. -/
theorem Mgr.Inv.loadAt {m : Mgr α} {c : Content α} (h : m.Inv c) {sid : Nat} {st : Storage α} (hs : m.stored[sid]? = some st)
    {t : Trie α} (ht : st.load = some t) : (m.setStored sid (.mem t)).Inv c := by
  refine ⟨h.known, ?_, h.refs⟩
  intro id om hom
  obtain ⟨h1, h2, n, rows, h3, h4⟩ := h.tables id om hom
  refine ⟨h1, h2, n, rows, h3, ?_⟩
  intro x hx
  obtain ⟨e1, e2, st', e3, e4⟩ := h4 x hx
  by_cases he : x.2 = sid
  · rw [he, hs] at e3
    obtain rfl := Option.some.inj e3
    refine ⟨e1, e2, .mem t, ?_, load_holds ht _ _ (permuteRows_ok e1 e2 (h.known id n rows h3).1) e4⟩
    simp only [Mgr.setStored]
    rw [he, List.getElem?_set_self (List.getElem?_eq_some_iff.1 hs).1]
  · refine ⟨e1, e2, st', ?_, e4⟩
    simp only [Mgr.setStored]
    rw [List.getElem?_set_ne (fun hh => he hh.symm)]; exact e3

theorem findOrder_some {om : List (Permut × Nat)} {o : Permut} {sid : Nat} (h : findOrder om o = some sid) :
    ∃ p, (p, sid) ∈ om ∧ p.beq o = true := by
  rw [findOrder, Option.map_eq_some_iff] at h
  obtain ⟨⟨p, s⟩, h1, rfl⟩ := h
  exact ⟨p, List.mem_of_find?_eq_some h1, List.find?_some (p := fun x : Permut × Nat => x.1.beq o) h1⟩

/-- Adding a storage in a new order to an existing table. -/
theorem Mgr.Inv.addOrder {m : Mgr α} {c : Content α} (h : m.Inv c) {id : Nat} {om : List (Permut × Nat)}
    (hom : m.smap.lookup id = some om) {o : Permut} (ho : Permut.Built o) {n : Nat} {rows : List (List α)}
    (hc : c id = some (n, rows)) (hm : Permut.Moves o n) {st : Storage α} (hst : Holds st n (permuteRows o rows)) :
    Mgr.Inv ⟨m.stored ++ [st], hmInsert m.smap id ((o, m.stored.length) :: om), m.refs⟩ c := by
  have hmono : ∀ {n rows x}, EntryOK m n rows x →
      EntryOK ⟨m.stored ++ [st], hmInsert m.smap id ((o, m.stored.length) :: om), m.refs⟩ n rows x := by
    intro n rows x hx
    refine hx.mono ?_
    intro sid s hs
    refine ⟨s, ?_, fun _ _ h => h⟩
    simp only
    rw [List.getElem?_append_left (List.getElem?_eq_some_iff.1 hs).1]; exact hs
  refine ⟨?_, ?_, ?_⟩
  · intro id' n' rows' hc'
    obtain ⟨h1, h2⟩ := h.known id' n' rows' hc'
    refine ⟨h1, ?_⟩
    simp only [hmInsert_lookup]
    rcases h2 with h2 | h2
    · left; split
      · simp
      · exact h2
    · exact .inr h2
  · intro id' om' hom'
    simp only [hmInsert_lookup] at hom'
    split at hom'
    · rename_i hid
      subst hid
      obtain rfl := Option.some.inj hom'
      obtain ⟨h1, h2, n', rows', h3, h4⟩ := h.tables _ _ hom
      rw [hc] at h3
      obtain ⟨rfl, rfl⟩ : n = n' ∧ rows = rows' := by
        have := Option.some.inj h3
        exact ⟨congrArg Prod.fst this, congrArg Prod.snd this⟩
      refine ⟨by simp, h2, n, rows, hc, ?_⟩
      intro x hx
      rcases List.mem_cons.1 hx with rfl | hx
      · exact ⟨ho, hm, st, by simp, hst⟩
      · exact hmono (h4 x hx)
    · obtain ⟨h1, h2, n', rows', h3, h4⟩ := h.tables _ _ hom'
      exact ⟨h1, h2, n', rows', h3, fun x hx => hmono (h4 x hx)⟩
  · intro id' i π hr
    obtain ⟨n', rows', h1, h2, h3⟩ := h.refs id' i π hr
    refine ⟨n', rows', h1, ?_, h3⟩
    simp only [hmInsert_lookup]
    split
    · simp
    · exact h2

theorem minBy_ne {om : List (Permut × Nat)} (h : om ≠ []) (o : Permut) : ∃ x ∈ om, closestOrder om o = some x :=
  minBy_mem h

/-- The main lemma: requesting a stored table in some order. -/
theorem Mgr.Inv.trieIdAt {m : Mgr α} {c : Content α} (h : m.Inv c) {id : Nat} (hid : m.smap.lookup id ≠ none) {o : Permut}
    (ho : Permut.Built o) {n : Nat} {rows : List (List α)} (hc : c id = some (n, rows)) (hm : Permut.Moves o n) (d : α) :
    ∃ sid m' t, m.trieIdAt id o d = some (sid, m') ∧ m'.Inv c ∧ m'.refs = m.refs ∧
      (∀ i, m.smap.lookup i ≠ none → m'.smap.lookup i ≠ none) ∧
      m'.trie sid = some t ∧ TableHas t n (permuteRows o rows) := by
  obtain ⟨om, hom⟩ := Option.ne_none_iff_exists'.1 hid
  obtain ⟨h1, h2, n', rows', h3, h4⟩ := h.tables _ _ hom
  rw [hc] at h3
  obtain ⟨rfl, rfl⟩ : n = n' ∧ rows = rows' := by
    have := Option.some.inj h3
    exact ⟨congrArg Prod.fst this, congrArg Prod.snd this⟩
  have hrows := (h.known id n rows hc).1
  -- loading an entry
  have hload : ∀ x ∈ om, ∃ st t, m.stored[x.2]? = some st ∧ st.load = some t ∧ st.arity = n ∧
      TableHas t n (permuteRows x.1 rows) ∧ m.loadAt x.2 = some (t, m.setStored x.2 (.mem t)) ∧
      (m.setStored x.2 (.mem t)).Inv c ∧ (m.setStored x.2 (.mem t)).trie x.2 = some t := by
    intro x hx
    obtain ⟨e1, e2, st, e3, e4⟩ := h4 x hx
    obtain ⟨t, e5, e6⟩ := e4.load (permuteRows_ok e1 e2 hrows)
    refine ⟨st, t, e3, e5, e4.arity, e6, ?_, h.loadAt e3 e5, ?_⟩
    · rw [Mgr.loadAt, e3]
      simp only [Option.bind_eq_bind, Option.bind_some, e5]; rfl
    · simp only [Mgr.trie, Mgr.setStored]
      rw [List.getElem?_set_self (List.getElem?_eq_some_iff.1 e3).1]
  cases hf : findOrder om o with
  | some sid =>
    obtain ⟨p, hp, hpo⟩ := findOrder_some hf
    obtain rfl := Built.eq_of_beq (h4 _ hp).1 ho hpo
    obtain ⟨st, t, a1, a2, a3, a4, a5, a6, a7⟩ := hload _ hp
    refine ⟨sid, _, t, ?_, a6, rfl, fun i hi => hi, a7, a4⟩
    rw [Mgr.trieIdAt, hom]
    simp only [Option.bind_eq_bind, Option.bind_some, hf, a5]; rfl
  | none =>
    obtain ⟨x, hx, hxc⟩ := minBy_ne h1 o
    obtain ⟨st, t, a1, a2, a3, a4, a5, a6, a7⟩ := hload _ hx
    have hx1 := (h4 _ hx).1
    have hx2 := (h4 _ hx).2.1
    by_cases hnoop : (GenPR.fromReordering x.1 o n).isNoop = true
    · have := fromReordering_noop hx1.wf ho.wf hx2 hm hnoop
      rw [this] at a4
      refine ⟨x.2, _, t, ?_, a6, rfl, fun i hi => hi, a7, a4⟩
      rw [Mgr.trieIdAt, hom]
      simp only [Option.bind_eq_bind, Option.bind_some, hf, Mgr.reorder, hxc, a1, a3, a5]
      rw [if_pos hnoop]; rfl
    · obtain ⟨t', b1, b2⟩ := reorder_table hx1 ho hrows.1 hx2 hm hrows.2 a4 d
      have hmem : (m.setStored x.2 (.mem t)).addTrie id o t' =
          (m.stored.length, ⟨(m.stored.set x.2 (.mem t)) ++ [.mem t'],
            hmInsert m.smap id ((o, m.stored.length) :: om), m.refs⟩) := by
        have hres : (m.setStored x.2 (.mem t)).resolve id o = (id, o) := by
          rw [Mgr.resolve]; simp only [Mgr.setStored, h2]
        rw [Mgr.addTrie, Mgr.addStorage, hres, Mgr.addStorageAt]
        simp only [Mgr.setStored, hom, hf, List.length_set]
        congr 2
        rw [List.set_append_right _ _ (by simp)]
        simp
      have hinv := a6.addOrder (id := id) (om := om) hom ho hc hm (st := .mem t') b2
      refine ⟨m.stored.length, _, t', ?_, hinv, rfl, ?_, ?_, b2⟩
      · rw [Mgr.trieIdAt, hom]
        simp only [Option.bind_eq_bind, Option.bind_some, hf, Mgr.reorder, hxc, a1, a3, a5]
        rw [if_neg hnoop, b1]
        simp only [Option.bind_some, hmem]
        simp only [Mgr.setStored, List.length_set]; rfl
      · intro i hi
        simp only [hmInsert_lookup, Mgr.setStored]
        split
        · simp
        · exact hi
      · simp only [Mgr.trie, Mgr.setStored]
        have : (m.stored.set x.2 (Storage.mem t) ++ [Storage.mem t'])[m.stored.length]? = some (.mem t') := by
          rw [List.getElem?_append_right (by simp)]; simp
        rw [this]

/-- Adding a table under a new id. -/
theorem Mgr.Inv.addTable {m : Mgr α} {c : Content α} (h : m.Inv c) {id : Nat} (hid : c id = none) {o : Permut}
    (ho : Permut.Built o) {n : Nat} {rows : List (List α)} (hr : RowsOK n rows) (hm : Permut.Moves o n) {st : Storage α}
    (hst : Holds st n (permuteRows o rows)) :
    Mgr.Inv ⟨m.stored ++ [st], hmInsert m.smap id [(o, m.stored.length)], m.refs⟩ (c.set id n rows) := by
  have hrefs : m.refs.lookup id = none := by
    cases hl : m.refs.lookup id with
    | none => rfl
    | some x =>
      obtain ⟨i, π⟩ := x
      obtain ⟨n', rows', _, _, _, _, rows'', h1, _⟩ := h.refs id i π hl
      rw [hid] at h1; cases h1
  have hset : ∀ i n' rows', c i = some (n', rows') → c.set id n rows i = some (n', rows') := by
    intro i n' rows' hi
    rw [Content.set, if_neg]
    · exact hi
    · rintro rfl; rw [hid] at hi; cases hi
  have hmono : ∀ {n rows x}, EntryOK m n rows x →
      EntryOK ⟨m.stored ++ [st], hmInsert m.smap id [(o, m.stored.length)], m.refs⟩ n rows x := by
    intro n rows x hx
    refine EntryOK.mono ?_ hx
    intro sid s hs
    refine ⟨s, ?_, fun _ _ h => h⟩
    simp only
    rw [List.getElem?_append_left (List.getElem?_eq_some_iff.1 hs).1]; exact hs
  refine ⟨?_, ?_, ?_⟩
  · intro id' n' rows' hc'
    rw [Content.set] at hc'
    simp only [hmInsert_lookup]
    split at hc'
    · rename_i he
      obtain ⟨rfl, rfl⟩ : n = n' ∧ rows = rows' := by
        have := Option.some.inj hc'
        exact ⟨congrArg Prod.fst this, congrArg Prod.snd this⟩
      exact ⟨hr, .inl (by simp [he])⟩
    · rename_i he
      obtain ⟨h1, h2⟩ := h.known id' n' rows' hc'
      exact ⟨h1, by simpa [he] using h2⟩
  · intro id' om' hom'
    simp only [hmInsert_lookup] at hom'
    split at hom'
    · rename_i he
      subst he
      obtain rfl := Option.some.inj hom'
      refine ⟨by simp, hrefs, n, rows, by simp [Content.set], ?_⟩
      intro x hx
      simp only [List.mem_singleton] at hx
      subst hx
      exact ⟨ho, hm, st, by simp, hst⟩
    · obtain ⟨h1, h2, n', rows', h3, h4⟩ := h.tables _ _ hom'
      exact ⟨h1, h2, n', rows', hset _ _ _ h3, fun x hx => hmono (h4 x hx)⟩
  · intro id' i π hl
    obtain ⟨n', rows', h1, h2, h3, h4, rows'', h5, h6⟩ := h.refs id' i π hl
    refine ⟨n', rows', hset _ _ _ h1, ?_, h3, h4, rows'', hset _ _ _ h5, h6⟩
    simp only [hmInsert_lookup]
    split
    · simp
    · exact h2

theorem Mgr.Inv.fresh {m : Mgr α} {c : Content α} (h : m.Inv c) {id : Nat} (hid : c id = none) :
    m.smap.lookup id = none ∧ m.refs.lookup id = none := by
  constructor
  · cases hl : m.smap.lookup id with
    | none => rfl
    | some om =>
      obtain ⟨_, _, n, rows, h1, _⟩ := h.tables id om hl
      rw [hid] at h1; cases h1
  · cases hl : m.refs.lookup id with
    | none => rfl
    | some x =>
      obtain ⟨i, π⟩ := x
      obtain ⟨n', rows', _, _, _, _, rows'', h1, _⟩ := h.refs id i π hl
      rw [hid] at h1; cases h1

theorem addStorage_fresh {m : Mgr α} {id : Nat} (h1 : m.smap.lookup id = none) (h2 : m.refs.lookup id = none) (o : Permut)
    (st : Storage α) :
    (m.addStorage id o).2.setStored (m.addStorage id o).1 st =
      ⟨m.stored ++ [st], hmInsert m.smap id [(o, m.stored.length)], m.refs⟩ := by
  have hres : m.resolve id o = (id, o) := by rw [Mgr.resolve, h2]
  rw [Mgr.addStorage, hres, Mgr.addStorageAt]
  simp only [h1, Mgr.setStored]
  rw [List.set_append_right _ _ (by simp)]
  simp

theorem Moves.chain {p q : Permut} (hp : p.WF) (hq : q.WF) {n : Nat} (h1 : Permut.Moves p n) (h2 : Permut.Moves q n) :
    Permut.Moves (p.chain q) n := by
  intro i hi
  rw [Permut.chain_get hp hq, h1 i hi, h2 i hi]

theorem permuteRows_chain {p q : Permut} (hp : Permut.Built p) (hq : Permut.Built q) {n : Nat} (h1 : Permut.Moves p n)
    (h2 : Permut.Moves q n) {rows : List (List α)} (hl : ∀ r ∈ rows, r.length = n) :
    permuteRows (p.chain q) rows = permuteRows q (permuteRows p rows) := by
  rw [permuteRows, permuteRows, permuteRows, List.filterMap_filterMap]
  refine List.filterMap_congr ?_
  intro r hr
  exact Permut.permute_chain hp hq r (by rw [hl r hr]; exact h1) (by rw [hl r hr]; exact h2)

theorem permuteRows_congr {o : Permut} {rows rows' : List (List α)} (h : ∀ r, r ∈ rows ↔ r ∈ rows') (r : List α) :
    r ∈ permuteRows o rows ↔ r ∈ permuteRows o rows' := by
  simp only [permuteRows, List.mem_filterMap, h]

theorem Mgr.Inv.addReference {m : Mgr α} {c : Content α} (h : m.Inv c) {id r : Nat} {n : Nat} {rows : List (List α)}
    (hc : c id = some (n, rows)) (hr : c r = none) {π : Permut} (hπ : Permut.Built π) (hm : Permut.Moves π n) :
    (m.addReference id r π).Inv (c.set r n (permuteRows π rows)) := by
  obtain ⟨f1, f2⟩ := h.fresh hr
  have hset : ∀ i n' rows', c i = some (n', rows') → c.set r n (permuteRows π rows) i = some (n', rows') := by
    intro i n' rows' hi
    rw [Content.set, if_neg]
    · exact hi
    · rintro rfl; rw [hr] at hi; cases hi
  have hok := (h.known id n rows hc).1
  -- both cases add a reference to a stored table
  have key : ∀ i ρ, m.smap.lookup i ≠ none → Permut.Built ρ → Permut.Moves ρ n →
      (∃ rows', c i = some (n, rows') ∧ ∀ x, x ∈ permuteRows π rows ↔ x ∈ permuteRows ρ rows') →
      Mgr.Inv { m with refs := hmInsert m.refs r (i, ρ) } (c.set r n (permuteRows π rows)) := by
    rintro i ρ k1 k2 k3 ⟨rows', k4, k5⟩
    refine ⟨?_, ?_, ?_⟩
    · intro id' n' rows'' hc'
      simp only [hmInsert_lookup]
      rw [Content.set] at hc'
      split at hc'
      · rename_i he
        have := Option.some.inj hc'
        obtain ⟨rfl, rfl⟩ : n = n' ∧ permuteRows π rows = rows'' := ⟨congrArg Prod.fst this, congrArg Prod.snd this⟩
        exact ⟨permuteRows_ok hπ hm hok, .inr (by simp [he])⟩
      · rename_i he
        obtain ⟨h1, h2⟩ := h.known id' n' rows'' hc'
        exact ⟨h1, by simpa [he] using h2⟩
    · intro id' om hom
      obtain ⟨h1, h2, n', rows'', h3, h4⟩ := h.tables id' om hom
      refine ⟨h1, ?_, n', rows'', hset _ _ _ h3, h4⟩
      simp only [hmInsert_lookup]
      rw [if_neg]
      · exact h2
      · rintro rfl; rw [hom] at f1; cases f1
    · intro id' i' π' hl
      simp only [hmInsert_lookup] at hl
      split at hl
      · rename_i he
        have := Option.some.inj hl
        obtain ⟨rfl, rfl⟩ : i = i' ∧ ρ = π' := ⟨congrArg Prod.fst this, congrArg Prod.snd this⟩
        exact ⟨n, rows', hset _ _ _ k4, k1, k2, k3, permuteRows π rows, by simp [Content.set, he], k5⟩
      · obtain ⟨n', rows'', h1, h2, h3, h4, rows3, h5, h6⟩ := h.refs id' i' π' hl
        exact ⟨n', rows'', hset _ _ _ h1, h2, h3, h4, rows3, hset _ _ _ h5, h6⟩
  rw [Mgr.addReference]
  cases hl : m.refs.lookup id with
  | none =>
    simp only
    refine key id π ?_ hπ hm ⟨rows, hc, fun _ => Iff.rfl⟩
    rcases (h.known id n rows hc).2 with h1 | h1
    · exact h1
    · exact absurd hl h1
  | some x =>
    obtain ⟨i, ρ⟩ := x
    obtain ⟨n', rows', h1, h2, h3, h4, rows'', h5, h6⟩ := h.refs id i ρ hl
    rw [hc] at h5
    have := Option.some.inj h5
    obtain ⟨rfl, rfl⟩ : n = n' ∧ rows = rows'' := ⟨congrArg Prod.fst this, congrArg Prod.snd this⟩
    simp only
    refine key i (ρ.chain π) h2 (.chain h3 hπ) (Moves.chain h3.wf hπ.wf h4 hm) ⟨rows', h1, ?_⟩
    intro x
    rw [permuteRows_chain h3 hπ h4 hm (h.known i n rows' h1).1.2]
    exact permuteRows_congr h6 x

/-- The general form: the table that is found for a request. -/
theorem Mgr.Inv.trieId {m : Mgr α} {c : Content α} (h : m.Inv c) {id : Nat} {o : Permut} (ho : Permut.Built o) {n : Nat}
    {rows : List (List α)} (hc : c id = some (n, rows)) (hm : Permut.Moves o n) (d : α) :
    ∃ sid m' t, m.trieId id o d = some (sid, m') ∧ (m'.Inv c ∧ m'.refs = m.refs) ∧ m'.trie sid = some t ∧
      (m.refs.lookup id = none → TableHas t n (permuteRows o rows)) ∧
      (∀ i π, m.refs.lookup id = some (i, π) → ∃ rows', c i = some (n, rows') ∧
        (∀ r, r ∈ rows ↔ r ∈ permuteRows π rows') ∧ TableHas t n (permuteRows π (permuteRows o rows'))) := by
  rw [Mgr.trieId, Mgr.resolve]
  cases hl : m.refs.lookup id with
  | none =>
    have hid : m.smap.lookup id ≠ none := by
      rcases (h.known id n rows hc).2 with h1 | h1
      · exact h1
      · exact absurd hl h1
    obtain ⟨sid, m', t, h1, h2, h2', -, h3, h4⟩ := h.trieIdAt hid ho hc hm d
    exact ⟨sid, m', t, h1, ⟨h2, h2'⟩, h3, fun _ => h4, by intro i π hh; cases hh⟩
  | some x =>
    obtain ⟨i, π⟩ := x
    obtain ⟨n', rows', h1, h2, h3, h4, rows'', h5, h6⟩ := h.refs id i π hl
    rw [hc] at h5
    have := Option.some.inj h5
    obtain ⟨rfl, rfl⟩ : n = n' ∧ rows = rows'' := ⟨congrArg Prod.fst this, congrArg Prod.snd this⟩
    obtain ⟨sid, m', t, e1, e2, e2', -, e3, e4⟩ := h.trieIdAt h2 (.chain ho h3) h1 (Moves.chain ho.wf h3.wf hm h4) d
    refine ⟨sid, m', t, e1, ⟨e2, e2'⟩, e3, (by intro hh; cases hh), ?_⟩
    intro i' π' hh
    have := Option.some.inj hh
    obtain ⟨rfl, rfl⟩ : i = i' ∧ π = π' := ⟨congrArg Prod.fst this, congrArg Prod.snd this⟩
    refine ⟨rows', h1, h6, ?_⟩
    rw [← permuteRows_chain ho h3 hm h4 (h.known i n rows' h1).1.2]
    exact e4

/-- What later states keep of an earlier one. -/
structure Ext (tid : Nat) (m : Mgr α) (c : Content α) (m' : Mgr α) (c' : Content α) : Prop where
  keep : ∀ id om, m.smap.lookup id = some om → ∃ om', m'.smap.lookup id = some om' ∧ ∀ x ∈ om, x ∈ om'
  refs : ∀ id < tid, m'.refs.lookup id = m.refs.lookup id
  cont : ∀ i < tid, c' i = c i

theorem Ext.rfl' {tid : Nat} {m : Mgr α} {c : Content α} : Ext tid m c m c :=
  ⟨fun _ om h => ⟨om, h, fun _ h => h⟩, fun _ _ => rfl, fun _ _ => rfl⟩

theorem Ext.trans {tid : Nat} {m m' m'' : Mgr α} {c c' c'' : Content α} (h : Ext tid m c m' c') (h' : Ext tid m' c' m'' c'') :
    Ext tid m c m'' c'' := by
  refine ⟨?_, fun id hid => (h'.refs id hid).trans (h.refs id hid), fun i hi => (h'.cont i hi).trans (h.cont i hi)⟩
  intro id om hom
  obtain ⟨om', h1, h2⟩ := h.keep id om hom
  obtain ⟨om'', h3, h4⟩ := h'.keep id om' h1
  exact ⟨om'', h3, fun x hx => h4 x (h2 x hx)⟩

theorem Ext.addTable {m : Mgr α} {c : Content α} {tid id : Nat} (hid : tid ≤ id) (hs : m.smap.lookup id = none) {n : Nat}
    {rows : List (List α)} {stored : List (Storage α)} {om : List (Permut × Nat)} :
    Ext tid m c ⟨stored, hmInsert m.smap id om, m.refs⟩ (c.set id n rows) := by
  refine ⟨?_, fun _ _ => rfl, ?_⟩
  · intro id' om' hom'
    refine ⟨om', ?_, fun _ h => h⟩
    simp only [hmInsert_lookup]
    rw [if_neg]
    · exact hom'
    · rintro rfl; rw [hs] at hom'; cases hom'
  · intro i hi
    rw [Content.set, if_neg (by omega)]

/-- looking up a request only adds orders -/
theorem trieIdAt_keep {m m' : Mgr α} {id : Nat} (hid : m.refs.lookup id = none) {o : Permut} {d : α} {sid : Nat}
    (h : m.trieIdAt id o d = some (sid, m')) :
    ∀ i om, m.smap.lookup i = some om → ∃ om', m'.smap.lookup i = some om' ∧ ∀ x ∈ om, x ∈ om' := by
  rw [Mgr.trieIdAt] at h
  obtain ⟨om0, hom0, h⟩ := Option.bind_eq_some_iff.1 h
  cases hf : findOrder om0 o with
  | some s =>
    rw [hf] at h
    obtain ⟨l, hl, h⟩ := Option.bind_eq_some_iff.1 h
    obtain ⟨st, _, hl⟩ := Option.bind_eq_some_iff.1 hl
    obtain ⟨t, _, hl⟩ := Option.bind_eq_some_iff.1 hl
    obtain rfl := Option.some.inj hl
    obtain rfl : m.setStored s (.mem t) = m' := congrArg Prod.snd (Option.some.inj h)
    exact fun i om hi => ⟨om, hi, fun _ h => h⟩
  | none =>
    rw [hf] at h
    obtain ⟨c, _, h⟩ := Option.bind_eq_some_iff.1 h
    obtain ⟨st', _, h⟩ := Option.bind_eq_some_iff.1 h
    obtain ⟨l, hl, h⟩ := Option.bind_eq_some_iff.1 h
    obtain ⟨st, _, hl⟩ := Option.bind_eq_some_iff.1 hl
    obtain ⟨t, _, hl⟩ := Option.bind_eq_some_iff.1 hl
    obtain rfl := Option.some.inj hl
    simp only at h
    split at h
    · obtain rfl : m.setStored c.2 (.mem t) = m' := congrArg Prod.snd (Option.some.inj h)
      exact fun i om hi => ⟨om, hi, fun _ h => h⟩
    · obtain ⟨t', _, h⟩ := Option.bind_eq_some_iff.1 h
      have hres : (m.setStored c.2 (.mem t)).resolve id o = (id, o) := by
        rw [Mgr.resolve]; simp only [Mgr.setStored, hid]
      have h : ((m.setStored c.2 (.mem t)).addTrie id o t').2 = m' := congrArg Prod.snd (Option.some.inj h)
      rw [Mgr.addTrie, Mgr.addStorage, hres, Mgr.addStorageAt] at h
      simp only [Mgr.setStored, hom0, hf] at h
      subst h
      intro i om hi
      simp only [hmInsert_lookup]
      split
      · rename_i he
        subst he
        rw [hom0] at hi
        obtain rfl := Option.some.inj hi
        exact ⟨_, rfl, fun x hx => List.mem_cons_of_mem _ hx⟩
      · exact ⟨om, hi, fun _ h => h⟩

theorem MgrStep.inv {tid : Nat} {m m' : Mgr α} {c c' : Content α} (h : MgrStep tid m c m' c') (ih : m.Inv c) :
    m'.Inv c' ∧ Ext tid m c m' c' := by
  cases h with
  | @addTrie id o t n rows hid hc ho hm hr ht =>
    obtain ⟨f1, f2⟩ := ih.fresh hc
    rw [Mgr.addTrie]
    simp only
    rw [addStorage_fresh f1 f2]
    exact ⟨ih.addTable hc ho hr hm (st := .mem t) ht, .addTable hid f1⟩
  | @addSources id o n rows hid hc ho hm hr =>
    obtain ⟨f1, f2⟩ := ih.fresh hc
    rw [Mgr.addSources]
    simp only
    rw [addStorage_fresh f1 f2]
    exact ⟨ih.addTable hc ho hr hm (st := .sources n (permuteRows o rows)) ⟨rfl, fun _ => Iff.rfl⟩, .addTable hid f1⟩
  | @addSource id o n rows hid hc ho hm hr =>
    obtain ⟨f1, f2⟩ := ih.fresh hc
    have hw : Mgr.withSource (m.addStorage id o).2.stored[(m.addStorage id o).1]? n (permuteRows o rows) =
        .sources n (permuteRows o rows) := by
      have hres : m.resolve id o = (id, o) := by rw [Mgr.resolve, f2]
      rw [Mgr.addStorage, hres, Mgr.addStorageAt]
      simp only [f1]
      rw [List.getElem?_append_right le_rfl]
      simp [Mgr.withSource]
    rw [Mgr.addSource]
    simp only
    rw [hw, addStorage_fresh f1 f2]
    exact ⟨ih.addTable hc ho hr hm (st := .sources n (permuteRows o rows)) ⟨rfl, fun _ => Iff.rfl⟩, .addTable hid f1⟩
  | @addReference id r n rows π hid hc hr hπ hm =>
    refine ⟨ih.addReference hc hr hπ hm, ?_, ?_, ?_⟩
    · intro i om hi
      refine ⟨om, ?_, fun _ h => h⟩
      rw [Mgr.addReference]; split <;> exact hi
    · intro i hi
      rw [Mgr.addReference]
      split <;> simp only [hmInsert_lookup] <;> rw [if_neg (by omega)]
    · intro i hi
      rw [Content.set, if_neg (by omega)]
  | @request id o n rows d sid m' hc ho hm hreq =>
    obtain ⟨sid', m'', t, h1, ⟨h2, h3⟩, _⟩ := ih.trieId ho hc hm d
    rw [hreq] at h1
    obtain rfl : m' = m'' := congrArg Prod.snd (Option.some.inj h1)
    refine ⟨h2, ?_, fun _ _ => by rw [h3], fun _ _ => rfl⟩
    rw [Mgr.trieId] at hreq
    refine trieIdAt_keep ?_ hreq
    rw [Mgr.resolve]
    cases hl : m.refs.lookup id with
    | none => exact hl
    | some x =>
      obtain ⟨i, π⟩ := x
      obtain ⟨_, _, _, k, _⟩ := ih.refs id i π hl
      obtain ⟨om, hom⟩ := Option.ne_none_iff_exists'.1 k
      exact (ih.tables i om hom).2.1

theorem MgrSteps.inv {tid : Nat} {m m' : Mgr α} {c c' : Content α} (h : MgrSteps tid m c m' c') (hi : m.Inv c) :
    m'.Inv c' ∧ Ext tid m c m' c' := by
  induction h with
  | refl => exact ⟨hi, .rfl'⟩
  | step _ hs ih =>
    obtain ⟨h1, h2⟩ := hs.inv ih.1
    exact ⟨h1, ih.2.trans h2⟩

theorem lookup_filter_lt {ν : Type} (l : List (Nat × ν)) (tid id : Nat) :
    (l.filter fun x => decide (x.1 < tid)).lookup id = if id < tid then l.lookup id else none := by
  induction l with
  | nil => simp
  | cons x l ih =>
    obtain ⟨k, v⟩ := x
    rw [List.filter_cons]
    by_cases hk : k < tid
    · rw [if_pos (by simpa using hk), List.lookup_cons, List.lookup_cons, ih]
      by_cases he : id = k
      · subst he; simp [hk]
      · have : (id == k) = false := by simpa using he
        rw [this]
    · rw [if_neg (by simpa using hk), ih, List.lookup_cons]
      by_cases he : id = k
      · subst he; simp [hk]
      · have : (id == k) = false := by simpa using he
        rw [this]

theorem lookup_map_snd {ν μ : Type} (l : List (Nat × ν)) (f : ν → μ) (id : Nat) :
    (l.map fun x => (x.1, f x.2)).lookup id = (l.lookup id).map f := by
  induction l with
  | nil => rfl
  | cons x l ih =>
    obtain ⟨k, v⟩ := x
    rw [List.map_cons, List.lookup_cons, List.lookup_cons, ih]
    cases id == k <;> rfl

/-- Deleting what was added later restores the content. -/
theorem Mgr.Inv.rollback {tid : Nat} {m m' : Mgr α} {c c' : Content α} (hi : m.Inv c) (hfresh : ∀ i, tid ≤ i → c i = none)
    (h : MgrSteps tid m c m' c') : (m'.deleteFrom m.stored.length tid).Inv c := by
  obtain ⟨hi', hE⟩ := h.inv hi
  have hlk : ∀ id, (m'.deleteFrom m.stored.length tid).smap.lookup id =
      if id < tid then (m'.smap.lookup id).map (fun om => om.filter fun y => decide (y.2 < m.stored.length)) else none := by
    intro id
    simp only [Mgr.deleteFrom]
    rw [lookup_map_snd, lookup_filter_lt]
    split <;> rfl
  have hlt : ∀ id n rows, c id = some (n, rows) → id < tid := by
    intro id n rows hc
    by_contra hge
    rw [hfresh id (by omega)] at hc; cases hc
  have hsm : ∀ id, id < tid → m.smap.lookup id ≠ none → (m'.deleteFrom m.stored.length tid).smap.lookup id ≠ none := by
    intro id hid hl
    obtain ⟨om, hom⟩ := Option.ne_none_iff_exists'.1 hl
    obtain ⟨om', h1, _⟩ := hE.keep id om hom
    rw [hlk, if_pos hid, h1]; simp
  have hrf : ∀ id, (m'.deleteFrom m.stored.length tid).refs.lookup id = if id < tid then m.refs.lookup id else none := by
    intro id
    simp only [Mgr.deleteFrom]
    rw [lookup_filter_lt]
    split
    · rename_i h; rw [hE.refs id h]
    · rfl
  refine ⟨?_, ?_, ?_⟩
  · intro id n rows hc
    have hid := hlt id n rows hc
    obtain ⟨h1, h2⟩ := hi.known id n rows hc
    refine ⟨h1, ?_⟩
    rcases h2 with h2 | h2
    · exact .inl (hsm id hid h2)
    · right; rw [hrf, if_pos hid]; exact h2
  · intro id om hom
    rw [hlk] at hom
    split at hom
    · rename_i hid
      obtain ⟨om', h1, rfl⟩ := Option.map_eq_some_iff.1 hom
      obtain ⟨h2, h3, n, rows, h4, h5⟩ := hi'.tables id om' h1
      rw [hE.cont id hid] at h4
      rw [hE.refs id hid] at h3
      have hin : m.smap.lookup id ≠ none := by
        rcases (hi.known id n rows h4).2 with h | h
        · exact h
        · exact absurd h3 h
      obtain ⟨om0, hom0⟩ := Option.ne_none_iff_exists'.1 hin
      obtain ⟨k1, _, n0, rows0, k2, k3⟩ := hi.tables id om0 hom0
      obtain ⟨x, hx⟩ := List.exists_mem_of_ne_nil _ k1
      obtain ⟨_, _, st, k4, _⟩ := k3 x hx
      obtain ⟨om2, k5, k6⟩ := hE.keep id om0 hom0
      rw [h1] at k5
      obtain rfl := Option.some.inj k5
      refine ⟨?_, by rw [hrf, if_pos hid]; exact h3, n, rows, h4, ?_⟩
      · intro he
        have : x ∈ om'.filter fun y => decide (y.2 < m.stored.length) := by
          rw [List.mem_filter]
          exact ⟨k6 x hx, by simpa using (List.getElem?_eq_some_iff.1 k4).1⟩
        rw [he] at this; cases this
      · intro y hy
        rw [List.mem_filter] at hy
        obtain ⟨e1, e2, st', e3, e4⟩ := h5 y hy.1
        refine ⟨e1, e2, st', ?_, e4⟩
        simp only [Mgr.deleteFrom]
        rw [List.getElem?_take_of_lt (by simpa using hy.2)]; exact e3
    · cases hom
  · intro id i π hl
    rw [hrf] at hl
    split at hl
    · obtain ⟨n, rows, h1, h2, h3⟩ := hi.refs id i π hl
      exact ⟨n, rows, h1, hsm i (hlt _ _ _ h1) h2, h3⟩
    · cases hl

/-- The invariant holds in all reachable states. -/
theorem History.inv {m : Mgr α} {c : Content α} (h : History m c) : m.Inv c := by
  induction h with
  | new =>
    refine ⟨?_, ?_, ?_⟩
    · intro id n rows h; cases h
    · intro id om h; cases h
    · intro id i π h; cases h
  | step _ hs ih => exact (hs.inv ih).1
  | rollback _ hf hs ih => exact ih.rollback hf hs

theorem TableHas.rows {t : Trie α} {n : Nat} {rows : List (List α)} (h : TableHas t n rows) (hr : RowsOK n rows) (d : α) :
    ∃ out, t.rowIterator d = some out ∧ out.Pairwise (· < ·) ∧ ∀ r, r ∈ out ↔ r ∈ rows := by
  obtain ⟨h1, s, h2, h3, h4⟩ := h
  have hn := hr.1
  obtain ⟨out, e1, e2, e3⟩ := Trie.rowIterator_spec h2 h3 (fun r hx => by rw [h1]; exact hr.2 r ((h4 r).1 hx)) (by omega) d
  exact ⟨out, e1, e2, fun r => (e3 r).trans (h4 r)⟩

/-- **C36.** A table that is not a reference can be requested in any column order; the result contains exactly the
rows of the table with their columns in this order, whatever orders were stored or requested before, and also after deleting tables that were added later. -/
theorem request_in_any_order {m : Mgr α} {c : Content α} (h : History m c) {id : Nat} {o : Permut} (ho : Permut.Built o)
    {n : Nat} {rows : List (List α)} (hc : c id = some (n, rows)) (hm : Permut.Moves o n)
    (hid : m.refs.lookup id = none) (d d' : α) :
    ∃ sid m' t out, m.trieId id o d = some (sid, m') ∧ m'.trie sid = some t ∧ t.rowIterator d' = some out ∧
      out.Pairwise (· < ·) ∧ ∀ r, r ∈ out ↔ ∃ row ∈ rows, o.permute row = some r := by
  obtain ⟨sid, m', t, h1, _, h3, h4, _⟩ := h.inv.trieId ho hc hm d
  obtain ⟨out, e1, e2, e3⟩ := (h4 hid).rows (permuteRows_ok ho hm (h.inv.known id n rows hc).1) d'
  refine ⟨sid, m', t, out, h1, h3, e1, e2, ?_⟩
  intro r
  rw [e3, permuteRows, List.mem_filterMap]

/-- **C38.** Rolling back restores the tables: after any calls that add tables (with ids from `tid` on) or request known
tables in new orders, followed by deleting everything that was added, each table that existed before can be requested in
any column order and has the rows it had before, and no later table is left. -/
theorem rollback_restores {m m' : Mgr α} {c c' : Content α} (h : History m c) {tid : Nat}
    (hfresh : ∀ i, tid ≤ i → c i = none) (hs : MgrSteps tid m c m' c') {id : Nat} {o : Permut} (ho : Permut.Built o)
    {n : Nat} {rows : List (List α)} (hc : c id = some (n, rows)) (hm : Permut.Moves o n)
    (hid : m.refs.lookup id = none) (d d' : α) :
    (∃ sid m'' t out, (m'.deleteFrom m.stored.length tid).trieId id o d = some (sid, m'') ∧ m''.trie sid = some t ∧
      t.rowIterator d' = some out ∧ out.Pairwise (· < ·) ∧ ∀ r, r ∈ out ↔ ∃ row ∈ rows, o.permute row = some r) ∧
    (∀ i, tid ≤ i → (m'.deleteFrom m.stored.length tid).smap.lookup i = none ∧
      (m'.deleteFrom m.stored.length tid).refs.lookup i = none) := by
  have hE := (hs.inv h.inv).2
  refine ⟨?_, ?_⟩
  · refine request_in_any_order (History.rollback h hfresh hs) ho hc hm ?_ d d'
    simp only [Mgr.deleteFrom]
    rw [lookup_filter_lt]
    have hlt : id < tid := by
      by_contra hge
      rw [hfresh id (by omega)] at hc; cases hc
    rw [if_pos hlt, hE.refs id hlt, hid]
  · intro i hi
    simp only [Mgr.deleteFrom]
    rw [lookup_map_snd, lookup_filter_lt, lookup_filter_lt, if_neg (by omega), if_neg (by omega)]
    exact ⟨rfl, rfl⟩
/-- **C36 (references).** The same for a reference, if the requested order commutes with the permutation of the
reference (in particular for the default order).  What is missing: other orders, for which the claim is false
(`request_reference_wrong`). -/
theorem request_reference_partial {m : Mgr α} {c : Content α} (h : History m c) {id i : Nat} {π o : Permut}
    (ho : Permut.Built o) {n : Nat} {rows : List (List α)} (hc : c id = some (n, rows)) (hm : Permut.Moves o n)
    (hid : m.refs.lookup id = some (i, π)) (hcomm : ∀ k, o.get (π.get k) = π.get (o.get k)) (d d' : α) :
    ∃ sid m' t out, m.trieId id o d = some (sid, m') ∧ m'.trie sid = some t ∧ t.rowIterator d' = some out ∧
      out.Pairwise (· < ·) ∧ ∀ r, r ∈ out ↔ ∃ row ∈ rows, o.permute row = some r := by
  obtain ⟨sid, m', t, h1, _, h3, _, h4⟩ := h.inv.trieId ho hc hm d
  obtain ⟨rows', k1, k2, k3⟩ := h4 i π hid
  obtain ⟨n', rows2, l1, l2, hπ, hmπ, _⟩ := h.inv.refs id i π hid
  rw [k1] at l1
  have := Option.some.inj l1
  obtain ⟨rfl, rfl⟩ : n = n' ∧ rows' = rows2 := ⟨congrArg Prod.fst this, congrArg Prod.snd this⟩
  have hok := (h.inv.known i n rows' k1).1
  obtain ⟨out, e1, e2, e3⟩ := k3.rows (permuteRows_ok hπ hmπ (permuteRows_ok ho hm hok)) d'
  refine ⟨sid, m', t, out, h1, h3, e1, e2, ?_⟩
  intro r
  have hch : o.chain π = π.chain o := by
    refine Permut.WF.eq_of_get (Permut.chain_wf ho.wf hπ.wf) (Permut.chain_wf hπ.wf ho.wf) ?_
    intro k
    rw [Permut.chain_get ho.wf hπ.wf, Permut.chain_get hπ.wf ho.wf, hcomm]
  rw [e3, ← permuteRows_chain ho hπ hm hmπ hok.2, hch, permuteRows_chain hπ ho hmπ hm hok.2,
    ← permuteRows_congr k2, permuteRows, List.mem_filterMap]

end

/-! ## References are resolved in the wrong order -/

section counterexample
attribute [local instance] natSVal

/-- exchange the first two columns -/
def swap01 : Permut := .fromVector [1, 0]
/-- the first column is moved to the end: column 0 of the result is column 1 of the row, and so on -/
def rot3 : Permut := .fromVector [1, 2, 0]

theorem swap01_eq : swap01 = ⟨[1, 0], [1, 0]⟩ := by
  have h : Permut.trim [1, 0] = [1, 0] := by rw [Permut.trim]; rfl
  rw [swap01, Permut.fromVector, h]; rfl

theorem rot3_eq : rot3 = ⟨[2, 0, 1], [1, 2, 0]⟩ := by
  have h : Permut.trim [1, 2, 0] = [1, 2, 0] := by rw [Permut.trim]; rfl
  rw [rot3, Permut.fromVector, h]; rfl

theorem swap01_built : Permut.Built swap01 := .fromVector (by unfold Permut.IsPerm; decide)
theorem rot3_built : Permut.Built rot3 := .fromVector (by unfold Permut.IsPerm; decide)

theorem swap01_moves : Permut.Moves swap01 3 := by
  intro i hi
  rw [swap01_eq, Permut.get, List.getElem?_eq_none (by simpa using (by omega : 2 ≤ i))]; rfl
theorem rot3_moves : Permut.Moves rot3 3 := by
  intro i hi
  rw [rot3_eq, Permut.get, List.getElem?_eq_none (by simpa using hi)]; rfl

/-- **C36 fails for references**: a table with the row (1,2,3) and a reference to it by the permutation that moves
the first column to the end, so that the reference has the row (2,3,1).  Requesting the reference with its first two
columns exchanged should give (3,2,1), but gives (1,3,2). -/
theorem request_reference_wrong : ∃ (m : Mgr Nat) (c : Content Nat), History m c ∧
    c 1 = some (3, [[2, 3, 1]]) ∧ swap01.permute [2, 3, 1] = some [3, 2, 1] ∧
    ∃ sid m' t, m.trieId 1 swap01 0 = some (sid, m') ∧ m'.trie sid = some t ∧ t.rowIterator 0 = some [[1, 3, 2]] := by
  have h0 : Permut.Moves ⟨[], []⟩ 3 := by intro i _; rfl
  have hp0 : permuteRows ⟨[], []⟩ [[1, 2, 3]] = [[1, 2, 3]] := by decide
  have hp1 : permuteRows rot3 [[1, 2, 3]] = [[2, 3, 1]] := by rw [rot3_eq]; decide
  have hH1 := History.step (α := Nat) .new (.addSources
      (α := Nat) (id := 0) (o := ⟨[], []⟩) (n := 3) (rows := [[1, 2, 3]]) (Nat.zero_le _) rfl .default h0 ⟨by omega, by decide⟩)
  have hH2 := History.step hH1 (.addReference (id := 0) (r := 1) (π := rot3) (n := 3) (rows := [[1, 2, 3]])
    (Nat.zero_le _) (by simp [Content.set]) (by simp [Content.set]) rot3_built rot3_moves)
  rw [hp0, hp1] at hH2
  refine ⟨_, _, hH2, by simp [Content.set], by rw [swap01_eq]; decide, ?_⟩
  obtain ⟨sid, m', t, h1, _, h3, _, h4⟩ := hH2.inv.trieId (id := 1) swap01_built (n := 3) (rows := [[2, 3, 1]])
    (by simp [Content.set]) swap01_moves 0
  obtain ⟨rows', k1, k2, k3⟩ := h4 0 rot3 (by
    simp [Mgr.addReference, Mgr.addSources, Mgr.addStorage, Mgr.addStorageAt, Mgr.resolve, Mgr.new, Mgr.setStored,
      hmInsert])
  simp only [Content.set] at k1
  obtain rfl : [[1, 2, 3]] = rows' := by simpa using k1
  have hp2 : permuteRows rot3 (permuteRows swap01 [[1, 2, 3]]) = [[1, 3, 2]] := by rw [rot3_eq, swap01_eq]; decide
  rw [hp2] at k3
  obtain ⟨out, e1, e2, e3⟩ := k3.rows ⟨by omega, by decide⟩ 0
  refine ⟨sid, m', t, h1, h3, ?_⟩
  rw [e1]
  congr 1
  exact asc_ext e2 (by decide) e3

/-- a concrete history for `request_in_any_order`: two tables, one of them requested in a new order before -/
example : ∃ (m : Mgr Nat) (c : Content Nat) (sid : Nat) (m' : Mgr Nat), History m c ∧ c 0 = some (3, [[1, 2, 3], [4, 5, 6]]) ∧
    m.trieId 0 swap01 0 = some (sid, m') ∧ History m' c ∧ m'.refs.lookup 0 = none := by
  have hH1 := History.step (α := Nat) .new (.addSources (α := Nat) (id := 0) (o := rot3) (n := 3)
    (rows := [[1, 2, 3], [4, 5, 6]]) (Nat.zero_le _) rfl rot3_built rot3_moves ⟨by omega, by decide⟩)
  have hc : (Content.set (fun _ => none) 0 3 [[1, 2, 3], [4, 5, 6]] : Content Nat) 0 = some (3, [[1, 2, 3], [4, 5, 6]]) := by
    simp [Content.set]
  obtain ⟨sid, m', t, h1, ⟨_, h2⟩, _⟩ := hH1.inv.trieId (id := 0) swap01_built hc swap01_moves 0
  refine ⟨_, _, sid, m', hH1, hc, h1, .step hH1 (.request hc swap01_built swap01_moves h1), ?_⟩
  rw [h2]
  simp [Mgr.addSources, Mgr.addStorage, Mgr.addStorageAt, Mgr.resolve, Mgr.new, Mgr.setStored, hmInsert]

end counterexample
end Verif
