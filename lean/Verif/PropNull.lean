import Verif.TrieNull
import Verif.Aggregates
import Verif.TriePlan
import Verif.PlanBuiltins

/-!
# Appending nulls: the property

The operator `append_nulls` together with the dictionary (C09, C12).
-/

set_option linter.unusedSimpArgs false
set_option linter.unusedVariables false

namespace Verif
variable {α D V : Type}

/-! ## The dictionary -/

/-- the storage value of an id (null.rs:203-208) -/
def idValue (i : Nat) : StVal := if i < 2 ^ 32 then .id32 i else .id64 i

theorem idValue_injective : Function.Injective idValue := by
  intro i j h
  unfold idValue at h
  split at h <;> split at h <;> simp at h <;> exact h

/-- a dictionary after any history of calls -/
def Dict (lab : Bool) : Type := {m : MDict // MDict.Reach lab m}

/-- `fresh_null_id` and the storage value of the id (null.rs:203-208).  (The alternative never happens, see `MDict.fresh_null`.) -/
def dictNull (lab : Bool) (m : Dict lab) : StVal × Dict lab :=
  match h : m.1.freshNull with
  | some (_, i, m') => (idValue i, ⟨m', .step m.2 (.null h)⟩)
  | none => (idValue 0, m)

theorem dictNull_eq {lab : Bool} (m : Dict lab) : ∃ v i m', m.1.freshNull = some (v, i, m') ∧ (dictNull lab m).1 = idValue i ∧
    (dictNull lab m).2.1 = m' := by
  obtain ⟨v, i, m', h, -⟩ := MDict.fresh_null m.2
  refine ⟨v, i, m', h, ?_⟩
  unfold dictNull
  split
  · rename_i h'
    rw [h] at h'
    cases h'
    exact ⟨rfl, rfl⟩
  · rename_i h'
    rw [h] at h'
    cases h'

/-- the values that denote an entry of the dictionary -/
def DictKnown {lab : Bool} (m : Dict lab) (v : StVal) : Prop :=
  ∃ i d l, v = idValue i ∧ m.1.globalToLocal i = some (d, l) ∧ l < m.1.size d

theorem globalToLocal_ext {m m' : MDict} (he : MDict.Ext m m') {i : Nat} {x : Nat × Nat} (h : m.globalToLocal i = some x) :
    m'.globalToLocal i = some x := by
  unfold MDict.globalToLocal at h ⊢
  split at h
  · rename_i dd lb hbk
    rw [he.dblock _ _ hbk]; exact h
  · simp at h

theorem dictNull_fresh (lab : Bool) : NullSt.Fresh (dictNull lab) DictKnown := by
  have key : ∀ m : Dict lab, ∃ i, (dictNull lab m).1 = idValue i ∧ MDict.Inv (dictNull lab m).2.1 ∧ MDict.Ext m.1 (dictNull lab m).2.1 ∧
      (dictNull lab m).2.1.localToGlobal 4 m.1.nulls = some i ∧ (dictNull lab m).2.1.size 4 = m.1.size 4 + 1 := by
    intro m
    obtain ⟨v, i, m', h1, h2, h3⟩ := dictNull_eq m
    obtain ⟨i', m'', g1, g2, g3, g4, g5, g6, g7⟩ := MDict.freshNull_spec m.2.inv
    rw [h1] at g1
    cases g1
    refine ⟨i, h2, ?_⟩
    rw [h3]
    exact ⟨g2, g3, g6, by rw [g7]; simp⟩
  refine ⟨fun m hk => ?_, fun m => ?_, fun m v hk => ?_⟩
  · obtain ⟨i, h1, h2, h3, h4, h5⟩ := key m
    obtain ⟨j, d, l, k1, k2, k3⟩ := hk
    rw [h1] at k1
    cases idValue_injective k1
    have hb := h2.back h4
    rw [globalToLocal_ext h3 k2] at hb
    cases hb
    exact absurd k3 (by simp [MDict.size])
  · obtain ⟨i, h1, h2, h3, h4, h5⟩ := key m
    exact ⟨i, 4, m.1.nulls, h1, h2.back h4, by rw [h5]; simp [MDict.size]⟩
  · obtain ⟨i, h1, h2, h3, h4, h5⟩ := key m
    obtain ⟨j, d, l, k1, k2, k3⟩ := hk
    exact ⟨j, d, l, k1, globalToLocal_ext h3 k2, lt_of_lt_of_le k3 (MDict.size_le h3 d)⟩

theorem ty_dictNull (lab : Bool) (m : Dict lab) : ty (dictNull lab m).1 = 0 ∨ ty (dictNull lab m).1 = 1 := by
  obtain ⟨v, i, m', h1, h2, h3⟩ := dictNull_eq m
  rw [h2, idValue]
  split
  · exact .inl rfl
  · exact .inr rfl

/-! ## The operator -/

/-- `GeneratorNull` (null.rs:50-148) applied to a scan, and the result stored (trie.rs:258-327).  With no new columns the input is
returned as it is (null.rs:91-93). -/
def storeNulls [SVal α] [DecidableEq V] (fresh : D → α × D) (input suf : List V) (x : Option (AnyScan α)) (d0 : D) (a : α) :
    Option (Trie α) :=
  match x with
  | none => some (Trie.empty 0)
  | some s =>
    if suf = [] then materialize s.I.toTrieOps (s.I.arity s.s) (s.I.types s.s) s.s 0 a
    else materialize (NullSt.ops s.I.toTrieOps (s.I.arity s.s) (nullInstrs input.length (input ++ suf)) fresh) (input ++ suf).length
      (NullSt.types (s.I.types s.s) (s.I.arity s.s)) (NullSt.new s.s d0) 0 a

/-- **C09, C12.** Storing the result of appending nulls to a table: every row of the table occurs once, followed by a null for every new
column.  Every null was unknown to the dictionary and is an entry of the dictionary afterwards; two nulls are equal only if they
belong to the same row and to the same variable.  Missing: a variable that occurs several times among the new columns, when the ids of
nulls do not fit into 32 bits (see `repeated_null_panics`). -/
theorem append_nulls_partial [SVal α] [DecidableEq V] {fresh : D → α × D} {Known : D → α → Prop} (hF : NullSt.Fresh fresh Known)
    (hty : ∀ d, ty (fresh d).1 = 0 ∨ ty (fresh d).1 = 1) {input suf : List V} (hdisj : ∀ m ∈ suf, m ∉ input)
    (hne : input ++ suf ≠ []) {x : Option (AnyScan α)} {rows : List α → Prop} {md : Mode}
    (hx : Tab md x input.length rows) (d0 : D) (a a' : α)
    (hrep : suf.Nodup ∨ ∀ rs : List (List α), rs.Nodup → (∀ r ∈ rs, rows r) → ∀ i < rs.length * suf.length,
      ty (fresh (NullSt.after fresh i d0)).1 = 0) :
    ∃ (t : Trie α) (g : List α → V → α) (d' : D), storeNulls fresh input suf x d0 a = some t ∧
      ((t = Trie.empty 0 ∧ ∀ r, ¬ rows r) ∨ ∃ out, t.rowIterator a' = some out ∧ out.Pairwise (· < ·) ∧
        ∀ r, r ∈ out ↔ ∃ q, rows q ∧ r = q ++ suf.map (g q)) ∧
      (∀ q, rows q → ∀ v ∈ suf, ¬ Known d0 (g q v) ∧ Known d' (g q v)) ∧
      ∀ q, rows q → ∀ v ∈ suf, ∀ q', rows q' → ∀ v' ∈ suf, g q v = g q' v' → q = q' ∧ v = v' := by
  cases x with
  | none => exact ⟨_, fun _ _ => a, d0, rfl, .inl ⟨rfl, hx⟩, fun q hq => absurd hq (hx q), fun q hq => absurd hq (hx q)⟩
  | some s =>
    obtain ⟨ha, C, R, hS, -, -, hT, hR, hrows⟩ := hx
    by_cases hsuf : suf = []
    · subst hsuf
      have hlen : 0 < input.length := List.length_pos_of_ne_nil (by simpa using hne)
      obtain ⟨t, out, e1, e2, e3, e4⟩ := materialize_rows_partial hS hT hR 0 hlen a a'
      refine ⟨t, fun _ _ => a, d0, ?_, .inr ⟨out, e2, e3, fun r => ?_⟩, by simp, by simp⟩
      · simp only [storeNulls, if_true, ha, e1]
      · rw [e4]
        simp only [hrows, List.map_nil, List.append_nil, exists_eq_right', Nat.sub_zero]
        constructor
        · rintro ⟨h1, y, h2⟩
          have := ((hrows _).2 h2).1
          rw [List.length_append] at this
          obtain rfl := List.eq_nil_of_length_eq_zero (by omega : y.length = 0)
          simpa using h2
        · intro h
          exact ⟨((hrows _).2 h).1, [], by simpa using h⟩
    · by_cases hin : input = []
      · subst hin
        obtain ⟨t, g, d', e1, e2, e3, e4, e5, e6, e7⟩ := NullSt.null_table_zero (cops := s.I.toTrieOps) (ctypes := s.I.types s.s) hF hty hsuf
          s.s d0 a (hrep.imp id fun h i hi => h [[]] (by simp) (by
            intro r hr
            rw [List.mem_singleton] at hr
            subst hr
            exact (hrows []).1 ⟨rfl, trivial⟩) i (by simpa using hi))
        obtain ⟨out, h4, h5, h6⟩ := Trie.rowIterator_spec (by simp) e3 (fun r hr => by
          rw [List.mem_singleton] at hr; rw [hr, e2]; simp) (by rw [e2]; exact List.length_pos_of_ne_nil hsuf) a'
        have hr0 : ∀ r, rows r ↔ r = [] := by
          intro r
          rw [← hrows]
          constructor
          · exact fun h => List.eq_nil_of_length_eq_zero h.1
          · rintro rfl
            exact ⟨rfl, trivial⟩
        refine ⟨t, fun _ => g, d', ?_, .inr ⟨out, h4, h5, fun r => ?_⟩, fun q _ v hv => ⟨e5 v hv, e6 v hv⟩, ?_⟩
        · simp only [storeNulls, if_neg hsuf, ha, List.nil_append, List.length_nil, e1]
        · rw [h6, List.mem_singleton]
          simp only [hr0, exists_eq_left, List.nil_append]
        · intro q hq v hv q' hq' v' hv' h
          rw [(hr0 q).1 hq, (hr0 q').1 hq']
          exact ⟨rfl, e7 v hv v' hv' h⟩
      · have hmem : ∀ r, r ∈ extRows (s.I.types s.s) C input.length 0 ↔ rows r := by
          intro r
          rw [mem_extRows hT (by omega), ← hrows]
          constructor
          · rintro ⟨h1, y, h2⟩
            have := h2.1
            rw [List.length_append] at this
            obtain rfl := List.eq_nil_of_length_eq_zero (by omega : y.length = 0)
            simpa using h2
          · intro h
            exact ⟨h.1, [], by simpa using h⟩
        obtain ⟨t, g, d', e1, e2, e3, e4, e5, e6, e7⟩ := NullSt.null_table (cops := s.I.toTrieOps) (ctypes := s.I.types s.s) hF hty hdisj hsuf
          hin hS hT hR d0 a (hrep.imp id fun h => h _ ((extRows_sorted hT input.length 0).imp fun h => ne_of_lt h)
            fun r hr => (hmem r).1 hr)
        have hlen : ∀ q, rows q → q.length = input.length := fun q hq => ((hrows q).2 hq).1
        have hsort := extRows_sorted hT input.length 0
        obtain ⟨out, h4, h5, h6⟩ := Trie.rowIterator_spec (by
            unfold SortedRows
            rw [List.pairwise_map]
            refine List.Pairwise.imp_of_mem (fun {r r'} hr hr' h => ?_) hsort
            exact le_of_lt (append_lt_append_of_length (by rw [hlen r ((hmem r).1 hr), hlen r' ((hmem r').1 hr')]) h _ _)) e3
          (fun r hr => by
            obtain ⟨q, hq, rfl⟩ := List.mem_map.1 hr
            rw [e2]; simp [hlen q ((hmem q).1 hq)])
          (by rw [e2]; exact List.length_pos_of_ne_nil hne) a'
        refine ⟨t, g, d', ?_, .inr ⟨out, h4, h5, fun r => ?_⟩, fun q hq v hv => ⟨e5 q ((hmem q).2 hq) v hv, e6 q ((hmem q).2 hq) v hv⟩, ?_⟩
        · simp only [storeNulls, if_neg hsuf, ha, e1]
        · rw [h6, List.mem_map]
          constructor
          · rintro ⟨q, hq, rfl⟩
            exact ⟨q, (hmem q).1 hq, rfl⟩
          · rintro ⟨q, hq, rfl⟩
            exact ⟨q, (hmem q).2 hq, rfl⟩
        · intro q hq v hv q' hq' v' hv' h
          exact e7 q ((hmem q).2 hq) v hv q' ((hmem q').2 hq') v' hv' h

/-- **C12.** The same with the nulls of the dictionary.  The nulls of the new rows are ids that denoted nothing before.  If variables are
repeated, the ids of the nulls that are needed have to fit into 32 bits. -/
theorem append_dictionary_nulls_partial [DecidableEq V] {lab : Bool} {input suf : List V} (hdisj : ∀ m ∈ suf, m ∉ input)
    (hne : input ++ suf ≠ []) {x : Option (AnyScan StVal)} {rows : List StVal → Prop} {md : Mode}
    (hx : Tab md x input.length rows) (d0 : Dict lab) (a a' : StVal)
    (hrep : suf.Nodup ∨ ∀ rs : List (List StVal), rs.Nodup → (∀ r ∈ rs, rows r) → ∀ i < rs.length * suf.length, ∀ v j m',
      (NullSt.after (dictNull lab) i d0).1.freshNull = some (v, j, m') → j < 2 ^ 32) :
    ∃ (t : Trie StVal) (g : List StVal → V → Nat), storeNulls (dictNull lab) input suf x d0 a = some t ∧
      ((t = Trie.empty 0 ∧ ∀ r, ¬ rows r) ∨ ∃ out, t.rowIterator a' = some out ∧ out.Pairwise (· < ·) ∧
        ∀ r, r ∈ out ↔ ∃ q, rows q ∧ r = q ++ suf.map fun v => idValue (g q v)) ∧
      (∀ q, rows q → ∀ v ∈ suf, ∀ w, d0.1.toValue (g q v) ≠ some (some w)) ∧
      ∀ q, rows q → ∀ v ∈ suf, ∀ q', rows q' → ∀ v' ∈ suf, g q v = g q' v' → q = q' ∧ v = v' := by
  obtain ⟨t, g, d', h1, h2, h3, h4⟩ := append_nulls_partial (dictNull_fresh lab) (ty_dictNull lab) hdisj hne hx d0 a a'
    (hrep.imp id fun h rs hrs hr i hi => by
      obtain ⟨v, j, m', k1, k2, k3⟩ := dictNull_eq (NullSt.after (dictNull lab) i d0)
      rw [k2, idValue, if_pos (h rs hrs hr i hi v j m' k1)]
      rfl)
  have hid : ∀ q v, ∃ i, rows q → v ∈ suf → g q v = idValue i := by
    intro q v
    by_cases h : rows q ∧ v ∈ suf
    · obtain ⟨i, d, l, hi, -⟩ := (h3 q h.1 v h.2).2
      exact ⟨i, fun _ _ => hi⟩
    · exact ⟨0, fun a b => absurd ⟨a, b⟩ h⟩
  choose f hf using hid
  refine ⟨t, f, h1, ?_, ?_, ?_⟩
  · rcases h2 with h2 | ⟨out, k1, k2, k3⟩
    · exact .inl h2
    · refine .inr ⟨out, k1, k2, fun r => ?_⟩
      rw [k3]
      constructor
      · rintro ⟨q, hq, rfl⟩
        exact ⟨q, hq, by rw [List.map_congr_left fun v hv => hf q v hq hv]⟩
      · rintro ⟨q, hq, rfl⟩
        exact ⟨q, hq, by rw [List.map_congr_left fun v hv => (hf q v hq hv).symm]⟩
  · intro q hq v hv w hw
    obtain ⟨d, l, k1, k2⟩ := MDict.toValue_entry hw
    exact (h3 q hq v hv).1 ⟨f q v, d, l, hf q v hq hv, k1, k2⟩
  · intro q hq v hv q' hq' v' hv' h
    exact h4 q hq v hv q' hq' v' hv' (by rw [hf q v hq hv, hf q' v' hq' hv', h])

/-- **Repeated nulls beyond 32 bits**: if the id of a null does not fit into 32 bits and the null is used again in the next column, the
scan panics: `up` forgets the null although only the type of the column changes (null.rs:174-187, 210). -/
theorem repeated_null_panics [SVal α] {S : Type} {cops : TrieOps S α} {ctypes : Nat → List Ty} {fresh : D → α × D} (s : S) (d0 : D)
    (h64 : ty (fresh d0).1 = 1) (a : α) :
    materialize (NullSt.ops cops 0 [.fresh, .rep 0] fresh) 2 (NullSt.types ctypes 0) (NullSt.new s d0) 0 a = none := by
  have h01 : ¬ ((1 : Ty) = 0) := by decide
  unfold materialize
  rw [if_neg (by decide)]
  rw [RowCfg.collect, RowCfg.advance]
  have he : (⟨NullSt.ops cops 0 [.fresh, .rep 0] fresh, 2, NullSt.types ctypes 0, 0, 2 - 0⟩ : RowCfg (NullSt S α D) α).empty = false := by
    simp [RowCfg.empty, NullSt.types, List.range, List.range.loop]
  rw [he, if_neg (by decide), if_neg (by simp)]
  have key : RowCfg.loop (⟨NullSt.ops cops 0 [.fresh, .rep 0] fresh, 2, NullSt.types ctypes 0, 0, 2 - 0⟩ : RowCfg (NullSt S α D) α)
      ⟨⟨s, (fresh d0).2, [(fresh d0).1], 1, NullSt.reset (NullSt.setNull (fun _ _ => ConstScan.new none) 0 (fresh d0).1) 0 0⟩,
        Function.update (fun _ => 0) 0 0, .before, List.replicate 2 a, 1⟩ = none := by
    rw [RowCfg.loop, if_neg (by simp [NullSt.ops])]
    simp [RowCfg.iter, RowCfg.curType, NullSt.ops, NullSt.types, NullSt.next, NullSt.reset, NullSt.setNull, h64, NullSt.setCol,
      ConstScan.next, ConstScan.new, NullSt.up, RowCfg.downNext, NullSt.down, RowCfg.setUsed]
    rw [RowCfg.loop, if_neg (by simp [NullSt.ops])]
    simp [RowCfg.iter, RowCfg.curType, NullSt.ops, NullSt.types, NullSt.next, NullSt.reset, NullSt.setNull, h64, NullSt.setCol,
      ConstScan.next, ConstScan.new, NullSt.up, RowCfg.downFirst, NullSt.down, RowCfg.setUsed, NullSt.nextNull]
  have hent : RowCfg.enter (⟨NullSt.ops cops 0 [.fresh, .rep 0] fresh, 2, NullSt.types ctypes 0, 0, 2 - 0⟩ : RowCfg (NullSt S α D) α)
      (RowCfg.new ⟨NullSt.ops cops 0 [.fresh, .rep 0] fresh, 2, NullSt.types ctypes 0, 0, 2 - 0⟩ (NullSt.new s d0) a) = some
      ⟨⟨s, (fresh d0).2, [(fresh d0).1], 1, NullSt.reset (NullSt.setNull (fun _ _ => ConstScan.new none) 0 (fresh d0).1) 0 0⟩,
        Function.update (fun _ => 0) 0 0, .before, List.replicate 2 a, 0⟩ := by
    simp [RowCfg.enter, RowCfg.new, RowCfg.downFirst, NullSt.ops, NullSt.types, NullSt.down, NullSt.new, NullSt.nextNull, RowCfg.setUsed]
  rw [hent]
  simp only [Option.bind_eq_bind, Option.bind_some, List.length_replicate, usub]
  rw [if_pos (by decide)]
  simp only [Option.bind_some, Nat.reduceSub] at key ⊢
  rw [key]
  rfl

/-! ## Example -/

/-- the empty dictionary -/
def emptyDict : Dict true := ⟨MDict.new, .refl _⟩

theorem after_emptyDict (i : Nat) :
    (NullSt.after (dictNull true) i emptyDict).1 = (fun m : MDict => (m.freshNull.map fun x => x.2.2).getD m)^[i] MDict.new := by
  induction i with
  | zero => rfl
  | succ i ih =>
    rw [NullSt.after, Function.iterate_succ_apply', Function.iterate_succ_apply', ← ih]
    obtain ⟨v, j, m', h1, h2, h3⟩ := dictNull_eq (NullSt.after (dictNull true) i emptyDict)
    change (dictNull true (NullSt.after (dictNull true) i emptyDict)).2.1 = _
    rw [h3, h1]
    rfl

theorem small_ids : ∀ i < 6, ((((fun m : MDict => (m.freshNull.map fun x => x.2.2).getD m)^[i] MDict.new).freshNull).map fun p =>
    decide (p.2.1 < 2 ^ 32)) = some true := by decide +kernel

/-- Rows `(1)` and `(2)` get nulls for `y`, `z` and again `y`; the first four ids are small. -/
example (a a' : StVal) : ∃ (x : Option (AnyScan StVal)) (t : Trie StVal) (g : List StVal → String → Nat) (out : List (List StVal)),
    storeNulls (dictNull true) ["x"] ["y", "z", "y"] x emptyDict a = some t ∧ t.rowIterator a' = some out ∧
      (∀ r, r ∈ out ↔ ∃ q ∈ [[StVal.int 1], [.int 2]], r = q ++ [idValue (g q "y"), idValue (g q "z"), idValue (g q "y")]) ∧
      g [.int 1] "y" ≠ g [.int 1] "z" ∧ g [.int 1] "y" ≠ g [.int 2] "y" := by
  obtain ⟨t0, -, h0⟩ := Plan.tableOK_tableOf (n := 1) (by omega) (rows := [[StVal.int 1], [.int 2]]) (by simp)
  have hx := Plan.leaf_table h0 ⟨false, false⟩
  have hsmall : ∀ i < 6, ∀ v j m', (NullSt.after (dictNull true) i emptyDict).1.freshNull = some (v, j, m') → j < 2 ^ 32 := by
    intro i hi v j m' h
    have := small_ids i hi
    rw [← after_emptyDict, h] at this
    simpa using this
  obtain ⟨t, g, h1, h2, h3, h4⟩ := append_dictionary_nulls_partial (input := ["x"]) (suf := ["y", "z", "y"]) (by decide) (by decide) hx emptyDict
    a a' (.inr (by
      intro rs hrs hr i hi
      have hlen : rs.length ≤ 2 := by
        have := (hrs.subperm (l₂ := [[StVal.int 1], [.int 2]]) fun r h => hr r h).length_le
        simpa using this
      refine hsmall i (lt_of_lt_of_le hi ?_)
      simp only [List.length_cons, List.length_nil]
      omega))
  rcases h2 with ⟨-, h⟩ | ⟨out, k1, -, k3⟩
  · exact absurd (show [StVal.int 1] ∈ [[StVal.int 1], [.int 2]] by simp) (h _)
  · refine ⟨_, t, g, out, h1, k1, fun r => by rw [k3]; simp, fun h => ?_, fun h => ?_⟩
    · have := (h4 [.int 1] (by simp) "y" (by simp) [.int 1] (by simp) "z" (by simp) h).2
      revert this; decide
    · have := (h4 [.int 1] (by simp) "y" (by simp) [.int 2] (by simp) "y" (by simp) h).1
      revert this; decide

end Verif
