import Verif.TrieScanBuild

/-!
# Looking up rows in tries, iterating over them, materializing scans
-/

set_option linter.unusedSimpArgs false
set_option linter.unusedSectionVars false

namespace Verif
variable {α : Type} [SVal α]

namespace Trie

/-- `TrieScanGeneric::possible_types` (trie.rs:632-642) followed by `storage_types`
(/repo/nemo-physical/src/datatypes/storage_type_name.rs:106-114). -/
def possibleTypes (t : Trie α) (k : Nat) : List Ty :=
  [0, 1, 2, 3, 4].filter fun τ => !(((t.columns[k]?).map fun l => (l τ).data).getD []).isEmpty

/-- the row scan over the partial scan of a trie -/
def rowCfg (t : Trie α) : RowCfg (GScan α) α := ⟨GScan.ops, t.arity, possibleTypes t, 0, t.arity⟩

/-- `row_iterator` (trie.rs:95-97): all the rows it returns; `d` is the arbitrary initial content of
the row (rowscan.rs:152). -/
def rowIterator (t : Trie α) (d : α) : Option (List (List α)) := do
  let rs ← (rowCfg t).collect ((rowCfg t).new (GScan.new t) d)
  return rs.map (·.1)

end Trie

/-- `Trie::from_partial_trie_scan` (trie.rs:258-327) for a scan given by its operations, arity and
possible types; scans of aggregates (265-269) are not covered. -/
def materialize {S : Type} (ops : TrieOps S α) (arity : Nat) (types : Nat → List Ty) (s : S) (cut : Nat)
    (d : α) : Option (Trie α) := do
  if arity - cut = 0 then return Trie.zeroArity true
  let rs ← RowCfg.collect ⟨ops, arity, types, cut, arity - cut⟩
    (RowCfg.new ⟨ops, arity, types, cut, arity - cut⟩ s d)
  return Trie.fromScanRows (arity - cut) rs

/-! ## The tree of a represented list of rows -/

theorem mem_possibleTypes {t : Trie α} {rows : List (List α)} (ht : Rep t rows) {k : Nat}
    (hk : k < t.arity) {τ : Ty} :
    τ ∈ t.possibleTypes k ↔ ∃ p a, p ∈ level rows k ∧ a ∈ chOf rows p τ := by
  obtain ⟨l, hl⟩ : ∃ l, t.columns[k]? = some l := ⟨_, List.getElem?_eq_getElem hk⟩
  have hτ : τ ∈ [(0 : Ty), 1, 2, 3, 4] := by revert τ; decide
  simp only [Trie.possibleTypes, List.mem_filter, hτ, true_and, hl, Option.map_some,
    Option.getD_some, ht.data k l τ hl, Bool.not_eq_true', List.isEmpty_eq_false_iff]
  have hex : ∀ l : List α, l ≠ [] ↔ ∃ a, a ∈ l := by
    intro l; cases l <;> simp [exists_or]
  rw [hex]
  simp only [allKeys, mem_keysOf, List.mem_flatMap, gen, List.mem_map]
  constructor
  · rintro ⟨a, ⟨_, ⟨p, hp, rfl⟩, ha⟩, hty⟩
    exact ⟨p, a, hp, mem_keysOf.mpr ⟨ha, hty⟩⟩
  · rintro ⟨p, a, hp, ha⟩
    obtain ⟨h1, h2⟩ := mem_keysOf.mp ha
    exact ⟨a, ⟨_, ⟨p, hp, rfl⟩, h1⟩, h2⟩

theorem treeOK_chOf {t : Trie α} {rows : List (List α)} (hs : SortedRows rows) (ht : Rep t rows) :
    TreeOK t.possibleTypes (chOf rows) t.arity where
  asc p τ := chOf_asc hs p τ
  typed p τ a h := (mem_chOf.mp h).1
  tyAsc k := (by decide : ([0, 1, 2, 3, 4] : List Ty).Pairwise (· < ·)).filter _
  cover p τ a hp hl ha := by
    refine (mem_possibleTypes ht hl).mpr ⟨p, a, mem_level.mpr ⟨rfl, ?_⟩, ha⟩
    obtain ⟨_, r, hr⟩ := mem_chOf.mp ha
    exact .inr ⟨_, hr⟩

/-- the rows of a trie that represents `rows`: sorted, without duplicates, the same rows -/
theorem Trie.rowIterator_spec {t : Trie α} {rows : List (List α)} (hs : SortedRows rows)
    (ht : Rep t rows) (hl : ∀ r ∈ rows, r.length = t.arity) (h0 : 0 < t.arity) (d : α) :
    ∃ out, t.rowIterator d = some out ∧ out.Pairwise (· < ·) ∧ ∀ r, r ∈ out ↔ r ∈ rows := by
  have hT := treeOK_chOf hs ht
  have hc := RowCfg.collect_spec' (cfg := t.rowCfg) (GScan.simulates hs ht)
    (by simp [Trie.rowCfg]) (by simp [Trie.rowCfg]) (by simpa [Trie.rowCfg] using h0)
    (by simp [Trie.rowCfg]) (fun p => kidsAt_nodup hT p) GScan.inv_new d
  simp only [Trie.rowCfg, Nat.sub_zero] at hc
  rw [extendable_zero] at hc
  have hmap : ∀ c (L : List (List α × List α)),
      ((attach c L).map (RowCfg.out t.rowCfg)).map (·.1) = L.map (fun x => x.2.take t.arity) := by
    have aux : ∀ (L : List (List α × List α)) q,
        ((attachFrom q L).map (RowCfg.out t.rowCfg)).map (·.1) = L.map (fun x => x.2.take t.arity) := by
      intro L
      induction L with
      | nil => intro q; rfl
      | cons x L ih =>
        intro q
        simp only [attachFrom, List.map_cons, ih]; rfl
    intro c L
    cases L with
    | nil => rfl
    | cons x L =>
      have : attach c (x :: L) = (x.1, x.2, c) :: attachFrom x.1 L := rfl
      rw [this, List.map_cons, List.map_cons, aux]; rfl
  refine ⟨leaves t.possibleTypes (chOf rows) t.arity [], ?_, leaves_sorted hT _ _, fun r => ?_⟩
  · unfold Trie.rowIterator
    rw [show t.rowCfg.collect (t.rowCfg.new (GScan.new t) d) = _ from hc]
    have hm := hmap 0 ((leaves t.possibleTypes (chOf rows) t.arity []).map fun r => (r, r))
    simp only [Trie.rowCfg] at hm
    simp only [Option.bind_eq_bind, Option.bind_some, Option.pure_def, Option.some.injEq]
    rw [hm, List.map_map]
    conv_rhs => rw [← List.map_id (leaves t.possibleTypes (chOf rows) t.arity [])]
    refine List.map_congr_left fun r hr => ?_
    have := RowCfg.leaves_length hr
    simp only [List.length_nil, Nat.zero_add] at this
    simp [← this]
  · rw [mem_leaves hT (p := []) trivial (by simp), ← rowsOf_chOf h0 hl]
    simp [RowsOf]

theorem Trie.level_rows {rows : List (List α)} {m : Nat} (hm : 0 < m)
    (hl : ∀ r ∈ rows, r.length = m) {r : List α} : r ∈ level rows m ↔ r ∈ rows := by
  rw [mem_level]
  constructor
  · rintro ⟨h, h0 | ⟨s, hs⟩⟩
    · omega
    · have := hl _ hs
      simp only [List.length_append] at this
      have : s = [] := List.length_eq_zero_iff.mp (by omega)
      simpa [this] using hs
  · intro h; exact ⟨hl _ h, .inr ⟨[], by simpa using h⟩⟩

/-- number of rows -/
theorem Trie.numRows_spec {t : Trie α} {rows : List (List α)} (ht : Rep t rows) (h0 : 0 < t.arity) :
    t.numRows = (level rows t.arity).length := by
  obtain ⟨k, hk⟩ : ∃ k, t.arity = k + 1 := ⟨t.arity - 1, by omega⟩
  have hlt : k < t.columns.length := by have : t.columns.length = k + 1 := hk; omega
  have hlast : t.columns.getLast? = some t.columns[k] := by
    rw [List.getLast?_eq_getElem?]
    have : t.columns.length - 1 = k := by have : t.columns.length = k + 1 := hk; omega
    rw [this, List.getElem?_eq_getElem hlt]
  rw [Trie.numRows, hlast, hk]
  simp only [Layer.numData]
  have hd := fun τ => ht.data k _ τ (List.getElem?_eq_getElem hlt)
  have hsum : ∀ l : List α, (keysOf 0 l).length + (keysOf 1 l).length + (keysOf 2 l).length +
      (keysOf 3 l).length + (keysOf 4 l).length = l.length := by
    intro l
    induction l with
    | nil => rfl
    | cons a l ih =>
      have h5 : ty a = 0 ∨ ty a = 1 ∨ ty a = 2 ∨ ty a = 3 ∨ ty a = 4 := by
        generalize ty a = τ; revert τ; decide
      simp only [keysOf] at ih ⊢
      rcases h5 with h | h | h | h | h <;> simp [List.filter_cons, h] <;> omega
  rw [hd 0, hd 1, hd 2, hd 3, hd 4]
  unfold allKeys
  rw [hsum, level]
  simp only [gen, List.flatMap_map, List.length_flatMap, List.length_map]

/-! ## Looking up a row -/

theorem seek_current {l : List α} (h : Asc l) (v : α) :
    ((Cur.fresh l).seek v).current = some v ↔ v ∈ l := by
  simp only [Cur.seek, Cur.rem, Cur.current]
  induction l with
  | nil => simp
  | cons a l ih =>
    obtain ⟨h1, h2⟩ := asc_cons.mp h
    by_cases hav : a < v
    · rw [List.dropWhile_cons_of_pos (by simpa using hav), ih h2]
      simp [ne_of_gt hav]
    · rw [List.dropWhile_cons_of_neg (by simpa using hav)]
      simp only [List.head?_cons, Option.some.injEq, List.mem_cons]
      constructor
      · rintro rfl; exact .inl rfl
      · rintro (rfl | h)
        · rfl
        · exact absurd (h1 v h) hav

/-- the loop of the row lookups -/
theorem Trie.find_spec {t : Trie α} {rows : List (List α)} (hs : SortedRows rows) (ht : Rep t rows)
    (vs : List α) : ∀ (s : GScan α) (p : TPath α), GScan.Inv t rows s p → p.full →
      p.length + vs.length ≤ t.arity →
      (IsPath (chOf rows) (TPath.pref p) vs ∧ ∃ s' p', Trie.find s vs = some (some s') ∧
        GScan.Inv t rows s' p' ∧ TPath.full p' ∧ TPath.pref p' = TPath.pref p ++ vs ∧
        (∀ v, vs.getLast? = some v → ∃ c q, p' = (ty v, c) :: q)) ∨
      (¬ IsPath (chOf rows) (TPath.pref p) vs ∧ Trie.find s vs = some none) := by
  have hS := GScan.simulates hs ht
  induction vs with
  | nil => intro s p hI hf _; exact .inl ⟨trivial, s, p, rfl, hI, hf, by simp, by simp⟩
  | cons v vs ih =>
    intro s p hI hf hlen
    simp only [List.length_cons] at hlen
    obtain ⟨s1, d1, d2⟩ := hS.down _ _ (ty v) hI hf (by omega)
    obtain ⟨s2, e1, e2⟩ := GScan.seekSim hs _ _ _ _ d2
    have d1' : s.down (ty v) = some s1 := d1
    have e1' : s1.seek v = some (_, s2) := e1
    have hmem := seek_current (chOf_asc hs (TPath.pref p) (ty v)) v
    rw [Trie.find, d1']
    simp only [Option.bind_eq_bind, Option.bind_some, e1']
    by_cases hv : v ∈ chOf rows (TPath.pref p) (ty v)
    · have hcur := hmem.mpr hv
      rw [if_pos hcur]
      have hf' := (GScan.full_cons (τ := ty v)).mpr ⟨by rw [hcur]; rfl, hf⟩
      have hp' := GScan.pref_cons (τ := ty v) (p := p) hcur
      rcases ih s2 _ e2 hf' (by simp; omega) with ⟨i1, s', p', i2, i3, i4, i5, i6⟩ | ⟨i1, i2⟩
      · refine .inl ⟨⟨hv, by rw [hp'] at i1; exact i1⟩, s', p', i2, i3, i4, by rw [i5, hp']; simp, ?_⟩
        intro w hw
        cases vs with
        | nil =>
          simp only [List.getLast?_singleton, Option.some.injEq] at hw
          subst hw
          simp only [Trie.find, Option.some.injEq] at i2
          subst i2
          -- the path is determined by the relation: its head has the type of the last `down`
          have hlenp : p'.length = p.length + 1 := by
            have a1 := RowCfg.length_pref i4
            have a2 := RowCfg.length_pref hf
            rw [i5, hp'] at a1; simp at a1; omega
          obtain ⟨_, b2, _⟩ := i3
          obtain ⟨_, c2, _⟩ := e2
          rw [b2] at c2
          cases p' with
          | nil => simp at hlenp
          | cons e q =>
            obtain ⟨σ, c⟩ := e
            simp only [List.map_cons, List.cons.injEq] at c2
            exact ⟨c, q, by rw [c2.1]⟩
        | cons y vs =>
          exact i6 w (by simpa using hw)
      · refine .inr ⟨fun h => i1 (by rw [hp']; exact h.2), i2⟩
    · rw [if_neg (fun h => hv (hmem.mp h))]
      exact .inr ⟨fun h => hv h.1, rfl⟩

theorem Trie.containsRow_spec {t : Trie α} {rows : List (List α)} (hs : SortedRows rows)
    (ht : Rep t rows) (hl : ∀ r ∈ rows, r.length = t.arity) (h0 : 0 < t.arity) (r : List α) :
    t.containsRow r = some (decide (r ∈ rows)) := by
  unfold Trie.containsRow
  by_cases hlen : t.arity = r.length
  · simp only [hlen, ne_eq, not_true_eq_false, if_false]
    have hrow : IsPath (chOf rows) [] r ↔ r ∈ rows := by
      rw [← rowsOf_chOf h0 hl, RowsOf]; simp [hlen]
    rcases Trie.find_spec hs ht r (GScan.new t) [] GScan.inv_new (by intro e he; cases he)
      (by simp [hlen]) with ⟨h1, s', p', h2, _⟩ | ⟨h1, h2⟩
    · have : r ∈ rows := hrow.mp h1
      simp [h2, this]
    · have : r ∉ rows := fun h => h1 (hrow.mpr h)
      simp [h2, this]
  · have : r ∉ rows := fun h => hlen (hl r h).symm
    simp [hlen, this]

/-- `row_position`: the index among the rows whose last value has the same storage type. -/
theorem Trie.rowPosition_spec {t : Trie α} {rows : List (List α)} (hs : SortedRows rows)
    (ht : Rep t rows) (hl : ∀ r ∈ rows, r.length = t.arity) (h0 : 0 < t.arity) (r : List α) :
    (r ∉ rows ∧ t.rowPosition r = some none) ∨
    (r ∈ rows ∧ ∃ A B, level rows t.arity = A ++ r :: B ∧
      t.rowPosition r = some (some (A.filter (lastTy · = lastTy r)).length)) := by
  unfold Trie.rowPosition
  by_cases hlen : t.arity = r.length
  · have hne0 : ¬ t.arity = 0 := by omega
    have hrow : IsPath (chOf rows) [] r ↔ r ∈ rows := by
      rw [← rowsOf_chOf h0 hl, RowsOf]; simp [hlen]
    have hrne : r ≠ [] := by intro h; subst h; simp at hlen; omega
    rcases Trie.find_spec hs ht r (GScan.new t) [] GScan.inv_new (by intro e he; cases he)
      (by simp [hlen]) with ⟨h1, s', p', h2, h3, h4, h5, h6⟩ | ⟨h1, h2⟩
    · refine .inr ⟨hrow.mp h1, ?_⟩
      obtain ⟨v, hv⟩ : ∃ v, r.getLast? = some v := by
        cases h : r.getLast? with
        | none => exact absurd (List.getLast?_eq_none_iff.mp h) hrne
        | some v => exact ⟨v, rfl⟩
      obtain ⟨c, q, rfl⟩ := h6 v hv
      obtain ⟨hcs, hfq⟩ := GScan.full_cons.mp h4
      obtain ⟨x, hx⟩ := Option.isSome_iff_exists.mp hcs
      have hpx := GScan.pref_cons (τ := ty v) (p := q) hx
      have hpr : TPath.pref ([] : TPath α) = [] := rfl
      rw [hpr, List.nil_append] at h5
      rw [h5] at hpx
      have hxv : x = v := by rw [hpx] at hv; simpa using hv
      subst hxv
      have hql : q.length = t.arity - 1 := by
        have a1 := RowCfg.length_pref hfq
        have : r.length = (TPath.pref q).length + 1 := by rw [hpx]; simp
        omega
      obtain ⟨_, _, _, _, _, h7⟩ := h3
      obtain ⟨l, T₁, T₂, a, b, g1, g2, g3, g4, g5, g6⟩ := h7.2.2
      obtain ⟨i, p1, p2, p3⟩ := GScan.position_of_sim g3 g6 hx
      rw [g4] at p2
      have hne : chOf rows (TPath.pref q) (ty x) ≠ [] := by
        intro h; rw [h] at p2; simp at p2
      obtain ⟨_, S₁, S₂, s1, s2⟩ := level_split g2 p2
      rw [hql, Nat.sub_add_cancel h0, ← hpx] at s1
      refine ⟨S₁, S₂, s1, ?_⟩
      have hlast : lastTy r = ty x := by rw [hpx, lastTy_append]
      rw [hlast, s2, ← g5 hne, ← p1, hql]
      simp [hlen, h2, hv, hrne]
    · refine .inl ⟨fun h => h1 (hrow.mpr h), ?_⟩
      simp [hlen, h2, hrne]
  · refine .inl ⟨fun h => hlen (hl r h).symm, by simp [hlen]⟩

/-! ## Materializing a scan -/

/-- A materialized scan represents exactly the rows of the scan (projected to the columns that are
kept). -/
theorem materialize_rep {S : Type} {ops : TrieOps S α} {arity : Nat} {ch : List α → Ty → List α}
    {R : S → TPath α → Prop} (hS : Simulates ops arity ch R) {types : Nat → List Ty}
    (hT : TreeOK types ch arity) {s : S} (hs : R s []) (cut : Nat) (hcut : cut < arity) (d : α) :
    ∃ t, materialize ops arity types s cut d = some t ∧ t.arity = arity - cut ∧
      Rep t (extRows types ch (arity - cut) cut) ∧ t.emptyRow = false := by
  have hc := RowCfg.collect_spec' (cfg := ⟨ops, arity, types, cut, arity - cut⟩) hS
    (by simp; omega) (by simp) (by simp; omega) (by simp) (fun p => kidsAt_nodup hT p) hs d
  simp only at hc
  have hl : ∀ x ∈ extendable types ch (arity - cut) cut, x.1.length = arity - cut := by
    intro x hx
    exact ((mem_extRows hT (by omega)).mp (List.mem_map_of_mem (f := (·.1)) hx)).1
  have hl2 : ∀ x ∈ extendable types ch (arity - cut) cut, x.2.take (arity - cut) = x.1 := by
    intro x hx
    have := (mem_dfs_gE hT (p := []) trivial (by simp; omega)).mp hx
    have hm := List.mem_of_head? this.2
    obtain ⟨⟨q, hq, _, hpq⟩, _⟩ := this
    simp only [List.nil_append] at hq
    obtain ⟨y, hy, _, _⟩ := (mem_leaves hT (p := x.1) (by rw [hq]; exact hpq)
      (by rw [hl x hx]; omega)).mp hm
    rw [hy, List.take_left' (hl x hx)]
  have hout : (attach 0 (extendable types ch (arity - cut) cut)).map
      (RowCfg.out ⟨ops, arity, types, cut, arity - cut⟩) =
      (attach 0 (extendable types ch (arity - cut) cut)).map fun x => (x.1, x.2.2) := by
    generalize hE : extendable types ch (arity - cut) cut = E
    rw [hE] at hl2
    have aux : ∀ (L : List (List α × List α)) q, (∀ x ∈ L, x.2.take (arity - cut) = x.1) →
        (attachFrom q L).map (RowCfg.out ⟨ops, arity, types, cut, arity - cut⟩) =
        (attachFrom q L).map fun x => (x.1, x.2.2) := by
      intro L
      induction L with
      | nil => intro q _; rfl
      | cons x L ih =>
        intro q hL
        simp only [attachFrom, List.map_cons, ih _ (fun y hy => hL y (by simp [hy]))]
        rw [RowCfg.out]
        simp only [hL x (by simp)]
    cases E with
    | nil => rfl
    | cons x E =>
      have : attach 0 (x :: E) = (x.1, x.2, 0) :: attachFrom x.1 E := rfl
      rw [this, List.map_cons, List.map_cons, aux _ _ (fun y hy => hl2 y (by simp [hy])), RowCfg.out]
      simp only [hl2 x (by simp)]
  obtain ⟨t, t1, t2, t3, t4⟩ := Trie.fromScanRows_rep (m := arity - cut) (by omega)
    (extRows_sorted hT (arity - cut) cut) hl
  refine ⟨t, ?_, t2, t3, t4⟩
  unfold materialize
  rw [if_neg (by omega), hc]
  simp only [Option.bind_eq_bind, Option.bind_some]
  rw [hout, t1]
  rfl

end Verif
