import Verif.ProjectReorder

/-!
# Keeping one row for the values of some columns

Model of `GeneratorSingle` (/repo/nemo-physical/src/tabular/operations/single.rs), which node queries use.
-/

set_option linter.unusedSimpArgs false
set_option linter.unusedSectionVars false

namespace Verif

/-- `GeneratorSingle` (single.rs:24-29) -/
structure GenSingle where
  full : List Nat
  existential : Nat
deriving DecidableEq

namespace GenSingle

/-- The loop that looks for the last column that is not single (single.rs:39-45) -/
def lastFull {β : Type} [DecidableEq β] (single : List β) (table : List β) : Option Nat :=
  table.zipIdx.foldl (fun l x => if x.1 ∈ single then l else some x.2) none

/-- `new` (single.rs:38-69) -/
def new {β : Type} [DecidableEq β] (table single : List β) : GenSingle :=
  let ex := match lastFull single table with
    | some l => table.length - l - 1
    | none => table.length
  ⟨((table.take (table.length - ex)).zipIdx.filter fun x => decide (x.1 ∉ single)).map (·.2), ex⟩

/-- The loop over the rows (single.rs:82-104); `none` if an index is out of bounds. -/
def keep {α : Type} [DecidableEq α] (full : List Nat) : List (List α) → List (List α) → Option (List (List α))
  | [], _ => some []
  | row :: rows, enough => do
    let key ← full.mapM fun i => row[i]?
    if key ∈ enough then keep full rows enough
    else do
      let rest ← keep full rows (key :: enough)
      some (row :: rest)

/-- `apply_operation` (single.rs:72-107) for tables with columns.  (For a table without columns, the result of lines 75-77 is not used.) -/
def apply {α S : Type} [SVal α] (g : GenSingle) (ops : TrieOps S α) (arity : Nat) (types : Nat → List Ty) (s : S) (d : α) : Option (Trie α) := do
  let rows ← RowCfg.collect ⟨ops, arity, types, g.existential, arity⟩ (RowCfg.new ⟨ops, arity, types, g.existential, arity⟩ s d)
  let out ← if g.full.length ≠ arity then keep g.full (rows.map (·.1)) [] else some (rows.map (·.1))
  tableOf arity out

/-! ## The columns -/

/-- the columns at positions from `n` on are single -/
theorem lastFull_spec {β : Type} [DecidableEq β] (single : List β) : ∀ (table : List β) (n : Nat) (l : Option Nat), (∀ i, l = some i → i < n) →
    match (table.zipIdx n).foldl (fun l x => if x.1 ∈ single then l else some x.2) l with
    | none => l = none ∧ ∀ m ∈ table, m ∈ single
    | some i => (l = some i ∧ ∀ m ∈ table, m ∈ single) ∨ (n ≤ i ∧ i < n + table.length ∧ ∀ j, i < j → ∀ m, table[j - n]? = some m → m ∈ single)
  | [], n, l, _ => by
    cases l with
    | none => simp
    | some i => left; simp
  | m :: table, n, l, hl => by
    rw [List.zipIdx_cons, List.foldl_cons]
    by_cases hm : m ∈ single
    · simp only [hm, if_true]
      have := lastFull_spec single table (n + 1) l (fun i hi => Nat.lt_succ_of_lt (hl i hi))
      split
      · rename_i h
        rw [h] at this
        exact ⟨this.1, by simpa [hm] using this.2⟩
      · rename_i i h
        rw [h] at this
        rcases this with ⟨h1, h2⟩ | ⟨h1, h2, h3⟩
        · exact .inl ⟨h1, by simpa [hm] using h2⟩
        · refine .inr ⟨by omega, by simp; omega, fun j hj x hx => h3 j hj x ?_⟩
          rw [show j - n = (j - (n + 1)) + 1 by omega] at hx
          simpa using hx
    · simp only [hm, if_false]
      have := lastFull_spec single table (n + 1) (some n) (fun i hi => by cases hi; omega)
      split
      · rename_i h
        rw [h] at this
        exact absurd this.1 (by simp)
      · rename_i i h
        rw [h] at this
        rcases this with ⟨h1, h2⟩ | ⟨h1, h2, h3⟩
        · cases h1
          refine .inr ⟨le_rfl, by simp, fun j hj x hx => ?_⟩
          rw [show j - n = (j - n - 1) + 1 by omega, List.getElem?_cons_succ] at hx
          exact h2 x (List.mem_of_getElem? hx)
        · refine .inr ⟨by omega, by simp; omega, fun j hj x hx => h3 j hj x ?_⟩
          rw [show j - n = (j - (n + 1)) + 1 by omega] at hx
          simpa using hx

/-- **The columns of `new`**: the columns whose values are kept are those that are not single, and all of them are before the last `existential` columns. -/
theorem new_spec {β : Type} [DecidableEq β] (table single : List β) :
    (new table single).existential ≤ table.length ∧
    (∀ i, i ∈ (new table single).full ↔ ∃ m, table[i]? = some m ∧ m ∉ single) ∧
    (∀ i ∈ (new table single).full, i < table.length - (new table single).existential) ∧
    (new table single).full.Nodup := by
  have hex : (new table single).existential ≤ table.length ∧ ∀ i m, table[i]? = some m → m ∉ single → i < table.length - (new table single).existential := by
    have h := lastFull_spec single table 0 none (by simp)
    have hl : lastFull single table = (table.zipIdx 0).foldl (fun l x => if x.1 ∈ single then l else some x.2) none := rfl
    unfold new
    dsimp only
    rw [← hl] at h
    cases hk : lastFull single table with
    | none =>
      rw [hk] at h
      refine ⟨le_rfl, fun i m hi hm => absurd (h.2 m (List.mem_of_getElem? hi)) hm⟩
    | some l =>
      rw [hk] at h
      rcases h with ⟨h, -⟩ | ⟨-, h1, h2⟩
      · cases h
      · have h1' : l < table.length := by simpa using h1
        refine ⟨le_trans (Nat.sub_le _ _) (Nat.sub_le _ _), fun i m hi hm => ?_⟩
        show i < table.length - (table.length - l - 1)
        have := (List.getElem?_eq_some_iff.1 hi).1
        by_contra hc
        exact hm (h2 i (by omega) m (by simpa using hi))
  have hfull : ∀ i, i ∈ (new table single).full ↔ i < table.length - (new table single).existential ∧ ∃ m, table[i]? = some m ∧ m ∉ single := by
    intro i
    show i ∈ (((table.take (table.length - (new table single).existential)).zipIdx.filter fun x => decide (x.1 ∉ single)).map (·.2)) ↔ _
    simp only [List.mem_map, List.mem_filter, decide_eq_true_eq, Prod.exists, exists_eq_right, List.mem_zipIdx_iff_getElem?]
    constructor
    · rintro ⟨m, h1, h2⟩
      rw [List.getElem?_take] at h1
      split at h1
      · rename_i hlt; exact ⟨hlt, m, h1, h2⟩
      · cases h1
    · rintro ⟨h0, m, h1, h2⟩
      exact ⟨m, by rw [List.getElem?_take, if_pos h0]; exact h1, h2⟩
  refine ⟨hex.1, fun i => ?_, fun i hi => ((hfull i).1 hi).1, ?_⟩
  · rw [hfull]
    exact ⟨fun h => h.2, fun ⟨m, h1, h2⟩ => ⟨hex.2 i m h1 h2, m, h1, h2⟩⟩
  · have h1 : (((table.take (table.length - (new table single).existential)).zipIdx.filter fun x => decide (x.1 ∉ single)).map (·.2)).Sublist
        ((table.take (table.length - (new table single).existential)).zipIdx.map (·.2)) := List.filter_sublist.map _
    refine List.Nodup.sublist h1 ?_
    rw [List.zipIdx_map_snd]
    exact List.nodup_range'

/-! ## The rows -/

/-- the rows agree on the columns -/
def AgreeOn {α : Type} (full : List Nat) (r r' : List α) : Prop := ∀ i ∈ full, r[i]? = r'[i]?

theorem mapM_get {α : Type} {full : List Nat} {row : List α} (h : ∀ i ∈ full, i < row.length) : ∃ key, (full.mapM fun i => row[i]?) = some key ∧ key.map some = full.map fun i => row[i]? := by
  induction full with
  | nil => exact ⟨[], rfl, rfl⟩
  | cons i full ih =>
    obtain ⟨key, h1, h2⟩ := ih fun j hj => h j (List.mem_cons_of_mem _ hj)
    have hi := h i List.mem_cons_self
    refine ⟨row[i] :: key, ?_, ?_⟩
    · rw [List.mapM_cons, List.getElem?_eq_getElem hi, h1]; rfl
    · simp only [List.map_cons, h2, List.getElem?_eq_getElem hi]

theorem keep_spec {α : Type} [DecidableEq α] {full : List Nat} : ∀ (rows enough : List (List α)), (∀ r ∈ rows, ∀ i ∈ full, i < r.length) →
    ∃ out, keep full rows enough = some out ∧ out.Sublist rows ∧
      (∀ r ∈ out, ∀ key ∈ enough, ¬ key.map some = full.map fun i => r[i]?) ∧
      (∀ r ∈ rows, (∃ key ∈ enough, key.map some = full.map fun i => r[i]?) ∨ ∃ r' ∈ out, AgreeOn full r' r) ∧
      out.Pairwise fun r r' => ¬ AgreeOn full r r'
  | [], enough, _ => ⟨[], rfl, List.Sublist.refl _, by simp, by simp, List.Pairwise.nil⟩
  | row :: rows, enough, h => by
    obtain ⟨key, k1, k2⟩ := mapM_get (h row List.mem_cons_self)
    have hr : ∀ r ∈ rows, ∀ i ∈ full, i < r.length := fun r hr => h r (List.mem_cons_of_mem _ hr)
    by_cases hk : key ∈ enough
    · obtain ⟨out, h1, h2, h3, h4, h5⟩ := keep_spec rows enough hr
      refine ⟨out, ?_, h2.cons _, h3, ?_, h5⟩
      · rw [keep, k1]
        simp only [Option.bind_eq_bind, Option.bind_some, hk, if_true, h1]
      · intro r hr'
        rcases List.mem_cons.1 hr' with rfl | hr'
        · exact .inl ⟨key, hk, k2⟩
        · exact h4 r hr'
    · obtain ⟨out, h1, h2, h3, h4, h5⟩ := keep_spec rows (key :: enough) hr
      have hag : ∀ {r : List α}, (key.map some = full.map fun i => r[i]?) ↔ AgreeOn full row r := by
        intro r
        rw [k2]
        unfold AgreeOn
        exact List.map_inj_left
      refine ⟨row :: out, ?_, h2.cons_cons _, ?_, ?_, ?_⟩
      · rw [keep, k1]
        simp only [Option.bind_eq_bind, Option.bind_some, hk, if_false, h1]
      · intro r hr' key' hkey' he
        rcases List.mem_cons.1 hr' with rfl | hr'
        · have : key' = key := List.map_injective_iff.2 (Option.some_injective _) (he.trans k2.symm)
          exact hk (this ▸ hkey')
        · exact h3 r hr' key' (List.mem_cons_of_mem _ hkey') he
      · intro r hr'
        rcases List.mem_cons.1 hr' with rfl | hr'
        · exact .inr ⟨r, List.mem_cons_self, fun i _ => rfl⟩
        · rcases h4 r hr' with ⟨key', h6, h7⟩ | ⟨r', h6, h7⟩
          · rcases List.mem_cons.1 h6 with rfl | h6
            · exact .inr ⟨row, List.mem_cons_self, hag.1 h7⟩
            · exact .inl ⟨key', h6, h7⟩
          · exact .inr ⟨r', List.mem_cons_of_mem _ h6, h7⟩
      · refine List.pairwise_cons.2 ⟨fun r hr' he => ?_, h5⟩
        exact h3 r hr' key List.mem_cons_self (hag.2 he)

section
variable {α : Type} [SVal α]

/-- The rows of a row scan that looks for one extension of each row without the last `cut` columns -/
theorem collect_extensions {S : Type} {ops : TrieOps S α} {arity : Nat} {ch : List α → Ty → List α}
    {R : S → TPath α → Prop} (hS : Simulates ops arity ch R) {types : Nat → List Ty}
    (hT : TreeOK types ch arity) {s : S} (hs : R s []) (cut : Nat) (hcut : cut ≤ arity) (hpos : 0 < arity) (d : α) :
    ∃ rows, RowCfg.collect ⟨ops, arity, types, cut, arity⟩ (RowCfg.new ⟨ops, arity, types, cut, arity⟩ s d) = some rows ∧
      (∀ r ∈ rows.map (·.1), RowsOf ch arity r) ∧ (∀ r, RowsOf ch arity r → ∃ r' ∈ rows.map (·.1), r'.take (arity - cut) = r.take (arity - cut)) ∧
      (rows.map fun x => x.1.take (arity - cut)).Nodup := by
  have hc := RowCfg.collect_spec' (cfg := ⟨ops, arity, types, cut, arity⟩) hS
    (by simpa using hcut) (by simp) (by simpa using hpos) (by simp) (fun p => kidsAt_nodup hT p) hs d
  simp only at hc
  have hx : ∀ x ∈ extendable types ch (arity - cut) cut, x.1.length = arity - cut ∧ RowsOf ch arity x.2 ∧ x.2.take (arity - cut) = x.1 := by
    intro x hx
    have := (mem_dfs_gE hT (p := []) trivial (by simp; omega)).mp hx
    have hm := List.mem_of_head? this.2
    obtain ⟨⟨q, hq, hql, hpq⟩, _⟩ := this
    simp only [List.nil_append] at hq
    subst hq
    obtain ⟨y, hy, hyl, hpy⟩ := (mem_leaves hT (p := x.1) hpq (by rw [hql]; omega)).mp hm
    refine ⟨hql, ⟨by rw [hy, List.length_append]; omega, ?_⟩, by rw [hy, List.take_left' hql]⟩
    rw [hy]
    exact isPath_append.mpr ⟨hpq, by simpa using hpy⟩
  have aux : ∀ (L : List (List α × List α)) q, (∀ x ∈ L, x.2.length ≤ arity) →
      ((attachFrom q L).map (RowCfg.out ⟨ops, arity, types, cut, arity⟩)).map (·.1) = L.map (·.2) := by
    intro L
    induction L with
    | nil => intro q _; rfl
    | cons x L ih =>
      intro q hL
      simp only [attachFrom, List.map_cons, ih _ (fun y hy => hL y (by simp [hy]))]
      rw [RowCfg.out]
      simp only [List.take_of_length_le (hL x (by simp))]
  have hE : ((attach 0 (extendable types ch (arity - cut) cut)).map (RowCfg.out ⟨ops, arity, types, cut, arity⟩)).map (·.1) =
      (extendable types ch (arity - cut) cut).map (·.2) := by
    have hlen : ∀ x ∈ extendable types ch (arity - cut) cut, x.2.length ≤ arity := fun x h => le_of_eq (hx x h).2.1.1
    revert hlen
    generalize extendable types ch (arity - cut) cut = E
    intro hlen
    cases E with
    | nil => rfl
    | cons x E =>
      have : attach 0 (x :: E) = (x.1, x.2, 0) :: attachFrom x.1 E := rfl
      rw [this, List.map_cons, List.map_cons, aux _ _ (fun y hy => hlen y (by simp [hy])), RowCfg.out]
      simp only [List.take_of_length_le (hlen x (by simp)), List.map_cons]
  refine ⟨_, hc, ?_, ?_, ?_⟩
  · rw [hE]
    intro r hr
    obtain ⟨x, h1, rfl⟩ := List.mem_map.1 hr
    exact (hx x h1).2.1
  · rw [hE]
    intro r hr
    have h1 : r.take (arity - cut) ∈ extRows types ch (arity - cut) cut := by
      rw [mem_extRows hT (by omega)]
      refine ⟨by rw [List.length_take, hr.1]; omega, r.drop (arity - cut), ?_⟩
      rw [List.take_append_drop, Nat.sub_add_cancel hcut]
      exact hr
    rw [extRows] at h1
    obtain ⟨x, h2, h3⟩ := List.mem_map.1 h1
    exact ⟨x.2, List.mem_map.2 ⟨x, h2, rfl⟩, by rw [(hx x h2).2.2, h3]⟩
  · have h1 : (((attach 0 (extendable types ch (arity - cut) cut)).map (RowCfg.out ⟨ops, arity, types, cut, arity⟩)).map fun x => x.1.take (arity - cut)) =
        extRows types ch (arity - cut) cut := by
      have h2 := congrArg (fun l : List (List α) => l.map (·.take (arity - cut))) hE
      simp only [List.map_map] at h2 ⊢
      rw [extRows]
      refine Eq.trans h2 ?_
      refine List.map_congr_left fun x h => ?_
      exact (hx x h).2.2
    rw [h1]
    exact (extRows_sorted hT _ _).imp fun h => ne_of_lt h

/-- **C09, keeping single rows**: for any table with columns, the result contains only rows of the table, for each row of the table a row that agrees with it on all columns that are not
single, and no two rows that agree on all these columns. -/
theorem single_spec {β : Type} [DecidableEq β] {S : Type} {ops : TrieOps S α} {ch : List α → Ty → List α} {R : S → TPath α → Prop} (table single : List β)
    (hS : Simulates ops table.length ch R) {types : Nat → List Ty} (hT : TreeOK types ch table.length) {s : S} (hs : R s []) (hpos : 0 < table.length) (d : α) :
    ∃ t sorted, (new table single).apply ops table.length types s d = some t ∧ t.arity = table.length ∧ SortedRows sorted ∧ Rep t sorted ∧
      (∀ r ∈ sorted, RowsOf ch table.length r) ∧
      (∀ r, RowsOf ch table.length r → ∃ r' ∈ sorted, ∀ (i : Nat) (m : β), table[i]? = some m → m ∉ single → r'[i]? = r[i]?) ∧
      (∀ r ∈ sorted, ∀ r' ∈ sorted, (∀ (i : Nat) (m : β), table[i]? = some m → m ∉ single → r[i]? = r'[i]?) → r = r') := by
  obtain ⟨g1, g2, g3, g4⟩ := new_spec table single
  set g := new table single with hg
  obtain ⟨rows, c1, c2, c3, c4⟩ := collect_extensions hS hT hs g.existential g1 hpos d
  have hag : ∀ r r' : List α, AgreeOn g.full r r' ↔ ∀ (i : Nat) (m : β), table[i]? = some m → m ∉ single → r[i]? = r'[i]? := by
    intro r r'
    constructor
    · intro h i m h1 h2; exact h i ((g2 i).2 ⟨m, h1, h2⟩)
    · intro h i hi
      obtain ⟨m, h1, h2⟩ := (g2 i).1 hi
      exact h i m h1 h2
  have hcov : ∀ r, RowsOf ch table.length r → ∃ r' ∈ rows.map (·.1), AgreeOn g.full r' r := by
    intro r hr
    obtain ⟨r', h1, h2⟩ := c3 r hr
    refine ⟨r', h1, fun i hi => ?_⟩
    have hlt := g3 i hi
    have h3 := congrArg (fun l : List α => l[i]?) h2
    simpa [List.getElem?_take, hlt] using h3
  have main : ∃ out, (if g.full.length ≠ table.length then keep g.full (rows.map (·.1)) [] else some (rows.map (·.1))) = some out ∧ (∀ r ∈ out, r ∈ rows.map (·.1)) ∧
      (∀ r ∈ rows.map (·.1), ∃ r' ∈ out, AgreeOn g.full r' r) ∧ ∀ r ∈ out, ∀ r' ∈ out, AgreeOn g.full r r' → r = r' := by
    by_cases hf : g.full.length = table.length
    · refine ⟨rows.map (·.1), by simp [hf], fun _ h => h, fun r hr => ⟨r, hr, fun _ _ => rfl⟩, fun r hr r' hr' h => ?_⟩
      have hall : ∀ i, i < table.length → i ∈ g.full := by
        intro i hi
        have hsub : g.full ⊆ List.range table.length := fun j hj => by
          have := g3 j hj
          simp; omega
        have hp : g.full.Perm (List.range table.length) := (g4.subperm hsub).perm_of_length_le (by simp [hf])
        exact hp.mem_iff.2 (by simpa using hi)
      refine List.ext_getElem? fun i => ?_
      by_cases hi : i < table.length
      · exact h i (hall i hi)
      · rw [List.getElem?_eq_none (by rw [(c2 r hr).1]; omega), List.getElem?_eq_none (by rw [(c2 r' hr').1]; omega)]
    · obtain ⟨out, k1, k2, -, k4, k5⟩ := keep_spec (full := g.full) (rows.map (·.1)) [] (fun r hr i hi => by
        have := g3 i hi
        rw [(c2 r hr).1]; omega)
      refine ⟨out, by simp only [ne_eq, hf, not_false_eq_true, if_true, k1], fun r hr => k2.subset hr, fun r hr => ?_, fun r hr r' hr' h => ?_⟩
      · rcases k4 r hr with ⟨_, h, _⟩ | h
        · cases h
        · exact h
      · by_contra hne
        haveI hsymm : Std.Symm fun r r' : List α => ¬ AgreeOn g.full r r' := ⟨fun a b h h' => h fun i hi => (h' i hi).symm⟩
        exact (List.Pairwise.forall k5) hr hr' hne h
  obtain ⟨out, o1, o2, o3, o4⟩ := main
  obtain ⟨t, sorted, h1, h2, h3, h4, h5⟩ := tableOf_rep hpos (rows := out) (fun r hr => (c2 r (o2 r hr)).1)
  refine ⟨t, sorted, ?_, h2, h3, h5, ?_, ?_, ?_⟩
  · rw [apply, c1]
    by_cases hf : g.full.length ≠ table.length
    · rw [if_pos hf] at o1
      simp only [Option.bind_eq_bind, Option.bind_some, if_pos hf, o1]
      exact h1
    · rw [if_neg hf, Option.some_inj] at o1
      simp only [Option.bind_eq_bind, Option.bind_some, if_neg hf, o1]
      exact h1
  · intro r hr
    exact c2 r (o2 r (h4.mem_iff.1 hr))
  · intro r hr
    obtain ⟨r1, h6, h7⟩ := hcov r hr
    obtain ⟨r2, h8, h9⟩ := o3 r1 h6
    exact ⟨r2, h4.mem_iff.2 h8, (hag r2 r).1 fun i hi => (h9 i hi).trans (h7 i hi)⟩
  · intro r hr r' hr' h
    exact o4 r (h4.mem_iff.1 hr) r' (h4.mem_iff.1 hr') ((hag r r').2 h)

end

/-! ## Example -/

section example_
attribute [local instance] natSVal

/-- columns `x, y, z`; only `y` is single -/
theorem new_example : new ['x', 'y', 'z'] ['y'] = ⟨[0, 2], 0⟩ := by decide
/-- only `x` is needed for all values -/
theorem new_example' : new ['x', 'y', 'z'] ['z', 'y'] = ⟨[0], 2⟩ := by decide

/-- from the table with rows (1,2,3), (4,5,6), (1,7,3), one of the first and last is dropped if `y` is single -/
theorem single_example : ∃ t t' sorted, tableOf 3 [[1, 2, 3], [4, 5, 6], [1, 7, 3]] = some t ∧
    (new ['x', 'y', 'z'] ['y']).apply GScan.ops 3 t.possibleTypes (GScan.new t) 0 = some t' ∧ Rep t' sorted ∧ [4, 5, 6] ∈ sorted ∧ ([1, 2, 3] ∈ sorted ↔ [1, 7, 3] ∉ sorted) := by
  obtain ⟨t, rows, h1, h2, h3, h4, h5⟩ := tableOf_rep (m := 3) (by omega) (rows := [[1, 2, 3], [4, 5, 6], [1, 7, 3]]) (by decide)
  have hS := GScan.simulates h3 h5
  have hT := treeOK_chOf h3 h5
  rw [h2] at hS hT
  have hl : ∀ r ∈ rows, r.length = 3 := fun r hr => by
    have := h4.mem_iff.mp hr
    simp at this; rcases this with rfl | rfl | rfl <;> rfl
  obtain ⟨t', sorted, e1, -, -, e4, e5, e6, e7⟩ := single_spec ['x', 'y', 'z'] ['y'] hS hT GScan.inv_new (by decide) 0
  have hm : ∀ r, RowsOf (chOf rows) 3 r ↔ r = [1, 2, 3] ∨ r = [4, 5, 6] ∨ r = [1, 7, 3] := fun r => by
    rw [rowsOf_chOf (by omega : 0 < 3) hl, h4.mem_iff]; simp
  have hrow : ∀ r ∈ sorted, r = [1, 2, 3] ∨ r = [4, 5, 6] ∨ r = [1, 7, 3] := fun r hr => (hm r).1 (e5 r hr)
  refine ⟨t, t', sorted, h1, e1, e4, ?_, ?_⟩
  · obtain ⟨r', h6, h7⟩ := e6 [4, 5, 6] ((hm _).2 (by simp))
    have h8 := h7 0 'x' (by simp) (by decide)
    rcases hrow r' h6 with rfl | rfl | rfl
    · simp at h8
    · exact h6
    · simp at h8
  · constructor
    · intro h6 h7
      have := e7 _ h6 _ h7 (fun i m hi hm => by
        match i with
        | 0 => rfl
        | 1 => simp at hi; subst hi; simp at hm
        | 2 => rfl
        | i + 3 => simp at hi)
      simp at this
    · intro h6
      obtain ⟨r', h7, h8⟩ := e6 [1, 2, 3] ((hm _).2 (by simp))
      have h9 := h8 0 'x' (by simp) (by decide)
      rcases hrow r' h7 with rfl | rfl | rfl
      · exact h7
      · simp at h9
      · exact absurd h7 h6

end example_

end GenSingle
end Verif
