import Verif.TriePlan
import Verif.ProjectReorder

/-!
# Storing a scan together with projections of it

Model of `Trie::from_partial_trie_scan_dependents` (`/repo/nemo-physical/src/tabular/trie.rs:433-552`): one pass over a
scan stores its rows and, for each of several selections of columns, the rows restricted to these columns.
-/

set_option linter.unusedSimpArgs false
set_option linter.unusedSectionVars false
set_option linter.unusedVariables false

namespace Verif
variable {α : Type} [SVal α]

/-- `last_used_layer` (trie.rs:442) -/
def lastUsedOf (vecs : List (List Nat)) : Nat := (vecs.flatten.max?).getD 0

/-- the table for one of the selections (trie.rs:486-490, 522-526, 540-549) -/
def dependentTable (vec : List Nat) (rows : List (List α)) : Option (Trie α) :=
  if vec.length = 0 then some (Trie.zeroArity true) else GenPR.build vec vec.length rows

/-- the columns that are not read (trie.rs:446-450).  For a scan without columns the subtraction underflows, which
panics if overflows are checked (they are not in release builds); the result is not used in this case. -/
def cutFor (arity : Nat) (vecs : List (List Nat)) (keep : Bool) : Nat :=
  if keep then 0 else arity - (lastUsedOf vecs + 1)

/-- the results for a scan with at least one row (trie.rs:529-551) -/
def dependentTables (arity : Nat) (vecs : List (List Nat)) (keep : Bool) (rows : List (List α × Nat)) :
    Option (Trie α × List (Trie α)) := do
  let deps ← vecs.mapM fun v => dependentTable v (rows.map (·.1))
  return (if keep then Trie.fromScanRows arity rows else Trie.empty 0, deps)

/-- `from_partial_trie_scan_dependents` (trie.rs:433-552); the outer option is a panic -/
def materializeDeps (s : AnyScan α) (cs : List Choice) (keep : Bool) (d : α) : Option (Trie α × List (Trie α)) :=
  let vecs := cs.map Choice.asVector
  let arity := s.I.arity s.s
  let cut := cutFor arity vecs keep
  if arity = 0 then some (Trie.zeroArity true, vecs.map fun _ => Trie.zeroArity true)
  else
    let cfg : RowCfg s.S α := ⟨s.I.toTrieOps, arity, s.I.types s.s, cut, arity - cut⟩
    (cfg.collect (cfg.new s.s d)).bind fun rows =>
      if rows.isEmpty then some (Trie.empty arity, vecs.map fun _ => Trie.empty arity)
      else dependentTables arity vecs keep rows

/-! ## Specification -/

/-- the rows restricted to the columns `vec`, in this order -/
def ProjRows (vec : List Nat) (rows : List α → Prop) (r : List α) : Prop :=
  ∃ x, rows x ∧ vec.map (fun i => x[i]?) = r.map some

/-! ## Proofs -/

theorem lastUsedOf_le {vecs : List (List Nat)} {v : List Nat} (hv : v ∈ vecs) {i : Nat} (hi : i ∈ v) :
    i ≤ lastUsedOf vecs := by
  have hm : i ∈ vecs.flatten := List.mem_flatten.mpr ⟨v, hv, hi⟩
  unfold lastUsedOf
  cases h : vecs.flatten.max? with
  | none => rw [List.max?_eq_none_iff] at h; rw [h] at hm; simp at hm
  | some a => rw [Option.getD_some]; exact (List.max?_eq_some_iff.mp h).2 i hm

theorem lastUsedOf_lt {vecs : List (List Nat)} {n : Nat} (hn : 0 < n) (h : ∀ v ∈ vecs, ∀ i ∈ v, i < n) :
    lastUsedOf vecs < n := by
  unfold lastUsedOf
  cases h' : vecs.flatten.max? with
  | none => exact hn
  | some a =>
    obtain ⟨v, hv, ha⟩ := List.mem_flatten.mp (List.max?_eq_some_iff.mp h').1
    exact h v hv a ha

theorem Trie.numRows_empty (n : Nat) : (Trie.empty n : Trie α).numRows = 0 := by
  cases n with
  | zero => rfl
  | succ n =>
    unfold Trie.numRows Trie.empty
    simp only
    rw [List.getLast?_replicate, if_neg (by omega)]
    rfl

theorem Plan.TableOK.empty_iff {t : Trie α} {n : Nat} {rows : List α → Prop} (h : Plan.TableOK t n rows) :
    t.numRows = 0 ↔ ∀ r, ¬ rows r := by
  rcases h with ⟨hn, ha, l, h1, h2, h3, h4⟩ | ⟨rfl, b, rfl, h⟩ | ⟨hz, h⟩
  · rw [Trie.numRows_spec h2 (by omega), List.length_eq_zero_iff]
    have hl : ∀ r, r ∈ level l t.arity ↔ rows r := fun r => by
      rw [Trie.level_rows (by omega) (by rw [ha]; exact h3), h4]
    rw [List.eq_nil_iff_forall_not_mem]
    exact ⟨fun h r hr => h r ((hl r).mpr hr), fun h r hr => h r ((hl r).mp hr)⟩
  · cases b with
    | false => simp [Trie.numRows, Trie.zeroArity, h]
    | true =>
      simp only [Trie.numRows, Trie.zeroArity]
      constructor
      · intro h0; simp at h0
      · intro h0; exact absurd ((h []).mpr ⟨rfl, rfl⟩) (h0 [])
  · exact ⟨fun _ => h, fun _ => hz⟩

theorem Plan.TableOK.congr {t : Trie α} {n : Nat} {rows rows' : List α → Prop} (h : Plan.TableOK t n rows)
    (he : ∀ r, rows r ↔ rows' r) : Plan.TableOK t n rows' := by
  have : rows = rows' := funext fun r => propext (he r)
  rw [← this]; exact h

theorem Plan.TableOK.length {t : Trie α} {n : Nat} {rows : List α → Prop} (h : Plan.TableOK t n rows) {r : List α}
    (hr : rows r) : r.length = n := by
  rcases h with ⟨hn, ha, l, h1, h2, h3, h4⟩ | ⟨rfl, b, rfl, h⟩ | ⟨hz, h⟩
  · exact h3 r ((h4 r).mpr hr)
  · rw [((h r).mp hr).1]; rfl
  · exact absurd hr (h r)

/-- **C10.** Storing a scan keeps its rows. -/
theorem materialize_tableOK {s : AnyScan α} {m : Mode} {n : Nat} {rows : List α → Prop} (h : Tab m (some s) n rows)
    (d : α) : ∃ t, materialize s.I.toTrieOps (s.I.arity s.s) (s.I.types s.s) s.s 0 d = some t ∧ Plan.TableOK t n rows := by
  obtain ⟨ha, C, R, hS, -, -, hT, hR, hrows⟩ := h
  rw [ha]
  by_cases hn : n = 0
  · subst hn
    refine ⟨Trie.zeroArity true, by unfold materialize; rw [if_pos rfl]; rfl, .inr (.inl ⟨rfl, true, rfl, fun r => ?_⟩)⟩
    rw [← hrows]
    unfold RowsOf
    rw [List.length_eq_zero_iff]
    constructor
    · exact fun h => ⟨h.1, rfl⟩
    · rintro ⟨rfl, -⟩; exact ⟨rfl, trivial⟩
  · obtain ⟨t, h1, h2, h3, h4⟩ := materialize_rep hS hT hR 0 (by omega) d
    refine ⟨t, h1, .inl ⟨by omega, h2, _, (extRows_sorted hT _ _).imp le_of_lt, h3, fun r hr => ?_, fun r => ?_⟩⟩
    · exact ((mem_extRows hT (by omega)).mp hr).1
    · rw [mem_extRows hT (by omega), ← hrows]
      simp only [Nat.sub_zero, Nat.add_zero]
      constructor
      · rintro ⟨hl, x, hx⟩
        have : x = [] := List.eq_nil_of_length_eq_zero (by have := hx.1; simp at this; omega)
        rw [this, List.append_nil] at hx
        exact hx
      · intro hx
        exact ⟨hx.1, [], by rw [List.append_nil]; exact hx⟩

theorem dependentTable_ok {vec : List Nat} {n last : Nat} (hvec : ∀ i ∈ vec, i ≤ last) (hlast : last < n)
    {rows : List α → Prop} (hlen : ∀ r, rows r → r.length = n) {pre : List (List α)} (hne : pre ≠ [])
    {w : Nat} (hw : last < w) (hwn : w ≤ n)
    (hpre : ∀ r, r ∈ pre ↔ r.length = w ∧ ∃ x, rows (r ++ x)) :
    ∃ t, dependentTable vec pre = some t ∧ Plan.TableOK t vec.length (ProjRows vec rows) := by
  unfold dependentTable
  by_cases h0 : vec.length = 0
  · rw [if_pos h0]
    have hv : vec = [] := List.eq_nil_of_length_eq_zero h0
    subst hv
    refine ⟨_, rfl, .inr (.inl ⟨rfl, true, rfl, fun r => ?_⟩)⟩
    obtain ⟨r0, hr0⟩ := List.exists_mem_of_ne_nil _ hne
    obtain ⟨-, x, hx⟩ := (hpre r0).mp hr0
    unfold ProjRows
    constructor
    · rintro ⟨x, -, he⟩
      refine ⟨?_, rfl⟩
      have := congrArg List.length he
      simp at this
      exact List.eq_nil_of_length_eq_zero this.symm
    · rintro ⟨rfl, -⟩; exact ⟨_, hx, rfl⟩
  · rw [if_neg h0]
    obtain ⟨d⟩ : Nonempty α := by
      obtain ⟨r0, hr0⟩ := List.exists_mem_of_ne_nil _ hne
      have := ((hpre r0).mp hr0).1
      cases r0 with
      | nil => simp at this; omega
      | cons a l => exact ⟨a⟩
    set f : List α → List α := fun r => vec.map fun i => r.getD i d with hf
    have hmap : pre.mapM (fun r => vec.mapM fun i => r[i]?) = some (pre.map f) := by
      refine Permut.mapM_option_eq _ _ _ ?_
      intro r hr
      refine Permut.mapM_option_eq _ _ _ ?_
      intro i hi
      have h1 := hvec i hi
      have h2 := ((hpre r).mp hr).1
      rw [List.getD_eq_getElem?_getD, List.getElem?_eq_getElem (by omega)]; rfl
    have hl : ∀ r ∈ pre.map f, r.length = vec.length := by
      intro r hr
      obtain ⟨x, _, rfl⟩ := List.mem_map.1 hr
      simp [hf]
    obtain ⟨t, sorted, h1, h2, h3, h4, h5⟩ := tableOf_rep (by omega) hl
    refine ⟨t, by unfold GenPR.build; rw [hmap]; exact h1,
      .inl ⟨by omega, h2, sorted, h3, h5, fun r hr => hl r (h4.mem_iff.1 hr), fun r => ?_⟩⟩
    rw [h4.mem_iff, List.mem_map]
    unfold ProjRows
    have key : ∀ x : List α, x.length = n → (vec.map fun i => x[i]?) = (f (x.take w)).map some := by
      intro x hx
      rw [hf, List.map_map]
      refine List.map_congr_left fun i hi => ?_
      have h1 := hvec i hi
      simp only [Function.comp, List.getD_eq_getElem?_getD]
      rw [List.getElem?_take_of_lt (by omega), List.getElem?_eq_getElem (by omega)]; rfl
    constructor
    · rintro ⟨y, hy, rfl⟩
      obtain ⟨hyl, x, hx⟩ := (hpre y).1 hy
      refine ⟨y ++ x, hx, ?_⟩
      rw [key _ (hlen _ hx), List.take_left' hyl]
    · rintro ⟨x, hx, hxr⟩
      have hxl := hlen x hx
      refine ⟨x.take w, (hpre _).2 ⟨by simp; omega, x.drop w, by rw [List.take_append_drop]; exact hx⟩, ?_⟩
      rw [key x hxl] at hxr
      exact List.map_injective_iff.2 (Option.some_injective _) hxr

theorem projRows_length {vec : List Nat} {rows : List α → Prop} {r : List α} (h : ProjRows vec rows r) :
    r.length = vec.length := by
  obtain ⟨x, -, he⟩ := h
  have := congrArg List.length he
  simpa using this.symm

/-- **C10.** Storing a scan together with selections of its columns: the table (if it is kept) has the rows of the scan, and
the table of each selection has exactly the rows restricted to the selected columns. -/
theorem materializeDeps_tables {s : AnyScan α} {m : Mode} {n : Nat} {rows : List α → Prop} (h : Tab m (some s) n rows)
    (cs : List Choice) (hcs : ∀ c ∈ cs, ∀ i ∈ c.asVector, i < n) (keep : Bool) (d : α) :
    ∃ t ts, materializeDeps s cs keep d = some (t, ts) ∧ (keep = true → Plan.TableOK t n rows) ∧
      ((∀ r, ¬ rows r) → t.numRows = 0) ∧
      List.Forall₂ (fun (c : Choice) t' => Plan.TableOK t' c.asVector.length (ProjRows c.asVector rows)) cs ts := by
  have h' := h
  obtain ⟨ha, C, R, hS, -, -, hT, hR, hrows⟩ := h
  have hlen : ∀ r, rows r → r.length = n := fun r hr => ((hrows r).mpr hr).1
  unfold materializeDeps
  simp only [ha]
  by_cases hn : n = 0
  · subst hn
    rw [if_pos rfl]
    have hall : ∀ r, rows r ↔ r = [] := by
      intro r
      rw [← hrows]
      unfold RowsOf
      rw [List.length_eq_zero_iff]
      exact ⟨fun h => h.1, by rintro rfl; exact ⟨rfl, trivial⟩⟩
    refine ⟨_, _, rfl, fun _ => .inr (.inl ⟨rfl, true, rfl, fun r => by rw [hall]; simp⟩), ?_, ?_⟩
    · exact fun h0 => absurd ((hall []).mpr rfl) (h0 [])
    · rw [List.map_map]
      clear h'
      induction cs with
      | nil => exact .nil
      | cons c cs ih =>
        refine .cons ?_ (ih fun c hc => hcs c (List.mem_cons_of_mem _ hc))
        have hv : c.asVector = [] := by
          apply List.eq_nil_iff_forall_not_mem.mpr
          intro i hi
          exact absurd (hcs c List.mem_cons_self i hi) (by omega)
        rw [hv]
        refine .inr (.inl ⟨rfl, true, rfl, fun r => ?_⟩)
        unfold ProjRows
        constructor
        · rintro ⟨x, -, he⟩
          have := congrArg List.length he
          simp at this
          exact ⟨List.eq_nil_of_length_eq_zero this.symm, rfl⟩
        · rintro ⟨rfl, -⟩; exact ⟨[], (hall []).mpr rfl, rfl⟩
  · rw [if_neg hn]
    set vecs := cs.map Choice.asVector with hvecs
    have hmem : ∀ v ∈ vecs, ∀ i ∈ v, i < n := by
      intro v hv i hi
      obtain ⟨c, hc, rfl⟩ := List.mem_map.mp hv
      exact hcs c hc i hi
    have hlast : lastUsedOf vecs < n := lastUsedOf_lt (by omega) hmem
    have hcut : cutFor n vecs keep < n := by unfold cutFor; split <;> omega
    have hw : lastUsedOf vecs < n - cutFor n vecs keep := by unfold cutFor; split <;> omega
    obtain ⟨rs, hr, hrs⟩ := collect_rows hS hT hR (cutFor n vecs keep) hcut d
    have hpre : ∀ r, r ∈ rs.map (·.1) ↔ r.length = n - cutFor n vecs keep ∧ ∃ x, rows (r ++ x) := by
      intro r
      rw [hrs, mem_extRows hT (by omega), show n - cutFor n vecs keep + cutFor n vecs keep = n by omega]
      simp only [hrows]
    rw [hr, Option.bind_some]
    cases he : rs.isEmpty with
    | true =>
      rw [if_pos rfl]
      have h0 : rs = [] := List.isEmpty_iff.mp he
      have hno : ∀ r, ¬ rows r := by
        intro r hr
        have := (hpre (r.take (n - cutFor n vecs keep))).mpr ⟨by rw [List.length_take, hlen r hr]; omega,
          r.drop (n - cutFor n vecs keep), by rw [List.take_append_drop]; exact hr⟩
        rw [h0] at this
        simp at this
      refine ⟨_, _, rfl, fun _ => .inr (.inr ⟨Trie.numRows_empty n, hno⟩), fun _ => Trie.numRows_empty n, ?_⟩
      rw [hvecs, List.map_map]
      clear h' hr hpre hw hcut hlast hmem hrs hvecs
      induction cs with
      | nil => exact .nil
      | cons c cs ih =>
        refine .cons (.inr (.inr ⟨Trie.numRows_empty n, ?_⟩)) (ih fun c hc => hcs c (List.mem_cons_of_mem _ hc))
        rintro r ⟨x, hx, -⟩
        exact hno x hx
    | false =>
      rw [if_neg (by simp)]
      have hne : rs.map (·.1) ≠ [] := by
        intro h0
        rw [List.map_eq_nil_iff.mp h0] at he
        simp at he
      have hdep : ∀ c ∈ cs, ∃ t, dependentTable c.asVector (rs.map (·.1)) = some t ∧
          Plan.TableOK t c.asVector.length (ProjRows c.asVector rows) := fun c hc =>
        dependentTable_ok (fun i hi => lastUsedOf_le (List.mem_map.mpr ⟨c, hc, rfl⟩) hi) hlast hlen hne hw (by omega) hpre
      have hall : ∃ ts, vecs.mapM (fun v => dependentTable v (rs.map (·.1))) = some ts ∧
          List.Forall₂ (fun (c : Choice) t' => Plan.TableOK t' c.asVector.length (ProjRows c.asVector rows)) cs ts := by
        rw [hvecs]
        clear h' hr hpre hw hcut hlast hmem hrs hvecs
        induction cs with
        | nil => exact ⟨[], rfl, .nil⟩
        | cons c cs ih =>
          obtain ⟨ts, e1, e2⟩ := ih (fun c hc => hcs c (List.mem_cons_of_mem _ hc))
            (fun c hc => hdep c (List.mem_cons_of_mem _ hc))
          obtain ⟨t, e3, e4⟩ := hdep c List.mem_cons_self
          refine ⟨t :: ts, ?_, .cons e4 e2⟩
          rw [List.map_cons, List.mapM_cons, e3]
          simp only [Option.bind_eq_bind, Option.bind_some, e1]
          rfl
      obtain ⟨ts, e1, e2⟩ := hall
      refine ⟨_, ts, by unfold dependentTables; rw [e1]; rfl, ?_, ?_, e2⟩
      · intro hk
        subst hk
        rw [if_pos rfl]
        obtain ⟨t, f1, f2⟩ := materialize_tableOK h' d
        have hc0 : cutFor n vecs true = 0 := rfl
        rw [hc0] at hr
        unfold materialize at f1
        rw [ha, if_neg (by omega), hr] at f1
        have : Trie.fromScanRows n rs = t := by simpa using f1
        rw [this]
        exact f2
      · intro hno
        obtain ⟨r0, hr0⟩ := List.exists_mem_of_ne_nil _ hne
        obtain ⟨-, x, hx⟩ := (hpre r0).mp hr0
        exact absurd hx (hno _)

end Verif
