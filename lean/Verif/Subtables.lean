import Mathlib.Data.List.Sort
import Mathlib.Data.Set.Basic
import Mathlib.Tactic.Linarith

/-!
# Subtables of a predicate

Model of `SubtableHandler` (/repo/nemo/src/table_manager.rs:31-197): the tables of a predicate, one per
step in which facts were added, and additional tables that contain the union of several consecutive
ones.  `cover_range` selects the tables that are read for a range of steps.
-/

set_option linter.unusedSimpArgs false
set_option linter.unusedSectionVars false

namespace Verif

/-- `SubtableRange` (table_manager.rs:31-47): indices into the list of single tables. -/
structure SRange where
  start : Nat
  len : Nat
deriving DecidableEq

/-- `end` (table_manager.rs:44-46); only called for ranges that are not empty. -/
def SRange.stop (r : SRange) : Nat := r.start + r.len - 1

/-- `SubtableHandler` (table_manager.rs:66-70); `ι` are the identifiers of the tables. -/
structure Handler (ι : Type) where
  single : List (Nat × ι) := []
  combined : List (SRange × ι) := []

namespace Handler
variable {ι : Type}

/-- The loop of `normalize_range` (table_manager.rs:86-99) over the steps, from index `idx`. -/
def normLoop (lo hi : Nat) : List Nat → Nat → Nat → Nat → Bool → SRange
  | [], _, start, len, _ => ⟨start, len⟩
  | step :: rest, idx, start, len, set =>
    let first := !set && decide (lo ≤ step)
    let start := if first then idx else start
    let set := set || first
    if set && decide (hi ≤ step) then ⟨start, len⟩
    else normLoop lo hi rest (idx + 1) start (if set then len + 1 else len) set

/-- `normalize_range` (table_manager.rs:81-105). -/
def normalizeRange (h : Handler ι) (lo hi : Nat) : SRange :=
  normLoop lo hi (h.single.map (·.1)) 0 0 0 false

/-- `last_step` (table_manager.rs:111-113). -/
def lastStep (h : Handler ι) : Option Nat := (h.single.map (·.1)).getLast?

/-- `add_single_table` (table_manager.rs:127-130). -/
def addSingle (h : Handler ι) (step : Nat) (id : ι) : Handler ι :=
  { h with single := h.single ++ [(step, id)] }

/-- The order of `SubtableRange` (table_manager.rs:49-64). -/
def leRange (a b : SRange × ι) : Bool :=
  decide (a.1.start < b.1.start) || (a.1.start == b.1.start && decide (a.1.len ≤ b.1.len))

/-- `add_combined_table` (table_manager.rs:132-142). -/
def addCombined (h : Handler ι) (lo hi : Nat) (id : ι) : Handler ι :=
  let cover := h.normalizeRange lo hi
  if cover.len ≤ 1 then h
  else { h with combined := (h.combined ++ [(cover, id)]).mergeSort leRange }

/-- The better one of two intervals (table_manager.rs:177-183). -/
def better (best : Option (SRange × ι)) (x : SRange × ι) : Option (SRange × ι) :=
  match best with
  | some b => if b.1.stop < x.1.stop then some x else some b
  | none => some x

/-- The inner loop of `cover_range` (table_manager.rs:165-184): returns the best interval and the
intervals that have not been visited. -/
def bestLoop (tlo thi cur : Nat) : List (SRange × ι) → Option (SRange × ι) →
    Option (SRange × ι) × List (SRange × ι)
  | [], best => (best, [])
  | (r, id) :: rest, best =>
    if cur < r.start then (best, rest)
    else if r.start < tlo ∨ thi < r.stop then bestLoop tlo thi cur rest best
    else bestLoop tlo thi cur rest (better best (r, id))

theorem bestLoop_length (tlo thi cur : Nat) (l : List (SRange × ι)) (best : Option (SRange × ι)) :
    (bestLoop tlo thi cur l best).2.length ≤ l.length := by
  induction l generalizing best with
  | nil => simp [bestLoop]
  | cons x l ih =>
    obtain ⟨r, id⟩ := x
    rw [bestLoop]
    split
    · simp
    · split
      · exact Nat.le_succ_of_le (ih _)
      · exact Nat.le_succ_of_le (ih _)

theorem bestLoop_some {tlo thi cur : Nat} {l : List (SRange × ι)} {best b : Option (SRange × ι)}
    {l' : List (SRange × ι)} (h : bestLoop tlo thi cur l best = (b, l')) (hb : best = none)
    (hs : b.isSome) : l'.length < l.length := by
  induction l with
  | nil => simp [bestLoop] at h; obtain ⟨rfl, rfl⟩ := h; subst hb; simp at hs
  | cons x l ih =>
    obtain ⟨r, id⟩ := x
    rw [bestLoop] at h
    subst hb
    split at h
    · simp only [Prod.mk.injEq] at h; rw [← h.1] at hs; simp at hs
    · split at h
      · exact Nat.lt_succ_of_lt (ih h)
      · have := bestLoop_length tlo thi cur l (better none (r, id))
        rw [h] at this
        exact Nat.lt_succ_of_le this

/-- The outer loop of `cover_range` (table_manager.rs:162-193); `rest` are the combined tables after
`interval_index`.  `none` is the panic of an index outside of `single`. -/
def coverLoop (h : Handler ι) (tlo thi cur : Nat) (rest : List (SRange × ι)) : Option (List ι) :=
  if thi < cur then some []
  else
    match hb : bestLoop tlo thi cur rest none with
    | (some (r, id), rest') => do
      let l ← coverLoop h tlo thi (r.stop + 1) rest'
      return id :: l
    | (none, rest') => do
      let x ← h.single[cur]?
      let l ← coverLoop h tlo thi (cur + 1) rest'
      return x.2 :: l
termination_by rest.length * (thi + 2) + (thi + 1 - cur)
decreasing_by
  · have h1 := Nat.mul_le_mul_right (thi + 2) (bestLoop_some hb rfl rfl)
    rw [Nat.succ_mul] at h1
    omega
  · have h1 := bestLoop_length tlo thi cur rest none
    rw [hb] at h1
    have h2 : rest'.length * (thi + 2) ≤ rest.length * (thi + 2) := Nat.mul_le_mul_right (thi + 2) h1
    omega

/-- `cover_range` (table_manager.rs:144-196). -/
def coverRange (h : Handler ι) (lo hi : Nat) : Option (List ι) :=
  if h.single = [] then some []
  else
    let r := h.normalizeRange lo hi
    if r.len = 0 then some []
    else coverLoop h r.start r.stop r.start h.combined

/-! ## Correctness -/

/-- Invariant: the steps are ascending and the combined tables contain, with respect to the contents
`rows` of tables, the union of the single tables in their range. -/
structure OK {β : Type} (h : Handler ι) (rows : ι → Set β) : Prop where
  steps : (h.single.map (·.1)).Pairwise (· < ·)
  comb : ∀ c ∈ h.combined, 0 < c.1.len ∧ c.1.start + c.1.len ≤ h.single.length ∧
    rows c.2 = {x | ∃ i, c.1.start ≤ i ∧ i < c.1.start + c.1.len ∧
      ∃ e, h.single[i]? = some e ∧ x ∈ rows e.2}

theorem normLoop_set (lo hi : Nat) : ∀ (l : List Nat), l.Pairwise (· < ·) → (∀ s ∈ l, lo ≤ s) →
    ∀ idx start len, normLoop lo hi l idx start len true = ⟨start, len + (l.filter (· < hi)).length⟩
  | [], _, _, idx, start, len => by simp [normLoop]
  | s :: l, hs, hl, idx, start, len => by
    rw [normLoop]
    simp only [Bool.not_true, Bool.false_and, Bool.or_false, Bool.true_and, decide_eq_true_eq,
      if_true, Bool.false_eq_true, if_false, Bool.true_or]
    have hl' := List.pairwise_cons.mp hs
    by_cases h : hi ≤ s
    · rw [if_pos h]
      have : (s :: l).filter (· < hi) = [] := by
        rw [List.filter_eq_nil_iff]
        intro x hx
        rcases List.mem_cons.mp hx with rfl | hx
        · simp; omega
        · have := hl'.1 x hx; simp; omega
      rw [this]; simp
    · rw [if_neg h, normLoop_set lo hi l hl'.2 (fun x hx => hl x (List.mem_cons_of_mem _ hx))]
      simp only [SRange.mk.injEq, true_and]
      rw [List.filter_cons_of_pos (by simp; omega)]
      simp; omega

theorem normLoop_unset (lo hi : Nat) : ∀ (l : List Nat), l.Pairwise (· < ·) → ∀ idx,
    normLoop lo hi l idx 0 0 false =
      if (l.filter fun s => decide (lo ≤ s)) = [] then ⟨0, 0⟩
      else ⟨idx + (l.filter (· < lo)).length,
        (l.filter fun s => decide (lo ≤ s) && decide (s < hi)).length⟩
  | [], _, idx => by simp [normLoop]
  | s :: l, hs, idx => by
    have hl' := List.pairwise_cons.mp hs
    rw [normLoop]
    simp only [Bool.not_false, Bool.true_and, Bool.false_or, Bool.and_eq_true, decide_eq_true_eq]
    by_cases h : lo ≤ s
    · have hlo : ∀ x ∈ l, lo ≤ x := fun x hx => by have := hl'.1 x hx; omega
      have hne : (s :: l).filter (fun s => decide (lo ≤ s)) ≠ [] := by
        rw [List.filter_cons_of_pos (by simpa using h)]; simp
      have h0 : (s :: l).filter (· < lo) = [] := by
        rw [List.filter_eq_nil_iff]
        intro x hx
        rcases List.mem_cons.mp hx with rfl | hx
        · simpa using h
        · simpa using hlo x hx
      have h1 : (s :: l).filter (fun s => decide (lo ≤ s) && decide (s < hi)) =
          (s :: l).filter (fun s => decide (s < hi)) := by
        apply List.filter_congr
        intro x hx
        have : lo ≤ x := by
          rcases List.mem_cons.mp hx with rfl | hx
          · exact h
          · exact hlo x hx
        simp [this]
      rw [if_neg hne, h0, h1]
      simp only [h, decide_true, if_true, List.length_nil, Nat.add_zero, true_and]
      by_cases h2 : hi ≤ s
      · rw [if_pos h2]
        have : (s :: l).filter (fun s => decide (s < hi)) = [] := by
          rw [List.filter_eq_nil_iff]
          intro x hx
          rcases List.mem_cons.mp hx with rfl | hx
          · simpa using h2
          · have := hl'.1 x hx; simp; omega
        rw [this]; rfl
      · rw [if_neg h2, normLoop_set lo hi l hl'.2 hlo]
        rw [List.filter_cons_of_pos (by simp; omega)]
        simp; omega
    · rw [if_neg (by simp [h])]
      simp only [h, decide_false, Bool.false_eq_true, if_false]
      rw [normLoop_unset lo hi l hl'.2]
      rw [List.filter_cons_of_neg (by simpa using h), List.filter_cons_of_pos (p := (· < lo)) (by simp; omega),
        List.filter_cons_of_neg (p := fun s => decide (lo ≤ s) && decide (s < hi)) (by simp [h])]
      simp only [List.length_cons]
      split
      · rfl
      · simp; omega

/-- In an ascending list, the elements in an interval are consecutive. -/
theorem getElem?_interval {l : List Nat} (hl : l.Pairwise (· < ·)) {lo hi i s : Nat}
    (hi' : l[i]? = some s) :
    (lo ≤ s ∧ s < hi) ↔ (l.filter (· < lo)).length ≤ i ∧
      i < (l.filter (· < lo)).length + (l.filter fun s => decide (lo ≤ s) && decide (s < hi)).length := by
  induction l generalizing i with
  | nil => simp at hi'
  | cons a l ih =>
    have hl' := List.pairwise_cons.mp hl
    cases i with
    | zero =>
      simp at hi'
      subst hi'
      by_cases h1 : a < lo
      · rw [List.filter_cons_of_pos (by simpa using h1)]; simp; omega
      · have h0 : l.filter (· < lo) = [] := by
          rw [List.filter_eq_nil_iff]
          intro x hx; have := hl'.1 x hx; simp; omega
        rw [List.filter_cons_of_neg (by simpa using h1), h0]
        by_cases h2 : a < hi
        · rw [List.filter_cons_of_pos (by simp; omega)]; simp; omega
        · have h3 : l.filter (fun s => decide (lo ≤ s) && decide (s < hi)) = [] := by
            rw [List.filter_eq_nil_iff]
            intro x hx; have := hl'.1 x hx; simp; omega
          rw [List.filter_cons_of_neg (by simp; omega), h3]; simp; omega
    | succ i =>
      rw [List.getElem?_cons_succ] at hi'
      have ih' := ih hl'.2 hi'
      have hs : a < s := hl'.1 s (List.mem_of_getElem? hi')
      by_cases h1 : a < lo
      · rw [List.filter_cons_of_pos (by simpa using h1),
          List.filter_cons_of_neg (p := fun s => decide (lo ≤ s) && decide (s < hi)) (by simp; omega), ih']
        simp; omega
      · have h0 : l.filter (· < lo) = [] := by
          rw [List.filter_eq_nil_iff]
          intro x hx; have := hl'.1 x hx; simp; omega
        rw [h0] at ih'
        rw [List.filter_cons_of_neg (by simpa using h1), h0]
        by_cases h2 : a < hi
        · rw [List.filter_cons_of_pos (by simp; omega), ih']; simp
        · rw [List.filter_cons_of_neg (by simp; omega)]
          have h3 : l.filter (fun s => decide (lo ≤ s) && decide (s < hi)) = [] := by
            rw [List.filter_eq_nil_iff]
            intro x hx; have := hl'.1 x hx; simp; omega
          rw [h3]; simp; omega

/-- `normalize_range` selects exactly the tables whose step is in the range. -/
theorem normalizeRange_spec {h : Handler ι} (hs : (h.single.map (·.1)).Pairwise (· < ·)) (lo hi : Nat) :
    (h.normalizeRange lo hi).start + (h.normalizeRange lo hi).len ≤ h.single.length ∧
    ∀ (i : Nat) (e : Nat × ι), h.single[i]? = some e → ((lo ≤ e.1 ∧ e.1 < hi) ↔
      (h.normalizeRange lo hi).start ≤ i ∧
        i < (h.normalizeRange lo hi).start + (h.normalizeRange lo hi).len) := by
  rw [normalizeRange, normLoop_unset lo hi _ hs]
  have hlen : ∀ l : List Nat, (l.filter (· < lo)).length +
      (l.filter fun s => decide (lo ≤ s) && decide (s < hi)).length ≤ l.length := by
    intro l
    induction l with
    | nil => simp
    | cons a l ih =>
      by_cases h1 : a < lo
      · rw [List.filter_cons_of_pos (by simpa using h1), List.filter_cons_of_neg (by simp; omega)]
        simp; omega
      · rw [List.filter_cons_of_neg (by simpa using h1)]
        by_cases h2 : a < hi
        · rw [List.filter_cons_of_pos (by simp; omega)]; simp; omega
        · rw [List.filter_cons_of_neg (by simp; omega)]; simp; omega
  split
  · rename_i hnone
    refine ⟨by simp, fun i e he => ?_⟩
    have : e.1 ∈ h.single.map (·.1) := List.mem_map.mpr ⟨e, List.mem_of_getElem? he, rfl⟩
    rw [List.filter_eq_nil_iff] at hnone
    have := hnone _ this
    simp at this ⊢
    omega
  · refine ⟨by simpa using hlen (h.single.map (·.1)), fun i e he => ?_⟩
    have : (h.single.map (·.1))[i]? = some e.1 := by simp [he]
    simpa using getElem?_interval (lo := lo) (hi := hi) hs this

theorem bestLoop_mem {tlo thi cur : Nat} {l : List (SRange × ι)} {best : Option (SRange × ι)}
    {b : SRange × ι} {l' : List (SRange × ι)} (h : bestLoop tlo thi cur l best = (some b, l')) :
    (some b = best) ∨ (b ∈ l ∧ b.1.start ≤ cur ∧ tlo ≤ b.1.start ∧ b.1.stop ≤ thi) := by
  induction l generalizing best with
  | nil => simp [bestLoop] at h; exact .inl h.1.symm
  | cons x l ih =>
    obtain ⟨r, id⟩ := x
    rw [bestLoop] at h
    split at h
    · simp only [Prod.mk.injEq] at h; exact .inl h.1.symm
    · split at h
      · rcases ih h with h | ⟨h1, h2⟩
        · exact .inl h
        · exact .inr ⟨List.mem_cons_of_mem _ h1, h2⟩
      · rcases ih h with h | ⟨h1, h2⟩
        · rw [better.eq_def] at h
          split at h
          · split at h
            · cases h; exact .inr ⟨by simp, by simp only; omega, by simp only; omega, by simp only; omega⟩
            · exact .inl h
          · cases h; exact .inr ⟨by simp, by simp only; omega, by simp only; omega, by simp only; omega⟩
        · exact .inr ⟨List.mem_cons_of_mem _ h1, h2⟩

theorem bestLoop_suffix (tlo thi cur : Nat) (l : List (SRange × ι)) (best : Option (SRange × ι)) :
    ∀ x ∈ (bestLoop tlo thi cur l best).2, x ∈ l := by
  induction l generalizing best with
  | nil => simp [bestLoop]
  | cons y l ih =>
    obtain ⟨r, id⟩ := y
    rw [bestLoop]
    split
    · exact fun x hx => List.mem_cons_of_mem _ hx
    · split
      · exact fun x hx => List.mem_cons_of_mem _ (ih _ x hx)
      · exact fun x hx => List.mem_cons_of_mem _ (ih _ x hx)

theorem coverLoop_spec {β : Type} {h : Handler ι} {rows : ι → Set β} (hok : h.OK rows) {tlo thi : Nat}
    (hthi : thi < h.single.length) (cur : Nat) (rest : List (SRange × ι))
    (hrest : ∀ c ∈ rest, c ∈ h.combined) (hcur : tlo ≤ cur) :
    ∃ ids, coverLoop h tlo thi cur rest = some ids ∧
      (∀ id ∈ ids, ∀ x ∈ rows id, ∃ i, tlo ≤ i ∧ i ≤ thi ∧ ∃ e, h.single[i]? = some e ∧ x ∈ rows e.2) ∧
      (∀ i, cur ≤ i → i ≤ thi → ∀ e, h.single[i]? = some e → ∀ x ∈ rows e.2, ∃ id ∈ ids, x ∈ rows id) := by
  induction cur, rest using coverLoop.induct (ι := ι) (tlo := tlo) (thi := thi) with
  | case1 cur rest hlt =>
    refine ⟨[], by rw [coverLoop, if_pos hlt], by simp, fun i h1 h2 => by omega⟩
  | case2 cur rest hlt r id rest' hb ih =>
    rcases bestLoop_mem hb with h0 | ⟨h1, h2, h3, h4⟩
    · cases h0
    have hsuf : ∀ c ∈ rest', c ∈ h.combined := fun c hc => by
      have := bestLoop_suffix tlo thi cur rest none c (by rw [hb]; exact hc)
      exact hrest c this
    obtain ⟨c1, c2, c3⟩ := hok.comb _ (hrest _ h1)
    simp only at h2 h3 h4 c1 c2 c3
    obtain ⟨ids, e1, e2, e3⟩ := ih hsuf (by rw [SRange.stop]; omega)
    refine ⟨id :: ids, ?_, ?_, ?_⟩
    · rw [coverLoop, if_neg hlt]
      split
      · rename_i r' id' rest'' hb'
        rw [hb'] at hb
        simp only [Prod.mk.injEq, Option.some.injEq] at hb
        obtain ⟨⟨rfl, rfl⟩, rfl⟩ := hb
        simp [e1]
      · rename_i rest'' hb'
        rw [hb'] at hb; simp at hb
    · intro id' hid' x hx
      rcases List.mem_cons.mp hid' with rfl | hid'
      · rw [c3] at hx
        obtain ⟨i, h5, h6, e, h7, h8⟩ := hx
        rw [SRange.stop] at h4
        exact ⟨i, by omega, by omega, e, h7, h8⟩
      · exact e2 id' hid' x hx
    · intro i h5 h6 e h7 x hx
      by_cases hi : i < r.stop + 1
      · refine ⟨id, by simp, ?_⟩
        rw [c3]
        rw [SRange.stop] at hi
        exact ⟨i, by omega, by omega, e, h7, hx⟩
      · obtain ⟨id', h8, h9⟩ := e3 i (by omega) h6 e h7 x hx
        exact ⟨id', List.mem_cons_of_mem _ h8, h9⟩
  | case3 cur rest hlt rest' hb ih =>
    have hsuf : ∀ c ∈ rest', c ∈ h.combined := fun c hc => by
      have := bestLoop_suffix tlo thi cur rest none c (by rw [hb]; exact hc)
      exact hrest c this
    obtain ⟨ids, e1, e2, e3⟩ := ih hsuf (by omega)
    obtain ⟨y, hy⟩ : ∃ y, h.single[cur]? = some y :=
      ⟨_, List.getElem?_eq_getElem (by omega)⟩
    refine ⟨y.2 :: ids, ?_, ?_, ?_⟩
    · rw [coverLoop, if_neg hlt]
      split
      · rename_i r' id' rest'' hb'
        rw [hb'] at hb; simp at hb
      · rename_i rest'' hb'
        rw [hb'] at hb
        simp only [Prod.mk.injEq, true_and] at hb
        subst hb
        simp [hy, e1]
    · intro id' hid' x hx
      rcases List.mem_cons.mp hid' with rfl | hid'
      · exact ⟨cur, hcur, by omega, y, hy, hx⟩
      · exact e2 id' hid' x hx
    · intro i h5 h6 e h7 x hx
      rcases Nat.lt_or_ge cur i with hi | hi
      · obtain ⟨id', h8, h9⟩ := e3 i hi h6 e h7 x hx
        exact ⟨id', List.mem_cons_of_mem _ h8, h9⟩
      · have : i = cur := by omega
        subst this
        rw [hy] at h7; cases h7
        exact ⟨y.2, by simp, hx⟩

/-- The tables selected by `cover_range` contain together exactly the facts of the single tables whose
step is in the range. -/
theorem coverRange_spec {β : Type} {h : Handler ι} {rows : ι → Set β} (hok : h.OK rows) (lo hi : Nat) :
    ∃ ids, h.coverRange lo hi = some ids ∧
      ∀ x, (∃ id ∈ ids, x ∈ rows id) ↔ ∃ e ∈ h.single, lo ≤ e.1 ∧ e.1 < hi ∧ x ∈ rows e.2 := by
  obtain ⟨hlen, hmem⟩ := normalizeRange_spec hok.steps lo hi
  rw [coverRange]
  split
  · rename_i hnil; exact ⟨[], rfl, by simp [hnil]⟩
  · simp only
    split
    · rename_i h0
      refine ⟨[], rfl, fun x => ?_⟩
      simp only [List.not_mem_nil, false_and, exists_false, false_iff, not_exists, not_and]
      intro e he h1 h2
      obtain ⟨i, hi⟩ := List.mem_iff_getElem?.mp he
      have := (hmem i e hi).mp ⟨h1, h2⟩
      omega
    · rename_i h0
      have hst : (h.normalizeRange lo hi).stop < h.single.length := by rw [SRange.stop]; omega
      obtain ⟨ids, e1, e2, e3⟩ := coverLoop_spec hok hst _ h.combined (fun _ hc => hc)
        (le_refl (h.normalizeRange lo hi).start)
      refine ⟨ids, e1, fun x => ⟨?_, ?_⟩⟩
      · rintro ⟨id, hid, hx⟩
        obtain ⟨i, h1, h2, e, h3, h4⟩ := e2 id hid x hx
        rw [SRange.stop] at h2
        have := (hmem i e h3).mpr ⟨h1, by omega⟩
        exact ⟨e, List.mem_of_getElem? h3, this.1, this.2, h4⟩
      · rintro ⟨e, he, h1, h2, hx⟩
        obtain ⟨i, hi⟩ := List.mem_iff_getElem?.mp he
        have := (hmem i e hi).mp ⟨h1, h2⟩
        exact e3 i this.1 (by rw [SRange.stop]; omega) e hi x hx

theorem ok_empty {β : Type} {rows : ι → Set β} : (Handler.mk [] [] : Handler ι).OK rows :=
  ⟨by simp, by simp⟩

theorem addSingle_ok {β : Type} {h : Handler ι} {rows : ι → Set β} (hok : h.OK rows) {step : Nat} {id : ι}
    (hstep : ∀ e ∈ h.single, e.1 < step) : (h.addSingle step id).OK rows := by
  refine ⟨?_, ?_⟩
  · simp only [addSingle, List.map_append, List.map_cons, List.map_nil]
    rw [List.pairwise_append]
    refine ⟨hok.steps, by simp, ?_⟩
    intro a ha b hb
    obtain ⟨e, he, rfl⟩ := List.mem_map.mp ha
    rw [List.mem_singleton.mp hb]
    exact hstep e he
  · intro c hc
    obtain ⟨h1, h2, h3⟩ := hok.comb c hc
    refine ⟨h1, by simp [addSingle]; omega, ?_⟩
    rw [h3]
    ext x
    constructor
    · rintro ⟨i, h4, h5, e, h6, h7⟩
      exact ⟨i, h4, h5, e, by rw [addSingle, List.getElem?_append_left (by omega)]; exact h6, h7⟩
    · rintro ⟨i, h4, h5, e, h6, h7⟩
      exact ⟨i, h4, h5, e, by rw [addSingle, List.getElem?_append_left (by omega)] at h6; exact h6, h7⟩

theorem addCombined_ok {β : Type} {h : Handler ι} {rows : ι → Set β} (hok : h.OK rows) {lo hi : Nat} {id : ι}
    (hid : rows id = {x | ∃ e ∈ h.single, lo ≤ e.1 ∧ e.1 < hi ∧ x ∈ rows e.2}) :
    (h.addCombined lo hi id).OK rows ∧ (h.addCombined lo hi id).single = h.single := by
  obtain ⟨hlen, hmem⟩ := normalizeRange_spec hok.steps lo hi
  rw [addCombined]
  split
  · exact ⟨hok, rfl⟩
  · refine ⟨⟨hok.steps, ?_⟩, rfl⟩
    intro c hc
    simp only at hc
    rw [(List.mergeSort_perm _ _).mem_iff, List.mem_append] at hc
    rcases hc with hc | hc
    · exact hok.comb c hc
    · rw [List.mem_singleton.mp hc]
      refine ⟨by simp only; omega, hlen, ?_⟩
      simp only
      rw [hid]
      ext x
      constructor
      · rintro ⟨e, he, h1, h2, hx⟩
        obtain ⟨i, hi⟩ := List.mem_iff_getElem?.mp he
        have := (hmem i e hi).mp ⟨h1, h2⟩
        exact ⟨i, this.1, this.2, e, hi, hx⟩
      · rintro ⟨i, h1, h2, e, he, hx⟩
        have := (hmem i e he).mpr ⟨h1, h2⟩
        exact ⟨e, List.mem_of_getElem? he, this.1, this.2, hx⟩

end Handler
end Verif
