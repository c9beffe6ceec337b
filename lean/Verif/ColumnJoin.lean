import Verif.Cursor
import Mathlib.Logic.Function.Basic
import Mathlib.Data.List.FinRange

/-!
# Leapfrog join of column cursors

Models `/repo/nemo-physical/src/columnar/operations/join.rs`.  The scans an operator holds are shared
`ColumnScanCell`s in Rust; here they are a family `Fin n → S` owned by the operator (every column
operator is the only user of its inputs while it is being iterated).
-/

set_option linter.unusedSimpArgs false
set_option linter.unusedSectionVars false

namespace Verif

section CurLemmas
variable {α : Type} [LinearOrder α]

theorem Cur.seek_rem (c : Cur α) (h : Asc c.rem) (v : α) :
    (c.seek v).rem = c.rem.filter (v ≤ ·) := by
  simp only [Cur.seek, Cur.rem]
  exact dropWhile_lt_asc h v

theorem Cur.seek_asc {c : Cur α} (h : Asc c.rem) (v : α) : Asc (c.seek v).rem := by
  rw [Cur.seek_rem c h]; exact h.filter _

theorem Cur.mem_seek {c : Cur α} (h : Asc c.rem) (v x : α) :
    x ∈ (c.seek v).rem ↔ x ∈ c.rem ∧ v ≤ x := by
  rw [Cur.seek_rem c h]; simp

theorem Cur.next_asc {c : Cur α} (h : Asc c.rem) : Asc c.next.rem := by
  cases c with
  | fresh l => exact h
  | «at» l => exact h.tail

theorem Cur.next_isAt (c : Cur α) : ∃ l, c.next = .at l ∧ l = c.next.rem := by
  cases c <;> exact ⟨_, rfl, rfl⟩

theorem Cur.seek_isAt (c : Cur α) (v : α) : c.seek v = .at (c.seek v).rem := rfl

theorem Cur.at_current {l : List α} : (Cur.at l).current = l.head? := rfl

/-- the current value of a sought cursor is the least remaining value `≥ v` -/
theorem Cur.seek_current_some {c : Cur α} (h : Asc c.rem) {v m : α}
    (hc : (c.seek v).current = some m) : ∃ t, c.seek v = .at (m :: t) ∧ v ≤ m := by
  rw [Cur.seek_isAt] at hc ⊢
  cases hl : (c.seek v).rem with
  | nil => simp [hl, Cur.current] at hc
  | cons a t =>
    simp [hl, Cur.current] at hc
    subst hc
    refine ⟨t, rfl, ?_⟩
    have : a ∈ (c.seek v).rem := by rw [hl]; simp
    exact ((Cur.mem_seek h v a).mp this).2

theorem Cur.seek_current_none {c : Cur α} {v : α}
    (hc : (c.seek v).current = none) : c.seek v = .at [] := by
  rw [Cur.seek_isAt] at hc ⊢
  cases hl : (c.seek v).rem with
  | nil => rfl
  | cons a t => simp [hl, Cur.current] at hc

end CurLemmas

/-- `ColumnScanJoin` (join.rs:11-23) over `n` input scans. -/
structure JoinScan (n : Nat) (S α : Type) where
  scans : Fin n → S
  active : Fin n
  cur : Option α

namespace JoinScan
variable {n : Nat} {S α : Type} [LinearOrder α]

/-- `(self.active_index + 1) % self.column_scans.len()` (join.rs:57) -/
def succIdx (a : Fin n) : Fin n :=
  ⟨(a.val + 1) % n, Nat.mod_lt _ (Nat.lt_of_le_of_lt (Nat.zero_le _) a.isLt)⟩

/-- `next_loop` (join.rs:46-70).  Returns the answer, the input scans and the active index. -/
def nextLoop (ops : ScanOps S α) (scans : Fin n → S) (active : Fin n) (currentMax : α)
    (matched : Nat) : Option (Option α × (Fin n → S) × Fin n) :=
  if matched = n then some (some currentMax, scans, active)
  else
    ops.seek (scans (succIdx active)) currentMax >>= fun r =>
      match r.1 with
      | none => some (none, Function.update scans (succIdx active) r.2, succIdx active)
      | some v =>
        if v = currentMax then
          nextLoop ops (Function.update scans (succIdx active) r.2) (succIdx active) currentMax
            (matched + 1)
        else
          nextLoop ops (Function.update scans (succIdx active) r.2) (succIdx active) v 1
partial_fixpoint

/-- the common part of `next` and `seek` (join.rs:80-87, 96-103): `r` is the answer of the active
scan. -/
def continueWith (ops : ScanOps S α) (s : JoinScan n S α) (r : Option α × S) :
    Option (Option α × JoinScan n S α) :=
  match r.1 with
  | none => some (none, { s with scans := Function.update s.scans s.active r.2, cur := none })
  | some v =>
    (nextLoop ops (Function.update s.scans s.active r.2) s.active v 1).bind fun q =>
      some (q.1, { scans := q.2.1, active := q.2.2, cur := q.1 })

/-- `ColumnScanJoin` as a cursor: `next` (79-88), `seek` (95-104), `current` (106-108) -/
def ops (ops : ScanOps S α) : ScanOps (JoinScan n S α) α where
  next s := (ops.next (s.scans s.active)).bind (continueWith ops s)
  seek s v := (ops.seek (s.scans s.active) v).bind (continueWith ops s)
  current s := s.cur

/-- `ColumnScanJoin::new` (30-36); needs at least one input, as indexing an empty vector panics -/
def new (scans : Fin n → S) (h : 0 < n) : JoinScan n S α :=
  { scans := scans, active := ⟨0, h⟩, cur := none }

/-! ### proof -/

/-- number of steps since index `j` was active, going round robin -/
def dist (a j : Fin n) : Nat := if j.val ≤ a.val then a.val - j.val else a.val + n - j.val

theorem dist_lt (a j : Fin n) : dist a j < n := by
  have := a.isLt; have := j.isLt
  unfold dist; split <;> omega

theorem dist_self (a : Fin n) : dist a a = 0 := by simp [dist]

theorem succIdx_val (a : Fin n) : (succIdx a).val = if a.val + 1 = n then 0 else a.val + 1 := by
  have := a.isLt
  simp only [succIdx]
  split
  · next h => rw [h, Nat.mod_self]
  · exact Nat.mod_eq_of_lt (by omega)

theorem dist_succ (a j : Fin n) (h : j ≠ succIdx a) : dist (succIdx a) j = dist a j + 1 := by
  have h1 := a.isLt
  have h2 := j.isLt
  have h3 : j.val ≠ (succIdx a).val := fun e => h (Fin.ext e)
  rw [succIdx_val] at h3
  have h4 := succIdx_val a
  unfold dist
  split at h3 <;> split at h4 <;> split <;> split <;> omega

/-- invariant of the loop: `cs` are the specification cursors of the inputs -/
structure Inv (ops : ScanOps S α) (scans : Fin n → S) (cs : Fin n → Cur α) : Prop where
  beh : ∀ j, Behaves ops (scans j) (cs j)
  asc : ∀ j, Asc (cs j).rem

theorem Inv.update {ops : ScanOps S α} {scans : Fin n → S} {cs : Fin n → Cur α}
    (h : Inv ops scans cs) {i : Fin n} {s' : S} {c' : Cur α} (hb : Behaves ops s' c')
    (ha : Asc c'.rem) : Inv ops (Function.update scans i s') (Function.update cs i c') := by
  constructor
  · intro j
    by_cases e : j = i
    · subst e; simpa using hb
    · simpa [Function.update_of_ne e] using h.beh j
  · intro j
    by_cases e : j = i
    · subst e; simpa using ha
    · simpa [Function.update_of_ne e] using h.asc j

/-- the loop finds the least common value, keeping the set of common values -/
theorem nextLoop_spec (ops : ScanOps S α) (All : List α) (scans : Fin n → S) (cs : Fin n → Cur α)
    (active : Fin n) (cm : α) (matched : Nat)
    (hinv : Inv ops scans cs) (hall : ∀ j, ∀ x ∈ (cs j).rem, x ∈ All)
    (hm : matched ≤ n) (hm1 : 1 ≤ matched)
    (hmat : ∀ j, dist active j < matched → ∃ t, cs j = .at (cm :: t)) :
    ∃ o scans' active' cs', nextLoop ops scans active cm matched = some (o, scans', active') ∧
      Inv ops scans' cs' ∧ (∀ x, (∀ j, x ∈ (cs' j).rem) ↔ (∀ j, x ∈ (cs j).rem)) ∧
      (∀ m, o = some m → ∀ j, ∃ t, cs' j = .at (m :: t)) ∧
      (o = none → cs' active' = .at []) := by
  obtain ⟨N, hN⟩ : ∃ N, N = (All.filter (cm < ·)).length := ⟨_, rfl⟩
  obtain ⟨K, hK⟩ : ∃ K, K = n - matched := ⟨_, rfl⟩
  induction N using Nat.strong_induction_on generalizing scans cs active cm matched K with
  | _ N ihN =>
  induction K using Nat.strong_induction_on generalizing scans cs active matched with
  | _ K ihK =>
  rw [nextLoop]
  split
  · next hn =>
    refine ⟨some cm, scans, active, cs, rfl, hinv, fun x => Iff.rfl, ?_, by simp⟩
    intro m hm' j
    cases hm'
    exact hmat j (by rw [hn]; exact dist_lt _ _)
  · next hn =>
    obtain ⟨s', hs, hb⟩ := (hinv.beh (succIdx active)).seek cm
    have ha := hinv.asc (succIdx active)
    rw [hs]
    simp only [Option.bind_eq_bind, Option.bind_some]
    have hinv' : Inv ops (Function.update scans (succIdx active) s')
        (Function.update cs (succIdx active) ((cs (succIdx active)).seek cm)) :=
      hinv.update hb (Cur.seek_asc ha cm)
    obtain ⟨t0, ht0⟩ := hmat active (by rw [dist_self]; omega)
    have hcm : ∀ x ∈ (cs active).rem, cm ≤ x := by
      intro x hx
      have := hinv.asc active
      rw [ht0] at hx this
      rcases List.mem_cons.mp hx with e | e
      · rw [e]
      · exact ((asc_cons.mp this).1 x e).le
    have hC : ∀ x, (∀ j, x ∈ (Function.update cs (succIdx active)
        ((cs (succIdx active)).seek cm) j).rem) ↔ (∀ j, x ∈ (cs j).rem) := by
      intro x
      constructor
      · intro h j
        have := h j
        by_cases e : j = succIdx active
        · subst e
          simp only [Function.update_self] at this
          exact ((Cur.mem_seek ha cm x).mp this).1
        · simpa [Function.update_of_ne e] using this
      · intro h j
        by_cases e : j = succIdx active
        · subst e
          simp only [Function.update_self]
          exact (Cur.mem_seek ha cm x).mpr ⟨h _, hcm x (h active)⟩
        · simpa [Function.update_of_ne e] using h j
    have hall' : ∀ j, ∀ x ∈ (Function.update cs (succIdx active)
        ((cs (succIdx active)).seek cm) j).rem, x ∈ All := by
      intro j x hx
      by_cases e : j = succIdx active
      · subst e
        simp only [Function.update_self] at hx
        exact hall _ x ((Cur.mem_seek ha cm x).mp hx).1
      · rw [Function.update_of_ne e] at hx
        exact hall j x hx
    cases hv : ((cs (succIdx active)).seek cm).current with
    | none =>
      refine ⟨none, _, _, _, rfl, hinv', hC, by simp, fun _ => ?_⟩
      simp only [Function.update_self]
      exact Cur.seek_current_none hv
    | some v =>
      obtain ⟨t, ht, hle⟩ := Cur.seek_current_some ha hv
      simp only
      by_cases e : v = cm
      · subst e
        rw [if_pos rfl]
        obtain ⟨o, sc, ac, cs', h1, h2, h3, h4, h5⟩ :=
          ihK (n - (matched + 1)) (by omega) (Function.update scans (succIdx active) s')
            (Function.update cs (succIdx active) ((cs (succIdx active)).seek v)) (succIdx active)
            (matched + 1) hinv' hall' (by omega) (by omega) (by
              intro j hj
              by_cases e : j = succIdx active
              · subst e; simp only [Function.update_self]; exact ⟨t, ht⟩
              · rw [Function.update_of_ne e]
                exact hmat j (by rw [dist_succ _ _ e] at hj; omega)) rfl
        exact ⟨o, sc, ac, cs', h1, h2, fun x => (h3 x).trans (hC x), h4, h5⟩
      · rw [if_neg e]
        have hlt : cm < v := lt_of_le_of_ne hle (Ne.symm e)
        have hvm : v ∈ All := hall _ v
          ((Cur.mem_seek ha cm v).mp (by rw [ht]; simp [Cur.rem])).1
        have hdec : (All.filter (v < ·)).length < (All.filter (cm < ·)).length := by
          have e1 : All.filter (v < ·) = (All.filter (cm < ·)).filter (v < ·) := by
            rw [List.filter_filter]
            apply List.filter_congr
            intro x _
            by_cases hx : v < x
            · simp [hx, hlt.trans hx]
            · simp [hx]
          rw [e1]
          apply List.length_filter_lt_length_iff_exists.mpr
          exact ⟨v, by simp [hvm, hlt], by simp⟩
        obtain ⟨o, sc, ac, cs', h1, h2, h3, h4, h5⟩ :=
          ihN _ (by rw [hN]; exact hdec) (Function.update scans (succIdx active) s')
            (Function.update cs (succIdx active) ((cs (succIdx active)).seek cm)) (succIdx active)
            v 1 hinv' hall' (by omega) (by omega) (by
              intro j hj
              by_cases e : j = succIdx active
              · subst e; simp only [Function.update_self]; exact ⟨t, ht⟩
              · rw [dist_succ _ _ e] at hj; omega) rfl (n - 1) rfl
        exact ⟨o, sc, ac, cs', h1, h2, fun x => (h3 x).trans (hC x), h4, h5⟩

/-- simulation relation -/
structure Sim (cops : ScanOps S α) (s : JoinScan n S α) (c : Cur α) : Prop where
  ex : ∃ cs : Fin n → Cur α, Inv cops s.scans cs ∧ Asc c.rem ∧
    (∀ x, x ∈ c.rem ↔ ∀ j, x ∈ (cs j).rem) ∧ s.cur = c.current ∧
    (∀ l, c = .fresh l → ∀ j, ∃ l', cs j = .fresh l') ∧
    (∀ m l, c = .at (m :: l) → ∀ j, ∃ t, cs j = .at (m :: t)) ∧
    (c = .at [] → cs s.active = .at [])

theorem continueWith_spec (cops : ScanOps S α) (s : JoinScan n S α) (cs : Fin n → Cur α)
    (hinv : Inv cops s.scans cs) (ca : Cur α) (s' : S) (hb : Behaves cops s' ca)
    (hat : ∃ l, ca = .at l) (hasc : Asc ca.rem) (l : List α) (hl : Asc l)
    (hmem : ∀ x, x ∈ l ↔ ∀ j, x ∈ (Function.update cs s.active ca j).rem) :
    ∃ s'', continueWith cops s (ca.current, s') = some ((Cur.at l).current, s'') ∧
      Sim cops s'' (.at l) := by
  obtain ⟨la, rfl⟩ := hat
  have hinv' := hinv.update (i := s.active) hb hasc
  unfold continueWith
  cases la with
  | nil =>
    have hle : l = [] := by
      apply List.eq_nil_iff_forall_not_mem.mpr
      intro x hx
      have := (hmem x).mp hx s.active
      simp [Cur.rem] at this
    subst hle
    refine ⟨_, rfl, ⟨_, hinv', hl, hmem, rfl, by simp, by simp, ?_⟩⟩
    simp [Cur.current]
  | cons v t =>
    simp only [Cur.at_current, List.head?_cons]
    obtain ⟨o, sc, ac, cs', h1, h2, h3, h4, h5⟩ :=
      nextLoop_spec cops ((List.finRange n).flatMap
          (fun j => (Function.update cs s.active (.at (v :: t)) j).rem))
        (Function.update s.scans s.active s')
        (Function.update cs s.active (.at (v :: t))) s.active v 1 hinv'
        (fun j x hx => List.mem_flatMap.mpr ⟨j, List.mem_finRange j, hx⟩)
        (by have := s.active.isLt; omega) (le_refl 1) (by
          intro j hj
          by_cases e : j = s.active
          · subst e; exact ⟨t, by simp⟩
          · exfalso
            have : j.val ≠ s.active.val := fun h => e (Fin.ext h)
            have := s.active.isLt
            have := j.isLt
            unfold dist at hj
            split at hj <;> omega)
    rw [h1]
    have hmem' : ∀ x, x ∈ l ↔ ∀ j, x ∈ (cs' j).rem := fun x => (hmem x).trans (h3 x).symm
    have ho : o = l.head? := by
      cases o with
      | none =>
        have := h5 rfl
        symm
        rw [List.head?_eq_none_iff]
        apply List.eq_nil_iff_forall_not_mem.mpr
        intro x hx
        have := (hmem' x).mp hx ac
        rw [h5 rfl] at this
        simp [Cur.rem] at this
      | some m =>
        have h4' := h4 m rfl
        have hml : m ∈ l := (hmem' m).mpr fun j => by
          obtain ⟨t, ht⟩ := h4' j
          rw [ht]; simp [Cur.rem]
        cases l with
        | nil => simp at hml
        | cons a l =>
          have ha := (hmem' a).mp (by simp) ac
          obtain ⟨t', ht'⟩ := h4' ac
          rw [ht'] at ha
          rcases List.mem_cons.mp ha with e | e
          · simp [e]
          · exfalso
            have h6 := h2.asc ac
            rw [ht'] at h6
            have h7 := (asc_cons.mp h6).1 a e
            rcases List.mem_cons.mp hml with e' | e'
            · exact absurd h7 (by rw [e']; exact lt_irrefl _)
            · exact absurd ((asc_cons.mp hl).1 m e') (not_lt.mpr h7.le)
    subst ho
    refine ⟨_, rfl, ⟨cs', h2, hl, hmem', rfl, by simp, ?_, ?_⟩⟩
    · intro m l' e
      injection e with e
      subst e
      exact h4 m rfl
    · intro e
      injection e with e
      subst e
      exact h5 rfl

theorem sim_next (cops : ScanOps S α) (s : JoinScan n S α) (c : Cur α) (h : Sim cops s c) :
    ∃ s', (ops cops).next s = some (c.next.current, s') ∧ Sim cops s' c.next := by
  obtain ⟨cs, hinv, hasc, hmem, hcur, hf, ha, he⟩ := h.ex
  obtain ⟨sa, hs, hb⟩ := (hinv.beh s.active).next
  have hA := Cur.next_asc (hinv.asc s.active)
  have hA' : ∃ l, (cs s.active).next = .at l := by
    obtain ⟨l, h, -⟩ := Cur.next_isAt (cs s.active)
    exact ⟨l, h⟩
  simp only [ops, hs, Option.bind_some]
  obtain ⟨l, hl, hl'⟩ := Cur.next_isAt c
  rw [hl]
  refine continueWith_spec cops s cs hinv _ sa hb hA' hA l (by rw [hl']; exact Cur.next_asc hasc) ?_
  intro x
  cases c with
  | fresh l0 =>
    simp only [Cur.next] at hl
    injection hl with hl
    subst hl
    rw [show (x ∈ l0) = (x ∈ (Cur.fresh l0).rem) from rfl, hmem]
    apply forall_congr'
    intro j
    by_cases e : j = s.active
    · subst e
      obtain ⟨l', hf'⟩ := hf l0 rfl s.active
      simp [hf', Cur.next, Cur.rem]
    · simp [Function.update_of_ne e]
  | «at» l0 =>
    simp only [Cur.next] at hl
    injection hl with hl
    cases l0 with
    | nil =>
      subst hl
      simp only [List.tail_nil, List.not_mem_nil, false_iff]
      intro h
      have := h s.active
      simp [he rfl, Cur.next, Cur.rem] at this
    | cons m l0 =>
      subst hl
      have hasc' := hasc
      simp only [Cur.rem, asc_cons] at hasc'
      constructor
      · intro hx j
        have h1 := (hmem x).mp (by simp only [Cur.rem]; exact List.mem_cons_of_mem _ hx) j
        by_cases e : j = s.active
        · subst e
          obtain ⟨t, ht⟩ := ha m l0 rfl s.active
          rw [ht] at h1
          simp only [Function.update_self, ht, Cur.next, Cur.rem, List.tail_cons]
          rcases List.mem_cons.mp h1 with e | e
          · exact absurd (hasc'.1 x hx) (by rw [e]; exact lt_irrefl _)
          · exact e
        · simpa [Function.update_of_ne e] using h1
      · intro hx
        have h1 : x ∈ (Cur.at (m :: l0)).rem := (hmem x).mpr fun j => by
          have := hx j
          by_cases e : j = s.active
          · subst e
            obtain ⟨t, ht⟩ := ha m l0 rfl s.active
            simp only [Function.update_self, ht, Cur.next, Cur.rem, List.tail_cons] at this
            rw [ht]; simp [Cur.rem, this]
          · simpa [Function.update_of_ne e] using this
        rcases List.mem_cons.mp h1 with e | e
        · exfalso
          have := hx s.active
          obtain ⟨t, ht⟩ := ha m l0 rfl s.active
          have h2 := hinv.asc s.active
          simp only [Function.update_self, ht, Cur.next, Cur.rem, List.tail_cons] at this
          rw [ht] at h2
          exact absurd ((asc_cons.mp h2).1 x this) (by rw [e]; exact lt_irrefl _)
        · exact e

theorem sim_seek (cops : ScanOps S α) (s : JoinScan n S α) (c : Cur α) (v : α) (h : Sim cops s c) :
    ∃ s', (ops cops).seek s v = some ((c.seek v).current, s') ∧ Sim cops s' (c.seek v) := by
  obtain ⟨cs, hinv, hasc, hmem, hcur, hf, ha, he⟩ := h.ex
  obtain ⟨sa, hs, hb⟩ := (hinv.beh s.active).seek v
  have hA := Cur.seek_asc (hinv.asc s.active) v
  simp only [ops, hs, Option.bind_some]
  rw [Cur.seek_isAt c v]
  refine continueWith_spec cops s cs hinv _ sa hb ⟨_, Cur.seek_isAt _ _⟩ hA _
    (Cur.seek_asc hasc v) ?_
  intro x
  rw [Cur.mem_seek hasc, hmem]
  constructor
  · intro ⟨h1, h2⟩ j
    by_cases e : j = s.active
    · subst e
      simp only [Function.update_self]
      exact (Cur.mem_seek (hinv.asc _) v x).mpr ⟨h1 _, h2⟩
    · simpa [Function.update_of_ne e] using h1 j
  · intro h1
    have h2 := h1 s.active
    simp only [Function.update_self] at h2
    have h3 := (Cur.mem_seek (hinv.asc _) v x).mp h2
    refine ⟨fun j => ?_, h3.2⟩
    by_cases e : j = s.active
    · subst e; exact h3.1
    · simpa [Function.update_of_ne e] using h1 j

/-- The join of fresh cursors behaves like a fresh cursor over the common values. -/
theorem behaves_new (cops : ScanOps S α) (hn : 0 < n) (scans : Fin n → S) (L : Fin n → List α)
    (hb : ∀ j, Behaves cops (scans j) (.fresh (L j))) (ha : ∀ j, Asc (L j)) (l : List α)
    (hl : Asc l) (hmem : ∀ x, x ∈ l ↔ ∀ j, x ∈ L j) :
    Behaves (ops cops) (new scans hn) (.fresh l) := by
  apply Behaves.of_sim (Sim cops)
  · intro s c h; obtain ⟨cs, -, -, -, h, -⟩ := h.ex; exact h
  · exact sim_next cops
  · exact sim_seek cops
  · exact ⟨fun j => .fresh (L j), ⟨hb, ha⟩, hl, hmem, rfl, fun _ _ j => ⟨_, rfl⟩, by simp, by simp⟩

end JoinScan
end Verif
