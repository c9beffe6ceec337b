import Mathlib.Order.Defs.LinearOrder
import Mathlib.Order.Basic
import Mathlib.Tactic.Order

/-!
# Abstract column cursors

A `ColumnScan` (`/repo/nemo-physical/src/columnar/columnscan.rs:23-49`) is observed through
`next`, `seek` and `current`.  This file contains

* the *interface* `ScanOps` an implementation provides; an operation that panics or does not
  terminate returns `none`;
* the *specification* `Cur`: a cursor over a list of values;
* the notion `Behaves`: an implementation state answers every finite sequence of calls exactly
  like a specification cursor (and in particular neither panics nor diverges).
-/

set_option linter.unusedSimpArgs false

namespace Verif

/-- The observable interface of `ColumnScan` (columnscan.rs:23-49): `Iterator::next`, `seek`,
`current`.  Mutation through `&mut self` becomes a returned state; `none` means the call panics or
loops forever.  `pos`, `narrow`, `reset` only exist for leaf scans and are modelled there. -/
structure ScanOps (S α : Type) where
  next : S → Option (Option α × S)
  seek : S → α → Option (Option α × S)
  current : S → Option α

/-- Specification cursor over a list: before the first call, or standing on the head of the list of
remaining values (the empty list: exhausted). -/
inductive Cur (α : Type) where
  | fresh (l : List α)
  | at (l : List α)

namespace Cur
variable {α : Type}

/-- values still ahead (including the current one) -/
def rem : Cur α → List α
  | fresh l => l
  | .at l => l

/-- the value the cursor stands on -/
def current : Cur α → Option α
  | fresh _ => none
  | .at l => l.head?

/-- move to the next value -/
def next : Cur α → Cur α
  | fresh l => .at l
  | .at l => .at l.tail

/-- move forward to the first remaining value that is `≥ v` -/
def seek [LinearOrder α] (c : Cur α) (v : α) : Cur α :=
  .at (c.rem.dropWhile (· < v))

end Cur

/-- A call made by the user of a cursor. -/
inductive Call (α : Type) where
  | next
  | seek (v : α)
  | current

/-- Answers the specification cursor gives to a sequence of calls. -/
def specRun {α : Type} [LinearOrder α] : Cur α → List (Call α) → List (Option α)
  | _, [] => []
  | c, .next :: t => c.next.current :: specRun c.next t
  | c, .seek v :: t => (c.seek v).current :: specRun (c.seek v) t
  | c, .current :: t => c.current :: specRun c t

/-- Answers an implementation gives to a sequence of calls (`none`: some call panics/diverges). -/
def run {S α : Type} (ops : ScanOps S α) : S → List (Call α) → Option (List (Option α))
  | _, [] => some []
  | s, .next :: t => do
      let (o, s') ← ops.next s
      let r ← run ops s' t
      return o :: r
  | s, .seek v :: t => do
      let (o, s') ← ops.seek s v
      let r ← run ops s' t
      return o :: r
  | s, .current :: t => do
      let r ← run ops s t
      return ops.current s :: r

/-- `s` answers every sequence of calls exactly like the specification cursor `c`. -/
def Behaves {S α : Type} [LinearOrder α] (ops : ScanOps S α) (s : S) (c : Cur α) : Prop :=
  ∀ t : List (Call α), run ops s t = some (specRun c t)

/-- `s` answers every sequence of calls whose sought values satisfy `P` exactly like `c`. -/
def BehavesOn {S α : Type} [LinearOrder α] (P : α → Prop) (ops : ScanOps S α) (s : S) (c : Cur α) :
    Prop :=
  ∀ t : List (Call α), (∀ v, Call.seek v ∈ t → P v) → run ops s t = some (specRun c t)

section
variable {S α : Type} [LinearOrder α] {ops : ScanOps S α} {s : S} {c : Cur α}

theorem Behaves.current (h : Behaves ops s c) : ops.current s = c.current := by
  have := h [.current]
  simpa [run, specRun] using this

theorem Behaves.next (h : Behaves ops s c) :
    ∃ s', ops.next s = some (c.next.current, s') ∧ Behaves ops s' c.next := by
  have h0 := h [.next]
  cases hn : ops.next s with
  | none => simp [run, specRun, hn] at h0
  | some p =>
    obtain ⟨o, s'⟩ := p
    simp [run, specRun, hn] at h0
    refine ⟨s', by rw [h0], fun t => ?_⟩
    have := h (.next :: t)
    simp only [run, specRun, hn] at this
    cases hr : run ops s' t with
    | none => simp [hr] at this
    | some r => simp [hr] at this; simp [this.2]

theorem Behaves.seek (h : Behaves ops s c) (v : α) :
    ∃ s', ops.seek s v = some ((c.seek v).current, s') ∧ Behaves ops s' (c.seek v) := by
  have h0 := h [.seek v]
  cases hn : ops.seek s v with
  | none => simp [run, specRun, hn] at h0
  | some p =>
    obtain ⟨o, s'⟩ := p
    simp [run, specRun, hn] at h0
    refine ⟨s', by rw [h0], fun t => ?_⟩
    have := h (.seek v :: t)
    simp only [run, specRun, hn] at this
    cases hr : run ops s' t with
    | none => simp [hr] at this
    | some r => simp [hr] at this; simp [this.2]

/-- A relation preserved by all operations proves `Behaves`. -/
theorem Behaves.of_sim (R : S → Cur α → Prop)
    (hcur : ∀ s c, R s c → ops.current s = c.current)
    (hnext : ∀ s c, R s c → ∃ s', ops.next s = some (c.next.current, s') ∧ R s' c.next)
    (hseek : ∀ s c v, R s c → ∃ s', ops.seek s v = some ((c.seek v).current, s') ∧ R s' (c.seek v))
    (h : R s c) : Behaves ops s c := by
  intro t
  induction t generalizing s c with
  | nil => simp [run, specRun]
  | cons a t ih =>
    cases a with
    | next =>
      obtain ⟨s', h1, h2⟩ := hnext s c h
      simp [run, specRun, h1, ih h2]
    | seek v =>
      obtain ⟨s', h1, h2⟩ := hseek s c v h
      simp [run, specRun, h1, ih h2]
    | current => simp [run, specRun, ih h, hcur s c h]

theorem BehavesOn.of_sim {P : α → Prop} (R : S → Cur α → Prop)
    (hcur : ∀ s c, R s c → ops.current s = c.current)
    (hnext : ∀ s c, R s c → ∃ s', ops.next s = some (c.next.current, s') ∧ R s' c.next)
    (hseek : ∀ s c v, P v → R s c →
      ∃ s', ops.seek s v = some ((c.seek v).current, s') ∧ R s' (c.seek v))
    (h : R s c) : BehavesOn P ops s c := by
  intro t
  induction t generalizing s c with
  | nil => simp [run, specRun]
  | cons a t ih =>
    intro ht
    have ht' : ∀ v, Call.seek v ∈ t → P v := fun v hv => ht v (List.mem_cons_of_mem _ hv)
    cases a with
    | next =>
      obtain ⟨s', h1, h2⟩ := hnext s c h
      simp [run, specRun, h1, ih h2 ht']
    | seek v =>
      obtain ⟨s', h1, h2⟩ := hseek s c v (ht v (by simp)) h
      simp [run, specRun, h1, ih h2 ht']
    | current => simp [run, specRun, ih h ht', hcur s c h]

theorem BehavesOn.true_iff : BehavesOn (fun _ => True) ops s c ↔ Behaves ops s c := by
  simp [BehavesOn, Behaves]

/-- State reached by an implementation after a sequence of calls. -/
def exec {S α : Type} (ops : ScanOps S α) : S → List (Call α) → Option S
  | s, [] => some s
  | s, .next :: t => do let (_, s') ← ops.next s; exec ops s' t
  | s, .seek v :: t => do let (_, s') ← ops.seek s v; exec ops s' t
  | s, .current :: t => exec ops s t

/-- State reached by the specification cursor after a sequence of calls. -/
def specExec {α : Type} [LinearOrder α] : Cur α → List (Call α) → Cur α
  | c, [] => c
  | c, .next :: t => specExec c.next t
  | c, .seek v :: t => specExec (c.seek v) t
  | c, .current :: t => specExec c t

theorem exec_of_sim (R : S → Cur α → Prop)
    (hnext : ∀ s c, R s c → ∃ s', ops.next s = some (c.next.current, s') ∧ R s' c.next)
    (hseek : ∀ s c v, R s c → ∃ s', ops.seek s v = some ((c.seek v).current, s') ∧ R s' (c.seek v))
    (h : R s c) (t : List (Call α)) : ∃ s', exec ops s t = some s' ∧ R s' (specExec c t) := by
  induction t generalizing s c with
  | nil => exact ⟨s, rfl, h⟩
  | cons a t ih =>
    cases a with
    | next =>
      obtain ⟨s', h1, h2⟩ := hnext s c h
      simpa [exec, specExec, h1] using ih h2
    | seek v =>
      obtain ⟨s', h1, h2⟩ := hseek s c v h
      simpa [exec, specExec, h1] using ih h2
    | current => simpa [exec, specExec] using ih h

theorem execOn_of_sim {P : α → Prop} (R : S → Cur α → Prop)
    (hnext : ∀ s c, R s c → ∃ s', ops.next s = some (c.next.current, s') ∧ R s' c.next)
    (hseek : ∀ s c v, P v → R s c →
      ∃ s', ops.seek s v = some ((c.seek v).current, s') ∧ R s' (c.seek v))
    (h : R s c) (t : List (Call α)) (ht : ∀ v, Call.seek v ∈ t → P v) :
    ∃ s', exec ops s t = some s' ∧ R s' (specExec c t) := by
  induction t generalizing s c with
  | nil => exact ⟨s, rfl, h⟩
  | cons a t ih =>
    have ht' : ∀ v, Call.seek v ∈ t → P v := fun v hv => ht v (List.mem_cons_of_mem _ hv)
    cases a with
    | next =>
      obtain ⟨s', h1, h2⟩ := hnext s c h
      simpa [exec, specExec, h1] using ih h2 ht'
    | seek v =>
      obtain ⟨s', h1, h2⟩ := hseek s c v (ht v (by simp)) h
      simpa [exec, specExec, h1] using ih h2 ht'
    | current => simpa [exec, specExec] using ih h ht'

theorem Behaves.exec (h : Behaves ops s c) (t : List (Call α)) :
    ∃ s', exec ops s t = some s' ∧ Behaves ops s' (specExec c t) :=
  exec_of_sim (Behaves ops) (fun _ _ h => h.next) (fun _ _ v h => h.seek v) h t

/-- `fresh []` and `at []` cannot be told apart. -/
theorem Behaves.fresh_nil_iff : Behaves ops s (.fresh []) ↔ Behaves ops s (.at []) := by
  have : ∀ t : List (Call α), specRun (.fresh []) t = specRun (.at []) t := by
    intro t
    induction t with
    | nil => rfl
    | cons a t ih =>
      cases a <;> simp [specRun, Cur.next, Cur.current, Cur.seek, Cur.rem, ih]
  simp [Behaves, this]

end

/-- The answers to iterating to the end with `next`: what `for x in scan` sees. -/
def collect {S α : Type} (ops : ScanOps S α) : Nat → S → Option (List α)
  | 0, _ => none
  | n + 1, s => do
      let (o, s') ← ops.next s
      match o with
      | none => return []
      | some x =>
        let r ← collect ops n s'
        return x :: r

theorem Behaves.collect_at {S α : Type} [LinearOrder α] {ops : ScanOps S α} {s : S} {l : List α} {x}
    (h : Behaves ops s (.at (x :: l))) : collect ops (l.length + 1) s = some l := by
  induction l generalizing s x with
  | nil =>
    obtain ⟨s', h1, -⟩ := h.next
    simp [collect, h1, Cur.next, Cur.current]
  | cons y l ih =>
    obtain ⟨s', h1, h2⟩ := h.next
    rw [List.length_cons, collect]
    simp only [h1, Cur.next, Cur.current, List.tail_cons, List.head?_cons, Option.bind_eq_bind,
      Option.bind_some]
    rw [ih h2]; rfl

/-- Iterating a fresh cursor returns exactly its list. -/
theorem Behaves.collect_fresh {S α : Type} [LinearOrder α] {ops : ScanOps S α} {s : S} {l : List α}
    (h : Behaves ops s (.fresh l)) : collect ops (l.length + 1) s = some l := by
  obtain ⟨s', h1, h2⟩ := h.next
  cases l with
  | nil => simp [collect, h1, Cur.next, Cur.current]
  | cons x l =>
    rw [List.length_cons, collect]
    simp only [h1, Cur.next, Cur.current, List.head?_cons, Option.bind_eq_bind, Option.bind_some]
    rw [Behaves.collect_at h2]; rfl

/-- Strictly ascending list. -/
abbrev Asc {α : Type} [LT α] (l : List α) : Prop := l.Pairwise (· < ·)

theorem asc_cons {α : Type} [LT α] {a : α} {l : List α} :
    Asc (a :: l) ↔ (∀ b ∈ l, a < b) ∧ Asc l := List.pairwise_cons

theorem dropWhile_lt_asc {α : Type} [LinearOrder α] {l : List α} (h : Asc l) (v : α) :
    l.dropWhile (· < v) = l.filter (v ≤ ·) := by
  induction l with
  | nil => rfl
  | cons a l ih =>
    rw [asc_cons] at h
    by_cases hv : a < v
    · have : ¬ v ≤ a := not_le.mpr hv
      simp [List.dropWhile_cons, hv, this, ih h.2]
    · have h1 : v ≤ a := not_lt.mp hv
      have h2 : l.filter (v ≤ ·) = l :=
        List.filter_eq_self.mpr fun b hb => by
          have := h.1 b hb
          simp; exact (h1.trans_lt this).le
      rw [List.dropWhile_cons]
      simp [hv, h1, h2]

theorem asc_ext {α : Type} [LinearOrder α] {l m : List α} (hl : Asc l) (hm : Asc m)
    (h : ∀ x, x ∈ l ↔ x ∈ m) : l = m := by
  induction l generalizing m with
  | nil =>
    cases m with
    | nil => rfl
    | cons b m => exact absurd ((h b).mpr (by simp)) (by simp)
  | cons a l ih =>
    cases m with
    | nil => exact absurd ((h a).mp (by simp)) (by simp)
    | cons b m =>
      rw [asc_cons] at hl hm
      have hab : a = b := by
        have h1 := (h a).mp (by simp)
        have h2 := (h b).mpr (by simp)
        rcases List.mem_cons.mp h1 with h1 | h1
        · exact h1
        rcases List.mem_cons.mp h2 with h2 | h2
        · exact h2.symm
        exact absurd (hm.1 a h1) (not_lt.mpr (hl.1 b h2).le)
      subst hab
      congr 1
      refine ih hl.2 hm.2 fun x => ⟨fun hx => ?_, fun hx => ?_⟩
      · rcases List.mem_cons.mp ((h x).mp (List.mem_cons_of_mem _ hx)) with e | e
        · subst e; exact absurd (hl.1 x hx) (lt_irrefl x)
        · exact e
      · rcases List.mem_cons.mp ((h x).mpr (List.mem_cons_of_mem _ hx)) with e | e
        · subst e; exact absurd (hm.1 x hx) (lt_irrefl x)
        · exact e

end Verif
