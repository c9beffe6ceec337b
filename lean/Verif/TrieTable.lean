import Verif.TrieOpCommon

/-!
# Partial trie scans as tables

`Denotes I x n rows`: what the trie operators produce (`Option<TrieScanEnum>`) is the table of arity
`n` with the rows `rows`.
-/

set_option linter.unusedSimpArgs false
set_option linter.unusedSectionVars false
set_option linter.unusedVariables false

namespace Verif
variable {α : Type} [SVal α]

/-- The interface `PartialTrieScan` with the calls that do not depend on the position: `arity` and
`possible_types` (/repo/nemo-physical/src/tabular/triescan.rs:41, 58). -/
structure PScan (S α : Type) extends TrieOps S α where
  arity : S → Nat
  types : S → Nat → List Ty

/-- Which calls are reliable besides moving with `up`, `down`, `next` and reading the value a column
scan stands on: `sk` for `seek`, `cu` for `current` at the end of a column. -/
structure Mode where
  sk : Bool
  cu : Bool

namespace Mode
/-- everything -/
def full : Mode := ⟨true, true⟩
/-- `seek`, as needed by joins and subtractions -/
def weak : Mode := ⟨true, false⟩
/-- reading a table from start to end -/
def scan : Mode := ⟨false, true⟩

/-- `m` asks for at most as much as `m'` -/
def le (m m' : Mode) : Prop := (m.sk = true → m'.sk = true) ∧ (m.cu = true → m'.cu = true)

theorem le_full (m : Mode) : m.le full := ⟨fun _ => rfl, fun _ => rfl⟩
theorem le_rfl {m : Mode} : m.le m := ⟨id, id⟩
end Mode

/-- A scan in its starting position is the table with the given rows: it behaves like a tree
(`Simulates`, and as far as the mode asks for it `SeekSim` and `CurSim`), whose nodes are sorted and have the possible types (`TreeOK`),
and the rows of this tree are `rows`. -/
def IsTable {S : Type} (I : PScan S α) (m : Mode) (s : S) (n : Nat) (rows : List α → Prop) : Prop :=
  I.arity s = n ∧ ∃ (ch : List α → Ty → List α) (R : S → TPath α → Prop),
    Simulates I.toTrieOps n ch R ∧ (m.sk = true → SeekSim I.toTrieOps R) ∧
    (m.cu = true → CurSim I.toTrieOps R) ∧ TreeOK (I.types s) ch n ∧
    R s [] ∧ ∀ r, RowsOf ch n r ↔ rows r

/-- The result of an operator: `None` is the empty table. -/
def Denotes {S : Type} (I : PScan S α) (m : Mode) (x : Option S) (n : Nat) (rows : List α → Prop) : Prop :=
  match x with
  | none => ∀ r, ¬ rows r
  | some s => IsTable I m s n rows

theorem IsTable.congr {S : Type} {I : PScan S α} {m : Mode} {s : S} {n : Nat} {rows rows' : List α → Prop}
    (h : IsTable I m s n rows) (he : ∀ r, rows r ↔ rows' r) : IsTable I m s n rows' := by
  obtain ⟨h0, ch, R, h1, h2, hc, h3, h4, h5⟩ := h
  exact ⟨h0, ch, R, h1, h2, hc, h3, h4, fun r => (h5 r).trans (he r)⟩

theorem IsTable.length {S : Type} {I : PScan S α} {m : Mode} {s : S} {n : Nat} {rows : List α → Prop}
    (h : IsTable I m s n rows) {r : List α} (hr : rows r) : r.length = n := by
  obtain ⟨h0, ch, R, h1, h2, hc, h3, h4, h5⟩ := h
  exact ((h5 r).mpr hr).1

theorem IsTable.weaken {S : Type} {I : PScan S α} {m m' : Mode} {s : S} {n : Nat} {rows : List α → Prop}
    (h : IsTable I m s n rows) (hm : m'.le m) : IsTable I m' s n rows := by
  obtain ⟨h0, ch, R, h1, h2, hc, h3, h4, h5⟩ := h
  exact ⟨h0, ch, R, h1, fun hs => h2 (hm.1 hs), fun hs => hc (hm.2 hs), h3, h4, h5⟩

/-! ## Dispatch

`TrieScanEnum` (triescan.rs:62-117) forwards every call to its variant. -/

namespace PScan
variable {S T : Type}

/-- dispatch between two kinds of scans -/
def sum (I : PScan S α) (J : PScan T α) : PScan (S ⊕ T) α where
  depth := Sum.elim I.depth J.depth
  up := Sum.elim (fun s => (I.up s).map .inl) (fun t => (J.up t).map .inr)
  down := Sum.elim (fun s τ => (I.down s τ).map .inl) (fun t τ => (J.down t τ).map .inr)
  next := Sum.elim (fun s τ => (I.next s τ).map fun r => (r.1, .inl r.2))
    (fun t τ => (J.next t τ).map fun r => (r.1, .inr r.2))
  seek := Sum.elim (fun s v => (I.seek s v).map fun r => (r.1, .inl r.2))
    (fun t v => (J.seek t v).map fun r => (r.1, .inr r.2))
  current := Sum.elim I.current J.current
  arity := Sum.elim I.arity J.arity
  types := Sum.elim I.types J.types

theorem sum_inl {I : PScan S α} {J : PScan T α} {m : Mode} {s : S} {n : Nat} {rows : List α → Prop}
    (h : IsTable I m s n rows) : IsTable (sum I J) m (.inl s) n rows := by
  obtain ⟨h0, ch, R, h1, h2, hc, h3, h4, h5⟩ := h
  refine ⟨h0, ch, fun x p => ∃ s, x = .inl s ∧ R s p, ?_, ?_, ?_, h3, ⟨s, rfl, h4⟩, h5⟩
  · constructor
    · rintro _ p ⟨s, rfl, h⟩; exact h1.depth s p h
    · rintro _ τ c p ⟨s, rfl, h⟩
      obtain ⟨s', e1, e2⟩ := h1.next s τ c p h
      exact ⟨.inl s', by simp [sum, e1], s', rfl, e2⟩
    · rintro _ p q τ c ⟨s, rfl, h⟩; exact h1.current s p q τ c h
    · rintro _ e p ⟨s, rfl, h⟩
      obtain ⟨s', e1, e2⟩ := h1.up s e p h
      exact ⟨.inl s', by simp [sum, e1], s', rfl, e2⟩
    · rintro _ p τ ⟨s, rfl, h⟩ hf hl
      obtain ⟨s', e1, e2⟩ := h1.down s p τ h hf hl
      exact ⟨.inl s', by simp [sum, e1], s', rfl, e2⟩
  · rintro hsk _ c p v ⟨s, rfl, h⟩
    obtain ⟨s', e1, e2⟩ := h2 hsk s c p v h
    exact ⟨.inl s', by simp [sum, e1], s', rfl, e2⟩
  · rintro hsk _ p q τ c ⟨s, rfl, h⟩; exact hc hsk s p q τ c h

theorem sum_inr {I : PScan S α} {J : PScan T α} {m : Mode} {t : T} {n : Nat} {rows : List α → Prop}
    (h : IsTable J m t n rows) : IsTable (sum I J) m (.inr t) n rows := by
  obtain ⟨h0, ch, R, h1, h2, hc, h3, h4, h5⟩ := h
  refine ⟨h0, ch, fun x p => ∃ s, x = .inr s ∧ R s p, ?_, ?_, ?_, h3, ⟨t, rfl, h4⟩, h5⟩
  · constructor
    · rintro _ p ⟨s, rfl, h⟩; exact h1.depth s p h
    · rintro _ τ c p ⟨s, rfl, h⟩
      obtain ⟨s', e1, e2⟩ := h1.next s τ c p h
      exact ⟨.inr s', by simp [sum, e1], s', rfl, e2⟩
    · rintro _ p q τ c ⟨s, rfl, h⟩; exact h1.current s p q τ c h
    · rintro _ e p ⟨s, rfl, h⟩
      obtain ⟨s', e1, e2⟩ := h1.up s e p h
      exact ⟨.inr s', by simp [sum, e1], s', rfl, e2⟩
    · rintro _ p τ ⟨s, rfl, h⟩ hf hl
      obtain ⟨s', e1, e2⟩ := h1.down s p τ h hf hl
      exact ⟨.inr s', by simp [sum, e1], s', rfl, e2⟩
  · rintro hsk _ c p v ⟨s, rfl, h⟩
    obtain ⟨s', e1, e2⟩ := h2 hsk s c p v h
    exact ⟨.inr s', by simp [sum, e1], s', rfl, e2⟩
  · rintro hsk _ p q τ c ⟨s, rfl, h⟩; exact hc hsk s p q τ c h

theorem sum_inl_denotes {I : PScan S α} {J : PScan T α} {m : Mode} {x : Option S} {n : Nat}
    {rows : List α → Prop} (h : Denotes I m x n rows) : Denotes (sum I J) m (x.map .inl) n rows := by
  cases x with
  | none => exact h
  | some s => exact sum_inl h

theorem sum_inr_denotes {I : PScan S α} {J : PScan T α} {m : Mode} {x : Option T} {n : Nat}
    {rows : List α → Prop} (h : Denotes J m x n rows) : Denotes (sum I J) m (x.map .inr) n rows := by
  cases x with
  | none => exact h
  | some s => exact sum_inr h

/-- dispatch between a family of scans -/
def sigma {ι : Type} {T : ι → Type} (I : ∀ i, PScan (T i) α) : PScan (Σ i, T i) α where
  depth s := (I s.1).depth s.2
  up s := ((I s.1).up s.2).map fun r => ⟨s.1, r⟩
  down s τ := ((I s.1).down s.2 τ).map fun r => ⟨s.1, r⟩
  next s τ := ((I s.1).next s.2 τ).map fun r => (r.1, ⟨s.1, r.2⟩)
  seek s v := ((I s.1).seek s.2 v).map fun r => (r.1, ⟨s.1, r.2⟩)
  current s := (I s.1).current s.2
  arity s := (I s.1).arity s.2
  types s := (I s.1).types s.2

theorem sigma_mk {ι : Type} {T : ι → Type} {I : ∀ i, PScan (T i) α} {i : ι} {m : Mode} {s : T i} {n : Nat}
    {rows : List α → Prop} (h : IsTable (I i) m s n rows) : IsTable (sigma I) m ⟨i, s⟩ n rows := by
  obtain ⟨h0, ch, R, h1, h2, hc, h3, h4, h5⟩ := h
  refine ⟨h0, ch, fun x p => ∃ s : T i, x = ⟨i, s⟩ ∧ R s p, ?_, ?_, ?_, h3, ⟨s, rfl, h4⟩, h5⟩
  · constructor
    · rintro _ p ⟨s, rfl, h⟩; exact h1.depth s p h
    · rintro _ τ c p ⟨s, rfl, h⟩
      obtain ⟨s', e1, e2⟩ := h1.next s τ c p h
      exact ⟨⟨i, s'⟩, by simp [sigma, e1], s', rfl, e2⟩
    · rintro _ p q τ c ⟨s, rfl, h⟩; exact h1.current s p q τ c h
    · rintro _ e p ⟨s, rfl, h⟩
      obtain ⟨s', e1, e2⟩ := h1.up s e p h
      exact ⟨⟨i, s'⟩, by simp [sigma, e1], s', rfl, e2⟩
    · rintro _ p τ ⟨s, rfl, h⟩ hf hl
      obtain ⟨s', e1, e2⟩ := h1.down s p τ h hf hl
      exact ⟨⟨i, s'⟩, by simp [sigma, e1], s', rfl, e2⟩
  · rintro hsk _ c p v ⟨s, rfl, h⟩
    obtain ⟨s', e1, e2⟩ := h2 hsk s c p v h
    exact ⟨⟨i, s'⟩, by simp [sigma, e1], s', rfl, e2⟩
  · rintro hsk _ p q τ c ⟨s, rfl, h⟩; exact hc hsk s p q τ c h

end PScan

/-! ## Scans of any kind -/

/-- `TrieScanEnum` (triescan.rs:62-73): a partial trie scan of some kind.  In Rust the enumeration has
one variant for each operator (and one for the scan of a stored trie) and forwards every call to the
variant; here a scan is its interface together with its state. -/
structure AnyScan (α : Type) [SVal α] where
  S : Type
  I : PScan S α
  s : S

/-- `x : Option<TrieScanEnum>` is the table with the given rows (`None` is empty); as far
as the mode asks. -/
def Tab (m : Mode) (x : Option (AnyScan α)) (n : Nat) (rows : List α → Prop) : Prop :=
  match x with
  | none => ∀ r, ¬ rows r
  | some a => IsTable a.I m a.s n rows

theorem Tab.congr {m : Mode} {x : Option (AnyScan α)} {n : Nat} {rows rows' : List α → Prop}
    (h : Tab m x n rows) (he : ∀ r, rows r ↔ rows' r) : Tab m x n rows' := by
  cases x with
  | none => exact fun r hr => h r ((he r).mpr hr)
  | some a => exact IsTable.congr h he

theorem Tab.weaken {m m' : Mode} {x : Option (AnyScan α)} {n : Nat} {rows : List α → Prop}
    (h : Tab m x n rows) (hm : m'.le m) : Tab m' x n rows := by
  cases x with
  | none => exact h
  | some a => exact IsTable.weaken h hm

theorem Tab.length {m : Mode} {x : Option (AnyScan α)} {n : Nat} {rows : List α → Prop}
    (h : Tab m x n rows) {r : List α} (hr : rows r) : r.length = n := by
  cases x with
  | none => exact absurd hr (h r)
  | some a => exact IsTable.length h hr

namespace AnyScan

/-- several scans seen as scans of one kind -/
def family {n : Nat} (x : Fin n → AnyScan α) : PScan (Σ i, (x i).S) α := PScan.sigma fun i => (x i).I

/-- state of scan `i` -/
def start {n : Nat} (x : Fin n → AnyScan α) (i : Fin n) : Σ i, (x i).S := ⟨i, (x i).s⟩

theorem family_start {n k : Nat} {x : Fin n → AnyScan α} {i : Fin n} {m : Mode} {rows : List α → Prop}
    (h : IsTable (x i).I m (x i).s k rows) : IsTable (family x) m (start x i) k rows :=
  PScan.sigma_mk h

/-- a scan that is never used -/
def dummy : AnyScan α :=
  ⟨Unit, ⟨⟨fun _ => 0, fun _ => none, fun _ _ => none, fun _ _ => none, fun _ _ => none, fun _ _ _ => none⟩,
    fun _ => 0, fun _ _ => []⟩, ()⟩

end AnyScan
end Verif
