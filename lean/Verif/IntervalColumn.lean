import Verif.ColumnVector
import Mathlib.Data.Fin.Basic
import Mathlib.Order.Fin.Basic
import Mathlib.Data.List.Induction
import Mathlib.Data.List.Lex

/-!
# Interval columns

Model of `/repo/nemo-physical/src/columnar/intervalcolumn.rs` and
`/repo/nemo-physical/src/columnar/intervalcolumn/interval_lookup/lookup_column.rs`.

A layer of a trie stores, for each of the five storage types, all the values of this type in one
data column; a second column stores where the intervals start, and a lookup column per type of
the previous layer maps the position of a value in the previous layer to its interval.

Columns are lists here: that a finished column returns exactly what was added to its builder is
property C01 (`PropColumns.lean`).
-/

set_option linter.unusedSimpArgs false
set_option linter.unusedSectionVars false

namespace Verif

/-- `StorageTypeName` (/repo/nemo-physical/src/datatypes/storage_type_name.rs:17-29), in its order
`Id32 < Id64 < Int64 < Float < Double`. -/
abbrev Ty := Fin 5

/-- Storage values (`StorageValueT`, /repo/nemo-physical/src/datatypes/storage_value.rs:16-28): a
linear order with a type.  The derived order of the enum compares the type first. -/
class SVal (α : Type) extends LinearOrder α where
  ty : α → Ty
  ty_mono : ∀ a b : α, a ≤ b → ty a ≤ ty b

export SVal (ty)

/-- `IntervalLookupColumn` (lookup_column.rs:19-30).  The marker `EMPTY = usize::MAX` is `none`. -/
structure Lookup where
  lookup : List (Option Nat) := []
  simple : Bool := false

namespace Lookup

/-- `IntervalLookupColumnBuilder::add_interval` (lookup_column.rs:76-86). -/
def addInterval (l : Lookup) (intervalCount : Nat) : Lookup :=
  let simple := if l.lookup.length = 0 ∧ intervalCount = 0 then true else l.simple
  let simple := if simple ∧ l.lookup.length ≠ intervalCount then false else simple
  { lookup := l.lookup ++ [some intervalCount], simple := simple }

/-- `IntervalLookupColumnBuilder::add_empty` (lookup_column.rs:88-91). -/
def addEmpty (l : Lookup) : Lookup :=
  { lookup := l.lookup ++ [none], simple := false }

/-- `IntervalLookupColumn::interval_index` (lookup_column.rs:40-54); the outer `none` is an
out-of-bounds panic. -/
def intervalIndex (l : Lookup) (index : Nat) : Option (Option Nat) :=
  if l.simple then some (some index) else l.lookup[index]?

end Lookup

/-- `IntervalColumn` (intervalcolumn.rs:25-53), also used for `IntervalColumnBuilder` (211-221):
the builder has the additional field `last_data_count`. -/
structure ICol (α : Type) where
  data : List α := []
  intervals : List Nat := []
  lookup : Ty → Lookup := fun _ => {}
  last : Nat := 0

namespace ICol
variable {α : Type}

/-- `IntervalColumnBuilder::add_data` (intervalcolumn.rs:243-245). -/
def addData (c : ICol α) (v : α) : ICol α := { c with data := c.data ++ [v] }

/-- `IntervalColumnBuilder::finish_interval` (intervalcolumn.rs:247-257). -/
def finishInterval (c : ICol α) (σ : Ty) : ICol α :=
  if c.last < c.data.length then
    { c with
      lookup := Function.update c.lookup σ ((c.lookup σ).addInterval c.intervals.length)
      intervals := c.intervals ++ [c.last]
      last := c.data.length }
  else
    { c with
      lookup := Function.update c.lookup σ (c.lookup σ).addEmpty
      last := c.data.length }

/-- `IntervalColumnBuilder::finalize` (intervalcolumn.rs:259-267). -/
def finalize (c : ICol α) : ICol α := { c with intervals := c.intervals ++ [c.data.length] }

/-- `IntervalColumn::interval_bounds` (intervalcolumn.rs:60-71); the outer `none` is a panic. -/
def bounds (c : ICol α) (σ : Ty) (index : Nat) : Option (Option (Nat × Nat)) := do
  let i ← (c.lookup σ).intervalIndex index
  match i with
  | none => return none
  | some i =>
    let a ← c.intervals[i]?
    let b ← c.intervals[i + 1]?
    return some (a, b)

end ICol

/-- `IntervalColumnT` (intervalcolumn.rs:102-116): one interval column per storage type. -/
abbrev Layer (α : Type) := Ty → ICol α

namespace Layer
variable {α : Type}

/-- The default builders (intervalcolumn.rs:223-236). -/
def empty : Layer α := fun _ => {}

/-- Dispatch of a value to the builder of its type (intervalcolumn.rs:315-325, 421-429). -/
def addValue [SVal α] (l : Layer α) (v : α) : Layer α :=
  Function.update l (ty v) ((l (ty v)).addData v)

/-- All five builders finish an interval (intervalcolumn.rs:353-357, 433-438). -/
def finishAll (l : Layer α) (σ : Ty) : Layer α := fun τ => (l τ).finishInterval σ

/-- All five builders are finalized (intervalcolumn.rs:363-371, 447-453). -/
def finalizeAll (l : Layer α) : Layer α := fun τ => (l τ).finalize

/-- `IntervalColumnT::num_data` (intervalcolumn.rs:188-194). -/
def numData (l : Layer α) : Nat :=
  (l 0).data.length + (l 1).data.length + (l 2).data.length + (l 3).data.length +
    (l 4).data.length

end Layer

/-- `IntervalColumnTBuilderMatrix` (intervalcolumn.rs:275-292). -/
structure MBuilder (α : Type) where
  layer : Layer α := Layer.empty
  cur : Option α := none

namespace MBuilder
variable {α : Type} [SVal α]

/-- `commit_value` (intervalcolumn.rs:315-325). -/
def commitValue (b : MBuilder α) : MBuilder α :=
  match b.cur with
  | some v => { b with layer := b.layer.addValue v }
  | none => b

/-- `add_value` (intervalcolumn.rs:330-347). -/
def addValue (b : MBuilder α) (v : α) : Bool × MBuilder α :=
  match b.cur with
  | none => (true, { b with cur := some v })
  | some w => if w ≠ v then (true, { b.commitValue with cur := some v }) else (false, b)

/-- `finish_interval` (intervalcolumn.rs:350-360). -/
def finishInterval (b : MBuilder α) (σ : Ty) : MBuilder α :=
  { layer := b.commitValue.layer.finishAll σ, cur := none }

/-- `finalize` (intervalcolumn.rs:363-371). -/
def finalize (b : MBuilder α) : Layer α := b.layer.finalizeAll

end MBuilder

/-- `IntervalColumnTBuilderTriescan` (intervalcolumn.rs:377-396). -/
structure TBuilder (α : Type) where
  layer : Layer α := Layer.empty
  prev : Ty := 0

namespace TBuilder
variable {α : Type} [SVal α]

/-- `new` (intervalcolumn.rs:407-418). -/
def new (σ : Option Ty) : TBuilder α := { prev := σ.getD 0 }

/-- `add_value` (intervalcolumn.rs:421-429). -/
def addValue (b : TBuilder α) (v : α) : TBuilder α := { b with layer := b.layer.addValue v }

/-- `finish_interval` (intervalcolumn.rs:432-441). -/
def finishInterval (b : TBuilder α) (σ : Ty) : TBuilder α :=
  { layer := b.layer.finishAll b.prev, prev := σ }

/-- `finalize` (intervalcolumn.rs:444-454). -/
def finalize (b : TBuilder α) : Layer α := (b.finishInterval 0).layer.finalizeAll

end TBuilder

/-! ## What a builder run produces

`G` lists the nodes of the previous layer in order: the type of the node and its children. -/

section build
variable {α : Type} [SVal α]

/-- Run of a builder over all nodes of the previous layer. -/
def buildRaw (G : List (Ty × List α)) : Layer α :=
  G.foldl (fun l g => (g.2.foldl Layer.addValue l).finishAll g.1) Layer.empty

/-- the children of type `τ` -/
def keysOf (τ : Ty) (ks : List α) : List α := ks.filter (ty · = τ)

/-- all children of type `τ` of all nodes -/
def allKeys (τ : Ty) (G : List (Ty × List α)) : List α := keysOf τ (G.flatMap (·.2))

/-- start positions of the intervals of type `τ`, from offset `o` -/
def starts (τ : Ty) : Nat → List (Ty × List α) → List Nat
  | _, [] => []
  | o, g :: G =>
    if keysOf τ g.2 = [] then starts τ o G
    else o :: starts τ (o + (keysOf τ g.2).length) G

/-- lookup entries of type `τ` for the nodes of type `σ`, when `q` intervals exist already -/
def entries (τ σ : Ty) : Nat → List (Ty × List α) → List (Option Nat)
  | _, [] => []
  | q, g :: G =>
    if keysOf τ g.2 = [] then (if g.1 = σ then [none] else []) ++ entries τ σ q G
    else (if g.1 = σ then [some q] else []) ++ entries τ σ (q + 1) G

theorem keysOf_append (τ : Ty) (a b : List α) : keysOf τ (a ++ b) = keysOf τ a ++ keysOf τ b := by
  simp [keysOf]

theorem allKeys_cons (τ : Ty) (g : Ty × List α) (G) :
    allKeys τ (g :: G) = keysOf τ g.2 ++ allKeys τ G := by
  simp [allKeys, keysOf_append]

theorem allKeys_append (τ : Ty) (G H : List (Ty × List α)) :
    allKeys τ (G ++ H) = allKeys τ G ++ allKeys τ H := by
  simp [allKeys, keysOf_append]

theorem starts_append (τ : Ty) (o : Nat) (G H : List (Ty × List α)) :
    starts τ o (G ++ H) = starts τ o G ++ starts τ (o + (allKeys τ G).length) H := by
  induction G generalizing o with
  | nil => simp [starts, allKeys, keysOf]
  | cons g G ih =>
    simp only [List.cons_append, starts, allKeys_cons]
    split
    · next h => simp [ih, h]
    · next h => simp [ih, Nat.add_assoc]

theorem entries_append (τ σ : Ty) (q : Nat) (G H : List (Ty × List α)) :
    entries τ σ q (G ++ H) = entries τ σ q G ++ entries τ σ (q + (starts τ 0 G).length) H := by
  have len : ∀ o o' (G : List (Ty × List α)),
      (starts τ o G).length = (starts τ o' G).length := by
    intro o o' G
    induction G generalizing o o' with
    | nil => rfl
    | cons g G ih =>
      simp only [starts]; split
      · exact ih _ _
      · simp [ih _ (o' + (keysOf τ g.2).length)]
  induction G generalizing q with
  | nil => simp [starts, entries]
  | cons g G ih =>
    simp only [List.cons_append, starts, entries]
    split
    · next h => simp [ih]
    · next h =>
      simp only [ih, List.length_cons, List.append_assoc]
      rw [len (0 + (keysOf τ g.2).length) 0]
      congr 3; omega

theorem foldl_addValue_data (ks : List α) (l : Layer α) (τ : Ty) :
    (ks.foldl Layer.addValue l) τ = { l τ with data := (l τ).data ++ keysOf τ ks } := by
  induction ks generalizing l with
  | nil => simp [keysOf]
  | cons k ks ih =>
    rw [List.foldl_cons, ih, Layer.addValue]
    by_cases h : ty k = τ
    · subst h; simp [keysOf, ICol.addData]
    · rw [Function.update_of_ne (Ne.symm h)]; simp [keysOf, h]

theorem buildRaw_append (G : List (Ty × List α)) (g : Ty × List α) :
    buildRaw (G ++ [g]) = (g.2.foldl Layer.addValue (buildRaw G)).finishAll g.1 := by
  simp [buildRaw, List.foldl_append]

/-- the state of the builders after a run -/
theorem buildRaw_spec (G : List (Ty × List α)) (τ : Ty) :
    (buildRaw G τ).data = allKeys τ G ∧ (buildRaw G τ).last = (allKeys τ G).length ∧
    (buildRaw G τ).intervals = starts τ 0 G ∧
    (∀ σ, ((buildRaw G τ).lookup σ).lookup = entries τ σ 0 G) ∧
    (∀ σ, ((buildRaw G τ).lookup σ).simple = true →
      ∀ (i : Nat) (x : Option Nat), (entries τ σ 0 G)[i]? = some x → x = some i) := by
  induction G using List.reverseRecOn with
  | nil => simp [buildRaw, Layer.empty, allKeys, keysOf, starts, entries]
  | append_singleton G g ih =>
    obtain ⟨h1, h2, h3, h4, h5⟩ := ih
    rw [buildRaw_append, allKeys_append, starts_append]
    have hk : allKeys τ [g] = keysOf τ g.2 := by simp [allKeys]
    simp only [entries_append, hk, Layer.finishAll, foldl_addValue_data]
    simp only [ICol.finishInterval, h1, h2, List.length_append]
    by_cases h0 : keysOf τ g.2 = []
    · simp only [h0, List.length_nil, Nat.add_zero, lt_irrefl, if_false, List.append_nil,
        starts, if_true, entries, h3, true_and]
      refine ⟨fun σ => ?_, fun σ hσ => ?_⟩
      · by_cases hs : g.1 = σ
        · subst hs; simp [Lookup.addEmpty, h4]
        · rw [Function.update_of_ne (Ne.symm hs)]; simp [hs, h4]
      · by_cases hs : g.1 = σ
        · subst hs; simp [Lookup.addEmpty] at hσ
        · rw [Function.update_of_ne (Ne.symm hs)] at hσ
          simpa [hs] using h5 σ hσ
    · have hlen : 0 < (keysOf τ g.2).length := List.length_pos_iff.mpr h0
      rw [if_pos (by omega)]
      simp only [h0, if_false, starts, entries, h3, List.append_nil, Nat.zero_add, true_and]
      refine ⟨fun σ => ?_, fun σ hσ i x hx => ?_⟩
      · by_cases hs : g.1 = σ
        · subst hs; simp [Lookup.addInterval, h4]
        · rw [Function.update_of_ne (Ne.symm hs)]; simp [hs, h4]
      · by_cases hs : g.1 = σ
        · subst hs
          simp only [Function.update_self, Lookup.addInterval, h4] at hσ
          simp only [if_true] at hx
          have hlen' : (entries τ g.1 0 G).length = (starts τ 0 G).length := by
            by_contra hne
            simp [hne] at hσ
            rcases hσ with ⟨⟨_, h'⟩, ⟨a, b⟩ | c⟩
            · exact hne (by simp [a, b])
            · rw [h'] at c; cases c
          rw [List.getElem?_append] at hx
          split at hx
          · next hi =>
            refine h5 g.1 ?_ i x hx
            have hne : ¬ (entries τ g.1 0 G).length = 0 := by omega
            have hne' : ¬ entries τ g.1 0 G = [] := fun e => hne (by simp [e])
            simp only [hlen'] at hσ
            simpa [hne', hlen' ▸ hne] using hσ
          · next hi =>
            rw [List.getElem?_singleton] at hx
            split at hx
            · cases hx
              congr 1; omega
            · cases hx
        · rw [Function.update_of_ne (Ne.symm hs)] at hσ
          simp only [hs, if_false, List.append_nil] at hx
          exact h5 σ hσ i x hx

/-- If a node `g` of the previous layer comes after the nodes `G₁`, then its interval for the type
`τ` contains exactly its children of type `τ`; the interval starts after all children of type `τ`
of the earlier nodes. -/
theorem bounds_spec (G₁ G₂ : List (Ty × List α)) (g : Ty × List α) (τ : Ty) :
    let c := (buildRaw (G₁ ++ g :: G₂)).finalizeAll τ
    ∃ r, c.bounds g.1 (G₁.filter (·.1 = g.1)).length = some r ∧
      ((r = none ∧ keysOf τ g.2 = []) ∨
       (r = some ((allKeys τ G₁).length, (allKeys τ G₁).length + (keysOf τ g.2).length) ∧
        keysOf τ g.2 ≠ [])) := by
  intro c
  obtain ⟨h1, h2, h3, h4, h5⟩ := buildRaw_spec (G₁ ++ g :: G₂) τ
  have elen : ∀ σ q (G : List (Ty × List α)),
      (entries τ σ q G).length = (G.filter (·.1 = σ)).length := by
    intro σ q G
    induction G generalizing q with
    | nil => rfl
    | cons g G ih =>
      simp only [entries]
      by_cases hs : g.1 = σ
      · by_cases hk : keysOf τ g.2 = [] <;> simp [hs, hk, ih]
      · by_cases hk : keysOf τ g.2 = [] <;> simp [hs, hk, ih]
  -- the lookup entry
  have hentry : (entries τ g.1 0 (G₁ ++ g :: G₂))[(G₁.filter (·.1 = g.1)).length]? =
      some (if keysOf τ g.2 = [] then none else some (starts τ 0 G₁).length) := by
    rw [entries_append, List.getElem?_append_right (by rw [elen])]
    rw [elen, Nat.sub_self]
    by_cases hk : keysOf τ g.2 = [] <;> simp [entries, hk]
  have hidx : (c.lookup g.1).intervalIndex (G₁.filter (·.1 = g.1)).length =
      some (if keysOf τ g.2 = [] then none else some (starts τ 0 G₁).length) := by
    have hc : c.lookup g.1 = (buildRaw (G₁ ++ g :: G₂) τ).lookup g.1 := rfl
    rw [hc, Lookup.intervalIndex]
    split
    · next hsimple =>
      have := h5 g.1 hsimple _ _ hentry
      rw [this]
    · rw [h4, hentry]
  have hint : c.intervals = starts τ 0 (G₁ ++ g :: G₂) ++ [(allKeys τ (G₁ ++ g :: G₂)).length] := by
    simp only [c, Layer.finalizeAll, ICol.finalize, h3, h1]
  by_cases hk : keysOf τ g.2 = []
  · refine ⟨none, ?_, .inl ⟨rfl, hk⟩⟩
    simp [ICol.bounds, hidx, hk]
  · refine ⟨some ((allKeys τ G₁).length, (allKeys τ G₁).length + (keysOf τ g.2).length), ?_,
      .inr ⟨rfl, hk⟩⟩
    have hstarts : starts τ 0 (G₁ ++ g :: G₂) = starts τ 0 G₁ ++ (allKeys τ G₁).length ::
        starts τ ((allKeys τ G₁).length + (keysOf τ g.2).length) G₂ := by
      rw [starts_append]; simp [starts, hk]
    have hi1 : c.intervals[(starts τ 0 G₁).length]? = some (allKeys τ G₁).length := by
      rw [hint, hstarts]; simp
    have hi2 : c.intervals[(starts τ 0 G₁).length + 1]? =
        some ((allKeys τ G₁).length + (keysOf τ g.2).length) := by
      rw [hint, hstarts]
      simp only [List.append_assoc, List.cons_append]
      rw [List.getElem?_append_right (by omega), Nat.add_sub_cancel_left, List.getElem?_cons_succ]
      have : ∀ o (G : List (Ty × List α)),
          (starts τ o G ++ [o + (allKeys τ G).length])[0]? = some o := by
        intro o G
        induction G generalizing o with
        | nil => simp [starts, allKeys, keysOf]
        | cons g G ih =>
          simp only [starts, allKeys_cons]
          by_cases h : keysOf τ g.2 = []
          · simpa [h] using ih o
          · simp [h]
      have h' := this ((allKeys τ G₁).length + (keysOf τ g.2).length) G₂
      rw [allKeys_append, allKeys_cons]
      simpa [Nat.add_assoc] using h'
    simp [ICol.bounds, hidx, hk, hi1, hi2]

/-- the data column of type `τ` -/
theorem finalize_data (G : List (Ty × List α)) (τ : Ty) :
    ((buildRaw G).finalizeAll τ).data = allKeys τ G := (buildRaw_spec G τ).1

end build

end Verif
