import Verif.Cursor

/-!
# `slice::binary_search` of the Rust standard library

The code under verification calls `binary_search` (e.g. column/rle.rs:75-81, 320-325).  This is
library code; we model the published algorithm of `core::slice::binary_search_by` and derive the
contract used in the proofs, including its behaviour on lists that are not sorted.
-/

set_option linter.unusedSimpArgs false

namespace Verif
variable {α : Type} [LinearOrder α]

/-- Halving loop of `core::slice::binary_search_by`: `base` moves to `mid` unless the element at
`mid` is greater than `v`. -/
def bsLoop (xs : List α) (v : α) (base size : Nat) : Option Nat :=
  if 1 < size then
    let half := size / 2
    let mid := base + half
    do
      let x ← xs[mid]?
      bsLoop xs v (if v < x then base else mid) (size - half)
  else some base
termination_by size
decreasing_by omega

/-- `binary_search` (`core::slice`): `.inl i` is `Ok(i)`, `.inr i` is `Err(i)`; `none`: out of
bounds access (never happens, see `binarySearch_spec`). -/
def binarySearch (xs : List α) (v : α) : Option (Nat ⊕ Nat) :=
  if xs.length = 0 then some (.inr 0) else do
    let base ← bsLoop xs v 0 xs.length
    let x ← xs[base]?
    if x = v then return .inl base
    else if x < v then return .inr (base + 1)
    else return .inr base

theorem bsLoop_spec (xs : List α) (v : α) (n : Nat) : ∀ base size, size ≤ n → 0 < size →
    base + size ≤ xs.length →
    (0 < base → ∀ h : base < xs.length, xs[base] ≤ v) →
    ∃ b, bsLoop xs v base size = some b ∧ base ≤ b ∧ b < base + size ∧
      (0 < b → ∀ h : b < xs.length, xs[b] ≤ v) ∧
      (Asc xs → (∀ j (h : j < xs.length), base + size ≤ j → v < xs[j]) →
        ∀ j (h : j < xs.length), b < j → v < xs[j]) := by
  induction n with
  | zero => intro base size h1 h2; omega
  | succ n ih =>
    intro base size h1 h2 h3 h4
    rw [bsLoop]
    by_cases hs : 1 < size
    · have hm : base + size / 2 < xs.length := by omega
      simp only [hs, if_true, List.getElem?_eq_getElem hm, Option.bind_eq_bind, Option.bind_some]
      by_cases hx : v < xs[base + size / 2]
      · simp only [hx, if_true]
        obtain ⟨b, e1, e2, e3, e4, e5⟩ := ih base (size - size / 2) (by omega) (by omega) (by omega) h4
        refine ⟨b, e1, e2, by omega, e4, fun ha hj => e5 ha fun j h hle => ?_⟩
        by_cases hc : j = base + size / 2
        · subst hc; exact hx
        · have : xs[base + size / 2] < xs[j] :=
            List.pairwise_iff_getElem.mp ha _ _ hm h (by omega)
          exact hx.trans this
      · simp only [hx, if_false]
        obtain ⟨b, e1, e2, e3, e4, e5⟩ := ih (base + size / 2) (size - size / 2) (by omega) (by omega)
          (by omega) (fun _ _ => not_lt.mp hx)
        exact ⟨b, e1, by omega, by omega, e4, fun ha hj => e5 ha fun j h hle => hj j h (by omega)⟩
    · simp only [hs, if_false]
      exact ⟨base, rfl, le_refl _, by omega, h4, fun _ hj j h hlt => hj j h (by omega)⟩

/-- Contract of `binary_search` on arbitrary slices. -/
theorem binarySearch_spec (xs : List α) (v : α) :
    (∃ i, ∃ h : i < xs.length, binarySearch xs v = some (.inl i) ∧ xs[i] = v) ∨
    (∃ i, binarySearch xs v = some (.inr i) ∧ i ≤ xs.length ∧
      (0 < i → ∀ h : i - 1 < xs.length, xs[i - 1] < v)) := by
  unfold binarySearch
  by_cases h0 : xs.length = 0
  · right; exact ⟨0, by simp [h0], by omega, by omega⟩
  · obtain ⟨b, e1, _, e3, e4, _⟩ := bsLoop_spec xs v _ 0 xs.length (le_refl _) (by omega) (by omega)
      (by omega)
    have hb : b < xs.length := by omega
    simp only [h0, if_false, e1, List.getElem?_eq_getElem hb, Option.bind_eq_bind, Option.bind_some]
    by_cases hv : xs[b] = v
    · left; exact ⟨b, hb, by simp [hv], hv⟩
    · right
      by_cases hl : xs[b] < v
      · exact ⟨b + 1, by simp [hv, hl], by omega, fun _ h => hl⟩
      · refine ⟨b, by simp [hv, hl], by omega, fun h _ => ?_⟩
        exact absurd (lt_of_le_of_ne (e4 h hb) hv) hl

/-- Contract of `binary_search` on strictly sorted slices. -/
theorem binarySearch_sorted (xs : List α) (v : α) (ha : Asc xs) :
    (∃ i, ∃ h : i < xs.length, binarySearch xs v = some (.inl i) ∧ xs[i] = v) ∨
    (∃ i, binarySearch xs v = some (.inr i) ∧ i ≤ xs.length ∧
      (∀ j (h : j < xs.length), j < i → xs[j] < v) ∧
      (∀ j (h : j < xs.length), i ≤ j → v < xs[j])) := by
  unfold binarySearch
  by_cases h0 : xs.length = 0
  · right; exact ⟨0, by simp [h0], by omega, by omega, fun j h => by omega⟩
  · obtain ⟨b, e1, _, e3, e4, e5⟩ := bsLoop_spec xs v _ 0 xs.length (le_refl _) (by omega) (by omega)
      (by omega)
    have hb : b < xs.length := by omega
    have e5 := e5 ha (fun j h hle => by omega)
    simp only [h0, if_false, e1, List.getElem?_eq_getElem hb, Option.bind_eq_bind, Option.bind_some]
    by_cases hv : xs[b] = v
    · left; exact ⟨b, hb, by simp [hv], hv⟩
    · right
      by_cases hl : xs[b] < v
      · refine ⟨b + 1, by simp [hv, hl], by omega, fun j h hj => ?_, fun j h hj => e5 j h (by omega)⟩
        by_cases hc : j = b
        · subst hc; exact hl
        · exact (List.pairwise_iff_getElem.mp ha j b h hb (by omega)).trans hl
      · have hvb : v < xs[b] := lt_of_le_of_ne (not_lt.mp hl) (Ne.symm hv)
        have hb0 : b = 0 := by
          by_contra hne
          exact absurd (e4 (by omega) hb) (not_le.mpr hvb)
        refine ⟨b, by simp [hv, hl], by omega, fun j h hj => by omega, fun j h hj => ?_⟩
        by_cases hc : j = b
        · subst hc; exact hvb
        · exact e5 j h (by omega)

end Verif
