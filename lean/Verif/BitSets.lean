import Mathlib.Data.Nat.Bitwise
import Mathlib.Data.Set.Basic
import Mathlib.Data.List.Basic
import Mathlib.Tactic.Ring

/-!
# Bit sets

Model of `/repo/nemo-physical/src/util/bitset.rs` and of `StorageTypeBitSet`
(`/repo/nemo-physical/src/datatypes/storage_type_name.rs:80-131`).
-/

namespace Verif

/-- `BitSet<T>` (bitset.rs:33) for a word of `w` bits (`u32`: 32, `u64` and `usize`: 64) -/
structure BSet (w : Nat) where
  word : BitVec w
deriving DecidableEq

namespace BSet
variable {w : Nat}

/-- `empty` (bitset.rs:40-42) -/
def empty : BSet w := ⟨0#w⟩

/-- `full` (bitset.rs:45-50); shifting by `w` or more panics, and is excluded by the theorems. -/
def full (elements : Nat) : BSet w := ⟨(1#w <<< elements) - 1#w⟩

/-- `single` (bitset.rs:53-55) -/
def single (i : Nat) : BSet w := ⟨1#w <<< i⟩

/-- `intersection` (bitset.rs:74-76) -/
def inter (a b : BSet w) : BSet w := ⟨a.word &&& b.word⟩

/-- `union` (bitset.rs:79-81) -/
def union (a b : BSet w) : BSet w := ⟨a.word ||| b.word⟩

/-- `set` (bitset.rs:58-66) -/
def set (a : BSet w) (i : Nat) (v : Bool) : BSet w :=
  if v then a.union (single i) else a.inter ⟨~~~(1#w <<< i)⟩

/-- `get` (bitset.rs:69-71) -/
def get (a : BSet w) (i : Nat) : Bool := a.inter (single i) != empty

/-- `is_single` (bitset.rs:84-86) -/
def isSingle (a : BSet w) : Bool := a.word != 0#w && a.word &&& (a.word - 1#w) == 0#w

/-- `subset` (bitset.rs:89-91) -/
def subset (a b : BSet w) : Bool := a.inter b == b

/-! ## Specification: the set of positions that `get` reports -/

/-- the elements -/
def elems (a : BSet w) : Set Nat := {i | i < w ∧ a.get i = true}

theorem shift_bit {i j : Nat} (hi : i < w) : (1#w <<< i).getLsbD j = decide (j = i) := by
  rw [BitVec.getLsbD_shiftLeft]
  by_cases h : j = i
  · subst h; simp [hi]; omega
  · by_cases hj : j < i
    · simp [hj, h]
    · have : j - i ≠ 0 := by omega
      simp [h, BitVec.getLsbD_one, this]

theorem get_eq (a : BSet w) {i : Nat} (hi : i < w) : a.get i = a.word.getLsbD i := by
  rw [get, bne, Bool.eq_iff_iff]
  simp only [inter, single, empty, Bool.not_eq_true', beq_eq_false_iff_ne, ne_eq, mk.injEq]
  constructor
  · intro h
    by_contra hc
    apply h
    apply BitVec.eq_of_getLsbD_eq
    intro j hj
    rw [BitVec.getLsbD_and, shift_bit hi]
    by_cases he : j = i
    · subst he; simpa using hc
    · simp [he]
  · intro h hz
    have := congrArg (fun x : BitVec w => x.getLsbD i) hz
    simp only [BitVec.getLsbD_and, shift_bit hi, h] at this
    simp at this

theorem mem_elems {a : BSet w} {i : Nat} : i ∈ a.elems ↔ i < w ∧ a.word.getLsbD i = true := by
  constructor
  · rintro ⟨h1, h2⟩; exact ⟨h1, by rwa [get_eq a h1] at h2⟩
  · rintro ⟨h1, h2⟩; exact ⟨h1, by rwa [get_eq a h1]⟩

/-- **C34** Bit sets are determined by their elements. -/
theorem ext_elems {a b : BSet w} (h : a.elems = b.elems) : a = b := by
  obtain ⟨a⟩ := a
  obtain ⟨b⟩ := b
  congr 1
  apply BitVec.eq_of_getLsbD_eq
  intro i hi
  have h1 : i ∈ (BSet.mk a).elems ↔ i ∈ (BSet.mk b).elems := by rw [h]
  rw [mem_elems, mem_elems] at h1
  rw [Bool.eq_iff_iff]
  exact ⟨fun hh => (h1.1 ⟨hi, hh⟩).2, fun hh => (h1.2 ⟨hi, hh⟩).2⟩

/-- **C34** -/
theorem elems_empty : (empty : BSet w).elems = ∅ := by
  ext i
  rw [mem_elems]
  simp [empty]

/-- **C34** -/
theorem elems_single {i : Nat} (hi : i < w) : (single i : BSet w).elems = {i} := by
  ext j
  rw [mem_elems, single]
  simp only [shift_bit hi, decide_eq_true_eq, Set.mem_singleton_iff]
  exact ⟨fun h => h.2, fun h => ⟨h ▸ hi, h⟩⟩

/-- **C34** -/
theorem elems_union (a b : BSet w) : (a.union b).elems = a.elems ∪ b.elems := by
  ext i
  rw [Set.mem_union, mem_elems, mem_elems, mem_elems, union, BitVec.getLsbD_or, Bool.or_eq_true]
  tauto

/-- **C34** -/
theorem elems_inter (a b : BSet w) : (a.inter b).elems = a.elems ∩ b.elems := by
  ext i
  rw [Set.mem_inter_iff, mem_elems, mem_elems, mem_elems, inter, BitVec.getLsbD_and, Bool.and_eq_true]
  tauto

/-- **C34** -/
theorem elems_set (a : BSet w) {i : Nat} (hi : i < w) (v : Bool) :
    (a.set i v).elems = if v then a.elems ∪ {i} else a.elems \ {i} := by
  cases v with
  | true => simp only [set, if_true, elems_union, elems_single hi]
  | false =>
    simp only [set, Bool.false_eq_true, if_false, elems_inter]
    ext j
    rw [Set.mem_inter_iff, Set.mem_sdiff, mem_elems (a := BSet.mk (~~~(1#w <<< i))), BitVec.getLsbD_not, shift_bit hi,
      Set.mem_singleton_iff]
    constructor
    · rintro ⟨h1, h2, h3⟩
      refine ⟨h1, ?_⟩
      simpa [h2] using h3
    · rintro ⟨h1, h2⟩
      have := (mem_elems.1 h1).1
      exact ⟨h1, this, by simp [this, h2]⟩

/-- **C34** `get` after `set` -/
theorem get_set (a : BSet w) {i j : Nat} (hi : i < w) (hj : j < w) (v : Bool) :
    (a.set i v).get j = if j = i then v else a.get j := by
  have h := elems_set a hi v
  have h1 : (a.set i v).get j = true ↔ j ∈ (a.set i v).elems := ⟨fun h => ⟨hj, h⟩, fun h => h.2⟩
  have h2 : a.get j = true ↔ j ∈ a.elems := ⟨fun h => ⟨hj, h⟩, fun h => h.2⟩
  rw [h] at h1
  rw [Bool.eq_iff_iff, h1]
  cases v with
  | true =>
    simp only [if_true, Set.mem_union, Set.mem_singleton_iff]
    split <;> rename_i he <;> simp [he, h2]
  | false =>
    simp only [Bool.false_eq_true, if_false, Set.mem_sdiff, Set.mem_singleton_iff]
    split <;> rename_i he <;> simp [he, h2]

/-- **C34** `full n` contains the first `n` positions. -/
theorem elems_full {n : Nat} (hn : n < w) : (full n : BSet w).elems = {i | i < n} := by
  have hval : (full n : BSet w).word = BitVec.ofNat w (2 ^ n - 1) := by
    apply BitVec.eq_of_toNat_eq
    have h1 : 2 ^ n < 2 ^ w := Nat.pow_lt_pow_right (by omega) hn
    have h2 : (1 : Nat) < 2 ^ w := lt_of_le_of_lt (Nat.one_le_two_pow (n := n)) h1
    have h3 := Nat.one_le_two_pow (n := n)
    simp only [full, BitVec.toNat_sub, BitVec.toNat_shiftLeft, BitVec.toNat_ofNat, Nat.shiftLeft_eq]
    rw [Nat.mod_eq_of_lt h2, Nat.one_mul, Nat.mod_eq_of_lt h1, Nat.mod_eq_of_lt (by omega : 2 ^ n - 1 < 2 ^ w)]
    rw [show 2 ^ w - 1 + 2 ^ n = 2 ^ n - 1 + 2 ^ w by omega, Nat.add_mod_right, Nat.mod_eq_of_lt (by omega)]
  ext i
  rw [mem_elems, hval, BitVec.getLsbD_ofNat, Nat.testBit_two_pow_sub_one]
  simp only [Bool.and_eq_true, decide_eq_true_eq, Set.mem_ofPred_eq]
  omega

/-- **C34** `a.subset b` says that `b` is a subset of `a`. -/
theorem subset_iff (a b : BSet w) : a.subset b = true ↔ b.elems ⊆ a.elems := by
  rw [subset, beq_iff_eq]
  constructor
  · intro h i hi
    rw [← h, elems_inter] at hi
    exact hi.1
  · intro h
    apply ext_elems
    rw [elems_inter]
    exact Set.inter_eq_right.2 h

/-- **C34** `is_single` recognises sets with exactly one element. -/
theorem isSingle_iff (a : BSet w) : a.isSingle = true ↔ ∃ i, a.elems = {i} := by
  have hand : (a.word &&& (a.word - 1#w)).toNat = if a.word.toNat = 0 then 0 else a.word.toNat &&& (a.word.toNat - 1) := by
    rw [BitVec.toNat_and]
    split
    · rename_i h; rw [h]; simp
    · rename_i h
      congr 1
      have hlt := a.word.isLt
      have hw : 1 % 2 ^ w = 1 := Nat.mod_eq_of_lt (by omega)
      rw [BitVec.toNat_sub, BitVec.toNat_ofNat, hw,
        show 2 ^ w - 1 + a.word.toNat = a.word.toNat - 1 + 2 ^ w by omega, Nat.add_mod_right, Nat.mod_eq_of_lt (by omega)]
  have hbits : ∀ i, a.word.getLsbD i = a.word.toNat.testBit i := fun i => rfl
  rw [isSingle, Bool.and_eq_true, bne_iff_ne, beq_iff_eq]
  constructor
  · rintro ⟨h1, h2⟩
    have h1' : a.word.toNat ≠ 0 := fun h => h1 (BitVec.eq_of_toNat_eq (by simpa using h))
    have h3 : a.word.toNat &&& (a.word.toNat - 1) = 0 := by
      rw [← if_neg (c := a.word.toNat = 0) (t := 0) (e := a.word.toNat &&& (a.word.toNat - 1)) h1', ← hand, h2]
      simp
    obtain ⟨k, hk⟩ := (Nat.and_sub_one_eq_zero_iff_isPowerOfTwo h1').1 h3
    have hkw : k < w := by
      have := a.word.isLt
      rw [hk] at this
      exact (Nat.pow_lt_pow_iff_right (by omega)).1 this
    refine ⟨k, ?_⟩
    ext i
    rw [mem_elems, hbits, hk, Nat.testBit_two_pow, decide_eq_true_eq, Set.mem_singleton_iff]
    constructor
    · intro h; exact h.2.symm
    · rintro rfl; exact ⟨hkw, rfl⟩
  · rintro ⟨i, hi⟩
    have hmem : i ∈ a.elems := by rw [hi]; rfl
    have hiw := (mem_elems.1 hmem).1
    have : a = single i := ext_elems (by rw [hi, elems_single hiw])
    have hnat : a.word.toNat = 2 ^ i := by
      rw [this, single]
      have h1 : 2 ^ i < 2 ^ w := Nat.pow_lt_pow_right (by omega) hiw
      have h2 : (1 : Nat) < 2 ^ w := lt_of_le_of_lt (Nat.one_le_two_pow (n := i)) h1
      simp only [BitVec.toNat_shiftLeft, BitVec.toNat_ofNat, Nat.shiftLeft_eq]
      rw [Nat.mod_eq_of_lt h2, Nat.one_mul, Nat.mod_eq_of_lt h1]
    have hpos : 0 < 2 ^ i := Nat.two_pow_pos i
    refine ⟨?_, ?_⟩
    · intro h
      rw [h] at hnat
      simp at hnat
      omega
    · apply BitVec.eq_of_toNat_eq
      rw [hand, if_neg (by omega), hnat, (Nat.and_sub_one_eq_zero_iff_isPowerOfTwo (by omega)).2 ⟨i, rfl⟩]
      simp

end BSet

/-! ## Sets of storage types -/

/-- `StorageTypeBitSet` (storage_type_name.rs:82) -/
abbrev TypeSet := BSet 64

namespace TypeSet

/-- `StorageTypeBitSet::full` (storage_type_name.rs:91-93); there are five storage types -/
def full : TypeSet := BSet.full 5

/-- `StorageTypeName::bitset` (storage_type_name.rs:63-65) -/
def ofType (t : Fin 5) : TypeSet := BSet.single t.1

/-- `storage_types` (storage_type_name.rs:106-114) -/
def types (s : TypeSet) : List (Fin 5) := (List.finRange 5).filter fun t => s.get t.1

/-- `is_unique` (storage_type_name.rs:117-119) -/
def isUnique (s : TypeSet) : Bool := s.isSingle

/-- `contains` (storage_type_name.rs:122-124) -/
def contains (s : TypeSet) (t : Fin 5) : Bool := s.subset (ofType t)

/-- The type sets that occur contain no other bits. -/
def OK (s : TypeSet) : Prop := ∀ i ∈ s.elems, i < 5

theorem contains_iff (s : TypeSet) (t : Fin 5) : contains s t = true ↔ t ∈ types s := by
  have ht : t.1 < 64 := by omega
  rw [contains, BSet.subset_iff, ofType, BSet.elems_single ht, Set.singleton_subset_iff, types, List.mem_filter]
  simp only [List.mem_finRange, true_and]
  exact ⟨fun h => h.2, fun h => ⟨ht, h⟩⟩

theorem types_sorted (s : TypeSet) : (types s).Pairwise (· < ·) :=
  (show (List.finRange 5).Pairwise (· < ·) by decide).filter _

theorem types_full (t : Fin 5) : t ∈ types full := by
  rw [← contains_iff, contains, BSet.subset_iff, ofType, BSet.elems_single (by omega), full, BSet.elems_full (by omega)]
  simp only [Set.singleton_subset_iff, Set.mem_ofPred_eq]
  omega

theorem types_union (a b : TypeSet) (t : Fin 5) : t ∈ types (a.union b) ↔ t ∈ types a ∨ t ∈ types b := by
  simp only [← contains_iff, contains, BSet.subset_iff, ofType, BSet.elems_single (show t.1 < 64 by omega),
    Set.singleton_subset_iff, BSet.elems_union, Set.mem_union]

theorem types_inter (a b : TypeSet) (t : Fin 5) : t ∈ types (a.inter b) ↔ t ∈ types a ∧ t ∈ types b := by
  simp only [← contains_iff, contains, BSet.subset_iff, ofType, BSet.elems_single (show t.1 < 64 by omega),
    Set.singleton_subset_iff, BSet.elems_inter, Set.mem_inter_iff]

/-- **C34** `is_unique` says that there is exactly one possible type. -/
theorem isUnique_iff (s : TypeSet) (hs : OK s) : isUnique s = true ↔ ∃ t, types s = [t] := by
  rw [isUnique, BSet.isSingle_iff]
  have hmem : ∀ t : Fin 5, t ∈ types s ↔ t.1 ∈ s.elems := by
    intro t
    rw [← contains_iff, contains, BSet.subset_iff, ofType, BSet.elems_single (by omega), Set.singleton_subset_iff]
  constructor
  · rintro ⟨i, hi⟩
    have h5 : i < 5 := hs i (by rw [hi]; rfl)
    refine ⟨⟨i, h5⟩, ?_⟩
    have hall : ∀ t, t ∈ types s ↔ t = ⟨i, h5⟩ := by
      intro t
      rw [hmem, hi, Set.mem_singleton_iff, Fin.ext_iff]
    have hnd : (types s).Nodup := (types_sorted s).imp fun h => Fin.ne_of_lt h
    exact List.perm_singleton.1 ((List.perm_ext_iff_of_nodup hnd (by simp)).2 fun t => by rw [hall]; simp)
  · rintro ⟨t, ht⟩
    refine ⟨t.1, ?_⟩
    ext i
    rw [Set.mem_singleton_iff]
    constructor
    · intro hi
      have h5 := hs i hi
      have := (hmem ⟨i, h5⟩).2 hi
      rw [ht, List.mem_singleton] at this
      exact congrArg Fin.val this
    · rintro rfl
      rw [← hmem, ht]; simp

example : OK (BSet.union (ofType 1) (ofType 4)) := by
  intro i hi
  rw [BSet.elems_union, ofType, ofType, BSet.elems_single (by decide), BSet.elems_single (by decide)] at hi
  rcases hi with h | h <;> rw [Set.mem_singleton_iff] at h <;> subst h <;> decide

example : types (BSet.union (ofType 1) (ofType 4)) = [1, 4] := by decide

end TypeSet
end Verif
