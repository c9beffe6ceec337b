import Verif.RleProofs
import Mathlib.Tactic.Ring
import Mathlib.Tactic.Linarith
import Mathlib.Order.Fin.Basic

/-!
# The run-length encodable value types

Model of the `RunLengthEncodable` implementations in
`/repo/nemo-physical/src/datatypes/run_length_encodable.rs` (integers) and
`/repo/nemo-physical/src/datatypes/float.rs:327-341`, `double.rs:327-341` (floating point), with the
arithmetic of a release build: `+`, `-`, `*` wrap around (the workspace does not enable
overflow checks), division panics on overflow, `expect` panics.
-/

set_option linter.unusedSimpArgs false

namespace Verif

/-- `IntStep(i16)` (run_length_encodable.rs:31-33) -/
abbrev I16 := { d : Int // -32768 ≤ d ∧ d ≤ 32767 }

/-- `i16::try_from` -/
def toI16 (d : Int) : Option I16 := if h : -32768 ≤ d ∧ d ≤ 32767 then some ⟨d, h⟩ else none

/-- `IntStep(0)` -/
def i16Zero : I16 := ⟨0, by omega⟩

/-! ## Unsigned integers of `w` bits: `u32`, `u64`, `usize` -/

/-- unsigned `w`-bit integers -/
abbrev UBits (w : Nat) := Fin (2 ^ w)

/-- `RunLengthEncodable` for `u32`/`u64`/`usize` (run_length_encodable.rs:71-129), with
`IntStep::offset_unsigned` (run_length_encodable.rs:42-54). 
The multiplication is in `usize` (64 bits) and wraps, `T::try_from(..).expect` panics if the product
does not fit; the final addition/subtraction wraps. -/
def unsignedRle (w : Nat) : RleOps (UBits w) I16 where
  diffStep p c := toI16 ((c.val : Int) - (p.val : Int))
  zeroStep := i16Zero
  stepInc d := if h : 0 ≤ d.1 ∧ d.1.toNat < 2 ^ w then some ⟨d.1.toNat, h.2⟩ else none
  offset t d times :=
    let m := (d.1.natAbs * times) % 2 ^ 64
    if m < 2 ^ w then
      if 0 ≤ d.1 then some (Fin.ofNat (2 ^ w) (t.val + m))
      else some (Fin.ofNat (2 ^ w) (t.val + (2 ^ w - m)))
    else none
  floorDiv v start inc :=
    -- `value - start_value` in `w` bits (wrapping), division panics on zero
    if inc.val = 0 then none else some (((v.val + (2 ^ w - start.val)) % 2 ^ w) / inc.val)

theorem toI16_some {d : Int} {e : I16} : toI16 d = some e ↔ e.1 = d := by
  unfold toI16
  constructor
  · intro h
    split at h
    · cases h; rfl
    · cases h
  · intro h
    have := e.2
    rw [dif_pos (by omega)]
    congr 1; apply Subtype.ext; exact h.symm

/-- a chain of constant step is an arithmetic progression -/
theorem chain_arith {f : Nat → Int} {d : I16} {n : Nat}
    (h : ∀ i < n, toI16 (f (i + 1) - f i) = some d) : ∀ j ≤ n, f j = f 0 + d.1 * j := by
  intro j
  induction j with
  | zero => intro _; simp
  | succ j ih =>
    intro hj
    have h1 := ih (by omega)
    have h2 := toI16_some.mp (h j (by omega))
    rw [show f (j + 1) = f j + d.1 by omega, h1]
    push_cast; ring

theorem unsigned_laws (w : Nat) (hw : w ≤ 64) : RleLaws (unsignedRle w) (fun _ _ => True) where
  zero_eq x y h := by
    have := toI16_some.mp h
    simp only [unsignedRle, i16Zero] at this
    apply Fin.ext; omega
  diff_self x := by simp [unsignedRle, toI16, i16Zero]
  offset_chain f d n hn h := by
    have hch := chain_arith (f := fun i => ((f i).val : Int)) (d := d) (n := n) h n (le_refl _)
    obtain ⟨d, hd16⟩ := d
    simp only at hch
    have hf0 := (f 0).isLt
    have hfn := (f n).isLt
    have hpow : 2 ^ w ≤ 2 ^ 64 := Nat.pow_le_pow_right (by omega) hw
    simp only [unsignedRle]
    rcases Int.le_total 0 d with hd | hd
    · have hm : ((d.natAbs * n : Nat) : Int) = d * n := by
        rw [Int.natCast_mul, Int.natAbs_of_nonneg hd]
      have hlt : d.natAbs * n < 2 ^ w := by omega
      rw [Nat.mod_eq_of_lt (by omega), if_pos hlt, if_pos hd]
      congr 1; apply Fin.ext
      simp only [Fin.val_ofNat]
      rw [Nat.mod_eq_of_lt (by omega)]; omega
    · by_cases hd0 : d = 0
      · subst hd0
        have : (f 0) = f n := by apply Fin.ext; simp at hch; omega
        simp [this, Nat.mod_eq_of_lt hfn]
      have hm : ((d.natAbs * n : Nat) : Int) = -(d * n) := by
        rw [Int.natCast_mul, Int.ofNat_natAbs_of_nonpos hd]; ring
      have hlt : d.natAbs * n < 2 ^ w := by omega
      rw [Nat.mod_eq_of_lt (by omega), if_pos hlt, if_neg (by omega)]
      congr 1; apply Fin.ext
      simp only [Fin.val_ofNat]
      rw [show (f 0).val + (2 ^ w - d.natAbs * n) = (f n).val + 2 ^ w by omega, Nat.add_mod_right,
        Nat.mod_eq_of_lt hfn]
  floorDiv v start d inc hlt hd hinc _ := by
    have hd : d.1 ≠ 0 := fun h => hd (Subtype.ext h)
    simp only [unsignedRle] at hinc ⊢
    split at hinc
    · next hcond =>
      simp only [Option.some.injEq] at hinc
      have hv : inc.val = d.1.toNat := by rw [← hinc]
      have hvs : start.val < v.val := hlt
      rw [if_neg (by omega)]
      refine ⟨_, rfl, fun f n h0 hch j hj hjk => ?_⟩
      have := chain_arith (f := fun i => ((f i).val : Int)) (d := d) (n := n) hch j hj
      have hsub : (v.val + (2 ^ w - start.val)) % 2 ^ w = v.val - start.val := by
        have := start.isLt
        rw [show v.val + (2 ^ w - start.val) = (v.val - start.val) + 2 ^ w by omega, Nat.add_mod_right,
          Nat.mod_eq_of_lt (by omega)]
      rw [hsub] at hjk
      have hmul : j * inc.val < v.val - start.val := by
        have h1 : (j + 1) * inc.val ≤ v.val - start.val :=
          le_trans (Nat.mul_le_mul_right _ hjk) (Nat.div_mul_le_self _ _)
        have h2 : j * inc.val + inc.val = (j + 1) * inc.val := by ring
        omega
      rw [h0] at this
      have hdj : d.1 * j = ((j * inc.val : Nat) : Int) := by
        push_cast; rw [hv, Int.toNat_of_nonneg hcond.1]; ring
      show (f j).val < v.val
      omega
    · simp at hinc

/-! ## `i64` -/

/-- 64-bit signed integers -/
abbrev I64 := { z : Int // -2 ^ 63 ≤ z ∧ z < 2 ^ 63 }

/-- wrap an integer to 64-bit two's complement -/
def wrap64 (z : Int) : I64 :=
  ⟨(z + 2 ^ 63) % 2 ^ 64 - 2 ^ 63, by
    have h1 := Int.emod_nonneg (z + 2 ^ 63) (b := 2 ^ 64) (by norm_num)
    have h2 := Int.emod_lt_of_pos (z + 2 ^ 63) (b := 2 ^ 64) (by norm_num)
    constructor <;> omega⟩

theorem wrap64_id (z : I64) : wrap64 z.1 = z := by
  apply Subtype.ext
  simp only [wrap64]
  have := z.2
  rw [Int.emod_eq_of_lt (by omega) (by omega)]; omega

/-- `RunLengthEncodable for i64` (run_length_encodable.rs:147-161, `offset_signed` 56-62) and the
arithmetic of column/rle.rs:341-343: `value - start_value` wraps, the division panics for zero and
for `i64::MIN / -1`, `floor_to_usize` (floor_to_usize.rs:36-40) yields `None` for negative numbers
and the default `0` is used. -/
def i64Rle : RleOps I64 I16 where
  diffStep p c :=
    let d := c.1 - p.1
    -- `checked_sub`, then `i16::try_from`
    if -2 ^ 63 ≤ d ∧ d < 2 ^ 63 then toI16 d else none
  zeroStep := i16Zero
  stepInc d := some (wrap64 d.1)
  offset t d times :=
    if times < 2 ^ 63 then some (wrap64 (t.1 + (wrap64 (d.1 * times)).1)) else none
  floorDiv v start inc :=
    let n := (wrap64 (v.1 - start.1)).1
    if inc.1 = 0 ∨ (n = -2 ^ 63 ∧ inc.1 = -1) then none
    else some (Int.tdiv n inc.1).toNat

/-- the guard that excludes the panic: the difference is not exactly `2^63` -/
def i64Safe (v start : I64) : Prop := v.1 - start.1 ≠ 2 ^ 63

theorem i64_diff {p c : I64} {d : I16} (h : i64Rle.diffStep p c = some d) :
    toI16 (c.1 - p.1) = some d := by
  simp only [i64Rle] at h
  split at h
  · exact h
  · cases h

theorem i64_laws : RleLaws i64Rle i64Safe where
  zero_eq x y h := by
    have := toI16_some.mp (i64_diff h)
    simp only [i64Rle, i16Zero] at this
    apply Subtype.ext; omega
  diff_self x := by simp [i64Rle, toI16, i16Zero]
  offset_chain f d n hn h := by
    have hch := chain_arith (f := fun i => (f i).1) (d := d) (n := n)
      (fun i hi => i64_diff (h i hi)) n (le_refl _)
    obtain ⟨d, hd16⟩ := d
    simp only at hch
    simp only [i64Rle, hn, if_true, Option.some.injEq]
    have h1 : wrap64 ((f 0).1 + (wrap64 (d * n)).1) = wrap64 ((f 0).1 + d * n) := by
      apply Subtype.ext
      simp only [wrap64]
      generalize d * (n : Int) = m
      have : (f 0).1 + ((m + 2 ^ 63) % 2 ^ 64 - 2 ^ 63) + 2 ^ 63 = (f 0).1 + (m + 2 ^ 63) % 2 ^ 64 := by
        ring
      rw [this, Int.add_emod_emod]
      ring_nf
    rw [h1, ← hch, wrap64_id]
  floorDiv v start d inc hlt hd hinc hsafe := by
    have hvs : start.1 < v.1 := hlt
    have hv := v.2
    have hs := start.2
    have hd : d.1 ≠ 0 := fun h => hd (Subtype.ext h)
    obtain ⟨d, hd16⟩ := d
    simp only [i64Rle, Option.some.injEq] at hd hinc ⊢
    have hi : inc.1 = d := by
      rw [← hinc]; simp only [wrap64]; rw [Int.emod_eq_of_lt (by omega) (by omega)]; omega
    by_cases hov : v.1 - start.1 < 2 ^ 63
    · have hn : (wrap64 (v.1 - start.1)).1 = v.1 - start.1 := by
        simp only [wrap64]; rw [Int.emod_eq_of_lt (by omega) (by omega)]; omega
      rw [if_neg (by omega)]
      refine ⟨_, rfl, fun f n h0 hch j hj hjk => ?_⟩
      have := chain_arith (f := fun i => (f i).1) (n := n)
        (fun i hi => i64_diff (hch i hi)) j hj
      simp only [h0] at this
      rw [hn, hi] at hjk
      show (f j).1 < v.1
      rcases lt_or_gt_of_ne hd with hneg | hposd
      · -- descending: everything is at most `start`
        have : d * j ≤ 0 := by nlinarith
        omega
      · have h1 : (j : Int) + 1 ≤ (v.1 - start.1).tdiv d := by omega
        have h2 : (v.1 - start.1).tdiv d * d ≤ v.1 - start.1 := by
          rw [Int.tdiv_eq_ediv_of_nonneg (by omega)]
          exact Int.ediv_mul_le _ (by omega)
        have h3 : ((j : Int) + 1) * d ≤ (v.1 - start.1).tdiv d * d :=
          Int.mul_le_mul_of_nonneg_right h1 (by omega)
        have h4 : d * j + d = ((j : Int) + 1) * d := by ring
        omega
    · have hn : (wrap64 (v.1 - start.1)).1 = v.1 - start.1 - 2 ^ 64 := by
        simp only [wrap64]
        rw [show v.1 - start.1 + 2 ^ 63 = (v.1 - start.1 - 2 ^ 63) + 2 ^ 64 by ring,
          Int.add_emod_right, Int.emod_eq_of_lt (by omega) (by omega)]
        omega
      have hne : v.1 - start.1 ≠ 2 ^ 63 := hsafe
      rw [if_neg (by omega)]
      refine ⟨_, rfl, fun f n h0 hch j hj hjk => ?_⟩
      have := chain_arith (f := fun i => (f i).1) (n := n)
        (fun i hi => i64_diff (hch i hi)) j hj
      simp only [h0] at this
      rw [hn, hi] at hjk
      show (f j).1 < v.1
      rcases lt_or_gt_of_ne hd with hneg | hposd
      · have : d * j ≤ 0 := by nlinarith
        omega
      · exfalso
        have : (v.1 - start.1 - 2 ^ 64).tdiv d ≤ 0 := by
          have hh : v.1 - start.1 - 2 ^ 64 = -(2 ^ 64 - (v.1 - start.1)) := by ring
          rw [hh, Int.neg_tdiv]
          have := Int.tdiv_nonneg (a := 2 ^ 64 - (v.1 - start.1)) (b := d) (by omega) (by omega)
          omega
        omega

/-! ## Floating point -/

/-- `RunLengthEncodable for Float/Double` (float.rs:327-341, double.rs:327-341): only repetitions of
equal values form a block, the step carries no information.  The value type is any linear order: the
wrapped `f32`/`f64` exclude NaN (float.rs) and are ordered by `partial_cmp`; `-0.0` and `0.0`, equal
under that order, are one value here.  `floorDiv` is never reached because every step is the zero
step (column/rle.rs:336); its result is irrelevant. -/
def floatRle (α : Type) [LinearOrder α] (zero : α) : RleOps α Unit where
  diffStep p c := if p = c then some () else none
  zeroStep := ()
  stepInc _ := some zero
  offset t _ _ := some t
  floorDiv _ _ _ := none

theorem float_laws (α : Type) [LinearOrder α] (zero : α) :
    RleLaws (floatRle α zero) (fun _ _ => True) where
  zero_eq x y h := by
    simp only [floatRle] at h
    split at h
    · assumption
    · cases h
  diff_self x := by simp [floatRle]
  offset_chain f d n hn h := by
    have : ∀ j ≤ n, f 0 = f j := by
      intro j
      induction j with
      | zero => intro _; rfl
      | succ j ih =>
        intro hj
        have h1 := h j (by omega)
        simp only [floatRle] at h1
        split at h1
        · next e => rw [ih (by omega), e]
        · cases h1
    simp [floatRle, this n (le_refl _)]
  floorDiv v start d inc hlt hd := absurd rfl hd

end Verif
