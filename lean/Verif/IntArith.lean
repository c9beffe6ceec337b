import Verif.StackProgram
import Mathlib.Data.Nat.Sqrt
import Mathlib.Tactic.Ring
import Mathlib.Tactic.Linarith
/-
Integer built-ins (nemo-physical/src/function/definitions/numeric/integer64.rs).

Trusted here: `i64::checked_add/sub/mul` are the hardware operation together with its overflow flag
(`BitVec.saddOverflow` etc.), `num::integer::Roots::sqrt` is the integer square root. The loops of
`num::checked_pow` and of `i64::ilog` are modelled as loops. Panics on overflow of `abs` and of the
shifts are those of a build with overflow checks; the panic of `MIN % -1` occurs in every build.
-/

set_option linter.unusedVariables false
set_option linter.unusedSimpArgs false

namespace Verif.I64

/-- `i64::checked_add`. -/
def checkedAdd (a b : Int64) : Option Int64 :=
  if a.toBitVec.saddOverflow b.toBitVec then none else some (a + b)
/-- `i64::checked_sub`. -/
def checkedSub (a b : Int64) : Option Int64 :=
  if a.toBitVec.ssubOverflow b.toBitVec then none else some (a - b)
/-- `i64::checked_mul`. -/
def checkedMul (a b : Int64) : Option Int64 :=
  if a.toBitVec.smulOverflow b.toBitVec then none else some (a * b)
/-- `i64::checked_div`. -/
def checkedDiv (a b : Int64) : Option Int64 :=
  if b = 0 ∨ (a = Int64.minValue ∧ b = -1) then none else some (a / b)
/-- `i64::checked_neg`. -/
def checkedNeg (a : Int64) : Option Int64 := if a = Int64.minValue then none else some (-a)

/-- integer64.rs:12-19 `numeric_addition_integer64`. -/
def add (a b : Int64) : Res Int64 := Res.ofOption (checkedAdd a b)
/-- integer64.rs:24-31 `numeric_subtraction_integer64`. -/
def sub (a b : Int64) : Res Int64 := Res.ofOption (checkedSub a b)
/-- integer64.rs:36-43 `numeric_multiplication_integer64`. -/
def mul (a b : Int64) : Res Int64 := Res.ofOption (checkedMul a b)
/-- integer64.rs:48-55 `numeric_division_integer64`. -/
def div (a b : Int64) : Res Int64 := Res.ofOption (checkedDiv a b)
/-- integer64.rs:60-62 `numeric_absolute_integer64`: `i64::abs` overflows for `i64::MIN`. -/
def abs (a : Int64) : Res Int64 :=
  if a < 0 then (if a = Int64.minValue then .panic else .val (-a)) else .val a
/-- integer64.rs:65-67 `numeric_negation_integer64`. -/
def neg (a : Int64) : Res Int64 := Res.ofOption (checkedNeg a)
/-- integer64.rs:72-78 `numeric_squareroot_integer64`. -/
def sqrt (a : Int64) : Res Int64 :=
  if a < 0 then .undef else .val (Int64.ofNat (Nat.sqrt a.toInt.toNat))

/-- The loop of `i64::ilog`: divide until the rest is below the base. -/
def ilogLoop (base r n : Nat) : Nat :=
  if h : 2 ≤ base ∧ base ≤ r then ilogLoop base (r / base) (n + 1) else n
termination_by r
decreasing_by exact Nat.div_lt_self (by omega) (by omega)

/-- integer64.rs:84-90 `numeric_logarithm_integer64`. -/
def log (value base : Int64) : Res Int64 :=
  if value ≤ 0 ∨ base < 2 then .undef
  else .val (Int64.ofNat (ilogLoop base.toInt.toNat value.toInt.toNat 0))

/-- First loop of `num::checked_pow` (num-traits `pow.rs`): square while the exponent is even. -/
def powStrip (base : Int64) (exp : Nat) : Option (Int64 × Nat) :=
  if h : exp ≠ 0 ∧ exp % 2 = 0 then
    match checkedMul base base with
    | some b => powStrip b (exp / 2)
    | none => none
  else some (base, exp)
termination_by exp
decreasing_by omega

/-- Second loop of `num::checked_pow`. -/
def powLoop (base acc : Int64) (exp : Nat) : Option Int64 :=
  if h : 1 < exp then
    match checkedMul base base with
    | some b =>
        if exp / 2 % 2 = 1 then
          match checkedMul acc b with
          | some a => powLoop b a (exp / 2)
          | none => none
        else powLoop b acc (exp / 2)
    | none => none
  else some acc
termination_by exp
decreasing_by all_goals omega

/-- `num::checked_pow`. -/
def checkedPow (base : Int64) (exp : Nat) : Option Int64 :=
  if exp = 0 then some 1
  else match powStrip base exp with
    | none => none
    | some (b, e) => if e = 1 then some b else powLoop b b e

/-- integer64.rs:96-105 `numeric_power_integer64` (`usize` has 64 bits). -/
def pow (base exponent : Int64) : Res Int64 :=
  if exponent < 0 then .undef else Res.ofOption (checkedPow base exponent.toInt.toNat)

/-- integer64.rs:113-124 `numeric_remainder_integer64`. -/
def rem (a b : Int64) : Res Int64 :=
  if b = 0 then .undef else if a = Int64.minValue ∧ b = -1 then .panic else .val (a % b)

/-- integer64.rs:127-136 `numeric_lessthan_integer64`. -/
def lt (a b : Int64) : Bool := decide (a < b)
/-- integer64.rs:139-148 `numeric_lessthaneq_integer64`. -/
def le (a b : Int64) : Bool := decide (a ≤ b)
/-- integer64.rs:151-160 `numeric_greaterthan_integer64`. -/
def gt (a b : Int64) : Bool := decide (a > b)
/-- integer64.rs:163-172 `numeric_greaterthaneq_integer64`. -/
def ge (a b : Int64) : Bool := decide (a ≥ b)

/-- integer64.rs:177-185 `numeric_bitwise_and`: the accumulator starts as `i64::MAX`. -/
def bitAnd (xs : List Int64) : Int64 := xs.foldl (fun r x => r &&& x) Int64.maxValue
/-- integer64.rs:190-198 `numeric_bitwise_or`. -/
def bitOr (xs : List Int64) : Int64 := xs.foldl (fun r x => r ||| x) 0
/-- integer64.rs:203-211 `numeric_bitwise_xor`. -/
def bitXor (xs : List Int64) : Int64 := xs.foldl (fun r x => r ^^^ x) 0

/-- integer64.rs:216-222 `numeric_bitwise_shl`. -/
def shl (v k : Int64) : Res Int64 :=
  if k < 0 then .undef
  else if 64 ≤ k then .panic
  else .val ⟨⟨v.toBitVec <<< k.toInt.toNat⟩⟩
/-- integer64.rs:229-235 `numeric_bitwise_shr`. -/
def shr (v k : Int64) : Res Int64 :=
  if k < 0 then .undef
  else if 64 ≤ k then .panic
  else .val ⟨⟨v.toBitVec.sshiftRight k.toInt.toNat⟩⟩
/-- integer64.rs:242-259 `numeric_bitwise_shru`. -/
def shru (v k : Int64) : Res Int64 :=
  if k < 0 then .undef
  else if 64 ≤ k then .panic
  else if 0 < v then .val ⟨⟨v.toBitVec.sshiftRight k.toInt.toNat⟩⟩
  else .val ⟨⟨v.toBitVec >>> k.toInt.toNat⟩⟩

/-- integer64.rs:268-270: the loop of `numeric_sum_integer64`. -/
def sumLoop : Int64 → List Int64 → Option Int64
  | s, [] => some s
  | s, x :: xs => match checkedAdd s x with
      | some s' => sumLoop s' xs
      | none => none
/-- integer64.rs:265-273 `numeric_sum_integer64`. -/
def sum (xs : List Int64) : Res Int64 := Res.ofOption (sumLoop 0 xs)

/-- integer64.rs:282-284: the loop of `numeric_product_integer64`. -/
def prodLoop : Int64 → List Int64 → Option Int64
  | s, [] => some s
  | s, x :: xs => match checkedMul s x with
      | some s' => prodLoop s' xs
      | none => none
/-- integer64.rs:279-287 `numeric_product_integer64`. -/
def prod (xs : List Int64) : Res Int64 := Res.ofOption (prodLoop 1 xs)

/-- `Iterator::min` (the first minimum; the choice does not matter for integers). -/
def minLoop : Int64 → List Int64 → Int64
  | m, [] => m
  | m, x :: xs => minLoop (if x < m then x else m) xs
/-- integer64.rs:292-297 `numeric_minimum_integer64`. -/
def minimum : List Int64 → Res Int64
  | [] => .undef
  | x :: xs => .val (minLoop x xs)
/-- `Iterator::max` (the last maximum; the choice does not matter for integers). -/
def maxLoop : Int64 → List Int64 → Int64
  | m, [] => m
  | m, x :: xs => maxLoop (if x ≥ m then x else m) xs
/-- integer64.rs:302-307 `numeric_maximum_integer64`. -/
def maximum : List Int64 → Res Int64
  | [] => .undef
  | x :: xs => .val (maxLoop x xs)

/-! ### Specification -/

/-- An integer that a signed 64-bit word can represent. -/
def Fits (i : Int) : Prop := -2 ^ 63 ≤ i ∧ i < 2 ^ 63

instance (i : Int) : Decidable (Fits i) := by unfold Fits; exact inferInstance

/-- The operation yields exactly the integer `x` if 64 bits suffice for it and is undefined otherwise. -/
def ExactOrUndefined (r : Res Int64) (x : Int) : Prop :=
  (Fits x → ∃ z, r = .val z ∧ z.toInt = x) ∧ (¬ Fits x → r = .undef)

/-! ### Proofs -/

theorem fits_toInt (a : Int64) : Fits a.toInt := ⟨a.le_toInt, a.toInt_lt⟩

theorem bmod_fits {x : Int} (h : Fits x) : x.bmod (2 ^ 64) = x := by
  obtain ⟨h1, h2⟩ := h
  apply Int.bmod_eq_of_le <;> norm_num at * <;> omega

theorem toInt_ofInt_fits {x : Int} (h : Fits x) : (Int64.ofInt x).toInt = x :=
  Int64.toInt_ofInt_of_le h.1 h.2

theorem eq_minValue {a : Int64} : a = Int64.minValue ↔ a.toInt = -2 ^ 63 := by
  rw [← Int64.toInt_inj, Int64.toInt_minValue]

theorem checkedAdd_spec (a b : Int64) :
    (Fits (a.toInt + b.toInt) → checkedAdd a b = some (a + b) ∧ (a + b).toInt = a.toInt + b.toInt) ∧
    (¬ Fits (a.toInt + b.toInt) → checkedAdd a b = none) := by
  have e : a.toBitVec.saddOverflow b.toBitVec = true ↔ ¬ Fits (a.toInt + b.toInt) := by
    simp only [BitVec.saddOverflow, Int64.toInt_toBitVec, Fits, Bool.or_eq_true, decide_eq_true_eq]
    norm_num
    omega
  unfold checkedAdd
  refine ⟨fun h => ⟨?_, ?_⟩, fun h => ?_⟩
  · rw [if_neg]; rw [e]; simpa using h
  · rw [Int64.toInt_add, bmod_fits h]
  · rw [if_pos]; rw [e]; exact h

theorem checkedSub_spec (a b : Int64) :
    (Fits (a.toInt - b.toInt) → checkedSub a b = some (a - b) ∧ (a - b).toInt = a.toInt - b.toInt) ∧
    (¬ Fits (a.toInt - b.toInt) → checkedSub a b = none) := by
  have e : a.toBitVec.ssubOverflow b.toBitVec = true ↔ ¬ Fits (a.toInt - b.toInt) := by
    simp only [BitVec.ssubOverflow, Int64.toInt_toBitVec, Fits, Bool.or_eq_true, decide_eq_true_eq]
    norm_num
    omega
  unfold checkedSub
  refine ⟨fun h => ⟨?_, ?_⟩, fun h => ?_⟩
  · rw [if_neg]; rw [e]; simpa using h
  · rw [Int64.toInt_sub, bmod_fits h]
  · rw [if_pos]; rw [e]; exact h

theorem checkedMul_spec (a b : Int64) :
    (Fits (a.toInt * b.toInt) → checkedMul a b = some (a * b) ∧ (a * b).toInt = a.toInt * b.toInt) ∧
    (¬ Fits (a.toInt * b.toInt) → checkedMul a b = none) := by
  have e : a.toBitVec.smulOverflow b.toBitVec = true ↔ ¬ Fits (a.toInt * b.toInt) := by
    simp only [BitVec.smulOverflow, Int64.toInt_toBitVec, Fits, Bool.or_eq_true, decide_eq_true_eq]
    norm_num
    omega
  unfold checkedMul
  refine ⟨fun h => ⟨?_, ?_⟩, fun h => ?_⟩
  · rw [if_neg]; rw [e]; simpa using h
  · rw [Int64.toInt_mul, bmod_fits h]
  · rw [if_pos]; rw [e]; exact h

/-- **C15** (addition). -/
theorem add_exact (a b : Int64) : ExactOrUndefined (add a b) (a.toInt + b.toInt) :=
  ⟨fun h => ⟨_, by simp [add, ((checkedAdd_spec a b).1 h).1, Res.ofOption], ((checkedAdd_spec a b).1 h).2⟩,
   fun h => by simp [add, (checkedAdd_spec a b).2 h, Res.ofOption]⟩

/-- **C15** (subtraction). -/
theorem sub_exact (a b : Int64) : ExactOrUndefined (sub a b) (a.toInt - b.toInt) :=
  ⟨fun h => ⟨_, by simp [sub, ((checkedSub_spec a b).1 h).1, Res.ofOption], ((checkedSub_spec a b).1 h).2⟩,
   fun h => by simp [sub, (checkedSub_spec a b).2 h, Res.ofOption]⟩

/-- **C15** (multiplication). -/
theorem mul_exact (a b : Int64) : ExactOrUndefined (mul a b) (a.toInt * b.toInt) :=
  ⟨fun h => ⟨_, by simp [mul, ((checkedMul_spec a b).1 h).1, Res.ofOption], ((checkedMul_spec a b).1 h).2⟩,
   fun h => by simp [mul, (checkedMul_spec a b).2 h, Res.ofOption]⟩

theorem toInt_neg_one : (-1 : Int64).toInt = -1 := by decide
theorem toInt_zero' : (0 : Int64).toInt = 0 := by decide

/-- A quotient of two words only leaves the range for `MIN / -1`. -/
theorem tdiv_fits {a b : Int} (ha : Fits a) (h0 : b ≠ 0) (h : ¬ (a = -2 ^ 63 ∧ b = -1)) :
    Fits (a.tdiv b) := by
  unfold Fits at *
  have hn : (a.tdiv b).natAbs ≤ a.natAbs := by
    rw [Int.natAbs_tdiv]; exact Nat.div_le_self _ _
  by_cases hb : b = -1
  · subst hb
    have : a.tdiv (-1) = -a := by simp
    rw [this]; omega
  · by_cases hb1 : b = 1
    · subst hb1; simp only [Int.tdiv_one]; exact ha
    · have hb2 : 2 ≤ b.natAbs := by omega
      have h2 : (a.tdiv b).natAbs ≤ a.natAbs / 2 := by
        rw [Int.natAbs_tdiv]; exact Nat.div_le_div_left hb2 (by omega)
      omega

theorem tdiv_neg_one_min : ¬ Fits ((-2 ^ 63 : Int).tdiv (-1)) := by decide

/-- **C15** (division): the quotient rounded towards zero; undefined for division by zero. -/
theorem div_exact (a b : Int64) :
    (b.toInt = 0 → div a b = .undef) ∧
      (b.toInt ≠ 0 → ExactOrUndefined (div a b) (a.toInt.tdiv b.toInt)) := by
  have hb0 : b = 0 ↔ b.toInt = 0 := by rw [← Int64.toInt_inj, toInt_zero']
  have hb1 : b = -1 ↔ b.toInt = -1 := by rw [← Int64.toInt_inj, toInt_neg_one]
  constructor
  · intro h
    simp [div, checkedDiv, hb0, h, Res.ofOption]
  · intro h0
    by_cases hm : a.toInt = -2 ^ 63 ∧ b.toInt = -1
    · have hc : checkedDiv a b = none := by
        unfold checkedDiv; rw [if_pos]; right; exact ⟨eq_minValue.mpr hm.1, hb1.mpr hm.2⟩
      have hnf : ¬ Fits (a.toInt.tdiv b.toInt) := by rw [hm.1, hm.2]; exact tdiv_neg_one_min
      exact ⟨fun h => absurd h hnf, fun _ => by simp [div, hc, Res.ofOption]⟩
    · have hf := tdiv_fits (fits_toInt a) h0 hm
      have hc : checkedDiv a b = some (a / b) := by
        unfold checkedDiv; rw [if_neg]
        rw [hb0, hb1, eq_minValue]; tauto
      refine ⟨fun _ => ⟨a / b, by simp [div, hc, Res.ofOption], ?_⟩, fun h => absurd hf h⟩
      rw [Int64.toInt_div, bmod_fits hf]

/-- **C15** (negation). -/
theorem neg_exact (a : Int64) : ExactOrUndefined (neg a) (-a.toInt) := by
  have hf := fits_toInt a
  unfold neg checkedNeg
  simp only [eq_minValue]
  by_cases h : a.toInt = -2 ^ 63
  · rw [if_pos h]
    refine ⟨fun hh => ?_, fun _ => rfl⟩
    unfold Fits at hh; omega
  · rw [if_neg h]
    have hn : Fits (-a.toInt) := by unfold Fits at *; omega
    refine ⟨fun _ => ⟨-a, rfl, ?_⟩, fun hh => absurd hn hh⟩
    rw [Int64.toInt_neg, bmod_fits hn]

/-- **C15** (absolute value), except for `i64::MIN`. -/
theorem abs_exact_partial (a : Int64) (h : a.toInt ≠ -2 ^ 63) :
    ExactOrUndefined (abs a) (a.toInt.natAbs) := by
  have hf := fits_toInt a
  have hn : Fits (a.toInt.natAbs : Int) := by unfold Fits at *; omega
  refine ⟨fun _ => ?_, fun hh => absurd hn hh⟩
  unfold abs
  simp only [eq_minValue, Int64.lt_iff_toInt_lt, toInt_zero']
  by_cases h0 : a.toInt < 0
  · rw [if_pos h0, if_neg h]
    refine ⟨_, rfl, ?_⟩
    rw [Int64.toInt_neg, bmod_fits] <;> (try unfold Fits at *) <;> omega
  · rw [if_neg h0]
    exact ⟨_, rfl, by omega⟩

/-- The absolute value of `i64::MIN` is not representable, but instead of being undefined the
function panics. -/
theorem abs_min_panics : abs Int64.minValue = .panic ∧ ¬ Fits ((Int64.minValue.toInt).natAbs : Int) := by
  refine ⟨by decide, by decide⟩

/-- **C15** (remainder): defined by truncated division; undefined for a zero divisor.
Partial because of `i64::MIN % -1`. -/
theorem rem_exact_partial (a b : Int64) (hm : ¬ (a.toInt = -2 ^ 63 ∧ b.toInt = -1)) :
    (b.toInt = 0 → rem a b = .undef) ∧
      (b.toInt ≠ 0 → ∃ z, rem a b = .val z ∧ z.toInt = a.toInt.tmod b.toInt) := by
  have hb0 : b = 0 ↔ b.toInt = 0 := by rw [← Int64.toInt_inj, toInt_zero']
  have hb1 : b = -1 ↔ b.toInt = -1 := by rw [← Int64.toInt_inj, toInt_neg_one]
  unfold rem
  simp only [hb0, hb1, eq_minValue]
  refine ⟨fun h => by rw [if_pos h], fun h => ⟨a % b, by rw [if_neg h, if_neg hm], Int64.toInt_mod a b⟩⟩

/-- The remainder of `i64::MIN` and `-1` is `0`, but the function panics. -/
theorem rem_min_panics : rem Int64.minValue (-1) = .panic ∧
    Int64.minValue.toInt.tmod (-1 : Int64).toInt = 0 := by
  refine ⟨by decide, by decide⟩

theorem toInt_nonneg {a : Int64} (h : ¬ a < 0) : 0 ≤ a.toInt := by
  rw [Int64.lt_iff_toInt_lt, toInt_zero'] at h; omega

theorem ofNat_fits {n : Nat} (h : n < 2 ^ 63) : (Int64.ofNat n).toInt = n := by
  have e : Int64.ofNat n = Int64.ofInt n := (Int64.ofInt_eq_ofNat).symm
  rw [e, toInt_ofInt_fits]
  constructor <;> omega

/-- **C15** (square root): the integer part of the root; undefined for negative numbers. -/
theorem sqrt_exact (a : Int64) :
    (a.toInt < 0 → sqrt a = .undef) ∧
      (0 ≤ a.toInt → ∃ z, sqrt a = .val z ∧ 0 ≤ z.toInt ∧ z.toInt ^ 2 ≤ a.toInt ∧
        a.toInt < (z.toInt + 1) ^ 2) := by
  unfold sqrt
  simp only [Int64.lt_iff_toInt_lt, toInt_zero']
  refine ⟨fun h => by rw [if_pos h], fun h => ⟨_, by rw [if_neg (by omega)], ?_⟩⟩
  obtain ⟨n, hn⟩ := Int.eq_ofNat_of_zero_le h
  have hlt := a.toInt_lt
  have hs : (Int64.ofNat (Nat.sqrt a.toInt.toNat)).toInt = (Nat.sqrt n : Nat) := by
    rw [hn]
    simp only [Int.toNat_natCast]
    apply ofNat_fits
    have := Nat.sqrt_le_self n
    omega
  rw [hs, hn]
  refine ⟨by omega, ?_, ?_⟩
  · exact_mod_cast Nat.sqrt_le' n
  · exact_mod_cast Nat.lt_succ_sqrt' n

theorem ilogLoop_spec (base : Nat) (hb : 2 ≤ base) : ∀ (r n : Nat), 1 ≤ r →
    ∃ k, ilogLoop base r n = n + k ∧ base ^ k ≤ r ∧ r < base ^ (k + 1) := by
  intro r
  induction r using Nat.strong_induction_on with
  | _ r ih =>
      intro n hr
      rw [ilogLoop]
      by_cases h : base ≤ r
      · rw [dif_pos ⟨hb, h⟩]
        have hlt : r / base < r := Nat.div_lt_self (by omega) (by omega)
        have hpos : 1 ≤ r / base := (Nat.one_le_div_iff (by omega)).mpr h
        obtain ⟨k, hk, h1, h2⟩ := ih _ hlt (n + 1) hpos
        refine ⟨k + 1, by omega, ?_, ?_⟩
        · calc base ^ (k + 1) = base ^ k * base := pow_succ _ _
            _ ≤ (r / base) * base := Nat.mul_le_mul_right _ h1
            _ ≤ r := Nat.div_mul_le_self r base
        · have : r < (r / base + 1) * base := by
            rw [← Nat.div_lt_iff_lt_mul (by omega)]; omega
          calc r < (r / base + 1) * base := this
            _ ≤ base ^ (k + 1) * base := Nat.mul_le_mul_right _ h2
            _ = base ^ (k + 1 + 1) := (pow_succ _ _).symm
      · rw [dif_neg (by tauto)]
        exact ⟨0, rfl, by simpa using hr, by simpa using (by omega : r < base)⟩

/-- **C15** (logarithm): the integer part of the logarithm of `v` to base `b`; undefined unless
`v` is positive and `b` at least two. -/
theorem log_exact (v b : Int64) :
    ((v.toInt ≤ 0 ∨ b.toInt < 2) → log v b = .undef) ∧
      (0 < v.toInt → 2 ≤ b.toInt → ∃ (k : Nat) (z : Int64), log v b = .val z ∧ z.toInt = k ∧
        b.toInt ^ k ≤ v.toInt ∧ v.toInt < b.toInt ^ (k + 1)) := by
  have h2 : (2 : Int64).toInt = 2 := by decide
  unfold log
  simp only [Int64.le_iff_toInt_le, Int64.lt_iff_toInt_lt, toInt_zero', h2]
  refine ⟨fun h => by rw [if_pos h], fun hv hb => ?_⟩
  rw [if_neg (by omega)]
  obtain ⟨n, hn⟩ := Int.eq_ofNat_of_zero_le (Int.le_of_lt hv)
  obtain ⟨m, hm⟩ := Int.eq_ofNat_of_zero_le (show 0 ≤ b.toInt by omega)
  have hlt := v.toInt_lt
  rw [hn, hm]
  simp only [Int.toNat_natCast]
  obtain ⟨k, hk, h1, h3⟩ := ilogLoop_spec m (by omega) n 0 (by omega)
  refine ⟨k, _, rfl, ?_, by exact_mod_cast h1, by exact_mod_cast h3⟩
  rw [hk, Nat.zero_add]
  apply ofNat_fits
  have : k < 2 ^ k := Nat.lt_two_pow_self
  have h4 : 2 ^ k ≤ m ^ k := Nat.pow_le_pow_left (by omega) k
  omega

/-- If `b ^ n` fits then so does every smaller positive power. -/
theorem fits_pow {b : Int} {n j : Nat} (h : Fits (b ^ n)) (h1 : 1 ≤ j) (hj : j ≤ n) : Fits (b ^ j) := by
  rcases Nat.eq_or_lt_of_le hj with rfl | hlt
  · exact h
  by_cases hb : b.natAbs ≤ 1
  · have : (b ^ j).natAbs ≤ 1 := by rw [Int.natAbs_pow]; exact (Nat.pow_le_pow_left hb j).trans (by simp)
    unfold Fits; omega
  · have hlt' : (b ^ j).natAbs < (b ^ n).natAbs := by
      rw [Int.natAbs_pow, Int.natAbs_pow]; exact Nat.pow_lt_pow_right (by omega) hlt
    unfold Fits at *; omega

theorem checkedMul_pow {B : Int} {E p q : Nat} {x y : Int64} (hf : Fits (B ^ E))
    (hx : x.toInt = B ^ p) (hy : y.toInt = B ^ q) (h1 : 1 ≤ p + q) (h2 : p + q ≤ E) :
    checkedMul x y = some (x * y) ∧ (x * y).toInt = B ^ (p + q) := by
  have : Fits (x.toInt * y.toInt) := by rw [hx, hy, ← pow_add]; exact fits_pow hf h1 h2
  have := (checkedMul_spec x y).1 this
  exact ⟨this.1, by rw [this.2, hx, hy, ← pow_add]⟩

theorem checkedMul_some {x y z : Int64} (h : checkedMul x y = some z) : z.toInt = x.toInt * y.toInt := by
  by_cases hf : Fits (x.toInt * y.toInt)
  · have := (checkedMul_spec x y).1 hf
    rw [this.1] at h; cases h; exact this.2
  · rw [(checkedMul_spec x y).2 hf] at h; cases h

theorem powStrip_spec {B : Int} {E : Nat} : ∀ (e : Nat) (x : Int64) (p : Nat), 1 ≤ e → 1 ≤ p →
    x.toInt = B ^ p → p * e = E →
    (Fits (B ^ E) → ∃ y e', powStrip x e = some (y, e')) ∧
    (∀ y e', powStrip x e = some (y, e') → e' % 2 = 1 ∧ ∃ p', 1 ≤ p' ∧ y.toInt = B ^ p' ∧ p' * e' = E) := by
  intro e
  induction e using Nat.strong_induction_on with
  | _ e ih =>
      intro x p he hp hx hE
      rw [powStrip]
      by_cases h : e % 2 = 0
      · rw [dif_pos ⟨by omega, h⟩]
        have hE' : (p + p) * (e / 2) = E := by
          rw [← hE]; obtain ⟨d, rfl⟩ : ∃ d, e = 2 * d := ⟨e / 2, by omega⟩
          rw [Nat.mul_div_cancel_left d (by omega)]; ring
        have hle : p + p ≤ E := by
          rw [← hE']; exact Nat.le_mul_of_pos_right _ (by omega)
        constructor
        · intro hf
          obtain ⟨hc, hz⟩ := checkedMul_pow hf hx hx (by omega) hle
          rw [hc]
          exact (ih (e / 2) (by omega) _ (p + p) (by omega) (by omega) hz hE').1 hf
        · intro y e' hy
          split at hy
          · rename_i z hc
            have hz : z.toInt = B ^ (p + p) := by rw [checkedMul_some hc, hx, ← pow_add]
            exact (ih (e / 2) (by omega) _ (p + p) (by omega) (by omega) hz hE').2 y e' hy
          · cases hy
      · rw [dif_neg (by tauto)]
        refine ⟨fun _ => ⟨x, e, rfl⟩, fun y e' hy => ?_⟩
        cases hy
        exact ⟨by omega, p, hp, hx, hE⟩

theorem powLoop_spec {B : Int} {E : Nat} : ∀ (e : Nat) (x a : Int64) (p q : Nat), 1 ≤ e → 1 ≤ p → 1 ≤ q →
    x.toInt = B ^ p → a.toInt = B ^ q → q + p * (e - e % 2) = E →
    (Fits (B ^ E) → ∃ z, powLoop x a e = some z) ∧
    (∀ z, powLoop x a e = some z → z.toInt = B ^ E) := by
  intro e
  induction e using Nat.strong_induction_on with
  | _ e ih =>
      intro x a p q he hp hq hx ha hE
      rw [powLoop]
      by_cases h : 1 < e
      · rw [dif_pos h]
        have hd : e - e % 2 = 2 * (e / 2) := by omega
        have hE' : q + (p + p) * (e / 2) = E := by rw [← hE, hd]; ring
        have hge : p + p ≤ (p + p) * (e / 2) := Nat.le_mul_of_pos_right _ (by omega)
        by_cases hodd : e / 2 % 2 = 1
        · have hE2 : q + (p + p) + (p + p) * (e / 2 - e / 2 % 2) = E := by
            rw [← hE', hodd]
            obtain ⟨d, hd'⟩ : ∃ d, e / 2 = d + 1 := ⟨e / 2 - 1, by omega⟩
            rw [hd', Nat.add_sub_cancel]; ring
          constructor
          · intro hf
            obtain ⟨hc, hz⟩ := checkedMul_pow hf hx hx (by omega) (by omega)
            rw [hc]
            simp only [hodd, if_true]
            obtain ⟨hc2, hz2⟩ := checkedMul_pow hf ha hz (by omega) (by omega)
            rw [hc2]
            exact (ih (e / 2) (by omega) _ _ (p + p) (q + (p + p)) (by omega) (by omega) (by omega)
              hz hz2 hE2).1 hf
          · intro z hy
            split at hy
            · rename_i b hc
              have hz : b.toInt = B ^ (p + p) := by rw [checkedMul_some hc, hx, ← pow_add]
              rw [if_pos hodd] at hy
              split at hy
              · rename_i a' hc2
                have hz2 : a'.toInt = B ^ (q + (p + p)) := by
                  rw [checkedMul_some hc2, ha, hz, ← pow_add]
                exact (ih (e / 2) (by omega) _ _ (p + p) (q + (p + p)) (by omega) (by omega) (by omega)
                  hz hz2 hE2).2 z hy
              · cases hy
            · cases hy
        · have hE2 : q + (p + p) * (e / 2 - e / 2 % 2) = E := by
            rw [← hE']; congr 2; omega
          constructor
          · intro hf
            obtain ⟨hc, hz⟩ := checkedMul_pow hf hx hx (by omega) (by omega)
            rw [hc]
            simp only [hodd, if_false]
            exact (ih (e / 2) (by omega) _ _ (p + p) q (by omega) (by omega) (by omega)
              hz ha hE2).1 hf
          · intro z hy
            split at hy
            · rename_i b hc
              have hz : b.toInt = B ^ (p + p) := by rw [checkedMul_some hc, hx, ← pow_add]
              rw [if_neg hodd] at hy
              exact (ih (e / 2) (by omega) _ _ (p + p) q (by omega) (by omega) (by omega)
                hz ha hE2).2 z hy
            · cases hy
      · rw [dif_neg h]
        have he1 : e = 1 := by omega
        subst he1
        simp at hE
        subst hE
        exact ⟨fun _ => ⟨a, rfl⟩, fun z hz => by cases hz; exact ha⟩

theorem checkedPow_spec (b : Int64) (n : Nat) :
    (Fits (b.toInt ^ n) → ∃ z, checkedPow b n = some z) ∧
      (∀ z, checkedPow b n = some z → z.toInt = b.toInt ^ n) := by
  unfold checkedPow
  by_cases h0 : n = 0
  · rw [if_pos h0]; subst h0
    exact ⟨fun _ => ⟨1, rfl⟩, fun z hz => by cases hz; simp⟩
  · rw [if_neg h0]
    have hs := powStrip_spec (B := b.toInt) (E := n) n b 1 (by omega) (by omega) (by simp) (by simp)
    cases hp : powStrip b n with
    | none =>
        refine ⟨fun hf => ?_, fun z hz => by simp at hz⟩
        obtain ⟨y, e', hy⟩ := hs.1 hf
        rw [hp] at hy; cases hy
    | some ye =>
        obtain ⟨y, e⟩ := ye
        obtain ⟨hodd, p, hp1, hy, hE⟩ := hs.2 y e hp
        simp only
        by_cases he : e = 1
        · rw [if_pos he]; subst he
          simp at hE; subst hE
          exact ⟨fun _ => ⟨y, rfl⟩, fun z hz => by cases hz; exact hy⟩
        · rw [if_neg he]
          apply powLoop_spec (B := b.toInt) (E := n) e y y p p (by omega) hp1 hp1 hy hy
          rw [← hE, hodd]
          obtain ⟨d, rfl⟩ : ∃ d, e = d + 1 := ⟨e - 1, by omega⟩
          rw [Nat.add_sub_cancel]; ring

/-- **C15** (power): exact or undefined, also in the intermediate steps of exponentiation by
squaring; undefined for negative exponents. -/
theorem pow_exact (b e : Int64) :
    (e.toInt < 0 → pow b e = .undef) ∧
      (0 ≤ e.toInt → ExactOrUndefined (pow b e) (b.toInt ^ e.toInt.toNat)) := by
  unfold pow
  simp only [Int64.lt_iff_toInt_lt, toInt_zero']
  refine ⟨fun h => by rw [if_pos h], fun h => ?_⟩
  rw [if_neg (by omega)]
  have hs := checkedPow_spec b e.toInt.toNat
  constructor
  · intro hf
    obtain ⟨z, hz⟩ := hs.1 hf
    exact ⟨z, by rw [hz]; rfl, hs.2 z hz⟩
  · intro hf
    cases hc : checkedPow b e.toInt.toNat with
    | none => rfl
    | some z =>
        have := hs.2 z hc
        exact absurd (this ▸ fits_toInt z) hf

/-- Comparisons compare the integers. -/
theorem compare_exact (a b : Int64) :
    (lt a b = true ↔ a.toInt < b.toInt) ∧ (le a b = true ↔ a.toInt ≤ b.toInt) ∧
      (gt a b = true ↔ a.toInt > b.toInt) ∧ (ge a b = true ↔ a.toInt ≥ b.toInt) := by
  simp [lt, le, gt, ge, Int64.lt_iff_toInt_lt, Int64.le_iff_toInt_le]

/-- The sum of integers, if defined, is the exact sum. -/
theorem sum_sound (xs : List Int64) {z : Int64} (h : sum xs = .val z) :
    z.toInt = (xs.map Int64.toInt).sum := by
  have key : ∀ (xs : List Int64) (s : Int64), sumLoop s xs = some z →
      z.toInt = s.toInt + (xs.map Int64.toInt).sum := by
    intro xs
    induction xs with
    | nil => intro s h; simp [sumLoop] at h; subst h; simp
    | cons x xs ih =>
        intro s h
        rw [sumLoop] at h
        by_cases hf : Fits (s.toInt + x.toInt)
        · have := (checkedAdd_spec s x).1 hf
          rw [this.1] at h
          rw [ih _ h, this.2]; simp; ring
        · rw [(checkedAdd_spec s x).2 hf] at h; cases h
  unfold sum at h
  cases hs : sumLoop 0 xs with
  | none => rw [hs] at h; cases h
  | some y =>
      rw [hs] at h
      simp only [Res.ofOption, Res.val.injEq] at h; subst h
      rw [key xs 0 hs, toInt_zero', Int.zero_add]

/-- The sum is defined if all prefix sums are representable. Partial: representability of the
total is not enough, see `sum_order`. -/
theorem sum_defined_partial (xs : List Int64)
    (h : ∀ ys, ys <+: xs → Fits ((ys.map Int64.toInt).sum)) : ∃ z, sum xs = .val z := by
  have key : ∀ (xs : List Int64) (s : Int64),
      (∀ ys, ys <+: xs → Fits (s.toInt + (ys.map Int64.toInt).sum)) → ∃ z, sumLoop s xs = some z := by
    intro xs
    induction xs with
    | nil => intro s _; exact ⟨s, rfl⟩
    | cons x xs ih =>
        intro s h
        have h1 := h [x] ⟨xs, rfl⟩
        simp at h1
        have hc := (checkedAdd_spec s x).1 h1
        rw [sumLoop, hc.1]
        apply ih
        intro ys hys
        have := h (x :: ys) (by simpa using hys)
        rw [hc.2]
        simpa [Int.add_assoc] using this
  obtain ⟨z, hz⟩ := key xs 0 (fun ys hys => by simpa [toInt_zero'] using h ys hys)
  exact ⟨z, by simp [sum, hz, Res.ofOption]⟩

/-- Sums of non-negative numbers are exact or undefined. -/
theorem sum_exact_nonneg (xs : List Int64) (h0 : ∀ x ∈ xs, 0 ≤ x.toInt) :
    ExactOrUndefined (sum xs) ((xs.map Int64.toInt).sum) := by
  have hpos : ∀ l : List Int64, (∀ x ∈ l, 0 ≤ x.toInt) → 0 ≤ (l.map Int64.toInt).sum := by
    intro l
    induction l with
    | nil => intro _; simp
    | cons x l ih =>
        intro h
        simp only [List.map_cons, List.sum_cons]
        have := h x (by simp); have := ih (fun y hy => h y (by simp [hy])); omega
  constructor
  · intro hf
    obtain ⟨z, hz⟩ := sum_defined_partial xs (by
      rintro ys ⟨zs, rfl⟩
      have h1 := hpos ys (fun x hx => h0 x (by simp [hx]))
      have h2 := hpos zs (fun x hx => h0 x (by simp [hx]))
      simp only [List.map_append, List.sum_append] at hf
      unfold Fits at *; omega)
    exact ⟨z, hz, sum_sound xs hz⟩
  · intro hf
    cases hs : sum xs with
    | val z => exact absurd (sum_sound xs hs ▸ fits_toInt z) hf
    | undef => rfl
    | panic => unfold sum Res.ofOption at hs; split at hs <;> cases hs

/-- Whether a sum is defined depends on the order of the parameters: `MAX + 1 - 1` is undefined,
`MAX - 1 + 1` is `MAX`. -/
theorem sum_order : sum [Int64.maxValue, 1, -1] = .undef ∧
    sum [Int64.maxValue, -1, 1] = .val Int64.maxValue := by
  constructor <;> decide

/-- The product of integers, if defined, is the exact product. -/
theorem prod_sound (xs : List Int64) {z : Int64} (h : prod xs = .val z) :
    z.toInt = (xs.map Int64.toInt).prod := by
  have key : ∀ (xs : List Int64) (s : Int64), prodLoop s xs = some z →
      z.toInt = s.toInt * (xs.map Int64.toInt).prod := by
    intro xs
    induction xs with
    | nil => intro s h; simp [prodLoop] at h; subst h; simp
    | cons x xs ih =>
        intro s h
        rw [prodLoop] at h
        by_cases hf : Fits (s.toInt * x.toInt)
        · have := (checkedMul_spec s x).1 hf
          rw [this.1] at h
          rw [ih _ h, this.2]; simp; ring
        · rw [(checkedMul_spec s x).2 hf] at h; cases h
  unfold prod at h
  cases hs : prodLoop 1 xs with
  | none => rw [hs] at h; cases h
  | some y =>
      rw [hs] at h
      simp only [Res.ofOption, Res.val.injEq] at h; subst h
      have h1 : (1 : Int64).toInt = 1 := by decide
      rw [key xs 1 hs, h1, Int.one_mul]

/-- If no factor is zero, a product is exact or undefined. -/
theorem prod_exact_nonzero_partial (xs : List Int64) (h0 : ∀ x ∈ xs, x.toInt ≠ 0)
    (hmin : (xs.map Int64.toInt).prod ≠ -2 ^ 63) :
    ExactOrUndefined (prod xs) ((xs.map Int64.toInt).prod) := by
  have h1' : (1 : Int64).toInt = 1 := by decide
  have key : ∀ (xs : List Int64) (s : Int64), (∀ x ∈ xs, x.toInt ≠ 0) →
      (s.toInt * (xs.map Int64.toInt).prod).natAbs < 2 ^ 63 → ∃ z, prodLoop s xs = some z := by
    intro xs
    induction xs with
    | nil => intro s _ _; exact ⟨s, rfl⟩
    | cons x xs ih =>
        intro s h hp
        simp only [List.map_cons, List.prod_cons] at hp
        have hne : (xs.map Int64.toInt).prod ≠ 0 := by
          have : ∀ l : List Int64, (∀ x ∈ l, x.toInt ≠ 0) → (l.map Int64.toInt).prod ≠ 0 := by
            intro l
            induction l with
            | nil => intro _; simp
            | cons y l ihl =>
                intro hl
                simp only [List.map_cons, List.prod_cons]
                exact mul_ne_zero (hl y (by simp)) (ihl (fun w hw => hl w (by simp [hw])))
          exact this xs (fun y hy => h y (by simp [hy]))
        rw [← Int.mul_assoc] at hp
        have hle : (s.toInt * x.toInt).natAbs ≤
            (s.toInt * x.toInt * (xs.map Int64.toInt).prod).natAbs := by
          rw [Int.natAbs_mul (s.toInt * x.toInt)]
          exact Nat.le_mul_of_pos_right _ (by omega)
        have hf : Fits (s.toInt * x.toInt) := by unfold Fits; omega
        have hc := (checkedMul_spec s x).1 hf
        rw [prodLoop, hc.1]
        exact ih _ (fun y hy => h y (by simp [hy])) (by rw [hc.2]; exact hp)
  constructor
  · intro hf
    obtain ⟨z, hz⟩ := key xs 1 h0 (by rw [h1', Int.one_mul]; unfold Fits at hf; omega)
    exact ⟨z, by simp [prod, hz, Res.ofOption], prod_sound xs (by simp [prod, hz, Res.ofOption])⟩
  · intro hf
    cases hs : prod xs with
    | val z => exact absurd (prod_sound xs hs ▸ fits_toInt z) hf
    | undef => rfl
    | panic => unfold prod Res.ofOption at hs; split at hs <;> cases hs

/-- With a zero factor, whether a product is defined depends on the order. -/
theorem prod_order : prod [Int64.maxValue, 2, 0] = .undef ∧ prod [0, Int64.maxValue, 2] = .val 0 := by
  constructor <;> decide

/-- The minimum of a non-empty list is its least element; undefined for the empty list. -/
theorem minimum_exact (xs : List Int64) :
    (xs = [] → minimum xs = .undef) ∧
      (xs ≠ [] → ∃ z ∈ xs, minimum xs = .val z ∧ ∀ x ∈ xs, z.toInt ≤ x.toInt) := by
  have key : ∀ (xs : List Int64) (m : Int64), minLoop m xs ∈ m :: xs ∧
      ∀ x ∈ m :: xs, (minLoop m xs).toInt ≤ x.toInt := by
    intro xs
    induction xs with
    | nil => intro m; simp [minLoop]
    | cons x xs ih =>
        intro m
        rw [minLoop]
        by_cases h : x < m
        · rw [if_pos h]
          obtain ⟨h1, h2⟩ := ih x
          refine ⟨List.mem_cons_of_mem _ h1, fun y hy => ?_⟩
          have hx := h2 x (by simp)
          rw [Int64.lt_iff_toInt_lt] at h
          rcases List.mem_cons.mp hy with rfl | hy
          · omega
          · exact h2 y hy
        · rw [if_neg h]
          obtain ⟨h1, h2⟩ := ih m
          rw [Int64.lt_iff_toInt_lt] at h
          have hm := h2 m (by simp)
          refine ⟨?_, fun y hy => ?_⟩
          · rcases List.mem_cons.mp h1 with h1 | h1 <;> simp [h1]
          · rcases List.mem_cons.mp hy with rfl | hy
            · exact hm
            · rcases List.mem_cons.mp hy with rfl | hy
              · omega
              · exact h2 y (List.mem_cons_of_mem _ hy)
  cases xs with
  | nil => simp [minimum]
  | cons x xs =>
      exact ⟨fun h => (by simp at h), fun _ => ⟨_, (key xs x).1, rfl, (key xs x).2⟩⟩

/-- The maximum of a non-empty list is its greatest element; undefined for the empty list. -/
theorem maximum_exact (xs : List Int64) :
    (xs = [] → maximum xs = .undef) ∧
      (xs ≠ [] → ∃ z ∈ xs, maximum xs = .val z ∧ ∀ x ∈ xs, x.toInt ≤ z.toInt) := by
  have key : ∀ (xs : List Int64) (m : Int64), maxLoop m xs ∈ m :: xs ∧
      ∀ x ∈ m :: xs, x.toInt ≤ (maxLoop m xs).toInt := by
    intro xs
    induction xs with
    | nil => intro m; simp [maxLoop]
    | cons x xs ih =>
        intro m
        rw [maxLoop]
        by_cases h : x ≥ m
        · rw [if_pos h]
          obtain ⟨h1, h2⟩ := ih x
          refine ⟨List.mem_cons_of_mem _ h1, fun y hy => ?_⟩
          have hx := h2 x (by simp)
          rw [ge_iff_le, Int64.le_iff_toInt_le] at h
          rcases List.mem_cons.mp hy with rfl | hy
          · omega
          · exact h2 y hy
        · rw [if_neg h]
          obtain ⟨h1, h2⟩ := ih m
          rw [ge_iff_le, Int64.le_iff_toInt_le] at h
          have hm := h2 m (by simp)
          refine ⟨?_, fun y hy => ?_⟩
          · rcases List.mem_cons.mp h1 with h1 | h1 <;> simp [h1]
          · rcases List.mem_cons.mp hy with rfl | hy
            · exact hm
            · rcases List.mem_cons.mp hy with rfl | hy
              · omega
              · exact h2 y (List.mem_cons_of_mem _ hy)
  cases xs with
  | nil => simp [maximum]
  | cons x xs =>
      exact ⟨fun h => (by simp at h), fun _ => ⟨_, (key xs x).1, rfl, (key xs x).2⟩⟩

/-! ### Bit operations -/

/-- Bit `i` of a word (two's complement). -/
def bit (a : Int64) (i : Nat) : Bool := a.toBitVec.getLsbD i

/-- `BITOR`: a bit of the result is set iff it is set in some parameter. -/
theorem bitOr_bit (xs : List Int64) (i : Nat) : bit (bitOr xs) i = xs.any (fun x => bit x i) := by
  have key : ∀ (xs : List Int64) (r : Int64),
      bit (xs.foldl (fun r x => r ||| x) r) i = (bit r i || xs.any (fun x => bit x i)) := by
    intro xs
    induction xs with
    | nil => intro r; simp
    | cons x xs ih =>
        intro r
        have hb : bit (r ||| x) i = (bit r i || bit x i) := by simp [bit, Int64.toBitVec_or]
        rw [List.foldl_cons, ih, List.any_cons, hb, Bool.or_assoc]
  have h0 : bit 0 i = false := by simp [bit]
  rw [bitOr, key, h0, Bool.false_or]

/-- `BITXOR`: a bit of the result is set iff it is set in an odd number of parameters. -/
theorem bitXor_bit (xs : List Int64) (i : Nat) :
    bit (bitXor xs) i = decide ((xs.countP (fun x => bit x i)) % 2 = 1) := by
  have key : ∀ (xs : List Int64) (r : Int64),
      bit (xs.foldl (fun r x => r ^^^ x) r) i =
        (bit r i ^^ decide ((xs.countP (fun x => bit x i)) % 2 = 1)) := by
    intro xs
    induction xs with
    | nil => intro r; simp
    | cons x xs ih =>
        intro r
        rw [List.foldl_cons, ih, List.countP_cons]
        have : bit (r ^^^ x) i = (bit r i ^^ bit x i) := by simp [bit, Int64.toBitVec_xor]
        rw [this, Bool.xor_assoc]
        congr 1
        cases bit x i <;> simp
        rcases Nat.mod_two_eq_zero_or_one (List.countP (fun x => bit x i) xs) with h | h <;>
          simp [Nat.add_mod, h]
  have h0 : bit 0 i = false := by simp [bit]
  rw [bitXor, key, h0, Bool.false_xor]

/-- `BITAND`: bits below the sign bit are set iff they are set in all parameters. The sign bit of
the result is always zero, which is wrong if all parameters are negative (`bitAnd_sign`). -/
theorem bitAnd_bit_partial (xs : List Int64) (i : Nat) (hi : i < 63) :
    bit (bitAnd xs) i = xs.all (fun x => bit x i) := by
  have key : ∀ (xs : List Int64) (r : Int64),
      bit (xs.foldl (fun r x => r &&& x) r) i = (bit r i && xs.all (fun x => bit x i)) := by
    intro xs
    induction xs with
    | nil => intro r; simp
    | cons x xs ih =>
        intro r
        have hb : bit (r &&& x) i = (bit r i && bit x i) := by simp [bit, Int64.toBitVec_and]
        rw [List.foldl_cons, ih, List.all_cons, hb, Bool.and_assoc]
  have hm : bit Int64.maxValue i = true := by
    have : ∀ j : Fin 63, bit Int64.maxValue j = true := by decide
    exact this ⟨i, hi⟩
  simp [bitAnd, key, hm]

/-- `BITAND(-1, -1)` is `i64::MAX` and not `-1`. -/
theorem bitAnd_sign : bitAnd [-1, -1] = Int64.maxValue ∧ bit (-1) 63 = true ∧
    bit (bitAnd [-1, -1]) 63 = false := by
  refine ⟨by decide, by decide, by decide⟩

theorem toInt_64 : (64 : Int64).toInt = 64 := by decide

/-- Left shift by `0 ≤ k < 64` multiplies by `2 ^ k` modulo `2 ^ 64`, so it is exact if the product
is representable; shifts by negative numbers are undefined. Partial: shifts by 64 or more panic. -/
theorem shl_exact_partial (v k : Int64) (hk : k.toInt < 64) :
    (k.toInt < 0 → shl v k = .undef) ∧
      (0 ≤ k.toInt → ∃ z, shl v k = .val z ∧ z.toInt = (v.toInt * 2 ^ k.toInt.toNat).bmod (2 ^ 64) ∧
        (Fits (v.toInt * 2 ^ k.toInt.toNat) → z.toInt = v.toInt * 2 ^ k.toInt.toNat)) := by
  unfold shl
  simp only [Int64.lt_iff_toInt_lt, Int64.le_iff_toInt_le, toInt_zero', toInt_64]
  refine ⟨fun h => by rw [if_pos h], fun h => ?_⟩
  rw [if_neg (by omega), if_neg (by omega)]
  have hz : (⟨⟨v.toBitVec <<< k.toInt.toNat⟩⟩ : Int64).toInt =
      (v.toInt * 2 ^ k.toInt.toNat).bmod (2 ^ 64) := by
    change (v.toBitVec <<< k.toInt.toNat).toInt = _
    have hv : v.toInt = (v.toBitVec.toNat : Int).bmod (2 ^ 64) := by
      rw [← Int64.toInt_toBitVec, BitVec.toInt_eq_toNat_bmod]
    rw [BitVec.toInt_shiftLeft, Nat.shiftLeft_eq, hv, Int.bmod_mul_bmod]
    push_cast
    rfl
  exact ⟨_, rfl, hz, fun hf => by rw [hz, bmod_fits hf]⟩

/-- Right shift by `0 ≤ k < 64` is division by `2 ^ k` rounded down; shifts by negative numbers are
undefined. Partial: shifts by 64 or more panic. -/
theorem shr_exact_partial (v k : Int64) (hk : k.toInt < 64) :
    (k.toInt < 0 → shr v k = .undef) ∧
      (0 ≤ k.toInt → ∃ z, shr v k = .val z ∧ z.toInt = v.toInt / 2 ^ k.toInt.toNat) := by
  unfold shr
  simp only [Int64.lt_iff_toInt_lt, Int64.le_iff_toInt_le, toInt_zero', toInt_64]
  refine ⟨fun h => by rw [if_pos h], fun h => ?_⟩
  rw [if_neg (by omega), if_neg (by omega)]
  refine ⟨_, rfl, ?_⟩
  change (v.toBitVec.sshiftRight k.toInt.toNat).toInt = _
  rw [BitVec.toInt_sshiftRight, Int64.toInt_toBitVec, Int.shiftRight_eq_div_pow]
  norm_num

/-- Unsigned right shift by `0 ≤ k < 64` divides the unsigned reading of the word by `2 ^ k`.
Partial: shifts by 64 or more panic. -/
theorem shru_exact_partial (v k : Int64) (hk : k.toInt < 64) :
    (k.toInt < 0 → shru v k = .undef) ∧
      (0 ≤ k.toInt → ∃ z, shru v k = .val z ∧
        z.toUInt64.toNat = v.toUInt64.toNat / 2 ^ k.toInt.toNat) := by
  unfold shru
  simp only [Int64.lt_iff_toInt_lt, Int64.le_iff_toInt_le, Int64.lt_iff_toInt_lt, toInt_zero', toInt_64]
  refine ⟨fun h => by rw [if_pos h], fun h => ?_⟩
  rw [if_neg (by omega), if_neg (by omega)]
  by_cases hv : 0 < v.toInt
  · rw [if_pos hv]
    refine ⟨_, rfl, ?_⟩
    change (v.toBitVec.sshiftRight k.toInt.toNat).toNat = v.toBitVec.toNat / _
    have hmsb : v.toBitVec.msb = false := by
      rw [BitVec.msb_eq_toInt]; simp only [Int64.toInt_toBitVec, decide_eq_false_iff_not]; omega
    rw [BitVec.sshiftRight_eq_of_msb_false hmsb, BitVec.toNat_ushiftRight, Nat.shiftRight_eq_div_pow]
  · rw [if_neg hv]
    refine ⟨_, rfl, ?_⟩
    change (v.toBitVec >>> k.toInt.toNat).toNat = v.toBitVec.toNat / _
    rw [BitVec.toNat_ushiftRight, Nat.shiftRight_eq_div_pow]

/-- A shift by 64 panics. -/
theorem shift_panics : shl 1 64 = .panic ∧ shr 1 64 = .panic ∧ shru 1 64 = .panic := by
  refine ⟨by decide, by decide, by decide⟩

/-! ### Examples -/

example : ExactOrUndefined (pow (-2) 63) (-2 ^ 63) := by
  have h1 : (-2 : Int64).toInt = -2 := by decide
  have h2 : (63 : Int64).toInt = 63 := by decide
  have := (pow_exact (-2) 63).2 (by rw [h2]; decide)
  rw [h1, h2] at this
  simpa using this

example : ∃ z, pow (-2) 63 = .val z ∧ z.toInt = -2 ^ 63 := by
  have h1 : (-2 : Int64).toInt = -2 := by decide
  have h2 : (63 : Int64).toInt = 63 := by decide
  have := ((pow_exact (-2) 63).2 (by rw [h2]; decide)).1 (by rw [h1, h2]; decide)
  rw [h1, h2] at this
  simpa using this

example : add Int64.maxValue 1 = .undef ∧ mul 4611686018427387904 (-2) = .val Int64.minValue := by
  constructor <;> decide

example : sum [1, 2, Int64.maxValue] = .undef ∧ sum [3, 4] = .val 7 := by
  constructor <;> decide

end Verif.I64
