import Verif.LiteralProofs
import Mathlib.Tactic.FieldSimp
/-
C47: the text of a number denotes that number; texts of the same number are the same data value.
-/

set_option linter.unusedVariables false
set_option linter.unusedSimpArgs false

namespace Verif.Lit
open Verif.Fn

/-! ### Numbers and their digits -/

theorem AllDigits.append {xs ys : List Char} (h : AllDigits xs) (h' : AllDigits ys) : AllDigits (xs ++ ys) := by
  intro c hc
  rcases List.mem_append.mp hc with hc | hc
  · exact h c hc
  · exact h' c hc

theorem digit_zero : digit 10 '0' = some 0 := by decide

theorem digit_eq_zero {c : Char} (h : digit 10 c = some 0) : zeroChar c = true := by
  have := (digit_char h).1
  subst this
  decide

theorem numeral_zeros {ip : List Char} (h : ip.all zeroChar = true) : numeral ip 0 = 0 := by
  induction ip with
  | nil => rfl
  | cons c ip ih =>
      simp only [List.all_cons, Bool.and_eq_true] at h
      have := zero_char h.1
      subst this
      simp [numeral, digit_zero, ih h.2]

theorem numeral_eq_zero {ip : List Char} (hd : AllDigits ip) : numeral ip 0 = 0 ↔ ip.all zeroChar = true := by
  refine ⟨fun h => ?_, numeral_zeros⟩
  induction ip with
  | nil => rfl
  | cons c ip ih =>
      obtain ⟨d, hc⟩ := hd c (by simp)
      simp only [numeral, hc, Option.getD_some] at h
      rw [numeral_acc] at h
      have hp : 0 < 10 ^ ip.length := Nat.pow_pos (by omega)
      have h1 : (0 * 10 + d) * 10 ^ ip.length = 0 := by omega
      have hd0 : d = 0 := by
        rcases Nat.mul_eq_zero.mp h1 with h | h
        · omega
        · omega
      subst hd0
      simp only [List.all_cons, Bool.and_eq_true]
      exact ⟨digit_eq_zero hc, ih (fun x hx => hd x (by simp [hx])) (by omega)⟩

theorem numeral_intPart (ip : List Char) : numeral (intPart ip) 0 = numeral ip 0 := by
  unfold intPart
  induction ip with
  | nil => rfl
  | cons c ip ih =>
      rw [List.dropWhile_cons]
      split_ifs with h
      · have := zero_char h
        subst this
        rw [ih]
        simp [numeral, digit_zero]
      · rfl

theorem AllDigits.intPart {ip : List Char} (h : AllDigits ip) : AllDigits (intPart ip) :=
  fun c hc => h c ((List.dropWhile_sublist _).subset hc)

theorem AllDigits.fracPart {fp : List Char} (h : AllDigits fp) : AllDigits (fracPart fp) :=
  fun c hc => h c ((List.rdropWhile_prefix zeroChar fp).subset hc)

theorem AllDigits.int0 {ip : List Char} (h : AllDigits ip) : AllDigits (int0 ip) := by
  unfold Lit.int0
  split_ifs
  · intro c hc
    simp at hc
    exact ⟨0, by subst hc; decide⟩
  · exact h.intPart

theorem numeral_int0 (ip : List Char) : numeral (int0 ip) 0 = numeral ip 0 := by
  unfold int0
  split_ifs with h
  · rw [numeral_zeros h]; decide
  · exact numeral_intPart ip

theorem int0_ne (ip : List Char) : int0 ip ≠ [] := by
  unfold int0
  split_ifs with h
  · simp
  · unfold intPart
    rw [Ne, List.dropWhile_eq_nil_iff]
    exact fun h' => h (List.all_eq_true.mpr h')

/-- Equal length, equal number: equal digits. -/
theorem digits_inj : ∀ {xs ys : List Char}, AllDigits xs → AllDigits ys → xs.length = ys.length →
    numeral xs 0 = numeral ys 0 → xs = ys
  | [], [], _, _, _, _ => rfl
  | [], _ :: _, _, _, h, _ => by simp at h
  | _ :: _, [], _, _, h, _ => by simp at h
  | c :: xs, d :: ys, hx, hy, hl, h => by
      obtain ⟨m, hm⟩ := hx c (by simp)
      obtain ⟨n, hn⟩ := hy d (by simp)
      have hx' : AllDigits xs := fun x h => hx x (by simp [h])
      have hy' : AllDigits ys := fun x h => hy x (by simp [h])
      simp only [List.length_cons, Nat.add_right_cancel_iff] at hl
      simp only [numeral, hm, hn, Option.getD_some] at h
      rw [numeral_acc xs, numeral_acc ys, hl] at h
      have h1 := numeral_lt hx'
      have h2 := numeral_lt hy'
      rw [hl] at h1
      have hmn : m = n := by
        have e1 : ((0 * 10 + m) * 10 ^ ys.length + numeral xs 0) / 10 ^ ys.length = m := by
          rw [Nat.mul_comm, Nat.mul_add_div (Nat.pow_pos (by omega)), Nat.div_eq_of_lt h1]; omega
        have e2 : ((0 * 10 + n) * 10 ^ ys.length + numeral ys 0) / 10 ^ ys.length = n := by
          rw [Nat.mul_comm, Nat.mul_add_div (Nat.pow_pos (by omega)), Nat.div_eq_of_lt h2]; omega
        rw [← e1, h, e2]
      subst hmn
      have : c = d := by rw [(digit_char hm).1, (digit_char hn).1]
      subst this
      rw [digits_inj hx' hy' hl (by omega)]

theorem numeral_lower {c : Char} {ip : List Char} (hd : AllDigits (c :: ip)) (hc : zeroChar c = false) :
    10 ^ ip.length ≤ numeral (c :: ip) 0 := by
  obtain ⟨d, hdc⟩ := hd c (by simp)
  have : d ≠ 0 := by
    rintro rfl
    rw [digit_eq_zero hdc] at hc
    cases hc
  simp only [numeral, hdc, Option.getD_some]
  rw [numeral_acc]
  have h2 : 1 * 10 ^ ip.length ≤ (0 * 10 + d) * 10 ^ ip.length := Nat.mul_le_mul_right _ (by omega)
  omega

/-- No leading zeros. -/
def NoLead (ip : List Char) : Prop := ∀ c r, ip = c :: r → zeroChar c = false

theorem noLead_intPart (ip : List Char) : NoLead (intPart ip) := by
  intro c r h
  have := List.head?_dropWhile_not zeroChar ip
  unfold intPart at h
  rw [h] at this
  simpa using this

theorem noLead_inj {xs ys : List Char} (hx : AllDigits xs) (hy : AllDigits ys) (nx : NoLead xs) (ny : NoLead ys)
    (h : numeral xs 0 = numeral ys 0) : xs = ys := by
  have key : ∀ {xs ys : List Char}, AllDigits xs → AllDigits ys → NoLead ys → numeral xs 0 = numeral ys 0 →
      ys.length ≤ xs.length := by
    intro xs ys hx hy ny h
    cases ys with
    | nil => simp
    | cons d ys =>
        have h1 := numeral_lower hy (ny d ys rfl)
        have h2 := numeral_lt hx
        rw [h] at h2
        have : 10 ^ ys.length < 10 ^ xs.length := by omega
        have := (Nat.pow_lt_pow_iff_right (by omega : 1 < 10)).mp this
        simp
        omega
  have l1 := key hx hy ny h
  have l2 := key hy hx nx h.symm
  exact digits_inj hx hy (by omega) h

theorem intPart_inj {xs ys : List Char} (hx : AllDigits xs) (hy : AllDigits ys)
    (h : numeral xs 0 = numeral ys 0) : intPart xs = intPart ys :=
  noLead_inj hx.intPart hy.intPart (noLead_intPart xs) (noLead_intPart ys) (by rw [numeral_intPart, numeral_intPart, h])

theorem int0_inj {xs ys : List Char} (hx : AllDigits xs) (hy : AllDigits ys)
    (h : numeral xs 0 = numeral ys 0) : int0 xs = int0 ys := by
  unfold int0
  have : xs.all zeroChar = ys.all zeroChar := by
    rw [Bool.eq_iff_iff, ← numeral_eq_zero hx, ← numeral_eq_zero hy, h]
  rw [this, intPart_inj hx hy h]

/-- The fraction as a number. -/
def fracVal (fp : List Char) : ℚ := numeral fp 0 / 10 ^ fp.length

theorem numeral_snoc_zeros (xs : List Char) (k : Nat) :
    numeral (xs ++ List.replicate k '0') 0 = numeral xs 0 * 10 ^ k := by
  rw [numeral_append, numeral_acc]
  have : numeral (List.replicate k '0') 0 = 0 := by
    apply numeral_zeros
    simp [zeroChar]
  rw [this, List.length_replicate, Nat.add_zero]

theorem fracPart_append (fp : List Char) : ∃ k, fp = fracPart fp ++ List.replicate k '0' := by
  obtain ⟨t, ht⟩ := List.rdropWhile_prefix zeroChar fp
  refine ⟨t.length, ?_⟩
  have hz : ∀ c ∈ t, c = '0' := by
    have : t = fp.rtakeWhile zeroChar := by
      have := List.rdropWhile_append_rtakeWhile (p := zeroChar) (l := fp)
      rw [← this] at ht
      conv at ht => rw [List.rdropWhile_append_rtakeWhile]
      have h2 : List.rdropWhile zeroChar fp ++ t = List.rdropWhile zeroChar fp ++ List.rtakeWhile zeroChar fp := by
        rw [ht, this]
      exact List.append_cancel_left h2
    intro c hc
    rw [this] at hc
    exact zero_char (List.mem_rtakeWhile_imp hc)
  have : t = List.replicate t.length '0' := List.eq_replicate_iff.mpr ⟨rfl, hz⟩
  rw [← this]
  exact ht.symm

theorem fracVal_fracPart (fp : List Char) : fracVal (fracPart fp) = fracVal fp := by
  obtain ⟨k, hk⟩ := fracPart_append fp
  have : fracVal fp = fracVal (fracPart fp ++ List.replicate k '0') := by rw [← hk]
  rw [this]
  unfold fracVal
  rw [numeral_snoc_zeros, List.length_append, List.length_replicate, pow_add]
  push_cast
  rw [mul_div_mul_right _ _ (by positivity)]

theorem fracPart_inj_aux {xs ys : List Char} (hx : AllDigits xs) (hy : AllDigits ys)
    (hl : (fracPart xs).length ≤ (fracPart ys).length) (h : fracVal xs = fracVal ys) : fracPart xs = fracPart ys := by
  rw [← fracVal_fracPart xs, ← fracVal_fracPart ys] at h
  obtain ⟨k, hk⟩ := Nat.exists_eq_add_of_le hl
  unfold fracVal at h
  rw [hk, pow_add] at h
  have hp : (10 : ℚ) ^ (fracPart xs).length ≠ 0 := by positivity
  have hq : (10 : ℚ) ^ k ≠ 0 := by positivity
  have h2 : (numeral (fracPart xs) 0 : ℚ) * 10 ^ k = numeral (fracPart ys) 0 := by
    field_simp at h
    linarith
  have h3 : numeral (fracPart xs) 0 * 10 ^ k = numeral (fracPart ys) 0 := by exact_mod_cast h2
  rw [← numeral_snoc_zeros] at h3
  have hrep : AllDigits (List.replicate k '0') := by
    intro c hc
    have := List.eq_of_mem_replicate hc
    subst this
    exact ⟨0, digit_zero⟩
  have h4 := digits_inj (hx.fracPart.append hrep) hy.fracPart (by simp [hk]) h3
  cases k with
  | zero => simpa using h4
  | succ k =>
      exfalso
      have hlast : (fracPart ys).getLast? = some '0' := by
        rw [← h4, List.replicate_succ', ← List.append_assoc]
        simp
      have hne : fracPart ys ≠ [] := by
        intro he
        rw [he] at hlast
        simp at hlast
      have h5 := List.rdropWhile_last_not zeroChar ys hne
      have h6 : (fracPart ys).getLast hne = '0' := by
        rw [List.getLast?_eq_some_getLast hne] at hlast
        simpa using hlast
      unfold fracPart at h6
      rw [h6] at h5
      exact h5 (by decide)

theorem fracPart_inj {xs ys : List Char} (hx : AllDigits xs) (hy : AllDigits ys)
    (h : fracVal xs = fracVal ys) : fracPart xs = fracPart ys := by
  rcases Nat.le_total (fracPart xs).length (fracPart ys).length with hl | hl
  · exact fracPart_inj_aux hx hy hl h
  · exact (fracPart_inj_aux hy hx hl h.symm).symm

theorem fracVal_bounds {fp : List Char} (h : AllDigits fp) : 0 ≤ fracVal fp ∧ fracVal fp < 1 := by
  unfold fracVal
  have := numeral_lt h
  refine ⟨by positivity, ?_⟩
  rw [div_lt_one (by positivity)]
  exact_mod_cast this

theorem fracVal_zero {fp : List Char} (h : AllDigits fp) : fracVal fp = 0 ↔ fp.all zeroChar = true := by
  rw [← numeral_eq_zero h]
  unfold fracVal
  rw [div_eq_zero_iff]
  constructor
  · rintro (h | h)
    · exact_mod_cast h
    · exact absurd h (by positivity)
  · intro h; left; exact_mod_cast h

/-! ### What a literal becomes -/

theorem i64_has_zero : i64.Has 0 := by decide
theorem u64_has_zero : u64.Has 0 := by decide

/-- No fraction. -/
def NoFrac (fp : Option (List Char)) : Prop := (fp.getD []).all zeroChar = true

instance (fp : Option (List Char)) : Decidable (NoFrac fp) := inferInstanceAs (Decidable (_ = _))

/-- The data value of a decimal number. -/
def canon (neg : Bool) (ip : List Char) (fp : Option (List Char)) : DV :=
  if NoFrac fp then
    if i64.Has (signed neg (numeral ip 0)) then .long (Int64.ofInt (signed neg (numeral ip 0)))
    else if fp.isSome = true ∧ u64.Has (signed neg (numeral ip 0)) then .ulong (UInt64.ofNat (numeral ip 0))
    else .other (String.ofList (minus neg ++ int0 ip)) (XSD ++ "integer")
  else .other (String.ofList (minus neg ++ int0 ip ++ frac0 (fp.getD []))) (XSD ++ "decimal")

theorem minus_sign (neg : Bool) : Sign (minus neg) neg := by
  cases neg
  · exact .absent
  · exact .minus

theorem int0_integer (neg : Bool) {ip : List Char} (h : AllDigits ip) : IsInteger (minus neg ++ int0 ip) neg (int0 ip) :=
  ⟨⟨minus neg, minus_sign neg, by simp [fracText]⟩, h.int0, by simp [AllDigits], by simpa using int0_ne ip⟩

theorem fromStr_u64_minus {ip : List Char} (h : ip ≠ []) : fromStr u64 ('-' :: ip) = .error .invalidDigit := by
  rw [fromStr_minus u64 h]; rfl

theorem pointed_spec (neg : Bool) {ip : List Char} (h : AllDigits ip) :
    pointed (minus neg ++ int0 ip) = canon neg ip (some []) := by
  have hi := int0_integer neg h
  have hn := numeral_int0 ip
  unfold pointed canon
  rw [fromStr_integer i64_has_zero hi (fun _ => rfl), hn, if_pos (show NoFrac (some []) from rfl)]
  split_ifs with h1 h2
  · rfl
  · simp only
    have hneg : neg = false := by
      cases neg with
      | false => rfl
      | true =>
          exfalso
          have := h2.2.1
          simp only [signed, if_true] at this
          have h0 : numeral ip 0 = 0 := by
            simp [u64] at this
            omega
          apply h1
          rw [h0]
          decide
    subst hneg
    have := fromStr_integer (t := u64) u64_has_zero hi (by simp)
    rw [hn, if_pos h2.2] at this
    rw [this]
    simp [signed]
  · simp only
    have : ∃ e, fromStr u64 (minus neg ++ int0 ip) = .error e := by
      cases neg with
      | true => exact ⟨_, fromStr_u64_minus (int0_ne ip)⟩
      | false =>
          have := fromStr_integer (t := u64) u64_has_zero hi (by simp)
          rw [hn, if_neg (by simpa using h2)] at this
          exact ⟨_, this⟩
    obtain ⟨e, he⟩ := this
    rw [he]

theorem IsDecimal.ne {cs : List Char} {neg : Bool} {ip : List Char} {fp : Option (List Char)}
    (h : IsDecimal cs neg ip fp) : cs ≠ [] := by
  obtain ⟨sgn, _, rfl⟩ := h.text
  have := h.some_digit
  intro he
  simp only [List.append_eq_nil_iff] at he
  apply this
  cases fp with
  | none => simpa using he.1.2
  | some f => simp [fracText] at he

/-- Texts with a point are no whole numbers. -/
theorem point_not_integer {cs : List Char} {neg : Bool} {ip fp : List Char} (h : Shape cs neg ip (some fp)) :
    ∀ neg' ip', ¬ IsInteger cs neg' ip' := by
  intro neg' ip' h'
  obtain ⟨sgn, _, rfl⟩ := h.text
  obtain ⟨sgn', hs', he⟩ := h'.text
  have hmem : '.' ∈ sgn' ++ ip' ++ fracText none := by
    rw [← he]
    simp [fracText]
  simp only [fracText, List.append_nil, List.mem_append] at hmem
  rcases hmem with hm | hm
  · cases hs' <;> simp at hm
  · exact (sign_digit (h'.int _ hm)).2.2 rfl

theorem fromStr_point {t : IntTy} (h0 : t.Has 0) {cs : List Char} {neg : Bool} {ip fp : List Char}
    (h : Shape cs neg ip (some fp)) : ∃ e, fromStr t cs = .error e := by
  cases hf : fromStr t cs with
  | error e => exact ⟨e, rfl⟩
  | ok v =>
      obtain ⟨neg', ip', hi, _⟩ := fromStr_ok h0 hf
      exact absurd hi (point_not_integer h neg' ip')

theorem fromStr_empty {t : IntTy} {cs : List Char} (h : cs ≠ []) (he : fromStr t cs = .error .empty) : False := by
  have key : ∀ neg cs r, digitLoop t neg cs r ≠ .error .empty := by
    intro neg cs r h
    by_cases hd : AllDigits cs
    · induction cs generalizing r with
      | nil => cases h
      | cons c cs ih =>
          obtain ⟨d, hc⟩ := hd c (by simp)
          simp only [digitLoop, hc] at h
          split_ifs at h
          · exact ih _ h (fun x hx => hd x (by simp [hx]))
          · cases neg <;> simp [overflow] at h
          · cases neg <;> simp [overflow] at h
    · obtain ⟨e, he, h'⟩ := digitLoop_other t neg hd r
      rw [he] at h
      simp only [Except.error.injEq] at h
      subst h
      cases neg <;> simp [overflow] at h'
  cases cs with
  | nil => exact h rfl
  | cons c cs =>
      by_cases h1 : c = '+'
      · subst h1
        by_cases hne : cs = []
        · subst hne; cases he
        · rw [fromStr_plus t hne] at he
          exact key _ _ _ he
      · by_cases h2 : c = '-'
        · subst h2
          by_cases hne : cs = []
          · subst hne; cases he
          · rw [fromStr_minus t hne] at he
            split_ifs at he
            · exact key _ _ _ he
            · simp at he
        · rw [fromStr_none t h1 h2] at he
          exact key _ _ _ he

/-- Whole numbers that do not fit. -/
theorem parseLarge_whole {cs : List Char} {neg : Bool} {ip : List Char} (h : IsInteger cs neg ip) (t : DecType)
    (hz : numeral ip 0 ≠ 0) : parseLarge cs t =
      if t.rejectsSign (!neg) then .undef
      else .val (.other (String.ofList (minus neg ++ int0 ip)) (XSD ++ "integer")) := by
  obtain ⟨s, hr, h1, h2, h3, h4, h5⟩ := run_whole h.shape
  have hall : ip.all zeroChar = false := by
    rw [← Bool.not_eq_true, ← numeral_eq_zero h.int]
    exact hz
  unfold parseLarge
  rw [hr]
  simp only
  unfold DecSt.finish
  have hsaw : s.saw = true := by
    rw [h1]
    have := isInteger_ne h
    cases ip
    · exact absurd rfl this
    · rfl
  rw [hsaw, h2, h3, h4, hall, h5]
  simp only [Bool.true_eq_false, if_false, if_true, Bool.false_eq_true, int0, hall]

/-- A number with a point. -/
theorem parseLarge_point {cs : List Char} {neg : Bool} {ip fp : List Char} (h : IsDecimal cs neg ip (some fp))
    (t : DecType) : parseLarge cs t = if t = .decimal then .val (canon neg ip (some fp)) else .undef := by
  obtain ⟨s, hr, h1, h2, h3, h4, h5⟩ := run_point h.shape
  unfold parseLarge
  rw [hr]
  simp only
  unfold DecSt.finish
  have hsaw : s.saw = true := by
    rw [h1]
    have := h.some_digit
    simp only [Option.getD_some] at this
    cases hc : ip ++ fp
    · exact absurd hc this
    · rfl
  rw [hsaw, h2, h4, h5]
  simp only [Bool.true_eq_false, if_false]
  split_ifs with ht hz
  · have hnf : ¬ NoFrac (some fp) := by simpa [NoFrac] using hz
    unfold canon
    rw [if_neg hnf]
    rfl
  · have hnf : NoFrac (some fp) := by simpa [NoFrac] using hz
    have hfr : frac0 fp = [] := by
      unfold frac0
      rw [if_pos (by simpa [NoFrac] using hnf)]
    rw [hfr, List.append_nil, pointed_spec neg h.int]
    unfold canon
    rw [if_pos hnf, if_pos (by simp [NoFrac])]
    rfl
  · rfl

/-- **C47.** A decimal literal becomes the data value of its number. -/
theorem decimalLit_decimal {cs : List Char} {neg : Bool} {ip : List Char} {fp : Option (List Char)}
    (h : IsDecimal cs neg ip fp) : decimalLit cs .decimal = .val (canon neg ip fp) := by
  cases fp with
  | none =>
      unfold decimalLit
      rw [fromStr_integer i64_has_zero h (fun _ => rfl)]
      by_cases hfit : i64.Has (signed neg (numeral ip 0))
      · rw [if_pos hfit]
        simp only [fromLong, DecType.rejects, Bool.false_eq_true, if_false]
        unfold canon
        rw [if_pos (by simp [NoFrac]), if_pos hfit]
      · rw [if_neg hfit]
        have hnz : numeral ip 0 ≠ 0 := by
          intro h0
          apply hfit
          rw [h0]
          cases neg <;> decide
        have hp := parseLarge_whole h .decimal hnz
        simp only [DecType.rejectsSign, Bool.false_eq_true, if_false] at hp
        have hc : canon neg ip none = .other (String.ofList (minus neg ++ int0 ip)) (XSD ++ "integer") := by
          unfold canon
          rw [if_pos (by simp [NoFrac]), if_neg hfit, if_neg (by simp)]
        rw [hc]
        cases neg <;> simp only [overflow, Bool.false_eq_true, if_false, if_true] <;> exact hp
  | some fp =>
      obtain ⟨e, he⟩ := fromStr_point (t := i64) i64_has_zero h.shape
      have hp := parseLarge_point h .decimal
      rw [if_pos rfl] at hp
      unfold decimalLit
      rw [he]
      cases e with
      | empty => exact (fromStr_empty h.ne he).elim
      | invalidDigit => simp only [if_true]; exact hp
      | posOverflow => exact hp
      | negOverflow => exact hp

/-- **C47.** Anything else is refused: a text that is no decimal number is no value of any of the
decimal types (and never a panic). -/
theorem decimalLit_refused {cs : List Char} (h : ∀ neg ip fp, ¬ IsDecimal cs neg ip fp) (t : DecType) :
    decimalLit cs t = .undef := by
  have hl : parseLarge cs t = .undef := by
    unfold parseLarge
    cases hr : DecSt.init.run cs with
    | none => rfl
    | some s =>
        simp only
        obtain ⟨neg, ip, fp, hs⟩ := run_some hr
        have hne : ip ++ fp.getD [] = [] := by
          by_contra hh
          exact h neg ip fp ⟨hs.text, hs.int, hs.frac, hh⟩
        have hsaw : s.saw = false := by
          cases fp with
          | none =>
              obtain ⟨s', hr', h1, _⟩ := run_whole hs
              rw [hr] at hr'
              cases hr'
              rw [h1]
              simp at hne
              simp [hne]
          | some fp =>
              obtain ⟨s', hr', h1, _⟩ := run_point hs
              rw [hr] at hr'
              cases hr'
              rw [h1]
              simp only [Option.getD_some] at hne
              rw [hne]
              rfl
        unfold DecSt.finish
        rw [if_pos hsaw]
  unfold decimalLit
  cases hf : fromStr i64 cs with
  | ok v =>
      obtain ⟨neg, ip, hi, _⟩ := fromStr_ok i64_has_zero hf
      exact absurd hi (h neg ip none)
  | error e =>
      cases e <;> simp only
      · split_ifs
        · exact hl
        · rfl
      · exact hl
      · exact hl

/-- The whole numbers of the integer types of XML Schema. -/
def DecType.Allows : DecType → Int → Prop
  | .decimal, _ => True
  | .integer, _ => True
  | .positiveInteger, i => 0 < i
  | .nonNegativeInteger, i => 0 ≤ i
  | .negativeInteger, i => i < 0
  | .nonPositiveInteger, i => i ≤ 0

theorem rejects_iff (t : DecType) (i : Int) : t.rejects i = false ↔ t.Allows i := by
  cases t <;> simp [DecType.rejects, DecType.Allows]

theorem rejectsSign_iff (t : DecType) (neg : Bool) {n : Nat} (hn : n ≠ 0) :
    t.rejectsSign (!neg) = false ↔ t.Allows (signed neg n) := by
  cases t <;> cases neg <;> simp [DecType.rejectsSign, DecType.Allows, signed] <;> omega

/-- **C47.** A whole number as a literal of a decimal type: accepted exactly if it is a number of the
type; then it becomes the data value of the number. -/
theorem decimalLit_integer {cs : List Char} {neg : Bool} {ip : List Char} (h : IsInteger cs neg ip) (t : DecType) :
    (t.Allows (signed neg (numeral ip 0)) → decimalLit cs t = .val (canon neg ip none)) ∧
    (¬ t.Allows (signed neg (numeral ip 0)) → decimalLit cs t = .undef) := by
  have hf := fromStr_integer (t := i64) i64_has_zero h (fun _ => rfl)
  by_cases hfit : i64.Has (signed neg (numeral ip 0))
  · rw [if_pos hfit] at hf
    have hc : canon neg ip none = .long (Int64.ofInt (signed neg (numeral ip 0))) := by
      unfold canon
      rw [if_pos (by simp [NoFrac]), if_pos hfit]
    unfold decimalLit
    rw [hf]
    simp only [fromLong, hc]
    rw [← rejects_iff]
    cases t.rejects (signed neg (numeral ip 0)) <;> simp
  · rw [if_neg hfit] at hf
    have hnz : numeral ip 0 ≠ 0 := by
      intro h0
      apply hfit
      rw [h0]
      cases neg <;> decide
    have hp := parseLarge_whole h t hnz
    have hc : canon neg ip none = .other (String.ofList (minus neg ++ int0 ip)) (XSD ++ "integer") := by
      unfold canon
      rw [if_pos (by simp [NoFrac]), if_neg hfit, if_neg (by simp)]
    have hd : decimalLit cs t = parseLarge cs t := by
      unfold decimalLit
      rw [hf]
      cases neg <;> rfl
    rw [hd, hp, hc, ← rejectsSign_iff t neg hnz]
    cases t.rejectsSign (!neg) <;> simp

/-- **C47.** The integer types refuse numbers with a point, even if the fraction is zero. -/
theorem decimalLit_point {cs : List Char} {neg : Bool} {ip fp : List Char} (h : IsDecimal cs neg ip (some fp))
    {t : DecType} (ht : t ≠ .decimal) : decimalLit cs t = .undef := by
  obtain ⟨e, he⟩ := fromStr_point (t := i64) i64_has_zero h.shape
  have hp := parseLarge_point h t
  rw [if_neg ht] at hp
  unfold decimalLit
  rw [he]
  cases e <;> simp only [ht, if_false, hp]

/-! ### Values of literals -/

/-- Specification: the number a data value stands for. Numbers outside of the 64-bit range and numbers
with a fraction are kept as a text with a datatype. -/
inductive Denotes : DV → ℚ → Prop where
  | long (i : Int64) : Denotes (.long i) i.toInt
  | ulong (n : UInt64) : Denotes (.ulong n) n.toNat
  | integer {s : String} {neg : Bool} {ip : List Char} (h : IsDecimal s.toList neg ip none) :
      Denotes (.other s (XSD ++ "integer")) (decValue neg ip none)
  | decimal {s : String} {neg : Bool} {ip : List Char} {fp : Option (List Char)} (h : IsDecimal s.toList neg ip fp) :
      Denotes (.other s (XSD ++ "decimal")) (decValue neg ip fp)

theorem decValue_eq (neg : Bool) (ip : List Char) (fp : Option (List Char)) :
    decValue neg ip fp = (if neg then -1 else 1) * ((numeral ip 0 : ℚ) + fracVal (fp.getD [])) := rfl

theorem decValue_signed (neg : Bool) (ip : List Char) {fp : Option (List Char)} (h : NoFrac fp) :
    decValue neg ip fp = (signed neg (numeral ip 0) : Int) := by
  have : fracVal (fp.getD []) = 0 := by
    unfold fracVal
    rw [numeral_zeros h]
    simp
  rw [decValue_eq, this]
  cases neg <;> simp [signed]

theorem canon_denotes {cs : List Char} {neg : Bool} {ip : List Char} {fp : Option (List Char)}
    (h : IsDecimal cs neg ip fp) : Denotes (canon neg ip fp) (decValue neg ip fp) := by
  unfold canon
  split_ifs with hnf h1 h2
  · rw [decValue_signed neg ip hnf]
    have := Denotes.long (Int64.ofInt (signed neg (numeral ip 0)))
    rwa [Int64.toInt_ofInt_of_le (by simpa [i64] using h1.1) (by have := h1.2; simp [i64] at this; omega)] at this
  · have hs : signed neg (numeral ip 0) = (numeral ip 0 : Int) := by
      have := h2.2.1
      unfold signed at *
      cases neg with
      | false => rfl
      | true =>
          simp [u64] at this ⊢
          omega
    rw [decValue_signed neg ip hnf, hs]
    have := Denotes.ulong (UInt64.ofNat (numeral ip 0))
    rw [UInt64.toNat_ofNat_of_lt'] at this
    · exact_mod_cast this
    · have h3 := h2.2.2
      rw [hs] at h3
      simp [u64] at h3
      simp [UInt64.size]
      omega
  · have hd := Denotes.integer (s := String.ofList (minus neg ++ int0 ip)) (neg := neg) (ip := int0 ip)
      (by rw [String.toList_ofList]; exact int0_integer neg h.int)
    have : decValue neg (int0 ip) none = decValue neg ip fp := by
      rw [decValue_signed neg ip hnf, decValue_signed neg (int0 ip) (show NoFrac none from rfl), numeral_int0]
    rwa [this] at hd
  · have hall : (fp.getD []).all zeroChar = false := by simpa [NoFrac] using hnf
    have hfr : frac0 (fp.getD []) = '.' :: fracPart (fp.getD []) := by
      unfold frac0
      rw [if_neg (by simpa using hall)]
    have hd := Denotes.decimal (s := String.ofList (minus neg ++ int0 ip ++ frac0 (fp.getD []))) (neg := neg)
      (ip := int0 ip) (fp := some (fracPart (fp.getD [])))
      ⟨⟨minus neg, minus_sign neg, by rw [String.toList_ofList, hfr, fracText]⟩, h.int.int0, h.frac.fracPart,
        by simp [int0_ne]⟩
    have : decValue neg (int0 ip) (some (fracPart (fp.getD []))) = decValue neg ip fp := by
      rw [decValue_eq, decValue_eq, numeral_int0, Option.getD_some, fracVal_fracPart]
    rwa [this] at hd

/-- **C47.** The value of an accepted decimal literal stands for the number that is written. -/
theorem decimal_value {cs : List Char} {neg : Bool} {ip : List Char} {fp : Option (List Char)}
    (h : IsDecimal cs neg ip fp) {t : DecType} {v : DV} (hv : decimalLit cs t = .val v) :
    Denotes v (decValue neg ip fp) := by
  have key : v = canon neg ip fp := by
    cases fp with
    | none =>
        have := decimalLit_integer h t
        by_cases ha : t.Allows (signed neg (numeral ip 0))
        · rw [this.1 ha] at hv
          cases hv
          rfl
        · rw [this.2 ha] at hv
          cases hv
    | some fp =>
        by_cases ht : t = .decimal
        · subst ht
          rw [decimalLit_decimal h] at hv
          cases hv
          rfl
        · rw [decimalLit_point h ht] at hv
          cases hv
  rw [key]
  exact canon_denotes h

/-- **C47.** A decimal literal is accepted exactly if it is a decimal number. -/
theorem decimal_accepts (cs : List Char) :
    (∃ v, decimalLit cs .decimal = .val v) ↔ ∃ neg ip fp, IsDecimal cs neg ip fp := by
  constructor
  · rintro ⟨v, hv⟩
    by_contra h
    push Not at h
    rw [decimalLit_refused h] at hv
    cases hv
  · rintro ⟨neg, ip, fp, h⟩
    exact ⟨_, decimalLit_decimal h⟩

/-- **C47.** A literal of an integer type is accepted exactly if it is a whole number of the type. -/
theorem integer_accepts (cs : List Char) {t : DecType} (ht : t ≠ .decimal) :
    (∃ v, decimalLit cs t = .val v) ↔ ∃ neg ip, IsInteger cs neg ip ∧ t.Allows (signed neg (numeral ip 0)) := by
  constructor
  · rintro ⟨v, hv⟩
    by_cases h : ∃ neg ip fp, IsDecimal cs neg ip fp
    · obtain ⟨neg, ip, fp, h⟩ := h
      cases fp with
      | none =>
          refine ⟨neg, ip, h, ?_⟩
          by_contra ha
          rw [(decimalLit_integer h t).2 ha] at hv
          cases hv
      | some fp =>
          rw [decimalLit_point h ht] at hv
          cases hv
    · push Not at h
      rw [decimalLit_refused h] at hv
      cases hv
  · rintro ⟨neg, ip, h, ha⟩
    exact ⟨_, (decimalLit_integer h t).1 ha⟩

/-- **C47.** Literals never panic. -/
theorem decimal_no_panic (cs : List Char) (t : DecType) : decimalLit cs t ≠ .panic := by
  by_cases h : ∃ neg ip fp, IsDecimal cs neg ip fp
  · obtain ⟨neg, ip, fp, h⟩ := h
    cases fp with
    | none =>
        by_cases ha : t.Allows (signed neg (numeral ip 0))
        · rw [(decimalLit_integer h t).1 ha]; simp
        · rw [(decimalLit_integer h t).2 ha]; simp
    | some fp =>
        by_cases ht : t = .decimal
        · subst ht
          rw [decimalLit_decimal h]; simp
        · rw [decimalLit_point h ht]; simp
  · push Not at h
    rw [decimalLit_refused h]; simp

/-- The numbers between the largest `i64` and the largest `u64`. -/
def Gap (q : ℚ) : Prop := 2 ^ 63 ≤ q ∧ q < 2 ^ 64

theorem canon_zero {neg : Bool} {ip : List Char} {fp : Option (List Char)} (hi : numeral ip 0 = 0) (hf : NoFrac fp) :
    canon neg ip fp = .long (Int64.ofInt 0) := by
  unfold canon
  have : signed neg (numeral ip 0) = 0 := by rw [hi]; cases neg <;> rfl
  rw [if_pos hf, this, if_pos i64_has_zero]

theorem split_value {m n : Nat} {x y : ℚ} (hx : 0 ≤ x ∧ x < 1) (hy : 0 ≤ y ∧ y < 1) (h : (m : ℚ) + x = n + y) :
    m = n ∧ x = y := by
  have h1 : m < n + 1 := by
    have : (m : ℚ) < n + 1 := by linarith [hx.1, hy.2]
    exact_mod_cast this
  have h2 : n < m + 1 := by
    have : (n : ℚ) < m + 1 := by linarith [hy.1, hx.2]
    exact_mod_cast this
  have : m = n := by omega
  subst this
  exact ⟨rfl, by linarith⟩

theorem canon_same {cs cs' : List Char} {neg neg' : Bool} {ip ip' : List Char} {fp fp' : Option (List Char)}
    (h : IsDecimal cs neg ip fp) (h' : IsDecimal cs' neg' ip' fp') (he : decValue neg ip fp = decValue neg' ip' fp')
    (hg : ¬ Gap (decValue neg ip fp)) : canon neg ip fp = canon neg' ip' fp' := by
  have b := fracVal_bounds h.frac
  have b' := fracVal_bounds h'.frac
  by_cases hs : neg = neg'
  · subst hs
    have hab : (numeral ip 0 : ℚ) + fracVal (fp.getD []) = numeral ip' 0 + fracVal (fp'.getD []) := by
      rw [decValue_eq, decValue_eq] at he
      cases neg <;> simp at he <;> linarith
    obtain ⟨hn, hf⟩ := split_value b b' hab
    have hnf : NoFrac fp ↔ NoFrac fp' := by
      unfold NoFrac
      rw [← fracVal_zero h.frac, ← fracVal_zero h'.frac, hf]
    have h0 := int0_inj h.int h'.int hn
    have hfp := fracPart_inj h.frac h'.frac hf
    unfold canon
    by_cases hN : NoFrac fp
    · rw [if_pos hN, if_pos (hnf.mp hN), hn, h0]
      have hgap : ¬ i64.Has (signed neg (numeral ip' 0)) → ¬ u64.Has (signed neg (numeral ip' 0)) := by
        intro h1 h2
        apply hg
        rw [decValue_signed neg ip hN, hn]
        simp only [IntTy.Has, i64, u64] at h1 h2
        unfold Gap
        have e1 : (2 : Int) ^ 63 ≤ signed neg (numeral ip' 0) := by omega
        have e2 : signed neg (numeral ip' 0) < (2 : Int) ^ 64 := by omega
        exact ⟨by exact_mod_cast e1, by exact_mod_cast e2⟩
      split_ifs with c1 c2 c3 c3
      · rfl
      · exact absurd c2.2 (hgap c1)
      · exact absurd c2.2 (hgap c1)
      · exact absurd c3.2 (hgap c1)
      · rfl
    · have hN' := fun hh => hN (hnf.mpr hh)
      rw [if_neg hN, if_neg hN', h0]
      have a1 : (fp.getD []).all zeroChar = false := by simpa [NoFrac] using hN
      have a2 : (fp'.getD []).all zeroChar = false := by simpa [NoFrac] using hN'
      unfold frac0
      rw [a1, a2, hfp]
  · have hz : (numeral ip 0 : ℚ) + fracVal (fp.getD []) = 0 ∧ (numeral ip' 0 : ℚ) + fracVal (fp'.getD []) = 0 := by
      rw [decValue_eq, decValue_eq] at he
      have p1 : (0 : ℚ) ≤ numeral ip 0 := by positivity
      have p2 : (0 : ℚ) ≤ numeral ip' 0 := by positivity
      have c1 := b.1
      have c2 := b'.1
      cases neg <;> cases neg' <;> simp at he hs <;> constructor <;> linarith
    have z1 := split_value b ⟨le_refl 0, by norm_num⟩ (n := 0) (by simpa using hz.1)
    have z2 := split_value b' ⟨le_refl 0, by norm_num⟩ (n := 0) (by simpa using hz.2)
    rw [canon_zero z1.1 ((fracVal_zero h.frac).mp z1.2), canon_zero z2.1 ((fracVal_zero h'.frac).mp z2.2)]

/-- The value of an accepted literal is the data value of its number. -/
theorem decimalLit_canon {cs : List Char} {neg : Bool} {ip : List Char} {fp : Option (List Char)}
    (h : IsDecimal cs neg ip fp) {t : DecType} {v : DV} (hv : decimalLit cs t = .val v) : v = canon neg ip fp := by
  cases fp with
  | none =>
      have := decimalLit_integer h t
      by_cases ha : t.Allows (signed neg (numeral ip 0))
      · rw [this.1 ha] at hv
        cases hv
        rfl
      · rw [this.2 ha] at hv
        cases hv
  | some fp =>
      by_cases ht : t = .decimal
      · subst ht
        rw [decimalLit_decimal h] at hv
        cases hv
        rfl
      · rw [decimalLit_point h ht] at hv
        cases hv

/-- **C47.** Two texts of the same number, of whatever decimal types, are the same data value; the
numbers from 2^63 to 2^64-1 are excepted. -/
theorem same_number_partial {cs cs' : List Char} {neg neg' : Bool} {ip ip' : List Char} {fp fp' : Option (List Char)}
    (h : IsDecimal cs neg ip fp) (h' : IsDecimal cs' neg' ip' fp') {t t' : DecType} {v v' : DV}
    (hv : decimalLit cs t = .val v) (hv' : decimalLit cs' t' = .val v')
    (he : decValue neg ip fp = decValue neg' ip' fp') (hg : ¬ Gap (decValue neg ip fp)) : v = v' := by
  rw [decimalLit_canon h hv, decimalLit_canon h' hv', canon_same h h' he hg]

theorem isDecimal_unique {cs : List Char} {neg neg' : Bool} {ip ip' : List Char} {fp fp' : Option (List Char)}
    (h : IsDecimal cs neg ip fp) (h' : IsDecimal cs neg' ip' fp') : neg = neg' ∧ ip = ip' ∧ fp = fp' := by
  have hsome : ∀ {ip : List Char} {fp : Option (List Char)}, AllDigits ip → ∀ c r, ip ++ fracText fp = c :: r →
      c ≠ '+' ∧ c ≠ '-' := by
    intro ip fp hip c r he
    cases ip with
    | nil =>
        cases fp with
        | none => simp [fracText] at he
        | some f =>
            simp [fracText] at he
            rw [← he.1]
            decide
    | cons d ip =>
        simp at he
        rw [← he.1]
        have := sign_digit (hip d (by simp))
        exact ⟨this.1, this.2.1⟩
  have hsplit : ∀ {ip ip' : List Char} {fp fp' : Option (List Char)}, AllDigits ip → AllDigits ip' →
      ip ++ fracText fp = ip' ++ fracText fp' → ip = ip' ∧ fp = fp' := by
    intro ip
    induction ip with
    | nil =>
        intro ip' fp fp' h1 h2 he
        cases ip' with
        | nil =>
            refine ⟨rfl, ?_⟩
            cases fp <;> cases fp' <;> simp [fracText] at he ⊢
            exact he
        | cons d ip' =>
            exfalso
            cases fp with
            | none => simp [fracText] at he
            | some f =>
                simp [fracText] at he
                have := (sign_digit (h2 d (by simp))).2.2
                exact this he.1.symm
    | cons c ip ih =>
        intro ip' fp fp' h1 h2 he
        cases ip' with
        | nil =>
            exfalso
            cases fp' with
            | none => simp [fracText] at he
            | some f =>
                simp [fracText] at he
                exact (sign_digit (h1 c (by simp))).2.2 he.1
        | cons d ip' =>
            simp only [List.cons_append, List.cons.injEq] at he
            obtain ⟨e1, e2⟩ := ih (fun x hx => h1 x (by simp [hx])) (fun x hx => h2 x (by simp [hx])) he.2
            exact ⟨by rw [he.1, e1], e2⟩
  obtain ⟨sgn, hs, e⟩ := h.text
  obtain ⟨sgn', hs', e'⟩ := h'.text
  rw [e, List.append_assoc, List.append_assoc] at e'
  cases hs <;> cases hs' <;> simp only [List.nil_append, List.cons_append] at e'
  · exact ⟨rfl, hsplit h.int h'.int e'⟩
  · exact absurd rfl (hsome h.int _ _ e').1
  · exact absurd rfl (hsome h.int _ _ e').2
  · exact absurd rfl (hsome h'.int _ _ e'.symm).1
  · exact ⟨rfl, hsplit h.int h'.int (List.cons.inj e').2⟩
  · simp at e'
  · exact absurd rfl (hsome h'.int _ _ e'.symm).2
  · simp at e'
  · exact ⟨rfl, hsplit h.int h'.int (List.cons.inj e').2⟩

theorem denotes_unique {v : DV} {q q' : ℚ} (h : Denotes v q) (h' : Denotes v q') : q = q' := by
  have hne : XSD ++ "integer" ≠ XSD ++ "decimal" := by decide
  generalize hw : v = w at h'
  cases h with
  | long i => cases h' <;> simp_all
  | ulong n => cases h' <;> simp_all
  | @integer s neg ip h =>
      cases h' with
      | integer h2 =>
          simp only [DV.other.injEq, and_true] at hw
          subst hw
          obtain ⟨rfl, rfl, _⟩ := isDecimal_unique h h2
          rfl
      | decimal h2 =>
          simp only [DV.other.injEq] at hw
          exact absurd hw.2 hne
      | long i => cases hw
      | ulong n => cases hw
  | @decimal s neg ip fp h =>
      cases h' with
      | decimal h2 =>
          simp only [DV.other.injEq, and_true] at hw
          subst hw
          obtain ⟨rfl, rfl, rfl⟩ := isDecimal_unique h h2
          rfl
      | integer h2 =>
          simp only [DV.other.injEq] at hw
          exact absurd hw.2.symm hne
      | long i => cases hw
      | ulong n => cases hw

/-- **C47.** Texts of different numbers are different data values. -/
theorem different_number {cs cs' : List Char} {neg neg' : Bool} {ip ip' : List Char} {fp fp' : Option (List Char)}
    (h : IsDecimal cs neg ip fp) (h' : IsDecimal cs' neg' ip' fp') {t t' : DecType} {v : DV}
    (hv : decimalLit cs t = .val v) (hv' : decimalLit cs' t' = .val v) :
    decValue neg ip fp = decValue neg' ip' fp' :=
  denotes_unique (decimal_value h hv) (decimal_value h' hv')

/-- **Finding.** The exception is needed: `18446744073709551615` and `18446744073709551615.0` are the
same number, but different data values: a text with a datatype, and a `u64`
(any_datavalue.rs:423-426 and 436-437). -/
theorem gap_not_same :
    decimalLit "18446744073709551615".toList .decimal =
      .val (.other "18446744073709551615" (XSD ++ "integer")) ∧
    decimalLit "18446744073709551615.0".toList .decimal = .val (.ulong 18446744073709551615) ∧
    DV.eq (.other "18446744073709551615" (XSD ++ "integer")) (.ulong 18446744073709551615) = false := by
  have d1 : IsDecimal "18446744073709551615".toList false "18446744073709551615".toList none :=
    ⟨⟨[], .absent, rfl⟩, fun c hc => by
      have : ∀ c ∈ "18446744073709551615".toList, (digit 10 c).isSome = true := by decide
      exact Option.isSome_iff_exists.mp (this c hc), by simp [AllDigits], by decide⟩
  have d2 : IsDecimal "18446744073709551615.0".toList false "18446744073709551615".toList (some ['0']) :=
    ⟨⟨[], .absent, by decide⟩, d1.int, fun c hc => by simp at hc; subst hc; exact ⟨0, digit_zero⟩, by decide⟩
  refine ⟨?_, ?_, by simp [DV.eq]⟩
  · rw [decimalLit_decimal d1]
    unfold canon
    rw [if_pos (by decide +kernel), if_neg (by decide +kernel), if_neg (by decide +kernel)]
    congr 2
  · rw [decimalLit_decimal d2]
    unfold canon
    rw [if_pos (by decide +kernel), if_neg (by decide +kernel), if_pos (by decide +kernel)]
    congr 2

end Verif.Lit
