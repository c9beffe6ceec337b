import Verif.Literals
/-
What the literal parsers compute: `fromStr` and the scanning of decimals.
-/

set_option linter.unusedVariables false
set_option linter.unusedSimpArgs false

namespace Verif.Lit
open Verif.Fn

/-! ### Specification: decimal numbers -/

/-- A decimal digit. -/
def IsDigit (c : Char) : Prop := ∃ d, digit 10 c = some d

/-- Only decimal digits. -/
def AllDigits (cs : List Char) : Prop := ∀ c ∈ cs, IsDigit c

/-- The number written by a sequence of digits. -/
def numeral : List Char → Nat → Nat
  | [], acc => acc
  | c :: cs, acc => numeral cs (acc * 10 + (digit 10 c).getD 0)

/-- The sign of a number. -/
inductive Sign : List Char → Bool → Prop where
  | absent : Sign [] false
  | plus : Sign ['+'] false
  | minus : Sign ['-'] true

/-- The fractional part, with its point. -/
def fracText : Option (List Char) → List Char
  | none => []
  | some fp => '.' :: fp

/-- The text `cs` is a decimal number: a sign, digits before the point, and, if there is a point,
digits after it; there is at least one digit. -/
structure IsDecimal (cs : List Char) (neg : Bool) (ip : List Char) (fp : Option (List Char)) : Prop where
  text : ∃ sgn, Sign sgn neg ∧ cs = sgn ++ ip ++ fracText fp
  int : AllDigits ip
  frac : AllDigits (fp.getD [])
  some_digit : ip ++ fp.getD [] ≠ []

/-- The number it denotes. -/
def decValue (neg : Bool) (ip : List Char) (fp : Option (List Char)) : ℚ :=
  (if neg then -1 else 1) * (numeral ip 0 + numeral (fp.getD []) 0 / 10 ^ (fp.getD []).length)

/-! ### Digits -/

theorem digits_eq {cs : List Char} : ∀ {acc : Nat}, AllDigits cs → digits 10 cs acc = some (numeral cs acc) := by
  induction cs with
  | nil => intro acc h; rfl
  | cons c cs ih =>
      intro acc h
      obtain ⟨d, hd⟩ := h c (by simp)
      simp only [digits, numeral, hd, Option.getD_some]
      exact ih (fun x hx => h x (by simp [hx]))

theorem digit_lt {c : Char} {d : Nat} (h : digit 10 c = some d) : d < 10 := by
  unfold digit at h
  simp only at h
  split_ifs at h <;> simp at h <;> omega

theorem digit_char {c : Char} {d : Nat} (h : digit 10 c = some d) : c = Char.ofNat (48 + d) ∧ c.toNat = 48 + d := by
  have : c.toNat = 48 + d := by
    unfold digit at h
    simp only at h
    split_ifs at h <;> simp at h <;> omega
  exact ⟨by rw [← this, Char.ofNat_toNat], this⟩

theorem isDigit_iff {c : Char} : IsDigit c ↔ 48 ≤ c.toNat ∧ c.toNat ≤ 57 := by
  constructor
  · rintro ⟨d, hd⟩
    have := digit_lt hd
    have := (digit_char hd).2
    omega
  · intro h
    refine ⟨c.toNat - 48, ?_⟩
    unfold digit
    simp only [if_pos h]
    rw [if_pos (by omega)]

theorem numeral_acc (cs : List Char) : ∀ acc, numeral cs acc = acc * 10 ^ cs.length + numeral cs 0 := by
  induction cs with
  | nil => intro acc; simp [numeral]
  | cons c cs ih =>
      intro acc
      simp only [numeral, List.length_cons]
      rw [ih, ih (0 * 10 + _)]
      ring

theorem numeral_append (xs ys : List Char) (acc : Nat) : numeral (xs ++ ys) acc = numeral ys (numeral xs acc) := by
  induction xs generalizing acc with
  | nil => rfl
  | cons x xs ih => simp only [List.cons_append, numeral, ih]

theorem numeral_lt {cs : List Char} (h : AllDigits cs) : numeral cs 0 < 10 ^ cs.length := by
  induction cs with
  | nil => simp [numeral]
  | cons c cs ih =>
      simp only [numeral, List.length_cons]
      rw [numeral_acc]
      obtain ⟨d, hd⟩ := h c (by simp)
      have := digit_lt hd
      have := ih (fun x hx => h x (by simp [hx]))
      rw [hd, Option.getD_some, pow_succ]
      have h2 : (0 * 10 + d) * 10 ^ cs.length ≤ 9 * 10 ^ cs.length := Nat.mul_le_mul_right _ (by omega)
      omega

/-! ### `from_str` -/

/-- With or without sign. -/
theorem signed_le {neg : Bool} {a b : Nat} (t : IntTy) (h0 : t.Has 0) (hab : a ≤ b) (h : t.Has (signed neg b)) :
    t.Has (signed neg a) := by
  unfold IntTy.Has signed at *
  cases neg <;> simp at * <;> omega

theorem addDigit_signed (neg : Bool) (n d : Nat) : addDigit neg (signed neg n) d = signed neg (n * 10 + d) := by
  unfold addDigit signed
  cases neg <;> simp
  ring

theorem mul_signed (neg : Bool) (n : Nat) : signed neg n * 10 = signed neg (n * 10) := by
  unfold signed
  cases neg <;> simp

theorem numeral_ge (cs : List Char) (acc : Nat) : acc ≤ numeral cs acc := by
  rw [numeral_acc]
  have : 1 ≤ 10 ^ cs.length := Nat.one_le_pow _ _ (by omega)
  nlinarith

/-- The loop on digits: the number, if it fits. -/
theorem digitLoop_digits (t : IntTy) (h0 : t.Has 0) (neg : Bool) {cs : List Char} (hcs : AllDigits cs) :
    ∀ n, digitLoop t neg cs (signed neg n) =
      if t.Has (signed neg (numeral cs n)) ∨ cs = [] then .ok (signed neg (numeral cs n)) else .error (overflow neg) := by
  induction cs with
  | nil => intro n; simp [digitLoop, numeral]
  | cons c cs ih =>
      intro n
      obtain ⟨d, hd⟩ := hcs c (by simp)
      have hcs' : AllDigits cs := fun x hx => hcs x (by simp [hx])
      have hn : numeral (c :: cs) n = numeral cs (n * 10 + d) := by simp [numeral, hd]
      simp only [digitLoop, hd, reduceCtorEq, or_false, addDigit_signed, mul_signed, hn]
      by_cases hfit : t.Has (signed neg (numeral cs (n * 10 + d)))
      · have h1 := signed_le t h0 (numeral_ge cs (n * 10 + d)) hfit
        have h2 := signed_le t h0 (show n * 10 ≤ n * 10 + d by omega) h1
        rw [if_pos h2, if_pos h1, ih hcs', if_pos (Or.inl hfit), if_pos hfit]
      · rw [if_neg hfit]
        split_ifs with h2 h1
        · rw [ih hcs']
          rw [if_neg]
          rintro (h | h)
          · exact hfit h
          · subst h; exact hfit h1
        · rfl
        · rfl

/-- The loop on anything else fails. -/
theorem digitLoop_other (t : IntTy) (neg : Bool) {cs : List Char} (hcs : ¬ AllDigits cs) :
    ∀ r, ∃ e, digitLoop t neg cs r = .error e ∧ (e = .invalidDigit ∨ e = overflow neg) := by
  induction cs with
  | nil => exact absurd (by simp [AllDigits]) hcs
  | cons c cs ih =>
      intro r
      cases hd : digit 10 c with
      | none => exact ⟨.invalidDigit, by simp [digitLoop, hd], Or.inl rfl⟩
      | some d =>
          simp only [digitLoop, hd]
          have hcs' : ¬ AllDigits cs := by
            intro h
            apply hcs
            intro x hx
            rcases List.mem_cons.mp hx with rfl | hx
            · exact ⟨d, hd⟩
            · exact h x hx
          split_ifs with h2 h1
          · exact ih hcs' _
          · exact ⟨_, rfl, Or.inr rfl⟩
          · exact ⟨_, rfl, Or.inr rfl⟩

/-- The text is a whole number: an optional sign and at least one digit. -/
def IsInteger (cs : List Char) (neg : Bool) (ip : List Char) : Prop := IsDecimal cs neg ip none

theorem isInteger_ne {cs : List Char} {neg : Bool} {ip : List Char} (h : IsInteger cs neg ip) : ip ≠ [] := by
  have := h.some_digit
  simpa using this

theorem sign_digit {c : Char} (h : IsDigit c) : c ≠ '+' ∧ c ≠ '-' ∧ c ≠ '.' := by
  rw [isDigit_iff] at h
  refine ⟨?_, ?_, ?_⟩ <;> rintro rfl <;> revert h <;> decide

/-- `from_str` by the first character. -/
theorem fromStr_plus (t : IntTy) {cs : List Char} (h : cs ≠ []) : fromStr t ('+' :: cs) = digitLoop t false cs 0 := by
  cases cs with
  | nil => exact absurd rfl h
  | cons c cs => rfl

theorem fromStr_minus (t : IntTy) {cs : List Char} (h : cs ≠ []) :
    fromStr t ('-' :: cs) = if t.signed then digitLoop t true cs 0 else .error .invalidDigit := by
  cases cs with
  | nil => exact absurd rfl h
  | cons c cs => rfl

theorem fromStr_none (t : IntTy) {c : Char} {cs : List Char} (h1 : c ≠ '+') (h2 : c ≠ '-') :
    fromStr t (c :: cs) = digitLoop t false (c :: cs) 0 := by
  unfold fromStr
  split
  · next h => simp at h
  · next h => exact absurd (List.cons.inj h).1 h1
  · next h => exact absurd (List.cons.inj h).1 h2
  · next h => exact absurd (List.cons.inj h).1 h1
  · next h => exact absurd (List.cons.inj h).1 h2
  · rfl

/-- `i64::from_str` of a whole number: the number, if it fits. -/
theorem fromStr_integer {t : IntTy} (h0 : t.Has 0) {cs : List Char} {neg : Bool} {ip : List Char}
    (h : IsInteger cs neg ip) (hs : neg = true → t.signed = true) :
    fromStr t cs = if t.Has (signed neg (numeral ip 0)) then .ok (signed neg (numeral ip 0))
      else .error (overflow neg) := by
  have hne := isInteger_ne h
  obtain ⟨sgn, hsgn, hcs⟩ := h.text
  have hz : ∀ neg, (0 : Int) = signed neg 0 := by intro neg; cases neg <;> rfl
  have key : ∀ neg, digitLoop t neg ip 0 = if t.Has (signed neg (numeral ip 0)) then .ok (signed neg (numeral ip 0))
      else .error (overflow neg) := by
    intro neg
    rw [hz neg, digitLoop_digits t h0 neg h.int]
    simp [hne]
  cases hsgn with
  | absent =>
      simp only [List.nil_append, fracText, List.append_nil] at hcs
      subst hcs
      cases cs with
      | nil => exact absurd rfl hne
      | cons c cs =>
          have hd := sign_digit (h.int c (by simp))
          rw [fromStr_none t hd.1 hd.2.1]
          exact key false
  | plus =>
      simp only [fracText, List.append_nil, List.singleton_append] at hcs
      rw [hcs, fromStr_plus t hne]
      exact key false
  | minus =>
      simp only [fracText, List.append_nil, List.singleton_append] at hcs
      rw [hcs, fromStr_minus t hne, hs rfl]
      exact key true

/-- `from_str` accepts only whole numbers. -/
theorem fromStr_ok {t : IntTy} (h0 : t.Has 0) {cs : List Char} {v : Int} (h : fromStr t cs = .ok v) :
    ∃ neg ip, IsInteger cs neg ip ∧ v = signed neg (numeral ip 0) ∧ t.Has v := by
  have hz : ∀ neg, (0 : Int) = signed neg 0 := by intro neg; cases neg <;> rfl
  have key : ∀ neg ip, ip ≠ [] → digitLoop t neg ip 0 = .ok v →
      AllDigits ip ∧ v = signed neg (numeral ip 0) ∧ t.Has v := by
    intro neg ip hne hl
    by_cases hd : AllDigits ip
    · rw [hz neg, digitLoop_digits t h0 neg hd] at hl
      simp only [hne, or_false] at hl
      split_ifs at hl with hf
      simp only [Except.ok.injEq] at hl
      subst hl
      exact ⟨hd, rfl, hf⟩
    · obtain ⟨e, he, _⟩ := digitLoop_other t neg hd 0
      rw [he] at hl
      cases hl
  cases cs with
  | nil => cases h
  | cons c cs =>
      by_cases h1 : c = '+'
      · subst h1
        by_cases hne : cs = []
        · subst hne; cases h
        · rw [fromStr_plus t hne] at h
          obtain ⟨hd, hv, hf⟩ := key _ _ hne h
          exact ⟨false, cs, ⟨⟨_, .plus, by simp [fracText]⟩, hd, by simp [AllDigits], by simpa using hne⟩, hv, hf⟩
      · by_cases h2 : c = '-'
        · subst h2
          by_cases hne : cs = []
          · subst hne; cases h
          · rw [fromStr_minus t hne] at h
            split_ifs at h
            obtain ⟨hd, hv, hf⟩ := key _ _ hne h
            exact ⟨true, cs, ⟨⟨_, .minus, by simp [fracText]⟩, hd, by simp [AllDigits], by simpa using hne⟩, hv, hf⟩
        · rw [fromStr_none t h1 h2] at h
          obtain ⟨hd, hv, hf⟩ := key _ _ (by simp) h
          exact ⟨false, _, ⟨⟨_, .absent, by simp [fracText]⟩, hd, by simp [AllDigits], by simp⟩, hv, hf⟩

/-! ### The scan of a decimal number -/

/-- A zero digit. -/
def zeroChar (c : Char) : Bool := c == '0'

/-- The digits before the point without leading zeros. -/
def intPart (ip : List Char) : List Char := ip.dropWhile zeroChar

/-- The digits after the point without trailing zeros. -/
def fracPart (fp : List Char) : List Char := fp.rdropWhile zeroChar

theorem char_le {a b : Char} : a ≤ b ↔ a.toNat ≤ b.toNat := by
  rw [Char.le_def]; exact UInt32.le_iff_toNat_le

/-- Steps on a digit. -/
theorem step_digit {s : DecSt} {c : Char} (h : IsDigit c) :
    s.step c = some (if zeroChar c then s.zero else s.nonzero c) := by
  have hd := sign_digit h
  rw [isDigit_iff] at h
  unfold DecSt.step
  rw [if_neg (by simp [hd.2.1]), if_neg (by simp [hd.1])]
  by_cases hz : c = '0'
  · subst hz
    rw [if_neg (by decide), if_pos rfl]
    simp [zeroChar]
  · rw [if_pos]
    · simp [zeroChar, hz]
    · rw [char_le, char_le]
      have : c.toNat ≠ 48 := by
        intro h'
        apply hz
        rw [← Char.ofNat_toNat c, h']
      show 49 ≤ c.toNat ∧ c.toNat ≤ 57
      omega

/-- Signs are only read at the beginning. -/
def DecSt.NoSign (s : DecSt) : Prop := ¬ (s.trimmed = [] ∧ s.beforeSign = true)

theorem step_other {s : DecSt} (hs : s.NoSign) {c : Char} (h : ¬ IsDigit c) (hdot : c ≠ '.') : s.step c = none := by
  unfold DecSt.step
  unfold DecSt.NoSign at hs
  rw [isDigit_iff] at h
  have h2 : ¬ ('1' ≤ c ∧ c ≤ '9') := by
    rw [char_le, char_le]
    show ¬ (49 ≤ c.toNat ∧ c.toNat ≤ 57)
    omega
  have h3 : c ≠ '0' := by
    rintro rfl
    exact h (by decide)
  rw [if_neg (by tauto), if_neg (by tauto), if_neg h2, if_neg h3, if_neg hdot]

/-- After the digits before the point. -/
def DecSt.afterInt (s : DecSt) (ip : List Char) : DecSt :=
  { s with
    saw := s.saw || !ip.isEmpty
    beforeSign := s.beforeSign && !ip.any zeroChar
    trimmed := s.trimmed ++ (if s.leading then intPart ip else ip)
    leading := s.leading && ip.all zeroChar
    isZero := s.isZero && ip.all zeroChar }

theorem zero_char {c : Char} (h : zeroChar c = true) : c = '0' := by simpa [zeroChar] using h

theorem run_int {s : DecSt} (hf : s.inFrac = false) {ip : List Char} (h : AllDigits ip) (rest : List Char) :
    s.run (ip ++ rest) = (s.afterInt ip).run rest := by
  induction ip generalizing s with
  | nil =>
      have : s.afterInt [] = s := by simp [DecSt.afterInt, intPart]
      rw [this]; rfl
  | cons c ip ih =>
      simp only [List.cons_append, DecSt.run, step_digit (h c (by simp))]
      have hip : AllDigits ip := fun x hx => h x (by simp [hx])
      cases hz : zeroChar c with
      | true =>
          have := zero_char hz
          subst this
          rw [if_pos rfl, ih (by simp [DecSt.zero, hf]) hip]
          congr 1
          cases s with
          | mk tr bs ld fr lt pl iz nz sw =>
              cases ld <;> simp [DecSt.afterInt, DecSt.zero, intPart, zeroChar, List.dropWhile_cons]
      | false =>
          rw [if_neg (by simp), ih (by simp [DecSt.nonzero, hf]) hip]
          congr 1
          cases s with
          | mk tr bs ld fr lt pl iz nz sw =>
              simp only at hf
              subst hf
              cases ld <;> simp [DecSt.afterInt, DecSt.nonzero, intPart, hz, List.dropWhile_cons]

/-- After the digits behind the point. -/
def DecSt.afterFrac (s : DecSt) (fp : List Char) : DecSt :=
  { s with
    saw := s.saw || !fp.isEmpty
    beforeSign := s.beforeSign && !fp.any zeroChar
    trimmed := s.trimmed ++ fp
    isZero := s.isZero && fp.all zeroChar
    fracNZ := s.fracNZ || !fp.all zeroChar
    lenTrail := if fp.all zeroChar then s.lenTrail else s.trimmed.length + (fracPart fp).length }

theorem fracPart_nil {fp : List Char} (h : fp.all zeroChar = true) : fracPart fp = [] := by
  unfold fracPart
  rw [List.rdropWhile_eq_nil_iff]
  simpa using h

theorem fracPart_cons {c : Char} {fp : List Char} :
    fracPart (c :: fp) = if fp.all zeroChar then (if zeroChar c then [] else [c]) else c :: fracPart fp := by
  unfold fracPart
  split_ifs with h hz
  · rw [List.rdropWhile_eq_nil_iff]
    intro x hx
    rcases List.mem_cons.mp hx with rfl | hx
    · exact hz
    · exact (List.all_eq_true.mp h) x hx
  · unfold List.rdropWhile
    rw [List.reverse_cons, List.dropWhile_append]
    have : List.dropWhile zeroChar fp.reverse = [] := by
      rw [List.dropWhile_eq_nil_iff]
      intro x hx
      exact (List.all_eq_true.mp h) x (List.mem_reverse.mp hx)
    rw [this]
    simp [hz]
  · unfold List.rdropWhile
    rw [List.reverse_cons, List.dropWhile_append]
    have : List.dropWhile zeroChar fp.reverse ≠ [] := by
      rw [Ne, List.dropWhile_eq_nil_iff]
      intro hx
      exact h (List.all_eq_true.mpr fun x hh => hx x (List.mem_reverse.mpr hh))
    rw [if_neg (by simpa using this)]
    simp

theorem run_frac {s : DecSt} (hf : s.inFrac = true) (hl : s.leading = false) {fp : List Char} (h : AllDigits fp)
    (rest : List Char) : s.run (fp ++ rest) = (s.afterFrac fp).run rest := by
  induction fp generalizing s with
  | nil =>
      have : s.afterFrac [] = s := by simp [DecSt.afterFrac]
      rw [this]; rfl
  | cons c fp ih =>
      simp only [List.cons_append, DecSt.run, step_digit (h c (by simp))]
      have hfp : AllDigits fp := fun x hx => h x (by simp [hx])
      cases hz : zeroChar c with
      | true =>
          have := zero_char hz
          subst this
          rw [if_pos rfl, ih (by simp [DecSt.zero, hf]) (by simp [DecSt.zero, hl]) hfp]
          congr 1
          cases s with
          | mk tr bs ld fr lt pl iz nz sw =>
              simp only at hf hl
              subst hf hl
              simp only [DecSt.afterFrac, DecSt.zero, fracPart_cons, hz, List.all_cons, Bool.true_and]
              cases hall : fp.all zeroChar <;> simp [zeroChar]
              omega
      | false =>
          rw [if_neg (by simp), ih (by simp [DecSt.nonzero, hf]) (by simp [DecSt.nonzero]) hfp]
          congr 1
          cases s with
          | mk tr bs ld fr lt pl iz nz sw =>
              simp only at hf hl
              subst hf hl
              simp only [DecSt.afterFrac, DecSt.nonzero, fracPart_cons, hz, List.all_cons, Bool.false_and]
              cases hall : fp.all zeroChar <;> simp [hz]
              omega

/-- The shape of a decimal number, perhaps without any digit. -/
structure Shape (cs : List Char) (neg : Bool) (ip : List Char) (fp : Option (List Char)) : Prop where
  text : ∃ sgn, Sign sgn neg ∧ cs = sgn ++ ip ++ fracText fp
  int : AllDigits ip
  frac : AllDigits (fp.getD [])

theorem IsDecimal.shape {cs : List Char} {neg : Bool} {ip : List Char} {fp : Option (List Char)}
    (h : IsDecimal cs neg ip fp) : Shape cs neg ip fp := ⟨h.text, h.int, h.frac⟩

/-- The minus sign of a negative number. -/
def minus (neg : Bool) : List Char := if neg then ['-'] else []

/-- The digits before the point, at least one. -/
def int0 (ip : List Char) : List Char := if ip.all zeroChar then ['0'] else intPart ip

/-- The digits after the point with the point, if there are any. -/
def frac0 (fp : List Char) : List Char := if fp.all zeroChar then [] else '.' :: fracPart fp

/-- After the sign. -/
def DecSt.signed (s : DecSt) : List Char → DecSt
  | ['-'] => { s with beforeSign := false, plus := false, trimmed := ['-'] }
  | ['+'] => { s with beforeSign := false }
  | _ => s

theorem run_sign {sgn : List Char} {neg : Bool} (h : Sign sgn neg) (rest : List Char) :
    DecSt.init.run (sgn ++ rest) = (DecSt.init.signed sgn).run rest := by
  cases h <;> rfl

theorem signed_trimmed {sgn : List Char} {neg : Bool} (h : Sign sgn neg) :
    (DecSt.init.signed sgn).trimmed = minus neg ∧ (DecSt.init.signed sgn).plus = !neg ∧
    (DecSt.init.signed sgn).leading = true ∧ (DecSt.init.signed sgn).inFrac = false ∧
    (DecSt.init.signed sgn).isZero = true ∧ (DecSt.init.signed sgn).fracNZ = false ∧
    (DecSt.init.signed sgn).saw = false := by
  cases h <;> exact ⟨rfl, rfl, rfl, rfl, rfl, rfl, rfl⟩

theorem step_dot {s : DecSt} (h : s.inFrac = false) : s.step '.' = some s.dot := by
  unfold DecSt.step
  rw [if_neg (by simp), if_neg (by simp), if_neg (by decide), if_neg (by decide), if_pos rfl, h]
  rfl

theorem intPart_nil {ip : List Char} (h : ip.all zeroChar = true) : intPart ip = [] := by
  unfold intPart
  rw [List.dropWhile_eq_nil_iff]
  exact List.all_eq_true.mp h

/-- The state at the end of a number without point. -/
theorem run_whole {cs : List Char} {neg : Bool} {ip : List Char} (h : Shape cs neg ip none) :
    ∃ s, DecSt.init.run cs = some s ∧ s.saw = !ip.isEmpty ∧ s.inFrac = false ∧ s.plus = !neg ∧
      s.isZero = ip.all zeroChar ∧ s.text = minus neg ++ intPart ip := by
  obtain ⟨sgn, hsgn, hcs⟩ := h.text
  obtain ⟨h1, h2, h3, h4, h5, h6, h7⟩ := signed_trimmed hsgn
  refine ⟨(DecSt.init.signed sgn).afterInt ip, ?_, ?_, ?_, ?_, ?_, ?_⟩
  · have := run_int (s := DecSt.init.signed sgn) h4 h.int []
    rw [hcs, fracText, List.append_assoc, run_sign hsgn, this]
    rfl
  · simp [DecSt.afterInt, h7]
  · simp [DecSt.afterInt, h4]
  · simp [DecSt.afterInt, h2]
  · simp [DecSt.afterInt, h5]
  · simp [DecSt.text, DecSt.afterInt, h4, h1, h3]

/-- The state at the end of a number with a point. -/
theorem run_point {cs : List Char} {neg : Bool} {ip fp : List Char} (h : Shape cs neg ip (some fp)) :
    ∃ s, DecSt.init.run cs = some s ∧ s.saw = !(ip ++ fp).isEmpty ∧ s.inFrac = true ∧ s.plus = !neg ∧
      s.fracNZ = !fp.all zeroChar ∧ s.text = minus neg ++ int0 ip ++ frac0 fp := by
  obtain ⟨sgn, hsgn, hcs⟩ := h.text
  obtain ⟨h1, h2, h3, h4, h5, h6, h7⟩ := signed_trimmed hsgn
  have hA : ((DecSt.init.signed sgn).afterInt ip).inFrac = false := by simp [DecSt.afterInt, h4]
  have hbase : (if ((DecSt.init.signed sgn).afterInt ip).leading then ((DecSt.init.signed sgn).afterInt ip).trimmed ++ ['0']
      else ((DecSt.init.signed sgn).afterInt ip).trimmed) = minus neg ++ int0 ip := by
    simp only [DecSt.afterInt, h1, h3, int0, Bool.true_and, if_true]
    split_ifs with hz
    · rw [intPart_nil hz, List.append_nil]
    · rfl
  have hdot : ((DecSt.init.signed sgn).afterInt ip).dot.trimmed = minus neg ++ int0 ip ++ ['.'] ∧
      ((DecSt.init.signed sgn).afterInt ip).dot.lenTrail = (minus neg ++ int0 ip).length := by
    unfold DecSt.dot
    simp only [hbase]
    exact ⟨trivial, trivial⟩
  refine ⟨(((DecSt.init.signed sgn).afterInt ip).dot).afterFrac fp, ?_, ?_, ?_, ?_, ?_, ?_⟩
  · have e1 := run_int (s := DecSt.init.signed sgn) h4 h.int ('.' :: fp)
    have e2 := run_frac (s := ((DecSt.init.signed sgn).afterInt ip).dot) rfl rfl (fp := fp) h.frac []
    rw [hcs, fracText, List.append_assoc, run_sign hsgn, e1]
    simp only [DecSt.run, step_dot hA]
    rw [List.append_nil] at e2
    rw [e2]
    rfl
  · cases ip <;> simp [DecSt.afterFrac, DecSt.dot, DecSt.afterInt, h7]
  · simp [DecSt.afterFrac, DecSt.dot]
  · simp [DecSt.afterFrac, DecSt.dot, DecSt.afterInt, h2]
  · simp [DecSt.afterFrac, DecSt.dot, DecSt.afterInt, h6]
  · have htr : ((((DecSt.init.signed sgn).afterInt ip).dot).afterFrac fp).trimmed = minus neg ++ int0 ip ++ ['.'] ++ fp := by
      simp only [DecSt.afterFrac, hdot.1]
    have hlen : ((((DecSt.init.signed sgn).afterInt ip).dot).afterFrac fp).lenTrail =
        if fp.all zeroChar then (minus neg ++ int0 ip).length
        else (minus neg ++ int0 ip ++ ['.']).length + (fracPart fp).length := by
      simp only [DecSt.afterFrac, hdot.1, hdot.2]
    have hin : ((((DecSt.init.signed sgn).afterInt ip).dot).afterFrac fp).inFrac = true := rfl
    unfold DecSt.text
    rw [hin, if_pos rfl, htr, hlen]
    unfold frac0
    split_ifs with hz
    · rw [List.append_assoc, List.take_left' rfl, List.append_nil]
    · have hpre : fracPart fp <+: fp := List.rdropWhile_prefix zeroChar fp
      obtain ⟨t, ht⟩ := hpre
      have : minus neg ++ int0 ip ++ ['.'] ++ fp = (minus neg ++ int0 ip ++ '.' :: fracPart fp) ++ t := by
        conv_lhs => rw [← ht]
        simp
      rw [this, List.take_left']
      simp
      omega

/-- Every text begins with some digits. -/
theorem split_digits (cs : List Char) : ∃ ip r, cs = ip ++ r ∧ AllDigits ip ∧ (r = [] ∨ ∃ c r', r = c :: r' ∧ ¬ IsDigit c) := by
  induction cs with
  | nil => exact ⟨[], [], rfl, by simp [AllDigits], Or.inl rfl⟩
  | cons c cs ih =>
      by_cases hc : IsDigit c
      · obtain ⟨ip, r, rfl, h, hr⟩ := ih
        refine ⟨c :: ip, r, rfl, ?_, hr⟩
        intro x hx
        rcases List.mem_cons.mp hx with rfl | hx
        · exact hc
        · exact h x hx
      · exact ⟨[], c :: cs, rfl, by simp [AllDigits], Or.inr ⟨c, cs, rfl, hc⟩⟩

/-- Every text begins with a sign or not. -/
theorem split_sign (cs : List Char) : ∃ sgn neg r, Sign sgn neg ∧ cs = sgn ++ r ∧
    (sgn = [] → ∀ c ∈ r.head?, c ≠ '+' ∧ c ≠ '-') := by
  cases cs with
  | nil => exact ⟨[], false, [], .absent, rfl, by simp⟩
  | cons c cs =>
      by_cases h1 : c = '+'
      · subst h1; exact ⟨['+'], false, cs, .plus, rfl, by simp⟩
      · by_cases h2 : c = '-'
        · subst h2; exact ⟨['-'], true, cs, .minus, rfl, by simp⟩
        · exact ⟨[], false, c :: cs, .absent, rfl, by simp [h1, h2]⟩

/-- The scan accepts only decimal numbers. -/
theorem run_some {cs : List Char} {s : DecSt} (h : DecSt.init.run cs = some s) :
    ∃ neg ip fp, Shape cs neg ip fp := by
  obtain ⟨sgn, neg, r, hsgn, rfl, hr⟩ := split_sign cs
  obtain ⟨ip, r2, rfl, hip, hr2⟩ := split_digits r
  obtain ⟨h1, h2, h3, h4, h5, h6, h7⟩ := signed_trimmed hsgn
  rw [run_sign hsgn, run_int h4 hip] at h
  rcases hr2 with rfl | ⟨c, r3, rfl, hc⟩
  · exact ⟨neg, ip, none, ⟨sgn, hsgn, by simp [fracText]⟩, hip, by simp [AllDigits]⟩
  · by_cases hdot : c = '.'
    · subst hdot
      obtain ⟨fp, r4, rfl, hfp, hr4⟩ := split_digits r3
      have hA : ((DecSt.init.signed sgn).afterInt ip).inFrac = false := by simp [DecSt.afterInt, h4]
      simp only [DecSt.run, step_dot hA] at h
      rw [run_frac rfl rfl hfp] at h
      rcases hr4 with rfl | ⟨d, r5, rfl, hd⟩
      · exact ⟨neg, ip, some fp, ⟨sgn, hsgn, by simp [fracText]⟩, hip, hfp⟩
      · exfalso
        have hfr : ((((DecSt.init.signed sgn).afterInt ip).dot).afterFrac fp).inFrac = true := rfl
        have hns : ((((DecSt.init.signed sgn).afterInt ip).dot).afterFrac fp).NoSign := by
          unfold DecSt.NoSign
          simp [DecSt.afterFrac, DecSt.dot]
        have : ((((DecSt.init.signed sgn).afterInt ip).dot).afterFrac fp).step d = none := by
          by_cases hdd : d = '.'
          · subst hdd
            unfold DecSt.step
            rw [if_neg (by simp), if_neg (by simp), if_neg (by decide), if_neg (by decide), if_pos rfl, hfr]
            rfl
          · exact step_other hns hd hdd
        simp only [DecSt.run, this] at h
        cases h
    · exfalso
      have : ((DecSt.init.signed sgn).afterInt ip).step c = none := by
        by_cases hns : ((DecSt.init.signed sgn).afterInt ip).NoSign
        · exact step_other hns hc hdot
        · have hsg : sgn = [] := by
            cases hsgn with
            | absent => rfl
            | plus => exact absurd (by simp [DecSt.NoSign, DecSt.afterInt, DecSt.signed]) hns
            | minus => exact absurd (by simp [DecSt.NoSign, DecSt.afterInt, DecSt.signed]) hns
          have hipn : ip = [] := by
            subst hsg
            cases ip with
            | nil => rfl
            | cons d ip =>
                exfalso
                apply hns
                cases hz : zeroChar d <;> simp [DecSt.NoSign, DecSt.afterInt, DecSt.signed, DecSt.init, intPart, hz,
                  List.dropWhile_cons]
          subst hipn
          have hcc := hr hsg c (by simp)
          unfold DecSt.step
          rw [isDigit_iff] at hc
          have h2 : ¬ ('1' ≤ c ∧ c ≤ '9') := by
            rw [char_le, char_le]
            show ¬ (49 ≤ c.toNat ∧ c.toNat ≤ 57)
            omega
          have h3 : c ≠ '0' := by
            rintro rfl
            exact hc (by decide)
          rw [if_neg (by tauto), if_neg (by tauto), if_neg h2, if_neg h3, if_neg hdot]
      simp only [DecSt.run, this] at h
      cases h

end Verif.Lit
