import Verif.PropText
import Verif.PropLiterals

/-!
# C52: what is accepted when a program is translated, and numerals
-/
set_option linter.unusedSimpArgs false

namespace Verif.Tr
open Verif.Parse (Str Ex FEl VarKind AOp IOp Enc Guard RuleAst DirectiveAst KindAst StmtAst ProgramAst Part)

/-! ### Numerals -/

theorem digit_digitChar {b d : Nat} (h : d < b) (hb : b ≤ 16) : Fn.digit b (Nat.digitChar d) = some d := by
  have key : ∀ d < 16, (if 48 ≤ (Nat.digitChar d).toNat ∧ (Nat.digitChar d).toNat ≤ 57 then (Nat.digitChar d).toNat - 48
    else if 97 ≤ (Nat.digitChar d).toNat ∧ (Nat.digitChar d).toNat ≤ 122 then (Nat.digitChar d).toNat - 87
    else if 65 ≤ (Nat.digitChar d).toNat ∧ (Nat.digitChar d).toNat ≤ 90 then (Nat.digitChar d).toNat - 55
    else 99) = d := by decide
  unfold Fn.digit
  dsimp only
  rw [key d (by omega), if_pos h]

theorem digits_append {b : Nat} {xs : List Char} {c : Char} {d n acc : Nat} (hx : Fn.digits b xs acc = some n)
    (hd : Fn.digit b c = some d) : Fn.digits b (xs ++ [c]) acc = some (n * b + d) := by
  induction xs generalizing acc with
  | nil => simp only [Fn.digits, Option.some.injEq] at hx; subst hx; simp [Fn.digits, hd]
  | cons x xs ih =>
    simp only [List.cons_append, Fn.digits] at hx ⊢
    cases hxd : Fn.digit b x with
    | none => rw [hxd] at hx; cases hx
    | some e => rw [hxd] at hx; exact ih hx

/-- Digits are read as the number that they write. -/
theorem digits_toDigits {b : Nat} (h2 : 2 ≤ b) (hb : b ≤ 16) (n : Nat) : Fn.digits b (Nat.toDigits b n) 0 = some n := by
  induction n using Nat.strong_induction_on with
  | _ n ih =>
    by_cases hn : n < b
    · rw [Nat.toDigits_of_lt_base hn]
      simp [Fn.digits, digit_digitChar hn hb]
    · rw [Nat.toDigits_of_base_le (by omega) (by omega)]
      have := digits_append (ih (n / b) (Nat.div_lt_self (by omega) (by omega)))
        (digit_digitChar (Nat.mod_lt n (by omega : 0 < b)) hb)
      rw [this, Nat.div_add_mod']

theorem digits_ten_all {cs : List Char} {acc n : Nat} (h : Fn.digits 10 cs acc = some n) :
    Lit.AllDigits cs ∧ Lit.numeral cs acc = n := by
  have hall : Lit.AllDigits cs := by
    induction cs generalizing acc with
    | nil => intro c hc; cases hc
    | cons c cs ih =>
      intro x hx
      simp only [Fn.digits] at h
      cases hd : Fn.digit 10 c with
      | none => rw [hd] at h; cases h
      | some d =>
        rw [hd] at h
        rcases List.mem_cons.1 hx with rfl | hx
        · exact ⟨d, hd⟩
        · exact ih h x hx
  exact ⟨hall, Option.some.inj ((Lit.digits_eq hall).symm.trans h)⟩

/-- A numeral without fraction and exponent: the text, its digits and its value. -/
def Whole (n : Parse.Num) (k : Nat) : Prop :=
  n.int ≠ [] ∧ Fn.digits 10 n.int 0 = some k ∧ n.frac = none ∧ n.exp = none

theorem whole_fromStr {n : Parse.Num} {k : Nat} (h : Whole n k) : Lit.fromStr Lit.i64 (numText n) =
    if Lit.i64.Has (Fn.signed n.neg k) then .ok (Fn.signed n.neg k) else .error (Lit.overflow n.neg) := by
  obtain ⟨h1, h2, h3, h4⟩ := h
  obtain ⟨hall, rfl⟩ := digits_ten_all h2
  have hint : Lit.IsInteger (numText n) n.neg n.int := by
    refine ⟨⟨[if n.neg then '-' else '+'], ?_, ?_⟩, hall, by simp [Lit.AllDigits], by simpa using h1⟩
    · cases n.neg
      · exact .plus
      · exact .minus
    · rw [numText, h3, h4]; simp [Lit.fracText]
  exact Lit.fromStr_integer (by decide) hint (fun _ => rfl)

/-- **Whole numbers of 64 bits are read as they are written**, with or without a type marker. -/
theorem number_whole (L : Fn.Lib) {n : Parse.Num} {k : Nat} (h : Whole n k) {i : Int} (hi : i = if n.neg then -(k : Int) else k)
    (hfit : -(2 ^ 63) ≤ i ∧ i < 2 ^ 63) : number L n = .ok (.long (Int64.ofInt i)) ∧ (Int64.ofInt i).toInt = i := by
  have hs : Fn.signed n.neg k = i := by rw [hi]; rfl
  have hhas : Lit.i64.Has (Fn.signed n.neg k) := by
    rw [hs]
    unfold Lit.IntTy.Has Lit.i64
    dsimp only
    omega
  rw [number, whole_fromStr h, if_pos hhas, hs]
  exact ⟨rfl, Int64.toInt_ofInt_of_le (by omega) (by omega)⟩

/-- Every integer of 64 bits can be written. -/
theorem number_every (L : Fn.Lib) (i : Int64) :
    number L ⟨i.toInt < 0, Nat.toDigits 10 i.toInt.natAbs, none, none, none⟩ = .ok (.long i) := by
  have hle := Int64.le_toInt i
  have hlt := Int64.toInt_lt i
  have := (number_whole L (n := ⟨i.toInt < 0, Nat.toDigits 10 i.toInt.natAbs, none, none, none⟩) (k := i.toInt.natAbs) (i := i.toInt)
    ⟨Nat.toDigits_ne_nil, digits_toDigits (by omega) (by omega) _, rfl, rfl⟩ (by
      show _ = if decide (i.toInt < 0) = true then _ else _
      split <;> simp only [decide_eq_true_eq] at * <;> omega) ⟨by omega, by omega⟩).1
  rwa [Int64.ofInt_toInt] at this

/-- **All other numerals are read as floating point numbers**: as `f32` with the marker `f` and as `f64` otherwise; the
reader fails only if the number is too large for them. -/
theorem number_real (L : Fn.Lib) {n : Parse.Num} (h : n.frac ≠ none ∨ n.exp ≠ none ∨
      ∃ k, Whole n k ∧ ¬ (-(2 ^ 63) ≤ (if n.neg then -(k : Int) else k) ∧ (if n.neg then -(k : Int) else k) < (2 : Int) ^ 63)) :
    number L n = if n.marker = some false then
        match L.parseF32 (String.ofList (numText n)) with
        | some f => .ok (.float f)
        | none => .panic
      else match L.parseF64 (String.ofList (numText n)) with
        | some f => .ok (.double f)
        | none => .panic := by
  have key : ∃ e, Lit.fromStr Lit.i64 (numText n) = .error e := by
    by_cases hk : ∃ k, Whole n k ∧
        ¬ (-(2 ^ 63) ≤ (if n.neg then -(k : Int) else k) ∧ (if n.neg then -(k : Int) else k) < (2 : Int) ^ 63)
    · obtain ⟨k, hw, hnot⟩ := hk
      refine ⟨_, (whole_fromStr hw).trans (if_neg fun hhas => hnot ?_)⟩
      unfold Lit.IntTy.Has Lit.i64 Fn.signed at hhas
      dsimp only at hhas
      exact ⟨by omega, by omega⟩
    · have h' : n.frac ≠ none ∨ n.exp ≠ none := by
        rcases h with h | h | h
        · exact .inl h
        · exact .inr h
        · exact absurd h hk
      cases hf : Lit.fromStr Lit.i64 (numText n) with
      | error e => exact ⟨e, rfl⟩
      | ok v =>
        exfalso
        obtain ⟨neg, ip, hint, -⟩ := Lit.fromStr_ok (by decide) hf
        obtain ⟨sgn, hsgn, htext⟩ := hint.text
        have hc : ∀ c ∈ numText n, Lit.IsDigit c ∨ c = '+' ∨ c = '-' := by
          rw [htext]
          intro c hc
          simp only [Lit.fracText, List.append_nil, List.mem_append] at hc
          rcases hc with hc | hc
          · cases hsgn <;> simp at hc <;> simp [hc]
          · exact .inl (hint.int c hc)
        rcases h' with h' | h'
        · obtain ⟨f, hf'⟩ := Option.ne_none_iff_exists'.1 h'
          rcases hc '.' (by rw [numText, hf']; simp) with ⟨d, hd⟩ | hd | hd
          · exact absurd hd (by rw [show Fn.digit 10 _ = none from by decide]; simp)
          · revert hd; decide
          · revert hd; decide
        · obtain ⟨⟨m, d⟩, hf'⟩ := Option.ne_none_iff_exists'.1 h'
          rcases hc 'e' (by rw [numText, hf']; simp) with ⟨d, hd⟩ | hd | hd
          · exact absurd hd (by rw [show Fn.digit 10 _ = none from by decide]; simp)
          · revert hd; decide
          · revert hd; decide
  obtain ⟨e, he⟩ := key
  rw [number, he]
  rfl

/-- **Encoded numbers are read as they are written**: as integers, if they have at most 63 bits, and by their decimal numeral
otherwise. -/
theorem encoded_value (e : Enc) {ds : Str} {k : Nat} (hne : ds ≠ []) (hsign : ds.head? ≠ some '+' ∧ ds.head? ≠ some '-')
    (h : Fn.digits (radix e) ds 0 = some k) :
    encoded e ds = if k < 2 ^ 63 then .long (Int64.ofInt k) else .other (String.ofList (Nat.toDigits 10 k)) "xsd:integer" := by
  have hsplit : Fn.splitSign ds = (false, ds) := by
    unfold Fn.splitSign
    split
    · simp at hsign
    · simp at hsign
    · rfl
  have hp : Fn.parseI64 (radix e) ds = if k < 2 ^ 63 then some (Int64.ofInt k) else none := by
    rw [Fn.parseI64, hsplit]
    dsimp only
    rw [if_neg (by simpa using hne), h]
    have hs : Fn.signed false k = (k : Int) := rfl
    rw [Option.bind_some, Fn.fitI64, hs]
    by_cases hk : k < 2 ^ 63
    · rw [if_pos hk, if_pos (by unfold I64.Fits; omega)]
    · rw [if_neg hk, if_neg (by unfold I64.Fits; omega)]
  rw [encoded, hp]
  by_cases hk : k < 2 ^ 63
  · rw [if_pos hk, if_pos hk]
  · rw [if_neg hk, if_neg hk, h]

theorem encoded_every (e : Enc) {k : Nat} (hk : k < 2 ^ 63) : encoded e (Nat.toDigits (radix e) k) = .long (Int64.ofInt k) := by
  have hr : 2 ≤ radix e ∧ radix e ≤ 16 := by cases e <;> decide
  have hd := digits_toDigits hr.1 hr.2 k
  have hs : (Nat.toDigits (radix e) k).head? ≠ some '+' ∧ (Nat.toDigits (radix e) k).head? ≠ some '-' := by
    constructor <;> intro hh <;> cases hl : Nat.toDigits (radix e) k with
    | nil => rw [hl] at hh; cases hh
    | cons c cs =>
      rw [hl] at hh hd
      cases hh
      have h1 : Fn.digit (radix e) '+' = none := by cases e <;> decide
      have h2 : Fn.digit (radix e) '-' = none := by cases e <;> decide
      simp only [Fn.digits, h1, h2] at hd
      cases hd
  rw [encoded_value e Nat.toDigits_ne_nil hs hd, if_pos hk]

/-- **Each prefix has its base**: `0b` numbers are binary, `0o` numbers octal and `0x` numbers hexadecimal. -/
theorem encoded_bases {k : Nat} (hk : k < 2 ^ 63) :
    encoded .bin (Nat.toDigits 2 k) = .long (Int64.ofInt k) ∧
    encoded .oct (Nat.toDigits 8 k) = .long (Int64.ofInt k) ∧
    encoded .hex (Nat.toDigits 16 k) = .long (Int64.ofInt k) :=
  ⟨encoded_every .bin hk, encoded_every .oct hk, encoded_every .hex hk⟩

/-! ### Accepted programs -/

section
variable {L : Fn.Lib} {p : ProgramAst} {items : List Item}

/-- **The abbreviations of an accepted program are declared, and unambiguous**: its names have one meaning. -/
theorem accepted_declared (h : translate L p = .ok items) : ∃ N, Declared p.statements N := by
  obtain ⟨c, hc, -⟩ := translate_ok h
  exact ⟨_, hc⟩

theorem headAtom_names {c : Ctx} {gs : List Guard} {as : List Atom} (h : traverse (headAtom L c) gs = .ok as) {t : Parse.Tag}
    {es : List Ex} (hg : .expression (.atom t es) ∈ gs) : ∃ n, c.names.full t = some n := by
  rw [traverse_eq] at h
  obtain ⟨a, -, ha⟩ := forall₂_left h hg
  have ha : atom L c t es = .ok a := ha
  simp only [atom, Res.bind_eq_ok, Res.ok.injEq] at ha
  obtain ⟨n, hn, -⟩ := ha
  exact ⟨n, resolve_full.1 hn⟩

theorem literal_names {c : Ctx} {gs : List Guard} {as : List Literal} (h : traverse (literal L c) gs = .ok as) {t : Parse.Tag}
    {es : List Ex} (hg : .expression (.atom t es) ∈ gs ∨ .expression (.negation (.atom t es)) ∈ gs) :
    ∃ n, c.names.full t = some n := by
  rw [traverse_eq] at h
  rcases hg with hg | hg
  · obtain ⟨l, -, hl⟩ := forall₂_left h hg
    simp only [literal, atom, Res.bind_eq_ok, Res.ok.injEq] at hl
    obtain ⟨_, ⟨n, hn, -⟩, -⟩ := hl
    exact ⟨n, resolve_full.1 hn⟩
  · obtain ⟨l, -, hl⟩ := forall₂_left h hg
    simp only [literal, atom, Res.bind_eq_ok, Res.ok.injEq] at hl
    obtain ⟨_, ⟨n, hn, -⟩, -⟩ := hl
    exact ⟨n, resolve_full.1 hn⟩

/-- **Undeclared prefixes are not accepted**: every predicate of an accepted program has a full name. -/
theorem accepted_names (h : translate L p = .ok items) {N : Names} (hN : Declared p.statements N) {t : Parse.Tag} {es : List Ex}
    (hu : Uses p.statements t es) : ∃ n, N.full t = some n := by
  obtain ⟨c, hc, iss, hiss, rfl⟩ := translate_ok h
  obtain rfl := hN.unique hc
  cases hu with
  | @fact s hs hk =>
    obtain ⟨is, -, hcon⟩ := forall₂_left hiss hs
    rw [hk] at hcon
    cases hcon with
    | fact hf =>
      have hf : atom L c t es = .ok _ := hf
      simp only [atom, Res.bind_eq_ok, Res.ok.injEq] at hf
      obtain ⟨n, hn, -⟩ := hf
      exact ⟨n, resolve_full.1 hn⟩
  | @head s r hs hk hg =>
    obtain ⟨is, -, hcon⟩ := forall₂_left hiss hs
    rw [hk] at hcon
    cases hcon with
    | rule hr =>
      simp only [rule, Res.bind_eq_ok, Res.ok.injEq] at hr
      obtain ⟨_, -, _, -, hd, hhd, bd, hbd, rfl⟩ := hr
      exact headAtom_names hhd hg
  | @body s r hs hk hg =>
    obtain ⟨is, -, hcon⟩ := forall₂_left hiss hs
    rw [hk] at hcon
    cases hcon with
    | rule hr =>
      simp only [rule, Res.bind_eq_ok, Res.ok.injEq] at hr
      obtain ⟨_, -, _, -, hd, hhd, bd, hbd, rfl⟩ := hr
      exact literal_names hbd (.inl hg)
  | @negated s r hs hk hg =>
    obtain ⟨is, -, hcon⟩ := forall₂_left hiss hs
    rw [hk] at hcon
    cases hcon with
    | rule hr =>
      simp only [rule, Res.bind_eq_ok, Res.ok.injEq] at hr
      obtain ⟨_, -, _, -, hd, hhd, bd, hbd, rfl⟩ := hr
      exact literal_names hbd (.inr hg)

end

end Verif.Tr
