import Verif.Builtins
import Mathlib.Data.List.Infix
/-
What the string functions and the conversion of strings to integers compute
(nemo-physical/src/function/definitions/string.rs, casting.rs).

Strings are sequences of grapheme clusters; how a text is cut into clusters is a parameter
(`Lib.graphemes`, crate `unicode-segmentation`).
-/

set_option linter.unusedVariables false
set_option linter.unusedSimpArgs false

namespace Verif.Fn

/-! ### Searching -/

theorem take_eq_iff_prefix {α : Type} [DecidableEq α] {needle hay : List α} :
    (hay.take needle.length = needle ∧ needle.length ≤ hay.length) ↔ needle <+: hay := by
  constructor
  · rintro ⟨h, _⟩
    exact List.prefix_iff_eq_take.mpr h.symm
  · intro h
    exact ⟨(List.prefix_iff_eq_take.mp h).symm, h.length_le⟩

theorem findFrom_some {needle : List String} : ∀ {hay : List String} {i r : Nat},
    findFrom needle hay i = some r →
    ∃ k, r = i + k ∧ needle <+: hay.drop k ∧ k ≤ hay.length ∧ ∀ j < k, ¬ needle <+: hay.drop j
  | hay, i, r, h => by
      rw [findFrom.eq_def] at h
      simp only at h
      split_ifs at h with hp
      · simp only [Option.some.injEq] at h
        exact ⟨0, by omega, by simpa using take_eq_iff_prefix.mp hp, by omega, by omega⟩
      · cases hay with
        | nil => simp at h
        | cons x rest =>
            simp only at h
            obtain ⟨k, hk, hpre, hlen, hmin⟩ := findFrom_some h
            refine ⟨k + 1, by omega, by simpa using hpre, by simpa using hlen, ?_⟩
            intro j hj
            cases j with
            | zero => simpa using fun hh => hp (take_eq_iff_prefix.mpr hh)
            | succ j => simpa using hmin j (by omega)

theorem findFrom_none {needle : List String} : ∀ {hay : List String} {i : Nat},
    findFrom needle hay i = none → ∀ k, ¬ needle <+: hay.drop k
  | hay, i, h, k => by
      rw [findFrom.eq_def] at h
      simp only at h
      split_ifs at h with hp
      cases hay with
      | nil =>
          intro hh
          simp at hh
          subst hh
          exact hp (by simp)
      | cons x rest =>
          cases k with
          | zero => simpa using fun hh => hp (take_eq_iff_prefix.mpr hh)
          | succ k => simpa using findFrom_none (i := i + 1) h k

theorem prefix_drop_iff {α : Type} {needle hay : List α} :
    (∃ k, needle <+: hay.drop k) ↔ needle <:+: hay := by
  constructor
  · rintro ⟨k, hk⟩
    exact hk.isInfix.trans (List.drop_suffix k hay).isInfix
  · rintro ⟨s, t, rfl⟩
    refine ⟨s.length, ?_⟩
    simp

/-- The first occurrence of a needle: what comes before it, and what comes after it. -/
structure FirstOccurrence (needle hay pre post : List String) : Prop where
  split : hay = pre ++ needle ++ post
  first : ∀ pre' post', hay = pre' ++ needle ++ post' → pre.length ≤ pre'.length

theorem find_spec (L : Lib) {hay needle : String} {i : Nat} (h : unicodeFind L hay needle = some i) :
    FirstOccurrence (L.graphemes needle) (L.graphemes hay) ((L.graphemes hay).take i)
      ((L.graphemes hay).drop (i + (L.graphemes needle).length)) := by
  obtain ⟨k, hk, hpre, hlen, hmin⟩ := findFrom_some h
  have hik : i = k := by omega
  subst hik
  have hsplit : (L.graphemes hay).drop i = L.graphemes needle ++
      (L.graphemes hay).drop (i + (L.graphemes needle).length) := by
    obtain ⟨t, ht⟩ := hpre
    rw [← ht, ← List.drop_drop, ← ht]
    simp
  refine ⟨?_, ?_⟩
  · rw [List.append_assoc, ← hsplit, List.take_append_drop]
  · intro pre' post' hh
    simp only [List.length_take]
    by_contra hlt
    have : pre'.length < i := by omega
    refine hmin pre'.length this ?_
    rw [hh]
    simp

/-! ### Theorems -/

/-- **C40.** CONTAINS: true iff the second string occurs in the first as a run of clusters. -/
theorem contains_iff (L : Lib) {a b : DV} {x y : String × Option String} (h : langPair a b = some (x, y)) :
    binEval L .strContains a b = .val (.bool true) ↔ L.graphemes y.1 <:+: L.graphemes x.1 := by
  simp only [binEval, strContains, h, Res.val.injEq, DV.bool.injEq]
  rw [← prefix_drop_iff]
  constructor
  · intro hh
    obtain ⟨i, hi⟩ := Option.isSome_iff_exists.mp hh
    obtain ⟨k, _, hp, _⟩ := findFrom_some hi
    exact ⟨k, hp⟩
  · rintro ⟨k, hk⟩
    cases hu : unicodeFind L x.1 y.1 with
    | some i => rfl
    | none => exact absurd hk (findFrom_none hu k)

/-- CONTAINS of strings with compatible language tags is always defined. -/
theorem contains_defined (L : Lib) {a b : DV} {x y : String × Option String} (h : langPair a b = some (x, y)) :
    ∃ t, binEval L .strContains a b = .val (.bool t) := by
  simp only [binEval, strContains, h, Res.val.injEq, DV.bool.injEq, exists_eq']

/-- **C40.** STRBEFORE and STRAFTER cut at the first occurrence, and keep the language tag. -/
theorem before_after (L : Lib) {a b : DV} {x y : String × Option String} (h : langPair a b = some (x, y))
    (hin : L.graphemes y.1 <:+: L.graphemes x.1) :
    ∃ pre post, FirstOccurrence (L.graphemes y.1) (L.graphemes x.1) pre post ∧
      binEval L .strBefore a b = .val (mkLang L (join pre) x.2) ∧
      binEval L .strAfter a b = .val (mkLang L (join post) x.2) := by
  cases hu : unicodeFind L x.1 y.1 with
  | none =>
      obtain ⟨k, hk⟩ := prefix_drop_iff.mpr hin
      exact absurd hk (findFrom_none hu k)
  | some i =>
      refine ⟨_, _, find_spec L hu, ?_, ?_⟩
      · simp only [binEval, strBefore, h, hu]
      · simp only [binEval, strAfter, h, hu]

/-- **C40.** STRBEFORE and STRAFTER are empty if the second string does not occur. -/
theorem before_after_absent (L : Lib) {a b : DV} {x y : String × Option String}
    (h : langPair a b = some (x, y)) (hin : ¬ L.graphemes y.1 <:+: L.graphemes x.1) :
    binEval L .strBefore a b = .val (.str "") ∧ binEval L .strAfter a b = .val (.str "") := by
  have hu : unicodeFind L x.1 y.1 = none := by
    cases hu : unicodeFind L x.1 y.1 with
    | none => rfl
    | some i =>
        obtain ⟨k, _, hp, _⟩ := findFrom_some hu
        exact absurd (prefix_drop_iff.mp ⟨k, hp⟩) hin
  constructor
  · simp only [binEval, strBefore, h, hu]
  · simp only [binEval, strAfter, h, hu]

theorem join_append (xs ys : List String) : join (xs ++ ys) = join xs ++ join ys := by
  induction xs with
  | nil => simp [join]
  | cons x xs ih =>
      show x ++ join (xs ++ ys) = (x ++ join xs) ++ join ys
      rw [ih, String.append_assoc]

/-- STRBEFORE, the needle and STRAFTER together are the original text, provided that the clusters of
every text concatenate to the text. -/
theorem before_after_text (L : Lib) (hjoin : ∀ s, join (L.graphemes s) = s) {a b : DV}
    {x y : String × Option String} (h : langPair a b = some (x, y))
    (hin : L.graphemes y.1 <:+: L.graphemes x.1) :
    ∃ s t, binEval L .strBefore a b = .val (mkLang L s x.2) ∧
      binEval L .strAfter a b = .val (mkLang L t x.2) ∧ s ++ y.1 ++ t = x.1 := by
  obtain ⟨pre, post, hf, h1, h2⟩ := before_after L h hin
  refine ⟨_, _, h1, h2, ?_⟩
  rw [← hjoin y.1, ← join_append, ← join_append, ← hf.split, hjoin]

/-- **C40.** STRSTARTS: true iff the second string is a prefix. -/
theorem starts_iff (L : Lib) {a b : DV} {x y : String × Option String} (h : langPair a b = some (x, y)) :
    binEval L .strStarts a b = .val (.bool true) ↔ L.graphemes y.1 <+: L.graphemes x.1 := by
  simp only [binEval, strStarts, h]
  split_ifs with hl
  · simp only [Res.val.injEq, DV.bool.injEq, Bool.false_eq_true, false_iff]
    intro hh
    have := hh.length_le
    omega
  · simp only [Res.val.injEq, DV.bool.injEq, decide_eq_true_eq]
    rw [← take_eq_iff_prefix]
    exact ⟨fun hh => ⟨hh, by omega⟩, fun hh => hh.1⟩

/-- **C40.** STRENDS: true iff the second string is a suffix. -/
theorem ends_iff (L : Lib) {a b : DV} {x y : String × Option String} (h : langPair a b = some (x, y)) :
    binEval L .strEnds a b = .val (.bool true) ↔ L.graphemes y.1 <:+ L.graphemes x.1 := by
  simp only [binEval, strEnds, h]
  split_ifs with hl
  · simp only [Res.val.injEq, DV.bool.injEq, Bool.false_eq_true, false_iff]
    intro hh
    have := hh.length_le
    omega
  · simp only [Res.val.injEq, DV.bool.injEq, decide_eq_true_eq]
    rw [List.suffix_iff_eq_drop]
    exact eq_comm

/-- The clusters at the positions `q` with `P q`, the first cluster being at position `p`. -/
def positionsFrom : List String → Int → (Int → Bool) → List String
  | [], _, _ => []
  | x :: g, p, P => if P p then x :: positionsFrom g (p + 1) P else positionsFrom g (p + 1) P

/-- The clusters at the (1-based) positions `q` with `P q`. -/
def positions (g : List String) (P : Int → Bool) : List String := positionsFrom g 1 P

theorem positionsFrom_congr {P Q : Int → Bool} : ∀ (g : List String) (p : Int),
    (∀ q, p ≤ q → q < p + g.length → P q = Q q) → positionsFrom g p P = positionsFrom g p Q
  | [], p, h => rfl
  | x :: g, p, h => by
      have h0 := h p (by omega) (by simp only [List.length_cons]; omega)
      have ih := positionsFrom_congr g (p + 1) (fun q h1 h2 => h q (by omega) (by
        simp only [List.length_cons]; omega))
      simp only [positionsFrom, h0, ih]

theorem positionsFrom_none : ∀ (g : List String) (p : Int), positionsFrom g p (fun _ => false) = []
  | [], p => rfl
  | x :: g, p => by simp only [positionsFrom, Bool.false_eq_true, if_false, positionsFrom_none g]

theorem positionsFrom_range (lo hi : Int) : ∀ (g : List String) (p : Int),
    positionsFrom g p (fun q => decide (lo ≤ q) && decide (q < hi)) =
      (g.take (hi - p).toNat).drop (lo - p).toNat
  | [], p => by simp [positionsFrom]
  | x :: g, p => by
      have ih := positionsFrom_range lo hi g (p + 1)
      simp only [positionsFrom, ih]
      by_cases h1 : p < hi
      · have e1 : (hi - p).toNat = (hi - (p + 1)).toNat + 1 := by omega
        rw [e1, List.take_succ_cons]
        by_cases h2 : lo ≤ p
        · have e2 : (lo - p).toNat = 0 := by omega
          have e3 : (lo - (p + 1)).toNat = 0 := by omega
          simp [h1, h2, e2, e3]
        · have e2 : (lo - p).toNat = (lo - (p + 1)).toNat + 1 := by omega
          simp [h1, h2, e2]
      · have e1 : (hi - p).toNat = 0 := by omega
        have e2 : (hi - (p + 1)).toNat = 0 := by omega
        simp [h1, e1, e2]

theorem positions_congr {g : List String} {P Q : Int → Bool} (h : ∀ p : Int, 1 ≤ p → p ≤ g.length → P p = Q p) :
    positions g P = positions g Q :=
  positionsFrom_congr g 1 (fun q h1 h2 => h q h1 (by omega))

theorem positions_none {g : List String} {P : Int → Bool} (h : ∀ p : Int, 1 ≤ p → p ≤ g.length → P p = false) :
    positions g P = [] := by
  rw [positions_congr (Q := fun _ => false) h]
  exact positionsFrom_none g 1

theorem positions_from (g : List String) (k : Int) :
    positions g (fun p => decide (k ≤ p)) = g.drop (k - 1).toNat := by
  rw [positions_congr (Q := fun q => decide (k ≤ q) && decide (q < g.length + 1))]
  · unfold positions
    rw [positionsFrom_range, List.take_of_length_le (by omega)]
  · intro p _ h
    have : decide (p < (g.length : Int) + 1) = true := by simp; omega
    rw [this, Bool.and_true]

/-- **C40.** SUBSTR with two parameters: the clusters from the (1-based) start position on. -/
theorem substring_spec (L : Lib) {a b : DV} {x : String × Option String} {start : Int}
    (ha : langString a = some x) (hb : b.toI64 = some start) :
    binEval L .strSubstring a b =
      .val (mkLang L (join (positions (L.graphemes x.1) fun p => decide (start ≤ p))) x.2) := by
  have hpos : positions (L.graphemes x.1) (fun p => decide (start ≤ p)) =
      (L.graphemes x.1).drop ((max start 1).toNat - 1) := by
    rw [positions_from]
    congr 1
    omega
  simp only [binEval, strSubstring, ha, hb]
  rw [hpos]
  split_ifs with hl
  · rfl
  · rw [List.drop_eq_nil_of_le (by omega)]
    rfl

/-- **C40.** SUBSTR with three parameters: the clusters at the positions `p` with
`start ≤ p < start + length`, as long as `start + length` is positive and fits 64 bits. -/
theorem substringLength_spec_partial (L : Lib) {a b c : DV} {x : String × Option String} {start length : Int}
    (ha : langString a = some x) (hb : b.toI64 = some start) (hc : c.toI64 = some length)
    (hlo : 0 < length → 0 < start + length) (hhi : start + length < 2 ^ 63) :
    terEval L .strSubstringLength a b c = .val (mkLang L (join (positions (L.graphemes x.1)
      fun p => decide (start ≤ p) && decide (p < start + length))) x.2) := by
  simp only [terEval, strSubstringLength, ha, hb, hc]
  split_ifs with h1 h2 h3 h4 h5
  · rw [positions_none]
    · rfl
    · intro p hp _
      simp
      omega
  · omega
  · have := hlo (by omega); omega
  · rw [positions_none]
    · rfl
    · intro p hp hpl
      simp
      omega
  · have := hlo (by omega); omega
  · congr 3
    have hpos : positions (L.graphemes x.1) (fun p => decide (start ≤ p) && decide (p < start + length)) =
        ((L.graphemes x.1).take ((start + length).toNat - 1)).drop ((max start 1).toNat - 1) := by
      have := hlo (by omega)
      unfold positions
      rw [positionsFrom_range]
      congr 1
      · omega
      · congr 1
        omega
    rw [hpos]
    unfold sliceOrRest
    have := hlo (by omega)
    split_ifs with h6
    · rfl
    · rw [List.take_of_length_le]
      have : (max start 1).toNat - 1 ≤ (start + length).toNat - 1 := by omega
      push Not at h6
      exact (h6 this).le

/-- Out of these bounds the answer is wrong: SUBSTR("a", -1, 1) aborts although no position qualifies,
SUBSTR("a", -2, 1) is undefined, and a length reaching beyond 64 bits aborts. -/
theorem substringLength_wrong (L : Lib) (hg : L.graphemes "a" = ["a"]) :
    terEval L .strSubstringLength (.str "a") (.long (-1)) (.long 1) = .panic ∧
    terEval L .strSubstringLength (.str "a") (.long (-2)) (.long 1) = .undef ∧
    terEval L .strSubstringLength (.str "a") (.long 1) (.long 9223372036854775807) = .panic := by
  have e1 : (-1 : Int64).toInt = -1 := by decide
  have e2 : (-2 : Int64).toInt = -2 := by decide
  have e3 : (1 : Int64).toInt = 1 := by decide
  have e4 : (9223372036854775807 : Int64).toInt = 9223372036854775807 := by decide
  refine ⟨?_, ?_, ?_⟩ <;>
    simp [terEval, strSubstringLength, langString, DV.toI64, e1, e2, e3, e4, hg]

/-- STRLEN counts clusters. -/
theorem length_spec (L : Lib) {a : DV} {x : String × Option String} (ha : langString a = some x)
    (hn : (L.graphemes x.1).length < 2 ^ 63) :
    ∃ r, unEval L .strLength a = .val r ∧ r.toI64 = some ((L.graphemes x.1).length : Int) := by
  refine ⟨.ulong (UInt64.ofNat (L.graphemes x.1).length), by simp only [unEval, ha, count, if_pos hn], ?_⟩
  have : (UInt64.ofNat (L.graphemes x.1).length).toNat = (L.graphemes x.1).length := by
    rw [UInt64.toNat_ofNat']
    exact Nat.mod_eq_of_lt (by omega)
  simp only [DV.toI64, this]
  rw [if_pos (by omega)]

/-- CONCAT of plain strings. -/
theorem concat_plain (L : Lib) (ss : List String) :
    naryEval L .concat (ss.map DV.str) = .val (.str (join ss)) := by
  have hm : ∀ ss : List String, (ss.map DV.str).mapM langString = some (ss.map fun s => (s, none)) := by
    intro ss
    induction ss with
    | nil => rfl
    | cons s ss ih => simp only [List.map_cons, List.mapM_cons, ih]; rfl
  simp only [naryEval, strConcat, hm ss, List.map_map]
  have : (Prod.fst ∘ fun s : String => (s, (none : Option String))) = id := rfl
  rw [this, List.map_id]
  cases ss <;> rfl

/-! ### Strings to integers -/

/-- Specification: the decimal digits of a natural number. -/
def decimal (n : Nat) : List Char :=
  if n < 10 then [Char.ofNat (48 + n)] else decimal (n / 10) ++ [Char.ofNat (48 + n % 10)]
decreasing_by omega

/-- Specification: an integer in decimal notation. -/
def decimalInt (i : Int) : List Char := if i < 0 then '-' :: decimal i.natAbs else decimal i.natAbs

theorem digit_decimal : ∀ n, n < 10 → digit 10 (Char.ofNat (48 + n)) = some n := by decide

theorem digits_append (radix : Nat) : ∀ (xs ys : List Char) (acc : Nat),
    digits radix (xs ++ ys) acc = (digits radix xs acc).bind fun m => digits radix ys m
  | [], ys, acc => rfl
  | x :: xs, ys, acc => by
      simp only [List.cons_append, digits]
      cases digit radix x with
      | none => rfl
      | some d => exact digits_append radix xs ys _

theorem digits_decimal (n : Nat) : digits 10 (decimal n) 0 = some n := by
  induction n using Nat.strong_induction_on with
  | _ n ih =>
      rw [decimal]
      split_ifs with h
      · simp only [digits, digit_decimal n h, Nat.zero_mul, Nat.zero_add]
      · rw [digits_append, ih (n / 10) (by omega)]
        simp only [Option.bind_some, digits, digit_decimal (n % 10) (Nat.mod_lt _ (by omega))]
        congr 1
        omega

theorem decimal_ne_nil (n : Nat) : decimal n ≠ [] := by
  rw [decimal]; split_ifs <;> simp

theorem decimal_chars {n : Nat} {c : Char} (h : c ∈ decimal n) : ∃ d < 10, c = Char.ofNat (48 + d) := by
  induction n using Nat.strong_induction_on with
  | _ n ih =>
      rw [decimal] at h
      split_ifs at h with hn
      · simp at h; exact ⟨n, hn, h⟩
      · rcases List.mem_append.mp h with h | h
        · exact ih _ (by omega) h
        · simp at h; exact ⟨n % 10, Nat.mod_lt _ (by omega), h⟩

theorem digit_char_facts : ∀ d, d < 10 → Char.ofNat (48 + d) ≠ '-' ∧ Char.ofNat (48 + d) ≠ '+' ∧
    (Char.ofNat (48 + d)).utf8Size = 1 ∧ Char.ofNat (48 + d) ≠ 'b' ∧ Char.ofNat (48 + d) ≠ 'o' ∧
    Char.ofNat (48 + d) ≠ 'x' := by decide

theorem splitSign_digit {c : Char} (cs : List Char) (h1 : c ≠ '-') (h2 : c ≠ '+') :
    splitSign (c :: cs) = (false, c :: cs) := by
  unfold splitSign
  split
  · next heq => exact absurd (List.cons.inj heq).1 h1
  · next heq => exact absurd (List.cons.inj heq).1 h2
  · rfl

theorem splitSign_decimal (n : Nat) : splitSign (decimal n) = (false, decimal n) := by
  cases hd : decimal n with
  | nil => exact absurd hd (decimal_ne_nil _)
  | cons c cs =>
      obtain ⟨d, hdl, hc⟩ := decimal_chars (n := n) (c := c) (by rw [hd]; simp)
      obtain ⟨h1, h2, _⟩ := digit_char_facts d hdl
      rw [← hc] at h1 h2
      exact splitSign_digit cs h1 h2

/-- Parsing the decimal notation of a 64-bit integer gives the integer. -/
theorem parse_decimal (i : Int64) : parseI64 10 (decimalInt i.toInt) = some i := by
  have hfit : I64.Fits i.toInt := ⟨Int64.le_toInt i, Int64.toInt_lt i⟩
  have hfin : fitI64 i.toInt = some i := by
    unfold fitI64
    rw [if_pos hfit, Int64.ofInt_toInt]
  unfold decimalInt
  split_ifs with hneg
  · have : splitSign ('-' :: decimal i.toInt.natAbs) = (true, decimal i.toInt.natAbs) := rfl
    unfold parseI64
    rw [this, if_neg (by simp [decimal_ne_nil]), digits_decimal, Option.bind_some, ← hfin]
    congr 1
    simp only [signed, if_true]
    omega
  · unfold parseI64
    rw [splitSign_decimal, if_neg (by simp [decimal_ne_nil]), digits_decimal, Option.bind_some, ← hfin]
    congr 1
    simp only [signed, Bool.false_eq_true, if_false]
    omega

/-- **C40.** INT of the decimal notation of any 64-bit integer is that integer. -/
theorem cast_decimal (L : Lib) (i : Int64) :
    unEval L .castInt (.str (String.ofList (decimalInt i.toInt))) = .val (.long i) := by
  simp only [unEval, castInt, String.toList_ofList, castIntString, parse_decimal]
  split_ifs with hl
  · have hp : ∃ p, prefix2 (decimalInt i.toInt) = some p ∧ p ≠ ['0', 'b'] ∧ p ≠ ['0', 'o'] ∧ p ≠ ['0', 'x'] := by
      have hmem : ∀ c ∈ decimalInt i.toInt, c = '-' ∨ ∃ d < 10, c = Char.ofNat (48 + d) := by
        intro c hc
        unfold decimalInt at hc
        split_ifs at hc
        · rcases List.mem_cons.mp hc with rfl | hc
          · exact Or.inl rfl
          · exact Or.inr (decimal_chars hc)
        · exact Or.inr (decimal_chars hc)
      match hm : decimalInt i.toInt with
      | [] => rw [hm] at hl; simp at hl
      | [_] => rw [hm] at hl; simp at hl
      | c :: d :: rest =>
          rw [hm] at hmem
          have size : ∀ e ∈ c :: d :: rest, e.utf8Size = 1 ∧ e ≠ 'b' ∧ e ≠ 'o' ∧ e ≠ 'x' := by
            intro e he
            rcases hmem e he with rfl | ⟨n, hn, rfl⟩
            · decide
            · exact ⟨(digit_char_facts n hn).2.2.1, (digit_char_facts n hn).2.2.2.1,
                (digit_char_facts n hn).2.2.2.2.1, (digit_char_facts n hn).2.2.2.2.2⟩
          have hc := size c (by simp)
          have hd := size d (by simp)
          refine ⟨[c, d], ?_, ?_, ?_, ?_⟩
          · simp [prefix2, hc.1, hd.1]
          · simp [hd.2.1]
          · simp [hd.2.2.1]
          · simp [hd.2.2.2]
    obtain ⟨p, hp, h1, h2, h3⟩ := hp
    simp only [hp, if_neg h1, if_neg h2, if_neg h3, Option.map_some]
    rfl
  · rfl

/-- INT aborts if the second byte of a text with at least three characters is inside a character,
e.g. for the text `aéb`. -/
theorem cast_not_a_boundary (L : Lib) (c d e : Char) (cs : List Char) (hc : c.utf8Size = 1)
    (hd : d.utf8Size ≠ 1) : unEval L .castInt (.str (String.ofList (c :: d :: e :: cs))) = .panic := by
  simp [unEval, castInt, castIntString, prefix2, hc, hd]

example : 'a'.utf8Size = 1 ∧ 'é'.utf8Size ≠ 1 := by decide

/-- INT accepts a sign after the prefix of a hexadecimal number. -/
theorem cast_sign_after_prefix (L : Lib) : unEval L .castInt (.str "0x-1F") = .val (.long (-31)) := by
  have h1 : ("0x-1F" : String).toList = ['0', 'x', '-', '1', 'F'] := by decide
  have h2 : parseI64 16 ['-', '1', 'F'] = some (-31) := by decide
  have h3 : prefix2 ['0', 'x', '-', '1', 'F'] = some ['0', 'x'] := by decide
  simp only [unEval, castInt, h1, castIntString, h3]
  simp [h2, Res.ofOption]

/-! ### A case that meets the hypotheses -/

example : langPair (.lang "abcab" "en") (.str "b") = some (("abcab", some "en"), ("b", none)) := rfl

example : FirstOccurrence ["b"] ["a", "b", "c", "a", "b"] ["a"] ["c", "a", "b"] := by
  refine ⟨rfl, ?_⟩
  intro pre post h
  cases pre with
  | nil => simp at h
  | cons p ps => simp

example : positions ["a", "b", "c", "d"] (fun p => decide (2 ≤ p) && decide (p < 4)) = ["b", "c"] := by
  decide

end Verif.Fn
