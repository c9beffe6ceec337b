/-
Data values of Nemo: value domains, equality, the total order, hashing and the
storage type of a value.

Modelled code: `nemo-physical/src/datavalues/{datavalue,any_datavalue,integer_datavalues,
float_datavalues,boolean_datavalue,null_datavalue,string_datavalue,lang_string_datavalue,
iri_datavalue,other_datavalue,tuple_datavalue,map_datavalue}.rs`.
-/
import Mathlib.Data.String.Basic
import Mathlib.Data.Prod.Lex
import Mathlib.Algebra.Order.Field.Rat
import Mathlib.Tactic.Linarith
import Mathlib.Tactic.NormNum
import Mathlib.Tactic.Ring
import Mathlib.Tactic.Positivity
import Mathlib.Tactic.Push

set_option linter.unusedSimpArgs false
set_option linter.unusedVariables false

namespace Verif

/-! ### Finite floating point numbers -/

/-- A finite `f32`/`f64`, given by its bit pattern (`w` mantissa bits, `e` exponent bits).
`FloatDataValue::from_f32`/`DoubleDataValue::from_f64` (float_datavalues.rs:21-26, 104-109)
reject NaN and the infinities, i.e. all patterns with an exponent of only ones. -/
structure FinFloat (e w : Nat) where
  /-- the bit pattern returned by `to_bits` -/
  bits : BitVec (1 + e + w)
  /-- `is_finite` -/
  finite : (bits.toNat >>> w) % 2 ^ e ≠ 2 ^ e - 1
deriving DecidableEq

/-- The exponent field. -/
def FinFloat.expo {e w} (f : FinFloat e w) : Nat := (f.bits.toNat >>> w) % 2 ^ e
/-- The mantissa field. -/
def FinFloat.mant {e w} (f : FinFloat e w) : Nat := f.bits.toNat % 2 ^ w
/-- The sign bit. -/
def FinFloat.neg {e w} (f : FinFloat e w) : Bool := f.bits.toNat.testBit (e + w)

/-- The IEEE 754 value of a finite float, scaled by `2 ^ (bias + w)` so that it is an integer:
`± mant * 2` for subnormal numbers and `± (2^w + mant) * 2^expo` for normal ones.  Scaling by a
positive constant changes neither equality nor order, which is all that is used. -/
def FinFloat.scaled {e w} (f : FinFloat e w) : Int :=
  (if f.neg then -1 else 1) *
    (if f.expo = 0 then (f.mant : Int) * 2 else (2 ^ w + f.mant : Int) * 2 ^ f.expo)

/-- `f32` -/
abbrev F32 := FinFloat 8 23
/-- `f64` -/
abbrev F64 := FinFloat 11 52

/-! ### Data values -/

/-- `AnyDataValueEnum`, any_datavalue.rs:47-77, with the contents of the individual data value
structs.  The pairs of a map are those of the `BTreeMap`, in iteration order. Strings are Rust
strings; Rust compares them bytewise in UTF-8, which is the order of code points used by Lean. -/
inductive DV where
  | str (s : String)
  | lang (s tag : String)
  | iri (s : String)
  | float (f : F32)
  | double (f : F64)
  | ulong (n : UInt64)
  | long (i : Int64)
  | bool (b : Bool)
  | null (id : Nat)
  | tuple (label : Option String) (values : List DV)
  | map (label : Option String) (pairs : List (DV × DV))
  | other (lexical datatype : String)

/-- `ValueDomain`, datavalue.rs:44-89. -/
inductive ValueDomain where
  | plainString | languageTaggedString | iri | float | double | unsignedLong | nonNegativeLong
  | unsignedInt | nonNegativeInt | long | int | tuple | map | boolean | null | other
deriving DecidableEq, Repr

/-- `ValueDomain::relative_domain_position`, datavalue.rs:163-191. -/
def ValueDomain.pos : ValueDomain → Nat
  | .null => 10
  | .iri => 13
  | .plainString => 20
  | .languageTaggedString => 22
  | .other => 24
  | .tuple => 26
  | .map => 28
  | .boolean => 30
  | .float => 50
  | .double => 52
  | .long => 100
  | .int => 102
  | .nonNegativeInt => 104
  | .unsignedInt => 106
  | .nonNegativeLong => 108
  | .unsignedLong => 110

/-- `LongDataValue::value_domain`, integer_datavalues.rs:136-150. -/
def longDomain (i : Int) : ValueDomain :=
  if 0 ≤ i then
    if i ≤ 0xFFFFFFFF / 2 then .nonNegativeInt
    else if i ≤ 0xFFFFFFFF then .unsignedInt
    else .nonNegativeLong
  else if -(0xFFFFFFFF / 2) - 1 ≤ i then .int
  else .long

/-- `UnsignedLongDataValue::value_domain`, integer_datavalues.rs:52-62. -/
def ulongDomain (n : Nat) : ValueDomain :=
  if n ≤ 0xFFFFFFFF / 2 then .nonNegativeInt
  else if n ≤ 0xFFFFFFFF then .unsignedInt
  else if n ≤ 0xFFFFFFFFFFFFFFFF / 2 then .nonNegativeLong
  else .unsignedLong

/-- `DataValue::value_domain` for `AnyDataValue`, any_datavalue.rs:590, with the implementations
of the individual values. -/
def DV.domain : DV → ValueDomain
  | .str _ => .plainString
  | .lang _ _ => .languageTaggedString
  | .iri _ => .iri
  | .float _ => .float
  | .double _ => .double
  | .ulong n => ulongDomain n.toNat
  | .long i => longDomain i.toInt
  | .bool _ => .boolean
  | .null _ => .null
  | .tuple _ _ => .tuple
  | .map _ _ => .map
  | .other _ _ => .other

/-- `fits_into_i64` followed by `to_i64_unchecked` (datavalue.rs:353-396,
integer_datavalues.rs:64-92, 152-175): `none` is "does not fit", which is exactly when the
unchecked conversion panics. -/
def DV.toI64 : DV → Option Int
  | .long i => some i.toInt
  | .ulong n => if n.toNat ≤ 0xFFFFFFFFFFFFFFFF / 2 then some n.toNat else none
  | _ => none

/-- `fits_into_u64` followed by `to_u64_unchecked`, as `DV.toI64`. -/
def DV.toU64 : DV → Option Int
  | .ulong n => some n.toNat
  | .long i => if 0 ≤ i.toInt then some i.toInt else none
  | _ => none

/-- The derived order on `Option<IriDataValue>`: `None` first. -/
def cmpLabel : Option String → Option String → Ordering
  | none, none => .eq
  | none, some _ => .lt
  | some _, none => .gt
  | some a, some b => compare a b

mutual
/-- `PartialEq for AnyDataValue`, any_datavalue.rs:688-715. The derived equality of tuples and
maps compares the labels and then the elements one by one. -/
def DV.eq : DV → DV → Bool
  | .str s, .str t => s == t
  | .iri s, .iri t => s == t
  | .lang s t, .lang s' t' => s == s' && t == t'
  | .float f, .float g => f.scaled == g.scaled
  | .double f, .double g => f.scaled == g.scaled
  | .long i, .long j => i.toInt == j.toInt
  | .long i, .ulong n => DV.toI64 (.ulong n) == some i.toInt
  | .ulong n, .ulong m => (n.toNat : Int) == m.toNat
  | .ulong n, .long i => DV.toU64 (.long i) == some (n.toNat : Int)
  | .bool b, .bool c => b == c
  | .null n, .null m => n == m
  | .tuple l vs, .tuple l' vs' => l == l' && DV.eqList vs vs'
  | .map l ps, .map l' ps' => l == l' && DV.eqPairs ps ps'
  | .other a b, .other a' b' => a == a' && b == b'
  | _, _ => false
/-- Slice equality: same length and equal elements. -/
def DV.eqList : List DV → List DV → Bool
  | [], [] => true
  | a :: as, b :: bs => DV.eq a b && DV.eqList as bs
  | _, _ => false
/-- `BTreeMap` equality: same number of entries, and the entries agree in iteration order. -/
def DV.eqPairs : List (DV × DV) → List (DV × DV) → Bool
  | [], [] => true
  | a :: as, b :: bs => DV.eqPair a b && DV.eqPairs as bs
  | _, _ => false
/-- Equality of key-value pairs. -/
def DV.eqPair : DV × DV → DV × DV → Bool
  | (a, b), (a', b') => DV.eq a a' && DV.eq b b'
end

/-- `Ordering::then` on computations that may panic; the second comparison is only executed if
the first one is `Equal` (derived `Ord` compares field after field). -/
def thenCmp (o : Option Ordering) (p : Unit → Option Ordering) : Option Ordering :=
  match o with
  | some .eq => p ()
  | o => o

/-- The comparison of the domains, any_datavalue.rs:723-724, 759-761: `same` is only evaluated
if the domains are equal. -/
def onSameDomain (a b : DV) (same : Option Ordering) : Option Ordering :=
  match compare a.domain.pos b.domain.pos with
  | .eq => same
  | o => some o

mutual
/-- `Ord for AnyDataValue`, any_datavalue.rs:719-763: `none` is a panic (an unchecked conversion
that fails, or the `unreachable!` in line 757). -/
def DV.cmp : DV → DV → Option Ordering
  | .str s, .str t => onSameDomain (.str s) (.str t) (some (compare s t))
  | .iri s, .iri t => onSameDomain (.iri s) (.iri t) (some (compare s t))
  | .lang s t, .lang s' t' =>
    onSameDomain (.lang s t) (.lang s' t') (some ((compare s s').then (compare t t')))
  | .float f, .float g => onSameDomain (.float f) (.float g) (some (compare f.scaled g.scaled))
  | .double f, .double g => onSameDomain (.double f) (.double g) (some (compare f.scaled g.scaled))
  | .long i, b => onSameDomain (.long i) b ((b.toI64).map (compare i.toInt))
  | .ulong n, b => onSameDomain (.ulong n) b ((b.toU64).map (compare (n.toNat : Int)))
  | .bool b, .bool c => onSameDomain (.bool b) (.bool c) (some (compare b.toNat c.toNat))
  | .null n, .null m => onSameDomain (.null n) (.null m) (some (compare n m))
  | .tuple l vs, .tuple l' vs' =>
    onSameDomain (.tuple l vs) (.tuple l' vs')
      (thenCmp (some (cmpLabel l l')) (fun _ => DV.cmpList vs vs'))
  | .map l ps, .map l' ps' =>
    onSameDomain (.map l ps) (.map l' ps')
      (thenCmp (some (cmpLabel l l')) (fun _ => DV.cmpPairs ps ps'))
  | .other a b, .other a' b' =>
    onSameDomain (.other a b) (.other a' b') (some ((compare a a').then (compare b b')))
  | a, b => onSameDomain a b none
/-- Lexicographic comparison of slices. -/
def DV.cmpList : List DV → List DV → Option Ordering
  | [], [] => some .eq
  | [], _ :: _ => some .lt
  | _ :: _, [] => some .gt
  | a :: as, b :: bs => thenCmp (DV.cmp a b) (fun _ => DV.cmpList as bs)
/-- Lexicographic comparison of the entries of a `BTreeMap`. -/
def DV.cmpPairs : List (DV × DV) → List (DV × DV) → Option Ordering
  | [], [] => some .eq
  | [], _ :: _ => some .lt
  | _ :: _, [] => some .gt
  | a :: as, b :: bs => thenCmp (DV.cmpPair a b) (fun _ => DV.cmpPairs as bs)
/-- Derived order on pairs. -/
def DV.cmpPair : DV × DV → DV × DV → Option Ordering
  | (a, b), (a', b') => thenCmp (DV.cmp a a') (fun _ => DV.cmp b b')
end

/-! ### A key for every value

The order is the lexicographic order of the following keys: this single fact gives totality,
transitivity, antisymmetry up to equality, and freedom from panics. -/

/-- Tokens: numbers and strings. -/
abbrev Tok := Int × String

/-- Comparison of tokens. -/
def tokCmp (a b : Tok) : Ordering := (compare a.1 b.1).then (compare a.2 b.2)

/-- A number token. -/
def tn (i : Int) : Tok := (i, "")
/-- A string token. -/
def ts (s : String) : Tok := (0, s)

/-- Tokens of a label. -/
def labelKey : Option String → List Tok
  | none => [tn 0]
  | some s => [tn 1, ts s]

mutual
/-- The key of a value: the position of its domain and its contents. -/
def DV.key : DV → List Tok
  | .str s => [tn 20, ts s]
  | .iri s => [tn 13, ts s]
  | .lang s t => [tn 22, ts s, ts t]
  | .float f => [tn 50, tn f.scaled]
  | .double f => [tn 52, tn f.scaled]
  | .long i => [tn (longDomain i.toInt).pos, tn i.toInt]
  | .ulong n => [tn (ulongDomain n.toNat).pos, tn n.toNat]
  | .bool b => [tn 30, tn b.toNat]
  | .null n => [tn 10, tn n]
  | .tuple l vs => tn 26 :: (labelKey l ++ DV.keyList vs)
  | .map l ps => tn 28 :: (labelKey l ++ DV.keyPairs ps)
  | .other a b => [tn 24, ts a, ts b]
/-- Keys of the elements and an end marker. -/
def DV.keyList : List DV → List Tok
  | [] => [tn 0]
  | v :: vs => DV.key v ++ DV.keyList vs
/-- Keys of the pairs and an end marker. -/
def DV.keyPairs : List (DV × DV) → List Tok
  | [] => [tn 0]
  | p :: ps => DV.keyPair p ++ DV.keyPairs ps
/-- Keys of the components. -/
def DV.keyPair : DV × DV → List Tok
  | (k, v) => DV.key k ++ DV.key v
end

/-- Lexicographic comparison of keys. -/
abbrev lexCmp (xs ys : List Tok) : Ordering := List.compareLex tokCmp xs ys

theorem tokCmp_swap (a b : Tok) : tokCmp b a = (tokCmp a b).swap := by
  simp only [tokCmp, Ordering.swap_then]
  rw [← Std.OrientedCmp.eq_swap (cmp := compare) (a := b.1), ← Std.OrientedCmp.eq_swap (cmp := compare) (a := b.2)]

theorem tokCmp_eq {a b : Tok} : tokCmp a b = .eq ↔ a = b := by
  rcases a with ⟨x, s⟩
  rcases b with ⟨y, t⟩
  simp [tokCmp, Ordering.then_eq_eq]

instance : Std.TransCmp tokCmp where
  eq_swap {a b} := tokCmp_swap b a
  isLE_trans {a b c} hab hbc := by
    have key : ∀ a b : Tok, (tokCmp a b).isLE ↔ a.1 < b.1 ∨ (a.1 = b.1 ∧ a.2 ≤ b.2) := by
      intro a b
      rcases a with ⟨x, s⟩
      rcases b with ⟨y, t⟩
      rcases lt_trichotomy x y with h | h | h
      · have : compare x y = .lt := compare_lt_iff_lt.mpr h
        simp [tokCmp, this, h]
      · subst h
        simp only [tokCmp, lt_irrefl, false_or, true_and]
        have : compare x x = .eq := compare_eq_iff_eq.mpr rfl
        rw [this]
        simp only [Ordering.eq_then]
        rw [← compare_le_iff_le]
        cases compare s t <;> simp
      · have : compare x y = .gt := compare_gt_iff_gt.mpr h
        simp only [tokCmp, this, Ordering.gt_then]
        simp only [Ordering.isLE]
        constructor
        · intro h'; cases h'
        · rintro (h' | ⟨h', _⟩) <;> omega
    rw [key] at hab hbc ⊢
    rcases hab with h1 | ⟨h1, h2⟩ <;> rcases hbc with h3 | ⟨h3, h4⟩
    · left; omega
    · left; omega
    · left; omega
    · right; exact ⟨by omega, le_trans h2 h4⟩

theorem lexCmp_eq : ∀ {xs ys : List Tok}, lexCmp xs ys = .eq ↔ xs = ys
  | [], [] => by simp [List.compareLex]
  | [], _ :: _ => by simp [List.compareLex]
  | _ :: _, [] => by simp [List.compareLex]
  | x :: xs, y :: ys => by
    simp only [lexCmp, List.compareLex_cons_cons, Ordering.then_eq_eq, tokCmp_eq, List.cons.injEq]
    rw [lexCmp_eq (xs := xs) (ys := ys)]

theorem lexCmp_refl (xs : List Tok) : lexCmp xs xs = .eq := lexCmp_eq.mpr rfl

theorem lexCmp_cons (x y : Tok) (xs ys : List Tok) :
    lexCmp (x :: xs) (y :: ys) = (tokCmp x y).then (lexCmp xs ys) :=
  List.compareLex_cons_cons

theorem tokCmp_tn (i j : Int) : tokCmp (tn i) (tn j) = compare i j := by
  simp only [tokCmp, tn]
  have : compare "" "" = Ordering.eq := compare_eq_iff_eq.mpr rfl
  rw [this]; cases compare i j <;> rfl

theorem tokCmp_ts (s t : String) : tokCmp (ts s) (ts t) = compare s t := by
  simp [tokCmp, ts]

theorem tokCmp_self (t : Tok) : tokCmp t t = .eq := tokCmp_eq.mpr rfl

/-- `o` is the outcome of comparing two values whose keys start with `xs` and `ys`. -/
def Dec (o : Option Ordering) (xs ys : List Tok) : Prop :=
  ∃ r, o = some r ∧ ∀ x y, lexCmp (xs ++ x) (ys ++ y) = r.then (lexCmp x y)

theorem Dec.thenCmp {o : Option Ordering} {p : Unit → Option Ordering} {xs ys xs' ys' : List Tok}
    (h : Dec o xs ys) (h' : Dec (p ()) xs' ys') :
    Dec (thenCmp o p) (xs ++ xs') (ys ++ ys') := by
  obtain ⟨r, rfl, hr⟩ := h
  obtain ⟨r', hr'e, hr'⟩ := h'
  refine ⟨r.then r', ?_, ?_⟩
  · cases r <;> simp [Verif.thenCmp, hr'e]
  · intro x y
    rw [List.append_assoc, List.append_assoc, hr, hr', Ordering.then_assoc]

theorem Dec.one {r : Ordering} {s t : Tok} (h : tokCmp s t = r) : Dec (some r) [s] [t] :=
  ⟨r, rfl, fun x y => by simp [lexCmp_cons, h]⟩

theorem Dec.label (l l' : Option String) : Dec (some (cmpLabel l l')) (labelKey l) (labelKey l') := by
  refine ⟨_, rfl, fun x y => ?_⟩
  cases l <;> cases l' <;> simp [labelKey, cmpLabel, lexCmp_cons, tokCmp_tn, tokCmp_ts]
  · rfl
  · rfl

theorem Dec.cons {o : Option Ordering} {s : Tok} {xs ys : List Tok} (h : Dec o xs ys) :
    Dec o (s :: xs) (s :: ys) := by
  obtain ⟨r, rfl, hr⟩ := h
  exact ⟨r, rfl, fun x y => by simp [lexCmp_cons, tokCmp_self, hr]⟩

theorem DV.key_head (a : DV) : ∃ t, a.key = tn a.domain.pos :: t := by
  cases a <;> simp [DV.key, DV.domain, ValueDomain.pos]

theorem pos_ge (d : ValueDomain) : 10 ≤ d.pos := by cases d <;> simp [ValueDomain.pos]

theorem Dec.two {r r' : Ordering} {s t s' t' : Tok} (h : tokCmp s t = r) (h' : tokCmp s' t' = r') :
    Dec (some (r.then r')) [s, s'] [t, t'] :=
  ⟨_, rfl, fun x y => by simp [lexCmp_cons, h, h', Ordering.then_assoc]⟩

theorem Dec.dom {a b : DV} {o : Option Ordering}
    (h : a.domain.pos = b.domain.pos → Dec o a.key b.key) :
    Dec (onSameDomain a b o) a.key b.key := by
  rw [onSameDomain]
  by_cases hd : a.domain.pos = b.domain.pos
  · rw [compare_eq_iff_eq.mpr hd]; exact h hd
  · obtain ⟨s, hs⟩ := a.key_head
    obtain ⟨t, ht⟩ := b.key_head
    have hne : compare a.domain.pos b.domain.pos ≠ .eq := fun h => hd (compare_eq_iff_eq.mp h)
    refine ⟨compare a.domain.pos b.domain.pos, ?_, ?_⟩
    · cases h : compare a.domain.pos b.domain.pos <;> simp_all
    · intro x y
      rw [hs, ht, List.cons_append, List.cons_append, lexCmp_cons, tokCmp_tn]
      have : compare (a.domain.pos : Int) b.domain.pos = compare a.domain.pos b.domain.pos := by
        rcases lt_trichotomy a.domain.pos b.domain.pos with h | h | h
        · rw [compare_lt_iff_lt.mpr h, compare_lt_iff_lt]; exact_mod_cast h
        · exact absurd h hd
        · rw [compare_gt_iff_gt.mpr h, compare_gt_iff_gt]; exact_mod_cast h
      rw [this]
      cases h : compare a.domain.pos b.domain.pos <;> simp_all

theorem compare_natCast (n m : Nat) : compare (n : Int) m = compare n m := by
  rcases lt_trichotomy n m with h | h | h
  · rw [compare_lt_iff_lt.mpr h, compare_lt_iff_lt]; exact_mod_cast h
  · subst h; simp
  · rw [compare_gt_iff_gt.mpr h, compare_gt_iff_gt]; exact_mod_cast h

/-- The number represented by an integer value. -/
def DV.intVal : DV → Option Int
  | .long i => some i.toInt
  | .ulong n => some n.toNat
  | _ => none

theorem DV.key_int {a : DV} {i : Int} (h : a.intVal = some i) :
    a.key = [tn a.domain.pos, tn i] := by
  cases a <;> simp [DV.intVal] at h <;> subst h <;> simp [DV.key, DV.domain]

theorem toI64_same {i : Int64} {b : DV} (h : (DV.long i).domain.pos = b.domain.pos) :
    b.toI64 = b.intVal ∧ b.intVal.isSome := by
  have h1 := i.toInt_lt
  cases b with
  | long j => simp [DV.toI64, DV.intVal]
  | ulong n =>
    simp only [DV.domain, longDomain, ulongDomain] at h
    simp only [DV.toI64, DV.intVal]
    split_ifs at h ⊢ <;> simp_all [ValueDomain.pos] <;> omega
  | _ => simp only [DV.domain, longDomain] at h; split_ifs at h <;> simp [ValueDomain.pos] at h

theorem toU64_same {n : UInt64} {b : DV} (h : (DV.ulong n).domain.pos = b.domain.pos) :
    b.toU64 = b.intVal ∧ b.intVal.isSome := by
  cases b with
  | ulong j => simp [DV.toU64, DV.intVal]
  | long i =>
    simp only [DV.domain, longDomain, ulongDomain] at h
    simp only [DV.toU64, DV.intVal]
    split_ifs at h ⊢ <;> simp_all [ValueDomain.pos]
  | _ => simp only [DV.domain, ulongDomain] at h; split_ifs at h <;> simp [ValueDomain.pos] at h

theorem long_pos (i : Int) : (longDomain i).pos = 100 ∨ (longDomain i).pos = 102 ∨
    (longDomain i).pos = 104 ∨ (longDomain i).pos = 106 ∨ (longDomain i).pos = 108 := by
  rw [longDomain]; split_ifs <;> simp [ValueDomain.pos]

theorem ulong_pos (n : Nat) : (ulongDomain n).pos = 104 ∨ (ulongDomain n).pos = 106 ∨
    (ulongDomain n).pos = 108 ∨ (ulongDomain n).pos = 110 := by
  rw [ulongDomain]; split_ifs <;> simp [ValueDomain.pos]

/-- The kind of a value: its constructor, where the two integer constructors count as one. -/
def DV.kind : DV → Nat
  | .str _ => 20
  | .lang _ _ => 22
  | .iri _ => 13
  | .float _ => 50
  | .double _ => 52
  | .ulong _ => 100
  | .long _ => 100
  | .bool _ => 30
  | .null _ => 10
  | .tuple _ _ => 26
  | .map _ _ => 28
  | .other _ _ => 24

theorem DV.kind_eq {a b : DV} (h : a.domain.pos = b.domain.pos) : a.kind = b.kind := by
  have key : ∀ a : DV, a.kind = min 100 a.domain.pos := by
    intro a
    cases a with
    | long i => have := long_pos i.toInt; simp only [DV.kind, DV.domain]; omega
    | ulong i => have := ulong_pos i.toNat; simp only [DV.kind, DV.domain]; omega
    | _ => simp [DV.kind, DV.domain, ValueDomain.pos]
  rw [key, key, h]

mutual
theorem DV.cmp_dec : ∀ a b : DV, Dec (a.cmp b) a.key b.key
  | .long i, b => by
    rw [DV.cmp]
    refine Dec.dom fun h => ?_
    obtain ⟨h1, h2⟩ := toI64_same h
    obtain ⟨j, hj⟩ := Option.isSome_iff_exists.mp h2
    rw [h1, hj, DV.key_int (a := .long i) rfl, DV.key_int hj, h]
    exact Dec.cons (Dec.one (tokCmp_tn _ _))
  | .ulong n, b => by
    rw [DV.cmp]
    refine Dec.dom fun h => ?_
    obtain ⟨h1, h2⟩ := toU64_same h
    obtain ⟨j, hj⟩ := Option.isSome_iff_exists.mp h2
    rw [h1, hj, DV.key_int (a := .ulong n) rfl, DV.key_int hj, h]
    exact Dec.cons (Dec.one (tokCmp_tn _ _))
  | .str s, b => by
    cases b
    case str t => rw [DV.cmp]; exact Dec.dom fun _ => Dec.cons (Dec.one (tokCmp_ts _ _))
    all_goals
      rw [DV.cmp]
      · exact Dec.dom fun h => absurd (DV.kind_eq h) (by simp [DV.kind])
      all_goals simp
  | .iri s, b => by
    cases b
    case iri t => rw [DV.cmp]; exact Dec.dom fun _ => Dec.cons (Dec.one (tokCmp_ts _ _))
    all_goals
      rw [DV.cmp]
      · exact Dec.dom fun h => absurd (DV.kind_eq h) (by simp [DV.kind])
      all_goals simp
  | .lang s t, b => by
    cases b
    case lang s' t' => rw [DV.cmp]; exact Dec.dom fun _ => Dec.cons (Dec.two (tokCmp_ts _ _) (tokCmp_ts _ _))
    all_goals
      rw [DV.cmp]
      · exact Dec.dom fun h => absurd (DV.kind_eq h) (by simp [DV.kind])
      all_goals simp
  | .other s t, b => by
    cases b
    case other s' t' => rw [DV.cmp]; exact Dec.dom fun _ => Dec.cons (Dec.two (tokCmp_ts _ _) (tokCmp_ts _ _))
    all_goals
      rw [DV.cmp]
      · exact Dec.dom fun h => absurd (DV.kind_eq h) (by simp [DV.kind])
      all_goals simp
  | .float s, b => by
    cases b
    case float t => rw [DV.cmp]; exact Dec.dom fun _ => Dec.cons (Dec.one (tokCmp_tn _ _))
    all_goals
      rw [DV.cmp]
      · exact Dec.dom fun h => absurd (DV.kind_eq h) (by simp [DV.kind])
      all_goals simp
  | .double s, b => by
    cases b
    case double t => rw [DV.cmp]; exact Dec.dom fun _ => Dec.cons (Dec.one (tokCmp_tn _ _))
    all_goals
      rw [DV.cmp]
      · exact Dec.dom fun h => absurd (DV.kind_eq h) (by simp [DV.kind])
      all_goals simp
  | .bool s, b => by
    cases b
    case bool t => rw [DV.cmp]; exact Dec.dom fun _ => Dec.cons (Dec.one (by rw [tokCmp_tn, compare_natCast]))
    all_goals
      rw [DV.cmp]
      · exact Dec.dom fun h => absurd (DV.kind_eq h) (by simp [DV.kind])
      all_goals simp
  | .null s, b => by
    cases b
    case null t => rw [DV.cmp]; exact Dec.dom fun _ => Dec.cons (Dec.one (by rw [tokCmp_tn, compare_natCast]))
    all_goals
      rw [DV.cmp]
      · exact Dec.dom fun h => absurd (DV.kind_eq h) (by simp [DV.kind])
      all_goals simp
  | .tuple l vs, b => by
    cases b
    case tuple l' vs' => rw [DV.cmp]; exact Dec.dom fun _ => Dec.cons ((Dec.label l l').thenCmp (DV.cmpList_dec vs vs'))
    all_goals
      rw [DV.cmp]
      · exact Dec.dom fun h => absurd (DV.kind_eq h) (by simp [DV.kind])
      all_goals simp
  | .map l vs, b => by
    cases b
    case map l' vs' => rw [DV.cmp]; exact Dec.dom fun _ => Dec.cons ((Dec.label l l').thenCmp (DV.cmpPairs_dec vs vs'))
    all_goals
      rw [DV.cmp]
      · exact Dec.dom fun h => absurd (DV.kind_eq h) (by simp [DV.kind])
      all_goals simp
theorem DV.cmpList_dec : ∀ as bs : List DV, Dec (DV.cmpList as bs) (DV.keyList as) (DV.keyList bs)
  | [], [] => by rw [DV.cmpList]; exact Dec.one (tokCmp_self _)
  | [], b :: bs => by
    obtain ⟨t, ht⟩ := b.key_head
    have := pos_ge b.domain
    refine ⟨.lt, by simp [DV.cmpList], fun x y => ?_⟩
    simp only [DV.keyList, ht, List.cons_append, List.nil_append, lexCmp_cons, tokCmp_tn]
    rw [compare_lt_iff_lt.mpr (by omega)]; rfl
  | a :: as, [] => by
    obtain ⟨t, ht⟩ := a.key_head
    have := pos_ge a.domain
    refine ⟨.gt, by simp [DV.cmpList], fun x y => ?_⟩
    simp only [DV.keyList, ht, List.cons_append, List.nil_append, lexCmp_cons, tokCmp_tn]
    rw [compare_gt_iff_gt.mpr (by omega)]; rfl
  | a :: as, b :: bs => by
    rw [DV.cmpList]; exact (DV.cmp_dec a b).thenCmp (DV.cmpList_dec as bs)
theorem DV.cmpPairs_dec : ∀ as bs : List (DV × DV), Dec (DV.cmpPairs as bs) (DV.keyPairs as) (DV.keyPairs bs)
  | [], [] => by rw [DV.cmpPairs]; exact Dec.one (tokCmp_self _)
  | [], (b, b') :: bs => by
    obtain ⟨t, ht⟩ := b.key_head
    have := pos_ge b.domain
    refine ⟨.lt, by simp [DV.cmpPairs], fun x y => ?_⟩
    simp only [DV.keyPairs, DV.keyPair, ht, List.cons_append, List.nil_append, lexCmp_cons, tokCmp_tn]
    rw [compare_lt_iff_lt.mpr (by omega)]; rfl
  | (a, a') :: as, [] => by
    obtain ⟨t, ht⟩ := a.key_head
    have := pos_ge a.domain
    refine ⟨.gt, by simp [DV.cmpPairs], fun x y => ?_⟩
    simp only [DV.keyPairs, DV.keyPair, ht, List.cons_append, List.nil_append, lexCmp_cons, tokCmp_tn]
    rw [compare_gt_iff_gt.mpr (by omega)]; rfl
  | a :: as, b :: bs => by
    rw [DV.cmpPairs]; exact (DV.cmpPair_dec a b).thenCmp (DV.cmpPairs_dec as bs)
theorem DV.cmpPair_dec : ∀ a b : DV × DV, Dec (DV.cmpPair a b) (DV.keyPair a) (DV.keyPair b)
  | (a, b), (a', b') => by
    rw [DV.cmpPair]; exact (DV.cmp_dec a a').thenCmp (DV.cmp_dec b b')
end

theorem onSameDomain_eq {a b : DV} {o : Option Ordering} :
    onSameDomain a b o = some .eq ↔ a.domain.pos = b.domain.pos ∧ o = some .eq := by
  rw [onSameDomain]
  by_cases hd : a.domain.pos = b.domain.pos
  · rw [compare_eq_iff_eq.mpr hd]; simp [hd]
  · have hne : compare a.domain.pos b.domain.pos ≠ .eq := fun h => hd (compare_eq_iff_eq.mp h)
    cases h : compare a.domain.pos b.domain.pos <;> simp_all

theorem thenCmp_eq {o : Option Ordering} {p : Unit → Option Ordering} :
    thenCmp o p = some .eq ↔ o = some .eq ∧ p () = some .eq := by
  rcases o with _ | ⟨_ | _ | _⟩ <;> simp [thenCmp]

theorem cmpLabel_eq {l l' : Option String} : cmpLabel l l' = .eq ↔ l = l' := by
  cases l <;> cases l' <;> simp [cmpLabel]

theorem compare_toNat_bool (b c : Bool) : compare b.toNat c.toNat = .eq ↔ b = c := by
  cases b <;> cases c <;> decide

mutual
theorem DV.eq_cmp : ∀ a b : DV, a.eq b = true ↔ a.cmp b = some .eq
  | .str s, b => by
    cases b
    case str t =>
      rw [DV.cmp, onSameDomain_eq, DV.eq]
      simp [DV.domain, Ordering.then_eq_eq]
    all_goals
      rw [DV.cmp]
      · rw [onSameDomain_eq]; simp [DV.eq]
      all_goals simp
  | .iri s, b => by
    cases b
    case iri t =>
      rw [DV.cmp, onSameDomain_eq, DV.eq]
      simp [DV.domain, Ordering.then_eq_eq]
    all_goals
      rw [DV.cmp]
      · rw [onSameDomain_eq]; simp [DV.eq]
      all_goals simp
  | .lang s t, b => by
    cases b
    case lang s' t' =>
      rw [DV.cmp, onSameDomain_eq, DV.eq]
      simp [DV.domain, Ordering.then_eq_eq]
    all_goals
      rw [DV.cmp]
      · rw [onSameDomain_eq]; simp [DV.eq]
      all_goals simp
  | .other s t, b => by
    cases b
    case other s' t' =>
      rw [DV.cmp, onSameDomain_eq, DV.eq]
      simp [DV.domain, Ordering.then_eq_eq]
    all_goals
      rw [DV.cmp]
      · rw [onSameDomain_eq]; simp [DV.eq]
      all_goals simp
  | .float s, b => by
    cases b
    case float t =>
      rw [DV.cmp, onSameDomain_eq, DV.eq]
      simp [DV.domain, Ordering.then_eq_eq]
    all_goals
      rw [DV.cmp]
      · rw [onSameDomain_eq]; simp [DV.eq]
      all_goals simp
  | .double s, b => by
    cases b
    case double t =>
      rw [DV.cmp, onSameDomain_eq, DV.eq]
      simp [DV.domain, Ordering.then_eq_eq]
    all_goals
      rw [DV.cmp]
      · rw [onSameDomain_eq]; simp [DV.eq]
      all_goals simp
  | .bool s, b => by
    cases b
    case bool t =>
      rw [DV.cmp, onSameDomain_eq, DV.eq, Option.some.injEq, compare_toNat_bool]
      simp [DV.domain]
    all_goals
      rw [DV.cmp]
      · rw [onSameDomain_eq]; simp [DV.eq]
      all_goals simp
  | .null s, b => by
    cases b
    case null t =>
      rw [DV.cmp, onSameDomain_eq, DV.eq]
      simp [DV.domain, Ordering.then_eq_eq]
    all_goals
      rw [DV.cmp]
      · rw [onSameDomain_eq]; simp [DV.eq]
      all_goals simp
  | .tuple l vs, b => by
    cases b
    case tuple l' vs' =>
      have ih := DV.eqList_cmp vs vs'
      rw [DV.cmp, onSameDomain_eq, DV.eq, thenCmp_eq]
      simp [DV.domain, cmpLabel_eq, ih]
    all_goals
      rw [DV.cmp]
      · rw [onSameDomain_eq]; simp [DV.eq]
      all_goals simp
  | .map l vs, b => by
    cases b
    case map l' vs' =>
      have ih := DV.eqPairs_cmp vs vs'
      rw [DV.cmp, onSameDomain_eq, DV.eq, thenCmp_eq]
      simp [DV.domain, cmpLabel_eq, ih]
    all_goals
      rw [DV.cmp]
      · rw [onSameDomain_eq]; simp [DV.eq]
      all_goals simp
  | .long i, b => by
    rw [DV.cmp, onSameDomain_eq]
    cases b
    case long j => simp [DV.eq, DV.toI64, DV.domain]; intro h; rw [h]
    case ulong n =>
      simp only [DV.eq, DV.toI64, DV.domain, longDomain, ulongDomain]
      by_cases h : n.toNat ≤ 0xFFFFFFFFFFFFFFFF / 2
      · simp only [if_pos h, Option.map_some, Option.some.injEq, compare_eq_iff_eq, beq_iff_eq]
        constructor
        · rintro h'
          rw [← h']
          refine ⟨?_, rfl⟩
          split_ifs <;> simp_all [ValueDomain.pos] <;> omega
        · rintro ⟨_, h'⟩; rw [h']
      · simp [if_neg h]
    all_goals simp [DV.eq, DV.toI64]
  | .ulong n, b => by
    rw [DV.cmp, onSameDomain_eq]
    cases b
    case ulong j => simp [DV.eq, DV.toU64, DV.domain]; intro h; rw [h]
    case long i =>
      simp only [DV.eq, DV.toU64, DV.domain, longDomain, ulongDomain]
      have := i.toInt_lt
      by_cases h : 0 ≤ i.toInt
      · simp only [if_pos h, Option.map_some, Option.some.injEq, compare_eq_iff_eq, beq_iff_eq]
        constructor
        · rintro h'
          rw [h']
          refine ⟨?_, rfl⟩
          split_ifs <;> simp_all [ValueDomain.pos] <;> omega
        · rintro ⟨_, h'⟩; rw [h']
      · simp [if_neg h]
    all_goals simp [DV.eq, DV.toU64]
theorem DV.eqList_cmp : ∀ as bs : List DV, DV.eqList as bs = true ↔ DV.cmpList as bs = some .eq
  | [], [] => by simp [DV.eqList, DV.cmpList]
  | [], b :: bs => by simp [DV.eqList, DV.cmpList]
  | a :: as, [] => by simp [DV.eqList, DV.cmpList]
  | a :: as, b :: bs => by
    have h1 := DV.eq_cmp a b
    have h2 := DV.eqList_cmp as bs
    rw [DV.eqList, DV.cmpList, thenCmp_eq, ← h1, ← h2, Bool.and_eq_true]
theorem DV.eqPairs_cmp : ∀ as bs : List (DV × DV),
    DV.eqPairs as bs = true ↔ DV.cmpPairs as bs = some .eq
  | [], [] => by simp [DV.eqPairs, DV.cmpPairs]
  | [], b :: bs => by simp [DV.eqPairs, DV.cmpPairs]
  | a :: as, [] => by simp [DV.eqPairs, DV.cmpPairs]
  | a :: as, b :: bs => by
    have h1 := DV.eqPair_cmp a b
    have h2 := DV.eqPairs_cmp as bs
    rw [DV.eqPairs, DV.cmpPairs, thenCmp_eq, ← h1, ← h2, Bool.and_eq_true]
theorem DV.eqPair_cmp : ∀ a b : DV × DV, DV.eqPair a b = true ↔ DV.cmpPair a b = some .eq
  | (a, b), (a', b') => by
    have h1 := DV.eq_cmp a a'
    have h2 := DV.eq_cmp b b'
    rw [DV.eqPair, DV.cmpPair, thenCmp_eq, ← h1, ← h2, Bool.and_eq_true]
end

/-! ### The order on data values (C35) -/

/-- Comparing two values never panics. -/
theorem DV.cmp_total (a b : DV) : ∃ o, a.cmp b = some o := by
  obtain ⟨o, h, _⟩ := DV.cmp_dec a b
  exact ⟨o, h⟩

theorem DV.cmp_key (a b : DV) : a.cmp b = some (lexCmp a.key b.key) := by
  obtain ⟨o, h, hk⟩ := DV.cmp_dec a b
  have := hk [] []
  simp only [List.append_nil, lexCmp_refl, Ordering.then_eq] at this
  rw [h, this]

/-- Swapping the arguments reverses the outcome. -/
theorem DV.cmp_swap {a b : DV} {o : Ordering} (h : a.cmp b = some o) : b.cmp a = some o.swap := by
  rw [DV.cmp_key] at h ⊢
  rw [Option.some.injEq] at h ⊢
  rw [← h]
  exact Std.OrientedCmp.eq_swap

/-- `a ≤ b`: the comparison yields `Less` or `Equal`. -/
def DV.le (a b : DV) : Prop := a.cmp b = some .lt ∨ a.cmp b = some .eq

theorem DV.le_key {a b : DV} : a.le b ↔ (lexCmp a.key b.key).isLE := by
  rw [DV.le, DV.cmp_key]
  cases lexCmp a.key b.key <;> simp

/-- The order is total. -/
theorem DV.le_total (a b : DV) : a.le b ∨ b.le a := by
  obtain ⟨o, h⟩ := DV.cmp_total a b
  have h' := DV.cmp_swap h
  cases o
  · exact .inl (.inl h)
  · exact .inl (.inr h)
  · exact .inr (.inl h')

/-- The order is transitive. -/
theorem DV.le_trans {a b c : DV} (h : a.le b) (h' : b.le c) : a.le c := by
  rw [DV.le_key] at h h' ⊢
  exact Std.TransCmp.isLE_trans h h'

/-- Two values are equal (`==`) exactly if the comparison yields `Equal`. -/
theorem DV.eq_iff_cmp (a b : DV) : a.eq b = true ↔ a.cmp b = some .eq := DV.eq_cmp a b

/-- The order is antisymmetric with respect to `==`. -/
theorem DV.le_antisymm {a b : DV} (h : a.le b) (h' : b.le a) : a.eq b = true := by
  rw [DV.eq_iff_cmp]
  rcases h with h | h
  · have := DV.cmp_swap h
    rcases h' with h' | h' <;> rw [this] at h' <;> cases h'
  · exact h

/-- `==` is an equivalence relation. -/
theorem DV.eq_equivalence : Equivalence (fun a b : DV => a.eq b = true) where
  refl a := by rw [DV.eq_iff_cmp, DV.cmp_key, lexCmp_refl]
  symm {a b} h := by
    rw [DV.eq_iff_cmp] at h ⊢
    exact DV.cmp_swap h
  trans {a b c} h h' := by
    rw [DV.eq_iff_cmp, DV.cmp_key, Option.some.injEq, lexCmp_eq] at h h' ⊢
    rw [h, h']

/-- Equal values compare alike with every other value. -/
theorem DV.cmp_congr {a b : DV} (h : a.eq b = true) (c : DV) : a.cmp c = b.cmp c := by
  rw [DV.eq_iff_cmp, DV.cmp_key, Option.some.injEq, lexCmp_eq] at h
  rw [DV.cmp_key, DV.cmp_key, h]

theorem longDomain_mono {i j : Int} (h : i < j) : (longDomain i).pos ≤ (longDomain j).pos := by
  simp only [longDomain]
  split_ifs <;> simp [ValueDomain.pos] <;> omega

/-- The domain of a number depends on the number only, and larger numbers are in later domains. -/
theorem DV.int_domain {a : DV} {i : Int} (h : a.intVal = some i) :
    a.domain = if i ≤ 0xFFFFFFFFFFFFFFFF / 2 then longDomain i else .unsignedLong := by
  cases a with
  | long j =>
    have := j.toInt_lt
    simp only [DV.intVal, Option.some.injEq] at h
    subst h
    simp only [DV.domain]; rw [if_pos (by omega)]
  | ulong n =>
    simp only [DV.intVal, Option.some.injEq] at h
    subst h
    simp only [DV.domain, ulongDomain, longDomain]
    split_ifs <;> first | rfl | omega
  | _ => simp [DV.intVal] at h

/-- Integers are compared by their numeric value, whichever of the two integer representations
they use. -/
theorem DV.cmp_int {a b : DV} {i j : Int} (ha : a.intVal = some i) (hb : b.intVal = some j) :
    a.cmp b = some (compare i j) := by
  rw [DV.cmp_key, DV.key_int ha, DV.key_int hb, Option.some.injEq]
  simp only [lexCmp_cons, tokCmp_tn, lexCmp_refl, Ordering.then_eq, compare_natCast]
  have hda := DV.int_domain ha
  have hdb := DV.int_domain hb
  have key : ∀ i j : Int, i < j →
      (if i ≤ 0xFFFFFFFFFFFFFFFF / 2 then longDomain i else .unsignedLong).pos ≤
      (if j ≤ 0xFFFFFFFFFFFFFFFF / 2 then longDomain j else .unsignedLong).pos := by
    intro i j h
    split_ifs with h1 h2 h2
    · exact longDomain_mono h
    · have := long_pos i; have h' : ValueDomain.unsignedLong.pos = 110 := rfl; omega
    · omega
    · exact le_refl _
  rcases lt_trichotomy i j with h | h | h
  · rw [compare_lt_iff_lt.mpr h]
    have := key i j h
    rw [← hda, ← hdb] at this
    rcases Nat.lt_or_eq_of_le this with h' | h'
    · rw [compare_lt_iff_lt.mpr h']; rfl
    · rw [h', compare_eq_iff_eq.mpr rfl]; rfl
  · subst h; rw [hda, hdb]; simp
  · rw [compare_gt_iff_gt.mpr h]
    have := key j i h
    rw [← hda, ← hdb] at this
    rcases Nat.lt_or_eq_of_le this with h' | h'
    · rw [compare_gt_iff_gt.mpr h']; rfl
    · rw [h', compare_eq_iff_eq.mpr rfl]; rfl

/-- Values of different kinds are never equal, and their order does not depend on their contents. -/
theorem DV.cmp_domain {a b : DV} (h : a.domain.pos < b.domain.pos) : a.cmp b = some .lt := by
  obtain ⟨s, hs⟩ := a.key_head
  obtain ⟨t, ht⟩ := b.key_head
  rw [DV.cmp_key, hs, ht, lexCmp_cons, tokCmp_tn, compare_natCast, compare_lt_iff_lt.mpr h]
  rfl

/-! #### Floating point numbers -/

theorem FinFloat.mant_lt {e w} (f : FinFloat e w) : f.mant < 2 ^ w := Nat.mod_lt _ (by positivity)

theorem FinFloat.toNat_eq {e w} (f : FinFloat e w) :
    f.bits.toNat = f.neg.toNat * 2 ^ (e + w) + f.expo * 2 ^ w + f.mant := by
  have hlt : f.bits.toNat < 2 ^ (1 + e + w) := f.bits.isLt
  simp only [FinFloat.neg, FinFloat.expo, FinFloat.mant, Nat.shiftRight_eq_div_pow]
  generalize f.bits.toNat = n at *
  have h1 : n.testBit (e + w) = decide (n / 2 ^ (e + w) = 1) := by
    rw [Nat.testBit_eq_decide_div_mod_eq]
    have : n / 2 ^ (e + w) < 2 := by
      rw [Nat.div_lt_iff_lt_mul (by positivity)]
      calc n < 2 ^ (1 + e + w) := hlt
        _ = 2 * 2 ^ (e + w) := by rw [add_assoc, pow_add, pow_one]
    rw [Nat.mod_eq_of_lt this]
  have h2 : (n.testBit (e + w)).toNat = n / 2 ^ (e + w) := by
    have : n / 2 ^ (e + w) < 2 := by
      rw [Nat.div_lt_iff_lt_mul (by positivity)]
      calc n < 2 ^ (1 + e + w) := hlt
        _ = 2 * 2 ^ (e + w) := by rw [add_assoc, pow_add, pow_one]
    rw [h1]
    have h' : n / 2 ^ (e + w) = 0 ∨ n / 2 ^ (e + w) = 1 :=
      Nat.le_one_iff_eq_zero_or_eq_one.mp (Nat.lt_succ_iff.mp this)
    rcases h' with h' | h' <;> simp [h']
  rw [h2]
  have h3 : n / 2 ^ (e + w) = (n / 2 ^ w) / 2 ^ e := by
    rw [Nat.div_div_eq_div_mul, ← pow_add, add_comm w e]
  rw [h3]
  have e1 := Nat.div_add_mod n (2 ^ w)
  have e2 := Nat.div_add_mod (n / 2 ^ w) (2 ^ e)
  calc n = 2 ^ w * (n / 2 ^ w) + n % 2 ^ w := e1.symm
    _ = 2 ^ w * (2 ^ e * (n / 2 ^ w / 2 ^ e) + n / 2 ^ w % 2 ^ e) + n % 2 ^ w := by rw [e2]
    _ = _ := by ring

/-- The magnitude. -/
def FinFloat.mag {e w} (f : FinFloat e w) : Nat :=
  if f.expo = 0 then f.mant * 2 else (2 ^ w + f.mant) * 2 ^ f.expo

theorem FinFloat.scaled_eq {e w} (f : FinFloat e w) :
    f.scaled = if f.neg then -(f.mag : Int) else f.mag := by
  simp only [FinFloat.scaled, FinFloat.mag]
  split_ifs <;> push_cast <;> ring

theorem FinFloat.mag_inj {e w} {f g : FinFloat e w} (h : f.mag = g.mag) :
    f.expo = g.expo ∧ f.mant = g.mant := by
  have hf := f.mant_lt
  have hg := g.mant_lt
  have lo : ∀ f : FinFloat e w, f.expo ≠ 0 → 2 ^ (w + f.expo) ≤ f.mag ∧ f.mag < 2 ^ (w + f.expo + 1) := by
    intro f h
    have := f.mant_lt
    simp only [FinFloat.mag, if_neg h]
    have hp : 0 < 2 ^ f.expo := by positivity
    constructor
    · rw [pow_add]; exact Nat.mul_le_mul_right _ (by omega)
    · rw [pow_succ, pow_add]
      calc (2 ^ w + f.mant) * 2 ^ f.expo < (2 ^ w + 2 ^ w) * 2 ^ f.expo := by
            exact (Nat.mul_lt_mul_right hp).mpr (by omega)
        _ = 2 ^ w * 2 ^ f.expo * 2 := by ring
  have hi : ∀ f : FinFloat e w, f.expo = 0 → f.mag < 2 ^ (w + 1) := by
    intro f h
    have := f.mant_lt
    simp only [FinFloat.mag, if_pos h, pow_succ]
    omega
  by_cases h1 : f.expo = 0 <;> by_cases h2 : g.expo = 0
  · refine ⟨by omega, ?_⟩
    simp only [FinFloat.mag, if_pos h1, if_pos h2] at h
    omega
  · have a := hi f h1
    have b := (lo g h2).1
    have : 2 ^ (w + 1) ≤ 2 ^ (w + g.expo) := Nat.pow_le_pow_right (by norm_num) (by omega)
    omega
  · have a := hi g h2
    have b := (lo f h1).1
    have : 2 ^ (w + 1) ≤ 2 ^ (w + f.expo) := Nat.pow_le_pow_right (by norm_num) (by omega)
    omega
  · have a := lo f h1
    have b := lo g h2
    have he : f.expo = g.expo := by
      by_contra hne
      rcases Nat.lt_or_gt_of_ne hne with hlt | hlt
      · have : 2 ^ (w + f.expo + 1) ≤ 2 ^ (w + g.expo) :=
          Nat.pow_le_pow_right (by norm_num) (by omega)
        omega
      · have : 2 ^ (w + g.expo + 1) ≤ 2 ^ (w + f.expo) :=
          Nat.pow_le_pow_right (by norm_num) (by omega)
        omega
    refine ⟨he, ?_⟩
    simp only [FinFloat.mag, if_neg h1, if_neg h2, he] at h
    have := Nat.eq_of_mul_eq_mul_right (by positivity) h
    omega

/-- Two finite floats are numerically equal only if they are the same bit pattern, or if both are
zero (with possibly different signs). -/
theorem FinFloat.scaled_inj {e w} {f g : FinFloat e w} (h : f.scaled = g.scaled)
    (h0 : f.scaled ≠ 0) : f = g := by
  rw [FinFloat.scaled_eq] at h0
  rw [FinFloat.scaled_eq, FinFloat.scaled_eq] at h
  have hs : f.neg = g.neg := by
    cases hf : f.neg <;> cases hg : g.neg <;> simp [hf, hg] at h h0 ⊢ <;> omega
  have hm : f.mag = g.mag := by
    rw [hs] at h
    cases hg : g.neg <;> simp [hg] at h <;> omega
  obtain ⟨h1, h2⟩ := FinFloat.mag_inj hm
  have : f.bits = g.bits := by
    apply BitVec.eq_of_toNat_eq
    rw [f.toNat_eq, g.toNat_eq, hs, h1, h2]
  cases f; cases g; simp_all

/-! #### Hashing -/

/-- What a value writes to the hasher. -/
inductive HTok where
  | domain (d : ValueDomain)
  | bytes (s : String)
  | word (n : Int)
  | len (n : Nat)
deriving DecidableEq

mutual
/-- The implementations of `Hash` (any_datavalue.rs:628-652, delegating to e.g.
integer_datavalues.rs:97-102, 189-194, float_datavalues.rs:67-72, tuple_datavalue.rs:88-93,
map_datavalue.rs:105-110): the domain and then the contents. `u64` and `i64` write the same eight
bytes for the same non-negative number; floats write their bits; slices and maps write their
length first; the label of tuples and maps is not hashed. -/
def DV.hash : DV → List HTok
  | .str s => [.domain .plainString, .bytes s]
  | .iri s => [.domain .iri, .bytes s]
  | .lang s t => [.domain .languageTaggedString, .bytes s, .bytes t]
  | .float f => [.domain .float, .word f.bits.toNat]
  | .double f => [.domain .double, .word f.bits.toNat]
  | .long i => [.domain (longDomain i.toInt), .word i.toInt]
  | .ulong n => [.domain (ulongDomain n.toNat), .word n.toNat]
  | .bool b => [.domain .boolean, .word b.toNat]
  | .null n => [.domain .null, .word n]
  | .tuple _ vs => [.domain .tuple, .len vs.length] ++ DV.hashList vs
  | .map _ ps => [.domain .map, .len ps.length] ++ DV.hashPairs ps
  | .other a b => [.domain .other, .bytes a, .bytes b]
/-- Hashes of the elements. -/
def DV.hashList : List DV → List HTok
  | [] => []
  | v :: vs => DV.hash v ++ DV.hashList vs
/-- Hashes of the pairs. -/
def DV.hashPairs : List (DV × DV) → List HTok
  | [] => []
  | p :: ps => DV.hashPair p ++ DV.hashPairs ps
/-- Hash of a pair. -/
def DV.hashPair : DV × DV → List HTok
  | (k, v) => DV.hash k ++ DV.hash v
end

mutual
/-- No floating point zero occurs in the value. -/
def DV.NoZero : DV → Prop
  | .float f => f.scaled ≠ 0
  | .double f => f.scaled ≠ 0
  | .tuple _ vs => DV.NoZeroList vs
  | .map _ ps => DV.NoZeroPairs ps
  | _ => True
/-- No floating point zero occurs in the list. -/
def DV.NoZeroList : List DV → Prop
  | [] => True
  | v :: vs => DV.NoZero v ∧ DV.NoZeroList vs
/-- No floating point zero occurs in the pairs. -/
def DV.NoZeroPairs : List (DV × DV) → Prop
  | [] => True
  | p :: ps => DV.NoZeroPair p ∧ DV.NoZeroPairs ps
/-- No floating point zero occurs in the pair. -/
def DV.NoZeroPair : DV × DV → Prop
  | (k, v) => DV.NoZero k ∧ DV.NoZero v
end

theorem DV.hash_int {a : DV} {i : Int} (h : a.intVal = some i) :
    a.hash = [.domain a.domain, .word i] := by
  cases a <;> simp [DV.intVal] at h <;> subst h <;> simp [DV.hash, DV.domain]

theorem DV.eq_int {a b : DV} (h : a.eq b = true) : a.intVal = b.intVal := by
  rw [DV.eq_iff_cmp] at h
  have hd : a.kind = b.kind := by
    by_contra hne
    rw [DV.cmp_key, Option.some.injEq, lexCmp_eq] at h
    obtain ⟨s, hs⟩ := a.key_head
    obtain ⟨t, ht⟩ := b.key_head
    rw [hs, ht, List.cons.injEq] at h
    have := h.1
    simp only [tn, Prod.mk.injEq, and_true] at this
    exact hne (DV.kind_eq (by exact_mod_cast this))
  cases ha : a.intVal with
  | none => cases b <;> cases a <;> simp_all [DV.kind, DV.intVal]
  | some i =>
    cases hb : b.intVal with
    | none => cases b <;> cases a <;> simp_all [DV.kind, DV.intVal]
    | some j =>
      rw [DV.cmp_int ha hb, Option.some.injEq, compare_eq_iff_eq] at h
      rw [h]

theorem DV.hash_congr_int {a b : DV} {i : Int} (ha : a.intVal = some i) (h : a.eq b = true) :
    a.hash = b.hash := by
  have hb := (DV.eq_int h).symm.trans ha
  rw [DV.hash_int ha, DV.hash_int hb, DV.int_domain ha, DV.int_domain hb]

mutual
theorem DV.hash_congr : ∀ {a b : DV}, a.NoZero → a.eq b = true → a.hash = b.hash
  | .long i, b, _, h => DV.hash_congr_int (a := .long i) rfl h
  | .ulong i, b, _, h => DV.hash_congr_int (a := .ulong i) rfl h
  | .str s, b, _, h => by cases b <;> simp_all [DV.eq, DV.hash]
  | .iri s, b, _, h => by cases b <;> simp_all [DV.eq, DV.hash]
  | .lang s t, b, _, h => by cases b <;> simp_all [DV.eq, DV.hash]
  | .other s t, b, _, h => by cases b <;> simp_all [DV.eq, DV.hash]
  | .bool s, b, _, h => by cases b <;> simp_all [DV.eq, DV.hash]
  | .null s, b, _, h => by cases b <;> simp_all [DV.eq, DV.hash]
  | .float f, b, h0, h => by
    cases b
    case float g =>
      simp only [DV.NoZero] at h0
      simp only [DV.eq, beq_iff_eq] at h
      rw [FinFloat.scaled_inj h h0]
    all_goals simp [DV.eq] at h
  | .double f, b, h0, h => by
    cases b
    case double g =>
      simp only [DV.NoZero] at h0
      simp only [DV.eq, beq_iff_eq] at h
      rw [FinFloat.scaled_inj h h0]
    all_goals simp [DV.eq] at h
  | .tuple l vs, b, h0, h => by
    cases b
    case tuple l' vs' =>
      simp only [DV.NoZero] at h0
      simp only [DV.eq, Bool.and_eq_true] at h
      obtain ⟨h1, h2⟩ := DV.hashList_congr h0 h.2
      simp only [DV.hash, h1, h2]
    all_goals simp [DV.eq] at h
  | .map l vs, b, h0, h => by
    cases b
    case map l' vs' =>
      simp only [DV.NoZero] at h0
      simp only [DV.eq, Bool.and_eq_true] at h
      obtain ⟨h1, h2⟩ := DV.hashPairs_congr h0 h.2
      simp only [DV.hash, h1, h2]
    all_goals simp [DV.eq] at h
theorem DV.hashList_congr : ∀ {as bs : List DV}, DV.NoZeroList as → DV.eqList as bs = true →
    as.length = bs.length ∧ DV.hashList as = DV.hashList bs
  | [], [], _, _ => by simp
  | [], _ :: _, _, h => by simp [DV.eqList] at h
  | _ :: _, [], _, h => by simp [DV.eqList] at h
  | a :: as, b :: bs, h0, h => by
    simp only [DV.NoZeroList] at h0
    simp only [DV.eqList, Bool.and_eq_true] at h
    have h1 := DV.hash_congr h0.1 h.1
    have h2 := DV.hashList_congr h0.2 h.2
    simp [DV.hashList, h1, h2.1, h2.2]
theorem DV.hashPairs_congr : ∀ {as bs : List (DV × DV)}, DV.NoZeroPairs as →
    DV.eqPairs as bs = true → as.length = bs.length ∧ DV.hashPairs as = DV.hashPairs bs
  | [], [], _, _ => by simp
  | [], _ :: _, _, h => by simp [DV.eqPairs] at h
  | _ :: _, [], _, h => by simp [DV.eqPairs] at h
  | a :: as, b :: bs, h0, h => by
    simp only [DV.NoZeroPairs] at h0
    simp only [DV.eqPairs, Bool.and_eq_true] at h
    have h1 := DV.hashPair_congr h0.1 h.1
    have h2 := DV.hashPairs_congr h0.2 h.2
    simp [DV.hashPairs, h1, h2.1, h2.2]
theorem DV.hashPair_congr : ∀ {a b : DV × DV}, DV.NoZeroPair a → DV.eqPair a b = true →
    DV.hashPair a = DV.hashPair b
  | (a, b), (a', b'), h0, h => by
    simp only [DV.NoZeroPair] at h0
    simp only [DV.eqPair, Bool.and_eq_true] at h
    have h1 := DV.hash_congr h0.1 h.1
    have h2 := DV.hash_congr h0.2 h.2
    simp [DV.hashPair, h1, h2]
end

/-- Equal values have equal hashes, provided that they contain no floating point zero. What is
missing for the full statement is false: see `DV.hash_zero_wrong`. -/
theorem DV.hash_congr_partial {a b : DV} (h0 : a.NoZero) (h : a.eq b = true) : a.hash = b.hash :=
  DV.hash_congr h0 h

/-- `0.0`. -/
def posZero : F64 := ⟨0, by decide⟩
/-- `-0.0`. -/
def negZero : F64 := ⟨0x8000000000000000#64, by decide⟩

/-- The two floating point zeros are equal but have different hashes, so a hash set may contain
both of them. -/
theorem DV.hash_zero_wrong :
    (DV.double posZero).eq (.double negZero) = true ∧
    (DV.double posZero).hash ≠ (DV.double negZero).hash := by
  constructor
  · simp only [DV.eq]; decide
  · simp only [DV.hash]; decide

/-! Concrete cases. -/

example : (DV.long 5).cmp (.ulong 18446744073709551615) = some .lt :=
  DV.cmp_int (i := 5) (j := 18446744073709551615) (by rfl) (by rfl)

example : (DV.long 7).eq (.ulong 7) = true ∧ (DV.long 7).hash = (DV.ulong 7).hash := by
  constructor
  · rw [DV.eq_iff_cmp]; exact DV.cmp_int (i := 7) (j := 7) rfl rfl
  · exact DV.hash_congr_partial trivial (by
      rw [DV.eq_iff_cmp]; exact DV.cmp_int (i := 7) (j := 7) rfl rfl)

example : (DV.tuple none [.str "a", .long 1]).le (.tuple (some "f") []) := by
  left; simp [DV.cmp, onSameDomain, DV.domain, thenCmp, cmpLabel]

end Verif
