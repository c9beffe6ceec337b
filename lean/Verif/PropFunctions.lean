import Verif.DataExamples

/-!
# C55: what the names of functions mean

For every name of a function in the language, its value for stored data values is stated without reference to the tables of functions.
-/
set_option linter.unusedSimpArgs false
set_option linter.unusedVariables false
set_option maxRecDepth 100000

namespace Verif.Data
open Verif.Fn

variable {α : Type} [SVal α] {dict : DV → Nat} {val : α → DV} {sto : DV → α}

/-- The value of the function with a name in an executed program. -/
def call (L : Lib) (h : StoresValues dict val sto) (name : String) (vs : List DV) : Option α :=
  (dataDom L h).app (Tr.opCode name.toList) (vs.map sto)

/-- The value is exactly the integer if 64 bits suffice for it, and undefined otherwise. -/
def ExactCall (sto : DV → α) (r : Option α) (x : Int) : Prop :=
  (I64.Fits x → r = some (sto (.long (Int64.ofInt x)))) ∧ (¬ I64.Fits x → r = none)

section
variable {L : Lib} (hL : LibOK L) (h : StoresValues dict val sto)
include hL

theorem call_un {n : String} {f : UFn} (hf : opFn (Tr.opCode n.toList) = some (.un f)) {v : DV} (h0 : v.NoZero) :
    call L h n [v] = (got (unEval L f v)).map sto := by
  rw [call, app_sto hL h hf (vs := [v]) rfl (by simpa using h0)]
  rfl

theorem call_bin {n : String} {f : BFn} (hf : opFn (Tr.opCode n.toList) = some (.bin f)) {v w : DV} (h0 : v.NoZero) (h1 : w.NoZero) :
    call L h n [v, w] = (got (binEval L f v w)).map sto := by
  rw [call, app_sto hL h hf (vs := [v, w]) rfl (by simp [h0, h1])]
  rfl

theorem call_nary {n : String} {f : NFn} (hf : opFn (Tr.opCode n.toList) = some (.nary f)) {v w : DV} {vs : List DV}
    (h0 : ∀ u ∈ v :: w :: vs, u.NoZero) :
    call L h n (v :: w :: vs) = (got (naryEval L f (v :: w :: vs))).map sto := by
  rw [call, app_sto hL h hf (vs := v :: w :: vs) (.inl (by simp)) h0]
  have hs : ∀ (vs : List DV), FTree.semList (Fn.sem L) (fun e => e.elim) (vs.map fun v => (.const v : Tree Empty)) = .val vs := fun vs =>
    semList_const _ _ vs
  have : opTree (.nary f) ((v :: w :: vs).map fun v => (.const v : Tree Empty)) =
      some (.nary f ((v :: w :: vs).map fun v => (.const v : Tree Empty))) := by cases f <;> rfl
  rw [applyFn, this, Option.bind_some]
  congr 1
  rw [FTree.sem, hs]
  rfl

end

theorem exact_call {r : Res Int64} {x : Int} (hx : I64.ExactOrUndefined r x) :
    ExactCall sto ((got (r >>= fun z => Res.val (DV.long z))).map sto) x := by
  refine ⟨fun hf => ?_, fun hf => ?_⟩
  · obtain ⟨z, rfl, rfl⟩ := hx.1 hf
    rw [Int64.ofInt_toInt]
    rfl
  · rw [hx.2 hf]
    rfl

theorem sum_two (i j : Int64) : I64.ExactOrUndefined (I64.sum [i, j]) (i.toInt + j.toInt) := by
  have h0 : (0 : Int64).toInt = 0 := by decide
  have h1 := (I64.checkedAdd_spec 0 i).1 (by rw [h0, Int.zero_add]; exact I64.fits_toInt i)
  rw [h0, Int.zero_add] at h1
  have h2 : I64.sum [i, j] = I64.add i j := by
    have : (0 : Int64) + i = i := Int64.toInt_inj.1 h1.2
    rw [this] at h1
    simp only [I64.sum, I64.sumLoop, h1.1, I64.add]
    cases I64.checkedAdd i j <;> rfl
  rw [h2]
  exact I64.add_exact i j

theorem prod_two (i j : Int64) : I64.ExactOrUndefined (I64.prod [i, j]) (i.toInt * j.toInt) := by
  have h0 : (1 : Int64).toInt = 1 := by decide
  have h1 := (I64.checkedMul_spec 1 i).1 (by rw [h0, Int.one_mul]; exact I64.fits_toInt i)
  rw [h0, Int.one_mul] at h1
  have h2 : I64.prod [i, j] = I64.mul i j := by
    have : (1 : Int64) * i = i := Int64.toInt_inj.1 h1.2
    rw [this] at h1
    simp only [I64.prod, I64.prodLoop, h1.1, I64.mul]
    cases I64.checkedMul i j <;> rfl
  rw [h2]
  exact I64.mul_exact i j

/-- **Integer arithmetic by name.**  Results are exact or undefined; division rounds towards zero. -/
theorem integer_functions {L : Lib} (hL : LibOK L) (h : StoresValues dict val sto) (i j : Int64) :
    ExactCall sto (call L h "SUM" [.long i, .long j]) (i.toInt + j.toInt) ∧
    ExactCall sto (call L h "SUBTRACTION" [.long i, .long j]) (i.toInt - j.toInt) ∧
    ExactCall sto (call L h "PRODUCT" [.long i, .long j]) (i.toInt * j.toInt) ∧
    (j.toInt = 0 → call L h "DIVISION" [.long i, .long j] = none) ∧
    (j.toInt ≠ 0 → ExactCall sto (call L h "DIVISION" [.long i, .long j]) (i.toInt.tdiv j.toInt)) ∧
    (j.toInt = 0 → call L h "REM" [.long i, .long j] = none) ∧
    (j.toInt ≠ 0 → ¬ (i.toInt = -2 ^ 63 ∧ j.toInt = -1) → ExactCall sto (call L h "REM" [.long i, .long j]) (i.toInt.tmod j.toInt)) ∧
    (j.toInt < 0 → call L h "POW" [.long i, .long j] = none) ∧
    (0 ≤ j.toInt → ExactCall sto (call L h "POW" [.long i, .long j]) (i.toInt ^ j.toInt.toNat)) ∧
    ExactCall sto (call L h "INVERTSIGN" [.long i]) (-i.toInt) ∧
    (i.toInt ≠ -2 ^ 63 → ExactCall sto (call L h "ABS" [.long i]) i.toInt.natAbs) ∧
    (∀ z : Int64, (i.toInt < 0 → call L h "SQRT" [.long i] = none) ∧
      (call L h "SQRT" [.long i] = some (sto (.long z)) ↔ 0 ≤ z.toInt ∧ z.toInt ^ 2 ≤ i.toInt ∧ i.toInt < (z.toInt + 1) ^ 2)) := by
  have nz : ∀ i : Int64, (DV.long i).NoZero := fun i => trivial
  have nzs : ∀ (i j : Int64), ∀ u ∈ [DV.long i, DV.long j], u.NoZero := by simp [DV.NoZero]
  refine ⟨?_, ?_, ?_, ?_, ?_, ?_, ?_, ?_, ?_, ?_, ?_, ?_⟩
  · rw [call_nary hL h (f := .sum) (by decide +kernel) (nzs i j)]
    exact exact_call (sum_two i j)
  · rw [call_bin hL h (f := .sub) (by decide +kernel) (nz i) (nz j)]
    exact exact_call (I64.sub_exact i j)
  · rw [call_nary hL h (f := .prod) (by decide +kernel) (nzs i j)]
    exact exact_call (prod_two i j)
  · intro hj
    rw [call_bin hL h (f := .div) (by decide +kernel) (nz i) (nz j)]
    change (got (I64.div i j >>= _)).map sto = none
    rw [(I64.div_exact i j).1 hj]; rfl
  · intro hj
    rw [call_bin hL h (f := .div) (by decide +kernel) (nz i) (nz j)]
    exact exact_call ((I64.div_exact i j).2 hj)
  · intro hj
    rw [call_bin hL h (f := .rem) (by decide +kernel) (nz i) (nz j)]
    change (got (I64.rem i j >>= _)).map sto = none
    rw [(I64.rem_exact_partial i j (by omega)).1 hj]; rfl
  · intro hj hm
    rw [call_bin hL h (f := .rem) (by decide +kernel) (nz i) (nz j)]
    obtain ⟨z, hz, e⟩ := (I64.rem_exact_partial i j hm).2 hj
    refine exact_call ⟨fun _ => ⟨z, hz, e⟩, fun hn => absurd ?_ hn⟩
    rw [← e]; exact I64.fits_toInt z
  · intro hj
    rw [call_bin hL h (f := .pow) (by decide +kernel) (nz i) (nz j)]
    change (got (I64.pow i j >>= _)).map sto = none
    rw [(I64.pow_exact i j).1 hj]; rfl
  · intro hj
    rw [call_bin hL h (f := .pow) (by decide +kernel) (nz i) (nz j)]
    exact exact_call ((I64.pow_exact i j).2 hj)
  · rw [call_un hL h (f := .neg) (by decide +kernel) (nz i)]
    exact exact_call (I64.neg_exact i)
  · intro hi
    rw [call_un hL h (f := .abs) (by decide +kernel) (nz i)]
    exact exact_call (I64.abs_exact_partial i hi)
  · intro z
    rw [call_un hL h (f := .sqrt) (by decide +kernel) (nz i)]
    change (_ → (got (I64.sqrt i >>= _)).map sto = none) ∧ ((got (I64.sqrt i >>= fun r => Res.val (DV.long r))).map sto = _ ↔ _)
    obtain ⟨h1, h2⟩ := I64.sqrt_exact i
    refine ⟨fun hi => by rw [h1 hi]; rfl, ?_⟩
    by_cases hi : i.toInt < 0
    · rw [h1 hi]
      refine ⟨fun hh => by simp [Bind.bind, Res.bind, got] at hh, fun ⟨a, b, c⟩ => ?_⟩
      have := sq_nonneg z.toInt
      omega
    · obtain ⟨y, e, y1, y2, y3⟩ := h2 (by omega)
      rw [e]
      change some (sto (.long y)) = some (sto (.long z)) ↔ _
      rw [Option.some.injEq, h.sto_eq]
      have : (DV.long y).eq (.long z) = true ↔ y = z := by simp [DV.eq, Int64.toInt_inj]
      rw [this]
      refine ⟨fun e => e ▸ ⟨y1, y2, y3⟩, fun ⟨z1, z2, z3⟩ => Int64.toInt_inj.1 ?_⟩
      nlinarith [mul_self_nonneg (y.toInt - z.toInt), lt_or_ge y.toInt z.toInt]

theorem long_eq (y z : Int64) : (DV.long y).eq (.long z) = true ↔ y.toInt = z.toInt := by simp [DV.eq, Int64.toInt_inj]

theorem yes_iff (h : StoresValues dict val sto) (b : Bool) : (some (sto (.bool b)) = some (sto (.bool true))) ↔ b = true := by
  rw [Option.some.injEq, h.sto_eq]; simp [DV.eq]

/-- **Comparisons of integers by name.** -/
theorem integer_comparisons {L : Lib} (hL : LibOK L) (h : StoresValues dict val sto) (i j : Int64) :
    (call L h "NUMLESS" [.long i, .long j] = some (sto (.bool true)) ↔ i.toInt < j.toInt) ∧
    (call L h "NUMLESSEQ" [.long i, .long j] = some (sto (.bool true)) ↔ i.toInt ≤ j.toInt) ∧
    (call L h "NUMGREATER" [.long i, .long j] = some (sto (.bool true)) ↔ j.toInt < i.toInt) ∧
    (call L h "NUMGREATEREQ" [.long i, .long j] = some (sto (.bool true)) ↔ j.toInt ≤ i.toInt) ∧
    (call L h "EQUALITY" [.long i, .long j] = some (sto (.bool true)) ↔ i.toInt = j.toInt) ∧
    (call L h "UNEQUALITY" [.long i, .long j] = some (sto (.bool true)) ↔ i.toInt ≠ j.toInt) := by
  have nz : ∀ i : Int64, (DV.long i).NoZero := fun i => trivial
  obtain ⟨c1, c2, c3, c4⟩ := I64.compare_exact i j
  refine ⟨?_, ?_, ?_, ?_, ?_, ?_⟩
  · rw [call_bin hL h (f := .lt) (by decide +kernel) (nz i) (nz j)]
    exact (yes_iff h _).trans c1
  · rw [call_bin hL h (f := .le) (by decide +kernel) (nz i) (nz j)]
    exact (yes_iff h _).trans c2
  · rw [call_bin hL h (f := .gt) (by decide +kernel) (nz i) (nz j)]
    exact (yes_iff h _).trans c3
  · rw [call_bin hL h (f := .ge) (by decide +kernel) (nz i) (nz j)]
    exact (yes_iff h _).trans c4
  · rw [call_bin hL h (f := .equals) (by decide +kernel) (nz i) (nz j)]
    exact (yes_iff h _).trans (long_eq i j)
  · rw [call_bin hL h (f := .unequals) (by decide +kernel) (nz i) (nz j)]
    refine (yes_iff h _).trans ?_
    rw [Bool.not_eq_true', ← Bool.not_eq_true, long_eq]

theorem ints_mapM (is : List Int64) : (is.map DV.long).mapM Num.ofDV = some (is.map Num.int) := by
  induction is with
  | nil => rfl
  | cons i is ih => simp only [List.map_cons, List.mapM_cons, ih]; rfl

theorem ints_collect (is : List Int64) (hne : is ≠ []) : NumList.collect (is.map Num.int) = some (.int is) := by
  have : ∀ is : List Int64, (is.map Num.int).mapM Num.int? = some is := by
    intro is
    induction is with
    | nil => rfl
    | cons i is ih => simp only [List.map_cons, List.mapM_cons, ih]; rfl
  cases is with
  | nil => exact absurd rfl hne
  | cons i is => exact congrArg (Option.map NumList.int) (this (i :: is))

theorem ints_cast (L : Lib) (is : List Int64) (hne : is ≠ []) : NumList.ofDVCast L (is.map DV.long) = some (.int is) := by
  simp only [NumList.ofDVCast, ints_mapM]
  cases is with
  | nil => exact absurd rfl hne
  | cons i is =>
    simp only [List.map_cons]
    rw [if_pos (by simp [Num.sameType])]
    exact ints_collect (i :: is) (by simp)

theorem ints_list (is : List Int64) (hne : is ≠ []) : NumList.ofDV (is.map DV.long) = some (.int is) := by
  cases is with
  | nil => exact absurd rfl hne
  | cons i is =>
    have := ints_mapM (i :: is)
    simp only [List.map_cons] at this
    simp only [NumList.ofDV, List.map_cons, List.isEmpty_cons, this]
    exact ints_collect (i :: is) (by simp)

/-- **Functions of several integers by name**: the largest, the smallest, and bitwise functions (except for the sign of `BITAND`, C15). -/
theorem integer_lists {L : Lib} (hL : LibOK L) (h : StoresValues dict val sto) (i j : Int64) (is : List Int64) :
    (∃ z ∈ i :: j :: is, call L h "MIN" ((i :: j :: is).map .long) = some (sto (.long z)) ∧ ∀ x ∈ i :: j :: is, z.toInt ≤ x.toInt) ∧
    (∃ z ∈ i :: j :: is, call L h "MAX" ((i :: j :: is).map .long) = some (sto (.long z)) ∧ ∀ x ∈ i :: j :: is, x.toInt ≤ z.toInt) ∧
    (∃ z, call L h "BITAND" ((i :: j :: is).map .long) = some (sto (.long z)) ∧
      ∀ k < 63, I64.bit z k = (i :: j :: is).all fun x => I64.bit x k) ∧
    (∃ z, call L h "BITOR" ((i :: j :: is).map .long) = some (sto (.long z)) ∧
      ∀ k, I64.bit z k = (i :: j :: is).any fun x => I64.bit x k) ∧
    (∃ z, call L h "BITXOR" ((i :: j :: is).map .long) = some (sto (.long z)) ∧
      ∀ k, I64.bit z k = decide ((i :: j :: is).countP (fun x => I64.bit x k) % 2 = 1)) := by
  have nzs : ∀ u ∈ DV.long i :: DV.long j :: is.map .long, u.NoZero := by
    intro u hu
    simp only [List.mem_cons, List.mem_map] at hu
    rcases hu with rfl | rfl | ⟨x, -, rfl⟩ <;> trivial
  have hc := ints_cast L (i :: j :: is) (by simp)
  have hl := ints_list (i :: j :: is) (by simp)
  simp only [List.map_cons] at hc hl ⊢
  refine ⟨?_, ?_, ?_, ?_, ?_⟩
  · rw [call_nary hL h (f := .min) (by decide +kernel) nzs]
    obtain ⟨z, hz, e, hm⟩ := (I64.minimum_exact (i :: j :: is)).2 (by simp)
    refine ⟨z, hz, ?_, hm⟩
    simp only [naryEval, numNary, hc, e]
    rfl
  · rw [call_nary hL h (f := .max) (by decide +kernel) nzs]
    obtain ⟨z, hz, e, hm⟩ := (I64.maximum_exact (i :: j :: is)).2 (by simp)
    refine ⟨z, hz, ?_, hm⟩
    simp only [naryEval, numNary, hc, e]
    rfl
  · rw [call_nary hL h (f := .bitAnd) (by decide +kernel) nzs]
    refine ⟨I64.bitAnd (i :: j :: is), ?_, fun k hk => I64.bitAnd_bit_partial _ k hk⟩
    simp only [naryEval, intNary, hl]
    rfl
  · rw [call_nary hL h (f := .bitOr) (by decide +kernel) nzs]
    refine ⟨I64.bitOr (i :: j :: is), ?_, fun k => I64.bitOr_bit _ k⟩
    simp only [naryEval, intNary, hl]
    rfl
  · rw [call_nary hL h (f := .bitXor) (by decide +kernel) nzs]
    refine ⟨I64.bitXor (i :: j :: is), ?_, fun k => I64.bitXor_bit _ k⟩
    simp only [naryEval, intNary, hl]
    rfl

/-- **Shifts and logarithms by name.**  Shifts by 64 or more fail (C15). -/
theorem integer_shifts {L : Lib} (hL : LibOK L) (h : StoresValues dict val sto) (i j : Int64) :
    (0 ≤ j.toInt → j.toInt < 64 →
      (∃ z, call L h "BITSHL" [.long i, .long j] = some (sto (.long z)) ∧ z.toInt = (i.toInt * 2 ^ j.toInt.toNat).bmod (2 ^ 64)) ∧
      (∃ z, call L h "BITSHR" [.long i, .long j] = some (sto (.long z)) ∧ z.toInt = i.toInt / 2 ^ j.toInt.toNat) ∧
      (∃ z, call L h "BITSHRU" [.long i, .long j] = some (sto (.long z)) ∧
        z.toUInt64.toNat = i.toUInt64.toNat / 2 ^ j.toInt.toNat)) ∧
    ((i.toInt ≤ 0 ∨ j.toInt < 2) → call L h "LOG" [.long i, .long j] = none) ∧
    (0 < i.toInt → 2 ≤ j.toInt → ∃ (k : Nat) (z : Int64), call L h "LOG" [.long i, .long j] = some (sto (.long z)) ∧ z.toInt = k ∧
      j.toInt ^ k ≤ i.toInt ∧ i.toInt < j.toInt ^ (k + 1)) := by
  have nz : ∀ i : Int64, (DV.long i).NoZero := fun i => trivial
  have go : ∀ {r : Res Int64} {z : Int64}, r = .val z →
      (got (r >>= fun z => Res.val (DV.long z))).map sto = some (sto (.long z)) := by rintro _ z rfl; rfl
  refine ⟨fun h1 h2 => ⟨?_, ?_, ?_⟩, fun hh => ?_, fun h1 h2 => ?_⟩
  · rw [call_bin hL h (f := .shl) (by decide +kernel) (nz i) (nz j)]
    obtain ⟨z, e, e', -⟩ := (I64.shl_exact_partial i j h2).2 h1
    exact ⟨z, go e, e'⟩
  · rw [call_bin hL h (f := .shr) (by decide +kernel) (nz i) (nz j)]
    obtain ⟨z, e, e'⟩ := (I64.shr_exact_partial i j h2).2 h1
    exact ⟨z, go e, e'⟩
  · rw [call_bin hL h (f := .shru) (by decide +kernel) (nz i) (nz j)]
    obtain ⟨z, e, e'⟩ := (I64.shru_exact_partial i j h2).2 h1
    exact ⟨z, go e, e'⟩
  · rw [call_bin hL h (f := .log) (by decide +kernel) (nz i) (nz j)]
    change (got (I64.log i j >>= _)).map sto = none
    rw [(I64.log_exact i j).1 hh]; rfl
  · rw [call_bin hL h (f := .log) (by decide +kernel) (nz i) (nz j)]
    obtain ⟨k, z, e, e'⟩ := (I64.log_exact i j).2 h1 h2
    exact ⟨k, z, go e, e'⟩

/-- **Booleans by name**, for any number of arguments. -/
theorem boolean_functions {L : Lib} (hL : LibOK L) (h : StoresValues dict val sto) (a : Bool) (bs : List Bool) :
    call L h "NOT" [.bool a] = some (sto (.bool !a)) ∧
    call L h "AND" (bs.map .bool) = some (sto (.bool (bs.all id))) ∧
    call L h "OR" (bs.map .bool) = some (sto (.bool (bs.any id))) := by
  have nzs : ∀ u ∈ bs.map DV.bool, u.NoZero := by
    intro u hu
    obtain ⟨x, -, rfl⟩ := List.mem_map.1 hu
    trivial
  have hm : ∀ bs : List Bool, (bs.map DV.bool).mapM toBool = some bs := by
    intro bs
    induction bs with
    | nil => rfl
    | cons i is ih => simp only [List.map_cons, List.mapM_cons, ih]; rfl
  refine ⟨?_, ?_, ?_⟩
  · rw [call_un hL h (f := .booleanNegation) (by decide +kernel) (by trivial)]
    rfl
  · match bs, nzs with
    | [], nzs =>
      rw [call, app_sto hL h (f := .nary .conjunction) (by decide +kernel) (.inr (.inl rfl)) nzs]
      rfl
    | [b], nzs =>
      rw [call, app_sto hL h (f := .nary .conjunction) (by decide +kernel) (.inl (by simp)) nzs]
      exact congrArg (fun b => some (sto (.bool b))) (by simp)
    | b :: c :: bs, nzs =>
      have hm' := hm (b :: c :: bs)
      simp only [List.map_cons] at hm' nzs ⊢
      rw [call_nary hL h (f := .conjunction) (by decide +kernel) nzs]
      simp only [naryEval, hm']
      rfl
  · match bs, nzs with
    | [], nzs =>
      rw [call, app_sto hL h (f := .nary .disjunction) (by decide +kernel) (.inr (.inr rfl)) nzs]
      rfl
    | [b], nzs =>
      rw [call, app_sto hL h (f := .nary .disjunction) (by decide +kernel) (.inl (by simp)) nzs]
      exact congrArg (fun b => some (sto (.bool b))) (by simp)
    | b :: c :: bs, nzs =>
      have hm' := hm (b :: c :: bs)
      simp only [List.map_cons] at hm' nzs ⊢
      rw [call_nary hL h (f := .disjunction) (by decide +kernel) nzs]
      simp only [naryEval, hm']
      rfl

/-- **Texts by name**: functions count and compare extended grapheme clusters. -/
theorem text_functions {L : Lib} (hL : LibOK L) (h : StoresValues dict val sto) (s t : String) :
    (call L h "CONTAINS" [.str s, .str t] = some (sto (.bool true)) ↔ L.graphemes t <:+: L.graphemes s) ∧
    (call L h "STRSTARTS" [.str s, .str t] = some (sto (.bool true)) ↔ L.graphemes t <+: L.graphemes s) ∧
    (call L h "STRENDS" [.str s, .str t] = some (sto (.bool true)) ↔ L.graphemes t <:+ L.graphemes s) ∧
    (L.graphemes t <:+: L.graphemes s → ∃ pre post, FirstOccurrence (L.graphemes t) (L.graphemes s) pre post ∧
      call L h "STRBEFORE" [.str s, .str t] = some (sto (.str (join pre))) ∧
      call L h "STRAFTER" [.str s, .str t] = some (sto (.str (join post)))) ∧
    (¬ L.graphemes t <:+: L.graphemes s → call L h "STRBEFORE" [.str s, .str t] = some (sto (.str "")) ∧
      call L h "STRAFTER" [.str s, .str t] = some (sto (.str ""))) ∧
    call L h "COMPARE" [.str s, .str t] = some (sto (.long (match compare s t with | .lt => -1 | .eq => 0 | .gt => 1))) ∧
    call L h "REGEX" [.str s, .str t] = some (sto (.bool (L.regex t s))) ∧
    call L h "STRREV" [.str s] = some (sto (.str (join (L.graphemes s).reverse))) ∧
    call L h "LCASE" [.str s] = some (sto (.str (L.lower s))) ∧
    call L h "UCASE" [.str s] = some (sto (.str (L.upper s))) ∧
    call L h "URIENCODE" [.str s] = some (sto (.str (L.uriEncode s))) ∧
    call L h "URIDECODE" [.str s] = (L.uriDecode s).map (sto ∘ .str) ∧
    call L h "STRLANG" [.str s, .str t] = some (sto (.lang s (L.lowerTag t))) ∧
    call L h "LANG" [.lang s t] = some (sto (.str t)) ∧
    call L h "LANG" [.str s] = some (sto (.str "")) ∧
    (∀ i : Int64, call L h "SUBSTR" [.str s, .long i] =
      some (sto (.str (join (positions (L.graphemes s) fun p => decide (i.toInt ≤ p)))))) ∧
    ((L.graphemes s).length < 2 ^ 63 →
      call L h "STRLEN" [.str s] = some (sto (.long (Int64.ofNat (L.graphemes s).length)))) ∧
    (L.levenshtein s t < 2 ^ 63 →
      call L h "LEVENSHTEIN" [.str s, .str t] = some (sto (.long (Int64.ofNat (L.levenshtein s t))))) := by
  have nz : ∀ s : String, (DV.str s).NoZero := fun s => trivial
  have hp : langPair (.str s) (.str t) = some ((s, none), (t, none)) := rfl
  have sg : ∀ {r : Res DV} {v : DV}, r = .val v → (got r).map sto = some (sto v) := by rintro _ _ rfl; rfl
  have yes : ∀ {r : Res DV} {P : Prop}, (∃ b, r = .val (.bool b)) → (r = .val (.bool true) ↔ P) →
      ((got r).map sto = some (sto (.bool true)) ↔ P) := by
    rintro r P ⟨b, rfl⟩ hP
    exact (yes_iff h b).trans (by simpa using hP)
  have cnt : ∀ n < 2 ^ 63, (got (Fn.count n)).map sto = some (sto (.long (Int64.ofNat n))) := by
    intro n hn
    rw [Fn.count, if_pos hn]
    change some (sto _) = _
    rw [Option.some.injEq, h.sto_eq]
    have h1 : (UInt64.ofNat n).toNat = n := by rw [UInt64.toNat_ofNat']; exact Nat.mod_eq_of_lt (by omega)
    have h2 : (Int64.ofNat n).toInt = n := by rw [Int64.toInt_ofNat_of_lt hn]
    simp [DV.eq, DV.toU64, h1, h2]
  refine ⟨?_, ?_, ?_, fun hh => ?_, fun hh => ?_, ?_, ?_, ?_, ?_, ?_, ?_, ?_, ?_, ?_, ?_, fun i => ?_, fun hh => ?_, fun hh => ?_⟩
  · rw [call_bin hL h (f := .strContains) (by decide +kernel) (nz s) (nz t)]
    exact yes ⟨_, rfl⟩ (contains_iff L hp)
  · rw [call_bin hL h (f := .strStarts) (by decide +kernel) (nz s) (nz t)]
    refine yes ?_ (starts_iff L hp)
    simp only [binEval, strStarts, hp]
    split_ifs <;> exact ⟨_, rfl⟩
  · rw [call_bin hL h (f := .strEnds) (by decide +kernel) (nz s) (nz t)]
    refine yes ?_ (ends_iff L hp)
    simp only [binEval, strEnds, hp]
    split_ifs <;> exact ⟨_, rfl⟩
  · rw [call_bin hL h (f := .strBefore) (by decide +kernel) (nz s) (nz t), call_bin hL h (f := .strAfter) (by decide +kernel) (nz s) (nz t)]
    obtain ⟨pre, post, hf, e1, e2⟩ := before_after L hp hh
    exact ⟨pre, post, hf, sg e1, sg e2⟩
  · rw [call_bin hL h (f := .strBefore) (by decide +kernel) (nz s) (nz t), call_bin hL h (f := .strAfter) (by decide +kernel) (nz s) (nz t)]
    obtain ⟨e1, e2⟩ := before_after_absent L hp hh
    exact ⟨sg e1, sg e2⟩
  · rw [call_bin hL h (f := .strCompare) (by decide +kernel) (nz s) (nz t)]; rfl
  · rw [call_bin hL h (f := .strRegex) (by decide +kernel) (nz s) (nz t)]; rfl
  · rw [call_un hL h (f := .strReverse) (by decide +kernel) (nz s)]; rfl
  · rw [call_un hL h (f := .strLower) (by decide +kernel) (nz s)]; rfl
  · rw [call_un hL h (f := .strUpper) (by decide +kernel) (nz s)]; rfl
  · rw [call_un hL h (f := .uriEncode) (by decide +kernel) (nz s)]; rfl
  · rw [call_un hL h (f := .uriDecode) (by decide +kernel) (nz s)]
    simp only [unEval, langString]
    cases L.uriDecode s <;> rfl
  · rw [call_bin hL h (f := .languageString) (by decide +kernel) (nz s) (nz t)]; rfl
  · rw [call_un hL h (f := .languageTag) (by decide +kernel) (by trivial)]; rfl
  · rw [call_un hL h (f := .languageTag) (by decide +kernel) (nz s)]; rfl
  · rw [call, app_sto hL h (f := .substring) (by decide +kernel) (vs := [.str s, .long i]) (.inl rfl) (by simp [DV.NoZero])]
    change (got (binEval L .strSubstring (.str s) (.long i))).map sto = _
    exact sg (substring_spec L (x := (s, none)) rfl rfl)
  · rw [call_un hL h (f := .strLength) (by decide +kernel) (nz s)]
    exact cnt _ hh
  · rw [call_bin hL h (f := .strLevenshtein) (by decide +kernel) (nz s) (nz t)]
    exact cnt _ hh

/-- **`CONCAT` by name**, for any number of texts. -/
theorem concat_function {L : Lib} (hL : LibOK L) (h : StoresValues dict val sto) (s t : String) (ss : List String) :
    call L h "CONCAT" ((s :: t :: ss).map .str) = some (sto (.str (join (s :: t :: ss)))) := by
  have nzs : ∀ u ∈ DV.str s :: DV.str t :: ss.map .str, u.NoZero := by
    intro u hu
    simp only [List.mem_cons, List.mem_map] at hu
    rcases hu with rfl | rfl | ⟨x, -, rfl⟩ <;> trivial
  have := concat_plain L (s :: t :: ss)
  simp only [List.map_cons] at this ⊢
  rw [call_nary hL h (f := .concat) (by decide +kernel) nzs, this]
  rfl

/-- **`SUBSTR` with a length by name** (see C40 for the conditions). -/
theorem substring_function_partial {L : Lib} (hL : LibOK L) (h : StoresValues dict val sto) (s : String) (i j : Int64)
    (hlo : 0 < j.toInt → 0 < i.toInt + j.toInt) (hhi : i.toInt + j.toInt < 2 ^ 63) :
    call L h "SUBSTR" [.str s, .long i, .long j] = some (sto (.str (join (positions (L.graphemes s)
      fun p => decide (i.toInt ≤ p) && decide (p < i.toInt + j.toInt))))) := by
  rw [call, app_sto hL h (f := .substring) (by decide +kernel) (vs := [.str s, .long i, .long j]) (.inr rfl) (by simp [DV.NoZero])]
  change (got (terEval L .strSubstringLength (.str s) (.long i) (.long j))).map sto = _
  rw [substringLength_spec_partial L (x := (s, none)) rfl rfl rfl hlo hhi]
  rfl

/-- **Kinds of values by name.** -/
theorem kind_functions {L : Lib} (hL : LibOK L) (h : StoresValues dict val sto) {v : DV} (h0 : v.NoZero) :
    (call L h "isInteger" [v] = some (sto (.bool true)) ↔ ∃ i, v.toI64 = some i) ∧
    (call L h "isFloat" [v] = some (sto (.bool true)) ↔ ∃ f, v = .float f) ∧
    (call L h "isDouble" [v] = some (sto (.bool true)) ↔ ∃ f, v = .double f) ∧
    (call L h "isNumeric" [v] = some (sto (.bool true)) ↔ (∃ i, v.toI64 = some i) ∨ (∃ f, v = .float f) ∨ ∃ f, v = .double f) ∧
    (call L h "isIri" [v] = some (sto (.bool true)) ↔ ∃ s, v = .iri s) ∧
    (call L h "isNull" [v] = some (sto (.bool true)) ↔ ∃ n, v = .null n) ∧
    (call L h "isString" [v] = some (sto (.bool true)) ↔ ∃ s, v = .str s) := by
  refine ⟨?_, ?_, ?_, ?_, ?_, ?_, ?_⟩
  · rw [call_un hL h (f := .isInteger) (by decide +kernel) h0]
    exact (yes_iff h _).trans Option.isSome_iff_exists
  · rw [call_un hL h (f := .isFloat) (by decide +kernel) h0]
    refine (yes_iff h _).trans ?_
    cases v <;> simp
  · rw [call_un hL h (f := .isDouble) (by decide +kernel) h0]
    refine (yes_iff h _).trans ?_
    cases v <;> simp
  · rw [call_un hL h (f := .isNumeric) (by decide +kernel) h0]
    refine (yes_iff h _).trans ?_
    rw [Bool.or_eq_true, Option.isSome_iff_exists]
    cases v <;> simp
  · rw [call_un hL h (f := .isIri) (by decide +kernel) h0]
    refine (yes_iff h _).trans ?_
    cases v <;> simp
  · rw [call_un hL h (f := .isNull) (by decide +kernel) h0]
    refine (yes_iff h _).trans ?_
    cases v <;> simp
  · rw [call_un hL h (f := .isString) (by decide +kernel) h0]
    refine (yes_iff h _).trans ?_
    cases v <;> simp

/-- **Conversions by name.** -/
theorem conversion_functions {L : Lib} (hL : LibOK L) (h : StoresValues dict val sto) (i : Int64) (s : String) {v : DV} (h0 : v.NoZero) :
    call L h "INT" [.str (String.ofList (decimalInt i.toInt))] = some (sto (.long i)) ∧
    call L h "INT" [.long i] = some (sto (.long i)) ∧
    call L h "DOUBLE" [.long i] = some (sto (.double (L.i64ToF64 i))) ∧
    call L h "FLOAT" [.long i] = some (sto (.float (L.i64ToF32 i))) ∧
    call L h "DOUBLE" [.str s] = (L.parseF64 s).map (sto ∘ .double) ∧
    call L h "FLOAT" [.str s] = (L.parseF32 s).map (sto ∘ .float) ∧
    call L h "IRI" [.str s] = some (sto (.iri s)) ∧
    call L h "STR" [.iri s] = some (sto (.str (L.lexical (.iri s)))) ∧
    (∀ t, call L h "STR" [.lang s t] = some (sto (.str s))) ∧
    call L h "fullStr" [v] = some (sto (.str (L.canonical v))) ∧
    call L h "DATATYPE" [v] = (L.datatype v).map (sto ∘ .iri) := by
  refine ⟨?_, ?_, ?_, ?_, ?_, ?_, ?_, ?_, fun t => ?_, ?_, ?_⟩
  · rw [call_un hL h (f := .castInt) (by decide +kernel) (by trivial), cast_decimal]; rfl
  · rw [call_un hL h (f := .castInt) (by decide +kernel) (by trivial)]; rfl
  · rw [call_un hL h (f := .castDouble) (by decide +kernel) (by trivial)]; rfl
  · rw [call_un hL h (f := .castFloat) (by decide +kernel) (by trivial)]; rfl
  · rw [call_un hL h (f := .castDouble) (by decide +kernel) (by trivial)]
    simp only [unEval, castDouble]
    cases L.parseF64 s <;> rfl
  · rw [call_un hL h (f := .castFloat) (by decide +kernel) (by trivial)]
    simp only [unEval, castFloat]
    cases L.parseF32 s <;> rfl
  · rw [call_un hL h (f := .castIri) (by decide +kernel) (by trivial)]; rfl
  · rw [call_un hL h (f := .lexicalValue) (by decide +kernel) (by trivial)]; rfl
  · rw [call_un hL h (f := .lexicalValue) (by decide +kernel) (by trivial)]; rfl
  · rw [call_un hL h (f := .canonicalString) (by decide +kernel) h0]; rfl
  · rw [call_un hL h (f := .datatype) (by decide +kernel) h0]
    simp only [unEval]
    cases L.datatype v <;> rfl

/-- **Functions of double precision numbers by name** (for zero: up to its sign). -/
theorem double_functions {L : Lib} (hL : LibOK L) (h : StoresValues dict val sto) {f g : F64} (hf : (DV.double f).NoZero)
    (hg : (DV.double g).NoZero) :
    call L h "SIN" [.double f] = some (sto (.double (L.f64.sin f))) ∧
    call L h "COS" [.double f] = some (sto (.double (L.f64.cos f))) ∧
    call L h "TAN" [.double f] = some (sto (.double (L.f64.tan f))) ∧
    call L h "CEIL" [.double f] = some (sto (.double (L.f64.ceil f))) ∧
    call L h "FLOOR" [.double f] = some (sto (.double (L.f64.floor f))) ∧
    call L h "ROUND" [.double f] = some (sto (.double (L.f64.round f))) ∧
    call L h "ABS" [.double f] = some (sto (.double (L.f64.abs f))) ∧
    call L h "SQRT" [.double f] = (L.f64.sqrt f).map (sto ∘ .double) ∧
    call L h "INVERTSIGN" [.double f] = (L.f64.neg f).map (sto ∘ .double) ∧
    call L h "SUBTRACTION" [.double f, .double g] = (L.f64.sub f g).map (sto ∘ .double) ∧
    call L h "DIVISION" [.double f, .double g] = (L.f64.div f g).map (sto ∘ .double) ∧
    call L h "POW" [.double f, .double g] = (L.f64.pow f g).map (sto ∘ .double) ∧
    call L h "LOG" [.double f, .double g] = (L.f64.log f g).map (sto ∘ .double) ∧
    call L h "SUM" [.double f, .double g] = ((L.f64.add L.f64.zero f).bind fun a => L.f64.add a g).map (sto ∘ .double) ∧
    call L h "PRODUCT" [.double f, .double g] = ((L.f64.mul L.f64.one f).bind fun a => L.f64.mul a g).map (sto ∘ .double) ∧
    call L h "LUKA" [.double f, .double g] = (floatLuka L.f64 [f, g]).map (sto ∘ .double) := by
  have mp : ∀ o : Option F64, (got (Res.ofOption (o.map DV.double))).map sto = o.map (sto ∘ .double) := by intro o; cases o <;> rfl
  have nzs : ∀ u ∈ [DV.double f, DV.double g], u.NoZero := by simp [hf, hg]
  refine ⟨?_, ?_, ?_, ?_, ?_, ?_, ?_, ?_, ?_, ?_, ?_, ?_, ?_, ?_, ?_, ?_⟩
  · rw [call_un hL h (f := .sin) (by decide +kernel) hf]; rfl
  · rw [call_un hL h (f := .cos) (by decide +kernel) hf]; rfl
  · rw [call_un hL h (f := .tan) (by decide +kernel) hf]; rfl
  · rw [call_un hL h (f := .ceil) (by decide +kernel) hf]; rfl
  · rw [call_un hL h (f := .floor) (by decide +kernel) hf]; rfl
  · rw [call_un hL h (f := .round) (by decide +kernel) hf]; rfl
  · rw [call_un hL h (f := .abs) (by decide +kernel) hf]; rfl
  · rw [call_un hL h (f := .sqrt) (by decide +kernel) hf]; exact mp _
  · rw [call_un hL h (f := .neg) (by decide +kernel) hf]; exact mp _
  · rw [call_bin hL h (f := .sub) (by decide +kernel) hf hg]; exact mp _
  · rw [call_bin hL h (f := .div) (by decide +kernel) hf hg]; exact mp _
  · rw [call_bin hL h (f := .pow) (by decide +kernel) hf hg]; exact mp _
  · rw [call_bin hL h (f := .log) (by decide +kernel) hf hg]; exact mp _
  · rw [call_nary hL h (f := .sum) (by decide +kernel) nzs]
    refine (mp (floatSum L.f64 [f, g])).trans ?_
    congr 1
    simp only [floatSum, List.foldlM_cons, List.foldlM_nil, Option.bind_eq_bind]
    cases L.f64.add L.f64.zero f with
    | none => rfl
    | some a => simp only [Option.bind_some]; cases L.f64.add a g <;> rfl
  · rw [call_nary hL h (f := .prod) (by decide +kernel) nzs]
    refine (mp (floatProd L.f64 [f, g])).trans ?_
    congr 1
    simp only [floatProd, List.foldlM_cons, List.foldlM_nil, Option.bind_eq_bind]
    cases L.f64.mul L.f64.one f with
    | none => rfl
    | some a => simp only [Option.bind_some]; cases L.f64.mul a g <;> rfl
  · rw [call_nary hL h (f := .luka) (by decide +kernel) nzs]
    exact mp _

/-- The assumptions can be met. -/
example := integer_functions Example.someLib_ok stored_storage 7 3
example := text_functions Example.someLib_ok stored_storage "abc" "b"

end Verif.Data
