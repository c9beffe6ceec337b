import Verif.Builtins
/-
Prediction of the storage types of computed values
(nemo-physical/src/function/definitions.rs:46-118, evaluation.rs:303-345,
 datavalues/datavalue.rs:131-155, datavalues/any_datavalue.rs:510-556).

The function operator only visits the storage types that this prediction names
(tabular/operations/function.rs:248-254), so a missing type silently drops rows.
-/

set_option linter.unusedVariables false
set_option linter.unusedSimpArgs false

namespace Verif.Fn

/-! ### Model -/

/-- definitions.rs:47-58 `FunctionTypePropagation`. -/
inductive TyProp where
  | known (s : TypeSet)
  | preserve
  | upcast
  | unknown

/-- definitions.rs:86-88, 90-92, 94-96: whether all inputs contain a type. -/
def allContain (t : Fin 5) (input : List TypeSet) : Bool := input.all fun s => s.contains t

/-- definitions.rs:98-100: the flag `mixing`. -/
def mixing (first : TypeSet) (input : List TypeSet) : Bool :=
  input.any fun s => decide (s ≠ first) || (!s.isUnique && decide (1 < input.length))

/-- definitions.rs:103-112: union with a type if a flag is set. -/
def addType (b : Bool) (t : Fin 5) (s : TypeSet) : TypeSet := if b then s.union (TypeSet.ofType t) else s

/-- definitions.rs:61-117 `propagate`. -/
def TyProp.propagate : TyProp → List TypeSet → TypeSet
  | .known s, _ => s
  | .preserve, input => input.foldl (fun r s => r.inter s) TypeSet.full
  | .unknown, _ => TypeSet.full
  | .upcast, [] => BSet.empty
  | .upcast, first :: rest =>
      addType (mixing first (first :: rest) || allContain 4 (first :: rest)) 4
        (addType (allContain 3 (first :: rest)) 3
          (addType (allContain 2 (first :: rest)) 2 BSet.empty))

/-- `Id32.bitset().union(Id64.bitset())`. -/
def idTypes : TypeSet := (TypeSet.ofType 0).union (TypeSet.ofType 1)

/-- datavalue.rs:133-155 `storage_type`. -/
def _root_.Verif.ValueDomain.storageType : ValueDomain → TypeSet
  | .long | .int | .unsignedLong | .nonNegativeLong | .unsignedInt | .nonNegativeInt => TypeSet.ofType 2
  | .float => TypeSet.ofType 3
  | .double => TypeSet.ofType 4
  | .plainString | .languageTaggedString | .iri | .tuple | .null | .map | .boolean | .other => idTypes

/-- `type_propagation` of the unary functions (boolean.rs, casting.rs, checktype.rs, generic.rs,
language.rs, numeric.rs:684-887, string.rs). -/
def unTypes : UFn → TyProp
  | .castInt => .known (TypeSet.ofType 2)
  | .castFloat => .known (TypeSet.ofType 3)
  | .castDouble => .known (TypeSet.ofType 4)
  | .abs | .ceil | .cos | .floor | .neg | .round | .sin | .sqrt | .tan => .preserve
  | .strLength => .known (TypeSet.ofType 2)
  | .booleanNegation | .canonicalString | .castIri | .isDouble | .isFloat | .isInteger | .isIri | .isNull
  | .isNumeric | .isString | .datatype | .languageTag | .lexicalValue | .strReverse | .strLower
  | .strUpper | .uriEncode | .uriDecode => .known idTypes

/-- `type_propagation` of the binary functions. -/
def binTypes : BFn → TyProp
  | .add | .sub | .mul | .div | .log | .pow | .rem => .upcast
  | .strCompare | .strLevenshtein | .shl | .shr | .shru => .known (TypeSet.ofType 2)
  | .equals | .unequals | .languageString | .lt | .le | .gt | .ge | .strAfter | .strBefore | .strContains
  | .strRegex | .strEnds | .strStarts | .strSubstring => .known idTypes

/-- `type_propagation` of the ternary functions. -/
def terTypes : TFn → TyProp
  | .strSubstringLength => .known idTypes

/-- `type_propagation` of the n-ary functions. -/
def naryTypes : NFn → TyProp
  | .bitAnd | .bitOr | .bitXor => .known (TypeSet.ofType 2)
  | .max | .min | .luka | .sum | .prod => .upcast
  | .conjunction | .disjunction | .concat => .known idTypes

/-- Operations over the built-in functions. -/
abbrev Op := SOp DV UFn BFn TFn NFn

/-- evaluation.rs:331-339: pop the inputs and push the prediction. -/
def popPush (k : Nat) (p : TyProp) (st : List TypeSet) : Res (List TypeSet) := do
  let r ← popN k st
  .val (p.propagate r.1 :: r.2)

/-- One round of the loop of `type_propagation` (evaluation.rs:314-340). -/
def typeStep (refs : List TypeSet) (this : Option TypeSet) (st : List TypeSet) : Op → Res (List TypeSet)
  | .push (.const c) => popPush 0 (.known c.domain.storageType) st
  | .push (.ref i) => match refs[i]? with
      | some s => popPush 0 (.known s) st
      | none => .panic
  | .push .this => match this with
      | some s => popPush 0 (.known s) st
      | none => .panic
  | .un f => popPush 1 (unTypes f) st
  | .bin f => popPush 2 (binTypes f) st
  | .ter f => popPush 3 (terTypes f) st
  | .nary f k => popPush k (naryTypes f) st

/-- The loop of `type_propagation`. -/
def typeOps (refs : List TypeSet) (this : Option TypeSet) : List Op → List TypeSet → Res (List TypeSet)
  | [], st => .val st
  | op :: ops, st => do
      let st' ← typeStep refs this st op
      typeOps refs this ops st'

/-- evaluation.rs:307-345 `type_propagation`. -/
def typeProp (p : SProg DV UFn BFn TFn NFn) (refs : List TypeSet) (this : Option TypeSet) : Res TypeSet := do
  let st ← typeOps refs this p.ops []
  match st with
  | x :: _ => .val x
  | [] => .panic

/-! ### Specification -/

/-- The storage type under which a value is actually stored
(any_datavalue.rs:510-556 `to_storage_value_t_dict`, `usize_to_storage_value_t`); `dict` is the
identifier that the dictionary gives to the value. -/
def storeType (dict : DV → Nat) (v : DV) : Fin 5 :=
  match v.domain with
  | .tuple | .map | .unsignedLong | .boolean | .other | .plainString | .languageTaggedString | .iri | .null =>
      if dict v < 2 ^ 32 then 0 else 1
  | .float => 3
  | .double => 4
  | .nonNegativeLong | .unsignedInt | .nonNegativeInt | .long | .int => 2

/-! ### Proofs -/

theorem mem_ofType {t u : Fin 5} : t ∈ TypeSet.types (TypeSet.ofType u) ↔ t = u := by
  revert t u; decide

theorem mem_idTypes {t : Fin 5} : t ∈ TypeSet.types idTypes ↔ t = 0 ∨ t = 1 := by
  revert t; decide

theorem not_mem_empty {t : Fin 5} : t ∉ TypeSet.types (BSet.empty : TypeSet) := by
  revert t; decide

theorem mem_addType {b : Bool} {t u : Fin 5} {s : TypeSet} :
    t ∈ TypeSet.types (addType b u s) ↔ (b = true ∧ t = u) ∨ t ∈ TypeSet.types s := by
  unfold addType
  cases b
  · simp
  · simp only [if_true, TypeSet.types_union, mem_ofType]
    tauto

theorem mem_foldl_inter {t : Fin 5} : ∀ (input : List TypeSet) (r : TypeSet),
    t ∈ TypeSet.types r → (∀ s ∈ input, t ∈ TypeSet.types s) →
    t ∈ TypeSet.types (input.foldl (fun r s => r.inter s) r)
  | [], _, h, _ => h
  | s :: rest, r, h, hs => by
      refine mem_foldl_inter rest _ ?_ (fun x hx => hs x (List.mem_cons_of_mem _ hx))
      exact (TypeSet.types_inter _ _ _).mpr ⟨h, hs s (List.mem_cons_self ..)⟩

theorem allContain_iff {t : Fin 5} {input : List TypeSet} :
    allContain t input = true ↔ ∀ s ∈ input, t ∈ TypeSet.types s := by
  simp [allContain, List.all_eq_true, TypeSet.contains_iff]

theorem unique_types {s : TypeSet} (h : s.isUnique = true) {t u : Fin 5}
    (ht : t ∈ TypeSet.types s) (hu : u ∈ TypeSet.types s) : t = u := by
  obtain ⟨i, hi⟩ := (BSet.isSingle_iff s).mp h
  have key : ∀ x : Fin 5, x ∈ TypeSet.types s → x.1 = i := by
    intro x hx
    have hg : s.get x.1 = true := by
      simp only [TypeSet.types, List.mem_filter] at hx
      exact hx.2
    have : x.1 ∈ s.elems := ⟨by omega, hg⟩
    rw [hi] at this
    exact this
  exact Fin.ext ((key t ht).trans (key u hu).symm)

/-- Upcasting predicts the type of a result computed from inputs of one type. -/
theorem upcast_same {t : Fin 5} (ht : t = 2 ∨ t = 3 ∨ t = 4) {input : List TypeSet} (hne : input ≠ [])
    (h : ∀ s ∈ input, t ∈ TypeSet.types s) : t ∈ TypeSet.types (TyProp.upcast.propagate input) := by
  cases input with
  | nil => exact absurd rfl hne
  | cons s rest =>
      have hc := allContain_iff.mpr h
      simp only [TyProp.propagate, mem_addType]
      rcases ht with rfl | rfl | rfl
      · right; right; left; exact ⟨hc, rfl⟩
      · right; left; exact ⟨hc, rfl⟩
      · left; exact ⟨by rw [hc]; simp, rfl⟩

/-- Upcasting predicts a double for inputs of different types. -/
theorem upcast_mixed {t u : Fin 5} (htu : t ≠ u) {input : List TypeSet} {s s' : TypeSet} (hs : s ∈ input)
    (hs' : s' ∈ input) (ht : t ∈ TypeSet.types s) (hu : u ∈ TypeSet.types s') (hlen : 1 < input.length) :
    (4 : Fin 5) ∈ TypeSet.types (TyProp.upcast.propagate input) := by
  cases input with
  | nil => simp at hs
  | cons first rest =>
      simp only [TyProp.propagate, mem_addType]
      left
      refine ⟨?_, by first | rfl | trivial⟩
      have : mixing first (first :: rest) = true := by
        by_contra hm
        have hm' : ∀ x ∈ first :: rest, x = first ∧ x.isUnique = true := by
          intro x hx
          have : ¬ (decide (x ≠ first) || (!x.isUnique && decide (1 < (first :: rest).length))) = true :=
            fun hh => hm (by unfold mixing; exact List.any_eq_true.mpr ⟨x, hx, hh⟩)
          simp only [Bool.or_eq_true, Bool.and_eq_true, not_or, decide_eq_true_eq, not_and, ne_eq,
            not_not] at this
          refine ⟨this.1, ?_⟩
          by_contra hq
          exact this.2 (by simpa using hq) hlen
        have h1 := hm' s hs
        have h2 := hm' s' hs'
        rw [h1.1] at ht
        rw [h2.1] at hu
        exact htu (unique_types (by rw [← h1.1]; exact h1.2) ht hu)
      rw [this]; rfl

/-- The type of a number. -/
def Num.ty : Num → Fin 5
  | .int _ => 2
  | .float _ => 3
  | .double _ => 4

theorem storeType_long (dict : DV → Nat) (i : Int64) : storeType dict (.long i) = 2 := by
  have : (DV.long i).domain = .nonNegativeLong ∨ (DV.long i).domain = .unsignedInt ∨
      (DV.long i).domain = .nonNegativeInt ∨ (DV.long i).domain = .int ∨ (DV.long i).domain = .long := by
    simp only [DV.domain, longDomain]
    split_ifs <;> simp
  unfold storeType
  rcases this with h | h | h | h | h <;> rw [h]

theorem storeType_ulong (dict : DV → Nat) {n : UInt64} (h : n.toNat ≤ 0xFFFFFFFFFFFFFFFF / 2) :
    storeType dict (.ulong n) = 2 := by
  have : (DV.ulong n).domain = .nonNegativeLong ∨ (DV.ulong n).domain = .unsignedInt ∨
      (DV.ulong n).domain = .nonNegativeInt := by
    simp only [DV.domain, ulongDomain]
    split_ifs <;> simp
  unfold storeType
  rcases this with h | h | h <;> rw [h]

/-- A number that does not fit 64 signed bits. -/
def Big (v : DV) : Prop := v.domain = .unsignedLong

theorem Num.ofDV_ty (dict : DV → Nat) {v : DV} {n : Num} (h : Num.ofDV v = some n) :
    storeType dict v = n.ty ∧ ¬ Big v := by
  cases v with
  | float f => simp only [Num.ofDV, Option.some.injEq] at h; subst h; exact ⟨rfl, by simp [Big, DV.domain]⟩
  | double f => simp only [Num.ofDV, Option.some.injEq] at h; subst h; exact ⟨rfl, by simp [Big, DV.domain]⟩
  | long i =>
      simp only [Num.ofDV, Option.some.injEq] at h; subst h
      refine ⟨storeType_long dict i, ?_⟩
      simp only [Big, DV.domain, longDomain]
      split_ifs <;> simp
  | ulong m =>
      simp only [Num.ofDV] at h
      split_ifs at h with hm
      simp only [Option.some.injEq] at h; subst h
      refine ⟨storeType_ulong dict hm, ?_⟩
      simp only [Big, DV.domain, ulongDomain]
      split_ifs <;> simp
  | _ => simp [Num.ofDV] at h

section
variable (dict : DV → Nat)

/-- The prediction `s` covers the value `v`, or `v` is an integer beyond 64 signed bits. -/
def Covers (v : DV) (s : TypeSet) : Prop := storeType dict v ∈ TypeSet.types s ∨ Big v

theorem covers_num {v : DV} {s : TypeSet} {n : Num} (h : Covers dict v s) (hn : Num.ofDV v = some n) :
    n.ty ∈ TypeSet.types s := by
  have := Num.ofDV_ty dict hn
  rcases h with h | h
  · rw [← this.1]; exact h
  · exact absurd h this.2

theorem id_of_domain {v : DV} (h : v.domain = .plainString ∨ v.domain = .languageTaggedString ∨
    v.domain = .iri ∨ v.domain = .boolean) : storeType dict v ∈ TypeSet.types idTypes := by
  rw [mem_idTypes]
  unfold storeType
  rcases h with h | h | h | h <;> rw [h] <;> simp only [] <;> split_ifs <;> simp

theorem mkLang_ty (L : Lib) (s : String) (t : Option String) :
    storeType dict (mkLang L s t) ∈ TypeSet.types idTypes := by
  cases t <;> exact id_of_domain dict (by simp [mkLang, DV.domain])

theorem count_ty {n : Nat} {r : DV} (h : count n = .val r) : storeType dict r ∈ TypeSet.types (TypeSet.ofType 2) := by
  unfold count at h
  split_ifs at h with hn
  simp only [Res.val.injEq] at h
  subst h
  rw [mem_ofType]
  refine storeType_ulong dict ?_
  rw [UInt64.toNat_ofNat']
  have : n % 2 ^ 64 ≤ n := Nat.mod_le _ _
  have h63 : n < 9223372036854775808 := hn
  omega

theorem ofOption_val {α β : Type} {x : Option α} {f : α → β} {r : β} (h : Res.ofOption (x.map f) = .val r) :
    ∃ a, x = some a ∧ f a = r := by
  cases x with
  | none => simp [Res.ofOption] at h
  | some a => exact ⟨a, rfl, by simpa [Res.ofOption] using h⟩

theorem numUn_ty {fi : Int64 → Res Int64} {ff : F32 → Option F32} {fd : F64 → Option F64} {v r : DV}
    {s : TypeSet} (hc : Covers dict v s) (h : numUn fi ff fd v = .val r) :
    storeType dict r ∈ TypeSet.types (TyProp.preserve.propagate [s]) := by
  have key : ∀ t : Fin 5, t ∈ TypeSet.types s → t ∈ TypeSet.types (TyProp.preserve.propagate [s]) :=
    fun t ht => mem_foldl_inter [s] _ (TypeSet.types_full t) (by simpa using ht)
  unfold numUn at h
  split at h
  · simp at h
  · next i hi =>
      obtain ⟨x, _, hx⟩ := Res.bind_eq_val.mp h
      simp only [Res.val.injEq] at hx
      subst hx
      rw [storeType_long]
      exact key _ (covers_num dict hc hi)
  · next f hf =>
      obtain ⟨x, _, hx⟩ := ofOption_val h
      subst hx
      exact key _ (covers_num dict hc hf)
  · next f hf =>
      obtain ⟨x, _, hx⟩ := ofOption_val h
      subst hx
      exact key _ (covers_num dict hc hf)

theorem NumPair.cases (L : Lib) {v w : DV} {p : NumPair} (h : NumPair.ofDV L v w = some p) :
    ∃ n m, Num.ofDV v = some n ∧ Num.ofDV w = some m ∧
      ((∃ a b, p = .int a b ∧ n.ty = 2 ∧ m.ty = 2) ∨ (∃ a b, p = .float a b ∧ n.ty = 3 ∧ m.ty = 3) ∨
        (∃ a b, p = .double a b ∧ ((n.ty = 4 ∧ m.ty = 4) ∨ n.ty ≠ m.ty))) := by
  unfold NumPair.ofDV at h
  cases hn : Num.ofDV v with
  | none => rw [hn] at h; simp at h
  | some n =>
      cases hm : Num.ofDV w with
      | none => rw [hn, hm] at h; simp at h
      | some m =>
          rw [hn, hm] at h
          refine ⟨n, m, rfl, rfl, ?_⟩
          cases n <;> cases m <;> simp only [Option.some.injEq] at h <;> subst h <;> simp [Num.ty]

theorem numBin_ty (L : Lib) {fi : Int64 → Int64 → Res Int64} {ff : F32 → F32 → Option F32}
    {fd : F64 → F64 → Option F64} {v w r : DV} {s s' : TypeSet} (hv : Covers dict v s)
    (hw : Covers dict w s') (h : numBin L fi ff fd v w = .val r) :
    storeType dict r ∈ TypeSet.types (TyProp.upcast.propagate [s', s]) := by
  unfold numBin at h
  cases hp : NumPair.ofDV L v w with
  | none => rw [hp] at h; simp at h
  | some p =>
      rw [hp] at h
      obtain ⟨n, m, hn, hm, hcase⟩ := NumPair.cases L hp
      have h1 := covers_num dict hv hn
      have h2 := covers_num dict hw hm
      rcases hcase with ⟨a, b, rfl, hnt, hmt⟩ | ⟨a, b, rfl, hnt, hmt⟩ | ⟨a, b, rfl, hty⟩
      · obtain ⟨x, _, hx⟩ := Res.bind_eq_val.mp h
        simp only [Res.val.injEq] at hx
        subst hx
        rw [storeType_long]
        refine upcast_same (by simp) (by simp) ?_
        rw [hnt] at h1; rw [hmt] at h2
        simp [h1, h2]
      · obtain ⟨x, _, hx⟩ := ofOption_val h
        subst hx
        refine upcast_same (t := 3) (by simp) (by simp) ?_
        rw [hnt] at h1; rw [hmt] at h2
        simp [h1, h2]
      · obtain ⟨x, _, hx⟩ := ofOption_val h
        subst hx
        rcases hty with ⟨hnt, hmt⟩ | hne
        · refine upcast_same (t := 4) (by simp) (by simp) ?_
          rw [hnt] at h1; rw [hmt] at h2
          simp [h1, h2]
        · exact upcast_mixed hne (s := s) (s' := s') (by simp) (by simp) h1 h2 (by simp)

theorem mapM_some {α β : Type} {f : α → Option β} : ∀ {xs : List α} {ys : List β}, xs.mapM f = some ys →
    List.Forall₂ (fun x y => f x = some y) xs ys
  | [], ys, h => by simp at h; subst h; exact .nil
  | x :: xs, ys, h => by
      rw [List.mapM_cons] at h
      cases hx : f x with
      | none => rw [hx] at h; simp at h
      | some y =>
          rw [hx] at h
          cases hr : xs.mapM f with
          | none => rw [hr] at h; simp at h
          | some zs =>
              rw [hr] at h
              simp at h
              subst h
              exact .cons hx (mapM_some hr)

theorem NumList.collect_ty {x : Num} {xs : List Num} {l : NumList}
    (h : NumList.collect (x :: xs) = some l) :
    ((∃ is, l = .int is) ∧ x.ty = 2) ∨ ((∃ is, l = .float is) ∧ x.ty = 3) ∨
      ((∃ is, l = .double is) ∧ x.ty = 4) := by
  cases x <;> simp only [NumList.collect, Option.map_eq_some_iff] at h <;>
    obtain ⟨is, _, rfl⟩ := h <;> simp [Num.ty]

theorem Num.sameType_ty {x y : Num} : x.sameType y = true ↔ x.ty = y.ty := by
  cases x <;> cases y <;> simp [Num.sameType, Num.ty]

/-- The types of the numbers of a list, as the n-ary functions see them. -/
theorem NumList.cases (L : Lib) {vs : List DV} {l : NumList} (h : NumList.ofDVCast L vs = some l) :
    ∃ ns, List.Forall₂ (fun v n => Num.ofDV v = some n) vs ns ∧ ns ≠ [] ∧
      (((∃ is, l = .int is) ∧ ∀ n ∈ ns, n.ty = 2) ∨ ((∃ is, l = .float is) ∧ ∀ n ∈ ns, n.ty = 3) ∨
        ((∃ is, l = .double is) ∧ ((∀ n ∈ ns, n.ty = 4) ∨ ∃ n ∈ ns, ∃ m ∈ ns, n.ty ≠ m.ty))) := by
  unfold NumList.ofDVCast at h
  cases hns : vs.mapM Num.ofDV with
  | none => rw [hns] at h; simp at h
  | some ns =>
      rw [hns] at h
      refine ⟨ns, mapM_some hns, ?_⟩
      cases ns with
      | nil => simp at h
      | cons x xs =>
          refine ⟨by simp, ?_⟩
          simp only at h
          split_ifs at h with hall
          · have hall' : ∀ y ∈ x :: xs, y.ty = x.ty := fun y hy =>
              Num.sameType_ty.mp (List.all_eq_true.mp hall y hy)
            rcases NumList.collect_ty h with ⟨hl, hx⟩ | ⟨hl, hx⟩ | ⟨hl, hx⟩
            · exact Or.inl ⟨hl, fun n hn => (hall' n hn).trans hx⟩
            · exact Or.inr (Or.inl ⟨hl, fun n hn => (hall' n hn).trans hx⟩)
            · exact Or.inr (Or.inr ⟨hl, Or.inl fun n hn => (hall' n hn).trans hx⟩)
          · simp only [Option.some.injEq] at h
            subst h
            refine Or.inr (Or.inr ⟨⟨_, rfl⟩, Or.inr ?_⟩)
            rw [List.all_eq_true] at hall
            push Not at hall
            obtain ⟨y, hy, hyx⟩ := hall
            exact ⟨y, hy, x, by simp, fun hh => hyx (Num.sameType_ty.mpr hh)⟩

theorem covers_list {vs : List DV} {ss : List TypeSet} {ns : List Num}
    (hc : List.Forall₂ (Covers dict) vs ss) (hn : List.Forall₂ (fun v n => Num.ofDV v = some n) vs ns) :
    List.Forall₂ (fun n s => n.ty ∈ TypeSet.types s) ns ss := by
  induction hc generalizing ns with
  | nil => cases hn; exact .nil
  | cons h _ ih => cases hn with
    | cons h' hn' => exact .cons (covers_num dict h h') (ih hn')

theorem forall2_left {α β : Type} {R : α → β → Prop} {xs : List α} {ys : List β} (h : List.Forall₂ R xs ys)
    {x : α} (hx : x ∈ xs) : ∃ y ∈ ys, R x y := by
  induction h with
  | nil => simp at hx
  | cons hr _ ih =>
      rcases List.mem_cons.mp hx with rfl | hx
      · exact ⟨_, by simp, hr⟩
      · obtain ⟨y, hy, hxy⟩ := ih hx
        exact ⟨y, by simp [hy], hxy⟩

theorem forall2_right {α β : Type} {R : α → β → Prop} {xs : List α} {ys : List β} (h : List.Forall₂ R xs ys)
    {y : β} (hy : y ∈ ys) : ∃ x ∈ xs, R x y := by
  induction h with
  | nil => simp at hy
  | cons hr _ ih =>
      rcases List.mem_cons.mp hy with rfl | hy
      · exact ⟨_, by simp, hr⟩
      · obtain ⟨x, hx, hxy⟩ := ih hy
        exact ⟨x, by simp [hx], hxy⟩

theorem two_members {α : Type} {xs : List α} {a b : α} (ha : a ∈ xs) (hb : b ∈ xs) (h : a ≠ b) :
    1 < xs.length := by
  match xs with
  | [] => simp at ha
  | [x] => simp at ha hb; exact absurd (ha.trans hb.symm) h
  | _ :: _ :: _ => simp

theorem numNary_ty (L : Lib) {fi : List Int64 → Res Int64} {ff : List F32 → Option F32}
    {fd : List F64 → Option F64} {vs : List DV} {r : DV} {ss : List TypeSet}
    (hv : List.Forall₂ (Covers dict) vs ss) (h : numNary L fi ff fd vs.reverse = .val r) :
    storeType dict r ∈ TypeSet.types (TyProp.upcast.propagate ss) := by
  unfold numNary at h
  cases hp : NumList.ofDVCast L vs.reverse with
  | none => rw [hp] at h; simp at h
  | some l =>
      rw [hp] at h
      obtain ⟨ns, hns, hne, hcase⟩ := NumList.cases L hp
      have hv' : List.Forall₂ (Covers dict) vs.reverse ss.reverse := List.rel_reverse hv
      have hcov := covers_list dict hv' hns
      have hssne : ss ≠ [] := by
        rintro rfl
        simp at hcov
        exact hne hcov
      have hto : ∀ s ∈ ss, ∃ n ∈ ns, n.ty ∈ TypeSet.types s := fun s hs =>
        forall2_right hcov (by simpa using hs)
      rcases hcase with ⟨⟨is, rfl⟩, hty⟩ | ⟨⟨is, rfl⟩, hty⟩ | ⟨⟨is, rfl⟩, hty⟩
      · obtain ⟨x, _, hx⟩ := Res.bind_eq_val.mp h
        simp only [Res.val.injEq] at hx
        subst hx
        rw [storeType_long]
        refine upcast_same (by simp) hssne ?_
        intro s hs
        obtain ⟨n, hn, hns'⟩ := hto s hs
        rw [hty n hn] at hns'; exact hns'
      · obtain ⟨x, _, hx⟩ := ofOption_val h
        subst hx
        refine upcast_same (t := 3) (by simp) hssne ?_
        intro s hs
        obtain ⟨n, hn, hns'⟩ := hto s hs
        rw [hty n hn] at hns'; exact hns'
      · obtain ⟨x, _, hx⟩ := ofOption_val h
        subst hx
        rcases hty with hty | ⟨n, hn, m, hm, hne'⟩
        · refine upcast_same (t := 4) (by simp) hssne ?_
          intro s hs
          obtain ⟨n, hn, hns'⟩ := hto s hs
          rw [hty n hn] at hns'; exact hns'
        · obtain ⟨s, hs, hs'⟩ := forall2_left hcov hn
          obtain ⟨u, hu, hu'⟩ := forall2_left hcov hm
          have hlen : 1 < ss.length := by
            have h1 := two_members hn hm (fun e => hne' (by rw [e]))
            have h2 := hcov.length_eq
            simp at h2
            omega
          exact upcast_mixed hne' (by simpa using hs) (by simpa using hu) hs' hu' hlen

theorem intNary_ty {f : List Int64 → Int64} {vs : List DV} {r : DV} (h : intNary f vs = .val r) :
    storeType dict r ∈ TypeSet.types (TypeSet.ofType 2) := by
  unfold intNary at h
  split at h
  · simp only [Res.val.injEq] at h; subst h
    rw [storeType_long, mem_ofType]
  · simp at h

theorem intBin_ty (L : Lib) {f : Int64 → Int64 → Res Int64} {v w r : DV} (h : intBin L f v w = .val r) :
    storeType dict r ∈ TypeSet.types (TypeSet.ofType 2) := by
  unfold intBin at h
  split at h
  · obtain ⟨x, _, hx⟩ := Res.bind_eq_val.mp h
    simp only [Res.val.injEq] at hx; subst hx
    rw [storeType_long, mem_ofType]
  · simp at h

theorem bool_ty (b : Bool) : storeType dict (.bool b) ∈ TypeSet.types idTypes :=
  id_of_domain dict (by simp [DV.domain])
theorem str_ty (s : String) : storeType dict (.str s) ∈ TypeSet.types idTypes :=
  id_of_domain dict (by simp [DV.domain])
theorem iri_ty (s : String) : storeType dict (.iri s) ∈ TypeSet.types idTypes :=
  id_of_domain dict (by simp [DV.domain])
theorem lang_ty (s t : String) : storeType dict (.lang s t) ∈ TypeSet.types idTypes :=
  id_of_domain dict (by simp [DV.domain])
theorem long_ty (i : Int64) : storeType dict (.long i) ∈ TypeSet.types (TypeSet.ofType 2) := by
  rw [storeType_long, mem_ofType]

theorem castIntString_ty {cs : List Char} {r : DV} (h : castIntString cs = .val r) :
    storeType dict r ∈ TypeSet.types (TypeSet.ofType 2) := by
  unfold castIntString at h
  split_ifs at h
  · split at h
    · simp at h
    · obtain ⟨x, _, rfl⟩ := ofOption_val h; exact long_ty dict x
  · obtain ⟨x, _, rfl⟩ := ofOption_val h; exact long_ty dict x

/-- What a unary function computes has a predicted type. -/
theorem unEval_ty (L : Lib) (f : UFn) {v r : DV} {s : TypeSet} (hc : Covers dict v s)
    (h : unEval L f v = .val r) : storeType dict r ∈ TypeSet.types ((unTypes f).propagate [s]) := by
  cases f with
  | castInt =>
      show _ ∈ TypeSet.types (TypeSet.ofType 2)
      simp only [unEval] at h
      cases v <;> simp only [castInt] at h
      case str => exact castIntString_ty dict h
      case other => exact castIntString_ty dict h
      case float => obtain ⟨x, _, rfl⟩ := ofOption_val h; exact long_ty dict x
      case double => obtain ⟨x, _, rfl⟩ := ofOption_val h; exact long_ty dict x
      case bool => simp only [Res.val.injEq] at h; subst h; exact long_ty dict _
      case ulong =>
        split_ifs at h with hn
        simp only [Res.val.injEq] at h; subst h
        rw [mem_ofType]; exact storeType_ulong dict hn
      case long => simp only [Res.val.injEq] at h; subst h; exact long_ty dict _
      all_goals simp at h
  | castFloat =>
      show _ ∈ TypeSet.types (TypeSet.ofType 3)
      rw [mem_ofType]
      simp only [unEval] at h
      cases v <;> simp only [castFloat] at h
      case str => obtain ⟨x, _, rfl⟩ := ofOption_val h; rfl
      case other => obtain ⟨x, _, rfl⟩ := ofOption_val h; rfl
      case double => split at h <;> simp at h; subst h; rfl
      all_goals (simp at h)
      all_goals (subst h; rfl)
  | castDouble =>
      show _ ∈ TypeSet.types (TypeSet.ofType 4)
      rw [mem_ofType]
      simp only [unEval] at h
      cases v <;> simp only [castDouble] at h
      case str => obtain ⟨x, _, rfl⟩ := ofOption_val h; rfl
      case other => obtain ⟨x, _, rfl⟩ := ofOption_val h; rfl
      all_goals (simp at h)
      all_goals (subst h; rfl)
  | abs | ceil | cos | floor | neg | round | sin | sqrt | tan => exact numUn_ty dict hc h
  | strLength =>
      show _ ∈ TypeSet.types (TypeSet.ofType 2)
      simp only [unEval] at h
      split at h
      · simp at h
      · exact count_ty dict h
  | booleanNegation =>
      obtain ⟨x, _, rfl⟩ := ofOption_val h; exact bool_ty dict _
  | castIri =>
      show _ ∈ TypeSet.types idTypes
      simp only [unEval] at h
      cases v <;> simp [castIri] at h
      all_goals (subst h; exact iri_ty dict _)
  | datatype =>
      show _ ∈ TypeSet.types idTypes
      simp only [unEval] at h
      split at h
      · simp only [Res.val.injEq] at h; subst h; exact iri_ty dict _
      · simp at h
  | languageTag =>
      show _ ∈ TypeSet.types idTypes
      simp only [unEval] at h
      split at h
      · simp at h
      · simp only [Res.val.injEq] at h; subst h; exact str_ty dict _
  | strReverse | strLower | strUpper =>
      show _ ∈ TypeSet.types idTypes
      simp only [unEval, strMap] at h
      split at h
      · simp at h
      · simp only [Res.val.injEq] at h; subst h; exact mkLang_ty dict L _ _
  | uriEncode =>
      show _ ∈ TypeSet.types idTypes
      simp only [unEval] at h
      split at h
      · simp at h
      · simp only [Res.val.injEq] at h; subst h; exact str_ty dict _
  | uriDecode =>
      show _ ∈ TypeSet.types idTypes
      simp only [unEval] at h
      split at h
      · simp at h
      · obtain ⟨x, _, rfl⟩ := ofOption_val h; exact str_ty dict _
  | canonicalString | lexicalValue =>
      show _ ∈ TypeSet.types idTypes
      simp only [unEval, Res.val.injEq] at h; subst h; exact str_ty dict _
  | isDouble | isFloat | isInteger | isIri | isNull | isNumeric | isString =>
      show _ ∈ TypeSet.types idTypes
      simp only [unEval, Res.val.injEq] at h; subst h; exact bool_ty dict _

theorem numCmp_ty (L : Lib) {fi : Int64 → Int64 → Bool} {fk : Int → Int → Bool} {v w r : DV}
    (h : numCmp L fi fk v w = .val r) : storeType dict r ∈ TypeSet.types idTypes := by
  unfold numCmp at h
  split at h <;> simp only [Res.val.injEq, reduceCtorEq] at h <;> subst h <;> exact bool_ty dict _

/-- What a binary function computes has a predicted type. -/
theorem binEval_ty (L : Lib) (f : BFn) {v w r : DV} {s s' : TypeSet} (hv : Covers dict v s)
    (hw : Covers dict w s') (h : binEval L f v w = .val r) :
    storeType dict r ∈ TypeSet.types ((binTypes f).propagate [s', s]) := by
  cases f with
  | add | sub | mul | div | log | pow | rem => exact numBin_ty dict L hv hw h
  | shl | shr | shru => exact intBin_ty dict L h
  | lt | le | gt | ge => simp only [binEval] at h; exact numCmp_ty dict L h
  | equals | unequals =>
      show _ ∈ TypeSet.types idTypes
      simp only [binEval, Res.val.injEq] at h; subst h; exact bool_ty dict _
  | languageString =>
      show _ ∈ TypeSet.types idTypes
      simp only [binEval] at h
      split at h
      · simp only [Res.val.injEq] at h; subst h; exact lang_ty dict _ _
      · simp at h
  | strCompare =>
      show _ ∈ TypeSet.types (TypeSet.ofType 2)
      simp only [binEval, strCompare] at h
      split at h
      · simp at h
      · simp only [Res.val.injEq] at h; subst h; exact long_ty dict _
  | strLevenshtein =>
      show _ ∈ TypeSet.types (TypeSet.ofType 2)
      simp only [binEval, strLevenshtein] at h
      split at h
      · simp at h
      · exact count_ty dict h
  | strAfter | strBefore =>
      show _ ∈ TypeSet.types idTypes
      simp only [binEval, strAfter, strBefore] at h
      split at h
      · simp at h
      · split at h
        · simp only [Res.val.injEq] at h; subst h; exact mkLang_ty dict L _ _
        · simp only [Res.val.injEq] at h; subst h; exact str_ty dict _
  | strContains | strRegex =>
      show _ ∈ TypeSet.types idTypes
      simp only [binEval, strContains, strRegex] at h
      split at h
      · simp at h
      · simp only [Res.val.injEq] at h; subst h; exact bool_ty dict _
  | strEnds | strStarts =>
      show _ ∈ TypeSet.types idTypes
      simp only [binEval, strEnds, strStarts] at h
      split at h
      · simp at h
      · split_ifs at h <;> simp only [Res.val.injEq] at h <;> subst h <;> exact bool_ty dict _
  | strSubstring =>
      show _ ∈ TypeSet.types idTypes
      simp only [binEval, strSubstring] at h
      split at h
      · simp at h
      · split at h
        · simp at h
        · split_ifs at h <;> simp only [Res.val.injEq] at h <;> subst h <;> exact mkLang_ty dict L _ _

/-- What a ternary function computes has a predicted type. -/
theorem terEval_ty (L : Lib) (f : TFn) {u v w r : DV} {ss : List TypeSet}
    (h : terEval L f u v w = .val r) :
    storeType dict r ∈ TypeSet.types ((terTypes f).propagate ss) := by
  cases f
  show _ ∈ TypeSet.types idTypes
  simp only [terEval, strSubstringLength] at h
  split at h
  · simp at h
  · split at h
    · simp at h
    · split at h
      · simp at h
      · split_ifs at h <;> simp only [Res.val.injEq] at h <;> subst h <;> exact mkLang_ty dict L _ _

/-- What an n-ary function computes has a predicted type. -/
theorem naryEval_ty (L : Lib) (f : NFn) {vs : List DV} {r : DV} {ss : List TypeSet}
    (hv : List.Forall₂ (Covers dict) vs ss) (h : naryEval L f vs.reverse = .val r) :
    storeType dict r ∈ TypeSet.types ((naryTypes f).propagate ss) := by
  cases f with
  | max | min | luka | sum | prod => exact numNary_ty dict L hv h
  | bitAnd | bitOr | bitXor => exact intNary_ty dict h
  | conjunction | disjunction =>
      obtain ⟨x, _, rfl⟩ := ofOption_val h; exact bool_ty dict _
  | concat =>
      show _ ∈ TypeSet.types idTypes
      simp only [naryEval, strConcat] at h
      split at h
      · simp at h
      · simp only [Res.val.injEq] at h; subst h; exact mkLang_ty dict L _ _

theorem const_ty (c : DV) : Covers dict c c.domain.storageType := by
  unfold Covers Big storeType
  cases c.domain <;>
    simp only [ValueDomain.storageType, mem_ofType, mem_idTypes, true_or, or_true, reduceCtorEq, or_false]
  all_goals split_ifs <;> simp

theorem popN_rel {A B : Type} {R : A → B → Prop} : ∀ (k : Nat) {xs : List A} {ys : List B} {r : List A × List A},
    List.Forall₂ R xs ys → popN k xs = .val r →
    ∃ q, popN k ys = .val q ∧ List.Forall₂ R r.1 q.1 ∧ List.Forall₂ R r.2 q.2
  | 0, xs, ys, r, h, hp => by
      simp only [popN, Res.val.injEq] at hp; subst hp
      exact ⟨_, rfl, .nil, h⟩
  | k + 1, [], ys, r, h, hp => by simp [popN] at hp
  | k + 1, x :: xs, ys, r, h, hp => by
      cases h with
      | cons hxy ht =>
          simp only [popN] at hp ⊢
          obtain ⟨q, hq, hq'⟩ := Res.bind_eq_val.mp hp
          obtain ⟨q', h1, h2, h3⟩ := popN_rel k ht hq
          simp only [Res.val.injEq] at hq'; subst hq'
          rw [h1]
          exact ⟨_, rfl, .cons hxy h2, h3⟩

/-- One operation: the prediction runs in step with the evaluation. -/
theorem typeStep_sound (L : Lib) {vals : List DV} {types : List TypeSet} {thisV : Option DV}
    {thisT : Option TypeSet} (hr : List.Forall₂ (Covers dict) vals types)
    (ht : ∀ v, thisV = some v → ∃ s, thisT = some s ∧ Covers dict v s)
    {op : Op} {st st' : List DV} {ts : List TypeSet} (hst : List.Forall₂ (Covers dict) st ts)
    (h : stepOp (sem L) vals thisV st op = .val st') :
    ∃ ts', typeStep types thisT ts op = .val ts' ∧ List.Forall₂ (Covers dict) st' ts' ∧
      ((∀ x, op ≠ .push x) → ∀ v s, st'.head? = some v → ts'.head? = some s →
        storeType dict v ∈ TypeSet.types s) := by
  cases op with
  | push x =>
      cases x with
      | const c =>
          simp only [stepOp, Res.val.injEq] at h; subst h
          exact ⟨_, rfl, .cons (const_ty dict c) hst, fun hn => absurd rfl (hn _)⟩
      | ref i =>
          simp only [stepOp] at h
          cases hi : vals[i]? with
          | none => rw [hi] at h; simp at h
          | some v =>
              rw [hi] at h
              simp only [Res.val.injEq] at h; subst h
              obtain ⟨hil, hiv⟩ := List.getElem?_eq_some_iff.mp hi
              have hil' : i < types.length := by rw [← hr.length_eq]; exact hil
              have := hr.get hil hil'
              simp only [List.get_eq_getElem, hiv] at this
              refine ⟨types[i] :: ts, ?_, .cons this hst, fun hn => absurd rfl (hn _)⟩
              simp [typeStep, List.getElem?_eq_getElem hil', popPush, popN, TyProp.propagate]
      | this =>
          simp only [stepOp] at h
          cases hv : thisV with
          | none => rw [hv] at h; simp at h
          | some v =>
              rw [hv] at h
              simp only [Res.val.injEq] at h; subst h
              obtain ⟨s, hs, hc⟩ := ht v hv
              refine ⟨s :: ts, ?_, .cons hc hst, fun hn => absurd rfl (hn _)⟩
              simp [typeStep, hs, popPush, popN, TyProp.propagate]
  | un f =>
      cases hst with
      | nil => simp [stepOp] at h
      | cons h1 hst =>
          obtain ⟨r, hr', hr''⟩ := Res.bind_eq_val.mp h
          simp only [Res.val.injEq] at hr''; subst hr''
          have := unEval_ty dict L f h1 hr'
          refine ⟨_, rfl, .cons (Or.inl this) hst, ?_⟩
          intro _ v s hv hs
          simp at hv hs; subst hv; subst hs; exact this
  | bin f =>
      cases hst with
      | nil => simp [stepOp] at h
      | cons h1 hst =>
          cases hst with
          | nil => simp [stepOp] at h
          | cons h2 hst =>
              obtain ⟨r, hr', hr''⟩ := Res.bind_eq_val.mp h
              simp only [Res.val.injEq] at hr''; subst hr''
              have := binEval_ty dict L f h2 h1 hr'
              refine ⟨_, rfl, .cons (Or.inl this) hst, ?_⟩
              intro _ v s hv hs
              simp at hv hs; subst hv; subst hs; exact this
  | ter f =>
      cases hst with
      | nil => simp [stepOp] at h
      | cons h1 hst =>
          cases hst with
          | nil => simp [stepOp] at h
          | cons h2 hst =>
              cases hst with
              | nil => simp [stepOp] at h
              | cons h3 hst =>
                  obtain ⟨r, hr', hr''⟩ := Res.bind_eq_val.mp h
                  simp only [Res.val.injEq] at hr''; subst hr''
                  have := fun ss => terEval_ty dict L f (ss := ss) hr'
                  refine ⟨_, rfl, .cons (Or.inl (this _)) hst, ?_⟩
                  intro _ v s hv hs
                  simp at hv hs; subst hv; subst hs; exact this _
  | nary f k =>
      obtain ⟨r, hr', hr''⟩ := Res.bind_eq_val.mp h
      obtain ⟨w, hw, hw'⟩ := Res.bind_eq_val.mp hr''
      simp only [Res.val.injEq] at hw'; subst hw'
      obtain ⟨q, hq, hq1, hq2⟩ := popN_rel k hst hr'
      have := naryEval_ty dict L f hq1 hw
      refine ⟨_, ?_, .cons (Or.inl this) hq2, ?_⟩
      · simp only [typeStep, popPush, hq]; rfl
      · intro _ v s hv hs
        simp at hv hs; subst hv; subst hs; exact this

theorem typeOps_sound (L : Lib) {vals : List DV} {types : List TypeSet} {thisV : Option DV}
    {thisT : Option TypeSet} (hr : List.Forall₂ (Covers dict) vals types)
    (ht : ∀ v, thisV = some v → ∃ s, thisT = some s ∧ Covers dict v s) :
    ∀ (ops : List Op) {st st' : List DV} {ts : List TypeSet}, List.Forall₂ (Covers dict) st ts →
    runOps (sem L) vals thisV ops st = .val st' →
    ∃ ts', typeOps types thisT ops ts = .val ts' ∧ List.Forall₂ (Covers dict) st' ts' ∧
      (∀ op, ops.getLast? = some op → (∀ x, op ≠ .push x) →
        ∀ v s, st'.head? = some v → ts'.head? = some s → storeType dict v ∈ TypeSet.types s)
  | [], st, st', ts, hst, h => by
      simp only [runOps, Res.val.injEq] at h; subst h
      exact ⟨ts, rfl, hst, by simp⟩
  | op :: ops, st, st', ts, hst, h => by
      obtain ⟨st1, h1, h2⟩ := Res.bind_eq_val.mp h
      obtain ⟨ts1, g1, g2, g3⟩ := typeStep_sound dict L hr ht hst h1
      obtain ⟨ts', k1, k2, k3⟩ := typeOps_sound L hr ht ops g2 h2
      refine ⟨ts', ?_, k2, ?_⟩
      · simp only [typeOps, g1]; exact k1
      · intro o ho hnp
        cases ops with
        | nil =>
            simp at ho; subst ho
            simp only [runOps, Res.val.injEq] at h2; subst h2
            simp only [typeOps, Res.val.injEq] at k1; subst k1
            exact g3 hnp
        | cons p ps =>
            exact k3 o (by simpa [List.getLast?_cons_cons] using ho) hnp

end

/-! ### Theorems -/

/-- **C39.** If every input value is stored under a type that is predicted for its column, then the
result of any compiled expression that applies at least one function is stored under a type that is
predicted for the result, for every program, all values, and whatever identifiers the dictionary
uses. In particular the prediction does not fail. -/
theorem type_prediction_sound (L : Lib) (dict : DV → Nat) {p : SProg DV UFn BFn TFn NFn}
    {vals : List DV} {types : List TypeSet} {thisV : Option DV} {thisT : Option TypeSet} {r : DV}
    (hr : List.Forall₂ (fun v s => storeType dict v ∈ TypeSet.types s) vals types)
    (ht : ∀ v, thisV = some v → ∃ s, thisT = some s ∧ storeType dict v ∈ TypeSet.types s)
    (hlast : ∀ x, p.ops.getLast? ≠ some (.push x))
    (h : p.eval (sem L) vals thisV = .val r) :
    ∃ s, typeProp p types thisT = .val s ∧ storeType dict r ∈ TypeSet.types s := by
  obtain ⟨st, h1, h2⟩ := Res.bind_eq_val.mp h
  obtain ⟨ts, k1, k2, k3⟩ := typeOps_sound dict L (hr.imp fun _ _ h => Or.inl h)
    (fun v hv => (ht v hv).imp fun s hs => ⟨hs.1, Or.inl hs.2⟩) p.ops .nil h1
  cases st with
  | nil => simp at h2
  | cons v st =>
      simp only [Res.val.injEq] at h2
      subst h2
      cases k2 with
      | cons hc hrest =>
          refine ⟨_, by simp only [typeProp, k1]; rfl, ?_⟩
          cases hl : p.ops.getLast? with
          | none =>
              rw [List.getLast?_eq_none_iff] at hl
              simp [hl, runOps] at h1
          | some op => exact k3 op hl (fun x hx => hlast x (by rw [hl, hx])) _ _ rfl rfl

/-- The same for function trees, as the function operator compiles them: every tree that is neither a
constant nor a reference. -/
theorem type_prediction_tree {R : Type} [DecidableEq R] (L : Lib) (dict : DV → Nat)
    {t : FTree DV UFn BFn TFn NFn R} {map : R → Option Nat} {this : Option R} {p : SProg DV UFn BFn TFn NFn}
    (hp : SProg.fromTree map this t = .val p) (hc : ∀ c, t ≠ .const c) (href : ∀ x, t ≠ .ref x)
    {vals : List DV} {types : List TypeSet} {thisV : Option DV} {thisT : Option TypeSet} {r : DV}
    (hr : List.Forall₂ (fun v s => storeType dict v ∈ TypeSet.types s) vals types)
    (ht : ∀ v, thisV = some v → ∃ s, thisT = some s ∧ storeType dict v ∈ TypeSet.types s)
    (h : p.eval (sem L) vals thisV = .val r) :
    ∃ s, typeProp p types thisT = .val s ∧ storeType dict r ∈ TypeSet.types s := by
  refine type_prediction_sound L dict hr ht ?_ h
  have hops : buildOps map this t = .val p.ops := by
    unfold SProg.fromTree at hp
    split at hp
    · next ops ho =>
        split at hp
        · next q hq =>
            simp only [Res.val.injEq] at hp
            subst hp
            unfold SProg.new at hq
            obtain ⟨hm, _, h2⟩ := Res.bind_eq_val.mp hq
            split_ifs at h2
            simp only [Res.val.injEq] at h2
            rw [ho, ← h2]
        · simp at hp
    · simp at hp
  intro x hx
  cases t with
  | const c => exact hc c rfl
  | ref y => exact href y rfl
  | un f a =>
      rw [buildOps] at hops
      obtain ⟨xs, _, h2⟩ := Res.bind_eq_val.mp hops
      simp only [Res.val.injEq] at h2
      rw [← h2] at hx; simp at hx
  | bin f a b =>
      rw [buildOps] at hops
      obtain ⟨xs, _, h2⟩ := Res.bind_eq_val.mp hops
      obtain ⟨ys, _, h3⟩ := Res.bind_eq_val.mp h2
      simp only [Res.val.injEq] at h3
      rw [← h3] at hx; simp at hx
  | ter f a b c =>
      rw [buildOps] at hops
      obtain ⟨xs, _, h2⟩ := Res.bind_eq_val.mp hops
      obtain ⟨ys, _, h3⟩ := Res.bind_eq_val.mp h2
      obtain ⟨zs, _, h4⟩ := Res.bind_eq_val.mp h3
      simp only [Res.val.injEq] at h4
      rw [← h4] at hx; simp at hx
  | nary f as =>
      rw [buildOps] at hops
      obtain ⟨xs, _, h2⟩ := Res.bind_eq_val.mp hops
      simp only [Res.val.injEq] at h2
      rw [← h2] at hx; simp at hx

/-- The storage type of a constant is predicted correctly, except for integers beyond 64 signed bits. -/
theorem constant_prediction_partial (dict : DV → Nat) (c : DV) (h : c.domain ≠ .unsignedLong) :
    storeType dict c ∈ TypeSet.types c.domain.storageType :=
  (const_ty dict c).resolve_right h

/-- The prediction for constants is wrong for every integer beyond 64 signed bits, e.g. for
`18446744073709551615`: such a value is stored in the dictionary, but the prediction only names the
type of 64-bit integers. -/
theorem constant_prediction_wrong (dict : DV → Nat) (c : DV) (h : c.domain = .unsignedLong) :
    storeType dict c ∉ TypeSet.types c.domain.storageType := by
  rw [h]
  simp only [ValueDomain.storageType, mem_ofType, storeType, h]
  split_ifs <;> decide

example : (DV.ulong 18446744073709551615).domain = .unsignedLong := by decide

/-! ### A case that meets the hypotheses -/

/-- `?x + 1` for a column of integers and doubles. -/
def exSum : SProg DV UFn BFn TFn NFn := ⟨2, [.push (.ref 0), .push (.const (.long 1)), .bin .add]⟩

/-- Integers and doubles. -/
def exTypes : TypeSet := (TypeSet.ofType 2).union (TypeSet.ofType 4)

example (L : Lib) : exSum.eval (sem L) [.long 41] none = .val (.long 42) := by
  have h : I64.add 41 1 = .val 42 := by decide
  simp [SProg.eval, exSum, runOps, stepOp, sem, binEval, numBin, NumPair.ofDV, Num.ofDV, h]

example (dict : DV → Nat) :
    List.Forall₂ (fun v s => storeType dict v ∈ TypeSet.types s) [.long 41] [exTypes] :=
  .cons (by rw [storeType_long]; decide) .nil

/-- The prediction is precise enough to exclude floats and dictionary values here. -/
example : ∃ s, typeProp exSum [exTypes] none = .val s ∧ TypeSet.types s = [2, 4] :=
  ⟨_, rfl, by decide⟩

end Verif.Fn
