import Verif.DataDomain

/-!
# Evaluating operations over data values

* No built-in function makes nulls, so that data values satisfy what the chase needs of them (`NullDom`).
* The value of an operation in the domain is that of its function tree (C14), for which the properties of the individual
  functions (C15, C40) are proved.
-/
set_option linter.unusedSimpArgs false
set_option linter.unusedVariables false
set_option linter.unusedSectionVars false

namespace Verif.Data
open Verif.Fn

/-! ### No function makes nulls -/

theorem bind_ne {A B : Type} {x : Res A} {f : A → Res B} {b : B} (h : ∀ a, f a ≠ .val b) : (x >>= f) ≠ .val b := by
  cases x <;> simp [h]

theorem ofOption_ne {A B : Type} {x : Option A} {f : A → B} {b : B} (h : ∀ a, f a ≠ b) : Res.ofOption (x.map f) ≠ .val b := by
  cases x <;> simp [Res.ofOption, h]

theorem mkLang_ne (L : Lib) (s : String) (t : Option String) (n : Nat) : mkLang L s t ≠ .null n := by cases t <;> simp [mkLang]

theorem numUn_ne {fi : Int64 → Res Int64} {ff : F32 → Option F32} {fd : F64 → Option F64} {v : DV} {n : Nat} :
    numUn fi ff fd v ≠ .val (.null n) := by
  unfold numUn
  split
  · simp
  · exact bind_ne (by simp)
  · exact ofOption_ne (by simp)
  · exact ofOption_ne (by simp)

theorem numBin_ne {L : Lib} {fi : Int64 → Int64 → Res Int64} {ff : F32 → F32 → Option F32} {fd : F64 → F64 → Option F64}
    {v w : DV} {n : Nat} : numBin L fi ff fd v w ≠ .val (.null n) := by
  unfold numBin
  split
  · simp
  · exact bind_ne (by simp)
  · exact ofOption_ne (by simp)
  · exact ofOption_ne (by simp)

theorem numNary_ne {L : Lib} {fi : List Int64 → Res Int64} {ff : List F32 → Option F32} {fd : List F64 → Option F64}
    {vs : List DV} {n : Nat} : numNary L fi ff fd vs ≠ .val (.null n) := by
  unfold numNary
  split
  · simp
  · exact bind_ne (by simp)
  · exact ofOption_ne (by simp)
  · exact ofOption_ne (by simp)

theorem numCmp_ne {L : Lib} {fi : Int64 → Int64 → Bool} {fk : Int → Int → Bool} {v w : DV} {n : Nat} :
    numCmp L fi fk v w ≠ .val (.null n) := by
  unfold numCmp
  split <;> simp

theorem intBin_ne {L : Lib} {f : Int64 → Int64 → Res Int64} {v w : DV} {n : Nat} : intBin L f v w ≠ .val (.null n) := by
  unfold intBin
  split
  · exact bind_ne (by simp)
  · simp

theorem intNary_ne {f : List Int64 → Int64} {vs : List DV} {n : Nat} : intNary f vs ≠ .val (.null n) := by
  unfold intNary
  split <;> simp

theorem count_ne {m n : Nat} : count m ≠ .val (.null n) := by
  unfold count
  split <;> simp

theorem strMap_ne {L : Lib} {f : String → String} {v : DV} {n : Nat} : strMap L f v ≠ .val (.null n) := by
  unfold strMap
  split
  · simp
  · simpa using mkLang_ne _ _ _ _

theorem castIntString_ne {cs : List Char} {n : Nat} : castIntString cs ≠ .val (.null n) := by
  unfold castIntString
  split
  · split
    · simp
    · exact ofOption_ne (by simp)
  · exact ofOption_ne (by simp)

theorem unEval_ne (L : Lib) (f : UFn) (v : DV) (n : Nat) : unEval L f v ≠ .val (.null n) := by
  cases f <;> simp only [unEval] <;> first
    | exact numUn_ne
    | exact strMap_ne
    | exact ofOption_ne (by simp)
    | (cases v <;> simp [castInt, castDouble, castFloat, castIri]
       <;> first
        | done
        | exact castIntString_ne
        | exact ofOption_ne (by simp)
        | (split <;> simp))
    | skip
  · split
    · simp
    · exact count_ne
  · split
    · simp
    · exact ofOption_ne (by simp)

theorem binEval_ne (L : Lib) (f : BFn) (v w : DV) (n : Nat) : binEval L f v w ≠ .val (.null n) := by
  cases f <;> simp only [binEval] <;> first
    | exact numBin_ne
    | exact numCmp_ne
    | exact intBin_ne
    | skip
  · simp
  · simp
  · split <;> simp
  · unfold strAfter; split
    · simp
    · split
      · simpa using mkLang_ne _ _ _ _
      · simp
  · unfold strBefore; split
    · simp
    · split
      · simpa using mkLang_ne _ _ _ _
      · simp
  · unfold strCompare; split <;> simp
  · unfold strContains; split <;> simp
  · unfold strRegex; split <;> simp
  · unfold strLevenshtein; split
    · simp
    · exact count_ne
  · unfold strEnds; split
    · simp
    · split <;> simp
  · unfold strStarts; split
    · simp
    · split <;> simp
  · unfold strSubstring; split
    · simp
    · split
      · simp
      · dsimp only
        split <;> simpa using mkLang_ne _ _ _ _

theorem terEval_ne (L : Lib) (f : TFn) (u v w : DV) (n : Nat) : terEval L f u v w ≠ .val (.null n) := by
  cases f
  simp only [terEval, strSubstringLength]
  split
  · simp
  · split
    · simp
    · split
      · simp
      · split
        · simpa using mkLang_ne _ _ _ _
        · split
          · simp
          · split
            · simp
            · split
              · simpa using mkLang_ne _ _ _ _
              · split
                · simp
                · simpa using mkLang_ne _ _ _ _

theorem naryEval_ne (L : Lib) (f : NFn) (vs : List DV) (n : Nat) : naryEval L f vs ≠ .val (.null n) := by
  cases f <;> simp only [naryEval] <;> first
    | exact numNary_ne
    | exact intNary_ne
    | exact ofOption_ne (by simp)
    | skip
  unfold strConcat
  split
  · simp
  · simpa using mkLang_ne _ _ _ _

theorem naryTree_null {L : Lib} {f : NFn} {vs : List DV} {t : Tree Empty} {n : Nat}
    (h : naryTree f (vs.map fun v => (.const v : Tree Empty)) = some t) (hv : t.sem (Fn.sem L) (fun e => e.elim) = .val (.null n)) :
    .null n ∈ vs := by
  have key : ∀ ts : List (Tree Empty), (FTree.nary f ts).sem (Fn.sem L) (fun e => e.elim) ≠ .val (.null n) := fun ts => by
    simp only [FTree.sem]
    exact bind_ne fun a => naryEval_ne L f a n
  rcases vs with _ | ⟨v, _ | ⟨w, vs⟩⟩
  · cases f <;> simp only [naryTree, List.map_nil, reduceCtorEq, Option.some.injEq] at h <;> subst h <;> simp [FTree.sem] at hv
  · cases f <;> simp only [naryTree, List.map_cons, List.map_nil, Option.some.injEq] at h <;> subst h <;>
      first
      | exact absurd hv (key _)
      | (simp only [FTree.sem, Res.val.injEq] at hv; simp [hv])
  · cases f <;> simp only [naryTree, List.map_cons, Option.some.injEq] at h <;> subst h <;> exact absurd hv (key _)

theorem opTree_null {L : Lib} {f : OpFn} {vs : List DV} {t : Tree Empty} {n : Nat}
    (h : opTree f (vs.map fun v => (.const v : Tree Empty)) = some t) (hv : t.sem (Fn.sem L) (fun e => e.elim) = .val (.null n)) :
    .null n ∈ vs := by
  have k1 : ∀ g a, (FTree.un g a : Tree Empty).sem (Fn.sem L) (fun e => e.elim) ≠ .val (.null n) := fun g a => by
    simp only [FTree.sem]
    exact bind_ne fun _ => unEval_ne L g _ n
  have k2 : ∀ g a b, (FTree.bin g a b : Tree Empty).sem (Fn.sem L) (fun e => e.elim) ≠ .val (.null n) := fun g a b => by
    simp only [FTree.sem]
    exact bind_ne fun _ => bind_ne fun _ => binEval_ne L g _ _ n
  have k3 : ∀ g a b c, (FTree.ter g a b c : Tree Empty).sem (Fn.sem L) (fun e => e.elim) ≠ .val (.null n) := fun g a b c => by
    simp only [FTree.sem]
    exact bind_ne fun _ => bind_ne fun _ => bind_ne fun _ => terEval_ne L g _ _ _ n
  unfold opTree at h
  split at h
  · cases h; exact absurd hv (k1 _ _)
  · cases h; exact absurd hv (k2 _ _ _)
  · split at h
    · split at h
      · cases h; exact absurd hv (k2 _ _ _)
      · cases h
    · split at h
      · cases h; exact absurd hv (k3 _ _ _ _)
      · cases h
  · exact naryTree_null h hv
  · cases h

section
variable {α : Type} [SVal α] {dict : DV → Nat} {val : α → DV} {sto : DV → α}

theorem eq_null {v : DV} {n : Nat} : v.eq (.null n) = true ↔ v = .null n := by
  cases v <;> simp [DV.eq]

theorem minProc_mem {vals : List α} {a : α} (h : minProc.run vals = some a) : a ∈ vals := by
  by_cases hne : vals = []
  · subst hne; simp [AggProc.run, minProc] at h
  · exact ((min_run hne a).1 h).1

theorem maxProc_mem {vals : List α} {a : α} (h : maxProc.run vals = some a) : a ∈ vals := by
  by_cases hne : vals = []
  · subst hne; simp [AggProc.run, maxProc] at h
  · exact ((max_run hne a).1 h).1

theorem dsum_ne {L : Lib} {vs : List DV} {n : Nat} : dsum L vs ≠ some (.null n) := by
  simp only [dsum, Option.bind_eq_bind]
  cases vs.foldlM (dsumWrite L) ⟨none, none, none⟩ with
  | none => simp
  | some st =>
    simp only [Option.bind_some, dsumFinish]
    cases st.f64 with
    | some t =>
      simp only [Option.bind_eq_bind, Option.pure_def]
      cases dsumOpt L L.i64ToF64 t st.i64 with
      | none => simp
      | some t => cases h : dsumOpt L L.f32ToF64 t st.f32 <;> simp [h]
    | none => cases st.i64 <;> cases st.f32 <;> simp

/-- **No built-in function and no aggregate makes nulls**: this is what the chase needs (`NullDom`). -/
theorem dataNull (L : Lib) (h : StoresValues dict val sto) : letI := dataDom L h; NullDom α := by
  letI := dataDom L h
  refine ⟨fun m n e => ?_, fun n e => ?_, fun n e => ?_, fun k l n e => ?_, fun k l n e => ?_⟩
  · have := (h.sto_eq _ _).1 e
    simpa [DV.eq] using this
  · have := (h.sto_eq _ _).1 e
    simp [DV.eq] at this
  · have := (h.sto_eq _ _).1 e
    simp [DV.eq] at this
  · change ((opFn k).bind fun f => applyFn L f (l.map val)).map sto = some (sto (.null n)) at e
    rw [Option.map_eq_some_iff] at e
    obtain ⟨v, hv, e⟩ := e
    rw [h.sto_eq, eq_null] at e
    subst e
    rw [Option.bind_eq_some_iff] at hv
    obtain ⟨f, -, hv⟩ := hv
    have hm : DV.null n ∈ l.map val := by
      rw [applyFn, Option.bind_eq_some_iff] at hv
      obtain ⟨t, ht, hv⟩ := hv
      refine opTree_null (L := L) ht ?_
      cases hs : FTree.sem (Fn.sem L) (fun e : Empty => (e.elim : Option DV)) t <;> rw [hs] at hv <;> simp [got] at hv
      rw [hv]
    obtain ⟨a, ha, e⟩ := List.mem_map.1 hm
    have : a = sto (.null n) := by rw [← e, h.sto_val]
    rw [this] at ha
    exact ha
  · change applyAgg L val sto k l = some (sto (.null n)) at e
    unfold applyAgg at e
    split at e
    · split_ifs at e
      rw [Option.some.injEq, h.sto_eq, eq_null] at e
      cases e
    · exact mem_aggValues (minProc_mem e)
    · exact mem_aggValues (maxProc_mem e)
    · rw [Option.map_eq_some_iff] at e
      obtain ⟨v, hv, e⟩ := e
      rw [h.sto_eq, eq_null] at e
      subst e
      exact absurd hv dsum_ne
    · cases e

end

/-! ### Equal values are treated equally -/

/-- The texts of values and the conversions of integers do not depend on how a value is represented (floating point zeros are
excluded: the texts of the two zeros differ although they are equal, see `hash_zero_wrong`). -/
structure LibOK (L : Lib) : Prop where
  canonical : ∀ v w : DV, v.NoZero → v.eq w = true → L.canonical v = L.canonical w
  lexical : ∀ v w : DV, v.NoZero → v.eq w = true → L.lexical v = L.lexical w
  datatype : ∀ v w : DV, v.NoZero → v.eq w = true → L.datatype v = L.datatype w
  f32 : ∀ (n : UInt64) (i : Int64), (n.toNat : Int) = i.toInt → L.u64ToF32 n = L.i64ToF32 i
  f64 : ∀ (n : UInt64) (i : Int64), (n.toNat : Int) = i.toInt → L.u64ToF64 n = L.i64ToF64 i

/-- Two values are the same for the built-in functions. -/
def Sim (v w : DV) : Prop := v = w ∨ (v.NoZero ∧ v.eq w = true)

/-- What is the same for two values. -/
structure Views (v w : DV) : Prop where
  num : Num.ofDV v = Num.ofDV w
  lang : langString v = langString w
  bool : toBool v = toBool w
  i64 : v.toI64 = w.toI64

theorem le_half {n : UInt64} {i : Int64} (h : (n.toNat : Int) = i.toInt) : n.toNat ≤ 0xFFFFFFFFFFFFFFFF / 2 := by
  have h1 : i.toInt < 2 ^ 63 := Int64.toInt_lt i
  omega

theorem ulong_long {n : UInt64} {i : Int64} (h : (n.toNat : Int) = i.toInt) :
    Num.ofDV (.ulong n) = some (.int i) ∧ (DV.ulong n).toI64 = some i.toInt := by
  have h1 : i.toInt < 2 ^ 63 := Int64.toInt_lt i
  have h2 : n.toNat ≤ 0xFFFFFFFFFFFFFFFF / 2 := by omega
  refine ⟨?_, by simp only [DV.toI64, if_pos h2, h]⟩
  rw [Num.ofDV, if_pos h2]
  have : Int64.ofNat n.toNat = i := by
    rw [← Int64.toInt_inj, ← h]
    rw [Int64.toInt_ofNat_of_lt]
    omega
  rw [this]

theorem float_eq {e w : Nat} {f g : FinFloat e w} (h0 : f.scaled ≠ 0) (h : (f.scaled == g.scaled) = true) : f = g :=
  FinFloat.scaled_inj (by simpa using h) h0

theorem views {v w : DV} (h0 : v.NoZero) (h : v.eq w = true) : Views v w := by
  cases v <;> cases w <;> simp only [DV.eq, reduceCtorEq, Bool.false_eq_true, Bool.and_eq_true, beq_iff_eq] at h
  case str.str => subst h; exact ⟨rfl, rfl, rfl, rfl⟩
  case lang.lang => obtain ⟨rfl, rfl⟩ := h; exact ⟨rfl, rfl, rfl, rfl⟩
  case iri.iri => exact ⟨rfl, rfl, rfl, rfl⟩
  case float.float => have := float_eq h0 (by simpa using h); subst this; exact ⟨rfl, rfl, rfl, rfl⟩
  case double.double => have := float_eq h0 (by simpa using h); subst this; exact ⟨rfl, rfl, rfl, rfl⟩
  case ulong.ulong n m =>
    have : n = m := UInt64.toNat_inj.1 (by exact_mod_cast h)
    subst this; exact ⟨rfl, rfl, rfl, rfl⟩
  case ulong.long n i =>
    have h' : (n.toNat : Int) = i.toInt := by
      simp only [DV.toU64] at h
      split_ifs at h
      simpa using h.symm
    obtain ⟨h1, h2⟩ := ulong_long h'
    exact ⟨h1, rfl, rfl, h2⟩
  case long.ulong i n =>
    have h' : (n.toNat : Int) = i.toInt := by
      simp only [DV.toI64] at h
      split_ifs at h
      simpa using h
    obtain ⟨h1, h2⟩ := ulong_long h'
    exact ⟨h1.symm, rfl, rfl, h2.symm⟩
  case long.long i j =>
    have : i = j := Int64.toInt_inj.1 h
    subst this; exact ⟨rfl, rfl, rfl, rfl⟩
  case bool.bool => subst h; exact ⟨rfl, rfl, rfl, rfl⟩
  all_goals exact ⟨rfl, rfl, rfl, rfl⟩

theorem Sim.views {v w : DV} (h : Sim v w) : Views v w := by
  rcases h with rfl | ⟨h0, h⟩
  · exact ⟨rfl, rfl, rfl, rfl⟩
  · exact Data.views h0 h

theorem Sim.eq {v w : DV} (h : Sim v w) : v.eq w = true := by
  rcases h with rfl | ⟨-, h⟩
  · exact DV.eq_equivalence.refl v
  · exact h

/-- Two results are the same up to the representation of values. -/
def SameRes (r s : Res DV) : Prop := r = s ∨ ∃ v w, r = .val v ∧ s = .val w ∧ v.eq w = true

theorem SameRes.refl (r : Res DV) : SameRes r r := .inl rfl

theorem unEval_sim {L : Lib} (hL : LibOK L) (f : UFn) {v w : DV} (h : Sim v w) : SameRes (unEval L f v) (unEval L f w) := by
  obtain ⟨h1, h2, h3, h4⟩ := h.views
  rcases h with rfl | ⟨h0, h⟩
  · exact .inl rfl
  have hdom : ∀ (g : DV → Res DV), (∀ a b, g (.tuple a b) = .undef) → (∀ a b, g (.map a b) = .undef) →
      (∀ (n : UInt64) (i : Int64), (n.toNat : Int) = i.toInt → SameRes (g (.ulong n)) (g (.long i)) ∧ SameRes (g (.long i)) (g (.ulong n))) →
      SameRes (g v) (g w) := by
    intro g ht hm hg
    cases v <;> cases w <;> simp only [DV.eq, reduceCtorEq, Bool.false_eq_true, Bool.and_eq_true, beq_iff_eq] at h
    case str.str => subst h; exact .inl rfl
    case lang.lang => obtain ⟨rfl, rfl⟩ := h; exact .inl rfl
    case iri.iri => subst h; exact .inl rfl
    case float.float => have := float_eq h0 (by simpa using h); subst this; exact .inl rfl
    case double.double => have := float_eq h0 (by simpa using h); subst this; exact .inl rfl
    case ulong.ulong n m =>
      have : n = m := UInt64.toNat_inj.1 (by exact_mod_cast h)
      subst this; exact .inl rfl
    case ulong.long n i =>
      refine (hg n i ?_).1
      simp only [DV.toU64] at h
      split_ifs at h
      simpa using h.symm
    case long.ulong i n =>
      refine (hg n i ?_).2
      simp only [DV.toI64] at h
      split_ifs at h
      simpa using h
    case long.long i j =>
      have : i = j := Int64.toInt_inj.1 h
      subst this; exact .inl rfl
    case bool.bool => subst h; exact .inl rfl
    case null.null => subst h; exact .inl rfl
    case tuple.tuple => rw [ht, ht]; exact .inl rfl
    case map.map => rw [hm, hm]; exact .inl rfl
    case other.other => obtain ⟨rfl, rfl⟩ := h; exact .inl rfl
  cases f <;> simp only [unEval] <;> first
    | (left; simp only [numUn, strMap, h1, h2, h3, h4]; done)
    | (left; rw [hL.canonical v w h0 h]; done)
    | (left; rw [hL.datatype v w h0 h]; done)
    | skip
  case castInt =>
    refine hdom (castInt L) (fun _ _ => rfl) (fun _ _ => rfl) fun n i hn => ?_
    have hlt := le_half hn
    simp only [castInt, if_pos hlt]
    have e1 : (DV.ulong n).eq (.long i) = true := by
      simp only [DV.eq, DV.toU64, beq_iff_eq]
      rw [if_pos (by omega), hn]
    refine ⟨.inr ⟨_, _, rfl, rfl, e1⟩, .inr ⟨_, _, rfl, rfl, DV.eq_equivalence.symm e1⟩⟩
  case castDouble =>
    refine hdom (castDouble L) (fun _ _ => rfl) (fun _ _ => rfl) fun n i hn => ?_
    simp only [castDouble, hL.f64 n i hn]
    exact ⟨.inl rfl, .inl rfl⟩
  case castFloat =>
    refine hdom (castFloat L) (fun _ _ => rfl) (fun _ _ => rfl) fun n i hn => ?_
    simp only [castFloat, hL.f32 n i hn]
    exact ⟨.inl rfl, .inl rfl⟩
  case castIri => exact hdom castIri (fun _ _ => rfl) (fun _ _ => rfl) fun n i hn => ⟨.inl rfl, .inl rfl⟩
  case lexicalValue =>
    left
    have hl := hL.lexical v w h0 h
    cases v <;> cases w <;> simp only [DV.eq, reduceCtorEq, Bool.false_eq_true, Bool.and_eq_true, beq_iff_eq] at h <;>
      first
      | (simp only [hl]; done)
      | (obtain ⟨rfl, rfl⟩ := h; rfl)
  all_goals
    left
    cases v <;> cases w <;> simp only [DV.eq, reduceCtorEq, Bool.false_eq_true] at h <;>
      first
      | (rw [h4])
      | rfl

theorem langPair_sim {v v' w w' : DV} (h : Sim v w) (h' : Sim v' w') : langPair v v' = langPair w w' := by
  unfold langPair
  rw [h.views.lang, h'.views.lang]

theorem eq_congr {v v' w w' : DV} (h : v.eq w = true) (h' : v'.eq w' = true) : v.eq v' = w.eq w' := by
  rw [Bool.eq_iff_iff]
  constructor
  · intro e
    exact DV.eq_equivalence.trans (DV.eq_equivalence.symm h) (DV.eq_equivalence.trans e h')
  · intro e
    exact DV.eq_equivalence.trans h (DV.eq_equivalence.trans e (DV.eq_equivalence.symm h'))

theorem binEval_sim (L : Lib) (f : BFn) {v v' w w' : DV} (h : Sim v w) (h' : Sim v' w') : binEval L f v v' = binEval L f w w' := by
  have hp := langPair_sim h h'
  have he := eq_congr h.eq h'.eq
  obtain ⟨h1, h2, h3, h4⟩ := h.views
  obtain ⟨h1', h2', h3', h4'⟩ := h'.views
  cases f <;> simp only [binEval] <;> first
    | (simp only [numBin, numCmp, intBin, NumPair.ofDV, h1, h1']; done)
    | (simp only [he]; done)
    | (simp only [strAfter, strBefore, strCompare, strContains, strRegex, strLevenshtein, strEnds, strStarts, hp]; done)
    | (simp only [strSubstring, h2, h4']; done)
    | skip
  rcases h with rfl | ⟨h0, h⟩
  · rcases h' with rfl | ⟨h0', h'⟩
    · rfl
    · cases v <;> try rfl
      cases v' <;> cases w' <;> simp only [DV.eq, reduceCtorEq, Bool.false_eq_true, beq_iff_eq] at h' <;> first | rfl | (subst h'; rfl)
  · cases v <;> cases w <;> simp only [DV.eq, reduceCtorEq, Bool.false_eq_true, beq_iff_eq] at h <;> try rfl
    subst h
    rcases h' with rfl | ⟨h0', h'⟩
    · rfl
    · cases v' <;> cases w' <;> simp only [DV.eq, reduceCtorEq, Bool.false_eq_true, beq_iff_eq] at h' <;> first | rfl | (subst h'; rfl)

theorem terEval_sim (L : Lib) (f : TFn) {u v w u' v' w' : DV} (h : Sim u u') (h' : Sim v v') (h'' : Sim w w') :
    terEval L f u v w = terEval L f u' v' w' := by
  cases f
  simp only [terEval, strSubstringLength, h.views.lang, h'.views.i64, h''.views.i64]

theorem mapM_sim {B : Type} {g : DV → Option B} (hg : ∀ v w, Sim v w → g v = g w) {vs ws : List DV} (h : List.Forall₂ Sim vs ws) :
    vs.mapM g = ws.mapM g := by
  induction h with
  | nil => rfl
  | cons h _ ih => rw [List.mapM_cons, List.mapM_cons, hg _ _ h, ih]

theorem naryEval_sim (L : Lib) (f : NFn) {vs ws : List DV} (h : List.Forall₂ Sim vs ws) : naryEval L f vs = naryEval L f ws := by
  have h1 := mapM_sim (g := Num.ofDV) (fun v w e => e.views.num) h
  have h2 := mapM_sim (g := langString) (fun v w e => e.views.lang) h
  have h3 := mapM_sim (g := toBool) (fun v w e => e.views.bool) h
  have h4 : vs.isEmpty = ws.isEmpty := by cases h <;> rfl
  cases f <;> simp only [naryEval, numNary, intNary, NumList.ofDV, NumList.ofDVCast, strConcat, h1, h2, h3, h4]

end Verif.Data
