/-
The dictionary as its users see it: histories of `add_datavalue` and `fresh_null` calls
(`Reach`, `Later`), and what `datavalue_to_id`, `id_to_datavalue` and the results of the calls
say about each other.
-/
import Verif.MetaDictProofs

set_option linter.unusedSimpArgs false
set_option linter.unusedVariables false
set_option linter.unnecessarySimpa false

namespace Verif
namespace MDict

/-! ### Histories -/

/-- One call that changes the dictionary. -/
inductive Call (lab : Bool) : MDict → MDict → Prop where
  | add {m m' : MDict} {v : DV} {r : AddResult} (hv : Storable lab v) (h : m.add v = some (r, m')) : Call lab m m'
  | null {m m' : MDict} {v : DV} {i : Nat} (h : m.freshNull = some (v, i, m')) : Call lab m m'

/-- Any number of calls. -/
inductive Later (lab : Bool) : MDict → MDict → Prop where
  | refl (m : MDict) : Later lab m m
  | step {a b c : MDict} (h : Later lab a b) (g : Call lab b c) : Later lab a c

/-- The dictionaries that can be reached from the empty one. -/
def Reach (lab : Bool) (m : MDict) : Prop := Later lab MDict.new m

/-- Ids of IRIs are small.  (Each sub-dictionary gets blocks of `2 ^ 24` ids, so this holds as long
as fewer than 256 blocks are in use.) -/
def SmallIris (m : MDict) : Prop := ∀ s j, m.toId (.iri s) = some (some j) → j < 2 ^ 32

theorem freshNull_spec {m : MDict} (hI : Inv m) :
    ∃ i m', m.freshNull = some (.null m.nulls, i, m') ∧ Inv m' ∧ Ext m m' ∧ m'.nulls = m.nulls + 1 ∧
      m'.toId (.null m.nulls) = some (some i) ∧ m'.localToGlobal 4 m.nulls = some i ∧
      ∀ d, m'.size d = if d = 4 then m.size 4 + 1 else m.size d := by
  have hsz : ∀ d', size { m with nulls := m.nulls + 1 } d' = if d' = 4 then m.size 4 + 1 else m.size d' := by
    intro d'; match d' with
    | 4 => simp [size]
    | 0 | 1 | 2 | 3 | 5 => simp [size]
    | _ + 6 => simp [size]
  have hext : Ext m { m with nulls := m.nulls + 1 } :=
    ⟨List.prefix_refl _, List.prefix_refl _, List.prefix_refl _, List.prefix_refl _, Nat.le_succ _,
      List.prefix_refl _, fun _ _ _ h => h, fun _ _ h => h⟩
  obtain ⟨i, m', h₁, h₂, h₃, h₄, h₅⟩ := assign_spec { m with nulls := m.nulls + 1 } hI.len hI.fwd 4 m.nulls (by decide) (by
    intro d' l' hl'
    rw [hsz] at hl'
    by_cases hd : d' = 4
    · rw [if_pos hd] at hl'
      by_cases hl : l' = m.nulls
      · exact Or.inl ⟨hd, hl⟩
      · right
        have : l' < m.size 4 := by have : m.size 4 = m.nulls := rfl; omega
        exact hI.alloc d' l' (by rw [hd]; exact this)
    · rw [if_neg hd] at hl'
      right; exact hI.alloc d' l' hl')
  have hn : m'.nulls = m.nulls + 1 := by rw [h₅]
  refine ⟨i, m', ?_, h₂, hext.trans h₃, hn, ?_, h₄, fun d => by rw [size_eq_of h₅, hsz]⟩
  · simp only [freshNull, h₁]; rfl
  · show (m'.locate (.null m.nulls)).bind m'.locatedId = _
    simp only [locate, hn, Nat.lt_succ_self, if_true, Option.bind_some, locatedId, h₄]
    rfl

/-- every entry belongs to a storable value -/
def Covered (lab : Bool) (m : MDict) : Prop := ∀ d l, l < m.size d →
  ∃ w i, Storable lab w ∧ m.toId w = some (some i) ∧ m.localToGlobal d l = some i

theorem inv_new : Inv MDict.new := by
  have hg : ∀ d lb, MDict.new.gblock d lb = none := by
    intro d lb
    rw [gblock_eq]
    cases h : MDict.new.gblocks[d]? with
    | none => rfl
    | some gs =>
      have : gs = [] := by
        have := List.mem_of_getElem? h
        simp [MDict.new] at this
        exact this
      subst this; rfl
  refine ⟨rfl, ?_, ?_⟩
  · intro d lb g; rw [hg]; simp [MDict.new]
  · intro d l h
    match d with
    | 0 | 1 | 2 | 3 | 4 | 5 => simp [size, MDict.new] at h
    | _ + 6 => simp [size] at h

theorem call_spec {lab : Bool} {m m' : MDict} (hI : Inv m) (h : Call lab m m') : Inv m' ∧ Ext m m' ∧
    (Covered lab m → Covered lab m') := by
  have key : Grown lab m m' → Covered lab m → Covered lab m' := by
    intro hg hc d l hl
    by_cases h : l < m.size d
    · obtain ⟨w, i, hw, hi, hl⟩ := hc d l h
      exact ⟨w, i, hw, toId_ext hg.ext w i hi, hg.ext.global hl⟩
    · exact hg.new d l (by omega) hl
  cases h with
  | add hv h =>
    obtain ⟨h₁, h₂, h₃⟩ := add_spec _ _ _ _ hI h
    exact ⟨h₁, h₂, key (h₃ lab hv).2.1⟩
  | null h =>
    obtain ⟨i, m'', h₁, h₂, h₃, h₄, h₅, h₆, h₇⟩ := freshNull_spec hI
    rw [h₁] at h
    simp only [Option.some.injEq, Prod.mk.injEq] at h
    obtain ⟨_, _, rfl⟩ := h
    refine ⟨h₂, h₃, key ⟨h₃, fun d l g₁ g₂ => ?_⟩⟩
    rw [h₇] at g₂
    by_cases hd : d = 4
    · subst hd
      rw [if_pos rfl] at g₂
      have hn : m.size 4 = m.nulls := rfl
      have : l = m.nulls := by omega
      subst this
      exact ⟨.null m.nulls, i, by simp [Storable], h₅, h₆⟩
    · rw [if_neg hd] at g₂; omega

theorem Later.spec {lab : Bool} {m m' : MDict} (hI : Inv m) (h : Later lab m m') : Inv m' ∧ Ext m m' ∧
    (Covered lab m → Covered lab m') := by
  induction h with
  | refl => exact ⟨hI, Ext.refl _, id⟩
  | step _ g ih =>
    obtain ⟨h₁, h₂, h₃⟩ := ih
    obtain ⟨g₁, g₂, g₃⟩ := call_spec h₁ g
    exact ⟨g₁, h₂.trans g₂, g₃ ∘ h₃⟩

theorem Later.trans {lab : Bool} {a b c : MDict} (h : Later lab a b) (g : Later lab b c) : Later lab a c := by
  induction g with
  | refl => exact h
  | step _ g ih => exact .step ih g

theorem Reach.inv {lab : Bool} {m : MDict} (h : Reach lab m) : Inv m := (Later.spec inv_new h).1

theorem Reach.covered {lab : Bool} {m : MDict} (h : Reach lab m) : Covered lab m := by
  refine (Later.spec inv_new h).2.2 fun d l hl => ?_
  match d with
  | 0 | 1 | 2 | 3 | 4 | 5 => simp [size, MDict.new] at hl
  | _ + 6 => simp [size] at hl

/-! ### Ids and values -/

theorem repr_inj {a b : Nat} (h : toString a = toString b) : a = b := by
  have h' : (Nat.repr a).toList = (Nat.repr b).toList := congrArg String.toList h
  rw [Nat.toList_repr, Nat.toList_repr] at h'
  have := congrArg (fun l => Nat.ofDigitChars 10 l 0) h'
  simpa [Nat.ofDigitChars_toDigits] using this

/-- Different values look different. -/
theorem view_injective {lab : Bool} {v w : DV} (hv : Storable lab v) (hw : Storable lab w) (h : view v = view w) : v = w := by
  cases v with
  | ulong n =>
    cases w with
    | ulong k =>
      simp only [view, DV.other.injEq, and_true] at h
      have : n.toNat = k.toNat := repr_inj h
      rw [UInt64.toNat_inj.mp this]
    | other l d =>
      simp only [view, DV.other.injEq] at h
      simp only [Storable] at hw
      exact absurd h.2.symm hw.2
    | _ => simp [view] at h
  | other l d =>
    cases w with
    | ulong k =>
      simp only [view, DV.other.injEq] at h
      simp only [Storable] at hv
      exact absurd h.2 hv.2
    | _ => simpa [view] using h
  | _ => cases w <;> simpa [view] using h

/-- An id assigned to a value leads back to the value. -/
theorem value_of_id {lab : Bool} {m : MDict} (hr : Reach lab m) (hs : lab = true → SmallIris m) {v : DV} {i : Nat}
    (hv : Storable lab v) (h : m.toId v = some (some i)) : m.toValue i = some (some (view v)) :=
  toValue_toId hr.inv hs v i hv h

/-- Different values have different ids. -/
theorem ids_distinct {lab : Bool} {m : MDict} (hr : Reach lab m) (hs : lab = true → SmallIris m) {v w : DV} {i : Nat}
    (hv : Storable lab v) (hw : Storable lab w) (h : m.toId v = some (some i)) (h' : m.toId w = some (some i)) : v = w := by
  have h₁ := value_of_id hr hs hv h
  rw [value_of_id hr hs hw h'] at h₁
  simp only [Option.some.injEq] at h₁
  exact view_injective hv hw h₁.symm

theorem toValue_entry {m : MDict} {i : Nat} {w : DV} (h : m.toValue i = some (some w)) :
    ∃ d l, m.globalToLocal i = some (d, l) ∧ l < m.size d := by
  rw [toValue] at h
  cases hg : m.globalToLocal i with
  | none => rw [hg] at h; simp at h
  | some p =>
    obtain ⟨d, l⟩ := p
    rw [hg] at h
    refine ⟨d, l, rfl, ?_⟩
    by_contra hc
    simp only at h
    by_cases hd : d = 5
    · subst hd
      rw [if_pos rfl] at h
      have : m.tups[l]? = none := List.getElem?_eq_none (by simpa [size] using hc)
      rw [this] at h; simp at h
    · rw [if_neg hd] at h
      simp only [Option.some.injEq] at h
      match d, hc with
      | 0, hc => simp [localValue, List.getElem?_eq_none (show m.iris.length ≤ l by simpa [size] using hc)] at h
      | 1, hc => simp [localValue, List.getElem?_eq_none (show m.strs.length ≤ l by simpa [size] using hc)] at h
      | 2, hc => simp [localValue, List.getElem?_eq_none (show m.langs.length ≤ l by simpa [size] using hc)] at h
      | 3, hc => simp [localValue, List.getElem?_eq_none (show m.others.length ≤ l by simpa [size] using hc)] at h
      | 4, hc =>
        have : ¬ l < m.nulls := by simpa [size] using hc
        simp [localValue, this] at h
      | 5, hc => exact hd rfl
      | _ + 6, hc => simp [localValue] at h

theorem Inv.forthBack {m : MDict} (hI : Inv m) {i d l : Nat} (h : m.globalToLocal i = some (d, l)) :
    m.localToGlobal d l = some i := by
  unfold globalToLocal at h
  split at h
  · rename_i d' lb hb
    simp only [Option.some.injEq, Prod.mk.injEq] at h
    obtain ⟨rfl, rfl⟩ := h
    rw [localToGlobal, (shiftLeft_24 lb i).1, (hI.fwd _ _ _).mpr hb, (shiftLeft_24 lb i).2]
    simp only [Option.map_some, Option.some.injEq]
    exact split_24 i
  · simp at h

/-- An id that denotes something was assigned to a value. -/
theorem id_of_value {lab : Bool} {m : MDict} (hr : Reach lab m) (hs : lab = true → SmallIris m) {i : Nat} {w : DV}
    (h : m.toValue i = some (some w)) :
    ∃ v, Storable lab v ∧ m.toId v = some (some i) ∧ view v = w := by
  obtain ⟨d, l, hg, hl⟩ := toValue_entry h
  obtain ⟨v, j, hv, hj, hlg⟩ := hr.covered d l hl
  have := hr.inv.forthBack hg
  rw [hlg] at this
  simp only [Option.some.injEq] at this
  subst this
  refine ⟨v, hv, hj, ?_⟩
  have h₁ := value_of_id hr hs hv hj
  rw [h] at h₁
  simpa using h₁.symm

/-- An id that did not denote an entry denoted nothing. -/
theorem toValue_unused {m m' : MDict} (hI' : Inv m') (he : Ext m m') {i d l : Nat} (hl : m.size d ≤ l)
    (hg : m'.localToGlobal d l = some i) : ∀ w, m.toValue i ≠ some (some w) := by
  intro w hw
  obtain ⟨d', l', hg', hl'⟩ := toValue_entry hw
  have hb := hI'.back hg
  have : m'.globalToLocal i = some (d', l') := by
    unfold globalToLocal at hg' ⊢
    split at hg'
    · rename_i dd lb hbk
      rw [he.dblock _ _ hbk]; exact hg'
    · simp at hg'
  rw [this] at hb
  simp only [Option.some.injEq, Prod.mk.injEq] at hb
  obtain ⟨rfl, rfl⟩ := hb
  omega

/-- **The dictionary is a bijection** between the values added so far and their ids: ids lead back to their
values, different values have different ids, and every id that denotes something was assigned to the
value it denotes. -/
theorem dictionary_bijection_partial {lab : Bool} {m : MDict} (hr : Reach lab m) (hs : lab = true → SmallIris m) :
    (∀ v i, Storable lab v → m.toId v = some (some i) → m.toValue i = some (some (view v))) ∧
    (∀ v w i, Storable lab v → Storable lab w → m.toId v = some (some i) → m.toId w = some (some i) → v = w) ∧
    (∀ i w, m.toValue i = some (some w) → ∃ v, Storable lab v ∧ m.toId v = some (some i) ∧ view v = w) :=
  ⟨fun v i => value_of_id hr hs, fun v w i => ids_distinct hr hs, fun i w => id_of_value hr hs⟩

/-- **Ids never change.** -/
theorem dictionary_stable {lab : Bool} {m m' : MDict} (hr : Reach lab m) (hl : Later lab m m')
    (hs : lab = true → SmallIris m') {v : DV} {i : Nat}
    (h : m.toId v = some (some i)) :
    m'.toId v = some (some i) ∧ (Storable lab v → m'.toValue i = some (some (view v))) := by
  have h₁ := toId_ext (Later.spec hr.inv hl).2.1 v i h
  exact ⟨h₁, fun hv => value_of_id (hr.trans hl) hs hv h₁⟩

theorem SmallIris.before {m m' : MDict} (he : Ext m m') (h : SmallIris m') : SmallIris m :=
  fun s j hj => h s j (toId_ext he _ _ hj)

/-- **The result of `add_datavalue`**: `known` exactly if the value had an id, which is then the result;
otherwise the result is an id that denoted nothing before, and that the value has from now on.  Only
values without a place in the dictionary (small integers, floats, unknown nulls) are rejected. -/
theorem dictionary_add {lab : Bool} {m m' : MDict} (hr : Reach lab m) (hs : lab = true → SmallIris m')
    {v : DV} {r : AddResult} (hv : Storable lab v) (h : m.add v = some (r, m')) :
    match r with
    | .known i => m.toId v = some (some i) ∧ m' = m
    | .fresh i => m.toId v = some none ∧ (∀ w, m.toValue i ≠ some (some w)) ∧
        m'.toId v = some (some i) ∧ m'.toValue i = some (some (view v))
    | .rejected => Unsupported m v ∧ m' = m := by
  obtain ⟨hI', he, h₃⟩ := add_spec v m m' r hr.inv h
  obtain ⟨ho, _, hf⟩ := h₃ lab hv
  cases ho with
  | known i h₁ h₂ => exact ⟨h₁, h₂⟩
  | rejected h₁ h₂ => exact ⟨h₁, h₂⟩
  | fresh i hno hid =>
    refine ⟨hno, ?_, hid, toValue_toId hI' hs v i hv hid⟩
    rcases hf i rfl with ⟨d, l, hl, hg⟩ | ⟨l, hl, hg⟩
    · exact toValue_unused hI' he hl hg
    · exfalso
      obtain ⟨w, j, hw, hj, hlg⟩ := hr.covered 5 l hl
      have : j = i := by
        have := he.global hlg
        rw [hg] at this; simpa using this.symm
      subst this
      have hj' := toId_ext he w j hj
      have h₁ := toValue_toId hI' hs w j hw hj'
      rw [toValue_toId hI' hs v j hv hid] at h₁
      simp only [Option.some.injEq] at h₁
      have := view_injective hv hw h₁
      subst this
      rw [hno] at hj; simp at hj

/-- **Fresh nulls are fresh**: creating a null always works, the null and its id were unknown before, and
they belong together from now on. -/
theorem fresh_null {lab : Bool} {m : MDict} (hr : Reach lab m) :
    ∃ v i m', m.freshNull = some (v, i, m') ∧ (∃ n, v = .null n) ∧
      m.toId v = some none ∧ (∀ w, m.toValue i ≠ some (some w)) ∧
      m'.toId v = some (some i) ∧ m'.toValue i = some (some v) := by
  obtain ⟨i, m', h₁, h₂, h₃, h₄, h₅, h₆, h₇⟩ := freshNull_spec hr.inv
  refine ⟨_, i, m', h₁, ⟨_, rfl⟩, ?_, toValue_unused h₂ h₃ (d := 4) (l := m.nulls) (Nat.le_refl _) h₆, h₅, ?_⟩
  · show (m.locate (.null m.nulls)).bind m.locatedId = _
    simp [locate, locatedId]
  · have := toValue_located h₂ (lab := lab) (v := .null m.nulls) (by simp [Storable]) h₅
    exact this

/-- **Nulls are pairwise distinct**: two nulls created at different points of a history differ, and so do
their ids. -/
theorem fresh_nulls_distinct {lab : Bool} {m₀ m₁ m₂ m₃ : MDict} {v w : DV} {i j : Nat} (hr : Reach lab m₀)
    (h : m₀.freshNull = some (v, i, m₁)) (hl : Later lab m₁ m₂) (h' : m₂.freshNull = some (w, j, m₃)) :
    v ≠ w ∧ i ≠ j := by
  have hr₁ : Reach lab m₁ := .step hr (.null h)
  have hr₂ : Reach lab m₂ := hr₁.trans hl
  obtain ⟨v', i', m₁', g₁, ⟨n, hn⟩, _, _, g₂, g₃⟩ := fresh_null hr
  rw [g₁] at h
  simp only [Option.some.injEq, Prod.mk.injEq] at h
  obtain ⟨rfl, rfl, rfl⟩ := h
  obtain ⟨w', j', m₃', k₁, _, k₂, k₃, _⟩ := fresh_null hr₂
  rw [k₁] at h'
  simp only [Option.some.injEq, Prod.mk.injEq] at h'
  obtain ⟨rfl, rfl, rfl⟩ := h'
  obtain ⟨_, he, _⟩ := Later.spec hr₁.inv hl
  have hv := toId_ext he _ _ g₂
  constructor
  · rintro rfl
    rw [k₂] at hv; simp at hv
  · rintro rfl
    have := toValue_located hr₂.inv (lab := lab) (v := v') (by rw [hn]; simp [Storable]) (by rw [hn] at hv ⊢; exact hv)
    exact k₃ _ this

theorem locate_lt {m : MDict} {v : DV} {d l : Nat} (h : m.locate v = some (some (d, some l))) : l < m.size d := by
  cases v with
  | iri s =>
    simp only [locate, Option.some.injEq, Prod.mk.injEq] at h
    obtain ⟨rfl, hk⟩ := h; exact kFind_lt hk
  | str s =>
    simp only [locate, Option.some.injEq, Prod.mk.injEq] at h
    obtain ⟨rfl, hk⟩ := h; exact kFind_lt hk
  | lang s t =>
    simp only [locate] at h
    cases hk : langKey s t with
    | none => rw [hk] at h; simp at h
    | some k =>
      rw [hk] at h
      simp only [Option.map_some, Option.some.injEq, Prod.mk.injEq] at h
      obtain ⟨rfl, hk⟩ := h; exact kFind_lt hk
  | other a b =>
    simp only [locate, Option.some.injEq, Prod.mk.injEq] at h
    obtain ⟨rfl, hk⟩ := h; exact kFind_lt hk
  | bool b =>
    simp only [locate, Option.some.injEq, Prod.mk.injEq] at h
    obtain ⟨rfl, hk⟩ := h; exact kFind_lt hk
  | ulong n =>
    simp only [locate] at h
    split at h
    · simp only [Option.some.injEq, Prod.mk.injEq] at h
      obtain ⟨rfl, hk⟩ := h; exact kFind_lt hk
    · simp at h
  | null i =>
    simp only [locate, Option.some.injEq, Prod.mk.injEq] at h
    obtain ⟨rfl, hk⟩ := h
    split at hk
    · simp only [Option.some.injEq] at hk; subst hk; assumption
    · simp at hk
  | _ => simp [locate] at h

/-- **Adding a value that is not a tuple always works.** -/
theorem add_works {lab : Bool} {m : MDict} (hr : Reach lab m) {v : DV} (hv : Storable lab v)
    (hnt : ∀ l vs, v ≠ .tuple l vs) : (m.add v).isSome = true := by
  have hadd : m.add v = m.addSimple v := by
    cases v with
    | tuple l vs => exact absurd rfl (hnt l vs)
    | _ => rfl
  have hfin : ∀ (d : Nat) (l : Nat) (m₁ : MDict), d < 6 → m₁.gblocks = m.gblocks →
      m₁.dictblocks = m.dictblocks → (finish d (.fresh l) m₁).isSome = true := by
    intro d l m₁ hd hgb hdb
    have hg : ∀ d lb, m₁.gblock d lb = m.gblock d lb := by
      intro d lb; unfold gblock; rw [hgb]
    obtain ⟨g, m', h₁, _⟩ := allocate_spec m₁ (by rw [hgb]; exact hr.inv.len)
      (by intro d lb g; rw [hg, hdb]; exact hr.inv.fwd d lb g) d (l >>> 24) hd
    simp [finish, assign, h₁, AddResult.value]
  rw [hadd]
  unfold addSimple
  cases hl : m.locate v with
  | none =>
    exfalso
    cases v with
    | lang s t =>
      simp only [Storable] at hv
      simp only [locate, langKey, hv.2.2] at hl
      unfold twoToOne at hl
      rw [if_neg (by simpa using hv.1)] at hl
      split at hl <;> simp at hl
    | ulong n =>
      simp only [locate] at hl
      split at hl <;> simp at hl
    | _ => simp [locate] at hl
  | some x =>
    match x, hl with
    | none, hl => rfl
    | some (d, some l), hl =>
      obtain ⟨g, hg⟩ := hr.inv.forth (locate_lt hl)
      simp [hg]
    | some (d, none), hl =>
      simp only [Option.bind_eq_bind, Option.bind_some]
      cases v with
      | iri s =>
        simp only [locate, Option.some.injEq, Prod.mk.injEq] at hl
        simp only [addLocal, Option.bind_some, kAdd_none hl.2]
        exact hfin d _ _ (by omega) rfl rfl
      | str s =>
        simp only [locate, Option.some.injEq, Prod.mk.injEq] at hl
        simp only [addLocal, Option.bind_some, kAdd_none hl.2]
        exact hfin d _ _ (by omega) rfl rfl
      | lang s t =>
        simp only [locate] at hl
        cases hk : langKey s t with
        | none => rw [hk] at hl; simp at hl
        | some k =>
          rw [hk] at hl
          simp only [Option.map_some, Option.some.injEq, Prod.mk.injEq] at hl
          simp only [addLocal, hk, Option.map_some, Option.bind_some, kAdd_none hl.2]
          exact hfin d _ _ (by omega) rfl rfl
      | other a b =>
        simp only [locate, Option.some.injEq, Prod.mk.injEq] at hl
        simp only [addLocal, Option.bind_some, kAdd_none hl.2]
        exact hfin d _ _ (by omega) rfl rfl
      | bool b =>
        simp only [locate, Option.some.injEq, Prod.mk.injEq] at hl
        simp only [addLocal, Option.bind_some, kAdd_none hl.2]
        exact hfin d _ _ (by omega) rfl rfl
      | ulong n =>
        simp only [locate] at hl
        split at hl
        · simp only [Option.some.injEq, Prod.mk.injEq] at hl
          simp only [addLocal, Option.bind_some, kAdd_none hl.2]
          exact hfin d _ _ (by omega) rfl rfl
        · simp at hl
      | null i =>
        simp only [locate, Option.some.injEq, Prod.mk.injEq] at hl
        have : ¬ i < m.nulls := by
          intro hc; rw [if_pos hc] at hl; simp at hl
        simp [addLocal, this, finish]
      | _ => simp [locate] at hl

/-! ### Examples -/

/-- the dictionary after adding a value -/
def plus (m : MDict) (v : DV) : MDict := ((m.add v).getD (.rejected, m)).2

theorem reach_plus {lab : Bool} {m : MDict} (hr : Reach lab m) {v : DV} (hv : Storable lab v)
    (h : (m.add v).isSome = true) : Reach lab (m.plus v) := by
  obtain ⟨p, hp⟩ := Option.isSome_iff_exists.mp h
  refine .step hr (.add (r := p.1) hv ?_)
  rw [plus, hp]; rfl

/-- a labelled tuple with elements of many kinds, one of them a tuple -/
def sample : DV := .tuple (some "http://example.org/f")
  [.str "a", .long (-5), .long 7, .lang "b" "en", .tuple none [.bool true, .null 3], .other "x" "http://example.org/d"]

theorem sample_storable : Storable true sample := by
  simp only [sample, Storable, StorableAll]
  refine ⟨by simp, ?_⟩
  decide

/-- Reachable dictionaries contain values, which are found again. -/
theorem sample_example : Reach true ((MDict.new.plus (.str "a")).plus sample) ∧
    ((MDict.new.plus (.str "a")).plus sample).toId sample = some (some 50331649) ∧
    (MDict.new.plus (.str "a")).toId sample = some none ∧
    ((MDict.new.plus (.str "a")).plus sample).toId (.tuple none [.bool true, .null 3]) ≠ some none := by
  refine ⟨reach_plus (reach_plus (.refl _) (by simp [Storable]) (by decide +kernel)) sample_storable (by decide +kernel),
    by decide +kernel, by decide +kernel, by decide +kernel⟩

/-- nulls are created in between -/
example : (((MDict.new.plus (.str "a")).freshNull).map fun p => p.2.1) = some 16777216 := by decide +kernel

/-! ### Values outside of `Storable` -/

/-- Labels of tuples without elements are lost: `f()`, `g()` and `()` share one id. -/
theorem empty_tuples_conflated :
    ∃ m : MDict, m = (MDict.new.plus (.tuple (some "f") [])).plus (.tuple (some "g") []) ∧
      m.toId (.tuple (some "f") []) = some (some 16777216) ∧ m.toId (.tuple (some "g") []) = some (some 16777216) ∧
      m.toId (.tuple none []) = some (some 16777216) :=
  ⟨_, rfl, by decide +kernel, by decide +kernel, by decide +kernel⟩

/-- Tuples that contain maps are stored under an id that is the same for all maps, and are not found
again. -/
theorem maps_conflated :
    ∃ m : MDict, m = MDict.new.plus (.tuple none [.map none []]) ∧
      (MDict.new.add (.tuple none [.map none []])).map Prod.fst = some (.fresh 0) ∧
      (m.add (.tuple none [.map (some "f") []])).map Prod.fst = some (.fresh 0) ∧
      m.toId (.tuple none [.map none []]) = some none :=
  ⟨_, rfl, by decide +kernel, by decide +kernel, by decide +kernel⟩

/-- Large unsigned integers come back as literals of an unknown datatype, which is a different value. -/
theorem unsigned_long_changed :
    ∃ m : MDict, Reach true m ∧ m.toId (.ulong (9223372036854775808)) = some (some 0) ∧
      m.toValue 0 = some (some (.other "9223372036854775808" xsdUnsignedLong)) := by
  have hr : Reach true (MDict.new.plus (.ulong (9223372036854775808))) := reach_plus (.refl _) (by simp only [Storable]; decide) (by decide +kernel)
  have hid : (MDict.new.plus (.ulong (9223372036854775808))).toId (.ulong (9223372036854775808)) = some (some 0) := by decide +kernel
  refine ⟨_, hr, hid, ?_⟩
  have hs : SmallIris (MDict.new.plus (.ulong (9223372036854775808))) := by
    intro s j hj
    have hi : (MDict.new.plus (.ulong (9223372036854775808))).iris = [] := by decide +kernel
    have : (MDict.new.plus (.ulong (9223372036854775808))).locatedId (some (0, kFind (MDict.new.plus (.ulong (9223372036854775808))).iris (splitIri s))) =
      some (some j) := hj
    rw [hi] at this
    simp [kFind, locatedId] at this
  exact value_of_id hr (fun _ => hs) (by simp only [Storable]; decide) hid

/-- a language tag with 128 bytes -/
def longTag : String := String.ofList (List.replicate 127 'a' ++ ['>'])

/-- Language tags with more than 127 bytes are not restored if they contain `\` or `>`. -/
theorem long_tag_changed : ∃ t k t' : String, twoToOne "x" t = some k ∧ oneToTwo k = some ("x", t') ∧ t' ≠ t := by
  refine ⟨longTag, (twoToOne "x" longTag).getD "", ((oneToTwo ((twoToOne "x" longTag).getD "")).getD ("", "")).2, ?_⟩
  decide +kernel

/-- If the id of a label has more than 32 bits, nine type bytes of the elements are skipped. -/
theorem long_label_skips {m : MDict} {i : Nat} {s : String} {ts : Bytes} (hi : i < 2 ^ 64)
    (hv : m.toValue i = some (some (.iri s))) :
    m.decodeLabel (11 :: be 8 i ++ ts) = some (some s, ts.drop 9) := by
  rw [decodeLabel.eq_def]
  have h1 : takeBytes 8 (be 8 i ++ ts) = some (be 8 i, ts) := by
    unfold takeBytes
    have := length_be 8 i
    rw [if_pos (by simp [length_be]), List.take_append_of_le_length (by omega),
      List.drop_append_of_le_length (by omega), List.take_of_length_le (by omega), List.drop_of_length_le (by omega)]
    rfl
  have h2 : fromBe (be 8 i) = i := by rw [fromBe_be]; exact Nat.mod_eq_of_lt (by omega)
  simp only [List.cons_append]
  rw [if_neg (by decide), if_pos trivial, h1]
  simp only [Option.bind_eq_bind, Option.bind_some, h2, hv, asIri]

end MDict
end Verif
