import Verif.DataTrees
import Verif.PropText

/-!
# Programs over data values

What the functions and aggregates of programs compute over data values, and C51 for data values.
-/
set_option linter.unusedSimpArgs false
set_option linter.unusedVariables false
set_option linter.unusedSectionVars false

namespace Verif.Data
open Verif.Fn
open Verif.Parse (Str)

section
variable {α : Type} [SVal α] {dict : DV → Nat} {val : α → DV} {sto : DV → α}

/-! ### Functions -/

theorem sims_sto (h : StoresValues dict val sto) {vs : List DV} (h0 : ∀ v ∈ vs, v.NoZero) :
    List.Forall₂ Sim vs ((vs.map sto).map val) := by
  induction vs with
  | nil => exact .nil
  | cons v vs ih =>
    exact .cons (.inr ⟨h0 v (by simp), DV.eq_equivalence.symm (val_sto h v)⟩) (ih fun w hw => h0 w (by simp [hw]))

theorem naryOK_const : ∀ vs : List DV, FTree.NaryOKList (vs.map fun v => (.const v : Tree Empty))
  | [] => trivial
  | _ :: vs => ⟨trivial, naryOK_const vs⟩

/-- A function of a program that is applied to stored values yields the stored value of the function. -/
theorem app_sto {L : Lib} (hL : LibOK L) (h : StoresValues dict val sto) {k : Nat} {f : OpFn} (hf : opFn k = some f) {vs : List DV}
    (ha : OpFn.args f vs.length) (h0 : ∀ v ∈ vs, v.NoZero) :
    (dataDom L h).app k (vs.map sto) = (applyFn L f vs).map sto := by
  change ((opFn k).bind fun f => applyFn L f ((vs.map sto).map val)).map sto = _
  rw [hf, Option.bind_some]
  have ha' : OpFn.args f (vs.map fun v => (.const v : Tree Empty)).length := by simpa using ha
  obtain ⟨t, ht, -⟩ := opTree_some ha' (naryOK_const vs)
  obtain ⟨v, h1, h2⟩ := (opTree_sem hL (env := fun e => e.elim) ha' ht).1 vs _ (semList_const _ _ vs) (sims_sto h h0)
  rw [h2, ← got_same h h1, applyFn, ht]
  rfl

/-- A single argument is returned unchanged by functions of any number of arguments, whatever it is (except for `CONCAT`). -/
theorem single_argument {L : Lib} {g : NFn} (hg : g ≠ .concat) (v : DV) : applyFn L (.nary g) [v] = some v := by
  cases g <;> first | exact absurd rfl hg | rfl

/-- Integers are added, subtracted and multiplied exactly, or the result is undefined. -/
theorem integer_arithmetic {L : Lib} (hL : LibOK L) (h : StoresValues dict val sto) (i j : Int64) :
    (dataDom L h).app (Tr.opCode "SUBTRACTION".toList) [sto (.long i), sto (.long j)] = (got (I64.sub i j)).map (sto ∘ .long) ∧
    (dataDom L h).app (Tr.opCode "SUM".toList) [sto (.long i), sto (.long j)] = (got (I64.sum [i, j])).map (sto ∘ .long) ∧
    (dataDom L h).app (Tr.opCode "PRODUCT".toList) [sto (.long i), sto (.long j)] = (got (I64.prod [i, j])).map (sto ∘ .long) ∧
    ((dataDom L h).app (Tr.opCode "NUMLESS".toList) [sto (.long i), sto (.long j)] = some (sto (.bool true)) ↔ i.toInt < j.toInt) ∧
    ((dataDom L h).app (Tr.opCode "NUMGREATER".toList) [sto (.long i), sto (.long j)] = some (sto (.bool true)) ↔ j.toInt < i.toInt) := by
  have h0 : ∀ v ∈ [DV.long i, DV.long j], v.NoZero := by simp [DV.NoZero]
  have tf : ∀ b : Bool, sto (.bool b) = sto (.bool true) ↔ b = true := fun b => by rw [h.sto_eq]; simp [DV.eq]
  refine ⟨?_, ?_, ?_, ?_, ?_⟩
  · have := app_sto hL h (k := Tr.opCode "SUBTRACTION".toList) (f := .bin .sub) (by decide +kernel) (vs := [.long i, .long j]) rfl h0
    simp only [List.map_cons, List.map_nil] at this
    rw [this]
    change (got (I64.sub i j >>= fun r => Res.val (DV.long r))).map sto = _
    cases I64.sub i j <;> rfl
  · have := app_sto hL h (k := Tr.opCode "SUM".toList) (f := .nary .sum) (by decide +kernel) (vs := [.long i, .long j]) (.inl (by simp)) h0
    simp only [List.map_cons, List.map_nil] at this
    rw [this]
    change (got (I64.sum [i, j] >>= fun r => Res.val (DV.long r))).map sto = _
    cases I64.sum [i, j] <;> rfl
  · have := app_sto hL h (k := Tr.opCode "PRODUCT".toList) (f := .nary .prod) (by decide +kernel) (vs := [.long i, .long j]) (.inl (by simp)) h0
    simp only [List.map_cons, List.map_nil] at this
    rw [this]
    change (got (I64.prod [i, j] >>= fun r => Res.val (DV.long r))).map sto = _
    cases I64.prod [i, j] <;> rfl
  · have := app_sto hL h (k := Tr.opCode "NUMLESS".toList) (f := .bin .lt) (by decide +kernel) (vs := [.long i, .long j]) rfl h0
    simp only [List.map_cons, List.map_nil] at this
    rw [this]
    change some (sto (.bool (I64.lt i j))) = _ ↔ _
    rw [Option.some.injEq, tf]
    exact (I64.compare_exact i j).1
  · have := app_sto hL h (k := Tr.opCode "NUMGREATER".toList) (f := .bin .gt) (by decide +kernel) (vs := [.long i, .long j]) rfl h0
    simp only [List.map_cons, List.map_nil] at this
    rw [this]
    change some (sto (.bool (I64.gt i j))) = _ ↔ _
    rw [Option.some.injEq, tf]
    exact (I64.compare_exact i j).2.2.1

/-! ### Aggregates -/

theorem aggValues_length {rows : List (List α)} (hne : ∀ r ∈ rows, r ≠ []) : (aggValues rows).length = rows.toFinset.card := by
  rw [aggValues, List.filterMap_length_eq_length.2, Finset.length_sort]
  intro r hr
  have := hne r (by simpa using hr)
  cases r with
  | nil => exact absurd rfl this
  | cons a r => rfl

/-- **`#count`** is the number of different rows of the group. -/
theorem count_rows (L : Lib) (h : StoresValues dict val sto) {rows : List (List α)} (hne : ∀ r ∈ rows, r ≠ [])
    (hlt : rows.toFinset.card < 2 ^ 63) :
    (dataDom L h).agg (Tr.aggCode "count".toList) rows = some (sto (.long (Int64.ofNat rows.toFinset.card))) := by
  change applyAgg L val sto 0 rows = _
  rw [applyAgg, aggValues_length hne, if_pos hlt]

/-- **`#max`** and **`#min`** are the largest and the smallest aggregated value, in the order of stored values. -/
theorem extremal_rows (L : Lib) (h : StoresValues dict val sto) {rows : List (List α)} (hne : ∀ r ∈ rows, r ≠ []) (h1 : rows ≠ []) (a : α) :
    ((dataDom L h).agg (Tr.aggCode "max".toList) rows = some a ↔
      (∃ r ∈ rows, r.head? = some a) ∧ ∀ r ∈ rows, ∀ b, r.head? = some b → b ≤ a) ∧
    ((dataDom L h).agg (Tr.aggCode "min".toList) rows = some a ↔
      (∃ r ∈ rows, r.head? = some a) ∧ ∀ r ∈ rows, ∀ b, r.head? = some b → a ≤ b) := by
  have hmem : ∀ b, b ∈ aggValues rows ↔ ∃ r ∈ rows, r.head? = some b := fun b => by
    simp [aggValues, List.mem_filterMap]
  have hv : aggValues rows ≠ [] := by
    obtain ⟨r, rows', rfl⟩ := List.exists_cons_of_ne_nil h1
    cases r with
    | nil => exact absurd rfl (hne [] (by simp))
    | cons b r => exact List.ne_nil_of_mem ((hmem b).2 ⟨_, List.mem_cons_self, rfl⟩)
  constructor
  · change maxProc.run (aggValues rows) = some a ↔ _
    rw [max_run hv]
    simp only [hmem]
    exact and_congr_right fun _ => ⟨fun k r hr b hb => k b ⟨r, hr, hb⟩, fun k b ⟨r, hr, hb⟩ => k r hr b hb⟩
  · change minProc.run (aggValues rows) = some a ↔ _
    rw [min_run hv]
    simp only [hmem]
    exact and_congr_right fun _ => ⟨fun k r hr b hb => k b ⟨r, hr, hb⟩, fun k b ⟨r, hr, hb⟩ => k r hr b hb⟩

theorem pos_sum (l : List Int) : 0 ≤ (l.map fun i => max i 0).sum := by
  induction l with
  | nil => simp
  | cons a l ih => simp only [List.map_cons, List.sum_cons]; omega

theorem neg_sum (l : List Int) : (l.map fun i => min i 0).sum ≤ 0 := by
  induction l with
  | nil => simp
  | cons a l ih => simp only [List.map_cons, List.sum_cons]; omega

theorem split_sum (l : List Int) : l.sum = (l.map fun i => max i 0).sum + (l.map fun i => min i 0).sum := by
  induction l with
  | nil => simp
  | cons a l ih => simp only [List.map_cons, List.sum_cons]; omega

theorem dsum_fold (L : Lib) : ∀ (vs : List DV) (is : List Int64) (c : Int64), vs.map Num.ofDV = is.map (some ∘ Num.int) →
    c.toInt + ((is.map Int64.toInt).map fun i => max i 0).sum < 2 ^ 63 →
    -2 ^ 63 ≤ c.toInt + ((is.map Int64.toInt).map fun i => min i 0).sum →
    ∃ s : Int64, s.toInt = c.toInt + (is.map Int64.toInt).sum ∧ vs.foldlM (dsumWrite L) ⟨none, some c, none⟩ = some ⟨none, some s, none⟩
  | [], [], c, _, _, _ => ⟨c, by simp, rfl⟩
  | [], _ :: _, c, h, _, _ => by simp at h
  | _ :: _, [], c, h, _, _ => by simp at h
  | v :: vs, i :: is, c, h, h1, h2 => by
    simp only [List.map_cons, List.cons.injEq, Function.comp] at h
    simp only [List.map_cons, List.sum_cons] at h1 h2 ⊢
    have p := pos_sum (is.map Int64.toInt)
    have n := neg_sum (is.map Int64.toInt)
    have hc1 : c.toInt < 2 ^ 63 := Int64.toInt_lt c
    have hc2 : -2 ^ 63 ≤ c.toInt := Int64.le_toInt c
    obtain ⟨z, hz, hz'⟩ := (I64.add_exact c i).1 ⟨by omega, by omega⟩
    obtain ⟨s, hs, hf⟩ := dsum_fold L vs is z h.2 (by omega) (by omega)
    refine ⟨s, by omega, ?_⟩
    rw [List.foldlM_cons]
    have : dsumWrite L ⟨none, some c, none⟩ v = some ⟨none, some z, none⟩ := by
      simp [dsumWrite, h.1, dsumInto, checkedAdd, hz]
    rw [this]
    exact hf

/-- **`#sum`** of integers is their sum over the different rows of the group, if neither the positive nor the negative ones exceed
64 bits. -/
theorem sum_rows_partial (L : Lib) (h : StoresValues dict val sto) {rows : List (List α)} {is : List Int64}
    (hv : (aggValues rows).map (Num.ofDV ∘ val) = is.map (some ∘ Num.int)) (hne : is ≠ [])
    (h1 : ((is.map Int64.toInt).map fun i => max i 0).sum < 2 ^ 63) (h2 : -2 ^ 63 ≤ ((is.map Int64.toInt).map fun i => min i 0).sum) :
    ∃ s : Int64, s.toInt = (is.map Int64.toInt).sum ∧
      (dataDom L h).agg (Tr.aggCode "sum".toList) rows = some (sto (.long s)) := by
  change ∃ s : Int64, _ ∧ applyAgg L val sto 3 rows = _
  simp only [applyAgg, dsum]
  cases hvs : aggValues rows with
  | nil => rw [hvs] at hv; cases is <;> simp at hv hne
  | cons a as =>
    cases is with
    | nil => exact absurd rfl hne
    | cons i is =>
      rw [hvs] at hv
      simp only [List.map_cons, List.cons.injEq, Function.comp] at hv
      simp only [List.map_cons, List.sum_cons] at h1 h2 ⊢
      have p := pos_sum (is.map Int64.toInt)
      have n := neg_sum (is.map Int64.toInt)
      obtain ⟨s, hs, hf⟩ := dsum_fold L (as.map val) is i (by rw [List.map_map]; exact hv.2) (by omega) (by omega)
      refine ⟨s, hs, ?_⟩
      rw [List.foldlM_cons]
      have : dsumWrite L ⟨none, none, none⟩ (val a) = some ⟨none, some i, none⟩ := by simp [dsumWrite, hv.1, dsumInto]
      rw [this]
      simp only [Option.bind_eq_bind, Option.bind_some, hf]
      rfl

end
end Verif.Data
