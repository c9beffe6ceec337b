import Verif.TriePlan
import Verif.TypeProp
import Mathlib.Data.Countable.Basic
import Mathlib.Data.Prod.Lex
import Mathlib.Logic.Encodable.Basic
import Mathlib.Logic.Equiv.List

/-!
# Trees of operations over data values

`Plan.execute_rows_partial` instantiated with the data values and functions of Nemo: what is assumed about values is
that storing them behaves like the dictionary and the encoding of numbers do (`StoresValues`).
-/

set_option linter.unusedSimpArgs false
set_option linter.unusedSectionVars false
set_option linter.unusedVariables false

namespace Verif
variable {α : Type} [SVal α] {M : Type} [DecidableEq M]

/-- How data values are stored (`to_storage_value_t_dict`, any_datavalue.rs:510-556, and
`AnyDataValue::new_from_storage_value`): every stored value stands for a data value, equal data values and
only those are stored in the same way, and the type under which a value is stored depends on its domain
and its identifier in the dictionary. -/
structure StoresValues (dict : DV → Nat) (val : α → DV) (sto : DV → α) : Prop where
  sto_val : ∀ a, sto (val a) = a
  sto_eq : ∀ v w, sto v = sto w ↔ v.eq w = true
  ty_sto : ∀ v, ty (sto v) = Fn.storeType dict v

/-- a bit set of types from the list of its elements -/
def TypeSet.ofList (ts : List Ty) : TypeSet := ts.foldr (fun t s => (TypeSet.ofType t).union s) BSet.empty

/-- the predicted types of a program (evaluation.rs:307-345) -/
def predTypes (p : SProg DV Fn.UFn Fn.BFn Fn.TFn Fn.NFn) (ts : List (List Ty)) : List Ty :=
  match Fn.typeProp p (ts.map TypeSet.ofList) none with
  | .val s => TypeSet.types s
  | _ => []

/-- the data values and functions of Nemo -/
def builtins (L : Fn.Lib) (val : α → DV) (sto : DV → α) : PEnv α DV Fn.UFn Fn.BFn Fn.TFn Fn.NFn where
  env := ⟨Fn.sem L, Fn.toBool, val, sto⟩
  te := ⟨fun v => TypeSet.types v.domain.storageType, predTypes⟩
  sp := ⟨.conjunction, .bool true, .equals⟩

theorem TypeSet.mem_ofList {t : Ty} (ts : List Ty) : t ∈ TypeSet.types (TypeSet.ofList ts) ↔ t ∈ ts := by
  unfold TypeSet.ofList
  induction ts with
  | nil => simp [Fn.not_mem_empty]
  | cons a ts ih => rw [List.foldr_cons, TypeSet.types_union, ih, Fn.mem_ofType, List.mem_cons]

theorem toBool_iff {v : DV} {b : Bool} : Fn.toBool v = some b ↔ v = .bool b := by
  cases v <;> simp [Fn.toBool]

theorem mapM_toBool {vs : List DV} {bs : List Bool} : vs.mapM Fn.toBool = some bs ↔ vs = bs.map .bool := by
  induction vs generalizing bs with
  | nil => cases bs <;> simp
  | cons v vs ih =>
    rw [List.mapM_cons]
    cases hv : Fn.toBool v with
    | none =>
      simp only [Option.bind_eq_bind, Option.bind_none, reduceCtorEq, false_iff]
      intro h
      cases bs with
      | nil => simp at h
      | cons b bs => simp only [List.map_cons, List.cons.injEq] at h; rw [h.1] at hv; simp [Fn.toBool] at hv
    | some b =>
      rw [toBool_iff] at hv
      subst hv
      cases hm : vs.mapM Fn.toBool with
      | none =>
        simp only [Option.bind_eq_bind, Option.bind_some, Option.bind_none, reduceCtorEq, false_iff]
        intro h
        cases bs with
        | nil => simp at h
        | cons b' bs =>
          simp only [List.map_cons, List.cons.injEq] at h
          rw [ih.mpr h.2] at hm; simp at hm
      | some bs' =>
        have := ih.mp hm
        subst this
        cases bs with
        | nil => simp
        | cons b' bs =>
          simp [List.map_inj_right]

variable {dict : DV → Nat} {val : α → DV} {sto : DV → α}

theorem eq_comm_dv (v w : DV) : v.eq w = w.eq v := by
  have : v.eq w = true ↔ w.eq v = true := ⟨DV.eq_equivalence.symm, DV.eq_equivalence.symm⟩
  cases h : v.eq w <;> cases h' : w.eq v <;> simp_all

theorem builtins_ok (L : Fn.Lib) (h : StoresValues dict val sto) : Plan.EnvOK (builtins L val sto) where
  sto_val := h.sto_val
  special := by
    have he : ∀ a c, (val a).eq c = true ↔ a = sto c := by
      intro a c
      rw [← h.sto_eq, h.sto_val]
    constructor
    · intro vs
      show (∃ w, Res.ofOption ((vs.mapM Fn.toBool).map fun bs => DV.bool (bs.all id)) = .val w ∧ Fn.toBool w = some true) ↔
        ∀ v ∈ vs, Fn.toBool v = some true
      cases hm : vs.mapM Fn.toBool with
      | none =>
        simp only [Option.map_none, Res.ofOption, reduceCtorEq, false_and, exists_false, false_iff]
        intro hv
        have : vs = (vs.map fun _ => true).map DV.bool := by
          rw [List.map_map]
          apply List.ext_getElem (by simp)
          intro n h1 h2
          have := toBool_iff.mp (hv vs[n] (List.getElem_mem h1))
          simp [this]
        rw [← mapM_toBool, hm] at this
        simp at this
      | some bs =>
        have := mapM_toBool.mp hm
        subst this
        simp only [Option.map_some, Res.ofOption, Res.val.injEq, exists_eq_left', List.mem_map, forall_exists_index, and_imp]
        simp only [Fn.toBool, Option.some.injEq, List.all_eq_true, id_eq]
        constructor
        · rintro h v b hb rfl; rw [h b hb]
        · intro h b hb
          have := h _ b hb rfl
          simpa using this
    · intro a c
      show (∃ w, Res.val (DV.bool ((val a).eq c)) = .val w ∧ Fn.toBool w = some true) ↔ a = sto c
      rw [← he]
      simp [toBool_iff]
    · intro a c
      show (∃ w, Res.val (DV.bool (c.eq (val a))) = .val w ∧ Fn.toBool w = some true) ↔ a = sto c
      rw [← he, eq_comm_dv]
      simp [toBool_iff]

theorem builtins_pred (L : Fn.Lib) (h : StoresValues dict val sto) (out : List M)
    (funs : List (M × FTree DV Fn.UFn Fn.BFn Fn.TFn Fn.NFn M)) :
    TFn.PredOK (builtins L val sto).env (builtins L val sto).te (TFn.ProgOf out funs) where
  asc := by
    intro p ts
    show (predTypes p ts).Pairwise (· < ·)
    unfold predTypes
    split
    · exact TypeSet.types_sorted _
    · exact List.Pairwise.nil
  domAsc v := TypeSet.types_sorted _
  pred := by
    rintro p as ts v ⟨f, hf, hn, hp⟩ hat hev
    obtain ⟨s, h1, h2⟩ := Fn.type_prediction_tree (L := L) dict (types := ts.map TypeSet.ofList) (vals := as.map val)
      (thisV := none) (thisT := none) (r := v) hp (fun c e => hn.1 (by rw [e]; rfl)) hn.2
      (by
        rw [List.forall₂_map_left_iff, List.forall₂_map_right_iff]
        refine hat.imp fun a t hat => ?_
        rw [TypeSet.mem_ofList, ← h.ty_sto, h.sto_val]
        exact hat)
      (by simp) hev
    show ty (sto v) ∈ predTypes p ts
    unfold predTypes
    rw [h1, h.ty_sto]
    exact h2

namespace Plan

/-- Plans over data values that can be evaluated, when the result is used in mode `m`. Compared with `OK`
it is only required of predictions of types that constants are not integers beyond 64 signed bits (see
`Fn.constant_prediction_wrong`). -/
def Fits (L : Fn.Lib) (val : α → DV) (sto : DV → α) (ars : Leaf → Nat) :
    Plan M DV Fn.UFn Fn.BFn Fn.TFn Fn.NFn → Mode → Prop
  | leaf _ => fun _ => True
  | zero => fun _ => True
  | join out inputs kids => fun m => TJoin.MarkersOK out inputs ∧ inputs ≠ [] ∧
      ∀ i, (kids i).arity ars = (inputs.get i).length ∧ Fits L val sto ars (kids i) (if inputs.length = 1 then m else .weak)
  | union ar n kids => fun m => ∀ i, (kids i).arity ars = ar ∧
      Fits L val sto ars (kids i) (if n ≤ 1 then m else ⟨m.sk, true⟩)
  | subtract out inputs main subs => fun m => out.Nodup ∧ (∀ l ∈ inputs, l.Sublist out) ∧
      main.arity ars = out.length ∧ Fits L val sto ars main m ∧
      ∀ i, (subs i).arity ars = (inputs.get i).length ∧ Fits L val sto ars (subs i) .weak
  | filter table filters kid => fun m => table.Nodup ∧ table ≠ [] ∧ (∀ f ∈ filters, TFilter.FilterOK table f) ∧
      kid.arity ars = table.length ∧ (m.sk = true → m.cu = true → filters = []) ∧
      Fits L val sto ars kid (filterMode (builtins L val sto) filters m)
  | function out funs kid => fun m => out.Nodup ∧ TFn.FnOK (builtins L val sto).env out funs ∧
      (∀ f ∈ funs, f.2.refs = [] → ∀ v, f.2.sem (Fn.sem L) (fun _ => none) = .val v → v.domain ≠ .unsignedLong) ∧
      kid.arity ars = (TFn.inputCols out funs).length ∧ Fits L val sto ars kid m

theorem Fits.ok {L : Fn.Lib} (h : StoresValues dict val sto) {ars : Leaf → Nat} :
    ∀ {p : Plan M DV Fn.UFn Fn.BFn Fn.TFn Fn.NFn} {m : Mode}, Fits L val sto ars p m → OK (builtins L val sto) ars p m := by
  intro p
  induction p with
  | leaf i => exact fun _ => trivial
  | zero => exact fun _ => trivial
  | join out inputs kids ih => exact fun ⟨h1, h2, h3⟩ => ⟨h1, h2, fun i => ⟨(h3 i).1, ih i (h3 i).2⟩⟩
  | union ar n kids ih => exact fun h i => ⟨(h i).1, ih i (h i).2⟩
  | subtract out inputs main subs ih1 ih2 =>
    exact fun ⟨h1, h2, h3, h4, h5⟩ => ⟨h1, h2, h3, ih1 h4, fun i => ⟨(h5 i).1, ih2 i (h5 i).2⟩⟩
  | filter table filters kid ih => exact fun ⟨h1, h2, h3, h4, h5, h6⟩ => ⟨h1, h2, h3, h4, h5, ih h6⟩
  | function out funs kid ih =>
    exact fun ⟨h1, h2, h3, h4, h5⟩ => ⟨h1, h2, builtins_pred L h out funs, fun f hf hr v hv => by
      show ty (sto v) ∈ TypeSet.types v.domain.storageType
      rw [h.ty_sto]
      exact Fn.constant_prediction_partial dict v (h3 f hf hr v hv), h4, ih h5⟩

/-- **C09, C10.** Evaluating a tree of operations over data values with the built-in functions stores
exactly the rows of the expression, restricted to the columns that are kept; each once, in ascending
order. -/
theorem execute_builtins {L : Fn.Lib} (h : StoresValues dict val sto) {db : Leaf → Trie α} {ars : Leaf → Nat}
    {tab : Leaf → List α → Prop} (hdb : ∀ i, TableOK (db i) (ars i) (tab i)) {p : Plan M DV Fn.UFn Fn.BFn Fn.TFn Fn.NFn}
    (hp : Fits L val sto ars p ⟨false, false⟩) {cut : Nat} (hcut : cut < arity ars p) (d d' : α) :
    ∃ t, execute (builtins L val sto) db p cut d = some t ∧
      ((t = Trie.empty 0 ∧ ∀ r, ¬ Sem (builtins L val sto).env tab p r) ∨
        ∃ out, t.rowIterator d' = some out ∧ out.Pairwise (· < ·) ∧
          ∀ r, r ∈ out ↔ r.length = arity ars p - cut ∧ ∃ x, Sem (builtins L val sto).env tab p (r ++ x)) := by
  have : Nonempty α := ⟨d⟩
  exact execute_rows_partial (builtins_ok L h) hdb (hp.ok h) hcut d d'

end Plan

/-! ## A storage of data values

That the assumptions of `StoresValues` can be met: numbers stand for themselves, all other values are numbered. -/

theorem tok_countable : Countable (List Tok) := by
  have h1 : Countable Char := Function.Injective.countable (f := Char.toNat) fun a b h => Char.toNat_inj.mp h
  have h2 : Countable String := Function.Injective.countable (f := String.toList) fun a b h => String.toList_inj.mp h
  infer_instance

/-- a number for every key -/
noncomputable def encTok : List Tok → Nat := tok_countable.exists_injective_nat.choose

theorem encTok_inj : Function.Injective encTok := tok_countable.exists_injective_nat.choose_spec

/-- a dictionary -/
noncomputable def exDict (v : DV) : Nat := encTok v.key

/-- the content of a stored value -/
noncomputable def payload (v : DV) : Int :=
  match v with
  | .float f => f.scaled
  | .double f => f.scaled
  | .long i => i.toInt
  | .ulong n => if v.domain = .unsignedLong then exDict v else n.toNat
  | _ => exDict v

/-- type and content of a stored value -/
noncomputable def code (v : DV) : Fin 5 ×ₗ Int := toLex (Fn.storeType exDict v, payload v)

/-- stored values -/
def Stored : Type := {x : Fin 5 ×ₗ Int // ∃ v, code v = x}

noncomputable instance : LinearOrder Stored := inferInstanceAs (LinearOrder {x : Fin 5 ×ₗ Int // ∃ v, code v = x})

noncomputable instance : SVal Stored where
  ty x := (ofLex x.val).1
  ty_mono a b h := by
    have : a.val ≤ b.val := h
    rw [Prod.Lex.le_iff] at this
    rcases this with h | h
    · exact h.le
    · exact h.1.le

theorem eq_iff_key {v w : DV} : v.eq w = true ↔ v.key = w.key := by
  rw [DV.eq_iff_cmp, DV.cmp_key, Option.some.injEq, lexCmp_eq]

theorem pos_inj {d d' : ValueDomain} (h : d.pos = d'.pos) : d = d' := by
  cases d <;> cases d' <;> first | rfl | (simp [ValueDomain.pos] at h)

theorem domain_of_key {v w : DV} (h : v.key = w.key) : v.domain = w.domain := by
  obtain ⟨s, hs⟩ := v.key_head
  obtain ⟨t, ht⟩ := w.key_head
  rw [hs, ht, List.cons.injEq] at h
  have := h.1
  simp only [tn, Prod.mk.injEq, and_true] at this
  exact pos_inj (by exact_mod_cast this)

/-- the content depends on the type only through the kind of the value -/
theorem payload_id {v : DV} (h : Fn.storeType exDict v = 0 ∨ Fn.storeType exDict v = 1) : payload v = exDict v := by
  cases v with
  | float f => simp [Fn.storeType, DV.domain] at h
  | double f => simp [Fn.storeType, DV.domain] at h
  | long i => rw [Fn.storeType_long] at h; simp at h
  | ulong n =>
    unfold payload
    by_cases hd : (DV.ulong n).domain = .unsignedLong
    · simp only [hd, if_true]
    · exfalso
      rw [Fn.storeType_ulong] at h
      · simp at h
      · by_contra hn
        apply hd
        simp only [DV.domain, ulongDomain]
        rw [if_neg (by omega), if_neg (by omega), if_neg hn]
  | _ => rfl

theorem payload_int {v : DV} (h : Fn.storeType exDict v = 2) : v.intVal = some (payload v) := by
  cases v with
  | long i => rfl
  | ulong n =>
    have : (DV.ulong n).domain ≠ .unsignedLong := by
      intro hd
      unfold Fn.storeType at h
      rw [hd] at h
      simp only at h
      split_ifs at h <;> simp at h
    simp only [DV.intVal, payload, if_neg this]
  | _ =>
    simp only [Fn.storeType, DV.domain] at h
    first | (split_ifs at h <;> simp at h) | simp at h

theorem code_iff (v w : DV) : code v = code w ↔ v.eq w = true := by
  rw [eq_iff_key]
  constructor
  · intro h
    have h' : (Fn.storeType exDict v, payload v) = (Fn.storeType exDict w, payload w) := toLex.injective h
    rw [Prod.mk.injEq] at h'
    obtain ⟨h1, h2⟩ := h'
    obtain ⟨τ, hτ⟩ : ∃ τ, τ = Fn.storeType exDict v := ⟨_, rfl⟩
    have hid : τ = 0 ∨ τ = 1 → v.key = w.key := by
      rintro hτ'
      rw [payload_id (by rw [← hτ]; exact hτ'), payload_id (by rw [← h1, ← hτ]; exact hτ')] at h2
      exact encTok_inj (by exact_mod_cast h2)
    match τ, hτ with
    | 0, _ => exact hid (.inl rfl)
    | 1, _ => exact hid (.inr rfl)
    | 2, hτ =>
      have e1 := payload_int hτ.symm
      have e2 := payload_int (h1 ▸ hτ.symm)
      rw [DV.key_int e1, DV.key_int e2, DV.int_domain e1, DV.int_domain e2, h2]
    | 3, hτ =>
      have hf : ∀ u : DV, Fn.storeType exDict u = 3 → u.key = [tn 50, tn (payload u)] := by
        intro u hu
        cases u with
        | float f => rfl
        | long i => rw [Fn.storeType_long] at hu; simp at hu
        | ulong n =>
          unfold Fn.storeType at hu
          simp only [DV.domain, ulongDomain] at hu
          split_ifs at hu <;> simp at hu
        | _ =>
          simp only [Fn.storeType, DV.domain] at hu
          first | (split_ifs at hu <;> simp at hu) | simp at hu
      rw [hf v hτ.symm, hf w (h1 ▸ hτ.symm), h2]
    | 4, hτ =>
      have hf : ∀ u : DV, Fn.storeType exDict u = 4 → u.key = [tn 52, tn (payload u)] := by
        intro u hu
        cases u with
        | double f => rfl
        | long i => rw [Fn.storeType_long] at hu; simp at hu
        | ulong n =>
          unfold Fn.storeType at hu
          simp only [DV.domain, ulongDomain] at hu
          split_ifs at hu <;> simp at hu
        | _ =>
          simp only [Fn.storeType, DV.domain] at hu
          first | (split_ifs at hu <;> simp at hu) | simp at hu
      rw [hf v hτ.symm, hf w (h1 ▸ hτ.symm), h2]
  · intro h
    have hd := domain_of_key h
    have hdi : exDict v = exDict w := by unfold exDict; rw [h]
    have hs : Fn.storeType exDict v = Fn.storeType exDict w := by unfold Fn.storeType; rw [hd, hdi]
    have hp : payload v = payload w := by
      have hv := eq_iff_key.mpr h
      cases hi : v.intVal with
      | some i =>
        have hi' := (DV.eq_int hv).symm.trans hi
        obtain ⟨τ, hτ⟩ : ∃ τ, τ = Fn.storeType exDict v := ⟨_, rfl⟩
        by_cases h2 : τ = 2
        · have e1 := payload_int (h2 ▸ hτ.symm)
          have e2 := payload_int (hs ▸ h2 ▸ hτ.symm)
          rw [hi] at e1
          rw [hi'] at e2
          exact Option.some.inj (e1.symm.trans e2)
        · have h01 : τ = 0 ∨ τ = 1 := by
            rw [hτ] at h2 ⊢
            unfold Fn.storeType at h2 ⊢
            rw [DV.int_domain hi] at h2 ⊢
            unfold longDomain at h2 ⊢
            split_ifs at h2 ⊢ <;> simp_all
          rw [payload_id (hτ ▸ h01), payload_id (hs ▸ hτ ▸ h01), hdi]
      | none =>
        cases v with
        | float f =>
          cases w <;> simp [DV.key, tn] at h <;> try (exact h)
          all_goals (simp only [longDomain, ulongDomain] at h; split_ifs at h <;> simp [ValueDomain.pos] at h)
        | double f =>
          cases w <;> simp [DV.key, tn] at h <;> try (exact h)
          all_goals (simp only [longDomain, ulongDomain] at h; split_ifs at h <;> simp [ValueDomain.pos] at h)
        | long i => simp [DV.intVal] at hi
        | ulong i => simp [DV.intVal] at hi
        | _ =>
          have : Fn.storeType exDict w = 0 ∨ Fn.storeType exDict w = 1 := by
            rw [← hs]
            simp only [Fn.storeType, DV.domain]
            split_ifs <;> simp
          rw [payload_id this, ← hdi]
          rfl
    unfold code
    rw [hs, hp]

noncomputable def storedVal (a : Stored) : DV := a.property.choose
noncomputable def storedSto (v : DV) : Stored := ⟨code v, v, rfl⟩

/-- The assumptions about the storage of values can be met. -/
theorem stored_storage : StoresValues exDict storedVal storedSto where
  sto_val a := Subtype.ext a.property.choose_spec
  sto_eq v w := by
    rw [← code_iff]
    exact Subtype.ext_iff
  ty_sto v := rfl

/-! ## Examples -/

/-- Every table made from rows is a stored table in the sense of `Plan.TableOK`. -/
theorem Plan.tableOK_tableOf {n : Nat} (hn : 0 < n) {rows : List (List α)} (hl : ∀ r ∈ rows, r.length = n) :
    ∃ t, tableOf n rows = some t ∧ Plan.TableOK t n (· ∈ rows) := by
  obtain ⟨t, sorted, h1, h2, h3, h4, h5⟩ := tableOf_rep hn hl
  exact ⟨t, h1, .inl ⟨hn, h2, sorted, h3, h5, fun r hr => hl r (h4.mem_iff.mp hr), fun r => h4.mem_iff⟩⟩

/-- `P(?x,?z,?w) :- A(?x,?z), B(?z), ~C(?x), ?z > 3, ?w = ?z + 1` with tables `A`, `B`, `C` -/
def Plan.exPlan : Plan String DV Fn.UFn Fn.BFn Fn.TFn Fn.NFn :=
  .function ["x", "z", "w"] [("w", .bin .add (.ref "z") (.const (.long 1)))]
    (.filter ["x", "z"] [.bin .gt (.ref "z") (.const (.long 3))]
      (.subtract ["x", "z"] [["x"]]
        (.join ["x", "z"] [["x", "z"], ["z"]] fun i => if i.val = 0 then .leaf (.load 0) else .leaf (.load 1))
        fun _ => .leaf (.load 2)))

/-- the numbers of columns of the three tables -/
def Plan.exArs : Leaf → Nat
  | .load 0 => 2
  | _ => 1

theorem Plan.exPlan_fits (L : Fn.Lib) (val : α → DV) (sto : DV → α) (m : Mode) (hm : ¬ (m.sk = true ∧ m.cu = true)) :
    Fits L val sto exArs exPlan m := by
  refine ⟨by decide, ⟨by decide, by decide, ?_, ?_, ?_, ?_⟩, ?_, rfl, by decide, by decide, ?_, rfl, ?_, by decide, by decide,
    rfl, ⟨?_, by decide, ?_⟩, ?_⟩
  · intro f hf r hr
    simp only [List.mem_singleton] at hf
    subst hf
    simp only [FTree.refs, List.append_nil, List.mem_singleton] at hr
    subst hr
    decide
  · intro f hf
    simp only [List.mem_singleton] at hf
    subst hf
    exact ⟨trivial, trivial⟩
  · intro f hf hr
    simp only [List.mem_singleton] at hf
    subst hf
    simp [FTree.refs] at hr
  · rintro x - x' - ⟨f, hf, -, hx⟩ hlt ⟨f', hf', hx'⟩
    simp only [List.mem_singleton] at hf hf'
    subst hf hf'
    simp only [FTree.refs, List.append_nil, List.mem_singleton] at hx hx'
    rw [hx, hx'] at hlt
    exact absurd hlt (Nat.lt_irrefl _)
  · intro f hf hr
    simp only [List.mem_singleton] at hf
    subst hf
    simp [FTree.refs] at hr
  · intro f hf
    simp only [List.mem_singleton] at hf
    subst hf
    refine ⟨?_, trivial, trivial⟩
    intro r hr
    simp only [FTree.refs, List.append_nil, List.mem_singleton] at hr
    subst hr
    decide
  · exact fun h1 h2 => absurd ⟨h1, h2⟩ hm
  · constructor <;> decide
  · intro i
    match i with
    | ⟨0, _⟩ => exact ⟨rfl, trivial⟩
    | ⟨1, _⟩ => exact ⟨rfl, trivial⟩
  · intro i
    match i with
    | ⟨0, _⟩ => exact ⟨rfl, trivial⟩

/-- The case above for concrete tables: `A = {("a", 5), ("b", 7), ("c", 2)}`, `B = {5, 7, 2}`, `C = {"b"}`. -/
example (L : Fn.Lib) (d : Stored) : ∃ (db : Leaf → Trie Stored) (t : Trie Stored),
    Plan.execute (builtins L storedVal storedSto) db Plan.exPlan 0 d = some t ∧
    ((t = Trie.empty 0 ∧ ∀ r, ¬ Plan.Sem (builtins L storedVal storedSto).env
        (fun i => (· ∈ match i with
          | .load 0 => [[storedSto (.str "a"), storedSto (.long 5)], [storedSto (.str "b"), storedSto (.long 7)],
              [storedSto (.str "c"), storedSto (.long 2)]]
          | .load 1 => [[storedSto (.long 5)], [storedSto (.long 7)], [storedSto (.long 2)]]
          | _ => [[storedSto (.str "b")]])) Plan.exPlan r) ∨
      ∃ out, t.rowIterator d = some out ∧ out.Pairwise (· < ·) ∧
        ∀ r, r ∈ out ↔ r.length = 3 ∧ ∃ x, Plan.Sem (builtins L storedVal storedSto).env
          (fun i => (· ∈ match i with
            | .load 0 => [[storedSto (.str "a"), storedSto (.long 5)], [storedSto (.str "b"), storedSto (.long 7)],
                [storedSto (.str "c"), storedSto (.long 2)]]
            | .load 1 => [[storedSto (.long 5)], [storedSto (.long 7)], [storedSto (.long 2)]]
            | _ => [[storedSto (.str "b")]])) Plan.exPlan (r ++ x)) := by
  have key : ∀ i, ∃ t : Trie Stored, Plan.TableOK t (Plan.exArs i) (· ∈ match i with
          | .load 0 => [[storedSto (.str "a"), storedSto (.long 5)], [storedSto (.str "b"), storedSto (.long 7)],
              [storedSto (.str "c"), storedSto (.long 2)]]
          | .load 1 => [[storedSto (.long 5)], [storedSto (.long 7)], [storedSto (.long 2)]]
          | _ => [[storedSto (.str "b")]]) := by
    intro i
    match i with
    | .load 0 =>
      obtain ⟨t, -, h⟩ := Plan.tableOK_tableOf (n := 2) (by omega)
        (rows := [[storedSto (.str "a"), storedSto (.long 5)], [storedSto (.str "b"), storedSto (.long 7)],
              [storedSto (.str "c"), storedSto (.long 2)]]) (by simp)
      exact ⟨t, h⟩
    | .load 1 =>
      obtain ⟨t, -, h⟩ := Plan.tableOK_tableOf (n := 1) (by omega)
        (rows := [[storedSto (.long 5)], [storedSto (.long 7)], [storedSto (.long 2)]]) (by simp)
      exact ⟨t, h⟩
    | .load (n + 2) =>
      obtain ⟨t, -, h⟩ := Plan.tableOK_tableOf (n := 1) (by omega) (rows := [[storedSto (.str "b")]]) (by simp)
      exact ⟨t, h⟩
    | .computed _ =>
      obtain ⟨t, -, h⟩ := Plan.tableOK_tableOf (n := 1) (by omega) (rows := [[storedSto (.str "b")]]) (by simp)
      exact ⟨t, h⟩
  choose db hdb using key
  obtain ⟨t, h⟩ := Plan.execute_builtins (L := L) stored_storage (db := db) hdb
    (Plan.exPlan_fits L storedVal storedSto ⟨false, false⟩ (by simp)) (cut := 0) (by decide) d d
  exact ⟨db, t, h⟩

/-- **Finding.** For `P(?x,?z,?y,?w) :- B(?x,?z), ?y = ?x, ?w = ?z + 1` the program computing `?w` refers to the second
of the values that are kept while the table is traversed, since `?x` and `?z` are both referenced; but only `?z` is
kept, since `?x` is merely copied.  So the program panics, on every row. -/
theorem copied_column_wrong (L : Fn.Lib) (val : α → DV) (sto : DV → α) :
    ∃ cfg p, TFn.newCfg (builtins L val sto).env ["x", "z", "y", "w"]
        [("y", .ref "x"), ("w", .bin Fn.BFn.add (.ref "z") (.const (.long 1)))] = some cfg ∧
      cfg.ins = [none, some [(p, 3)], none, none] ∧
      ∀ z : DV, p.evalData (Fn.sem L) [z] = .panic := by
  refine ⟨⟨[.input, .input, .copy 0, .computed], [none, some [(⟨2, [.push (.ref 1), .push (.const (.long 1)), .bin .add]⟩, 3)], none, none], []⟩,
    ⟨2, [.push (.ref 1), .push (.const (.long 1)), .bin .add]⟩, ?_, rfl, ?_⟩
  · rfl
  · intro z
    rfl

end Verif
