import Verif.TrieFunction

/-!
# Computed columns: the generator

Model of `GeneratorFunction` (`/repo/nemo-physical/src/tabular/operations/function.rs:79-281`).
-/

set_option linter.unusedSimpArgs false
set_option linter.unusedSectionVars false
set_option linter.unusedVariables false

namespace Verif
variable {α : Type} [SVal α] {V U B T N : Type}
variable {M : Type} [DecidableEq M]

namespace TFn

/-- `set_used` (function.rs:55-59) -/
def setUsed (ins : List (Option (List (SProg V U B T N × Nat)))) (i : Nat) :
    List (Option (List (SProg V U B T N × Nat))) := ins.modify i fun o => some (o.getD [])

/-- `append_used` (function.rs:62-67) -/
def appendUsed (ins : List (Option (List (SProg V U B T N × Nat)))) (i : Nat) (c : SProg V U B T N × Nat) :
    List (Option (List (SProg V U B T N × Nat))) := ins.modify i fun o => some (o.getD [] ++ [c])

/-- `referenced_columns` (function.rs:91-94) -/
def anyRef (funs : List (M × FTree V U B T N M)) (m : M) : Bool := funs.any fun f => decide (m ∈ f.2.refs)

/-- `reference_map` (function.rs:96-106).  The columns of the output table have different markers. -/
def refMap (out : List M) (funs : List (M × FTree V U B T N M)) (m : M) : Option Nat :=
  (out.filter (anyRef funs)).idxOf? m

/-- What the loop over the functions (function.rs:112-159) does with one function. -/
inductive Desc (V U B T N : Type)
  | normal (p : SProg V U B T N) (j : Nat) (ls : List Nat)
  | const (o : Option V)
  | copy (s : Nat)

/-- the case distinction on `special_function` (function.rs:119-158); `none` is a panic -/
def desc (env : VEnv α V U B T N) (out : List M) (funs : List (M × FTree V U B T N M)) (t : FTree V U B T N M) :
    Option (Desc V U B T N) :=
  match t.specialFun env.sem with
  | .val .normal =>
    (t.refs.mapM fun m => out.idxOf? m).bind fun ls =>
    ls.max?.bind fun j =>
    match SProg.fromTree (refMap out funs) none t with
    | .val p => some (.normal p j ls)
    | _ => none
  | .val (.constant o) => some (.const o)
  | .val (.reference r) => (out.idxOf? r).map .copy
  | _ => none

/-- the updates of the loop for output layer `k` -/
def apply (cfg : FnCfg V U B T N) (k : Nat) : Desc V U B T N → FnCfg V U B T N
  | .normal p j ls => ⟨cfg.comp.set k .computed, appendUsed (ls.foldl setUsed cfg.ins) j (p, k), cfg.consts⟩
  | .const o => ⟨cfg.comp.set k .computed, cfg.ins, cfg.consts ++ [(o, k)]⟩
  | .copy s => ⟨cfg.comp.set k (.copy s), cfg.ins, cfg.consts⟩

/-- one iteration of the loop (function.rs:112-159) -/
def register (env : VEnv α V U B T N) (out : List M) (funs : List (M × FTree V U B T N M)) (cfg : FnCfg V U B T N)
    (f : M × FTree V U B T N M) : Option (FnCfg V U B T N) :=
  (out.idxOf? f.1).bind fun k => (desc env out funs f.2).map fun d => apply cfg k d

/-- `GeneratorFunction::new` (function.rs:90-171); the functions in the order in which the map is
traversed; `none` is a panic. -/
def newCfg (env : VEnv α V U B T N) (out : List M) (funs : List (M × FTree V U B T N M)) : Option (FnCfg V U B T N) :=
  funs.foldlM (register env out funs) ⟨List.replicate out.length .input, List.replicate out.length none, []⟩

/-- `is_unchanging` (function.rs:174-180) -/
def unchanging (cfg : FnCfg V U B T N) : Bool :=
  cfg.comp.all fun c => match c with
    | .input => true
    | _ => false

/-- `generate` (function.rs:184-279) -/
def generate (env : VEnv α V U B T N) (te : TyEnv V U B T N) (cfg : FnCfg V U B T N) (x : Option (AnyScan α)) :
    Option (AnyScan α) :=
  x.map fun s => if unchanging cfg then s else scan env te cfg s

/-! ## Specification -/

/-- functions that are computed by a program: neither constant nor a mere reference -/
def IsNormal (t : FTree V U B T N M) : Prop := t.refs ≠ [] ∧ ∀ r, t ≠ .ref r

/-- Functions that can be evaluated: different ones for different columns of the output, every function only
uses columns to the left of its own, n-ary functions have parameters, constant expressions do
not panic, and a column that is only copied does not precede a column used by a proper function
(otherwise `reference_map` is wrong, see `copied_column_wrong`). -/
structure FnOK (env : VEnv α V U B T N) (out : List M) (funs : List (M × FTree V U B T N M)) : Prop where
  keys : (funs.map Prod.fst).Nodup
  mem : ∀ f ∈ funs, f.1 ∈ out
  before : ∀ f ∈ funs, ∀ r ∈ f.2.refs, r ∈ out ∧ out.idxOf r < out.idxOf f.1
  nary : ∀ f ∈ funs, f.2.NaryOK
  const : ∀ f ∈ funs, f.2.refs = [] → f.2.sem env.sem (fun _ => none) ≠ .panic
  copies : ∀ m ∈ out, ∀ m' ∈ out, (∃ f ∈ funs, IsNormal f.2 ∧ m ∈ f.2.refs) → out.idxOf m' < out.idxOf m →
    (∃ f ∈ funs, m' ∈ f.2.refs) → ∃ f ∈ funs, IsNormal f.2 ∧ m' ∈ f.2.refs

/-- the columns of the input -/
def inputCols (out : List M) (funs : List (M × FTree V U B T N M)) : List M :=
  out.filter fun m => decide (m ∉ funs.map Prod.fst)

/-! ## The loop over the functions -/

/-- the marker of a column -/
def mark : Desc V U B T N → FnCol
  | .copy s => .copy s
  | _ => .computed

/-- the loop, if nothing panics -/
def applyAll (n : Nat) (L : List (Nat × Desc V U B T N)) : FnCfg V U B T N :=
  L.foldl (fun cfg x => apply cfg x.1 x.2) ⟨List.replicate n .input, List.replicate n none, []⟩

theorem applyAll_snoc (n : Nat) (L : List (Nat × Desc V U B T N)) (x : Nat × Desc V U B T N) :
    applyAll n (L ++ [x]) = apply (applyAll n L) x.1 x.2 := by
  unfold applyAll
  rw [List.foldl_concat]

theorem length_setUsed (ls : List Nat) (ins : List (Option (List (SProg V U B T N × Nat)))) :
    (ls.foldl setUsed ins).length = ins.length := by
  induction ls generalizing ins with
  | nil => rfl
  | cons l ls ih => simp only [List.foldl_cons]; rw [ih, setUsed, List.length_modify]

theorem length_applyAll (n : Nat) (L : List (Nat × Desc V U B T N)) :
    (applyAll n L).comp.length = n ∧ (applyAll n L).ins.length = n := by
  induction L using List.reverseRecOn with
  | nil => simp [applyAll]
  | append_singleton L x ih =>
    rw [applyAll_snoc]
    obtain ⟨k, d⟩ := x
    cases d with
    | normal p j ls => simp only [apply, List.length_set, appendUsed, List.length_modify, length_setUsed]; exact ih
    | const o => simp only [apply, List.length_set]; exact ih
    | copy s => simp only [apply, List.length_set]; exact ih

theorem comp_applyAll {n : Nat} {L : List (Nat × Desc V U B T N)} (hL : (L.map Prod.fst).Nodup) {k : Nat} (hk : k < n) :
    (∀ d, (k, d) ∈ L → (applyAll n L).comp[k]? = some (mark d)) ∧
      ((∀ d, (k, d) ∉ L) → (applyAll n L).comp[k]? = some .input) := by
  induction L using List.reverseRecOn with
  | nil => simp [applyAll, hk]
  | append_singleton L x ih =>
    obtain ⟨k', d'⟩ := x
    rw [List.map_append, List.nodup_append] at hL
    obtain ⟨hL1, -, hL2⟩ := hL
    obtain ⟨ih1, ih2⟩ := ih hL1
    have hset : (apply (applyAll n L) k' d').comp = (applyAll n L).comp.set k' (mark d') := by
      cases d' <;> rfl
    rw [applyAll_snoc, hset]
    by_cases e : k = k'
    · subst e
      have hlen := (length_applyAll n L).1
      have hs : ((applyAll n L).comp.set k (mark d'))[k]? = some (mark d') := by
        rw [List.getElem?_set_self (by omega)]
      rw [hs]
      constructor
      · intro d hd
        rcases List.mem_append.mp hd with hd | hd
        · exact absurd rfl (hL2 k (List.mem_map.mpr ⟨_, hd, rfl⟩) k (by simp))
        · simp only [List.mem_singleton, Prod.mk.injEq, true_and] at hd
          rw [hd]
      · intro h
        exact absurd (by simp) (h d')
    · rw [List.getElem?_set_ne (Ne.symm e)]
      constructor
      · intro d hd
        rcases List.mem_append.mp hd with hd | hd
        · exact ih1 d hd
        · simp only [List.mem_singleton, Prod.mk.injEq] at hd
          exact absurd hd.1 e
      · intro h
        exact ih2 fun d hd => h d (List.mem_append_left _ hd)

theorem consts_applyAll {n : Nat} {L : List (Nat × Desc V U B T N)} (o : Option V) (k : Nat) :
    (o, k) ∈ (applyAll n L).consts ↔ (k, .const o) ∈ L := by
  induction L using List.reverseRecOn with
  | nil => simp [applyAll]
  | append_singleton L x ih =>
    obtain ⟨k', d'⟩ := x
    rw [applyAll_snoc]
    cases d' with
    | normal p j ls => simp [apply, ih]
    | copy s => simp [apply, ih]
    | const o' =>
      simp only [apply, List.mem_append, ih, List.mem_singleton, Prod.mk.injEq, Desc.const.injEq]
      constructor
      · rintro (h | ⟨h1, h2⟩)
        · exact .inl h
        · exact .inr ⟨h2, h1⟩
      · rintro (h | ⟨h1, h2⟩)
        · exact .inl h
        · exact .inr ⟨h2, h1⟩

theorem getElem?_setUsed (ls : List Nat) (ins : List (Option (List (SProg V U B T N × Nat)))) (i : Nat) :
    (ls.foldl setUsed ins)[i]? = ins[i]?.map fun o => if i ∈ ls then some (o.getD []) else o := by
  induction ls generalizing ins with
  | nil => simp
  | cons l ls ih =>
    simp only [List.foldl_cons]
    rw [ih, setUsed, List.getElem?_modify]
    cases hi : ins[i]? with
    | none => rfl
    | some o =>
      by_cases e : l = i
      · subst e
        simp
      · have e' : i ≠ l := Ne.symm e
        simp [e, e']

theorem ins_applyAll {n : Nat} {L : List (Nat × Desc V U B T N)} {i : Nat} (hi : i < n) :
    ∃ o, (applyAll n L).ins[i]? = some o ∧
      (o.isSome = true ↔ ∃ k p j ls, (k, .normal p j ls) ∈ L ∧ (i ∈ ls ∨ i = j)) ∧
      ∀ p k, (p, k) ∈ o.getD [] ↔ ∃ ls, (k, .normal p i ls) ∈ L := by
  induction L using List.reverseRecOn with
  | nil => refine ⟨none, by simp [applyAll, hi], by simp, by simp⟩
  | append_singleton L x ih =>
    obtain ⟨o, h1, h2, h3⟩ := ih
    obtain ⟨k', d'⟩ := x
    rw [applyAll_snoc]
    cases d' with
    | const c => exact ⟨o, h1, by simpa using h2, by simpa using h3⟩
    | copy s => exact ⟨o, h1, by simpa using h2, by simpa using h3⟩
    | normal p j ls =>
      simp only [apply]
      refine ⟨if j = i then some ((if i ∈ ls then some (o.getD []) else o).getD [] ++ [(p, k')])
        else if i ∈ ls then some (o.getD []) else o, ?_, ?_, ?_⟩
      · rw [appendUsed, List.getElem?_modify, getElem?_setUsed, h1]
        by_cases e : j = i <;> simp [e]
      · constructor
        · intro h
          by_cases e : j = i
          · exact ⟨k', p, j, ls, by simp, .inr e.symm⟩
          · rw [if_neg e] at h
            by_cases e' : i ∈ ls
            · exact ⟨k', p, j, ls, by simp, .inl e'⟩
            · rw [if_neg e'] at h
              obtain ⟨a, b, c, d, hm, hd⟩ := h2.mp h
              exact ⟨a, b, c, d, List.mem_append_left _ hm, hd⟩
        · rintro ⟨a, b, c, d, hm, hd⟩
          by_cases e : j = i
          · simp [e]
          · rw [if_neg e]
            by_cases e' : i ∈ ls
            · simp [e']
            · rw [if_neg e']
              rcases List.mem_append.mp hm with hm | hm
              · exact h2.mpr ⟨a, b, c, d, hm, hd⟩
              · simp only [List.mem_singleton, Prod.mk.injEq, Desc.normal.injEq] at hm
                obtain ⟨-, -, rfl, rfl⟩ := hm
                rcases hd with hd | hd
                · exact absurd hd e'
                · exact absurd hd.symm e
      · intro q k
        have hgd : (if i ∈ ls then some (o.getD []) else o).getD [] = o.getD [] := by
          by_cases e' : i ∈ ls <;> simp [e']
        by_cases e : j = i
        · rw [if_pos e, Option.getD_some, hgd, List.mem_append, h3 q k]
          simp only [List.mem_append, List.mem_singleton, Prod.mk.injEq, Desc.normal.injEq]
          constructor
          · rintro (⟨l, hl⟩ | ⟨rfl, rfl⟩)
            · exact ⟨l, .inl hl⟩
            · exact ⟨ls, .inr ⟨rfl, rfl, e.symm, rfl⟩⟩
          · rintro ⟨l, hl | ⟨h1, h2, -, -⟩⟩
            · exact .inl ⟨l, hl⟩
            · exact .inr ⟨h2, h1⟩
        · rw [if_neg e, hgd, h3 q k]
          simp only [List.mem_append, List.mem_singleton, Prod.mk.injEq, Desc.normal.injEq]
          constructor
          · rintro ⟨l, hl⟩
            exact ⟨l, .inl hl⟩
          · rintro ⟨l, hl | ⟨h1, h2, h3, -⟩⟩
            · exact ⟨l, hl⟩
            · exact absurd h3.symm e

/-- the columns, from the list of functions -/
def specOf (L : List (Nat × Desc V U B T N)) (k : Nat) : FnSpec V U B T N :=
  match L.find? fun x => decide (x.1 = k) with
  | none => .input
  | some (_, .normal p j _) => .prog p j
  | some (_, .const o) => .const o
  | some (_, .copy s) => .copy s

theorem find_eq {L : List (Nat × Desc V U B T N)} (hL : (L.map Prod.fst).Nodup) {k : Nat} {d : Desc V U B T N} :
    (L.find? fun x => decide (x.1 = k)) = some (k, d) ↔ (k, d) ∈ L := by
  constructor
  · exact List.mem_of_find?_eq_some
  · intro h
    induction L with
    | nil => simp at h
    | cons x L ih =>
      rw [List.map_cons, List.nodup_cons] at hL
      rw [List.find?_cons]
      by_cases e : x.1 = k
      · simp only [e, decide_true]
        rcases List.mem_cons.mp h with h | h
        · rw [h]
        · exact absurd (List.mem_map.mpr ⟨_, h, e.symm⟩) hL.1
      · simp only [e, decide_false]
        rcases List.mem_cons.mp h with h | h
        · rw [← h] at e; exact absurd rfl e
        · exact ih hL.2 h

theorem specOf_cases {L : List (Nat × Desc V U B T N)} (hL : (L.map Prod.fst).Nodup) (k : Nat) :
    ((∀ d, (k, d) ∉ L) ∧ specOf L k = .input) ∨
      ∃ d, (k, d) ∈ L ∧ specOf L k = match d with
        | .normal p j _ => .prog p j
        | .const o => .const o
        | .copy s => .copy s := by
  cases h : L.find? fun x => decide (x.1 = k) with
  | none =>
    refine .inl ⟨fun d hd => ?_, by unfold specOf; rw [h]⟩
    rw [find_eq hL |>.mpr hd] at h
    simp at h
  | some x =>
    obtain ⟨k', d⟩ := x
    have hk : k' = k := by simpa using List.find?_some h
    subst hk
    refine .inr ⟨d, (find_eq hL).mp h, ?_⟩
    unfold specOf
    rw [h]
    cases d <;> rfl

theorem specOf_prog {L : List (Nat × Desc V U B T N)} (hL : (L.map Prod.fst).Nodup) {k : Nat} {p : SProg V U B T N} {j : Nat} :
    specOf L k = .prog p j ↔ ∃ ls, (k, .normal p j ls) ∈ L := by
  constructor
  · intro h
    rcases specOf_cases hL k with ⟨-, h'⟩ | ⟨d, h1, h2⟩
    · rw [h] at h'; simp at h'
    · cases d with
      | normal p' j' ls =>
        rw [h] at h2
        simp only [FnSpec.prog.injEq] at h2
        rw [h2.1, h2.2]
        exact ⟨ls, h1⟩
      | const o => rw [h] at h2; simp at h2
      | copy s => rw [h] at h2; simp at h2
  · rintro ⟨ls, h⟩
    unfold specOf
    rw [(find_eq hL).mpr h]

theorem specOf_const {L : List (Nat × Desc V U B T N)} (hL : (L.map Prod.fst).Nodup) {k : Nat} {o : Option V} :
    specOf L k = .const o ↔ (k, .const o) ∈ L := by
  constructor
  · intro h
    rcases specOf_cases hL k with ⟨-, h'⟩ | ⟨d, h1, h2⟩
    · rw [h] at h'; simp at h'
    · cases d with
      | normal p' j' ls => rw [h] at h2; simp at h2
      | const o => rw [h] at h2; simp only [FnSpec.const.injEq] at h2; rw [h2]; exact h1
      | copy s => rw [h] at h2; simp at h2
  · intro h
    unfold specOf
    rw [(find_eq hL).mpr h]

theorem specOf_copy {L : List (Nat × Desc V U B T N)} (hL : (L.map Prod.fst).Nodup) {k s : Nat} :
    specOf L k = .copy s ↔ (k, .copy s) ∈ L := by
  constructor
  · intro h
    rcases specOf_cases hL k with ⟨-, h'⟩ | ⟨d, h1, h2⟩
    · rw [h] at h'; simp at h'
    · cases d with
      | normal p' j' ls => rw [h] at h2; simp at h2
      | const o => rw [h] at h2; simp at h2
      | copy s => rw [h] at h2; simp only [FnSpec.copy.injEq] at h2; rw [h2]; exact h1
  · intro h
    unfold specOf
    rw [(find_eq hL).mpr h]

/-- The generated configuration describes the columns. -/
theorem wf_applyAll {n : Nat} {L : List (Nat × Desc V U B T N)} (hL : (L.map Prod.fst).Nodup)
    (hlt : ∀ x ∈ L, x.1 < n) (hbn : ∀ k p j ls, (k, .normal p j ls) ∈ L → j < k)
    (hbc : ∀ k s, (k, .copy s) ∈ L → s < k) : WF (applyAll n L) (specOf L) where
  len := by rw [(length_applyAll n L).1, (length_applyAll n L).2]
  comp := by
    intro k hk
    rw [(length_applyAll n L).1] at hk
    rcases specOf_cases hL k with ⟨h1, h2⟩ | ⟨d, h1, h2⟩
    · rw [(comp_applyAll hL hk).2 h1, h2]
    · rw [(comp_applyAll hL hk).1 d h1, h2]
      cases d <;> rfl
  consts := by
    intro o k
    rw [consts_applyAll, specOf_const hL, (length_applyAll n L).1]
    exact ⟨fun h => ⟨hlt _ h, h⟩, fun h => h.2⟩
  progs := by
    intro j ps hps p k
    have hj : j < n := by
      rw [← (length_applyAll n L).2]
      exact (List.getElem?_eq_some_iff.mp hps).1
    obtain ⟨o, h1, -, h3⟩ := ins_applyAll (L := L) hj
    rw [hps] at h1
    simp only [Option.some.injEq] at h1
    subst h1
    have := h3 p k
    rw [Option.getD_some] at this
    rw [this, specOf_prog hL, (length_applyAll n L).1]
    constructor
    · rintro ⟨ls, h⟩; exact ⟨hlt _ h, ls, h⟩
    · exact fun h => h.2
  used := by
    intro k hk p j hs
    rw [(length_applyAll n L).1] at hk
    obtain ⟨ls, h⟩ := (specOf_prog hL).mp hs
    have hjk := hbn k p j ls h
    refine ⟨hjk, ?_⟩
    obtain ⟨o, h1, h2, -⟩ := ins_applyAll (L := L) (show j < n by omega)
    obtain ⟨ps, rfl⟩ := Option.isSome_iff_exists.mp (h2.mpr ⟨k, p, j, ls, h, .inr rfl⟩)
    exact ⟨ps, h1⟩
  copies := fun k _ s hs => hbc k s ((specOf_copy hL).mp hs)


/-! ## The functions and their descriptions -/

section
variable {env : VEnv α V U B T N} {out : List M} {funs : List (M × FTree V U B T N M)}

theorem idxOf?_of_mem {l : List M} {m : M} (h : m ∈ l) : l.idxOf? m = some (l.idxOf m) := by
  have hlt := List.idxOf_lt_length_of_mem h
  rw [List.idxOf?_eq_some_iff]
  refine ⟨hlt, List.getElem_idxOf hlt, fun j hj he => ?_⟩
  have := List.not_of_lt_findIdx (xs := l) (p := fun x => x == m) (i := j) hj
  simp [he] at this

theorem split_at {l : List M} {m : M} (h : m ∈ l) :
    l = l.take (l.idxOf m) ++ m :: l.drop (l.idxOf m + 1) := by
  have hlt := List.idxOf_lt_length_of_mem h
  conv => lhs; rw [← List.take_append_drop (l.idxOf m) l, List.drop_eq_getElem_cons hlt, List.getElem_idxOf hlt]

theorem notMem_take {l : List M} (m : M) : m ∉ l.take (l.idxOf m) := by
  intro h
  obtain ⟨i, hi, he⟩ := List.getElem_of_mem h
  rw [List.length_take] at hi
  rw [List.getElem_take] at he
  have := List.not_of_lt_findIdx (xs := l) (p := fun x => x == m) (i := i) (by
    have : l.idxOf m = l.findIdx (fun x => x == m) := rfl
    omega)
  simp [he] at this

theorem idxOf_lt_of_mem_take {l : List M} {m : M} {i : Nat} (h : m ∈ l.take i) : l.idxOf m < i := by
  obtain ⟨k, hk, he⟩ := List.getElem_of_mem h
  rw [List.length_take] at hk
  rw [List.getElem_take] at he
  by_contra hc
  have := List.not_of_lt_findIdx (xs := l) (p := fun x => x == m) (i := k) (by
    have : l.idxOf m = l.findIdx (fun x => x == m) := rfl
    omega)
  simp [he] at this

theorem idxOf?_filter {l : List M} {m : M} (h : m ∈ l) (p : M → Bool) (hp : p m = true) :
    (l.filter p).idxOf? m = some ((l.take (l.idxOf m)).filter p).length := by
  have hs : l.filter p = (l.take (l.idxOf m)).filter p ++ m :: (l.drop (l.idxOf m + 1)).filter p := by
    conv => lhs; rw [split_at h, List.filter_append, List.filter_cons, if_pos hp]
  have hn : m ∉ (l.take (l.idxOf m)).filter p := fun hc => notMem_take m (List.mem_of_mem_filter hc)
  rw [hs]
  rw [idxOf?_of_mem (by simp)]
  rw [List.idxOf_append_of_notMem hn]
  simp

theorem getElem?_filter_take {l : List M} {m : M} (h : m ∈ l) (p : M → Bool) (hp : p m = true) {j : Nat}
    (hj : l.idxOf m ≤ j) :
    ((l.take (j + 1)).filter p)[((l.take (l.idxOf m)).filter p).length]? = some m := by
  have hlt := List.idxOf_lt_length_of_mem h
  have hs : l.take (j + 1) = l.take (l.idxOf m) ++ m :: (l.drop (l.idxOf m + 1)).take (j - l.idxOf m) := by
    conv => lhs; rw [split_at h]
    rw [List.take_append, List.length_take, Nat.min_eq_left hlt.le,
      List.take_of_length_le (l := l.take (l.idxOf m)) (by rw [List.length_take]; omega),
      show j + 1 - l.idxOf m = (j - l.idxOf m) + 1 by omega, List.take_succ_cons]
  rw [hs, List.filter_append, List.filter_cons, if_pos hp, List.getElem?_append_right (Nat.le_refl _), Nat.sub_self]
  rfl

/-- what a description says about the function -/
def DescOK (env : VEnv α V U B T N) (out : List M) (funs : List (M × FTree V U B T N M)) (t : FTree V U B T N M) :
    Desc V U B T N → Prop
  | .normal p j ls => IsNormal t ∧ SProg.fromTree (refMap out funs) none t = .val p ∧
      (∀ i, i ∈ ls ↔ ∃ m ∈ t.refs, out.idxOf m = i) ∧ j ∈ ls ∧ ∀ i ∈ ls, i ≤ j
  | .const o => t.refs = [] ∧ ∀ e, t.sem env.sem e = Res.ofOption o
  | .copy s => ∃ r, t = .ref r ∧ out.idxOf r = s

theorem refMap_agrees (hF : FnOK env out funs) (g : M → V) {f : M × FTree V U B T N M} (hf : f ∈ funs) :
    Agrees (refMap out funs) none ((out.filter (anyRef funs)).map g) none (fun m => some (g m)) f.2.refs := by
  intro r hr
  rw [if_neg (by simp)]
  have hro := (hF.before f hf r hr).1
  have hany : anyRef funs r = true := by
    unfold anyRef
    rw [List.any_eq_true]
    exact ⟨f, hf, by simpa using hr⟩
  have h1 := idxOf?_filter hro (anyRef funs) hany
  refine ⟨_, g r, h1, ?_, rfl⟩
  have h2 := getElem?_filter_take hro (anyRef funs) hany (j := out.length) (by
    have := List.idxOf_lt_length_of_mem hro; omega)
  rw [List.take_of_length_le (by omega)] at h2
  rw [List.getElem?_map, h2]
  rfl

theorem desc_some [Nonempty α] (hF : FnOK env out funs) {f : M × FTree V U B T N M} (hf : f ∈ funs) :
    ∃ d, desc env out funs f.2 = some d ∧ DescOK env out funs f.2 d := by
  obtain ⟨a0⟩ := ‹Nonempty α›
  obtain ⟨m, t⟩ := f
  have hb := hF.before _ hf
  have hnary := hF.nary _ hf
  have hc := hF.const _ hf
  have hag := refMap_agrees hF (fun _ => env.val a0) hf
  simp only at hb hnary hc hag
  obtain ⟨p, hp, -⟩ := eval_fromTree env.sem t (refMap out funs) none _ none _ hnary hag
  unfold desc
  simp only
  by_cases hr : t.refs = []
  · have hsp := specialFun_spec env.sem t hnary
    obtain ⟨q, hq, hqv⟩ := eval_fromTree env.sem t (fun _ => none) none [] none (fun _ => none) hnary
      (by rw [hr]; intro r hr; simp at hr)
    have hd : q.evalData env.sem [] = t.sem env.sem (fun _ => none) := hqv
    have hsf : ∃ o, t.specialFun env.sem = .val (.constant o) := by
      unfold FTree.specialFun
      rw [if_pos (by simp [hr]), hq]
      simp only [hd]
      have := hc hr
      cases hs : t.sem env.sem (fun _ => none) with
      | val v => exact ⟨_, rfl⟩
      | undef => exact ⟨_, rfl⟩
      | panic => exact absurd hs this
    obtain ⟨o, ho⟩ := hsf
    rw [ho]
    exact ⟨_, rfl, hr, fun e => (hsp e).1 o ho⟩
  · by_cases href : ∃ r, t = .ref r
    · obtain ⟨r, rfl⟩ := href
      have hsf : (FTree.ref r : FTree V U B T N M).specialFun env.sem = .val (.reference r) := by
        unfold FTree.specialFun
        rw [if_neg (by simpa using hr)]
      rw [hsf]
      have hro := (hb r (by simp [FTree.refs])).1
      simp only
      rw [idxOf?_of_mem hro]
      exact ⟨_, rfl, r, rfl, rfl⟩
    · have hsf : t.specialFun env.sem = .val .normal := by
        unfold FTree.specialFun
        rw [if_neg (by simpa using hr)]
        split
        · exact absurd ⟨_, rfl⟩ href
        · rfl
      rw [hsf]
      simp only
      have hm : (t.refs.mapM fun m => out.idxOf? m) = some (t.refs.map out.idxOf) := by
        have : ∀ l : List M, (∀ r ∈ l, r ∈ out) → (l.mapM fun m => out.idxOf? m) = some (l.map out.idxOf) := by
          intro l
          induction l with
          | nil => intro _; rfl
          | cons a l ih =>
            intro hl
            rw [List.mapM_cons, idxOf?_of_mem (hl a (by simp)), ih fun r hr => hl r (List.mem_cons_of_mem _ hr)]
            rfl
        exact this _ fun r hr => (hb r hr).1
      rw [hm, Option.bind_some]
      cases hmax : (t.refs.map out.idxOf).max? with
      | none => rw [List.max?_eq_none_iff] at hmax; simp at hmax; exact absurd hmax hr
      | some j =>
        rw [Option.bind_some, hp]
        obtain ⟨hj1, hj2⟩ := List.max?_eq_some_iff.mp hmax
        exact ⟨_, rfl, ⟨hr, fun r h => href ⟨r, h⟩⟩, hp, by simp, hj1, hj2⟩

theorem newCfg_some [Nonempty α] (hF : FnOK env out funs) :
    ∃ L : List (Nat × Desc V U B T N), newCfg env out funs = some (applyAll out.length L) ∧
      List.Forall₂ (fun f x => x.1 = out.idxOf f.1 ∧ DescOK env out funs f.2 x.2) funs L := by
  have key : ∀ fs : List (M × FTree V U B T N M), (∀ f ∈ fs, f ∈ funs) →
      ∃ L : List (Nat × Desc V U B T N), fs.foldlM (register env out funs)
          ⟨List.replicate out.length .input, List.replicate out.length none, []⟩ = some (applyAll out.length L) ∧
        List.Forall₂ (fun f x => x.1 = out.idxOf f.1 ∧ DescOK env out funs f.2 x.2) fs L := by
    intro fs
    induction fs using List.reverseRecOn with
    | nil => intro _; exact ⟨[], rfl, .nil⟩
    | append_singleton fs f ih =>
      intro h
      obtain ⟨L, h1, h2⟩ := ih fun g hg => h g (List.mem_append_left _ hg)
      obtain ⟨d, h3, h4⟩ := desc_some hF (h f (by simp))
      refine ⟨L ++ [(out.idxOf f.1, d)], ?_, List.rel_append h2 (.cons ⟨rfl, h4⟩ .nil)⟩
      rw [List.foldlM_append, h1, applyAll_snoc]
      simp only [Option.bind_eq_bind, Option.bind_some, List.foldlM_cons, List.foldlM_nil, register,
        idxOf?_of_mem (hF.mem f (h f (by simp))), h3, Option.map_some, Option.pure_def]
  exact key funs fun f h => h

theorem map_fst_eq {L : List (Nat × Desc V U B T N)}
    (h : List.Forall₂ (fun (f : M × FTree V U B T N M) x => x.1 = out.idxOf f.1 ∧ DescOK env out funs f.2 x.2) funs' L) :
    L.map Prod.fst = funs'.map fun f => out.idxOf f.1 := by
  induction h with
  | nil => rfl
  | cons h _ ih => simp [ih, h.1]

theorem forall2_mem_left {A B' : Type} {R : A → B' → Prop} {xs : List A} {ys : List B'} (h : List.Forall₂ R xs ys) {x : A}
    (hx : x ∈ xs) : ∃ y ∈ ys, R x y := by
  induction h with
  | nil => simp at hx
  | cons h _ ih =>
    rcases List.mem_cons.mp hx with rfl | hx
    · exact ⟨_, by simp, h⟩
    · obtain ⟨y, h1, h2⟩ := ih hx
      exact ⟨y, List.mem_cons_of_mem _ h1, h2⟩

theorem forall2_mem_right {A B' : Type} {R : A → B' → Prop} {xs : List A} {ys : List B'} (h : List.Forall₂ R xs ys) {y : B'}
    (hy : y ∈ ys) : ∃ x ∈ xs, R x y := by
  induction h with
  | nil => simp at hy
  | cons h _ ih =>
    rcases List.mem_cons.mp hy with rfl | hy
    · exact ⟨_, by simp, h⟩
    · obtain ⟨x, h1, h2⟩ := ih hy
      exact ⟨x, List.mem_cons_of_mem _ h1, h2⟩

theorem nodup_keys {L : List (Nat × Desc V U B T N)} (hF : FnOK env out funs)
    (h : List.Forall₂ (fun f x => x.1 = out.idxOf f.1 ∧ DescOK env out funs f.2 x.2) funs L) :
    (L.map Prod.fst).Nodup := by
  rw [map_fst_eq h, show (fun f : M × FTree V U B T N M => out.idxOf f.1) = out.idxOf ∘ Prod.fst from rfl, ← List.map_map]
  refine List.Nodup.map_on ?_ hF.keys
  intro x hx y hy hxy
  obtain ⟨f, hf, rfl⟩ := List.mem_map.mp hx
  obtain ⟨g, hg, rfl⟩ := List.mem_map.mp hy
  have h1 := List.getElem_idxOf (List.idxOf_lt_length_of_mem (hF.mem f hf))
  have h2 := List.getElem_idxOf (List.idxOf_lt_length_of_mem (hF.mem g hg))
  rw [← h1, ← h2]
  congr 1

theorem wf_of (hF : FnOK env out funs) {L : List (Nat × Desc V U B T N)}
    (h : List.Forall₂ (fun f x => x.1 = out.idxOf f.1 ∧ DescOK env out funs f.2 x.2) funs L) :
    WF (applyAll out.length L) (specOf L) := by
  refine wf_applyAll (nodup_keys hF h) ?_ ?_ ?_
  · intro x hx
    obtain ⟨f, hf, h1, -⟩ := forall2_mem_right h hx
    rw [h1]
    exact List.idxOf_lt_length_of_mem (hF.mem f hf)
  · intro k p j ls hx
    obtain ⟨f, hf, h1, h2⟩ := forall2_mem_right h hx
    obtain ⟨-, -, h3, h4, -⟩ := h2
    obtain ⟨m, hm, rfl⟩ := (h3 j).mp h4
    simp only at h1
    rw [h1]
    exact (hF.before f hf m hm).2
  · intro k s hx
    obtain ⟨f, hf, h1, h2⟩ := forall2_mem_right h hx
    obtain ⟨r, h3, rfl⟩ := h2
    simp only at h1
    rw [h1]
    exact (hF.before f hf r (by rw [h3]; simp [FTree.refs])).2

open Classical in
/-- is the column used by a proper function -/
noncomputable def normalRef (funs : List (M × FTree V U B T N M)) (m : M) : Bool :=
  decide (∃ f ∈ funs, IsNormal f.2 ∧ m ∈ f.2.refs)

theorem normalRef_iff {m : M} : normalRef funs m = true ↔ ∃ f ∈ funs, IsNormal f.2 ∧ m ∈ f.2.refs := by
  classical
  unfold normalRef
  exact decide_eq_true_iff

theorem kept_iff (hn : out.Nodup) (hF : FnOK env out funs) {L : List (Nat × Desc V U B T N)}
    (h : List.Forall₂ (fun f x => x.1 = out.idxOf f.1 ∧ DescOK env out funs f.2 x.2) funs L) {i : Nat} {m : M}
    (hi : out[i]? = some m) : kept (applyAll out.length L) i = normalRef funs m := by
  obtain ⟨hil, him⟩ := List.getElem?_eq_some_iff.mp hi
  have hmi : out.idxOf m = i := by rw [← him]; exact hn.idxOf_getElem i hil
  obtain ⟨o, h1, h2, -⟩ := ins_applyAll (L := L) hil
  have hk : kept (applyAll out.length L) i = o.isSome := by
    unfold kept
    rw [List.getD_eq_getElem?_getD, h1]
    rfl
  rw [hk, Bool.eq_iff_iff, h2, normalRef_iff]
  constructor
  · rintro ⟨k, p, j, ls, hm, hij⟩
    obtain ⟨f, hf, -, hd⟩ := forall2_mem_right h hm
    obtain ⟨d1, d2, d3, d4, d5⟩ := hd
    have : i ∈ ls := by
      rcases hij with h | rfl
      · exact h
      · exact d4
    obtain ⟨m', hm', he⟩ := (d3 i).mp this
    refine ⟨f, hf, d1, ?_⟩
    have : m' = m := by
      rw [← List.getElem_idxOf (List.idxOf_lt_length_of_mem (hF.before f hf m' hm').1), ← him]
      congr 1
    rw [← this]
    exact hm'
  · rintro ⟨f, hf, hnf, hmf⟩
    obtain ⟨⟨k, d⟩, hx, h3, h4⟩ := forall2_mem_left h hf
    cases d with
    | const o => exact absurd h4.1 hnf.1
    | copy s => obtain ⟨r, h5, -⟩ := h4; exact absurd h5 (hnf.2 r)
    | normal p j ls =>
      obtain ⟨d1, d2, d3, d4, d5⟩ := h4
      exact ⟨k, p, j, ls, hx, .inl ((d3 i).mpr ⟨m, hmf, hmi⟩)⟩

theorem isInput_iff_notMem (hn : out.Nodup) (hF : FnOK env out funs) {L : List (Nat × Desc V U B T N)}
    (h : List.Forall₂ (fun f x => x.1 = out.idxOf f.1 ∧ DescOK env out funs f.2 x.2) funs L) {i : Nat} {m : M}
    (hi : out[i]? = some m) : isInput (applyAll out.length L) i = decide (m ∉ funs.map Prod.fst) := by
  obtain ⟨hil, him⟩ := List.getElem?_eq_some_iff.mp hi
  have hmi : out.idxOf m = i := by rw [← him]; exact hn.idxOf_getElem i hil
  rw [Bool.eq_iff_iff, isInput_iff (wf_of hF h) (by rw [(length_applyAll _ _).1]; exact hil), decide_eq_true_eq]
  rcases specOf_cases (nodup_keys hF h) i with ⟨h1, h2⟩ | ⟨d, h1, h2⟩
  · rw [h2]
    simp only [true_iff]
    intro hm
    obtain ⟨f, hf, rfl⟩ := List.mem_map.mp hm
    obtain ⟨⟨k, d⟩, hx, h3, h4⟩ := forall2_mem_left h hf
    simp only at h3
    rw [h3, hmi] at hx
    exact h1 d hx
  · have hne : specOf L i ≠ .input := by rw [h2]; cases d <;> simp
    simp only [hne, false_iff, not_not]
    obtain ⟨f, hf, h3, h4⟩ := forall2_mem_right h h1
    simp only at h3
    refine List.mem_map.mpr ⟨f, hf, ?_⟩
    rw [← List.getElem_idxOf (List.idxOf_lt_length_of_mem (hF.mem f hf)), ← him]
    congr 1
    exact h3.symm

/-- the value computed for a column is that of its function -/
theorem want_iff (hn : out.Nodup) (hF : FnOK env out funs) (hsv : ∀ a : α, env.sto (env.val a) = a)
    {L : List (Nat × Desc V U B T N)}
    (h : List.Forall₂ (fun f x => x.1 = out.idxOf f.1 ∧ DescOK env out funs f.2 x.2) funs L)
    (g : M → α) {f : M × FTree V U B T N M} (hf : f ∈ funs) :
    want env (applyAll out.length L) (specOf L) (out.idxOf f.1) ((out.map g).take (out.idxOf f.1)) = some (g f.1) ↔
      ∃ v, f.2.sem env.sem (fun m => some (env.val (g m))) = .val v ∧ g f.1 = env.sto v := by
  obtain ⟨⟨k, d⟩, hx, h3, h4⟩ := forall2_mem_left h hf
  simp only at h3 h4
  subst h3
  have hsp := nodup_keys hF h
  unfold want
  cases d with
  | const o =>
    rw [(specOf_const hsp).mpr hx]
    simp only
    rw [h4.2]
    cases o with
    | none => simp [Res.ofOption]
    | some v => simp [Res.ofOption, eq_comm]
  | copy s =>
    rw [(specOf_copy hsp).mpr hx]
    simp only
    obtain ⟨r, h5, rfl⟩ := h4
    have hb := hF.before f hf r (by rw [h5]; simp [FTree.refs])
    rw [List.getElem?_take, if_pos hb.2, List.getElem?_map,
      List.getElem?_eq_getElem (List.idxOf_lt_length_of_mem hb.1), List.getElem_idxOf, h5]
    simp [FTree.sem, Res.ofOption, hsv, eq_comm]
  | normal p j ls =>
    rw [(specOf_prog hsp).mpr ⟨ls, hx⟩]
    simp only
    obtain ⟨d1, d2, d3, d4, d5⟩ := h4
    have hjk : j < out.idxOf f.1 := by
      obtain ⟨m, hm, rfl⟩ := (d3 j).mp d4
      exact (hF.before f hf m hm).2
    rw [List.take_take, Nat.min_eq_left hjk]
    have hvals : valsOf env (applyAll out.length L) ((out.map g).take (j + 1)) =
        ((out.take (j + 1)).filter (normalRef funs)).map fun m => env.val (g m) := by
      unfold valsOf
      rw [← List.map_take, TFilter.restrict_filter (pr := normalRef funs), List.map_map]
      · rfl
      · intro i m hi
        rw [Nat.zero_add]
        refine kept_iff hn hF h ?_
        rw [List.getElem?_take] at hi
        split at hi
        · exact hi
        · simp at hi
    rw [hvals]
    have hag : Agrees (refMap out funs) none (((out.take (j + 1)).filter (normalRef funs)).map fun m => env.val (g m)) none
        (fun m => some (env.val (g m))) f.2.refs := by
      intro r hr
      rw [if_neg (by simp)]
      have hro := (hF.before f hf r hr).1
      have hany : anyRef funs r = true := by
        unfold anyRef
        rw [List.any_eq_true]
        exact ⟨f, hf, by simpa using hr⟩
      have hnr : normalRef funs r = true := by
        rw [normalRef_iff]
        exact ⟨f, hf, d1, hr⟩
      have hsame : (out.take (out.idxOf r)).filter (anyRef funs) = (out.take (out.idxOf r)).filter (normalRef funs) := by
        apply List.filter_congr
        intro m' hm'
        rw [Bool.eq_iff_iff, normalRef_iff]
        unfold anyRef
        rw [List.any_eq_true]
        constructor
        · rintro ⟨f', hf', hm''⟩
          exact hF.copies r hro m' (List.mem_of_mem_take hm') ⟨f, hf, d1, hr⟩ (idxOf_lt_of_mem_take hm')
            ⟨f', hf', by simpa using hm''⟩
        · rintro ⟨f', hf', -, hm''⟩
          exact ⟨f', hf', by simpa using hm''⟩
      refine ⟨_, env.val (g r), idxOf?_filter hro _ hany, ?_, rfl⟩
      rw [hsame, List.getElem?_map,
        getElem?_filter_take hro _ hnr (d5 _ ((d3 _).mpr ⟨r, hr, rfl⟩))]
      rfl
    obtain ⟨p', hp', hev⟩ := eval_fromTree env.sem f.2 (refMap out funs) none _ none _ (hF.nary f hf) hag
    rw [d2] at hp'
    simp only [Res.val.injEq] at hp'
    subst hp'
    have hev' : p.evalData env.sem (((out.take (j + 1)).filter (normalRef funs)).map fun m => env.val (g m)) =
        f.2.sem env.sem (fun m => some (env.val (g m))) := hev
    unfold result
    rw [hev']
    cases f.2.sem env.sem (fun m => some (env.val (g m))) with
    | val v => simp [eq_comm]
    | undef => simp
    | panic => simp

/-- the programs of the functions -/
def ProgOf (out : List M) (funs : List (M × FTree V U B T N M)) (p : SProg V U B T N) : Prop :=
  ∃ f ∈ funs, IsNormal f.2 ∧ SProg.fromTree (refMap out funs) none f.2 = .val p

/-- **C09, computed columns.** If every function only uses columns to its left and types are predicted
correctly, the generator does not panic, and the result holds the rows whose input columns are a row
of the input and whose computed columns have the values of their functions.  Rows on which a function is
undefined are dropped. -/
theorem generate_table [Nonempty α] (hn : out.Nodup) (hF : FnOK env out funs) (hsv : ∀ a : α, env.sto (env.val a) = a)
    {te : TyEnv V U B T N} (hP : PredOK env te (ProgOf out funs))
    (hdom : ∀ f ∈ funs, f.2.refs = [] → ∀ v, f.2.sem env.sem (fun _ => none) = .val v → ty (env.sto v) ∈ te.dom v)
    {x : Option (AnyScan α)} {m m' : Mode} {rows : List α → Prop}
    (hx : Tab m x (inputCols out funs).length rows) (hm : m'.le m) :
    ∃ cfg, newCfg env out funs = some cfg ∧
      Tab m' (generate env te cfg x) out.length
        (fun r => ∃ g : M → α, r = out.map g ∧ rows ((inputCols out funs).map g) ∧
          ∀ f ∈ funs, ∃ v, f.2.sem env.sem (fun m => some (env.val (g m))) = .val v ∧ g f.1 = env.sto v) := by
  obtain ⟨L, h1, h2⟩ := newCfg_some hF
  refine ⟨_, h1, ?_⟩
  have hw := wf_of hF h2
  have hlen := (length_applyAll out.length L).1
  obtain ⟨a0⟩ := ‹Nonempty α›
  have hval : ∀ r : List α, r.length = out.length → ∃ g : M → α, r = out.map g := by
    intro r hr
    refine ⟨fun m => r.getD (out.idxOf m) a0, ?_⟩
    apply List.ext_getElem (by simp [hr])
    intro k h1 h2
    rw [List.getElem_map, hn.idxOf_getElem k (by rw [← hr]; exact h1)]
    simp [h1]
  have hres : ∀ g : M → α, restrict (isInput (applyAll out.length L)) 0 (out.map g) = (inputCols out funs).map g := by
    intro g
    rw [TFilter.restrict_filter (pr := fun m => decide (m ∉ funs.map Prod.fst)) g]
    · rfl
    · intro k m hk
      rw [Nat.zero_add]
      exact isInput_iff_notMem hn hF h2 hk
  have hnum : numBefore (isInput (applyAll out.length L)) out.length = (inputCols out funs).length := by
    have := length_restrict (isInput (applyAll out.length L)) (out.map fun _ => a0)
    rw [hres, List.length_map, List.length_map] at this
    exact this.symm
  cases x with
  | none =>
    rintro r ⟨g, -, hr, -⟩
    exact hx _ hr
  | some x =>
    unfold generate
    rw [Option.map_some]
    by_cases hun : unchanging (applyAll out.length L) = true
    · rw [if_pos hun]
      have hall : ∀ m ∈ out, m ∉ funs.map Prod.fst := by
        intro m hmo
        obtain ⟨k, hk, rfl⟩ := List.getElem_of_mem hmo
        have h3 := isInput_iff_notMem hn hF h2 (List.getElem?_eq_getElem hk)
        have h4 : isInput (applyAll out.length L) k = true := by
          have hk' : k < (applyAll out.length L).comp.length := by rw [hlen]; exact hk
          unfold isInput
          rw [List.getElem?_eq_getElem hk']
          unfold unchanging at hun
          have := List.all_eq_true.mp hun _ (List.getElem_mem hk')
          cases hc : (applyAll out.length L).comp[k] with
          | input => rfl
          | copy s => rw [hc] at this; simp at this
          | computed => rw [hc] at this; simp at this
        rw [h4] at h3
        exact of_decide_eq_true h3.symm
      have hnil : funs = [] := by
        apply List.eq_nil_iff_forall_not_mem.mpr
        intro f hf
        exact hall _ (hF.mem f hf) (List.mem_map.mpr ⟨f, hf, rfl⟩)
      have hin : inputCols out funs = out := by
        unfold inputCols
        rw [List.filter_eq_self]
        intro m hm
        exact decide_eq_true (hall m hm)
      rw [hin] at hx ⊢
      refine Tab.congr (hx.weaken hm) fun r => ?_
      constructor
      · intro hr
        obtain ⟨g, rfl⟩ := hval r (hx.length hr)
        exact ⟨g, rfl, hr, by rw [hnil]; simp⟩
      · rintro ⟨g, rfl, hr, -⟩
        exact hr
    · rw [if_neg hun]
      have hx' : Tab m (some x) (numBefore (isInput (applyAll out.length L)) (applyAll out.length L).comp.length) rows := by
        rw [hlen, hnum]; exact hx
      have hprog : ∀ p, IsProg (applyAll out.length L) (specOf L) p → ProgOf out funs p := by
        rintro p ⟨k, hk, j, hs⟩
        obtain ⟨ls, hls⟩ := (specOf_prog (nodup_keys hF h2)).mp hs
        obtain ⟨f, hf, -, d1, d2, -⟩ := forall2_mem_right h2 hls
        exact ⟨f, hf, d1, d2⟩
      have hP' : PredOK env te (IsProg (applyAll out.length L) (specOf L)) :=
        ⟨hP.asc, hP.domAsc, fun p as ts v hp => hP.pred p as ts v (hprog p hp)⟩
      have := scan_table hw hP' (by
        intro v k hs
        obtain ⟨f, hf, -, d1, d2⟩ := forall2_mem_right h2 ((specOf_const (nodup_keys hF h2)).mp hs)
        exact hdom f hf d1 v (d2 _)) hx' hm
      rw [hlen] at this
      refine Tab.congr this fun r => ?_
      constructor
      · rintro ⟨hl, hr, hw'⟩
        obtain ⟨g, rfl⟩ := hval r hl
        refine ⟨g, rfl, by rw [← hres]; exact hr, fun f hf => ?_⟩
        rw [← want_iff hn hF hsv h2 g hf]
        have hk := List.idxOf_lt_length_of_mem (hF.mem f hf)
        have := hw' (out.idxOf f.1) (by simpa using hk) (by
          rw [isInput_iff_notMem hn hF h2 (m := f.1) (by rw [List.getElem?_eq_getElem hk, List.getElem_idxOf])]
          rw [decide_eq_false_iff_not, not_not]
          exact List.mem_map.mpr ⟨f, hf, rfl⟩)
        rw [List.getElem_map, List.getElem_idxOf] at this
        exact this
      · rintro ⟨g, rfl, hr, hall⟩
        refine ⟨by simp, by rw [hres]; exact hr, fun k hk hik => ?_⟩
        have hk' : k < out.length := by simpa using hk
        rw [isInput_iff_notMem hn hF h2 (List.getElem?_eq_getElem hk'), decide_eq_false_iff_not, not_not] at hik
        obtain ⟨f, hf, he⟩ := List.mem_map.mp hik
        have hkf : out.idxOf f.1 = k := by rw [he]; exact hn.idxOf_getElem k hk'
        have := (want_iff hn hF hsv h2 g hf).mpr (hall f hf)
        rw [hkf] at this
        rw [this, List.getElem_map, he]

end

end TFn
end Verif
