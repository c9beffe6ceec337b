import Verif.TrieFunctionGen
import Verif.TrieUnion
import Verif.TrieSubtract
import Verif.PropTries

/-!
# Trees of operations

Model of `evaluate_operation` (`/repo/nemo-physical/src/management/database.rs:415-462`): operators are applied to
the scans of their inputs, stored tables are the leaves.  The theorem `Plan.eval_table` says that
evaluating a tree gives the table that the corresponding expression of relational algebra describes
(`Plan.Sem`), and `Plan.execute_rows_partial` that this is what is stored in the end.
-/

set_option linter.unusedSimpArgs false
set_option linter.unusedSectionVars false
set_option linter.unusedVariables false

namespace Verif
universe u
variable {α : Type} [SVal α] {V U B T N : Type}
variable {M : Type} [DecidableEq M] [DecidableEq B]

/-- `ExecutionTreeLeaf` (/repo/nemo-physical/src/management/database/execution_series.rs:24-29): tables of the database that
were loaded for this plan, and results of earlier trees -/
inductive Leaf
  | load (i : Nat)
  | computed (i : Nat)
deriving DecidableEq

/-- `ExecutionTreeOperation` (execution_series.rs:33-39): stored tables and operators.  The
operators aggregate and null are not part of the model. -/
inductive Plan (M V U B T N : Type)
  | leaf (i : Leaf)
  | zero
  | join (out : List M) (inputs : List (List M)) (kids : Fin inputs.length → Plan M V U B T N)
  | union (ar n : Nat) (kids : Fin n → Plan M V U B T N)
  | subtract (out : List M) (inputs : List (List M)) (main : Plan M V U B T N)
      (subs : Fin inputs.length → Plan M V U B T N)
  | filter (table : List M) (filters : List (FTree V U B T N M)) (kid : Plan M V U B T N)
  | function (out : List M) (funs : List (M × FTree V U B T N M)) (kid : Plan M V U B T N)

/-- `TrieScanZero` (zero.rs:38-75): a table without columns.  The state is the flag `down`; asking
for a column panics. -/
def zeroScan : PScan Bool α where
  depth b := if b then 1 else 0
  up _ := some false
  down _ _ := some true
  next _ _ := none
  seek _ _ := none
  current _ _ _ := none
  arity _ := 0
  types _ _ := []

/-- a stored table as `TrieScanEnum::Generic` -/
def leafScan : PScan (GScan α) α where
  toTrieOps := GScan.ops
  arity s := s.trie.arity
  types s := s.trie.possibleTypes

/-- `evaluate_tree_leaf` (database.rs:415-435) -/
def evalLeaf (t : Trie α) : Option (AnyScan α) :=
  if t.numRows = 0 then none else some ⟨_, leafScan, GScan.new t⟩

/-- all results, if nothing panicked -/
def allSome {n : Nat} {β : Type u} (x : Fin n → Option β) : Option (Fin n → β) :=
  if h : ∀ i, (x i).isSome then some fun i => (x i).get (h i) else none

/-- What the evaluation depends on besides the tables: values and their storage, the built-in functions, the
prediction of types and the functions with special treatment in filters. -/
structure PEnv (α : Type) [SVal α] (V U B T N : Type) where
  env : VEnv α V U B T N
  te : TFn.TyEnv V U B T N
  sp : TFilter.Special V B N

namespace Plan

/-- number of columns of the result -/
def arity (ars : Leaf → Nat) : Plan M V U B T N → Nat
  | leaf i => ars i
  | zero => 0
  | join out _ _ => out.length
  | union ar _ _ => ar
  | subtract out _ _ _ => out.length
  | filter table _ _ => table.length
  | function out _ _ => out.length

/-- the tables that are read -/
def leaves : Plan M V U B T N → List Leaf
  | leaf i => [i]
  | zero => []
  | join _ _ kids => (List.ofFn fun i => leaves (kids i)).flatten
  | union _ _ kids => (List.ofFn fun i => leaves (kids i)).flatten
  | subtract _ _ main subs => leaves main ++ (List.ofFn fun i => leaves (subs i)).flatten
  | filter _ _ kid => leaves kid
  | function _ _ kid => leaves kid

/-- `evaluate_operation` (database.rs:441-462).  The outer option is a panic, in the constructor of a generator; the
generators are constructed when the plan is made. -/
def eval (e : PEnv α V U B T N) (db : Leaf → Trie α) : Plan M V U B T N → Option (Option (AnyScan α))
  | leaf i => some (evalLeaf (db i))
  | zero => some (some ⟨_, zeroScan, false⟩)
  | join out inputs kids =>
    (allSome fun i => eval e db (kids i)).bind fun xs =>
    (TJoin.newBindings out inputs).map fun b => TJoin.generateAny b xs
  | union _ n kids => (allSome fun i => eval e db (kids i)).map fun xs => TUnion.generate (List.ofFn xs)
  | subtract out inputs main subs =>
    (eval e db main).bind fun x =>
    (allSome fun i => eval e db (subs i)).bind fun xs =>
    (TSub.newMaps out inputs).map fun maps => TSub.generate (fun i => maps.getD i.val []) x xs
  | filter table filters kid =>
    (eval e db kid).bind fun x =>
    (TFilter.newCfg e.sp table filters).map fun cfg => TFilter.generate e.env cfg x
  | function out funs kid =>
    (eval e db kid).bind fun x =>
    (TFn.newCfg e.env out funs).map fun cfg => TFn.generate e.env e.te cfg x

/-! ## Specification -/

/-- The rows of the result, in terms of relational algebra.  `tab i` are the rows of table `i`. -/
def Sem (env : VEnv α V U B T N) (tab : Leaf → List α → Prop) : Plan M V U B T N → List α → Prop
  | leaf i => tab i
  | zero => fun r => r = []
  | join out inputs kids => fun r => ∃ f : M → α, r = out.map f ∧ ∀ i, Sem env tab (kids i) ((inputs.get i).map f)
  | union _ _ kids => fun r => ∃ i, Sem env tab (kids i) r
  | subtract out inputs main subs => fun r => ∃ f : M → α, r = out.map f ∧ Sem env tab main r ∧
      ∀ i, ¬ Sem env tab (subs i) ((inputs.get i).map f)
  | filter table filters kid => fun r => ∃ f : M → α, r = table.map f ∧ Sem env tab kid r ∧
      ∀ t ∈ filters, ∃ v, t.sem env.sem (fun m => some (env.val (f m))) = .val v ∧ env.toBool v = some true
  | function out funs kid => fun r => ∃ f : M → α, r = out.map f ∧
      Sem env tab kid ((out.filter fun m => decide (m ∉ funs.map Prod.fst)).map f) ∧
      ∀ g ∈ funs, ∃ v, g.2.sem env.sem (fun m => some (env.val (f m))) = .val v ∧ f g.1 = env.sto v

/-- the mode in which the input of a filter is used -/
def filterMode (e : PEnv α V U B T N) (filters : List (FTree V U B T N M)) (m : Mode) : Mode :=
  if TFilter.constsOf e.sp filters = [] then m else ⟨true, m.cu⟩

/-- Plans that can be evaluated when the result is used in mode `m`: tables have distinct columns, the columns of inputs
occur in the order of the result, expressions only refer to available columns, and a filter is not below a
union that is searched (see `C06_filter_stale_current`). -/
def OK (e : PEnv α V U B T N) (ars : Leaf → Nat) : Plan M V U B T N → Mode → Prop
  | leaf _ => fun _ => True
  | zero => fun _ => True
  | join out inputs kids => fun m => TJoin.MarkersOK out inputs ∧ inputs ≠ [] ∧
      ∀ i, (kids i).arity ars = (inputs.get i).length ∧ OK e ars (kids i) (if inputs.length = 1 then m else .weak)
  | union ar n kids => fun m => ∀ i, (kids i).arity ars = ar ∧ OK e ars (kids i) (if n ≤ 1 then m else ⟨m.sk, true⟩)
  | subtract out inputs main subs => fun m => out.Nodup ∧ (∀ l ∈ inputs, l.Sublist out) ∧
      main.arity ars = out.length ∧ OK e ars main m ∧
      ∀ i, (subs i).arity ars = (inputs.get i).length ∧ OK e ars (subs i) .weak
  | filter table filters kid => fun m => table.Nodup ∧ table ≠ [] ∧ (∀ f ∈ filters, TFilter.FilterOK table f) ∧
      kid.arity ars = table.length ∧ (m.sk = true → m.cu = true → filters = []) ∧ OK e ars kid (filterMode e filters m)
  | function out funs kid => fun m => out.Nodup ∧ TFn.FnOK e.env out funs ∧
      TFn.PredOK e.env e.te (TFn.ProgOf out funs) ∧
      (∀ f ∈ funs, f.2.refs = [] → ∀ v, f.2.sem e.env.sem (fun _ => none) = .val v → ty (e.env.sto v) ∈ e.te.dom v) ∧
      kid.arity ars = (TFn.inputCols out funs).length ∧ OK e ars kid m

/-- The stored tables: either a trie for a set of rows, or one without columns, or (results that turned out to be
empty are stored with another number of columns) one without rows. -/
def TableOK (t : Trie α) (n : Nat) (rows : List α → Prop) : Prop :=
  (0 < n ∧ t.arity = n ∧ ∃ l : List (List α), SortedRows l ∧ Rep t l ∧ (∀ r ∈ l, r.length = n) ∧ ∀ r, r ∈ l ↔ rows r) ∨
    (n = 0 ∧ ∃ b, t = Trie.zeroArity b ∧ ∀ r, rows r ↔ r = [] ∧ b = true) ∨
    (t.numRows = 0 ∧ ∀ r, ¬ rows r)

/-! ## Proof -/

theorem allSome_eq {n : Nat} {β : Type u} {x : Fin n → Option β} {y : Fin n → β} (h : ∀ i, x i = some (y i)) :
    allSome x = some y := by
  unfold allSome
  rw [dif_pos (fun i => by rw [h]; rfl)]
  congr 1
  funext i
  exact Option.get_of_eq_some _ (h i)

theorem zero_table (m : Mode) : IsTable (zeroScan (α := α)) m false 0 (fun r => r = []) := by
  refine ⟨rfl, fun _ _ => [], fun s p => s = false ∧ p = [], ?_, ?_, ?_, ?_, ⟨rfl, rfl⟩, ?_⟩
  · constructor
    · rintro s p ⟨rfl, rfl⟩; exact ⟨rfl, Nat.le_refl _⟩
    · rintro s τ c p ⟨-, h⟩; simp at h
    · rintro s p q τ c ⟨-, h⟩; simp at h
    · rintro s e p ⟨-, h⟩; simp at h
    · rintro s p τ - - h; simp at h
  · rintro - s c p v ⟨-, h⟩; simp at h
  · rintro - s p q τ c ⟨-, h⟩; simp at h
  · exact ⟨fun _ _ => List.Pairwise.nil, fun _ _ _ h => by simp at h, fun _ => List.Pairwise.nil,
      fun _ _ _ _ h => by simp at h⟩
  · intro r
    unfold RowsOf
    rw [List.length_eq_zero_iff]
    constructor
    · exact fun h => h.1
    · rintro rfl; exact ⟨rfl, trivial⟩

theorem leaf_table {t : Trie α} {n : Nat} {rows : List α → Prop} (h : TableOK t n rows) (m : Mode) :
    Tab m (evalLeaf t) n rows := by
  rcases h with ⟨hn, ha, l, h1, h2, h3, h4⟩ | ⟨rfl, b, rfl, h⟩ | ⟨hz, h⟩
  · unfold evalLeaf
    by_cases hz : t.numRows = 0
    · rw [if_pos hz]
      intro r hr
      rw [Trie.numRows_spec h2 (by omega)] at hz
      have : r ∈ level l t.arity := by
        rw [Trie.level_rows (by omega) (by rw [ha]; exact h3)]
        exact (h4 r).mpr hr
      rw [List.length_eq_zero_iff.mp hz] at this
      simp at this
    · rw [if_neg hz]
      have hS := GScan.simulates h1 h2
      have hT := treeOK_chOf h1 h2
      rw [ha] at hS hT
      refine ⟨ha, chOf l, GScan.Inv t l, hS, fun _ => GScan.seekSim h1, fun _ => GScan.curSim, hT, GScan.inv_new,
        fun r => ?_⟩
      rw [rowsOf_chOf hn h3, h4]
  · unfold evalLeaf
    cases b with
    | false =>
      rw [if_pos (by simp [Trie.numRows, Trie.zeroArity])]
      intro r hr
      simpa using (h r).mp hr
    | true =>
      rw [if_neg (by simp [Trie.numRows, Trie.zeroArity])]
      refine ⟨rfl, fun _ _ => [], fun s p => p = [] ∧ s = GScan.new (Trie.zeroArity true), ?_, ?_, ?_, ?_, ⟨rfl, rfl⟩, ?_⟩
      · constructor
        · rintro s p ⟨rfl, rfl⟩; exact ⟨rfl, Nat.le_refl _⟩
        · rintro s τ c p ⟨h, -⟩; simp at h
        · rintro s p q τ c ⟨h, -⟩; simp at h
        · rintro s e p ⟨h, -⟩; simp at h
        · rintro s p τ - - h; simp at h
      · rintro - s c p v ⟨h, -⟩; simp at h
      · rintro - s p q τ c ⟨h, -⟩; simp at h
      · exact ⟨fun _ _ => List.Pairwise.nil, fun _ _ _ h => by simp at h,
          fun k => show (Trie.possibleTypes (Trie.zeroArity (α := α) true) k).Pairwise (· < ·) from
            (by decide : ([0, 1, 2, 3, 4] : List Ty).Pairwise (· < ·)).filter _, fun _ _ _ _ h => by simp at h⟩
      · intro r
        unfold RowsOf
        rw [List.length_eq_zero_iff, h]
        constructor
        · exact fun h => ⟨h.1, rfl⟩
        · rintro ⟨rfl, -⟩; exact ⟨rfl, trivial⟩
  · unfold evalLeaf
    rw [if_pos hz]
    exact h

/-- The environment is as it should be: the special functions mean what they should, and storing
a value that was read gives the stored value. -/
structure EnvOK (e : PEnv α V U B T N) : Prop where
  special : TFilter.SpecialOK e.env e.sp
  sto_val : ∀ a : α, e.env.sto (e.env.val a) = a

/-- **C09.** Evaluating a tree of operations neither panics nor loses or invents rows: the resulting scan
is the table described by the expression. -/
theorem eval_table [Nonempty α] {e : PEnv α V U B T N} (he : EnvOK e) {db : Leaf → Trie α} {ars : Leaf → Nat}
    {tab : Leaf → List α → Prop} :
    ∀ (p : Plan M V U B T N) (m : Mode), (∀ i ∈ p.leaves, TableOK (db i) (ars i) (tab i)) → OK e ars p m →
      ∃ x, eval e db p = some x ∧ Tab m x (arity ars p) (Sem e.env tab p) := by
  intro p
  induction p with
  | leaf i => exact fun m hdb _ => ⟨_, rfl, leaf_table (hdb i (by simp [leaves])) m⟩
  | zero => exact fun m _ _ => ⟨_, rfl, zero_table m⟩
  | join out inputs kids ih =>
    rintro m hdb ⟨h1, h2, h3⟩
    choose xs hx1 hx2 using fun i => ih i _ (fun l hl => hdb l (by
      rw [leaves]; exact List.mem_flatten.mpr ⟨_, List.mem_ofFn.mpr ⟨i, rfl⟩, hl⟩)) (h3 i).2
    obtain ⟨b, hb1, hb2⟩ := TJoin.generate_table (m := if inputs.length = 1 then m else .weak) (m' := m) h1 h2
      (by
        by_cases hl : inputs.length = 1
        · rw [if_pos hl, if_pos hl]; exact Mode.le_rfl
        · rw [if_neg hl, if_neg hl]; rfl)
      (kids := xs) (rows := fun i => Sem e.env tab (kids i)) (fun i => by rw [← (h3 i).1]; exact hx2 i)
    refine ⟨_, ?_, hb2⟩
    unfold eval
    rw [allSome_eq hx1, Option.bind_some, hb1]
    rfl
  | union ar n kids ih =>
    intro m hdb h
    choose xs hx1 hx2 using fun i => ih i _ (fun l hl => hdb l (by
      rw [leaves]; exact List.mem_flatten.mpr ⟨_, List.mem_ofFn.mpr ⟨i, rfl⟩, hl⟩)) (h i).2
    have := TUnion.generate_table (m := if n ≤ 1 then m else ⟨m.sk, true⟩) (kids := List.ofFn xs) (ar := ar)
      (rows := fun i => Sem e.env tab (kids (i.cast (by simp))))
      (by
        by_cases hl : n ≤ 1
        · right; simpa using hl
        · left; rw [if_neg hl])
      (fun i => by
        have := hx2 (i.cast (by simp))
        rw [(h _).1] at this
        have e : (List.ofFn xs).get i = xs (i.cast (by simp)) := List.getElem_ofFn _
        rw [e]
        exact this)
    refine ⟨_, by unfold eval; rw [allSome_eq hx1]; rfl, ?_⟩
    have hle : m.le (if n ≤ 1 then m else ⟨m.sk, true⟩) := by
      by_cases hl : n ≤ 1
      · rw [if_pos hl]; exact Mode.le_rfl
      · rw [if_neg hl]; exact ⟨id, fun _ => rfl⟩
    refine Tab.congr (this.weaken hle) fun r => ?_
    constructor
    · rintro ⟨i, hi⟩; exact ⟨_, hi⟩
    · rintro ⟨i, hi⟩
      exact ⟨i.cast (by simp), hi⟩
  | subtract out inputs main subs ih1 ih2 =>
    rintro m hdb ⟨h1, h2, h3, h4, h5⟩
    obtain ⟨x, hx1, hx2⟩ := ih1 m (fun l hl => hdb l (by rw [leaves]; exact List.mem_append_left _ hl)) h4
    choose xs hs1 hs2 using fun i => ih2 i _ (fun l hl => hdb l (by
      rw [leaves]
      exact List.mem_append_right _ (List.mem_flatten.mpr ⟨_, List.mem_ofFn.mpr ⟨i, rfl⟩, hl⟩))) (h5 i).2
    obtain ⟨maps, hm1, hm2⟩ := TSub.generate_table (m := m) h1 h2 (main := x) (subs := xs) (rows0 := Sem e.env tab main)
      (rows := fun i => Sem e.env tab (subs i)) (by rw [← h3]; exact hx2) (fun i => by rw [← (h5 i).1]; exact hs2 i)
    refine ⟨_, ?_, hm2⟩
    unfold eval
    rw [hx1, allSome_eq hs1, Option.bind_some, Option.bind_some, hm1]
    rfl
  | filter table filters kid ih =>
    rintro m hdb ⟨h1, h2, h3, h4, h5, h6⟩
    obtain ⟨x, hx1, hx2⟩ := ih _ hdb h6
    rw [h4] at hx2
    obtain ⟨cfg, hc1, hc2⟩ := TFilter.generate_table (m' := m) he.special h1 h2 h3 hx2
      (by
        unfold filterMode
        split
        · exact Mode.le_rfl
        · exact ⟨fun _ => rfl, id⟩)
      (by
        intro hc
        unfold filterMode
        rw [if_neg hc])
      h5
    refine ⟨_, ?_, hc2⟩
    unfold eval
    rw [hx1, Option.bind_some, hc1]
    rfl
  | function out funs kid ih =>
    rintro m hdb ⟨h1, h2, h3, h4, h5, h6⟩
    obtain ⟨x, hx1, hx2⟩ := ih _ hdb h6
    rw [h5] at hx2
    obtain ⟨cfg, hc1, hc2⟩ := TFn.generate_table (m' := m) h1 h2 he.sto_val h3 h4 hx2 Mode.le_rfl
    refine ⟨_, ?_, hc2⟩
    unfold eval
    rw [hx1, Option.bind_some, hc1]
    rfl

/-- `execute_tree` for an operation without dependent tables (database.rs:477-491), with the last `cut`
columns dropped -/
def execute (e : PEnv α V U B T N) (db : Leaf → Trie α) (p : Plan M V U B T N) (cut : Nat) (d : α) : Option (Trie α) :=
  (eval e db p).bind fun x =>
  match x with
  | none => some (Trie.empty 0)
  | some s => materialize s.I.toTrieOps (s.I.arity s.s) (s.I.types s.s) s.s cut d

/-- **C09, C10.** What is stored for a tree of operations are the rows of the expression, restricted to the
columns that are kept; each once, in ascending order. -/
theorem execute_rows_partial [Nonempty α] {e : PEnv α V U B T N} (he : EnvOK e) {db : Leaf → Trie α} {ars : Leaf → Nat}
    {tab : Leaf → List α → Prop} (hdb : ∀ i, TableOK (db i) (ars i) (tab i)) {p : Plan M V U B T N}
    (hp : OK e ars p ⟨false, false⟩) {cut : Nat} (hcut : cut < arity ars p) (d d' : α) :
    ∃ t, execute e db p cut d = some t ∧
      ((t = Trie.empty 0 ∧ ∀ r, ¬ Sem e.env tab p r) ∨
        ∃ out, t.rowIterator d' = some out ∧ out.Pairwise (· < ·) ∧
          ∀ r, r ∈ out ↔ r.length = arity ars p - cut ∧ ∃ x, Sem e.env tab p (r ++ x)) := by
  obtain ⟨x, h1, h2⟩ := eval_table he p _ (fun i _ => hdb i) hp
  unfold execute
  rw [h1, Option.bind_some]
  cases x with
  | none => exact ⟨_, rfl, .inl ⟨rfl, h2⟩⟩
  | some s =>
    obtain ⟨ha, C, R, hS, -, -, hT, hR, hrows⟩ := h2
    show ∃ t, materialize s.I.toTrieOps (s.I.arity s.s) (s.I.types s.s) s.s cut d = some t ∧ _
    rw [ha]
    obtain ⟨t, out, e1, e2, e3, e4⟩ := materialize_rows_partial hS hT hR cut hcut d d'
    refine ⟨t, e1, .inr ⟨out, e2, e3, fun r => ?_⟩⟩
    rw [e4]
    simp only [hrows]

end Plan
end Verif
