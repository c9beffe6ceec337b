import Verif.TrieUnary
import Verif.StackProgram

/-!
# Filtering of tries

Model of `/repo/nemo-physical/src/tabular/operations/filter.rs`.
-/

set_option linter.unusedSimpArgs false
set_option linter.unusedSectionVars false
set_option linter.unusedVariables false

namespace Verif
variable {α : Type} [SVal α] {V U B T N : Type}

/-- What the operators need to know about values: the functions, `to_boolean`, the value behind a
stored value (`into_datavalue`; total, since only identifiers known to the dictionary are stored) and the
stored form of a value (`to_storage_value_t`; the constants of rules are entered into the dictionary
before, otherwise this panics). -/
structure VEnv (α V U B T N : Type) where
  sem : Sem V U B T N
  toBool : V → Option Bool
  val : α → V
  sto : V → α

/-- `OutputColumn` (filter.rs:42-49) -/
inductive FCol (V U B T N : Type)
  | input
  | const (c : V)
  | filtered (p : SProg V U B T N)

/-- `GeneratorFilter` (filter.rs:53-60) -/
structure FCfg (V U B T N : Type) where
  outs : List (FCol V U B T N)
  inIdx : List Bool

namespace TFilter

/-- `check_value(value) == Some(true)` (columnar/operations/filter.rs:57-64).  Simplification: a
program that panics is treated as one that does not return `true` (C14, C15 and C40 say when functions
panic). -/
def check (env : VEnv α V U B T N) (p : SProg V U B T N) (vals : List V) (a : α) : Bool :=
  decide (p.evalBool env.sem env.toBool vals (some (env.val a)) = .val true)

/-- The column scan of one layer and type (filter.rs:191-222). -/
def kindOf (env : VEnv α V U B T N) (col : Option (FCol V U B T N)) (vals : List V) (τ : Ty) : UKind (TVal α τ) :=
  match col with
  | some (.filtered p) => .filtered fun a => check env p vals a.val
  | some (.const c) => if h : ty (env.sto c) = τ then .one ⟨env.sto c, h⟩ else .const none
  | _ => .pass

/-- What `down` does to `input_values` (filter.rs:289-308). -/
def downVals (env : VEnv α V U B T N) (inIdx : List Bool) (vals : List V) (cur : Nat → Ty → Option α) :
    List Ty → Option (List V)
  | [] => some vals
  | σ :: path => (inIdx[path.length]?).bind fun b =>
      if b then (cur path.length σ).map fun a => vals ++ [env.val a] else some vals

/-- What `up` does to `input_values` (filter.rs:274-282). -/
def upVals (inIdx : List Bool) (vals : List V) : Nat → Option (List V)
  | 0 => none
  | 1 => some vals
  | k + 2 => (inIdx[k]?).map fun b => if b then vals.dropLast else vals

/-- `TrieScanFilter` (filter.rs:253-330) -/
def op (env : VEnv α V U B T N) (cfg : FCfg V U B T N) : UOp (List V) α where
  arity := cfg.outs.length
  inp _ := true
  kind vals k τ := kindOf env cfg.outs[k]? vals τ
  down vals cur path _ := downVals env cfg.inIdx vals cur path
  up vals depth := upVals cfg.inIdx vals depth

/-- is the value of layer `k` kept -/
def kept (cfg : FCfg V U B T N) (k : Nat) : Bool := cfg.inIdx.getD k false

/-- the values kept from a prefix of a row -/
def valsOf (env : VEnv α V U B T N) (cfg : FCfg V U B T N) (p : List α) : List V :=
  (restrict (kept cfg) 0 p).map env.val

/-- the column scan below the values `p` -/
def kindAt (env : VEnv α V U B T N) (cfg : FCfg V U B T N) (p : List α) (τ : Ty) : UKind (TVal α τ) :=
  kindOf env cfg.outs[p.length]? (valsOf env cfg p) τ

/-- the invariant of the state -/
def Inv (env : VEnv α V U B T N) (cfg : FCfg V U B T N) (e : List V) (p : List α) (_ : Option Ty) : Prop :=
  e = valsOf env cfg p

variable {env : VEnv α V U B T N} {cfg : FCfg V U B T N}

theorem valsOf_snoc (p : List α) (a : α) :
    valsOf env cfg (p ++ [a]) = valsOf env cfg p ++ if kept cfg p.length then [env.val a] else [] := by
  unfold valsOf
  rw [restrict_snoc, List.map_append]
  split <;> rfl

theorem getElem?_kept (h : cfg.inIdx.length = cfg.outs.length) {k : Nat} (hk : k < cfg.outs.length) :
    cfg.inIdx[k]? = some (kept cfg k) := by
  unfold kept
  rw [List.getD_eq_getElem?_getD, List.getElem?_eq_getElem (by omega)]
  rfl

theorem eq_snoc {β : Type} {p : List β} (h : p ≠ []) : ∃ q a, p = q ++ [a] :=
  ⟨p.dropLast, p.getLast h, (List.dropLast_append_getLast h).symm⟩

theorem ok (hl : cfg.inIdx.length = cfg.outs.length) : UOp.OK (op env cfg) (kindAt env cfg) (Inv env cfg) where
  down {e p cur} τ hI hlt hcur := by
    by_cases hp : p = []
    · subst hp
      exact ⟨e, rfl, hI⟩
    · obtain ⟨q, a, rfl⟩ := eq_snoc hp
      rw [List.dropLast_concat] at hI
      unfold Inv at hI
      have hq : q.length < cfg.outs.length := by simp [op] at hlt; omega
      have ha := hcur q.length (by simp)
      simp only [List.getElem_append_right (Nat.le_refl _), Nat.sub_self, List.getElem_cons_zero] at ha
      simp only [op, List.map_append, List.reverse_append, List.map_cons, List.map_nil, List.reverse_cons,
        List.reverse_nil, List.nil_append, List.cons_append, downVals, List.length_reverse, List.length_map,
        getElem?_kept hl hq, Option.bind_some]
      unfold Inv
      rw [valsOf_snoc, hI]
      by_cases hk : kept cfg q.length = true
      · rw [if_pos hk, if_pos hk, ha]
        exact ⟨_, rfl, rfl⟩
      · rw [if_neg hk, if_neg hk, List.append_nil]
        exact ⟨_, rfl, rfl⟩
  up {e p τ} hI hlt := by
    unfold Inv at hI
    by_cases hp : p = []
    · subst hp
      exact ⟨e, rfl, hI⟩
    · obtain ⟨q, a, rfl⟩ := eq_snoc hp
      have hq : q.length < cfg.outs.length := by simp [op] at hlt; omega
      rw [List.dropLast_concat]
      simp only [op, List.length_append, List.length_singleton, upVals, getElem?_kept hl hq, Option.map_some]
      unfold Inv
      rw [hI, valsOf_snoc]
      by_cases hk : kept cfg q.length = true
      · rw [if_pos hk, if_pos hk, List.dropLast_concat]
        exact ⟨_, rfl, rfl⟩
      · rw [if_neg hk, if_neg hk, List.append_nil]
        exact ⟨_, rfl, rfl⟩
  top {e p τ} hI hlt := by
    unfold Inv at hI
    subst hI
    rfl
  cur {e p τ} hI hlt k hk := by
    simp only [op, kindAt, List.length_take, Nat.min_eq_left hk.le]
    generalize ty p[k] = σ
    unfold kindOf
    split
    · exact .inr ⟨trivial, trivial⟩
    · exact .inl rfl
    · exact .inl rfl
  uses _ _ _ _ := rfl

theorem uses_or (p : List α) (τ : Ty) : UCol.uses (kindAt env cfg p τ) ∨ kindAt env cfg p τ = .const none := by
  unfold kindAt kindOf
  split
  · exact .inl trivial
  · split
    · exact .inl trivial
    · exact .inr rfl
  · exact .inl trivial

/-- the value `a` passes the filter of its column -/
def colOK (env : VEnv α V U B T N) (col : Option (FCol V U B T N)) (vals : List V) (a : α) : Prop :=
  match col with
  | some (.filtered p) => check env p vals a = true
  | some (.const c) => a = env.sto c
  | _ => True

theorem restrict_true {β : Type} (l : List β) : ∀ k, restrict (fun _ => true) k l = l := by
  induction l with
  | nil => intro k; rfl
  | cons a l ih => intro k; simp [restrict, ih]

theorem numBefore_true (n : Nat) : numBefore (fun _ => true) n = n := by
  unfold numBefore
  rw [List.filter_eq_self.mpr (by simp), List.length_range]

theorem mem_ch {C : List α → Ty → List α} (p : List α) (a : α) :
    a ∈ UOp.ch (op env cfg) (kindAt env cfg) C p (ty a) ↔
      a ∈ C p (ty a) ∧ colOK env cfg.outs[p.length]? (valsOf env cfg p) a := by
  unfold UOp.ch kindAt kindOf colOK
  rw [show (op env cfg).inp = fun _ => true from rfl, restrict_true, List.mem_map]
  have hmem : ∀ v : TVal α (ty a), v ∈ typedList (ty a) (C p (ty a)) ↔ v.val ∈ C p (ty a) :=
    fun v => mem_typedList
  split
  · next pr _ =>
    simp only [UCol.contents, List.mem_filter, hmem]
    constructor
    · rintro ⟨v, ⟨h1, h2⟩, h3⟩; rw [h3] at h1 h2; exact ⟨h1, h2⟩
    · rintro ⟨h1, h2⟩; exact ⟨⟨a, rfl⟩, ⟨h1, h2⟩, rfl⟩
  · next c _ =>
    split
    · next h =>
      simp only [UCol.contents, List.mem_filter, hmem, decide_eq_true_eq, Option.some.injEq]
      constructor
      · rintro ⟨v, ⟨h1, h2⟩, h3⟩
        rw [h3] at h1
        exact ⟨h1, by rw [← h3, h2]⟩
      · rintro ⟨h1, h2⟩; exact ⟨⟨a, rfl⟩, ⟨h1, Subtype.ext h2⟩, rfl⟩
    · next h =>
      simp only [UCol.contents, Option.toList]
      constructor
      · rintro ⟨v, h1, -⟩; simp at h1
      · rintro ⟨-, h2⟩; exact absurd (by rw [h2]) h
  · simp only [UCol.contents, hmem, and_true]
    constructor
    · rintro ⟨v, h1, h3⟩; rw [h3] at h1; exact h1
    · intro h1; exact ⟨⟨a, rfl⟩, h1, rfl⟩

theorem isPath_ch {C : List α → Ty → List α} (r : List α) :
    IsPath (UOp.ch (op env cfg) (kindAt env cfg) C) [] r ↔ IsPath C [] r ∧
      ∀ k (h : k < r.length), colOK env cfg.outs[k]? (valsOf env cfg (r.take k)) r[k] := by
  induction r using List.reverseRecOn with
  | nil => simp [IsPath]
  | append_singleton r a ih =>
    rw [isPath_append, isPath_append, ih, List.nil_append, isPath_single, isPath_single, mem_ch]
    constructor
    · rintro ⟨⟨h1, h2⟩, h3, h4⟩
      refine ⟨⟨h1, h3⟩, fun k hk => ?_⟩
      by_cases hkr : k < r.length
      · rw [List.getElem_append_left hkr, List.take_append_of_le_length hkr.le]
        exact h2 k hkr
      · have : k = r.length := by simp at hk; omega
        subst this
        simp only [List.take_left, List.getElem_append_right (Nat.le_refl _), Nat.sub_self, List.getElem_cons_zero]
        exact h4
    · rintro ⟨⟨h1, h3⟩, h2⟩
      refine ⟨⟨h1, fun k hk => ?_⟩, h3, ?_⟩
      · have := h2 k (by simp; omega)
        rw [List.getElem_append_left hk, List.take_append_of_le_length hk.le] at this
        exact this
      · have := h2 r.length (by simp)
        simp only [List.take_left, List.getElem_append_right (Nat.le_refl _), Nat.sub_self,
          List.getElem_cons_zero] at this
        exact this

/-- does a column seek in the input -/
def hasConst (cfg : FCfg V U B T N) : Prop := ∃ c, FCol.const c ∈ cfg.outs
/-- does a column run a program -/
def hasProg (cfg : FCfg V U B T N) : Prop := ∃ p, FCol.filtered p ∈ cfg.outs

/-- the scan as `TrieScanEnum`; `possible_types` are those of the input (filter.rs:323-325) -/
def scan (env : VEnv α V U B T N) (cfg : FCfg V U B T N) (x : AnyScan α) : AnyScan α :=
  ⟨_, UOp.scan (op env cfg) (x.I.types x.s) x.I, TUn.new x.s []⟩

/-- The filtering scan holds the rows of the input whose values pass the filters of their columns. -/
theorem scan_table (hl : cfg.inIdx.length = cfg.outs.length) {x : AnyScan α} {m m' : Mode} {rows : List α → Prop}
    (hx : Tab m (some x) cfg.outs.length rows) (hm : m'.le m) (hc : hasConst cfg → m.sk = true)
    (hp : m'.sk = true → m'.cu = true → ¬ hasProg cfg) :
    Tab m' (some (scan env cfg x)) cfg.outs.length (fun r => rows r ∧
      ∀ k (h : k < r.length), colOK env cfg.outs[k]? (valsOf env cfg (r.take k)) r[k]) := by
  have hx' : IsTable x.I m x.s (numBefore (op env cfg).inp (op env cfg).arity) rows := by
    rw [show numBefore (op env cfg).inp (op env cfg).arity = cfg.outs.length from numBefore_true _]
    exact hx
  obtain ⟨C, h1, -, h2⟩ := UOp.table (o := op env cfg) (m' := m') (types := x.I.types x.s) (ok hl)
    (fun p τ _ _ => uses_or p τ) hx' (e := []) rfl hm
    (by
      rintro ⟨p, τ, h⟩
      apply hc
      unfold kindAt kindOf at h
      split at h
      · exact h.elim
      · next c hcol => exact ⟨c, List.mem_of_getElem? hcol⟩
      · exact h.elim)
    (by
      intro h1 h2 p τ h
      refine hp h1 h2 ?_
      unfold kindAt kindOf at h
      split at h
      · next pr hcol => exact ⟨pr, List.mem_of_getElem? hcol⟩
      · split at h
        · exact h.elim
        · exact h.elim
      · exact h.elim)
    (by
      obtain ⟨-, C, R, -, -, -, h, -, -⟩ := hx'
      exact h.tyAsc)
    (by
      intro C hT p τ a hpath hlen ha
      have hty := UOp.ch_typed _ _ _ ha
      subst hty
      rw [mem_ch] at ha
      refine hT.cover p _ a ((isPath_ch p).mp hpath).1 ?_ ha.1
      rw [show numBefore (op env cfg).inp (op env cfg).arity = cfg.outs.length from numBefore_true _]
      exact hlen)
  refine IsTable.congr (I := UOp.scan (op env cfg) (x.I.types x.s) x.I) h2 fun r => ?_
  rw [← h1]
  unfold RowsOf
  rw [isPath_ch, show numBefore (op env cfg).inp (op env cfg).arity = cfg.outs.length from numBefore_true _,
    show (op env cfg).arity = cfg.outs.length from rfl, and_assoc]

/-! ## The generator -/

section
variable {M : Type} [DecidableEq M] [DecidableEq B]

/-- `FunctionTree` over column markers; a `Filter` (filter.rs:34) -/
abbrev Tr (V U B T N M : Type) := FTree V U B T N M

/-- `find_last_reference` (filter.rs:122-134) -/
def findLast (table : List M) (f : Tr V U B T N M) : Option M := table.reverse.find? fun m => decide (m ∈ f.refs)

/-- the column at which a filter is evaluated (filter.rs:149); `none` would be a panic (`input[0]`) -/
def target (table : List M) (f : Tr V U B T N M) : Option M := (findLast table f).or table.head?

/-- `grouped_filters` (filter.rs:146-151) -/
def group (table : List M) (filters : List (Tr V U B T N M)) (m : M) : List (Tr V U B T N M) :=
  filters.filter fun f => decide (target table f = some m)

/-- the functions with special treatment: `BooleanConjunction`, `true` and `Equals` -/
structure Special (V B N : Type) where
  cj : N
  tt : V
  eq : B

/-- `boolean_conjunction` (tree.rs:366-377) -/
def conj (sp : Special V B N) : List (Tr V U B T N M) → Tr V U B T N M
  | [] => .const sp.tt
  | [f] => f
  | f :: g :: fs => .nary sp.cj (f :: g :: fs)

/-- `compute_assignments` (filter.rs:143-159) -/
def assignment (sp : Special V B N) (table : List M) (filters : List (Tr V U B T N M)) (m : M) :
    Option (Tr V U B T N M) :=
  match group table filters m with
  | [] => none
  | f :: fs => some (conj sp (f :: fs))

/-- `special_filter` (tree.rs:151-174): the constant, if the filter is `?x = c` or `c = ?x` -/
def special (sp : Special V B N) : Tr V U B T N M → Option V
  | .bin g (.ref _) (.const c) => if g = sp.eq then some c else none
  | .bin g (.const c) (.ref _) => if g = sp.eq then some c else none
  | _ => none

/-- is the column referenced by the filter of another column (filter.rs:70-77) -/
def referenced (sp : Special V B N) (table : List M) (filters : List (Tr V U B T N M)) (m : M) : Bool :=
  table.any fun m' => match assignment sp table filters m' with
    | none => false
    | some t => decide (m ∈ t.refs ∧ m ≠ m')

/-- `reference_map` when the program of column `k` is built (filter.rs:78-89).  The columns of a table
have different markers. -/
def refMap (sp : Special V B N) (table : List M) (filters : List (Tr V U B T N M)) (k : Nat) (m : M) : Option Nat :=
  ((table.take (k + 1)).filter (referenced sp table filters)).idxOf? m

/-- one output column (filter.rs:91-109) -/
def column (sp : Special V B N) (table : List M) (filters : List (Tr V U B T N M)) (k : Nat) (m : M) :
    Option (FCol V U B T N) :=
  match assignment sp table filters m with
  | none => some .input
  | some t =>
    match special sp t with
    | some c => some (.const c)
    | none =>
      match SProg.fromTree (refMap sp table filters k) (some m) t with
      | .val p => some (.filtered p)
      | _ => none

/-- `GeneratorFilter::new` (filter.rs:64-116); `none` is a panic. -/
def newCfg (sp : Special V B N) (table : List M) (filters : List (Tr V U B T N M)) : Option (FCfg V U B T N) :=
  if table = [] then none
  else (table.zipIdx.mapM fun mk => column sp table filters mk.2 mk.1).map
    fun outs => ⟨outs, table.map (referenced sp table filters)⟩

/-- `is_unchanging` (filter.rs:162-168) -/
def unchanging (cfg : FCfg V U B T N) : Bool :=
  cfg.outs.all fun c => match c with
    | .input => true
    | _ => false

/-- `generate` (filter.rs:172-248) -/
def generate (env : VEnv α V U B T N) (cfg : FCfg V U B T N) (x : Option (AnyScan α)) : Option (AnyScan α) :=
  x.map fun s => if unchanging cfg then s else scan env cfg s

/-! ### Specification -/

/-- a filter holds: it evaluates to the Boolean `true` -/
def Holds (env : VEnv α V U B T N) (t : Tr V U B T N M) (e : M → V) : Prop :=
  ∃ v, t.sem env.sem (fun m => some (e m)) = .val v ∧ env.toBool v = some true

/-- The functions with special treatment do what they are supposed to: a conjunction is true iff all
parameters are, and a value equals a constant iff they are stored in the same way. -/
structure SpecialOK (env : VEnv α V U B T N) (sp : Special V B N) : Prop where
  cj : ∀ vs, (∃ w, env.sem.nary sp.cj vs = .val w ∧ env.toBool w = some true) ↔
    ∀ v ∈ vs, env.toBool v = some true
  eq : ∀ a c, (∃ w, env.sem.bin sp.eq (env.val a) c = .val w ∧ env.toBool w = some true) ↔ a = env.sto c
  eq' : ∀ a c, (∃ w, env.sem.bin sp.eq c (env.val a) = .val w ∧ env.toBool w = some true) ↔ a = env.sto c

/-- filters that can be evaluated: they only refer to columns of the table, and n-ary functions have
parameters -/
structure FilterOK (table : List M) (t : Tr V U B T N M) : Prop where
  refs : ∀ m ∈ t.refs, m ∈ table
  nary : t.NaryOK

/-- the constants a filter compares columns with -/
def constsOf (sp : Special V B N) (filters : List (Tr V U B T N M)) : List V := filters.filterMap (special sp)

variable {sp : Special V B N} {table : List M} {filters : List (Tr V U B T N M)}

theorem target_mem {f : Tr V U B T N M} {m : M} (h : target table f = some m) : m ∈ table := by
  unfold target findLast at h
  rcases Option.or_eq_some_iff.mp h with h | ⟨-, h⟩
  · exact List.mem_reverse.mp (List.mem_of_find?_eq_some h)
  · exact List.mem_of_mem_head? h

theorem target_some (hne : table ≠ []) (f : Tr V U B T N M) : ∃ m, target table f = some m := by
  unfold target
  cases findLast table f with
  | some m => exact ⟨m, rfl⟩
  | none =>
    obtain ⟨a, l, rfl⟩ := List.exists_cons_of_ne_nil hne
    exact ⟨a, rfl⟩

/-- the other references of a filter are in columns before -/
theorem target_last (hn : table.Nodup) {f : Tr V U B T N M} (hf : ∀ m ∈ f.refs, m ∈ table) {k : Nat}
    (hk : k < table.length) (h : target table f = some table[k]) {m : M} (hm : m ∈ f.refs) :
    m ∈ table.take (k + 1) := by
  have hfl : findLast table f = some table[k] := by
    unfold target at h
    cases hx : findLast table f with
    | some m' => rw [hx] at h; exact h
    | none =>
      unfold findLast at hx
      rw [List.find?_eq_none] at hx
      exact absurd hm (by simpa using hx m (List.mem_reverse.mpr (hf m hm)))
  unfold findLast at hfl
  obtain ⟨-, as, bs, hab, hnot⟩ := List.find?_eq_some_iff_append.mp hfl
  have hab' := congrArg List.reverse hab
  rw [List.reverse_reverse, List.reverse_append, List.reverse_cons, List.append_assoc] at hab'
  have hlen : bs.reverse.length = k := by
    have h4 : ∀ A C x, table = A ++ ([x] ++ C) → table[A.length]? = some x := by
      rintro A C x e; rw [e]; simp
    have h1 := h4 _ _ _ hab'
    obtain ⟨h2, h3⟩ := List.getElem?_eq_some_iff.mp h1
    exact (List.Nodup.getElem_inj_iff hn).mp h3
  have hmt := hf m hm
  have : table.take (k + 1) = bs.reverse ++ [table[k]] := by
    have h4 : ∀ A C x, table = A ++ ([x] ++ C) → A.length = k → table.take (k + 1) = A ++ [x] := by
      rintro A C x e hA; rw [e, ← List.append_assoc, List.take_left' (by simp [hA])]
    exact h4 _ _ _ hab' hlen
  rw [this]
  rw [hab'] at hmt
  simp only [List.mem_append, List.mem_reverse, List.mem_singleton] at hmt ⊢
  rcases hmt with h | h | h
  · exact .inl h
  · exact .inr h
  · have := hnot m h
    simp [hm] at this

theorem semList_val {S : Sem V U B T N} {e : M → Option V} {fs : List (Tr V U B T N M)} {vs : List V} :
    FTree.semList S e fs = .val vs ↔ List.Forall₂ (fun (f : Tr V U B T N M) v => f.sem S e = .val v) fs vs := by
  induction fs generalizing vs with
  | nil =>
    simp only [FTree.semList, Res.val.injEq]
    constructor
    · rintro rfl; exact .nil
    · intro h; cases h; rfl
  | cons f fs ih =>
    simp only [FTree.semList]
    constructor
    · intro h
      obtain ⟨x, h1, h⟩ := Res.bind_eq_val.mp h
      obtain ⟨xs, h2, h⟩ := Res.bind_eq_val.mp h
      simp only [Res.val.injEq] at h
      subst h
      exact .cons h1 (ih.mp h2)
    · intro h
      cases h with
      | cons h1 h2 => rw [h1, ih.mpr h2]; rfl

theorem holds_conj (hs : SpecialOK env sp) (e : M → V) {fs : List (Tr V U B T N M)} (hne : fs ≠ []) :
    Holds env (conj sp fs) e ↔ ∀ f ∈ fs, Holds env f e := by
  match fs, hne with
  | [f], _ => simp [conj]
  | f :: g :: fs, _ =>
    simp only [conj]
    generalize f :: g :: fs = l
    constructor
    · rintro ⟨w, h1, h2⟩
      simp only [FTree.sem] at h1
      obtain ⟨vs, h3, h4⟩ := Res.bind_eq_val.mp h1
      have h5 := (hs.cj vs).mp ⟨w, h4, h2⟩
      have h6 := semList_val.mp h3
      clear h1 h3 h4
      induction h6 with
      | nil => simp
      | cons h7 h8 ih =>
        intro f hf
        rcases List.mem_cons.mp hf with rfl | hf
        · exact ⟨_, h7, h5 _ (by simp)⟩
        · exact ih (fun v hv => h5 v (List.mem_cons_of_mem _ hv)) f hf
    · intro h
      obtain ⟨vs, h1, h2⟩ : ∃ vs, List.Forall₂ (fun (f : Tr V U B T N M) v =>
          f.sem env.sem (fun m => some (e m)) = .val v) l vs ∧ ∀ v ∈ vs, env.toBool v = some true := by
        induction l with
        | nil => exact ⟨[], .nil, by simp⟩
        | cons a l ih =>
          obtain ⟨v, h3, h4⟩ := h a (by simp)
          obtain ⟨vs, h1, h2⟩ := ih fun f hf => h f (List.mem_cons_of_mem _ hf)
          refine ⟨v :: vs, .cons h3 h1, fun w hw => ?_⟩
          rcases List.mem_cons.mp hw with rfl | hw
          · exact h4
          · exact h2 w hw
      obtain ⟨w, h3, h4⟩ := (hs.cj vs).mpr h2
      refine ⟨w, ?_, h4⟩
      simp only [FTree.sem]
      rw [semList_val.mpr h1]
      exact h3

theorem refs_conj {fs : List (Tr V U B T N M)} {m : M} : m ∈ (conj sp fs).refs ↔ ∃ f ∈ fs, m ∈ f.refs := by
  match fs with
  | [] => simp [conj, FTree.refs]
  | [f] => simp [conj]
  | f :: g :: fs =>
    simp only [conj, FTree.refs]
    generalize f :: g :: fs = l
    induction l with
    | nil => simp [FTree.refsList]
    | cons a l ih => simp [FTree.refsList, ih]

theorem nary_conj {fs : List (Tr V U B T N M)} (h : ∀ f ∈ fs, f.NaryOK) : (conj sp fs).NaryOK := by
  match fs, h with
  | [], _ => exact trivial
  | [f], h => exact h f (by simp)
  | f :: g :: fs, h =>
    refine ⟨by simp, ?_⟩
    revert h
    generalize f :: g :: fs = l
    intro h
    induction l with
    | nil => trivial
    | cons a l ih => exact ⟨h a (by simp), ih fun f hf => h f (List.mem_cons_of_mem _ hf)⟩

/-- the filter of a column -/
theorem assignment_some {m : M} {t : Tr V U B T N M} (h : assignment sp table filters m = some t) :
    t = conj sp (group table filters m) ∧ group table filters m ≠ [] := by
  unfold assignment at h
  split at h
  · simp at h
  · next f fs hg =>
    simp only [Option.some.injEq] at h
    rw [hg]
    exact ⟨h.symm, by simp⟩

theorem assignment_none {m : M} (h : assignment sp table filters m = none) : group table filters m = [] := by
  unfold assignment at h
  split at h
  · assumption
  · simp at h

theorem mem_group {m : M} {f : Tr V U B T N M} : f ∈ group table filters m ↔ f ∈ filters ∧ target table f = some m := by
  simp [group]

/-- the value of a variable that is not the column itself is on the stack -/
theorem agrees (hn : table.Nodup) (hf : ∀ f ∈ filters, FilterOK table f) {k : Nat} (hk : k < table.length)
    {t : Tr V U B T N M} (ht : assignment sp table filters table[k] = some t) (g : M → V) (e : M → V)
    (hg : ∀ m, g m = e m) :
    Agrees (refMap sp table filters k) (some table[k])
      (((table.take k).filter (referenced sp table filters)).map g) (some (g table[k])) (fun m => some (e m))
      t.refs := by
  intro r hr
  split
  · next h =>
    simp only [Option.some.injEq] at h
    rw [h, hg]
  · next h =>
    have h' : r ≠ table[k] := fun e => h (by rw [e])
    obtain ⟨ht', -⟩ := assignment_some ht
    have hr' := hr
    rw [ht', refs_conj] at hr'
    obtain ⟨f, hfg, hrf⟩ := hr'
    obtain ⟨hff, htar⟩ := mem_group.mp hfg
    have hmem := target_last hn (hf f hff).refs hk htar hrf
    have hsucc : table.take (k + 1) = table.take k ++ [table[k]] := by
      rw [List.take_add_one, List.getElem?_eq_getElem hk]; rfl
    have hmem' : r ∈ table.take k := by
      rw [hsucc, List.mem_append, List.mem_singleton] at hmem
      exact hmem.resolve_right h'
    have href : referenced sp table filters r = true := by
      unfold referenced
      rw [List.any_eq_true]
      refine ⟨table[k], List.getElem_mem hk, ?_⟩
      simp only [ht]
      simp [hr, h']
    have hin : r ∈ (table.take k).filter (referenced sp table filters) := List.mem_filter.mpr ⟨hmem', href⟩
    obtain ⟨i, hi, hir⟩ := List.getElem_of_mem hin
    have hnd : ((table.take (k + 1)).filter (referenced sp table filters)).Nodup :=
      (hn.sublist (List.take_sublist _ _)).filter _
    refine ⟨i, g r, ?_, by simp [hi, hir], by rw [hg]⟩
    unfold refMap
    rw [List.idxOf?_eq_some_iff]
    have hpre : (table.take (k + 1)).filter (referenced sp table filters) =
        (table.take k).filter (referenced sp table filters) ++ [table[k]].filter (referenced sp table filters) := by
      rw [hsucc, List.filter_append]
    have hlt : i < ((table.take (k + 1)).filter (referenced sp table filters)).length := by
      rw [hpre, List.length_append]; omega
    have hget : ((table.take (k + 1)).filter (referenced sp table filters))[i] = r := by
      simp only [hpre]
      rw [List.getElem_append_left hi, hir]
    refine ⟨hlt, hget, fun j hj he => ?_⟩
    have := (List.Nodup.getElem_inj_iff hnd (hi := by omega) (hj := hlt)).mp (he.trans hget.symm)
    omega

theorem special_some {t : Tr V U B T N M} {c : V} (h : special sp t = some c) :
    ∃ m, t = .bin sp.eq (.ref m) (.const c) ∨ t = .bin sp.eq (.const c) (.ref m) := by
  unfold special at h
  split at h
  · split at h
    · next g m c' hg =>
      simp only [Option.some.injEq] at h
      subst h hg
      exact ⟨m, .inl rfl⟩
    · simp at h
  · split at h
    · next g c' m hg =>
      simp only [Option.some.injEq] at h
      subst h hg
      exact ⟨m, .inr rfl⟩
    · simp at h
  · simp at h

/-- The filter of column `k`, evaluated on a row, is the conjunction of the filters assigned to it. -/
theorem column_ok (hs : SpecialOK env sp) (hn : table.Nodup) (hf : ∀ f ∈ filters, FilterOK table f)
    (f : M → α) {k : Nat} (hk : k < table.length) :
    ∃ col, column sp table filters k table[k] = some col ∧
      (colOK env (some col) (((table.take k).filter (referenced sp table filters)).map fun m => env.val (f m))
        (f table[k]) ↔ ∀ t ∈ filters, target table t = some table[k] → Holds env t fun m => env.val (f m)) := by
  have hgrp : (∀ t ∈ filters, target table t = some table[k] → Holds env t fun m => env.val (f m)) ↔
      ∀ t ∈ group table filters table[k], Holds env t fun m => env.val (f m) := by
    constructor
    · intro h t ht
      obtain ⟨h1, h2⟩ := mem_group.mp ht
      exact h t h1 h2
    · intro h t h1 h2; exact h t (mem_group.mpr ⟨h1, h2⟩)
  rw [hgrp]
  unfold column
  cases ht : assignment sp table filters table[k] with
  | none =>
    refine ⟨.input, rfl, ?_⟩
    rw [assignment_none ht]
    simp [colOK]
  | some t =>
    obtain ⟨he, hne⟩ := assignment_some ht
    rw [← holds_conj hs _ hne, ← he]
    cases hsp : special sp t with
    | some c =>
      refine ⟨.const c, by simp only [hsp], ?_⟩
      simp only [colOK]
      -- the group has a single filter
      have hone : ∃ f0, group table filters table[k] = [f0] ∧ t = f0 := by
        match hg : group table filters table[k], hne with
        | [f0], _ => rw [hg] at he; exact ⟨f0, rfl, he⟩
        | f0 :: g :: fs, _ =>
          rw [hg] at he
          simp only [conj] at he
          rw [he] at hsp
          simp [special] at hsp
      obtain ⟨f0, hg, rfl⟩ := hone
      obtain ⟨h1, h2⟩ := mem_group.mp (show t ∈ group table filters table[k] by rw [hg]; simp)
      obtain ⟨m, hm⟩ := special_some hsp
      have hrefs : t.refs = [m] := by rcases hm with rfl | rfl <;> simp [FTree.refs]
      have hmk : m = table[k] := by
        have hmt : m ∈ table := (hf t h1).refs m (by rw [hrefs]; simp)
        unfold target at h2
        cases hx : findLast table t with
        | some m' =>
          rw [hx] at h2
          have := List.find?_some hx
          rw [hrefs] at this
          simp at this
          rw [← this]
          simpa using h2
        | none =>
          unfold findLast at hx
          rw [List.find?_eq_none] at hx
          have := hx m (List.mem_reverse.mpr hmt)
          rw [hrefs] at this
          simp at this
      subst hmk
      unfold Holds
      rcases hm with rfl | rfl
      · simp only [FTree.sem, Res.ofOption, Res.bind_val]
        exact (hs.eq _ _).symm
      · simp only [FTree.sem, Res.ofOption, Res.bind_val]
        exact (hs.eq' _ _).symm
    | none =>
      obtain ⟨p, h1, h2⟩ := eval_fromTree env.sem t (refMap sp table filters k) (some table[k])
        (((table.take k).filter (referenced sp table filters)).map fun m => env.val (f m))
        (some (env.val (f table[k]))) (fun m => some (env.val (f m)))
        (by rw [he]; exact nary_conj fun f hfg => (hf f (mem_group.mp hfg).1).nary)
        (agrees hn hf hk ht _ _ fun _ => rfl)
      refine ⟨.filtered p, by simp only [hsp, h1], ?_⟩
      simp only [colOK, check, decide_eq_true_eq, SProg.evalBool, h2]
      unfold Holds
      rw [Res.bind_eq_val]
      constructor
      · rintro ⟨v, h3, h4⟩
        refine ⟨v, h3, ?_⟩
        cases hb : env.toBool v with
        | none => rw [hb] at h4; simp [Res.ofOption] at h4
        | some b => rw [hb] at h4; simp [Res.ofOption] at h4; rw [h4]
      · rintro ⟨v, h3, h4⟩
        exact ⟨v, h3, by rw [h4]; rfl⟩

theorem mapM_of_forall {β γ : Type} {g : β → Option γ} {l : List β} (h : ∀ x ∈ l, ∃ y, g x = some y) :
    ∃ ys, l.mapM g = some ys ∧ ys.length = l.length ∧
      ∀ k (hk : k < l.length), ∃ y, g l[k] = some y ∧ ys[k]? = some y := by
  induction l with
  | nil => exact ⟨[], rfl, rfl, by simp⟩
  | cons x l ih =>
    obtain ⟨y, hy⟩ := h x (by simp)
    obtain ⟨ys, h1, h2, h3⟩ := ih fun z hz => h z (List.mem_cons_of_mem _ hz)
    refine ⟨y :: ys, by simp [List.mapM_cons, hy, h1], by simp [h2], fun k hk => ?_⟩
    cases k with
    | zero => exact ⟨y, hy, rfl⟩
    | succ k => exact h3 k (by simpa using hk)

theorem restrict_filter {β : Type} {pr : M → Bool} {hs : Nat → Bool} (f : M → β) {l : List M} (o : Nat)
    (h : ∀ k m, l[k]? = some m → hs (o + k) = pr m) : restrict hs o (l.map f) = (l.filter pr).map f := by
  induction l generalizing o with
  | nil => rfl
  | cons a l ih =>
    have h0 : hs o = pr a := by simpa using h 0 a (by simp)
    have := ih (o + 1) fun k m hk => by
      have := h (k + 1) m (by simpa using hk)
      rw [show o + 1 + k = o + (k + 1) by omega]
      exact this
    simp only [List.map_cons, restrict, h0, this, List.filter_cons]
    split <;> rfl

/-- **C09, filter.** If the filters only refer to columns of the table, the generator does not panic,
and the result holds the rows of the input on which all filters are true. -/
theorem generate_table [Nonempty α] (hs : SpecialOK env sp) (hn : table.Nodup) (hne : table ≠ [])
    (hf : ∀ f ∈ filters, FilterOK table f) {x : Option (AnyScan α)} {m m' : Mode} {rows : List α → Prop}
    (hx : Tab m x table.length rows) (hm : m'.le m) (hc : constsOf sp filters ≠ [] → m.sk = true)
    (hp : m'.sk = true → m'.cu = true → filters = []) :
    ∃ cfg, newCfg sp table filters = some cfg ∧
      Tab m' (generate env cfg x) table.length
        (fun r => ∃ f : M → α, r = table.map f ∧ rows r ∧ ∀ t ∈ filters, Holds env t fun m => env.val (f m)) := by
  obtain ⟨a0⟩ := ‹Nonempty α›
  -- the columns
  have hcol : ∀ k (hk : k < table.length), ∃ col, column sp table filters k table[k] = some col := by
    intro k hk
    by_cases h : ∃ col, column sp table filters k table[k] = some col
    · exact h
    · exfalso
      unfold column at h
      split at h
      · exact h ⟨_, rfl⟩
      · next t ht =>
        split at h
        · exact h ⟨_, rfl⟩
        · obtain ⟨he, hg⟩ := assignment_some ht
          obtain ⟨p, h1, -⟩ := eval_fromTree env.sem t (refMap sp table filters k) (some table[k])
            _ (some (env.val a0)) (fun m => some (env.val a0))
            (by rw [he]; exact nary_conj fun f hfg => (hf f (mem_group.mp hfg).1).nary)
            (agrees hn hf hk ht (fun _ => env.val a0) (fun _ => env.val a0) fun _ => rfl)
          rw [h1] at h
          exact h ⟨_, rfl⟩
  obtain ⟨outs, ho1, ho2, ho3⟩ := mapM_of_forall (l := table.zipIdx)
    (g := fun mk => column sp table filters mk.2 mk.1) (by
      rintro ⟨m, k⟩ hmk
      obtain ⟨hk, e⟩ := List.mem_zipIdx' hmk
      rw [e]
      exact hcol k hk)
  rw [List.length_zipIdx] at ho2
  obtain ⟨cfg, hcfg⟩ : ∃ cfg : FCfg V U B T N, cfg = ⟨outs, table.map (referenced sp table filters)⟩ := ⟨_, rfl⟩
  have hco : cfg.outs = outs := by rw [hcfg]
  have hci : cfg.inIdx = table.map (referenced sp table filters) := by rw [hcfg]
  have hget : ∀ k (hk : k < table.length), cfg.outs[k]? = column sp table filters k table[k] := by
    intro k hk
    obtain ⟨y, h1, h2⟩ := ho3 k (by simpa using hk)
    rw [List.getElem_zipIdx] at h1
    simp only [Nat.zero_add] at h1
    rw [hco, h2, h1]
  refine ⟨cfg, ?_, ?_⟩
  · unfold newCfg
    rw [if_neg hne, ho1, hcfg]
    rfl
  have hval' : ∀ r : List α, r.length = table.length → ∃ f : M → α, r = table.map f := by
    intro r hr
    refine ⟨fun m => r.getD (table.idxOf m) a0, ?_⟩
    apply List.ext_getElem (by simp [hr])
    intro k h1 h2
    rw [List.getElem_map, hn.idxOf_getElem k (by rw [← hr]; exact h1)]
    simp [h1]
  -- the meaning of the columns
  have hrow : ∀ f : M → α, rows (table.map f) →
      ((∀ k (h : k < (table.map f).length), colOK env cfg.outs[k]? (valsOf env cfg ((table.map f).take k))
        (table.map f)[k]) ↔ ∀ t ∈ filters, Holds env t fun m => env.val (f m)) := by
    intro f hr
    have hk' : ∀ k (hk : k < table.length), colOK env cfg.outs[k]? (valsOf env cfg ((table.map f).take k)) (f table[k]) ↔
        ∀ t ∈ filters, target table t = some table[k] → Holds env t fun m => env.val (f m) := by
      intro k hk
      obtain ⟨col, h1, h2⟩ := column_ok (f := f) hs hn hf hk
      rw [hget k hk, h1, ← h2]
      have hv : valsOf env cfg ((table.map f).take k) =
          ((table.take k).filter (referenced sp table filters)).map fun m => env.val (f m) := by
        unfold valsOf
        rw [← List.map_take, restrict_filter (pr := referenced sp table filters), List.map_map]
        · rfl
        · intro j m hj
          rw [Nat.zero_add]
          unfold kept
          have hj' : table[j]? = some m := by
            rw [List.getElem?_take] at hj
            split at hj
            · exact hj
            · simp at hj
          rw [hci, List.getD_eq_getElem?_getD, List.getElem?_map, hj']
          rfl
      rw [hv]
    constructor
    · intro h t ht
      obtain ⟨m, hm⟩ := target_some hne t
      obtain ⟨k, hk, rfl⟩ := List.getElem_of_mem (target_mem hm)
      have := h k (by simpa using hk)
      rw [List.getElem_map] at this
      exact (hk' k hk).mp this t ht hm
    · intro h k hk
      rw [List.getElem_map]
      exact (hk' k (by simpa using hk)).mpr fun t ht _ => h t ht
  -- the result
  cases x with
  | none =>
    rintro r ⟨f, -, hr, -⟩
    exact hx r hr
  | some x =>
    have hlen : table.length = cfg.outs.length := by rw [hco, ho2]
    unfold generate
    rw [Option.map_some]
    by_cases hun : unchanging cfg = true
    · rw [if_pos hun]
      refine Tab.congr (hx.weaken hm) fun r => ?_
      constructor
      · intro hr
        obtain ⟨f, rfl⟩ := hval' r (hx.length hr)
        refine ⟨f, rfl, hr, (hrow f hr).mp fun k hk => ?_⟩
        have hk' : k < cfg.outs.length := by rw [← hlen]; simpa using hk
        rw [List.getElem?_eq_getElem hk']
        unfold unchanging at hun
        have := List.all_eq_true.mp hun _ (List.getElem_mem hk')
        cases hc : cfg.outs[k] with
        | input => trivial
        | const c => rw [hc] at this; simp at this
        | filtered p => rw [hc] at this; simp at this
      · rintro ⟨f, rfl, hr, -⟩
        exact hr
    · rw [if_neg hun]
      rw [hlen] at hx ⊢
      have hmem : ∀ col ∈ cfg.outs, ∃ k, ∃ hk : k < table.length, column sp table filters k table[k] = some col := by
        intro col hcl
        obtain ⟨k, hk, rfl⟩ := List.getElem_of_mem hcl
        rw [← hlen] at hk
        exact ⟨k, hk, by rw [← hget k hk, List.getElem?_eq_getElem]⟩
      refine (scan_table (env := env) (m' := m') (by rw [hci, List.length_map, hlen]) hx hm ?_ ?_).congr fun r => ?_
      · rintro ⟨c, hcm⟩
        apply hc
        obtain ⟨k, hk, h⟩ := hmem _ hcm
        unfold column at h
        split at h
        · simp at h
        · next t ht =>
          obtain ⟨he, hg⟩ := assignment_some ht
          split at h
          · next c' hsp =>
            intro hnil
            match hgg : group table filters table[k], hg with
            | [f0], _ =>
              rw [hgg] at he
              simp only [conj] at he
              have : f0 ∈ group table filters table[k] := by rw [hgg]; simp
              have h2 : c' ∈ constsOf sp filters :=
                List.mem_filterMap.mpr ⟨f0, (mem_group.mp this).1, by rw [← he]; exact hsp⟩
              rw [hnil] at h2
              simp at h2
            | f0 :: g :: fs, _ =>
              rw [hgg] at he
              simp only [conj] at he
              rw [he] at hsp
              simp [special] at hsp
          · split at h <;> simp at h
      · rintro h1 h2 ⟨p, hpm⟩
        have hnil := hp h1 h2
        obtain ⟨k, hk, h⟩ := hmem _ hpm
        have : assignment sp table filters table[k] = none := by
          unfold assignment group
          rw [hnil]
          rfl
        unfold column at h
        rw [this] at h
        simp at h
      · constructor
        · rintro ⟨h1, h2⟩
          obtain ⟨f, rfl⟩ := hval' r (by rw [hlen]; exact hx.length h1)
          exact ⟨f, rfl, h1, (hrow f h1).mp h2⟩
        · rintro ⟨f, rfl, h1, h2⟩
          exact ⟨h1, (hrow f h1).mpr h2⟩

end
end TFilter
end Verif
