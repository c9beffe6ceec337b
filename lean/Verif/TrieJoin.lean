import Verif.TrieTable
import Verif.Permutation

/-!
# Join of tries

Model of `/repo/nemo-physical/src/tabular/operations/join.rs`.
-/

set_option linter.unusedSimpArgs false
set_option linter.unusedSectionVars false
set_option linter.unusedVariables false

namespace Verif
variable {α : Type} [SVal α]

/-- the entries of a row that belong to the layers `k, k+1, …` selected by `has` -/
def restrict {β : Type} (has : Nat → Bool) : Nat → List β → List β
  | _, [] => []
  | k, v :: vs => if has k then v :: restrict has (k + 1) vs else restrict has (k + 1) vs

theorem restrict_append {β : Type} (has : Nat → Bool) (u v : List β) :
    ∀ k, restrict has k (u ++ v) = restrict has k u ++ restrict has (k + u.length) v := by
  induction u with
  | nil => simp [restrict]
  | cons a u ih =>
    intro k
    simp only [List.cons_append, restrict, ih]
    split <;> simp [Nat.add_assoc, Nat.add_comm 1]

theorem restrict_snoc {β : Type} (has : Nat → Bool) (u : List β) (a : β) :
    restrict has 0 (u ++ [a]) = restrict has 0 u ++ if has u.length then [a] else [] := by
  rw [restrict_append]
  simp [restrict]

/-- number of selected layers below `k` -/
def numBefore (has : Nat → Bool) (k : Nat) : Nat := ((List.range k).filter has).length

theorem numBefore_succ (has : Nat → Bool) (k : Nat) :
    numBefore has (k + 1) = numBefore has k + if has k then 1 else 0 := by
  unfold numBefore
  rw [List.range_succ, List.filter_append, List.length_append]
  congr 1
  by_cases h : has k <;> simp [h]

theorem numBefore_mono (has : Nat → Bool) {k m : Nat} (h : k ≤ m) : numBefore has k ≤ numBefore has m := by
  induction m with
  | zero => simp_all
  | succ m ih =>
    rcases Nat.lt_or_ge k (m + 1) with h' | h'
    · exact (ih (by omega)).trans (by rw [numBefore_succ]; omega)
    · rw [show k = m + 1 by omega]

theorem length_restrict {β : Type} (has : Nat → Bool) (u : List β) :
    (restrict has 0 u).length = numBefore has u.length := by
  induction u using List.reverseRecOn with
  | nil => rfl
  | append_singleton u a ih =>
    rw [restrict_snoc, List.length_append, ih, List.length_append, List.length_singleton, numBefore_succ]
    congr 1
    split <;> rfl

/-! ## The operator -/

/-- Bindings of one output layer (`Vec<ColumnIndex>`, join.rs:26-38): relation and column. -/
abbrev JBind (n : Nat) := List (Fin n × Nat)

/-- `ColumnScanJoin` without its input scans (columnar/operations/join.rs:11-23). -/
structure JLoc (β : Type) where
  active : Nat := 0
  cur : Option β := none

/-- `TrieScanJoin` (join.rs:196-225).  `depth` is `current_layer + 1`; `layers_to_scans` are the
first components of `bindings`; `loc k τ` is the state of the column scan of type `τ` of layer `k`. -/
structure TJoin (n : Nat) (S α : Type) [SVal α] where
  kids : Fin n → S
  bindings : List (JBind n)
  depth : Nat
  loc : Nat → (τ : Ty) → JLoc (TVal α τ)
  ptypes : Nat → List Ty

/-- Store the states of the inputs of a column scan. -/
def writeBack {n : Nat} {X : Type} (b : JBind n) (vals : Fin b.length → X) (old : Fin n → X) : Fin n → X :=
  (List.finRange b.length).foldl (fun f i => Function.update f (b.get i).1 (vals i)) old

namespace TJoin
variable {n : Nat} {S : Type}

/-- Construction of the scan (join.rs:118-190). -/
def new (bindings : List (JBind n)) (ptypes : Nat → List Ty) (kids : Fin n → S) : TJoin n S α :=
  ⟨kids, bindings, 0, fun _ _ => {}, ptypes⟩

/-- The column scan of one layer and type (join.rs:148-181), with its inputs. -/
def column (t : TJoin n S α) (b : JBind n) (k : Nat) (τ : Ty) (h : (t.loc k τ).active < b.length) :
    JoinScan b.length (Nat × S) (TVal α τ) :=
  ⟨fun i => ((b.get i).2, t.kids (b.get i).1), ⟨(t.loc k τ).active, h⟩, (t.loc k τ).cur⟩

/-- The scan after a call to a column scan. -/
def update (t : TJoin n S α) (b : JBind n) (k : Nat) (τ : Ty)
    (r : Option (TVal α τ) × JoinScan b.length (Nat × S) (TVal α τ)) : Option α × TJoin n S α :=
  (r.1.map Subtype.val,
    { t with
      kids := writeBack b (fun i => (r.2.scans i).2) t.kids
      loc := Function.update t.loc k (Function.update (t.loc k) τ ⟨r.2.active.val, r.2.cur⟩) })

/-- `next` of the column scan of the current layer. -/
def next (cops : TrieOps S α) (t : TJoin n S α) (τ : Ty) : Option (Option α × TJoin n S α) := do
  let k ← usub t.depth 1
  let b ← t.bindings[k]?
  if h : (t.loc k τ).active < b.length then
    ((JoinScan.ops (childOps cops τ)).next (t.column b k τ h)).map (t.update b k τ)
  else none

/-- `seek` of the column scan of the current layer. -/
def seek (cops : TrieOps S α) (t : TJoin n S α) (v : α) : Option (Option α × TJoin n S α) := do
  let k ← usub t.depth 1
  let b ← t.bindings[k]?
  if h : (t.loc k (ty v)).active < b.length then
    ((JoinScan.ops (childOps cops (ty v))).seek (t.column b k (ty v) h) ⟨v, rfl⟩).map (t.update b k (ty v))
  else none

/-- `up` (join.rs:228-239) -/
def up (cops : TrieOps S α) (t : TJoin n S α) : Option (TJoin n S α) := do
  let k ← usub t.depth 1
  let b ← t.bindings[k]?
  let kids ← moveUp cops (b.map Prod.fst) t.kids
  return { t with kids := kids, depth := k }

/-- `reset` of the column scan of type `τ` (columnar/operations/join.rs:110-113) -/
def reset (t : TJoin n S α) (k : Nat) (τ : Ty) : TJoin n S α :=
  { t with loc := Function.update t.loc k (Function.update (t.loc k) τ {}) }

/-- `down` (join.rs:241-254) -/
def down (cops : TrieOps S α) (t : TJoin n S α) (τ : Ty) : Option (TJoin n S α) := do
  let b ← t.bindings[t.depth]?
  let kids ← moveDown cops τ (b.map Prod.fst) t.kids
  return { t.reset t.depth τ with kids := kids, depth := t.depth + 1 }

/-- `TrieScanJoin` as a partial trie scan -/
def ops (cops : TrieOps S α) : TrieOps (TJoin n S α) α where
  depth t := t.depth
  up := up cops
  down := down cops
  next := next cops
  seek := seek cops
  current t k τ := ((t.loc k τ).cur).map Subtype.val

/-! ## Specification -/

/-- input `j` has a column on layer `k` -/
def has (b : List (JBind n)) (j : Fin n) (k : Nat) : Bool := ((b[k]?).getD []).any fun q => q.1 == j

/-- children of the join: values that are children of all the inputs bound to the layer -/
def ch (b : List (JBind n)) (ch : Fin n → List α → Ty → List α) (vs : List α) (τ : Ty) : List α :=
  match b[vs.length]? with
  | some (q :: qs) => (ch q.1 (restrict (has b q.1) 0 vs) τ).filter fun x =>
      qs.all fun q => decide (x ∈ ch q.1 (restrict (has b q.1) 0 vs) τ)
  | _ => []

/-- `possible_types` (join.rs:131-143) -/
def types (b : List (JBind n)) (types : Fin n → Nat → List Ty) (k : Nat) : List Ty :=
  allTys.filter fun τ => ((b[k]?).getD []).all fun q => decide (τ ∈ types q.1 q.2)

/-- What `GeneratorJoin::new` establishes: each layer has an input, no input is bound twice to a
layer, and the columns of an input are bound in order. -/
structure BindOK (b : List (JBind n)) : Prop where
  ne : ∀ bk ∈ b, bk ≠ []
  nodup : ∀ bk ∈ b, (bk.map Prod.fst).Nodup
  col : ∀ k bk, b[k]? = some bk → ∀ q ∈ bk, q.2 = numBefore (has b q.1) k

variable {b : List (JBind n)}

theorem has_iff {k : Nat} {bk : JBind n} (h : b[k]? = some bk) {j : Fin n} :
    has b j k = true ↔ j ∈ bk.map Prod.fst := by
  simp [has, h]

theorem mem_ch (hb : BindOK b) {C : Fin n → List α → Ty → List α} {vs : List α} {bk : JBind n}
    (h : b[vs.length]? = some bk) {τ : Ty} {x : α} :
    x ∈ ch b C vs τ ↔ ∀ q ∈ bk, x ∈ C q.1 (restrict (has b q.1) 0 vs) τ := by
  have hne := hb.ne bk (List.mem_of_getElem? h)
  unfold ch
  rw [h]
  cases bk with
  | nil => exact absurd rfl hne
  | cons q qs => simp

theorem ch_asc {C : Fin n → List α → Ty → List α} (hC : ∀ j p τ, Asc (C j p τ)) (vs : List α) (τ : Ty) :
    Asc (ch b C vs τ) := by
  unfold ch
  split
  · exact (hC _ _ _).filter _
  · exact List.Pairwise.nil

theorem ch_typed {C : Fin n → List α → Ty → List α} (hC : ∀ j p τ a, a ∈ C j p τ → ty a = τ) (vs : List α)
    (τ : Ty) (a : α) (h : a ∈ ch b C vs τ) : ty a = τ := by
  unfold ch at h
  split at h
  · exact hC _ _ _ _ (List.mem_filter.mp h).1
  · simp at h

/-- a row is in the join iff its restrictions are in the inputs -/
theorem isPath_ch (hb : BindOK b) {C : Fin n → List α → Ty → List α} (r : List α) (hr : r.length ≤ b.length) :
    IsPath (ch b C) [] r ↔ ∀ j, IsPath (C j) [] (restrict (has b j) 0 r) := by
  induction r using List.reverseRecOn with
  | nil => simp [IsPath, restrict]
  | append_singleton r a ih =>
    rw [List.length_append, List.length_singleton] at hr
    rw [isPath_append, ih (by omega), List.nil_append, isPath_single]
    obtain ⟨bk, hbk⟩ : ∃ bk, b[r.length]? = some bk := ⟨_, List.getElem?_eq_getElem (by omega)⟩
    rw [mem_ch hb hbk, ← forall_and_iff_restrict hbk]
where
  forall_and_iff_restrict {b : List (JBind n)} {C : Fin n → List α → Ty → List α} {r : List α} {a : α}
      {bk : JBind n} (hbk : b[r.length]? = some bk) :
      ((∀ j, IsPath (C j) [] (restrict (has b j) 0 r)) ∧
        ∀ q ∈ bk, a ∈ C q.1 (restrict (has b q.1) 0 r) (ty a)) ↔
      ∀ j, IsPath (C j) [] (restrict (has b j) 0 (r ++ [a])) := by
    constructor
    · rintro ⟨h1, h2⟩ j
      rw [restrict_snoc, isPath_append]
      refine ⟨h1 j, ?_⟩
      by_cases hj : has b j r.length = true
      · rw [if_pos hj, List.nil_append, isPath_single]
        obtain ⟨q, hq, rfl⟩ := List.mem_map.mp ((has_iff hbk).mp hj)
        exact h2 q hq
      · rw [if_neg hj]; trivial
    · intro h
      have h' : ∀ j, IsPath (C j) [] (restrict (has b j) 0 r) ∧
          (has b j r.length = true → a ∈ C j (restrict (has b j) 0 r) (ty a)) := by
        intro j
        have := h j
        rw [restrict_snoc, isPath_append] at this
        refine ⟨this.1, fun hj => ?_⟩
        have h2 := this.2
        rw [if_pos hj, List.nil_append, isPath_single] at h2
        exact h2
      exact ⟨fun j => (h' j).1, fun q hq => (h' q.1).2 ((has_iff hbk).mpr (List.mem_map_of_mem hq))⟩

/-! ## The operator behaves like the tree -/

theorem foldl_update_not_mem {X : Type} {bk : JBind n} (vals : Fin bk.length → X) {j : Fin n}
    (L : List (Fin bk.length)) (h : ∀ i ∈ L, (bk.get i).1 ≠ j) (old : Fin n → X) :
    L.foldl (fun f i => Function.update f (bk.get i).1 (vals i)) old j = old j := by
  induction L generalizing old with
  | nil => rfl
  | cons i L ih =>
    rw [List.foldl_cons, ih (fun i' hi' => h i' (List.mem_cons_of_mem _ hi')),
      Function.update_of_ne (Ne.symm (h i (by simp)))]

theorem writeBack_not_mem {X : Type} {bk : JBind n} (vals : Fin bk.length → X) (old : Fin n → X) {j : Fin n}
    (h : j ∉ bk.map Prod.fst) : writeBack bk vals old j = old j := by
  apply foldl_update_not_mem
  intro i _ e
  exact h (List.mem_map.mpr ⟨bk.get i, List.get_mem _ _, e⟩)

theorem foldl_update_mem {X : Type} {bk : JBind n} (hnd : (bk.map Prod.fst).Nodup) (vals : Fin bk.length → X)
    {i : Fin bk.length} (L : List (Fin bk.length)) (hL : L.Nodup) (hi : i ∈ L) (old : Fin n → X) :
    L.foldl (fun f i => Function.update f (bk.get i).1 (vals i)) old (bk.get i).1 = vals i := by
  induction L generalizing old with
  | nil => simp at hi
  | cons i' L ih =>
    obtain ⟨hL1, hL2⟩ := List.nodup_cons.mp hL
    rw [List.foldl_cons]
    by_cases e : i = i'
    · subst e
      rw [foldl_update_not_mem, Function.update_self]
      intro i'' hi'' e
      have : i'' = i := by
        apply Fin.ext
        have := (List.nodup_iff_injective_get.mp hnd) (a₁ := ⟨i''.val, by simp⟩) (a₂ := ⟨i.val, by simp⟩)
          (by simpa using e)
        simpa using this
      exact hL1 (this ▸ hi'')
    · exact ih hL2 ((List.mem_cons.mp hi).resolve_left e) _

theorem writeBack_get {X : Type} {bk : JBind n} (hnd : (bk.map Prod.fst).Nodup) (vals : Fin bk.length → X)
    (old : Fin n → X) (i : Fin bk.length) : writeBack bk vals old (bk.get i).1 = vals i :=
  foldl_update_mem hnd vals _ (List.nodup_finRange _) (List.mem_finRange i) old

/-- Position of the operator on one layer: type, cursor of the result, cursors of the inputs. -/
structure Ghost (n : Nat) (α : Type) [SVal α] where
  τ : Ty
  c : Cur (TVal α τ)
  cs : Fin n → Cur (TVal α τ)

/-- position in the result -/
def Ghost.entry (g : Ghost n α) : Ty × Cur α := (g.τ, g.c.map Subtype.val)

/-- position in input `j` -/
def childPath (h : Fin n → Nat → Bool) : List (Ghost n α) → Fin n → TPath α
  | [], _ => []
  | g :: gs, j => if h j gs.length then (g.τ, (g.cs j).map Subtype.val) :: childPath h gs j else childPath h gs j

theorem length_childPath (h : Fin n → Nat → Bool) (gs : List (Ghost n α)) (j : Fin n) :
    (childPath h gs j).length = numBefore (h j) gs.length := by
  induction gs with
  | nil => rfl
  | cons g gs ih =>
    rw [List.length_cons, numBefore_succ]
    simp only [childPath]
    split <;> simp [ih]

/-- the column scans of the layers correspond to their cursors -/
def LocOK (b : List (JBind n)) (loc : Nat → (τ : Ty) → JLoc (TVal α τ)) : List (Ghost n α) → Prop
  | [] => True
  | g :: gs => (∃ bk, b[gs.length]? = some bk ∧ ∃ h : (loc gs.length g.τ).active < bk.length,
      JoinScan.Sim curOps ⟨fun i => g.cs (bk.get i).1, ⟨_, h⟩, (loc gs.length g.τ).cur⟩ g.c) ∧
    LocOK b loc gs

theorem LocOK.congr {loc loc' : Nat → (τ : Ty) → JLoc (TVal α τ)} {gs : List (Ghost n α)}
    (h : ∀ k < gs.length, loc k = loc' k) (hl : LocOK b loc gs) : LocOK b loc' gs := by
  induction gs with
  | nil => trivial
  | cons g gs ih =>
    refine ⟨?_, ih (fun k hk => h k (by simp; omega)) hl.2⟩
    rw [← h gs.length (by simp)]
    exact hl.1

/-- simulation relation -/
structure Inv (b : List (JBind n)) (R : Fin n → S → TPath α → Prop) (t : TJoin n S α)
    (gs : List (Ghost n α)) : Prop where
  bind : t.bindings = b
  depth : t.depth = gs.length
  le : gs.length ≤ b.length
  kids : ∀ j, R j (t.kids j) (childPath (has b) gs j)
  loc : LocOK b t.loc gs

/-- the relation between states and positions -/
def Rel (b : List (JBind n)) (R : Fin n → S → TPath α → Prop) (t : TJoin n S α) (p : TPath α) : Prop :=
  ∃ gs : List (Ghost n α), p = gs.map Ghost.entry ∧ Inv b R t gs

/-- when the join stands on a value, so do the inputs of the layer -/
theorem current_of_sim {m : Nat} {β : Type} [LinearOrder β] {cs : Fin m → Cur β} {a : Fin m} {cur : Option β}
    {c : Cur β} (h : JoinScan.Sim curOps ⟨cs, a, cur⟩ c) {v : β} (hv : c.current = some v) (i : Fin m) :
    (cs i).current = some v := by
  obtain ⟨cs', hinv, -, -, -, -, h1, -⟩ := h.ex
  cases c with
  | fresh l => simp [Cur.current] at hv
  | «at» l =>
    cases l with
    | nil => simp [Cur.current] at hv
    | cons x l =>
      simp only [Cur.current, List.head?_cons, Option.some.injEq] at hv
      subst hv
      obtain ⟨t, ht⟩ := h1 x l rfl i
      have := (hinv.beh i).current
      rw [ht] at this
      simpa [curOps, Cur.current] using this

theorem childPath_full {loc : Nat → (τ : Ty) → JLoc (TVal α τ)} {gs : List (Ghost n α)} (hl : LocOK b loc gs)
    (hf : TPath.full (gs.map Ghost.entry)) (j : Fin n) :
    TPath.full (childPath (has b) gs j) ∧
      TPath.pref (childPath (has b) gs j) = restrict (has b j) 0 (TPath.pref (gs.map Ghost.entry)) := by
  induction gs with
  | nil => simp [childPath, TPath.full, TPath.pref, restrict]
  | cons g gs ih =>
    obtain ⟨⟨bk, hbk, ha, hs⟩, hl'⟩ := hl
    rw [List.map_cons, Ghost.entry, GScan.full_cons] at hf
    obtain ⟨i1, i2⟩ := ih hl' hf.2
    have h1 := hf.1
    rw [Cur.map_current, Option.isSome_map] at h1
    obtain ⟨v, hv⟩ := Option.isSome_iff_exists.mp h1
    rw [List.map_cons, Ghost.entry, GScan.pref_cons (v := v.val) (by simp [hv]), restrict_snoc,
      RowCfg.length_pref hf.2, List.length_map, ← i2]
    simp only [childPath]
    by_cases hj : has b j gs.length = true
    · rw [if_pos hj, if_pos hj]
      obtain ⟨q, hq, rfl⟩ := List.mem_map.mp ((has_iff hbk).mp hj)
      obtain ⟨i, rfl⟩ := List.get_of_mem hq
      have hc := current_of_sim hs hv i
      exact ⟨GScan.full_cons.mpr ⟨by rw [Cur.map_current, hc]; rfl, i1⟩,
        GScan.pref_cons (by rw [Cur.map_current, hc]; rfl)⟩
    · rw [if_neg hj, if_neg hj]
      exact ⟨i1, by simp⟩

section
variable {cops : TrieOps S α} {arity : Fin n → Nat} {C : Fin n → List α → Ty → List α}
  {R : Fin n → S → TPath α → Prop}

/-- the inputs of a column scan correspond to the cursors -/
theorem columnQ (hb : BindOK b) {t : TJoin n S α} {g : Ghost n α} {gs : List (Ghost n α)}
    (hI : Inv b R t (g :: gs)) {bk : JBind n} (hbk : b[gs.length]? = some bk) (i : Fin bk.length) :
    childQ (R (bk.get i).1) g.τ (childPath (has b) gs (bk.get i).1) ((bk.get i).2, t.kids (bk.get i).1)
      (g.cs (bk.get i).1) := by
  refine ⟨?_, ?_⟩
  · rw [length_childPath]
    exact hb.col _ _ hbk _ (List.get_mem _ _)
  · have := hI.kids (bk.get i).1
    simp only [childPath] at this
    rw [if_pos ((has_iff hbk).mpr (List.mem_map_of_mem (List.get_mem _ _)))] at this
    exact this

/-- the state after a call to the column scan of the current layer -/
theorem inv_update (hb : BindOK b) {t : TJoin n S α} {g : Ghost n α} {gs : List (Ghost n α)}
    (hI : Inv b R t (g :: gs)) {bk : JBind n} (hbk : b[gs.length]? = some bk) (c' : Cur (TVal α g.τ))
    {o : Option (TVal α g.τ)} {st : JoinScan bk.length (Cur (TVal α g.τ)) (TVal α g.τ)}
    (hs : JoinScan.Sim curOps st c') {scans : Fin bk.length → Nat × S}
    (hQ : ∀ i, childQ (R (bk.get i).1) g.τ (childPath (has b) gs (bk.get i).1) (scans i) (st.scans i)) :
    Inv b R (t.update bk gs.length g.τ (o, ⟨scans, st.active, st.cur⟩)).2
      (⟨g.τ, c', writeBack bk st.scans g.cs⟩ :: gs) := by
  have hnd := hb.nodup bk (List.mem_of_getElem? hbk)
  refine ⟨hI.bind, hI.depth, hI.le, fun j => ?_, ?_⟩
  · have hk := hI.kids j
    simp only [childPath, update] at hk ⊢
    by_cases hj : has b j gs.length = true
    · rw [if_pos hj]
      obtain ⟨q, hq, rfl⟩ := List.mem_map.mp ((has_iff hbk).mp hj)
      obtain ⟨i, rfl⟩ := List.get_of_mem hq
      rw [writeBack_get hnd, writeBack_get hnd]
      exact (hQ i).2
    · rw [if_neg hj] at hk ⊢
      rw [writeBack_not_mem _ _ (fun h => hj ((has_iff hbk).mpr h))]
      exact hk
  · refine ⟨⟨bk, hbk, ?_⟩, hI.loc.2.congr fun k hk => ?_⟩
    · simp only [update, Function.update_self]
      refine ⟨st.active.isLt, ?_⟩
      have : (fun i => writeBack bk st.scans g.cs (bk.get i).1) = st.scans :=
        funext fun i => writeBack_get hnd _ _ i
      rw [this]
      exact hs
    · simp only [update]
      rw [Function.update_of_ne (by omega)]

theorem rel_next (hb : BindOK b) (hS : ∀ j, Simulates cops (arity j) (C j) (R j))
    (hK : ∀ j, SeekSim cops (R j)) (t : TJoin n S α) (τ : Ty) (c : Cur α) (p : TPath α)
    (h : Rel b R t ((τ, c) :: p)) :
    ∃ t', (ops cops).next t τ = some (c.next.current, t') ∧ Rel b R t' ((τ, c.next) :: p) := by
  obtain ⟨gs, hp, hI⟩ := h
  cases gs with
  | nil => simp at hp
  | cons g gs =>
    simp only [List.map_cons, List.cons.injEq, Ghost.entry, Prod.mk.injEq] at hp
    obtain ⟨⟨rfl, rfl⟩, rfl⟩ := hp
    obtain ⟨⟨bk, hbk, ha, hs⟩, hl⟩ := hI.loc
    obtain ⟨st, h1, h2⟩ := JoinScan.sim_next curOps _ _ hs
    obtain ⟨scans, h3, h4⟩ := JoinScan.param_next (cops := childOps cops g.τ)
      (Q := fun i => childQ (R (bk.get i).1) g.τ (childPath (has b) gs (bk.get i).1))
      (fun i => child_simOn (hS _) _ _) (fun i => child_seekOn (hS _) (hK _) _ _) h1 (columnQ hb hI hbk)
    refine ⟨_, ?_, _, ?_, inv_update hb hI hbk g.c.next (o := g.c.next.current) h2 h4⟩
    · simp only [ops, next, hI.depth, hI.bind, usub, List.length_cons]
      simp only [Nat.le_add_left, if_true, Nat.add_sub_cancel, Option.bind_eq_bind, Option.bind_some, hbk, dif_pos ha]
      rw [show t.column bk gs.length g.τ ha = ⟨fun i => ((bk.get i).2, t.kids (bk.get i).1), ⟨_, ha⟩, _⟩ from rfl,
        h3]
      simp [update]
    · simp [Ghost.entry]

theorem rel_seek (hb : BindOK b) (hS : ∀ j, Simulates cops (arity j) (C j) (R j))
    (hK : ∀ j, SeekSim cops (R j)) : SeekSim (ops cops) (Rel b R) := by
  intro t c p v h
  obtain ⟨gs, hp, hI⟩ := h
  cases gs with
  | nil => simp at hp
  | cons g gs =>
    obtain ⟨τ, gc, gcs⟩ := g
    simp only [List.map_cons, List.cons.injEq, Ghost.entry, Prod.mk.injEq] at hp
    obtain ⟨⟨e, rfl⟩, rfl⟩ := hp
    subst e
    obtain ⟨⟨bk, hbk, ha, hs⟩, hl⟩ := hI.loc
    obtain ⟨st, h1, h2⟩ := JoinScan.sim_seek curOps _ _ ⟨v, rfl⟩ hs
    obtain ⟨scans, h3, h4⟩ := JoinScan.param_seek (cops := childOps cops (ty v))
      (Q := fun i => childQ (R (bk.get i).1) (ty v) (childPath (has b) gs (bk.get i).1))
      (fun i => child_seekOn (hS _) (hK _) _ _) h1 (columnQ hb hI hbk)
    refine ⟨_, ?_, _, ?_, inv_update hb hI hbk (gc.seek ⟨v, rfl⟩) (o := (gc.seek ⟨v, rfl⟩).current) h2 h4⟩
    · simp only [ops, seek, hI.depth, hI.bind, usub, List.length_cons]
      simp only [Nat.le_add_left, if_true, Nat.add_sub_cancel, Option.bind_eq_bind, Option.bind_some, hbk, dif_pos ha]
      rw [show t.column bk gs.length (ty v) ha = ⟨fun i => ((bk.get i).2, t.kids (bk.get i).1), ⟨_, ha⟩, _⟩ from rfl,
        h3]
      have := Cur.map_seek gc ⟨v, rfl⟩
      simp only at this
      simp [update, this]
    · have := Cur.map_seek gc ⟨v, rfl⟩
      simp only at this
      simp [Ghost.entry, this]

theorem rel_current (t : TJoin n S α) (p q : TPath α) (τ : Ty) (c : Cur α)
    (h : Rel b R t (p ++ (τ, c) :: q)) : (ops cops).current t q.length τ = c.current := by
  obtain ⟨gs, hp, hI⟩ := h
  obtain ⟨g1, g2, rfl, -, h2⟩ := List.append_eq_map_iff.mp hp
  cases g2 with
  | nil => simp at h2
  | cons g gs =>
    simp only [List.map_cons, List.cons.injEq, Ghost.entry, Prod.mk.injEq] at h2
    obtain ⟨⟨rfl, rfl⟩, rfl⟩ := h2
    have hl : LocOK b t.loc (g :: gs) := by
      have := hI.loc
      clear hp hI
      induction g1 with
      | nil => exact this
      | cons x g1 ih => exact ih this.2
    obtain ⟨⟨bk, hbk, ha, hs⟩, -⟩ := hl
    obtain ⟨cs, -, -, -, hcur, -⟩ := hs.ex
    simp only [ops, List.length_map, Cur.map_current]
    rw [← hcur]

theorem rel_up (hb : BindOK b) (hS : ∀ j, Simulates cops (arity j) (C j) (R j)) (t : TJoin n S α)
    (e : Ty × Cur α) (p : TPath α) (h : Rel b R t (e :: p)) :
    ∃ t', (ops cops).up t = some t' ∧ Rel b R t' p := by
  obtain ⟨gs, hp, hI⟩ := h
  cases gs with
  | nil => simp at hp
  | cons g gs =>
    simp only [List.map_cons, List.cons.injEq] at hp
    obtain ⟨-, rfl⟩ := hp
    obtain ⟨⟨bk, hbk, ha, hs⟩, hl⟩ := hI.loc
    obtain ⟨kids, h1, h2⟩ := moveUp_spec hS (hb.nodup bk (List.mem_of_getElem? hbk)) hI.kids (by
      intro j hj
      simp only [childPath]
      rw [if_pos ((has_iff hbk).mpr hj)]
      simp)
    have hle := hI.le
    refine ⟨{ t with kids := kids, depth := gs.length }, ?_, gs, rfl, hI.bind, rfl, by simp at hle; omega,
      fun j => ?_, hl⟩
    · simp only [ops, up, hI.depth, hI.bind, usub, List.length_cons]
      simp only [Nat.le_add_left, if_true, Nat.add_sub_cancel, Option.bind_eq_bind, Option.bind_some, hbk, h1]
      rfl
    · have := h2 j
      simp only [childPath] at this
      by_cases hj : has b j gs.length = true
      · rw [if_pos ((has_iff hbk).mp hj), if_pos hj] at this
        exact this
      · rw [if_neg (fun h => hj ((has_iff hbk).mpr h)), if_neg hj] at this
        exact this

theorem rel_down (hb : BindOK b) (har : ∀ j, numBefore (has b j) b.length ≤ arity j)
    (hA : ∀ j p τ, Asc (C j p τ)) (hT : ∀ j p τ a, a ∈ C j p τ → ty a = τ)
    (hS : ∀ j, Simulates cops (arity j) (C j) (R j)) (t : TJoin n S α)
    (p : TPath α) (τ : Ty) (h : Rel b R t p) (hf : p.full) (hlt : p.length < b.length) :
    ∃ t', (ops cops).down t τ = some t' ∧ Rel b R t' ((τ, .fresh (ch b C p.pref τ)) :: p) := by
  obtain ⟨gs, rfl, hI⟩ := h
  rw [List.length_map] at hlt
  obtain ⟨bk, hbk⟩ : ∃ bk, b[gs.length]? = some bk := ⟨_, List.getElem?_eq_getElem hlt⟩
  have hnd := hb.nodup bk (List.mem_of_getElem? hbk)
  obtain ⟨kids, h1, h2⟩ := moveDown_spec hS τ hnd hI.kids (by
    intro j hj
    refine ⟨(childPath_full hI.loc hf j).1, ?_⟩
    rw [length_childPath]
    have h3 := numBefore_mono (has b j) (show gs.length + 1 ≤ b.length from hlt)
    rw [numBefore_succ, if_pos ((has_iff hbk).mpr hj)] at h3
    have := har j
    omega)
  have hpl : (TPath.pref (gs.map Ghost.entry)).length = gs.length := by rw [RowCfg.length_pref hf, List.length_map]
  refine ⟨{ t.reset gs.length τ with kids := kids, depth := gs.length + 1 }, ?_,
    ⟨τ, .fresh (typedList τ (ch b C (TPath.pref (gs.map Ghost.entry)) τ)),
      fun j => .fresh (typedList τ (C j (TPath.pref (childPath (has b) gs j)) τ))⟩ :: gs, ?_,
    hI.bind, rfl, hlt, fun j => ?_, ?_, ?_⟩
  · simp only [ops, down, hI.depth, hI.bind, hbk, Option.bind_eq_bind, Option.bind_some, h1]
    rfl
  · simp only [List.map_cons, Ghost.entry, Cur.map]
    rw [typedList_val fun a ha => ch_typed hT _ _ a ha]
  · have := h2 j
    simp only [childPath]
    by_cases hj : has b j gs.length = true
    · rw [if_pos ((has_iff hbk).mp hj)] at this
      rw [if_pos hj]
      simp only [Cur.map]
      rw [typedList_val fun a ha => hT _ _ _ a ha]
      exact this
    · rw [if_neg (fun h => hj ((has_iff hbk).mpr h))] at this
      rw [if_neg hj]
      exact this
  · refine ⟨bk, hbk, ?_⟩
    simp only [reset, Function.update_self]
    have hpos : 0 < bk.length := List.length_pos_iff.mpr (hb.ne bk (List.mem_of_getElem? hbk))
    refine ⟨hpos, ?_⟩
    refine ⟨fun i => .fresh (typedList τ (C (bk.get i).1 (TPath.pref (childPath (has b) gs (bk.get i).1)) τ)),
      ⟨fun i => behaves_cur _, fun i => typedList_asc (fun a ha => hT _ _ _ a ha) (hA _ _ _)⟩,
      typedList_asc (fun a ha => ch_typed hT _ _ a ha) (ch_asc hA _ _), ?_, rfl, fun _ _ i => ⟨_, rfl⟩,
      by simp, by simp⟩
    intro x
    simp only [Cur.rem, mem_typedList]
    rw [mem_ch hb (bk := bk) (by rw [hpl]; exact hbk)]
    constructor
    · intro h i
      have := h _ (List.get_mem bk i)
      rw [(childPath_full hI.loc hf _).2]
      exact this
    · intro h q hq
      obtain ⟨i, rfl⟩ := List.get_of_mem hq
      have := h i
      rw [(childPath_full hI.loc hf _).2] at this
      exact this
  · refine hI.loc.congr fun k hk => ?_
    simp only [reset]
    rw [Function.update_of_ne (by omega)]

/-- The join behaves like the tree of the join. -/
theorem simulates (hb : BindOK b) (har : ∀ j, numBefore (has b j) b.length ≤ arity j)
    (hA : ∀ j p τ, Asc (C j p τ)) (hT : ∀ j p τ a, a ∈ C j p τ → ty a = τ)
    (hS : ∀ j, Simulates cops (arity j) (C j) (R j)) (hK : ∀ j, SeekSim cops (R j)) :
    Simulates (ops cops) b.length (ch b C) (Rel b R) where
  depth t p h := by
    obtain ⟨gs, rfl, hI⟩ := h
    exact ⟨by rw [List.length_map]; exact hI.depth, by rw [List.length_map]; exact hI.le⟩
  next := rel_next hb hS hK
  current _ _ _ _ _ h _ := rel_current _ _ _ _ _ h
  up := rel_up hb hS
  down := rel_down hb har hA hT hS

theorem rel_new {kids : Fin n → S} {tys : Nat → List Ty} (h : ∀ j, R j (kids j) []) : Rel b R (new b tys kids) [] :=
  ⟨[], rfl, rfl, rfl, Nat.zero_le _, h, trivial⟩

/-- only possible types occur in the join -/
theorem treeOK (hb : BindOK b) {tys : Fin n → Nat → List Ty} (har : ∀ j, numBefore (has b j) b.length ≤ arity j)
    (hT : ∀ j, TreeOK (tys j) (C j) (arity j)) : TreeOK (types b tys) (ch b C) b.length where
  asc := ch_asc fun j => (hT j).asc
  typed := ch_typed fun j => (hT j).typed
  tyAsc k := allTys_asc.filter _
  cover p τ a hp hlt ha := by
    obtain ⟨bk, hbk⟩ : ∃ bk, b[p.length]? = some bk := ⟨_, List.getElem?_eq_getElem hlt⟩
    rw [isPath_ch hb p (by omega)] at hp
    rw [mem_ch hb hbk] at ha
    unfold types
    refine List.mem_filter.mpr ⟨mem_allTys τ, ?_⟩
    rw [hbk]
    simp only [Option.getD_some, List.all_eq_true, decide_eq_true_eq]
    intro q hq
    rw [hb.col _ _ hbk q hq, ← length_restrict]
    refine (hT q.1).cover _ _ _ (hp q.1) ?_ (ha q hq)
    rw [length_restrict]
    have h3 := numBefore_mono (has b q.1) (show p.length + 1 ≤ b.length from hlt)
    rw [numBefore_succ, if_pos ((has_iff hbk).mpr (List.mem_map_of_mem hq))] at h3
    have := har q.1
    omega

end

/-! ## The generator -/

section
variable {M : Type} [DecidableEq M]

/-- The input columns with a given marker, `output_map` (join.rs:55-67). -/
def bindOf (inputs : List (List M)) (m : M) : JBind inputs.length :=
  (List.finRange inputs.length).flatMap fun i =>
    ((inputs.get i).zipIdx.filter fun x => x.1 == m).map fun x => (i, x.2)

/-- `expect` (join.rs:73-78): the markers of inputs with several columns appear in the output -/
def known (output : List M) (inputs : List (List M)) : Bool :=
  inputs.all fun l => decide (l.length ≤ 1) || l.all fun m => decide (m ∈ output)

/-- one entry of `bindings` (join.rs:86-91) -/
def bindEntry (inputs : List (List M)) (m : M) : Option (JBind inputs.length) :=
  if bindOf inputs m = [] then none else some (bindOf inputs m)

/-- `GeneratorJoin::new` (join.rs:52-95); `none` is a panic.  Output markers are assumed to be
distinct (`OperationTable`s made from variables); for repeated ones the second `remove` panics. -/
def newBindings (output : List M) (inputs : List (List M)) : Option (List (JBind inputs.length)) :=
  if known output inputs then output.mapM (bindEntry inputs) else none

/-- `TrieScanJoin` with `arity` (join.rs:256-258) and `possible_types` (join.rs:264-266) -/
def scan (I : PScan S α) : PScan (TJoin n S α) α where
  toTrieOps := ops I.toTrieOps
  arity t := t.bindings.length
  types t := t.ptypes

/-- `generate` when all inputs are present (join.rs:107-190) -/
def generateAll (I : PScan S α) (bindings : List (JBind n)) (kids : Fin n → S) : Option (S ⊕ TJoin n S α) :=
  if n = 0 then none
  else if h : n = 1 then some (.inl (kids ⟨0, by omega⟩))
  else some (.inr (new bindings (types bindings fun j => I.types (kids j)) kids))

/-- `GeneratorJoin::generate` (join.rs:99-191) -/
def generate (I : PScan S α) (bindings : List (JBind n)) (kids : Fin n → Option S) :
    Option (S ⊕ TJoin n S α) :=
  if h : ∀ j, (kids j).isSome then generateAll I bindings fun j => (kids j).get (h j) else none

theorem mem_bindOf {inputs : List (List M)} {m : M} {q : Fin inputs.length × Nat} :
    q ∈ bindOf inputs m ↔ (inputs.get q.1)[q.2]? = some m := by
  obtain ⟨i, c⟩ := q
  unfold bindOf
  simp only [List.mem_flatMap, List.mem_finRange, true_and, List.mem_map, List.mem_filter, beq_iff_eq,
    Prod.mk.injEq]
  constructor
  · rintro ⟨i', ⟨m', c'⟩, ⟨h1, h2⟩, rfl, rfl⟩
    rw [List.mem_zipIdx_iff_getElem?] at h1
    simp only at h2 h1
    rw [← h2]; exact h1
  · intro h
    exact ⟨i, (m, c), ⟨List.mem_zipIdx_iff_getElem?.mpr h, rfl⟩, rfl, rfl⟩

theorem bindOf_nodup {inputs : List (List M)} (hn : ∀ l ∈ inputs, l.Nodup) (m : M) :
    ((bindOf inputs m).map Prod.fst).Nodup := by
  unfold bindOf
  rw [List.map_flatMap]
  rw [List.nodup_flatMap]
  constructor
  · intro i _
    rw [List.map_map]
    have hl := hn _ (List.get_mem inputs i)
    have hfil : (((inputs.get i).zipIdx.filter fun x => x.1 == m)).length ≤ 1 := by
      have h1 : ((inputs.get i).zipIdx.filter fun x => x.1 == m).length = (inputs.get i).count m := by
        rw [← List.countP_eq_length_filter, List.count]
        conv => rhs; rw [← List.zipIdx_map_fst 0 (inputs.get i)]
        rw [List.countP_map]
        rfl
      rw [h1]
      exact List.nodup_iff_count_le_one.mp hl m
    match hf : (inputs.get i).zipIdx.filter fun x => x.1 == m with
    | [] => rw [hf]; exact List.nodup_nil
    | [x] => rw [hf]; exact List.nodup_singleton _
    | x :: y :: r => rw [hf] at hfil; simp at hfil
  · refine (List.nodup_finRange _).imp ?_
    intro i j hij
    simp only [Function.onFun, List.disjoint_left, List.mem_map, List.map_map]
    rintro k ⟨x, _, rfl⟩ ⟨y, _, e⟩
    exact hij e.symm

theorem filter_sublist {l out : List M} (hn : out.Nodup) (h : l.Sublist out) :
    out.filter (fun m => decide (m ∈ l)) = l := by
  induction h with
  | slnil => rfl
  | @cons l out a h ih =>
    obtain ⟨h1, h2⟩ := List.nodup_cons.mp hn
    rw [List.filter_cons_of_neg (by simpa using fun e => h1 (h.subset e))]
    exact ih h2
  | @cons_cons l out a h ih =>
    obtain ⟨h1, h2⟩ := List.nodup_cons.mp hn
    rw [List.filter_cons_of_pos (by simp)]
    congr 1
    rw [← ih h2]
    apply List.filter_congr
    intro x hx
    have : x ≠ a := fun e => h1 (e ▸ hx)
    simp [this, ih h2]

theorem restrict_eq_filter {β : Type} {out l : List M} {hs : Nat → Bool} (f : M → β) (o : Nat)
    (h : ∀ k m, out[k]? = some m → hs (o + k) = decide (m ∈ l)) :
    restrict hs o (out.map f) = (out.filter fun m => decide (m ∈ l)).map f := by
  induction out generalizing o with
  | nil => rfl
  | cons a out ih =>
    have h0 : hs o = decide (a ∈ l) := by simpa using h 0 a (by simp)
    have ih' := ih (o + 1) (fun k m hk => by
      have := h (k + 1) m (by simpa using hk)
      rw [← this]; congr 1; omega)
    simp only [List.map_cons, restrict, h0, ih']
    by_cases hal : a ∈ l
    · simp [hal]
    · simp [hal]

/-- Hypotheses about the markers: those of the output are distinct, each belongs to an input, and the
columns of the inputs occur in the order of the output (the `debug_assert` at join.rs:80). -/
structure MarkersOK (output : List M) (inputs : List (List M)) : Prop where
  nodup : output.Nodup
  sub : ∀ l ∈ inputs, l.Sublist output
  used : ∀ m ∈ output, ∃ l ∈ inputs, m ∈ l

variable {output : List M} {inputs : List (List M)}

theorem bindOf_ne (hM : MarkersOK output inputs) {m : M} (hm : m ∈ output) : bindOf inputs m ≠ [] := by
  obtain ⟨l, hl, hml⟩ := hM.used m hm
  obtain ⟨i, rfl⟩ := List.get_of_mem hl
  obtain ⟨c, hc⟩ := List.getElem?_of_mem hml
  exact List.ne_nil_of_mem (mem_bindOf (q := (i, c)).mpr hc)

theorem newBindings_eq (hM : MarkersOK output inputs) :
    newBindings output inputs = some (output.map (bindOf inputs)) := by
  have hk : known output inputs = true := by
    unfold known
    simp only [List.all_eq_true, Bool.or_eq_true, decide_eq_true_eq]
    exact fun l hl => .inr fun m hm => (hM.sub l hl).subset hm
  unfold newBindings
  rw [if_pos hk, Permut.mapM_option_eq]
  · exact fun m hm => by unfold bindEntry; rw [if_neg (bindOf_ne hM hm)]

theorem has_bindings (k : Nat) (m : M) (h : output[k]? = some m) (i : Fin inputs.length) :
    has (output.map (bindOf inputs)) i k = decide (m ∈ inputs.get i) := by
  unfold has
  rw [List.getElem?_map, h]
  simp only [Option.map_some, Option.getD_some]
  rw [Bool.eq_iff_iff]
  simp only [List.any_eq_true, beq_iff_eq, decide_eq_true_eq]
  constructor
  · rintro ⟨q, hq, rfl⟩; exact List.mem_of_getElem? (mem_bindOf.mp hq)
  · intro hm
    obtain ⟨c, hc⟩ := List.getElem?_of_mem hm
    exact ⟨(i, c), mem_bindOf.mpr hc, rfl⟩

/-- the restriction of a row of the output to the columns of an input -/
theorem restrict_bindings {β : Type} (hM : MarkersOK output inputs) (f : M → β) (i : Fin inputs.length) :
    restrict (has (output.map (bindOf inputs)) i) 0 (output.map f) = (inputs.get i).map f := by
  rw [restrict_eq_filter (l := inputs.get i) f 0 (fun k m h => by rw [Nat.zero_add]; exact has_bindings k m h i),
    filter_sublist hM.nodup (hM.sub _ (List.get_mem _ _))]

theorem numBefore_bindings (hM : MarkersOK output inputs) (i : Fin inputs.length) :
    numBefore (has (output.map (bindOf inputs)) i) output.length = (inputs.get i).length := by
  have := length_restrict (has (output.map (bindOf inputs)) i) (output.map id)
  rw [restrict_bindings hM, List.length_map, List.length_map] at this
  exact this.symm

theorem bindOK (hM : MarkersOK output inputs) : BindOK (output.map (bindOf inputs)) where
  ne bk hbk := by
    obtain ⟨m, hm, rfl⟩ := List.mem_map.mp hbk
    exact bindOf_ne hM hm
  nodup bk hbk := by
    obtain ⟨m, hm, rfl⟩ := List.mem_map.mp hbk
    exact bindOf_nodup (fun l hl => hM.nodup.sublist (hM.sub l hl)) m
  col k bk hbk q hq := by
    rw [List.getElem?_map] at hbk
    obtain ⟨m, hm, rfl⟩ := Option.map_eq_some_iff.mp hbk
    have hc := mem_bindOf.mp hq
    have hkl : k < output.length := (List.getElem?_eq_some_iff.mp hm).1
    have hsub := hM.sub _ (List.get_mem inputs q.1)
    have hf := filter_sublist hM.nodup hsub
    have hln := hM.nodup.sublist hsub
    have e1 : numBefore (has (output.map (bindOf inputs)) q.1) k =
        ((output.take k).filter fun m => decide (m ∈ inputs.get q.1)).length := by
      have h1 := length_restrict (has (output.map (bindOf inputs)) q.1) ((output.take k).map id)
      rw [restrict_eq_filter (l := inputs.get q.1) id 0 (fun k' m' h => by
        rw [Nat.zero_add]
        refine has_bindings k' m' ?_ q.1
        rw [List.getElem?_take] at h
        split at h
        · exact h
        · simp at h)] at h1
      rw [List.length_map, List.length_map, List.length_take, Nat.min_eq_left hkl.le] at h1
      exact h1.symm
    have hsplit : output = output.take k ++ m :: output.drop (k + 1) := by
      conv => lhs; rw [← List.take_append_drop k output]
      congr 1
      rw [List.drop_eq_getElem_cons hkl]
      congr 1
      exact (List.getElem?_eq_some_iff.mp hm).2
    have hml : m ∈ inputs.get q.1 := List.mem_of_getElem? hc
    have hget : (inputs.get q.1)[numBefore (has (output.map (bindOf inputs)) q.1) k]? = some m := by
      rw [e1]
      have h3 : inputs.get q.1 = (output.take k).filter (fun m => decide (m ∈ inputs.get q.1)) ++
          m :: (output.drop (k + 1)).filter (fun m => decide (m ∈ inputs.get q.1)) := by
        conv => lhs; rw [← hf]
        conv => lhs; rw [hsplit]
        rw [List.filter_append, List.filter_cons_of_pos (by simpa using hml)]
      generalize inputs.get q.1 = l at h3 ⊢
      have h4 : ∀ A B : List M, l = A ++ m :: B → l[A.length]? = some m := by
        rintro A B rfl; simp
      exact h4 _ _ h3
    have h2 := List.getElem?_eq_some_iff.mp hc
    have h3 := List.getElem?_eq_some_iff.mp hget
    obtain ⟨l2, e2⟩ := h2
    obtain ⟨l3, e3⟩ := h3
    exact (List.Nodup.getElem_inj_iff hln).mp (e2.trans e3.symm)

end

section
variable {M : Type} [DecidableEq M]

/-- **C09, join.** Let the columns of the output and of the inputs be named by markers, such that
the columns of each input occur in the order of the output.  Then the generator does not panic, and
joining present inputs gives the natural join: `r` is a row iff the values it gives to the
columns of each input form a row of that input.  If an input is `None` (empty), so is the result. -/
theorem generate_denotes [Nonempty α] {I : PScan S α} {output : List M} {inputs : List (List M)}
    (hM : MarkersOK output inputs) (hne : inputs ≠ []) {m m' : Mode} (hm : if inputs.length = 1 then m'.le m else m.sk = true) {kids : Fin inputs.length → Option S}
    {rows : Fin inputs.length → List α → Prop}
    (hk : ∀ i, Denotes I m (kids i) (inputs.get i).length (rows i)) :
    ∃ b, newBindings output inputs = some b ∧
      Denotes (PScan.sum I (scan I)) m' (generate I b kids) output.length
        (fun r => ∃ f : M → α, r = output.map f ∧ ∀ i, rows i ((inputs.get i).map f)) := by
  refine ⟨_, newBindings_eq hM, ?_⟩
  have hval : ∀ r : List α, r.length = output.length → ∃ f : M → α, r = output.map f := by
    intro r hr
    obtain ⟨a⟩ := ‹Nonempty α›
    refine ⟨fun m => r.getD (output.idxOf m) a, ?_⟩
    apply List.ext_getElem (by simp [hr])
    intro k h1 h2
    rw [List.getElem_map, hM.nodup.idxOf_getElem k (by rw [← hr]; exact h1)]
    simp [h1]
  unfold generate
  by_cases h : ∀ j, (kids j).isSome
  · rw [dif_pos h]
    have hk' : ∀ i, IsTable I m ((kids i).get (h i)) (inputs.get i).length (rows i) := by
      intro i
      have := hk i
      have e : kids i = some ((kids i).get (h i)) := (Option.some_get _).symm
      rw [e] at this
      exact this
    obtain ⟨ks, hks⟩ : ∃ ks : Fin inputs.length → S, ks = fun j => (kids j).get (h j) := ⟨_, rfl⟩
    have hk' : ∀ i, IsTable I m (ks i) (inputs.get i).length (rows i) := by rw [hks]; exact hk'
    rw [← hks]
    clear hks
    have hn0 : inputs.length ≠ 0 := by simpa using hne
    unfold generateAll
    rw [if_neg hn0]
    by_cases h1 : inputs.length = 1
    · rw [dif_pos h1]
      rw [if_pos h1] at hm
      refine PScan.sum_inl ?_
      refine IsTable.weaken ?_ hm
      have hout : output = inputs.get ⟨0, by omega⟩ := by
        have hs := hM.sub _ (List.get_mem inputs ⟨0, by omega⟩)
        rw [← filter_sublist hM.nodup hs]
        symm
        rw [List.filter_eq_self]
        intro m hm
        obtain ⟨l, hl, hml⟩ := hM.used m hm
        obtain ⟨i, rfl⟩ := List.get_of_mem hl
        have : i = ⟨0, by omega⟩ := Fin.ext (by have := i.isLt; simp; omega)
        rw [this] at hml
        simpa using hml
      have h0 := hk' ⟨0, by omega⟩
      rw [← hout] at h0
      refine h0.congr fun r => ?_
      constructor
      · intro hr
        obtain ⟨f, hf⟩ := hval r (h0.length hr)
        refine ⟨f, hf, fun i => ?_⟩
        have : i = ⟨0, by omega⟩ := Fin.ext (by have := i.isLt; simp; omega)
        rw [this, ← hout, ← hf]
        exact hr
      · rintro ⟨f, rfl, hf⟩
        have := hf ⟨0, by omega⟩
        rw [← hout] at this
        exact this
    · rw [dif_neg h1]
      refine PScan.sum_inr ?_
      rw [if_neg h1] at hm
      choose ha C R hS hK hC hT hR hrows using hk'
      have har : ∀ j, numBefore (has (output.map (bindOf inputs)) j) (output.map (bindOf inputs)).length ≤
          (inputs.get j).length := fun j => by rw [List.length_map, numBefore_bindings hM]
      have hb := bindOK hM
      refine ⟨by simp [scan, new], ch (output.map (bindOf inputs)) C, Rel (output.map (bindOf inputs)) R,
        ?_, fun _ => rel_seek hb hS fun j => hK j hm, fun _ => fun _ _ _ _ _ h => rel_current _ _ _ _ _ h, ?_, rel_new hR, fun r => ?_⟩
      · have := simulates hb har (fun j => (hT j).asc) (fun j => (hT j).typed) hS fun j => hK j hm
        rw [List.length_map] at this
        exact this
      · have := treeOK hb har hT
        rw [List.length_map] at this
        exact this
      · constructor
        · rintro ⟨hr, hp⟩
          obtain ⟨f, rfl⟩ := hval r hr
          rw [isPath_ch hb _ (by simp)] at hp
          refine ⟨f, rfl, fun i => (hrows i _).mp ⟨by simp, ?_⟩⟩
          rw [← restrict_bindings hM f i]
          exact hp i
        · rintro ⟨f, rfl, hf⟩
          refine ⟨by simp, (isPath_ch hb _ (by simp)).mpr fun i => ?_⟩
          rw [restrict_bindings hM f i]
          exact ((hrows i _).mpr (hf i)).2
  · rw [dif_neg h]
    rintro r ⟨f, -, hf⟩
    simp only [not_forall, Bool.not_eq_true, Option.isSome_eq_false_iff, Option.isNone_iff_eq_none] at h
    obtain ⟨i, hi⟩ := h
    have := hk i
    rw [hi] at this
    exact this _ (hf i)

/-- `GeneratorJoin::generate` for scans of any kind -/
def generateAny {n : Nat} (bindings : List (JBind n)) (kids : Fin n → Option (AnyScan α)) : Option (AnyScan α) :=
  (generate (AnyScan.family fun i => (kids i).getD .dummy) bindings
    fun i => (kids i).map fun _ => AnyScan.start (fun i => (kids i).getD .dummy) i).map
    fun s => ⟨_, PScan.sum (AnyScan.family fun i => (kids i).getD .dummy) (scan (AnyScan.family fun i => (kids i).getD .dummy)), s⟩

/-- **C09, join** for scans of any kind (see `generate_denotes`). -/
theorem generate_table [Nonempty α] {output : List M} {inputs : List (List M)}
    (hM : MarkersOK output inputs) (hne : inputs ≠ []) {m m' : Mode} (hm : if inputs.length = 1 then m'.le m else m.sk = true) {kids : Fin inputs.length → Option (AnyScan α)}
    {rows : Fin inputs.length → List α → Prop}
    (hk : ∀ i, Tab m (kids i) (inputs.get i).length (rows i)) :
    ∃ b, newBindings output inputs = some b ∧
      Tab m' (generateAny b kids) output.length
        (fun r => ∃ f : M → α, r = output.map f ∧ ∀ i, rows i ((inputs.get i).map f)) := by
  obtain ⟨b, h1, h2⟩ := generate_denotes (I := AnyScan.family fun i => (kids i).getD .dummy) hM hne hm
    (kids := fun i => (kids i).map fun _ => AnyScan.start (fun i => (kids i).getD .dummy) i) (rows := rows) (by
      intro i
      have h := hk i
      cases hx : kids i with
      | none => rw [hx] at h; exact h
      | some a =>
        rw [hx] at h
        refine AnyScan.family_start ?_
        rw [hx]
        exact h)
  refine ⟨b, h1, ?_⟩
  unfold generateAny
  revert h2
  cases generate (AnyScan.family fun i => (kids i).getD .dummy) b
    fun i => (kids i).map fun _ => AnyScan.start (fun i => (kids i).getD .dummy) i with
  | none => exact fun h => h
  | some s => exact fun h => h

end
end TJoin
end Verif
