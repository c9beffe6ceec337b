import Verif.TrieTable
import Mathlib.Data.Finset.Sort

/-!
# Union of tries

Model of `/repo/nemo-physical/src/tabular/operations/union.rs`.
-/

set_option linter.unusedSimpArgs false
set_option linter.unusedSectionVars false
set_option linter.unusedVariables false

namespace Verif
variable {α : Type} [SVal α]

/-- `TrieScanUnion` (union.rs:115-129).  `depth` is `current_layer + 1`, `sh` are the shared lists
`active_scans` (layer `k` reads list `k` and its column scans write list `k + 1`), `loc k τ` is the
`smallest_value` of the column scan of type `τ` of layer `k`. -/
structure TUnion (n : Nat) (S α : Type) [SVal α] where
  kids : Fin n → S
  ar : Nat
  depth : Nat
  sh : Nat → List (Fin n)
  loc : Nat → (τ : Ty) → Option (TVal α τ)

namespace TUnion
variable {n : Nat} {S : Type}

/-- Construction of the scan (union.rs:56-110): all inputs take part on the first layer. -/
def new (ar : Nat) (kids : Fin n → S) : TUnion n S α :=
  ⟨kids, ar, 0, fun k => if k = 0 then List.finRange n else [], fun _ _ => none⟩

/-- The column scan of one layer and type (union.rs:68-87), with its inputs. -/
def column (t : TUnion n S α) (k : Nat) (τ : Ty) : UnionScan n (Nat × S) (TVal α τ) :=
  ⟨fun j => (k, t.kids j), t.sh k, t.sh (k + 1), t.loc k τ⟩

/-- The scan after a call to a column scan. -/
def update (t : TUnion n S α) (k : Nat) (τ : Ty)
    (r : Option (TVal α τ) × UnionScan n (Nat × S) (TVal α τ)) : Option α × TUnion n S α :=
  (r.1.map Subtype.val,
    { t with
      kids := fun j => (r.2.scans j).2
      sh := Function.update t.sh (k + 1) r.2.smallest
      loc := Function.update t.loc k (Function.update (t.loc k) τ r.2.cur) })

/-- `next` of the column scan of the current layer. -/
def next (cops : TrieOps S α) (t : TUnion n S α) (τ : Ty) : Option (Option α × TUnion n S α) := do
  let k ← usub t.depth 1
  ((UnionScan.ops (childOps cops τ)).next (t.column k τ)).map (t.update k τ)

/-- `seek` of the column scan of the current layer. -/
def seek (cops : TrieOps S α) (t : TUnion n S α) (v : α) : Option (Option α × TUnion n S α) := do
  let k ← usub t.depth 1
  ((UnionScan.ops (childOps cops (ty v))).seek (t.column k (ty v)) ⟨v, rfl⟩).map (t.update k (ty v))

/-- the inputs on the same layer (union.rs:135-139) -/
def onLayer (cops : TrieOps S α) (t : TUnion n S α) : List (Fin n) :=
  (List.finRange n).filter fun j => cops.depth (t.kids j) == t.depth

/-- `up` (union.rs:132-145) -/
def up (cops : TrieOps S α) (t : TUnion n S α) : Option (TUnion n S α) := do
  let kids ← moveUp cops (onLayer cops t) t.kids
  let k ← usub t.depth 1
  return { t with kids := kids, depth := k }

/-- `reset` of the column scan of type `τ` (columnar/operations/union.rs:130-132) -/
def reset (t : TUnion n S α) (k : Nat) (τ : Ty) : TUnion n S α :=
  { t with loc := Function.update t.loc k (Function.update (t.loc k) τ none) }

/-- `down` (union.rs:147-157) -/
def down (cops : TrieOps S α) (t : TUnion n S α) (τ : Ty) : Option (TUnion n S α) :=
  if t.depth < t.ar then
    (moveDown cops τ (t.sh t.depth) t.kids).map fun kids =>
      { t.reset t.depth τ with kids := kids, depth := t.depth + 1 }
  else none

/-- `TrieScanUnion` as a partial trie scan -/
def ops (cops : TrieOps S α) : TrieOps (TUnion n S α) α where
  depth t := t.depth
  up := up cops
  down := down cops
  next := next cops
  seek := seek cops
  current t k τ := (t.loc k τ).map Subtype.val

/-! ## Specification -/

/-- the inputs that contain the prefix `vs` -/
def act (C : Fin n → List α → Ty → List α) (vs : List α) : List (Fin n) :=
  (List.finRange n).filter fun j => decide (IsPath (C j) [] vs)

/-- children of the union: values that are children in some input with the prefix -/
def ch (C : Fin n → List α → Ty → List α) (vs : List α) (τ : Ty) : List α :=
  ((act C vs).flatMap fun j => C j vs τ).toFinset.sort

/-- `possible_types` (union.rs:167-173) -/
def types (types : Fin n → Nat → List Ty) (k : Nat) : List Ty :=
  allTys.filter fun τ => (List.finRange n).any fun j => decide (τ ∈ types j k)

variable {C : Fin n → List α → Ty → List α}

theorem mem_act {vs : List α} {j : Fin n} : j ∈ act C vs ↔ IsPath (C j) [] vs := by simp [act]

theorem act_nodup (vs : List α) : (act C vs).Nodup := (List.nodup_finRange n).filter _

theorem act_snoc (vs : List α) (a : α) :
    act C (vs ++ [a]) = (act C vs).filter fun j => decide (a ∈ C j vs (ty a)) := by
  unfold act
  rw [List.filter_filter]
  apply List.filter_congr
  intro j _
  rw [Bool.eq_iff_iff]
  simp only [decide_eq_true_eq, Bool.and_eq_true, isPath_append, List.nil_append, isPath_single]
  exact and_comm

theorem mem_ch {vs : List α} {τ : Ty} {x : α} : x ∈ ch C vs τ ↔ ∃ j ∈ act C vs, x ∈ C j vs τ := by
  unfold ch
  rw [Finset.mem_sort, List.mem_toFinset, List.mem_flatMap]

theorem ch_asc (vs : List α) (τ : Ty) : Asc (ch C vs τ) :=
  (Finset.sortedLT_sort _).pairwise

theorem ch_typed (hC : ∀ j p τ a, a ∈ C j p τ → ty a = τ) (vs : List α) (τ : Ty) (a : α)
    (h : a ∈ ch C vs τ) : ty a = τ := by
  obtain ⟨j, _, h⟩ := mem_ch.mp h
  exact hC _ _ _ _ h

/-- a row is in the union iff it is in an input -/
theorem isPath_ch [NeZero n] (r : List α) : IsPath (ch C) [] r ↔ ∃ j, IsPath (C j) [] r := by
  induction r using List.reverseRecOn with
  | nil => simp [IsPath]
  | append_singleton r a ih =>
    rw [isPath_append, ih, List.nil_append, isPath_single, mem_ch]
    simp only [isPath_append, List.nil_append, isPath_single, mem_act]
    exact ⟨fun h => h.2, fun ⟨j, h⟩ => ⟨⟨j, h.1⟩, j, h⟩⟩

/-! ## The operator behaves like the tree -/

/-- Position of the operator on one layer: type, cursor of the result, cursors of the inputs, inputs
that take part. -/
structure Ghost (n : Nat) (α : Type) [SVal α] where
  τ : Ty
  c : Cur (TVal α τ)
  cs : Fin n → Cur (TVal α τ)
  act : List (Fin n)

/-- position in the result -/
def Ghost.entry (g : Ghost n α) : Ty × Cur α := (g.τ, g.c.map Subtype.val)

/-- position in input `j` -/
def childPath : List (Ghost n α) → Fin n → TPath α
  | [], _ => []
  | g :: gs, j => if j ∈ g.act then (g.τ, (g.cs j).map Subtype.val) :: childPath gs j else childPath gs j

theorem length_childPath_le (gs : List (Ghost n α)) (j : Fin n) : (childPath gs j).length ≤ gs.length := by
  induction gs with
  | nil => simp [childPath]
  | cons g gs ih =>
    simp only [childPath]
    split <;> simp <;> omega

/-- contents of the inputs on a layer -/
def contents (C : Fin n → List α → Ty → List α) (vs : List α) (τ : Ty) (j : Fin n) : List (TVal α τ) :=
  typedList τ (C j vs τ)

/-- the column scans of the layers correspond to their cursors -/
def LocOK (C : Fin n → List α → Ty → List α) (sh : Nat → List (Fin n))
    (loc : Nat → (τ : Ty) → Option (TVal α τ)) : List (Ghost n α) → Prop
  | [] => sh 0 = List.finRange n
  | g :: gs => sh gs.length = g.act ∧ g.act = act C (TPath.pref (gs.map Ghost.entry)) ∧
    TPath.full (gs.map Ghost.entry) ∧
    UnionScan.Sim curOps (contents C (TPath.pref (gs.map Ghost.entry)) g.τ) g.act
      ⟨g.cs, g.act, sh (gs.length + 1), loc gs.length g.τ⟩ g.c ∧
    LocOK C sh loc gs

theorem LocOK.congr {sh sh' : Nat → List (Fin n)} {loc loc' : Nat → (τ : Ty) → Option (TVal α τ)}
    {gs : List (Ghost n α)} (hs : ∀ k ≤ gs.length, sh k = sh' k)
    (h : ∀ k < gs.length, loc k = loc' k) (hl : LocOK C sh loc gs) : LocOK C sh' loc' gs := by
  induction gs with
  | nil => exact (hs 0 (by simp)).symm.trans hl
  | cons g gs ih =>
    obtain ⟨h1, h2, h3, h4, h5⟩ := hl
    refine ⟨?_, h2, h3, ?_, ih (fun k hk => hs k (by simp; omega)) (fun k hk => h k (by simp; omega)) h5⟩
    · rw [← hs gs.length (by simp)]; exact h1
    · rw [← h gs.length (by simp), ← hs (gs.length + 1) (by simp)]; exact h4

/-- The list of active inputs for the next layer, when all cursors stand on values. -/
theorem next_active {sh : Nat → List (Fin n)} {loc : Nat → (τ : Ty) → Option (TVal α τ)}
    {gs : List (Ghost n α)} (hl : LocOK C sh loc gs) (hf : TPath.full (gs.map Ghost.entry)) :
    sh gs.length = act C (TPath.pref (gs.map Ghost.entry)) := by
  cases gs with
  | nil =>
    have : sh 0 = _ := hl
    rw [List.length_nil, this]
    simp [act, TPath.pref, IsPath]
  | cons g gs =>
    obtain ⟨h1, h2, h3, h4, h5⟩ := hl
    rw [List.map_cons, Ghost.entry, GScan.full_cons, Cur.map_current, Option.isSome_map] at hf
    obtain ⟨v, hv⟩ := Option.isSome_iff_exists.mp hf.1
    rw [List.map_cons, Ghost.entry, GScan.pref_cons (v := v.val) (by simp [hv]), act_snoc, ← h2]
    have h6 := h4.smallest hv
    simp only at h6
    rw [List.length_cons, h6]
    apply List.filter_congr
    intro j _
    unfold contents
    rw [decide_eq_decide, mem_typedList, v.property]

/-- an active input stands on the value of the union if it has it -/
theorem current_of_sim {β : Type} [LinearOrder β] {L : Fin n → List β} {act : List (Fin n)}
    {s : UnionScan n (Cur β) β} {c : Cur β} (h : UnionScan.Sim curOps L act s c) {v : β}
    (hv : c.current = some v) {j : Fin n} (hj : j ∈ act) (hL : v ∈ L j) : (s.scans j).current = some v := by
  have h1 := h.smallest hv
  obtain ⟨cs, hb, -, -, -, ha⟩ := h.ex
  cases c with
  | fresh l => simp [Cur.current] at hv
  | «at» l =>
    simp only [Cur.current] at hv
    have h2 := (ha l rfl).2
    have h3 : j ∈ s.smallest := by rw [h1]; simp [hj, hL]
    rw [h2, hv] at h3
    simp only [List.mem_filter, decide_eq_true_eq] at h3
    have := (hb j hj).1.current
    rw [h3.2.2] at this
    exact this

/-- the position in an input that contains the current prefix -/
theorem childPath_full {sh : Nat → List (Fin n)} {loc : Nat → (τ : Ty) → Option (TVal α τ)}
    {gs : List (Ghost n α)} (hl : LocOK C sh loc gs) (hf : TPath.full (gs.map Ghost.entry)) {j : Fin n}
    (hj : j ∈ act C (TPath.pref (gs.map Ghost.entry))) :
    TPath.full (childPath gs j) ∧ (childPath gs j).length = gs.length ∧
      TPath.pref (childPath gs j) = TPath.pref (gs.map Ghost.entry) := by
  induction gs with
  | nil => simp [childPath, TPath.full, TPath.pref]
  | cons g gs ih =>
    obtain ⟨h1, h2, h3, h4, h5⟩ := hl
    rw [List.map_cons, Ghost.entry, GScan.full_cons, Cur.map_current, Option.isSome_map] at hf
    obtain ⟨v, hv⟩ := Option.isSome_iff_exists.mp hf.1
    rw [List.map_cons, Ghost.entry, GScan.pref_cons (v := v.val) (by simp [hv])] at hj ⊢
    rw [act_snoc, ← h2, List.mem_filter, decide_eq_true_eq] at hj
    obtain ⟨i1, i2, i3⟩ := ih h5 h3 (by rw [← h2]; exact hj.1)
    have hc := current_of_sim h4 hv hj.1 (by
      unfold contents
      rw [mem_typedList]
      have := hj.2
      rw [v.property] at this
      exact this)
    simp only at hc
    simp only [childPath]
    rw [if_pos hj.1]
    exact ⟨GScan.full_cons.mpr ⟨by rw [Cur.map_current, hc]; rfl, i1⟩, by simp [i2],
      by rw [GScan.pref_cons (v := v.val) (by rw [Cur.map_current, hc]; rfl), i3]⟩

/-- simulation relation -/
structure Inv (C : Fin n → List α → Ty → List α) (ar : Nat) (R : Fin n → S → TPath α → Prop)
    (t : TUnion n S α) (gs : List (Ghost n α)) : Prop where
  har : t.ar = ar
  depth : t.depth = gs.length
  le : gs.length ≤ ar
  kids : ∀ j, R j (t.kids j) (childPath gs j)
  loc : LocOK C t.sh t.loc gs

/-- the relation between states and positions -/
def Rel (C : Fin n → List α → Ty → List α) (ar : Nat) (R : Fin n → S → TPath α → Prop)
    (t : TUnion n S α) (p : TPath α) : Prop :=
  ∃ gs : List (Ghost n α), p = gs.map Ghost.entry ∧ Inv C ar R t gs

section
variable {cops : TrieOps S α} {ar : Nat} {R : Fin n → S → TPath α → Prop}

/-- relation between the inputs of a column scan and their cursors -/
def colQ (R : Fin n → S → TPath α → Prop) (g : Ghost n α) (gs : List (Ghost n α)) (j : Fin n)
    (s : Nat × S) (c : Cur (TVal α g.τ)) : Prop :=
  if j ∈ g.act then childQ (R j) g.τ (childPath gs j) s c else R j s.2 (childPath gs j)

theorem columnQ {t : TUnion n S α} {g : Ghost n α} {gs : List (Ghost n α)} (hI : Inv C ar R t (g :: gs))
    (j : Fin n) : colQ R g gs j (gs.length, t.kids j) (g.cs j) := by
  obtain ⟨h1, h2, h3, h4, h5⟩ := hI.loc
  have hk := hI.kids j
  simp only [childPath] at hk
  unfold colQ
  by_cases hj : j ∈ g.act
  · rw [if_pos hj] at hk ⊢
    refine ⟨?_, hk⟩
    exact (childPath_full h5 h3 (by rw [← h2]; exact hj)).2.1.symm
  · rw [if_neg hj] at hk ⊢
    exact hk

/-- the state after a call to the column scan of the current layer -/
theorem inv_update {t : TUnion n S α} {g : Ghost n α} {gs : List (Ghost n α)}
    (hI : Inv C ar R t (g :: gs)) (c' : Cur (TVal α g.τ)) {o : Option (TVal α g.τ)}
    {st : UnionScan n (Cur (TVal α g.τ)) (TVal α g.τ)}
    (hs : UnionScan.Sim curOps (contents C (TPath.pref (gs.map Ghost.entry)) g.τ) g.act st c')
    {scans : Fin n → Nat × S} (hQ : ∀ j, colQ R g gs j (scans j) (st.scans j)) :
    Inv C ar R (t.update gs.length g.τ (o, ⟨scans, g.act, st.smallest, st.cur⟩)).2
      (⟨g.τ, c', st.scans, g.act⟩ :: gs) := by
  obtain ⟨h1, h2, h3, h4, h5⟩ := hI.loc
  refine ⟨hI.har, hI.depth, hI.le, fun j => ?_, ?_, h2, h3, ?_, ?_⟩
  · have hq := hQ j
    simp only [childPath, update, colQ] at hq ⊢
    by_cases hj : j ∈ g.act
    · rw [if_pos hj] at hq ⊢
      exact hq.2
    · rw [if_neg hj] at hq ⊢
      exact hq
  · simp only [update]
    rw [Function.update_of_ne (by omega)]
    exact h1
  · simp only [update, Function.update_self]
    have : (⟨st.scans, g.act, st.smallest, st.cur⟩ : UnionScan n (Cur (TVal α g.τ)) (TVal α g.τ)) = st := by
      have := hs.hact
      cases st
      simp only at this
      subst this
      rfl
    rw [this]
    exact hs
  · refine h5.congr (fun k hk => ?_) (fun k hk => ?_)
    · simp only [update]; rw [Function.update_of_ne (by omega)]
    · simp only [update]; rw [Function.update_of_ne (by omega)]

theorem rel_next (hS : ∀ j, Simulates cops ar (C j) (R j)) (hC : ∀ j, CurSim cops (R j)) (t : TUnion n S α) (τ : Ty) (c : Cur α)
    (p : TPath α) (h : Rel C ar R t ((τ, c) :: p)) :
    ∃ t', (ops cops).next t τ = some (c.next.current, t') ∧ Rel C ar R t' ((τ, c.next) :: p) := by
  obtain ⟨gs, hp, hI⟩ := h
  cases gs with
  | nil => simp at hp
  | cons g gs =>
    simp only [List.map_cons, List.cons.injEq, Ghost.entry, Prod.mk.injEq] at hp
    obtain ⟨⟨rfl, rfl⟩, rfl⟩ := hp
    obtain ⟨l1, l2, l3, l4, l5⟩ := hI.loc
    obtain ⟨st, h1, h2⟩ := UnionScan.sim_next curOps _ _ _ _ l4
    obtain ⟨scans, h3, h4, h5⟩ := UnionScan.param_next (cops := childOps cops g.τ)
      (Q := colQ R g gs) (fun i hi => by
        have : colQ R g gs i = childQ (R i) g.τ (childPath gs i) := by
          funext s c; unfold colQ; rw [if_pos hi]
        rw [this]
        exact child_simOn (hS _) _ _) (fun i hi => by
        have : colQ R g gs i = childQ (R i) g.τ (childPath gs i) := by
          funext s c; unfold colQ; rw [if_pos hi]
        rw [this]
        exact child_curOn (hC _) _ _) h1 (columnQ hI)
    refine ⟨_, ?_, _, ?_, inv_update hI g.c.next (o := g.c.next.current) h2 h5⟩
    · simp only [ops, next, hI.depth, usub, List.length_cons]
      simp only [Nat.le_add_left, if_true, Nat.add_sub_cancel, Option.bind_eq_bind, Option.bind_some]
      rw [show t.column gs.length g.τ = ⟨fun j => (gs.length, t.kids j), t.sh gs.length, t.sh (gs.length + 1), _⟩
        from rfl, l1, h3]
      simp [update]
    · simp [Ghost.entry]

theorem rel_seek (hS : ∀ j, Simulates cops ar (C j) (R j)) (hK : ∀ j, SeekSim cops (R j)) :
    SeekSim (ops cops) (Rel C ar R) := by
  intro t c p v h
  obtain ⟨gs, hp, hI⟩ := h
  cases gs with
  | nil => simp at hp
  | cons g gs =>
    obtain ⟨τ, gc, gcs, ga⟩ := g
    simp only [List.map_cons, List.cons.injEq, Ghost.entry, Prod.mk.injEq] at hp
    obtain ⟨⟨e, rfl⟩, rfl⟩ := hp
    subst e
    obtain ⟨l1, l2, l3, l4, l5⟩ := hI.loc
    obtain ⟨st, h1, h2⟩ := UnionScan.sim_seek curOps _ _ _ _ ⟨v, rfl⟩ l4
    obtain ⟨scans, h3, h4, h5⟩ := UnionScan.param_seek (cops := childOps cops (ty v))
      (Q := colQ R ⟨ty v, gc, gcs, ga⟩ gs) (fun i hi => by
        have : colQ R ⟨ty v, gc, gcs, ga⟩ gs i = childQ (R i) (ty v) (childPath gs i) := by
          funext s c; unfold colQ; rw [if_pos hi]
        rw [this]
        exact child_seekOn (hS _) (hK _) _ _) h1 (columnQ hI)
    refine ⟨_, ?_, _, ?_, inv_update hI (gc.seek ⟨v, rfl⟩) (o := (gc.seek ⟨v, rfl⟩).current) h2 h5⟩
    · simp only [ops, seek, hI.depth, usub, List.length_cons]
      simp only [Nat.le_add_left, if_true, Nat.add_sub_cancel, Option.bind_eq_bind, Option.bind_some]
      rw [show t.column gs.length (ty v) =
        ⟨fun j => (gs.length, t.kids j), t.sh gs.length, t.sh (gs.length + 1), _⟩ from rfl, l1, h3]
      have := Cur.map_seek gc ⟨v, rfl⟩
      simp only at this
      simp [update, this]
    · have := Cur.map_seek gc ⟨v, rfl⟩
      simp only at this
      simp [Ghost.entry, this]

theorem rel_current (t : TUnion n S α) (p q : TPath α) (τ : Ty) (c : Cur α)
    (h : Rel C ar R t (p ++ (τ, c) :: q)) : (ops cops).current t q.length τ = c.current := by
  obtain ⟨gs, hp, hI⟩ := h
  obtain ⟨g1, g2, rfl, -, h2⟩ := List.append_eq_map_iff.mp hp
  cases g2 with
  | nil => simp at h2
  | cons g gs =>
    simp only [List.map_cons, List.cons.injEq, Ghost.entry, Prod.mk.injEq] at h2
    obtain ⟨⟨rfl, rfl⟩, rfl⟩ := h2
    have hl : LocOK C t.sh t.loc (g :: gs) := by
      have := hI.loc
      clear hp hI
      induction g1 with
      | nil => exact this
      | cons x g1 ih => exact ih this.2.2.2.2
    obtain ⟨l1, l2, l3, l4, l5⟩ := hl
    have hcur := l4.cur
    simp only [ops, List.length_map, Cur.map_current]
    rw [← hcur]

theorem rel_up (hS : ∀ j, Simulates cops ar (C j) (R j)) (t : TUnion n S α)
    (e : Ty × Cur α) (p : TPath α) (h : Rel C ar R t (e :: p)) :
    ∃ t', (ops cops).up t = some t' ∧ Rel C ar R t' p := by
  obtain ⟨gs, hp, hI⟩ := h
  cases gs with
  | nil => simp at hp
  | cons g gs =>
    simp only [List.map_cons, List.cons.injEq] at hp
    obtain ⟨-, rfl⟩ := hp
    obtain ⟨l1, l2, l3, l4, l5⟩ := hI.loc
    have hmem : ∀ j, j ∈ onLayer cops t ↔ j ∈ g.act := by
      intro j
      simp only [onLayer, List.mem_filter, List.mem_finRange, true_and, beq_iff_eq]
      rw [((hS j).depth _ _ (hI.kids j)).1, hI.depth, List.length_cons]
      simp only [childPath]
      by_cases hj : j ∈ g.act
      · rw [if_pos hj, List.length_cons, (childPath_full l5 l3 (by rw [← l2]; exact hj)).2.1]
        simp [hj]
      · rw [if_neg hj]
        have := length_childPath_le gs j
        constructor
        · intro h; omega
        · exact fun h => absurd h hj
    obtain ⟨kids, h1, h2⟩ := moveUp_spec hS (is := onLayer cops t) ((List.nodup_finRange n).filter _) hI.kids (by
      intro j hj
      simp only [childPath]
      rw [if_pos ((hmem j).mp hj)]
      simp)
    have hle := hI.le
    refine ⟨{ t with kids := kids, depth := gs.length }, ?_, gs, rfl, hI.har, rfl, by simp at hle; omega,
      fun j => ?_, l5⟩
    · simp only [ops, up, hI.depth, usub, List.length_cons]
      simp only [Nat.le_add_left, if_true, Nat.add_sub_cancel, Option.bind_eq_bind, Option.bind_some, h1]
      rfl
    · have := h2 j
      simp only [childPath] at this
      by_cases hj : j ∈ g.act
      · rw [if_pos ((hmem j).mpr hj), if_pos hj] at this
        exact this
      · rw [if_neg (fun h => hj ((hmem j).mp h)), if_neg hj] at this
        exact this

theorem rel_down (hA : ∀ j p τ, Asc (C j p τ)) (hT : ∀ j p τ a, a ∈ C j p τ → ty a = τ)
    (hS : ∀ j, Simulates cops ar (C j) (R j)) (t : TUnion n S α)
    (p : TPath α) (τ : Ty) (h : Rel C ar R t p) (hf : p.full) (hlt : p.length < ar) :
    ∃ t', (ops cops).down t τ = some t' ∧ Rel C ar R t' ((τ, .fresh (ch C p.pref τ)) :: p) := by
  obtain ⟨gs, rfl, hI⟩ := h
  rw [List.length_map] at hlt
  have hact := next_active hI.loc hf
  have hfull := fun j (hj : j ∈ act C (TPath.pref (gs.map Ghost.entry))) => childPath_full hI.loc hf hj
  obtain ⟨kids, h1, h2⟩ := moveDown_spec hS τ (act_nodup (C := C) (TPath.pref (gs.map Ghost.entry))) hI.kids (by
    intro j hj
    obtain ⟨f1, f2, -⟩ := hfull j hj
    exact ⟨f1, by omega⟩)
  refine ⟨{ t.reset gs.length τ with kids := kids, depth := gs.length + 1 }, ?_,
    ⟨τ, .fresh (typedList τ (ch C (TPath.pref (gs.map Ghost.entry)) τ)),
      fun j => .fresh (contents C (TPath.pref (gs.map Ghost.entry)) τ j),
      act C (TPath.pref (gs.map Ghost.entry))⟩ :: gs, ?_,
    hI.har, rfl, hlt, fun j => ?_, hact, rfl, hf, ?_, ?_⟩
  · simp only [ops, down, hI.depth, hI.har, if_pos hlt, hact, h1]
    rfl
  · simp only [List.map_cons, Ghost.entry, Cur.map]
    rw [typedList_val fun a ha => ch_typed hT _ _ a ha]
  · have := h2 j
    simp only [childPath]
    by_cases hj : j ∈ act C (TPath.pref (gs.map Ghost.entry))
    · rw [if_pos hj] at this ⊢
      simp only [Cur.map]
      unfold contents
      rw [typedList_val fun a ha => hT _ _ _ a ha]
      rw [(hfull j hj).2.2] at this
      exact this
    · rw [if_neg hj] at this ⊢
      exact this
  · refine ⟨rfl, act_nodup _, typedList_asc (fun a ha => ch_typed hT _ _ a ha) (ch_asc _ _), ?_,
      fun j => .fresh (contents C (TPath.pref (gs.map Ghost.entry)) τ j),
      fun j _ => ⟨behaves_cur _, typedList_asc (fun a ha => hT _ _ _ a ha) (hA _ _ _)⟩, ?_,
      fun _ _ _ _ => Iff.rfl, fun _ _ j _ => ⟨_, rfl⟩, by simp⟩
    · simp [reset, Cur.current]
    · intro x
      simp only [Cur.rem, contents, mem_typedList, mem_ch]
  · refine hI.loc.congr (fun k hk => rfl) (fun k hk => ?_)
    simp only [reset]
    rw [Function.update_of_ne (by omega)]

/-- The union behaves like the tree of the union. -/
theorem simulates (hA : ∀ j p τ, Asc (C j p τ)) (hT : ∀ j p τ a, a ∈ C j p τ → ty a = τ)
    (hS : ∀ j, Simulates cops ar (C j) (R j)) (hC : ∀ j, CurSim cops (R j)) :
    Simulates (ops cops) ar (ch C) (Rel C ar R) where
  depth t p h := by
    obtain ⟨gs, rfl, hI⟩ := h
    exact ⟨by rw [List.length_map]; exact hI.depth, by rw [List.length_map]; exact hI.le⟩
  next := rel_next hS hC
  current _ _ _ _ _ h _ := rel_current _ _ _ _ _ h
  up := rel_up hS
  down := rel_down hA hT hS

theorem rel_new {kids : Fin n → S} (h : ∀ j, R j (kids j) []) : Rel C ar R (new ar kids) [] :=
  ⟨[], rfl, rfl, rfl, Nat.zero_le _, h, rfl⟩

/-- only possible types occur in the union -/
theorem treeOK {tys : Fin n → Nat → List Ty} (hT : ∀ j, TreeOK (tys j) (C j) ar) :
    TreeOK (types tys) (ch C) ar where
  asc := ch_asc
  typed := ch_typed fun j => (hT j).typed
  tyAsc k := allTys_asc.filter _
  cover p τ a hp hlt ha := by
    obtain ⟨j, hj, ha⟩ := mem_ch.mp ha
    refine List.mem_filter.mpr ⟨mem_allTys τ, ?_⟩
    simp only [List.any_eq_true, List.mem_finRange, true_and, decide_eq_true_eq]
    exact ⟨j, (hT j).cover _ _ _ (mem_act.mp hj) hlt ha⟩

end

/-! ## The generator -/

/-- `TrieScanUnion` with `arity` (union.rs:159-161) and `possible_types` (167-173) -/
def scan (I : PScan S α) : PScan (TUnion n S α) α where
  toTrieOps := ops I.toTrieOps
  arity t := t.ar
  types t := types fun j => I.types (t.kids j)

/-- the union of at least two scans (union.rs:50-110) -/
def ofList (xs : List (AnyScan α)) (h : xs ≠ []) : AnyScan α :=
  ⟨_, scan (AnyScan.family xs.get), new ((xs.head h).I.arity (xs.head h).s) (AnyScan.start xs.get)⟩

/-- `GeneratorUnion::generate` (union.rs:32-111): `None` inputs are ignored. -/
def generate (kids : List (Option (AnyScan α))) : Option (AnyScan α) :=
  match kids.filterMap id with
  | [] => none
  | [x] => some x
  | x :: y :: xs => some (ofList (x :: y :: xs) (by simp))

theorem ofList_table {m : Mode} (hm : m.cu = true) {xs : List (AnyScan α)} (h : xs ≠ []) {ar : Nat}
    {rows : Fin xs.length → List α → Prop} (hx : ∀ i, IsTable (xs.get i).I m (xs.get i).s ar (rows i)) :
    IsTable (ofList xs h).I m (ofList xs h).s ar (fun r => ∃ i, rows i r) := by
  have hx' : ∀ i, IsTable (AnyScan.family xs.get) m (AnyScan.start xs.get i) ar (rows i) :=
    fun i => AnyScan.family_start (hx i)
  choose ha C R hS hK hC hT hR hrows using hx'
  have hlen : xs.length ≠ 0 := by simpa using h
  have : NeZero xs.length := ⟨hlen⟩
  have har : (xs.head h).I.arity (xs.head h).s = ar := by
    have := (hx ⟨0, Nat.pos_of_ne_zero hlen⟩).1
    rw [List.head_eq_getElem]
    exact this
  refine ⟨har, ch C, Rel C ar R, simulates (fun j => (hT j).asc) (fun j => (hT j).typed) hS (fun j => hC j hm),
    fun hs => rel_seek hS fun j => hK j hs, fun _ => fun _ _ _ _ _ h => rel_current _ _ _ _ _ h, treeOK hT, ?_, fun r => ?_⟩
  · unfold ofList
    rw [har]
    exact rel_new hR
  · unfold RowsOf
    rw [isPath_ch]
    constructor
    · rintro ⟨hr, j, hj⟩
      exact ⟨j, (hrows j r).mp ⟨hr, hj⟩⟩
    · rintro ⟨j, hj⟩
      have := (hrows j r).mpr hj
      exact ⟨this.1, j, this.2⟩

/-- **C09, union.** The union of tables of the same arity has the rows of all the tables. -/
theorem generate_table {m : Mode} {kids : List (Option (AnyScan α))} (hm : m.cu = true ∨ kids.length ≤ 1) {ar : Nat}
    {rows : Fin kids.length → List α → Prop} (hk : ∀ i, Tab m (kids.get i) ar (rows i)) :
    Tab m (generate kids) ar (fun r => ∃ i, rows i r) := by
  -- the rows of the inputs that are present
  obtain ⟨rows', hrows', he⟩ : ∃ rows' : Fin (kids.filterMap id).length → List α → Prop,
      (∀ i, IsTable ((kids.filterMap id).get i).I m ((kids.filterMap id).get i).s ar (rows' i)) ∧
      ∀ r, (∃ i, rows' i r) ↔ ∃ i, rows i r := by
    clear hm
    induction kids with
    | nil => exact ⟨fun i => i.elim0, fun i => i.elim0, fun r => ⟨fun ⟨i, _⟩ => i.elim0, fun ⟨i, _⟩ => i.elim0⟩⟩
    | cons x kids ih =>
      obtain ⟨rows', h1, h2⟩ := ih (rows := fun i => rows i.succ) fun i => hk i.succ
      have hx := hk 0
      cases x with
      | none =>
        refine ⟨rows', h1, fun r => (h2 r).trans ?_⟩
        have h0 : ¬ rows 0 r := hx r
        constructor
        · rintro ⟨i, hi⟩; exact ⟨i.succ, hi⟩
        · rintro ⟨i, hi⟩
          revert hi
          refine Fin.cases (fun hi => absurd hi h0) (fun i hi => ⟨i, hi⟩) i
      | some a =>
        refine ⟨Fin.cons (α := fun _ => List α → Prop) (rows 0) rows', fun i => ?_, fun r => ?_⟩
        · refine Fin.cases ?_ (fun i => ?_) i
          · exact hx
          · exact h1 i
        · constructor
          · rintro ⟨i, hi⟩
            revert hi
            refine Fin.cases (fun hi => ⟨0, hi⟩) (fun i hi => ?_) i
            obtain ⟨k, hk⟩ := (h2 r).mp ⟨i, hi⟩
            exact ⟨k.succ, hk⟩
          · rintro ⟨i, hi⟩
            revert hi
            refine Fin.cases (fun hi => ⟨(⟨0, Nat.succ_pos _⟩ : Fin ((kids.filterMap id).length + 1)), hi⟩) (fun i hi => ?_) i
            obtain ⟨k, hk⟩ := (h2 r).mpr ⟨i, hi⟩
            exact ⟨k.succ, hk⟩
  refine Tab.congr ?_ he
  unfold generate
  have hm' : m.cu = true ∨ (kids.filterMap id).length ≤ 1 :=
    hm.imp id (fun h => (List.length_filterMap_le _ _).trans h)
  generalize kids.filterMap id = xs at rows' hrows' he hm'
  match xs, rows', hrows' with
  | [], rows', _ => exact fun r ⟨i, _⟩ => i.elim0
  | [x], rows', h =>
    refine (h 0).congr fun r => ⟨fun h => ⟨0, h⟩, fun ⟨i, h⟩ => ?_⟩
    rw [show i = 0 from Fin.ext (by have := i.isLt; simp at this; simp)] at h
    exact h
  | x :: y :: xs, rows', h => exact ofList_table (hm'.resolve_right (by simp)) _ h

end TUnion
end Verif
