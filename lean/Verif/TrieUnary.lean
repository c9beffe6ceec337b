import Verif.UnaryColumn
import Verif.TrieJoin

/-!
# Trie operators with one input

`TrieScanFilter` (/repo/nemo-physical/src/tabular/operations/filter.rs) and `TrieScanFunction`
(function.rs) have the same shape: on each layer, for each storage type, there is a column scan of one
of the kinds of `UnaryColumn`; some layers are layers of the input; on `down` and `up` values are
pushed on and popped from a stack, and constants are stored in column scans.  `UOp` describes such
an operator (`E` is the stack and the stored constants), `UOp.ops` is its scan, and the theorem
`UOp.table` says which table it is, if the column scans are the right ones whenever they are used.
-/

set_option linter.unusedSimpArgs false
set_option linter.unusedSectionVars false
set_option linter.unusedVariables false

namespace Verif
variable {α : Type} [SVal α]

/-- An operator with one input.  `inp k`: layer `k` is a layer of the input.  `kind e k τ`: the column
scan of layer `k` for type `τ`.  `down e cur path τ`: what `down(τ)` does to the state, `cur` are
the values of the column scans.  `up e depth`: what `up` does to the state. -/
structure UOp (E α : Type) [SVal α] where
  arity : Nat
  inp : Nat → Bool
  kind : E → Nat → (τ : Ty) → UKind (TVal α τ)
  down : E → (Nat → Ty → Option α) → List Ty → Ty → Option E
  up : E → Nat → Option E

/-- State of the scan: the input, the state of the operator, `path_types` (innermost first) and the
states of the column scans. -/
structure TUn (E S α : Type) [SVal α] where
  child : S
  e : E
  path : List Ty
  loc : Nat → (τ : Ty) → ULoc (TVal α τ)

namespace TUn
variable {E S : Type}

/-- the scan after construction -/
def new (child : S) (e : E) : TUn E S α := ⟨child, e, [], fun _ _ => .fresh⟩

/-- replace the state of one column scan -/
def setLoc (loc : Nat → (τ : Ty) → ULoc (TVal α τ)) (k : Nat) (τ : Ty) (l : ULoc (TVal α τ)) :
    Nat → (τ : Ty) → ULoc (TVal α τ) := Function.update loc k (Function.update (loc k) τ l)

/-- the scan after a call to a column scan -/
def update (t : TUn E S α) (k : Nat) (τ : Ty) (r : Option (TVal α τ) × ULoc (TVal α τ) × (Nat × S)) :
    Option α × TUn E S α :=
  (r.1.map Subtype.val, { t with child := r.2.2.2, loc := setLoc t.loc k τ r.2.1 })

/-- the column of the input behind layer `k` (`trie_scan.scan(index)`, filter.rs:196; `input_index`,
function.rs:208, 218, 243) -/
def source (o : UOp E α) (t : TUn E S α) (k : Nat) : Nat × S := (numBefore o.inp k, t.child)

/-- `next` of the column scan of the current layer -/
def next (o : UOp E α) (cops : TrieOps S α) (t : TUn E S α) (τ : Ty) : Option (Option α × TUn E S α) := do
  let k ← usub t.path.length 1
  (UCol.next (childOps cops τ) (o.kind t.e k τ) (t.loc k τ) (source o t k)).map (t.update k τ)

/-- `seek` of the column scan of the current layer -/
def seek (o : UOp E α) (cops : TrieOps S α) (t : TUn E S α) (v : α) : Option (Option α × TUn E S α) := do
  let k ← usub t.path.length 1
  (UCol.seek (childOps cops (ty v)) (o.kind t.e k (ty v)) (t.loc k (ty v)) (source o t k) ⟨v, rfl⟩).map
    (t.update k (ty v))

/-- `current` of the column scan of layer `k` -/
def current (o : UOp E α) (cops : TrieOps S α) (t : TUn E S α) (k : Nat) (τ : Ty) : Option α :=
  (UCol.current (childOps cops τ) (o.kind t.e k τ) (t.loc k τ) (source o t k)).map Subtype.val

/-- `down` in the input, if the layer is a layer of the input -/
def childDown (o : UOp E α) (cops : TrieOps S α) (t : TUn E S α) (τ : Ty) : Option S :=
  if o.inp t.path.length then cops.down t.child τ else some t.child

/-- `up` in the input, if the layer is a layer of the input -/
def childUp (o : UOp E α) (cops : TrieOps S α) (t : TUn E S α) (k : Nat) : Option S :=
  if o.inp k then cops.up t.child else some t.child

/-- `down` (filter.rs:288-313, function.rs:328-388) -/
def down (o : UOp E α) (cops : TrieOps S α) (t : TUn E S α) (τ : Ty) : Option (TUn E S α) := do
  let e ← o.down t.e (current o cops t) t.path τ
  let child ← childDown o cops t τ
  return ⟨child, e, τ :: t.path, setLoc t.loc t.path.length τ .fresh⟩

/-- `up` (filter.rs:273-286, function.rs:308-326) -/
def up (o : UOp E α) (cops : TrieOps S α) (t : TUn E S α) : Option (TUn E S α) := do
  let k ← usub t.path.length 1
  let child ← childUp o cops t k
  let e ← o.up t.e t.path.length
  return ⟨child, e, t.path.tail, t.loc⟩

/-- the scan as a partial trie scan -/
def ops (o : UOp E α) (cops : TrieOps S α) : TrieOps (TUn E S α) α where
  depth t := t.path.length
  up := up o cops
  down := down o cops
  next := next o cops
  seek := seek o cops
  current := current o cops

end TUn

namespace UOp
variable {E S : Type}

/-- two kinds that show the same value in the same state -/
def SameCur {β : Type} (k k' : UKind β) : Prop := k = k' ∨ (UCol.isFiltered k ∧ UCol.isFiltered k')

/-- The column scans are the right ones: `K p τ` is the one that belongs below the values `p`.
`Inv e p σ`: the state `e` is right, if the values of all layers but the last are `p` and the last
layer has type `σ` (`none`: no layer). -/
structure OK (o : UOp E α) (K : List α → (τ : Ty) → UKind (TVal α τ)) (Inv : E → List α → Option Ty → Prop) :
    Prop where
  down : ∀ {e p cur} (τ : Ty), Inv e p.dropLast (p.getLast?.map ty) → p.length < o.arity →
    (∀ k (h : k < p.length), cur k (ty p[k]) = some p[k]) →
    ∃ e', o.down e cur (p.map ty).reverse τ = some e' ∧ Inv e' p (some τ)
  up : ∀ {e p τ}, Inv e p (some τ) → p.length < o.arity →
    ∃ e', o.up e (p.length + 1) = some e' ∧ Inv e' p.dropLast (p.getLast?.map ty)
  top : ∀ {e p τ}, Inv e p (some τ) → p.length < o.arity → o.kind e p.length τ = K p τ
  cur : ∀ {e p τ}, Inv e p (some τ) → p.length < o.arity → ∀ k (h : k < p.length),
    SameCur (o.kind e k (ty p[k])) (K (p.take k) (ty p[k]))
  uses : ∀ p τ, p.length < o.arity → UCol.uses (K p τ) → o.inp p.length = true

/-- children of the result -/
def ch (o : UOp E α) (K : List α → (τ : Ty) → UKind (TVal α τ)) (C : List α → Ty → List α) (p : List α) (τ : Ty) :
    List α :=
  (UCol.contents (K p τ) (typedList τ (C (restrict o.inp 0 p) τ))).map Subtype.val

variable {o : UOp E α} {K : List α → (τ : Ty) → UKind (TVal α τ)} {Inv : E → List α → Option Ty → Prop}
  {C : List α → Ty → List α}

theorem contents_asc {β : Type} [LinearOrder β] (k : UKind β) {M : List β} (h : Asc M) : Asc (UCol.contents k M) := by
  cases k with
  | pass => exact h
  | filtered check => exact h.filter _
  | one k => exact h.filter _
  | const o => cases o <;> simp [UCol.contents, Asc]

theorem ch_asc (hC : ∀ p τ, Asc (C p τ)) (ht : ∀ p τ a, a ∈ C p τ → ty a = τ) (p : List α) (τ : Ty) :
    Asc (ch o K C p τ) := by
  unfold ch
  rw [asc_map_val]
  exact contents_asc _ (typedList_asc (ht _ _) (hC _ _))

theorem ch_typed (p : List α) (τ : Ty) (a : α) (h : a ∈ ch o K C p τ) : ty a = τ := by
  obtain ⟨v, -, rfl⟩ := List.mem_map.mp h
  exact v.property

/-! ## The scan behaves like the tree -/

/-- Position on one layer: type, cursor of the result, cursor of the input. -/
structure Ghost (α : Type) [SVal α] where
  τ : Ty
  c : Cur (TVal α τ)
  cm : Cur (TVal α τ)

/-- position in the result -/
def Ghost.entry (g : Ghost α) : Ty × Cur α := (g.τ, g.c.map Subtype.val)

/-- position in the input -/
def childPath (inp : Nat → Bool) : List (Ghost α) → TPath α
  | [] => []
  | g :: gs => if inp gs.length then (g.τ, g.cm.map Subtype.val) :: childPath inp gs else childPath inp gs

theorem length_childPath (inp : Nat → Bool) (gs : List (Ghost α)) :
    (childPath inp gs).length = numBefore inp gs.length := by
  induction gs with
  | nil => rfl
  | cons g gs ih =>
    rw [List.length_cons, numBefore_succ]
    simp only [childPath]
    split <;> simp [ih]

/-- the values before the last layer -/
def below (gs : List (Ghost α)) : List α := TPath.pref (gs.tail.map Ghost.entry)

/-- the type of the last layer -/
def topTy (gs : List (Ghost α)) : Option Ty := gs.head?.map Ghost.τ

/-- contents of the input on a layer -/
def inputList (o : UOp E α) (C : List α → Ty → List α) (p : List α) (τ : Ty) : List (TVal α τ) :=
  typedList τ (C (restrict o.inp 0 p) τ)

/-- the column scans of the layers correspond to their cursors -/
def LocOK (o : UOp E α) (K : List α → (τ : Ty) → UKind (TVal α τ)) (C : List α → Ty → List α) (strict : Bool)
    (loc : Nat → (τ : Ty) → ULoc (TVal α τ)) : List (Ghost α) → Prop
  | [] => True
  | g :: gs => TPath.full (gs.map Ghost.entry) ∧
    UCol.Sim strict (K (TPath.pref (gs.map Ghost.entry)) g.τ)
      (inputList o C (TPath.pref (gs.map Ghost.entry)) g.τ) (loc gs.length g.τ) g.cm g.c ∧
    LocOK o K C strict loc gs

theorem LocOK.congr {strict : Bool} {loc loc' : Nat → (τ : Ty) → ULoc (TVal α τ)} {gs : List (Ghost α)}
    (h : ∀ k < gs.length, loc k = loc' k) (hl : LocOK o K C strict loc gs) : LocOK o K C strict loc' gs := by
  induction gs with
  | nil => trivial
  | cons g gs ih =>
    obtain ⟨h1, h2, h3⟩ := hl
    refine ⟨h1, ?_, ih (fun k hk => h k (by simp; omega)) h3⟩
    rw [← h gs.length (by simp)]; exact h2

theorem LocOK.append {strict : Bool} {loc : Nat → (τ : Ty) → ULoc (TVal α τ)} {g1 g2 : List (Ghost α)}
    (hl : LocOK o K C strict loc (g1 ++ g2)) : LocOK o K C strict loc g2 := by
  induction g1 with
  | nil => exact hl
  | cons x g1 ih => exact ih hl.2.2

/-- simulation relation -/
structure SInv (o : UOp E α) (K : List α → (τ : Ty) → UKind (TVal α τ)) (Inv : E → List α → Option Ty → Prop)
    (C : List α → Ty → List α) (R : S → TPath α → Prop) (strict : Bool) (t : TUn E S α) (gs : List (Ghost α)) :
    Prop where
  path : t.path = gs.map Ghost.τ
  len : gs.length ≤ o.arity
  child : R t.child (childPath o.inp gs)
  loc : LocOK o K C strict t.loc gs
  inv : Inv t.e (below gs) (topTy gs)

/-- the relation between states and positions -/
def Rel (o : UOp E α) (K : List α → (τ : Ty) → UKind (TVal α τ)) (Inv : E → List α → Option Ty → Prop)
    (C : List α → Ty → List α) (R : S → TPath α → Prop) (strict : Bool) (t : TUn E S α) (p : TPath α) : Prop :=
  ∃ gs : List (Ghost α), p = gs.map Ghost.entry ∧ SInv o K Inv C R strict t gs

theorem length_pref_map {gs : List (Ghost α)} (h : TPath.full (gs.map Ghost.entry)) :
    (TPath.pref (gs.map Ghost.entry)).length = gs.length := by
  rw [RowCfg.length_pref h, List.length_map]

/-- value of the last layer -/
theorem full_cons' {g : Ghost α} {gs : List (Ghost α)} (h : TPath.full ((g :: gs).map Ghost.entry)) :
    ∃ v : TVal α g.τ, g.c.current = some v ∧ TPath.full (gs.map Ghost.entry) ∧
      TPath.pref ((g :: gs).map Ghost.entry) = TPath.pref (gs.map Ghost.entry) ++ [v.val] := by
  rw [List.map_cons, Ghost.entry, GScan.full_cons, Cur.map_current, Option.isSome_map] at h
  obtain ⟨v, hv⟩ := Option.isSome_iff_exists.mp h.1
  refine ⟨v, hv, h.2, ?_⟩
  rw [List.map_cons, Ghost.entry, GScan.pref_cons (v := v.val) (by rw [Cur.map_current, hv]; rfl)]

/-- types of the values -/
theorem map_ty_pref {gs : List (Ghost α)} (h : TPath.full (gs.map Ghost.entry)) :
    ((TPath.pref (gs.map Ghost.entry)).map ty).reverse = gs.map Ghost.τ := by
  induction gs with
  | nil => rfl
  | cons g gs ih =>
    obtain ⟨v, hv, hf, hp⟩ := full_cons' h
    rw [hp, List.map_append, List.reverse_append, ih hf]
    simp [v.property]

theorem below_pref {gs : List (Ghost α)} (h : TPath.full (gs.map Ghost.entry)) :
    below gs = (TPath.pref (gs.map Ghost.entry)).dropLast ∧
      topTy gs = (TPath.pref (gs.map Ghost.entry)).getLast?.map ty := by
  cases gs with
  | nil => exact ⟨rfl, rfl⟩
  | cons g gs =>
    obtain ⟨v, hv, hf, hp⟩ := full_cons' h
    rw [hp]
    simp [below, topTy, v.property]

/-- the position in the input -/
theorem childPath_full (hO : OK o K Inv) {strict : Bool} {loc : Nat → (τ : Ty) → ULoc (TVal α τ)}
    (hu : ∀ p τ, p.length < o.arity → o.inp p.length = true → UCol.uses (K p τ) ∨ K p τ = .const none)
    {gs : List (Ghost α)} (hlen : gs.length ≤ o.arity) (hl : LocOK o K C strict loc gs)
    (hf : TPath.full (gs.map Ghost.entry)) :
    TPath.full (childPath o.inp gs) ∧
      TPath.pref (childPath o.inp gs) = restrict o.inp 0 (TPath.pref (gs.map Ghost.entry)) := by
  induction gs with
  | nil => simp [childPath, TPath.full, TPath.pref, restrict]
  | cons g gs ih =>
    obtain ⟨h1, h2, h3⟩ := hl
    obtain ⟨v, hv, hf', hp⟩ := full_cons' hf
    obtain ⟨i1, i2⟩ := ih (by simp at hlen; omega) h3 h1
    have hlp := length_pref_map h1
    rw [hp, restrict_snoc, hlp]
    simp only [childPath]
    by_cases hk : o.inp gs.length = true
    · rw [if_pos hk, if_pos hk]
      have hcm : g.cm.current = some v := by
        rcases hu (TPath.pref (gs.map Ghost.entry)) g.τ (by rw [hlp]; simp only [List.length_cons] at hlen; omega) (by rw [hlp]; exact hk) with h | h
        · exact UCol.sim_some h2 h hv
        · rw [h] at h2
          simp only [UCol.Sim, ConstScan.Sim] at h2
          rcases h2 with h2 | h2 <;> rw [h2] at hv <;> simp [Cur.current] at hv
      exact ⟨GScan.full_cons.mpr ⟨by rw [Cur.map_current, hcm]; rfl, i1⟩,
        by rw [GScan.pref_cons (v := v.val) (by rw [Cur.map_current, hcm]; rfl), i2]⟩
    · rw [if_neg hk, if_neg hk, List.append_nil]
      exact ⟨i1, i2⟩

section
variable {cops : TrieOps S α} {R : S → TPath α → Prop} {ar : Nat} {strict : Bool}

/-- relation between the input of a column scan and its cursor -/
def colQ (o : UOp E α) (R : S → TPath α → Prop) (τ : Ty) (gs : List (Ghost α)) (s : Nat × S)
    (c : Cur (TVal α τ)) : Prop :=
  s.1 = numBefore o.inp gs.length ∧
  if o.inp gs.length then childQ R τ (childPath o.inp gs) s c else R s.2 (childPath o.inp gs)

theorem colQ_eq {τ : Ty} {gs : List (Ghost α)} (h : o.inp gs.length = true) :
    colQ o R τ gs = childQ R τ (childPath o.inp gs) := by
  funext s c
  unfold colQ
  rw [if_pos h]
  apply propext
  constructor
  · exact fun h => h.2
  · intro h
    exact ⟨by rw [h.1, length_childPath], h⟩

theorem colQ_of {t : TUn E S α} {g : Ghost α} {gs : List (Ghost α)} (hI : SInv o K Inv C R strict t (g :: gs)) :
    colQ o R g.τ gs (TUn.source o t gs.length) g.cm := by
  refine ⟨rfl, ?_⟩
  have h := hI.child
  simp only [childPath] at h
  split
  · next hk =>
    rw [if_pos hk] at h
    exact ⟨(length_childPath _ _).symm, h⟩
  · next hk =>
    rw [if_neg hk] at h
    exact h

theorem inv_update {t : TUn E S α} {g : Ghost α} {gs : List (Ghost α)} (hI : SInv o K Inv C R strict t (g :: gs))
    {c' cm' : Cur (TVal α g.τ)} {l' : ULoc (TVal α g.τ)} {s' : Nat × S} (ov : Option (TVal α g.τ))
    (h1 : UCol.Sim strict (K (TPath.pref (gs.map Ghost.entry)) g.τ)
      (inputList o C (TPath.pref (gs.map Ghost.entry)) g.τ) l' cm' c')
    (h2 : colQ o R g.τ gs s' cm') :
    SInv o K Inv C R strict (t.update gs.length g.τ (ov, l', s')).2 (⟨g.τ, c', cm'⟩ :: gs) := by
  obtain ⟨l1, l2, l3⟩ := hI.loc
  refine ⟨hI.path, hI.len, ?_, ⟨l1, ?_, ?_⟩, hI.inv⟩
  · simp only [childPath, TUn.update]
    have := h2.2
    split at this
    · next hk => rw [if_pos hk]; exact this.2
    · next hk => rw [if_neg hk]; exact this
  · simp only [TUn.update, TUn.setLoc, Function.update_self]
    exact h1
  · refine l3.congr fun k hk => ?_
    simp only [TUn.update, TUn.setLoc]
    rw [Function.update_of_ne (by omega)]

/-- the column scan of the current layer is the right one -/
theorem kind_top (hO : OK o K Inv) {t : TUn E S α} {g : Ghost α} {gs : List (Ghost α)}
    (hI : SInv o K Inv C R strict t (g :: gs)) :
    o.kind t.e gs.length g.τ = K (TPath.pref (gs.map Ghost.entry)) g.τ := by
  have h := hI.inv
  have hl := length_pref_map hI.loc.1
  have := hO.top (e := t.e) (p := TPath.pref (gs.map Ghost.entry)) (τ := g.τ) h
    (by rw [hl]; have := hI.len; simp only [List.length_cons] at this; omega)
  rw [hl] at this
  exact this

theorem uses_inp (hO : OK o K Inv) {t : TUn E S α} {g : Ghost α} {gs : List (Ghost α)}
    (hI : SInv o K Inv C R strict t (g :: gs)) (h : UCol.uses (K (TPath.pref (gs.map Ghost.entry)) g.τ)) :
    o.inp gs.length = true := by
  have hl := length_pref_map hI.loc.1
  have := hO.uses _ _ (by rw [hl]; have := hI.len; simp only [List.length_cons] at this; omega) h
  rw [hl] at this
  exact this

theorem inputList_asc (hC : ∀ p τ, Asc (C p τ)) (ht : ∀ p τ a, a ∈ C p τ → ty a = τ) (p : List α) (τ : Ty) :
    Asc (inputList o C p τ) := typedList_asc (ht _ _) (hC _ _)

theorem uses_of_seeks {β : Type} {k : UKind β} (h : UCol.seeks k) : UCol.uses k := by
  cases k <;> first | exact h | exact trivial

theorem rel_next (hO : OK o K Inv) (hS : Simulates cops ar C R)
    (hC : ∀ p τ, Asc (C p τ)) (ht : ∀ p τ a, a ∈ C p τ → ty a = τ)
    (hK : (∃ p τ, UCol.seeks (K p τ)) → SeekSim cops R) (t : TUn E S α) (τ : Ty)
    (c : Cur α) (p : TPath α) (h : Rel o K Inv C R strict t ((τ, c) :: p)) :
    ∃ t', (TUn.ops o cops).next t τ = some (c.next.current, t') ∧ Rel o K Inv C R strict t' ((τ, c.next) :: p) := by
  obtain ⟨gs, hp, hI⟩ := h
  cases gs with
  | nil => simp at hp
  | cons g gs =>
    simp only [List.map_cons, List.cons.injEq, Ghost.entry, Prod.mk.injEq] at hp
    obtain ⟨⟨rfl, rfl⟩, rfl⟩ := hp
    obtain ⟨l', cm', s', h1, h2, h3⟩ := UCol.sim_next (ops := childOps cops g.τ) (Q := colQ o R g.τ gs)
      (inputList_asc hC ht _ _)
      (fun hu => by rw [colQ_eq (uses_inp hO hI hu)]; exact child_simOn hS _ _)
      (fun hu => by rw [colQ_eq (uses_inp hO hI (uses_of_seeks hu))]; exact child_seekOn hS (hK ⟨_, _, hu⟩) _ _)
      hI.loc.2.1 (colQ_of hI)
    refine ⟨_, ?_, _, ?_, inv_update hI g.c.next.current h2 h3⟩
    rotate_left
    · simp [Ghost.entry]
    · simp only [TUn.ops, TUn.next, hI.path, usub, List.length_map, List.length_cons]
      simp only [Nat.le_add_left, if_true, Nat.add_sub_cancel, Option.bind_eq_bind, Option.bind_some]
      rw [kind_top hO hI, h1]
      simp only [Option.map_some, TUn.update, Cur.map_next, Cur.map_current]

theorem rel_seek (hO : OK o K Inv) (hS : Simulates cops ar C R)
    (hC : ∀ p τ, Asc (C p τ)) (ht : ∀ p τ a, a ∈ C p τ → ty a = τ)
    (hK : SeekSim cops R) (hst : strict = true → ∀ p τ, ¬ UCol.isFiltered (K p τ)) :
    SeekSim (TUn.ops o cops) (Rel o K Inv C R strict) := by
  intro t c p v h
  obtain ⟨gs, hp, hI⟩ := h
  cases gs with
  | nil => simp at hp
  | cons g gs =>
    obtain ⟨τ, gc, gm⟩ := g
    simp only [List.map_cons, List.cons.injEq, Ghost.entry, Prod.mk.injEq] at hp
    obtain ⟨⟨e, rfl⟩, rfl⟩ := hp
    subst e
    obtain ⟨l', cm', s', h1, h2, h3⟩ := UCol.sim_seek (ops := childOps cops (ty v)) (Q := colQ o R (ty v) gs)
      (inputList_asc hC ht _ _) (fun hs => hst hs _ _)
      (fun hu => by rw [colQ_eq (uses_inp hO hI hu)]; exact child_simOn hS _ _)
      (fun hu => by rw [colQ_eq (uses_inp hO hI hu)]; exact child_seekOn hS hK _ _) ⟨v, rfl⟩
      hI.loc.2.1 (colQ_of hI)
    have hms := Cur.map_seek gc ⟨v, rfl⟩
    simp only at hms
    refine ⟨_, ?_, _, ?_, inv_update hI (gc.seek ⟨v, rfl⟩).current h2 h3⟩
    rotate_left
    · simp [Ghost.entry, hms]
    · simp only [TUn.ops, TUn.seek, hI.path, usub, List.length_map, List.length_cons]
      simp only [Nat.le_add_left, if_true, Nat.add_sub_cancel, Option.bind_eq_bind, Option.bind_some]
      rw [kind_top hO hI, h1]
      simp only [Option.map_some, TUn.update, hms, Cur.map_current]

theorem current_same {T β : Type} [LinearOrder β] {ops : ScanOps T β} {k k' : UKind β} (h : SameCur k k')
    (l : ULoc β) (s : T) : UCol.current ops k l s = UCol.current ops k' l s := by
  rcases h with rfl | ⟨h1, h2⟩
  · rfl
  · cases k <;> first | exact h1.elim | (cases k' <;> first | exact h2.elim | rfl)

theorem pref_suffix {g1 : List (Ghost α)} : ∀ {g : Ghost α} {gs : List (Ghost α)},
    TPath.full ((g1 ++ g :: gs).map Ghost.entry) → ∃ v : TVal α g.τ, g.c.current = some v ∧
      ∃ u, TPath.pref ((g1 ++ g :: gs).map Ghost.entry) = TPath.pref (gs.map Ghost.entry) ++ v.val :: u := by
  induction g1 with
  | nil =>
    intro g gs h
    obtain ⟨v, h1, h2, h3⟩ := full_cons' h
    exact ⟨v, h1, [], by rw [List.nil_append, h3]⟩
  | cons x g1 ih =>
    intro g gs h
    obtain ⟨w, -, h2, h3⟩ := full_cons' (g := x) (gs := g1 ++ g :: gs) h
    obtain ⟨v, h4, u, h5⟩ := ih h2
    exact ⟨v, h4, u ++ [w.val], by rw [List.cons_append, h3, h5]; simp⟩

/-- the column scans of all layers show the right values -/
theorem kind_cur (hO : OK o K Inv) {t : TUn E S α} {g1 : List (Ghost α)} {g : Ghost α} {gs : List (Ghost α)}
    (hI : SInv o K Inv C R strict t (g1 ++ g :: gs)) :
    SameCur (o.kind t.e gs.length g.τ) (K (TPath.pref (gs.map Ghost.entry)) g.τ) := by
  cases g1 with
  | nil => exact .inl (kind_top hO hI)
  | cons x g1 =>
    have l1 : TPath.full ((g1 ++ g :: gs).map Ghost.entry) := hI.loc.1
    have hinv := hI.inv
    have hlen := length_pref_map l1
    obtain ⟨v, hv, u, hu⟩ := pref_suffix (g1 := g1) (g := g) (gs := gs) l1
    have hfull : TPath.full (gs.map Ghost.entry) := by
      intro e he
      exact l1 e (by rw [List.map_append, List.map_cons]; simp [he])
    have hlgs := length_pref_map hfull
    have hx : topTy (x :: g1 ++ g :: gs) = some x.τ := rfl
    have hb : below (x :: g1 ++ g :: gs) = TPath.pref (gs.map Ghost.entry) ++ v.val :: u := hu
    rw [hx, hb] at hinv
    have hL := hI.len
    have h := hO.cur hinv (by
      have := congrArg List.length hu
      rw [hlen] at this
      rw [← this]
      simp only [List.length_cons, List.length_append] at hL ⊢
      omega) gs.length (by simp [hlgs])
    have e1 : (TPath.pref (gs.map Ghost.entry) ++ v.val :: u)[gs.length]'(by simp [hlgs]) = v.val := by
      rw [List.getElem_append_right (by omega)]
      simp [hlgs]
    have e2 : (TPath.pref (gs.map Ghost.entry) ++ v.val :: u).take gs.length = TPath.pref (gs.map Ghost.entry) := by
      rw [← hlgs, List.take_left]
    rw [e2] at h
    have e3 : ty ((TPath.pref (gs.map Ghost.entry) ++ v.val :: u)[gs.length]'(by simp [hlgs])) = g.τ := by
      rw [e1]; exact v.property
    rw [e3] at h
    exact h

theorem childPath_append (inp : Nat → Bool) (g1 : List (Ghost α)) {g : Ghost α} {gs : List (Ghost α)}
    (h : inp gs.length = true) :
    ∃ q, childPath inp (g1 ++ g :: gs) = q ++ (g.τ, g.cm.map Subtype.val) :: childPath inp gs := by
  induction g1 with
  | nil => exact ⟨[], by simp [childPath, h]⟩
  | cons x g1 ih =>
    obtain ⟨q, hq⟩ := ih
    simp only [List.cons_append, childPath]
    split
    · exact ⟨(x.τ, x.cm.map Subtype.val) :: q, by rw [hq]; rfl⟩
    · exact ⟨q, hq⟩

theorem rel_current (hO : OK o K Inv) (hS : Simulates cops ar C R) (hC : strict = true → CurSim cops R)
    (t : TUn E S α) (p q : TPath α) (τ : Ty) (c : Cur α)
    (h : Rel o K Inv C R strict t (p ++ (τ, c) :: q)) (he : c ≠ .at [] ∨ strict = true) :
    (TUn.ops o cops).current t q.length τ = c.current := by
  obtain ⟨gs, hp, hI⟩ := h
  obtain ⟨g1, g2, rfl, -, h2⟩ := List.append_eq_map_iff.mp hp
  cases g2 with
  | nil => simp at h2
  | cons g gs =>
    simp only [List.map_cons, List.cons.injEq, Ghost.entry, Prod.mk.injEq] at h2
    obtain ⟨⟨rfl, rfl⟩, rfl⟩ := h2
    obtain ⟨l1, l2, l3⟩ := hI.loc.append
    have hlen : gs.length < o.arity := by have := hI.len; simp at this; omega
    simp only [TUn.ops, TUn.current, List.length_map]
    rw [current_same (kind_cur hO hI), UCol.sim_current l2 (s := TUn.source o t gs.length) ?_ ?_]
    · rw [Cur.map_current]
    · intro hu hcm
      have hinp : o.inp gs.length = true := by
        have hl := length_pref_map l1
        have := hO.uses _ _ (by rw [hl]; exact hlen) hu
        rw [hl] at this
        exact this
      have hch := hI.child
      obtain ⟨q, hq⟩ := childPath_append o.inp g1 (g := g) hinp
      rw [hq] at hch
      have hcur : cops.current t.child (childPath o.inp gs).length g.τ = (g.cm.map Subtype.val).current := by
        rcases hcm with hcm | hcm
        · refine hS.current _ _ _ _ _ hch ?_
          intro e
          apply hcm
          cases hg : g.cm with
          | fresh l => rw [hg] at e; simp [Cur.map] at e
          | «at» l => rw [hg] at e; simp only [Cur.map, Cur.at.injEq, List.map_eq_nil_iff] at e; rw [e]
        · exact hC hcm _ _ _ _ _ hch
      simp only [childOps, TUn.source]
      rw [length_childPath] at hcur
      rw [hcur, Cur.map_current]
      cases g.cm.current with
      | none => rfl
      | some a => simp [asTyped_val]
    · rcases he with he | he
      · left
        rintro e
        rw [e] at he
        exact he rfl
      · exact .inr he

theorem rel_up (hO : OK o K Inv) (hS : Simulates cops ar C R) (t : TUn E S α)
    (e : Ty × Cur α) (p : TPath α) (h : Rel o K Inv C R strict t (e :: p)) :
    ∃ t', (TUn.ops o cops).up t = some t' ∧ Rel o K Inv C R strict t' p := by
  obtain ⟨gs, hp, hI⟩ := h
  cases gs with
  | nil => simp at hp
  | cons g gs =>
    simp only [List.map_cons, List.cons.injEq] at hp
    obtain ⟨-, rfl⟩ := hp
    obtain ⟨l1, l2, l3⟩ := hI.loc
    have hlen := length_pref_map l1
    obtain ⟨e', h1, h2⟩ := hO.up (e := t.e) (p := TPath.pref (gs.map Ghost.entry)) (τ := g.τ) hI.inv
      (by rw [hlen]; have := hI.len; simp only [List.length_cons] at this; omega)
    rw [hlen] at h1
    obtain ⟨b1, b2⟩ := below_pref l1
    rw [← b1, ← b2] at h2
    have hch : ∃ s', TUn.childUp o cops t gs.length = some s' ∧ R s' (childPath o.inp gs) := by
      have := hI.child
      simp only [childPath] at this
      unfold TUn.childUp
      split
      · next hk =>
        rw [if_pos hk] at this
        exact hS.up _ _ _ this
      · next hk =>
        rw [if_neg hk] at this
        exact ⟨_, rfl, this⟩
    obtain ⟨s', h3, h4⟩ := hch
    refine ⟨⟨s', e', t.path.tail, t.loc⟩, ?_, gs, rfl, ?_, ?_, h4, l3, h2⟩
    · simp only [TUn.ops, TUn.up, hI.path, usub, List.length_map, List.length_cons]
      simp only [Nat.le_add_left, if_true, Nat.add_sub_cancel, Option.bind_eq_bind, Option.bind_some, h3, h1]
      rfl
    · simp [hI.path]
    · have := hI.len; simp at this; omega

theorem rel_down (hO : OK o K Inv) (hS : Simulates cops ar C R) (har : numBefore o.inp o.arity = ar)
    (hC : ∀ p τ, Asc (C p τ)) (ht : ∀ p τ a, a ∈ C p τ → ty a = τ)
    (hu : ∀ p τ, p.length < o.arity → o.inp p.length = true → UCol.uses (K p τ) ∨ K p τ = .const none)
    (hcs : strict = true → CurSim cops R)
    (t : TUn E S α) (p : TPath α) (τ : Ty) (h : Rel o K Inv C R strict t p) (hf : p.full) (hl : p.length < o.arity) :
    ∃ t', (TUn.ops o cops).down t τ = some t' ∧
      Rel o K Inv C R strict t' ((τ, .fresh (ch o K C p.pref τ)) :: p) := by
  have hrel := h
  obtain ⟨gs, rfl, hI⟩ := h
  rw [List.length_map] at hl
  have hlen := length_pref_map hf
  obtain ⟨b1, b2⟩ := below_pref hf
  have hinv := hI.inv
  rw [b1, b2] at hinv
  obtain ⟨e', h1, h2⟩ := hO.down (cur := TUn.current o cops t) τ hinv (by rw [hlen]; exact hl) (by
    intro k hk
    obtain ⟨q1, ent, q2, hq, hq2⟩ : ∃ q1 ent q2, gs.map Ghost.entry = q1 ++ ent :: q2 ∧ q2.length = k := by
      rw [hlen] at hk
      refine ⟨(gs.map Ghost.entry).take (gs.length - 1 - k), (gs.map Ghost.entry)[gs.length - 1 - k]'(by simp; omega),
        (gs.map Ghost.entry).drop (gs.length - 1 - k + 1), ?_, ?_⟩
      · rw [List.getElem_cons_drop, List.take_append_drop]
      · simp; omega
    obtain ⟨σ, c⟩ := ent
    obtain ⟨g1, g2, rfl, -, hg⟩ := List.append_eq_map_iff.mp hq.symm
    cases g2 with
    | nil => simp at hg
    | cons g g2 =>
      simp only [List.map_cons, List.cons.injEq, Ghost.entry, Prod.mk.injEq] at hg
      obtain ⟨⟨rfl, rfl⟩, rfl⟩ := hg
      obtain ⟨v, hv, u, hu⟩ := pref_suffix hf
      have hfull2 : TPath.full (g2.map Ghost.entry) := by
        intro e he
        exact hf e (by rw [List.map_append, List.map_cons]; simp [he])
      have hl2 := length_pref_map hfull2
      rw [List.length_map] at hq2
      have hget : (TPath.pref ((g1 ++ g :: g2).map Ghost.entry))[k]'hk = v.val := by
        simp only [hu]
        rw [List.getElem_append_right (by omega)]
        simp [hl2, hq2]
      rw [hget]
      have hr := rel_current hO hS hcs t (g1.map Ghost.entry) (g2.map Ghost.entry) g.τ (g.c.map Subtype.val)
        (by rw [List.map_append, List.map_cons] at hrel; exact hrel)
        (.inl (by
          cases hg : g.c with
          | fresh l => simp [Cur.map]
          | «at» l =>
            rw [hg] at hv
            cases l with
            | nil => simp [Cur.current] at hv
            | cons a l => simp [Cur.map]))
      rw [List.length_map, hq2, Cur.map_current, hv] at hr
      rw [v.property]
      exact hr)
  rw [map_ty_pref hf] at h1
  obtain ⟨c1, c2⟩ := childPath_full hO hu hI.len hI.loc hf
  have hch : ∃ s', TUn.childDown o cops t τ = some s' ∧
      R s' (childPath o.inp (⟨τ, .fresh (UCol.contents (K (TPath.pref (gs.map Ghost.entry)) τ)
        (inputList o C (TPath.pref (gs.map Ghost.entry)) τ)),
        .fresh (inputList o C (TPath.pref (gs.map Ghost.entry)) τ)⟩ :: gs)) := by
    simp only [childPath, TUn.childDown, hI.path, List.length_map]
    split
    · next hk =>
      obtain ⟨s', d1, d2⟩ := hS.down _ _ τ hI.child c1 (by
        rw [length_childPath, ← har]
        have := numBefore_mono o.inp (show gs.length + 1 ≤ o.arity from hl)
        rw [numBefore_succ, if_pos hk] at this
        omega)
      refine ⟨s', d1, ?_⟩
      rw [c2] at d2
      simp only [Cur.map, inputList]
      rw [typedList_val (ht _ _)]
      exact d2
    · exact ⟨_, rfl, hI.child⟩
  obtain ⟨s', h3, h4⟩ := hch
  refine ⟨⟨s', e', τ :: t.path, TUn.setLoc t.loc t.path.length τ .fresh⟩, ?_,
    ⟨τ, .fresh (UCol.contents (K (TPath.pref (gs.map Ghost.entry)) τ)
        (inputList o C (TPath.pref (gs.map Ghost.entry)) τ)),
        .fresh (inputList o C (TPath.pref (gs.map Ghost.entry)) τ)⟩ :: gs, ?_, ?_, ?_, h4, ⟨hf, ?_, ?_⟩, h2⟩
  · rw [← hI.path] at h1
    simp only [TUn.ops, TUn.down, Option.bind_eq_bind, Option.bind_some, h1, h3]
    rfl
  · simp [Ghost.entry, Cur.map, ch, inputList]
  · simp [hI.path]
  · simp only [List.length_cons]; omega
  · simp only [hI.path, List.length_map, TUn.setLoc, Function.update_self]
    exact UCol.sim_new _ _ (inputList_asc hC ht _ _)
  · refine hI.loc.congr fun k hk => ?_
    simp only [TUn.setLoc, hI.path, List.length_map]
    rw [Function.update_of_ne (by omega)]

end

/-! ## The table -/

/-- the scan with its arity and possible types -/
def scan (o : UOp E α) (types : Nat → List Ty) (I : PScan S α) : PScan (TUn E S α) α where
  toTrieOps := TUn.ops o I.toTrieOps
  arity _ := o.arity
  types _ := types

/-- What the operator computes: the rows whose every value is among those of the column scan that
belongs there; the columns of the input form a row of the input. -/
theorem table (hO : OK o K Inv)
    (hu : ∀ p τ, p.length < o.arity → o.inp p.length = true → UCol.uses (K p τ) ∨ K p τ = .const none)
    {I : PScan S α} {m m' : Mode} {s : S} {e : E} {types : Nat → List Ty} {rows : List α → Prop}
    (hT : IsTable I m s (numBefore o.inp o.arity) rows) (he : Inv e [] none) (hm : m'.le m)
    (hsk : (∃ p τ, UCol.seeks (K p τ)) → m.sk = true)
    (hfil : m'.sk = true → m'.cu = true → ∀ p τ, ¬ UCol.isFiltered (K p τ))
    (hta : ∀ k, (types k).Pairwise (· < ·))
    (hcov : ∀ C : List α → Ty → List α, TreeOK (I.types s) C (numBefore o.inp o.arity) →
      ∀ p τ a, IsPath (ch o K C) [] p → p.length < o.arity → a ∈ ch o K C p τ → τ ∈ types p.length) :
    ∃ C : List α → Ty → List α, (∀ r, RowsOf C (numBefore o.inp o.arity) r ↔ rows r) ∧
      (∀ p τ a, a ∈ C p τ → ty a = τ) ∧
      IsTable (scan o types I) m' (TUn.new s e) o.arity (RowsOf (ch o K C) o.arity) := by
  obtain ⟨h0, C, R, hS, hK, hCur, hOK, hR, hrows⟩ := hT
  refine ⟨C, hrows, hOK.typed, rfl, ch o K C, Rel o K Inv C R m'.cu, ?_, ?_, ?_, ?_, ?_, fun r => Iff.rfl⟩
  · constructor
    · rintro t p ⟨gs, rfl, hI⟩
      simp [TUn.ops, scan, hI.path]
      exact hI.len
    · exact rel_next hO hS hOK.asc hOK.typed (fun h => hK (hsk h))
    · intro t p q τ c h hc
      exact rel_current hO hS (fun hc => hCur (hm.2 hc)) t p q τ c h (.inl hc)
    · exact rel_up hO hS
    · exact rel_down hO hS rfl hOK.asc hOK.typed hu (fun hc => hCur (hm.2 hc))
  · intro hs
    exact rel_seek hO hS hOK.asc hOK.typed (hK (hm.1 hs)) (hfil hs)
  · intro hc t p q τ c h
    exact rel_current hO hS (fun hc => hCur (hm.2 hc)) t p q τ c h (.inr hc)
  · exact ⟨ch_asc hOK.asc hOK.typed, ch_typed, hta, hcov C hOK⟩
  · exact ⟨[], rfl, rfl, by simp, hR, trivial, he⟩

end UOp
end Verif
