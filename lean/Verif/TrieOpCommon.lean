import Verif.ColumnParam
import Verif.TreeRows

/-!
# Trie operators: what they share

The operators of `/repo/nemo-physical/src/tabular/operations` hold several partial trie scans and
present one.  On each layer they run a column operator (per storage type) on the column scans of
some of their inputs.  All inputs have the same type `TrieScanEnum` in Rust; here: one type of
states `S` with one interface `cops`.
-/

set_option linter.unusedSimpArgs false
set_option linter.unusedSectionVars false
set_option linter.unusedVariables false

namespace Verif

/-- all storage types (`StorageTypeBitSet::full`, storage_type_name.rs:83-92) in their order -/
def allTys : List Ty := [0, 1, 2, 3, 4]

theorem mem_allTys (τ : Ty) : τ ∈ allTys := by
  unfold allTys; revert τ; decide

theorem allTys_asc : allTys.Pairwise (· < ·) := by unfold allTys; decide

/-- Values of one storage type: the items of a `ColumnScanCell<T>`. -/
abbrev TVal (α : Type) [SVal α] (τ : Ty) := {a : α // ty a = τ}

/-- apply a function to the values of a cursor -/
def Cur.map {β γ : Type} (f : β → γ) : Cur β → Cur γ
  | .fresh l => .fresh (l.map f)
  | .at l => .at (l.map f)

section
variable {β γ : Type} (f : β → γ)

@[simp] theorem Cur.map_rem (c : Cur β) : (c.map f).rem = c.rem.map f := by cases c <;> rfl
@[simp] theorem Cur.map_current (c : Cur β) : (c.map f).current = c.current.map f := by
  cases c <;> simp [Cur.map, Cur.current]
@[simp] theorem Cur.map_next (c : Cur β) : (c.map f).next = c.next.map f := by
  cases c <;> simp [Cur.map, Cur.next]
end

variable {α : Type} [SVal α]

theorem Cur.map_seek {τ : Ty} (c : Cur (TVal α τ)) (v : TVal α τ) :
    (c.map Subtype.val).seek v.val = (c.seek v).map Subtype.val := by
  unfold Cur.seek
  rw [Cur.map_rem, List.dropWhile_map]
  rfl

/-- view a value as a value of type `τ` -/
def asTyped (τ : Ty) (a : α) : Option (TVal α τ) := if h : ty a = τ then some ⟨a, h⟩ else none

theorem asTyped_val {τ : Ty} (a : TVal α τ) : asTyped τ a.val = some a := by
  unfold asTyped; rw [dif_pos a.property]

/-- the values of type `τ` in a list -/
def typedList (τ : Ty) (l : List α) : List (TVal α τ) := l.filterMap (asTyped τ)

theorem typedList_val {τ : Ty} {l : List α} (h : ∀ a ∈ l, ty a = τ) :
    (typedList τ l).map Subtype.val = l := by
  induction l with
  | nil => rfl
  | cons a l ih =>
    have ha := h a (by simp)
    simp only [typedList, List.filterMap_cons, asTyped, dif_pos ha, List.map_cons]
    congr 1
    exact ih fun b hb => h b (List.mem_cons_of_mem _ hb)

theorem mem_typedList {τ : Ty} {l : List α} {a : TVal α τ} : a ∈ typedList τ l ↔ a.val ∈ l := by
  unfold typedList
  rw [List.mem_filterMap]
  constructor
  · rintro ⟨b, hb, h⟩
    unfold asTyped at h
    split at h
    · simp only [Option.some.injEq] at h; subst h; exact hb
    · simp at h
  · intro h; exact ⟨a.val, h, asTyped_val a⟩

theorem asc_map_val {τ : Ty} {l : List (TVal α τ)} : Asc (l.map Subtype.val) ↔ Asc l := by
  unfold Asc
  rw [List.pairwise_map]
  rfl

theorem typedList_asc {τ : Ty} {l : List α} (h : ∀ a ∈ l, ty a = τ) (ha : Asc l) : Asc (typedList τ l) := by
  rw [← asc_map_val, typedList_val h]; exact ha

/-! ## One column of an input -/

section
variable {S : Type}

/-- The answer of an input, as a value of the type of the column scan. -/
def typedAnswer (τ : Ty) (col : Nat) (r : Option α × S) : Option (Option (TVal α τ) × Nat × S) :=
  match r.1 with
  | none => some (none, col, r.2)
  | some a => (asTyped τ a).map fun t => (some t, col, r.2)

/-- The column scan of type `τ` of one layer of an input (`trie_scan.scan(col).scan_τ`, e.g.
join.rs:155-160); a state is the layer `col` and the state of the input.  Simplification: a call
that moves the column scan while the input is not on that layer is treated as a panic (it never
happens: see the theorems about the operators). -/
def childOps (cops : TrieOps S α) (τ : Ty) : ScanOps (Nat × S) (TVal α τ) where
  next s := if cops.depth s.2 = s.1 + 1 then (cops.next s.2 τ).bind (typedAnswer τ s.1) else none
  seek s v := if cops.depth s.2 = s.1 + 1 then (cops.seek s.2 v.val).bind (typedAnswer τ s.1) else none
  current s := (cops.current s.2 s.1 τ).bind (asTyped τ)

/-- relation between the states of an input and the cursors of its current layer -/
def childQ (R : S → TPath α → Prop) (τ : Ty) (p : TPath α) (s : Nat × S) (c : Cur (TVal α τ)) : Prop :=
  s.1 = p.length ∧ R s.2 ((τ, c.map Subtype.val) :: p)

theorem typedAnswer_map {τ : Ty} (col : Nat) (o : Option (TVal α τ)) (s : S) :
    typedAnswer τ col (o.map Subtype.val, s) = some (o, col, s) := by
  cases o with
  | none => rfl
  | some a => simp [typedAnswer, asTyped_val]

variable {cops : TrieOps S α} {arity : Nat} {ch : List α → Ty → List α} {R : S → TPath α → Prop}

theorem child_simOn (hS : Simulates cops arity ch R) (τ : Ty) (p : TPath α) :
    SimOn (childOps cops τ) (childQ R τ p) where
  next s c h := by
    obtain ⟨h0, h⟩ := h
    have hd := (hS.depth _ _ h).1
    obtain ⟨s', h1, h2⟩ := hS.next _ _ _ _ h
    simp only [childOps, if_pos (show cops.depth s.2 = s.1 + 1 by rw [h0]; simpa using hd), h1, Option.bind_some,
      Cur.map_next, Cur.map_current, typedAnswer_map]
    exact ⟨(s.1, s'), rfl, by simpa [childQ, h0] using h2⟩

theorem child_curOn (hC : CurSim cops R) (τ : Ty) (p : TPath α) :
    CurOn (childOps cops τ) (childQ R τ p) := by
  rintro s c ⟨h0, h⟩
  simp only [childOps]
  have := hC s.2 [] p τ (c.map Subtype.val) h
  rw [h0, this, Cur.map_current]
  cases c.current with
  | none => rfl
  | some a => simp [asTyped_val]

theorem child_seekOn (hS : Simulates cops arity ch R) (hK : SeekSim cops R) (τ : Ty) (p : TPath α) :
    SeekOn (childOps cops τ) (childQ R τ p) := by
  intro s c v h
  obtain ⟨h0, h⟩ := h
  have hd := (hS.depth _ _ h).1
  have h' : R s.2 ((ty v.val, c.map Subtype.val) :: p) := by rw [v.property]; exact h
  obtain ⟨s', h1, h2⟩ := hK _ _ _ _ h'
  rw [Cur.map_seek] at h1 h2
  simp only [childOps, if_pos (show cops.depth s.2 = s.1 + 1 by rw [h0]; simpa using hd), h1, Option.bind_some,
    Cur.map_current, typedAnswer_map]
  exact ⟨(s.1, s'), rfl, h0, by rw [v.property] at h2; exact h2⟩

end

/-! ## Moving the inputs -/

section
variable {S : Type} {n : Nat}

/-- `for &i in list { trie_scans[i].down(τ) }` (e.g. join.rs:245-248) -/
def moveDown (cops : TrieOps S α) (τ : Ty) : List (Fin n) → (Fin n → S) → Option (Fin n → S)
  | [], kids => some kids
  | i :: is, kids => (cops.down (kids i) τ).bind fun s => moveDown cops τ is (Function.update kids i s)

/-- `for &i in list { trie_scans[i].up() }` (e.g. join.rs:233-236) -/
def moveUp (cops : TrieOps S α) : List (Fin n) → (Fin n → S) → Option (Fin n → S)
  | [], kids => some kids
  | i :: is, kids => (cops.up (kids i)).bind fun s => moveUp cops is (Function.update kids i s)

variable {cops : TrieOps S α} {arity : Fin n → Nat} {ch : Fin n → List α → Ty → List α}
  {R : Fin n → S → TPath α → Prop}

theorem moveDown_spec (hS : ∀ j, Simulates cops (arity j) (ch j) (R j)) (τ : Ty) {is : List (Fin n)}
    (hnd : is.Nodup) : ∀ {kids : Fin n → S} {p : Fin n → TPath α}, (∀ j, R j (kids j) (p j)) →
      (∀ j ∈ is, (p j).full ∧ (p j).length < arity j) →
      ∃ kids', moveDown cops τ is kids = some kids' ∧
        ∀ j, R j (kids' j) (if j ∈ is then (τ, .fresh (ch j (p j).pref τ)) :: p j else p j) := by
  induction is with
  | nil => intro kids p hR _; exact ⟨kids, rfl, fun j => by simpa using hR j⟩
  | cons i is ih =>
    intro kids p hR hf
    obtain ⟨s, h1, h2⟩ := (hS i).down _ _ τ (hR i) (hf i (by simp)).1 (hf i (by simp)).2
    obtain ⟨hni, hnd'⟩ := List.nodup_cons.mp hnd
    obtain ⟨kids', h3, h4⟩ := ih hnd' (kids := Function.update kids i s)
      (p := Function.update p i ((τ, .fresh (ch i (p i).pref τ)) :: p i)) (by
        intro j
        by_cases e : j = i
        · subst e; simpa using h2
        · simpa [Function.update_of_ne e] using hR j) (by
        intro j hj
        have e : j ≠ i := fun e => hni (e ▸ hj)
        rw [Function.update_of_ne e]
        exact hf j (List.mem_cons_of_mem _ hj))
    refine ⟨kids', by simp [moveDown, h1, h3], fun j => ?_⟩
    have := h4 j
    by_cases e : j = i
    · subst e
      simpa [hni] using this
    · simpa [Function.update_of_ne e, e] using this

theorem moveUp_spec (hS : ∀ j, Simulates cops (arity j) (ch j) (R j)) {is : List (Fin n)}
    (hnd : is.Nodup) : ∀ {kids : Fin n → S} {p : Fin n → TPath α}, (∀ j, R j (kids j) (p j)) →
      (∀ j ∈ is, p j ≠ []) →
      ∃ kids', moveUp cops is kids = some kids' ∧
        ∀ j, R j (kids' j) (if j ∈ is then (p j).tail else p j) := by
  induction is with
  | nil => intro kids p hR _; exact ⟨kids, rfl, fun j => by simpa using hR j⟩
  | cons i is ih =>
    intro kids p hR hf
    obtain ⟨e, q, hq⟩ := List.exists_cons_of_ne_nil (hf i (by simp))
    have hRi := hR i
    rw [hq] at hRi
    obtain ⟨s, h1, h2⟩ := (hS i).up _ _ _ hRi
    obtain ⟨hni, hnd'⟩ := List.nodup_cons.mp hnd
    obtain ⟨kids', h3, h4⟩ := ih hnd' (kids := Function.update kids i s)
      (p := Function.update p i q) (by
        intro j
        by_cases e : j = i
        · subst e; simpa using h2
        · simpa [Function.update_of_ne e] using hR j) (by
        intro j hj
        have e : j ≠ i := fun e => hni (e ▸ hj)
        rw [Function.update_of_ne e]
        exact hf j (List.mem_cons_of_mem _ hj))
    refine ⟨kids', by simp [moveUp, h1, h3], fun j => ?_⟩
    have := h4 j
    by_cases e : j = i
    · subst e
      simpa [hni, hq] using this
    · simpa [Function.update_of_ne e, e] using this

end
end Verif
