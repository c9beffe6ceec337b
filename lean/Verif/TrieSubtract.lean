import Verif.TrieJoin

/-!
# Subtraction of tries

Model of `/repo/nemo-physical/src/tabular/operations/subtract.rs`.
-/

set_option linter.unusedSimpArgs false
set_option linter.unusedSectionVars false
set_option linter.unusedVariables false

namespace Verif

/-! ## Followers stay where they are -/

namespace SubScan
variable {n : Nat} {S β : Type} [LinearOrder β] {cops : ScanOps S β} {active : Fin n → Bool}

/-- the same inputs have a column on the layer -/
def SameF (f g : Fin n → Option S) : Prop := ∀ j, (f j).isSome = (g j).isSome

theorem SameF.update {f g : Fin n → Option S} (h : SameF f g) {i : Fin n} {s s' : S} (hi : g i = some s) :
    SameF (Function.update f i (some s')) g := by
  intro j
  by_cases e : j = i
  · subst e; simp [hi]
  · rw [Function.update_of_ne e]; exact h j

theorem sameF_subtractPass (idx : List (Fin n)) : ∀ {st : SubState n S} {v : β} {flag : Bool}
    {r : SubState n S × Option (β × Bool)}, subtractPass cops active idx st v flag = some r →
    SameF r.1.followers st.followers := by
  induction idx with
  | nil =>
    intro st v flag r h
    simp only [subtractPass, Option.some.injEq] at h
    subst h; exact fun _ => rfl
  | cons i idx ih =>
    intro st v flag r h
    simp only [subtractPass] at h
    split at h
    · obtain ⟨f, h1, h⟩ := Option.bind_eq_some_iff.mp h
      obtain ⟨q, h2, h⟩ := Option.bind_eq_some_iff.mp h
      have hu : SameF (Function.update st.followers i (some q.2)) st.followers :=
        SameF.update (fun _ => rfl) h1
      split at h
      · obtain ⟨q', h3, h⟩ := Option.bind_eq_some_iff.mp h
        split at h
        · simp only [Option.some.injEq] at h
          subst h
          exact hu
        · exact fun j => (ih h j).trans (hu j)
      · exact fun j => (ih h j).trans (hu j)
    · exact fun j => ih h j

theorem sameF_subtractLoop (idx : List (Fin n)) {st : SubState n S} {v : β} {r : SubState n S × Option β}
    (h : subtractLoop cops active idx st v = some r) : SameF r.1.followers st.followers := by
  refine subtractLoop.partial_correctness cops active idx
    (fun st v r => SameF r.1.followers st.followers) ?_ st v r h
  intro f ih st v r h
  simp only [Option.bind_eq_bind] at h
  obtain ⟨q, h1, h⟩ := Option.bind_eq_some_iff.mp h
  have h0 := sameF_subtractPass idx h1
  split at h
  · simp only [Option.some.injEq] at h
    subst h
    exact h0
  · split at h
    · exact fun j => (ih _ _ _ h j).trans (h0 j)
    · simp only [Option.some.injEq] at h
      subst h
      exact h0

theorem sameF_followPass {v : β} (idx : List (Fin n)) : ∀ {st st' : SubState n S},
    followPass cops active v idx st = some st' → SameF st'.followers st.followers := by
  induction idx with
  | nil =>
    intro st st' h
    simp only [followPass, Option.some.injEq] at h
    subst h; exact fun _ => rfl
  | cons i idx ih =>
    intro st st' h
    simp only [followPass] at h
    split at h
    · obtain ⟨f, h1, h⟩ := Option.bind_eq_some_iff.mp h
      obtain ⟨q, h2, h⟩ := Option.bind_eq_some_iff.mp h
      have hu : SameF (Function.update st.followers i (some q.2)) st.followers :=
        SameF.update (fun _ => rfl) h1
      exact fun j => (ih h j).trans (hu j)
    · exact ih h

theorem sameF_continue {s : SubScan n S β} {r : Option β × S} {o : Option β} {s' : SubScan n S β}
    (h : continueWith cops s r = some (o, s')) : SameF s'.followers s.followers := by
  unfold continueWith at h
  split at h
  · simp only [Option.some.injEq, Prod.mk.injEq] at h
    obtain ⟨-, rfl⟩ := h
    exact fun _ => rfl
  · obtain ⟨q, h1, h2⟩ := Option.map_eq_some_iff.mp h
    simp only [Prod.mk.injEq] at h2
    obtain ⟨-, rfl⟩ := h2
    unfold moveFollow at h1
    obtain ⟨q', h3, h4⟩ := Option.bind_eq_some_iff.mp h1
    have h5 := sameF_subtractLoop _ h3
    split at h4
    · simp only [Option.some.injEq] at h4
      subst h4
      exact h5
    · obtain ⟨st', h6, h7⟩ := Option.map_eq_some_iff.mp h4
      subst h7
      exact fun j => (sameF_followPass _ h6 j).trans (h5 j)

theorem sameF_next {s s' : SubScan n S β} {o : Option β} (h : (ops cops).next s = some (o, s')) :
    SameF s'.followers s.followers := by
  simp only [ops] at h
  obtain ⟨r, -, h⟩ := Option.bind_eq_some_iff.mp h
  exact sameF_continue h

theorem sameF_seek {s s' : SubScan n S β} {v : β} {o : Option β} (h : (ops cops).seek s v = some (o, s')) :
    SameF s'.followers s.followers := by
  simp only [ops] at h
  obtain ⟨r, -, h⟩ := Option.bind_eq_some_iff.mp h
  exact sameF_continue h

end SubScan

/-! ## Sorted layer maps -/

section
variable {m : List Nat}

/-- whether a layer is in the map -/
def inMap (m : List Nat) (k : Nat) : Bool := decide (k ∈ m)

theorem filter_range_sorted (hm : m.Pairwise (· < ·)) (k : Nat) :
    (List.range k).filter (inMap m) = m.filter (fun x => decide (x < k)) := by
  have h1 : Asc ((List.range k).filter (inMap m)) := List.Pairwise.filter _ List.pairwise_lt_range
  have h2 : Asc (m.filter (fun x => decide (x < k))) := hm.filter _
  refine asc_ext h1 h2 fun x => ?_
  simp [inMap, and_comm]

theorem split_sorted (hm : m.Pairwise (· < ·)) (k : Nat) :
    m = m.filter (fun x => decide (x < k)) ++ m.filter (fun x => decide (k ≤ x)) := by
  induction m with
  | nil => rfl
  | cons a m ih =>
    obtain ⟨h1, h2⟩ := List.pairwise_cons.mp hm
    by_cases hak : a < k
    · rw [List.filter_cons_of_pos (by simpa using hak), List.filter_cons_of_neg (by simpa using hak),
        List.cons_append, ← ih h2]
    · have e1 : m.filter (fun x => decide (x < k)) = [] := by
        rw [List.filter_eq_nil_iff]
        intro x hx
        have := h1 x hx
        simp; omega
      have e2 : m.filter (fun x => decide (k ≤ x)) = m := by
        rw [List.filter_eq_self]
        intro x hx
        have := h1 x hx
        simp; omega
      rw [List.filter_cons_of_neg (by simpa using hak), List.filter_cons_of_pos (by simpa using by omega), e1, e2]
      rfl

theorem numBefore_eq (hm : m.Pairwise (· < ·)) (k : Nat) :
    numBefore (inMap m) k = (m.filter fun x => decide (x < k)).length := by
  unfold numBefore
  rw [filter_range_sorted hm]

theorem numBefore_le (hm : m.Pairwise (· < ·)) (k : Nat) : numBefore (inMap m) k ≤ m.length := by
  rw [numBefore_eq hm]; exact List.length_filter_le _ _

/-- the columns of the map below the current one are on earlier layers -/
theorem getElem_lt (hm : m.Pairwise (· < ·)) {k i : Nat} (h : i < numBefore (inMap m) k) :
    ∃ x, m[i]? = some x ∧ x < k := by
  rw [numBefore_eq hm] at h
  rw [split_sorted hm k, List.getElem?_append_left h]
  refine ⟨_, List.getElem?_eq_getElem h, ?_⟩
  have := List.getElem_mem h
  simpa using (List.mem_filter.mp this).2

/-- the next column of the map -/
theorem getElem_ge (hm : m.Pairwise (· < ·)) {k : Nat} (h : numBefore (inMap m) k < m.length) :
    ∃ x, m[numBefore (inMap m) k]? = some x ∧ (x = k ↔ inMap m k = true) := by
  have hs := split_sorted hm k
  have hn := numBefore_eq hm k
  have h' := congrArg List.length hs
  rw [List.length_append, ← hn] at h'
  obtain ⟨x, l, hx⟩ := List.exists_cons_of_length_pos (l := m.filter fun x => decide (k ≤ x)) (by omega)
  have hg : m[numBefore (inMap m) k]? = some x := by
    rw [hx] at hs
    have h4 : ∀ A B : List Nat, m = A ++ x :: B → m[A.length]? = some x := by
      rintro A B rfl; simp
    rw [hn]
    exact h4 _ _ hs
  refine ⟨x, hg, ?_⟩
  have hxk : k ≤ x := by
    have : x ∈ m.filter (fun x => decide (k ≤ x)) := by rw [hx]; simp
    simpa using (List.mem_filter.mp this).2
  unfold inMap
  rw [decide_eq_true_eq]
  constructor
  · intro e
    rw [← e]
    exact List.mem_of_getElem? hg
  · intro hk
    have h1 : k ∈ m.filter (fun x => decide (k ≤ x)) := List.mem_filter.mpr ⟨hk, by simp⟩
    rw [hx] at h1
    rcases List.mem_cons.mp h1 with e | e
    · exact e.symm
    · have h2 : (m.filter fun x => decide (k ≤ x)).Pairwise (· < ·) := hm.filter _
      rw [hx] at h2
      have := (List.pairwise_cons.mp h2).1 k e
      omega

theorem idxOf_map (hm : m.Pairwise (· < ·)) (k : Nat) :
    m.idxOf? k = if inMap m k = true then some (numBefore (inMap m) k) else none := by
  by_cases hk : inMap m k = true
  · rw [if_pos hk]
    have hk' : k ∈ m := by simpa [inMap] using hk
    have hlt : numBefore (inMap m) k < m.length := by
      have := numBefore_le hm (k + 1)
      rw [numBefore_succ, if_pos hk] at this
      omega
    obtain ⟨x, h1, h2⟩ := getElem_ge hm hlt
    have hx := h2.mpr hk
    subst hx
    have hnd : m.Nodup := hm.imp ne_of_lt
    rw [List.idxOf?_eq_some_iff]
    refine ⟨hlt, ?_, ?_⟩
    · exact (List.getElem?_eq_some_iff.mp h1).2
    · intro j hj
      obtain ⟨y, h3, h4⟩ := getElem_lt hm hj
      have h5 : m[j]'(by omega) = y := by
        rw [List.getElem?_eq_getElem (by omega)] at h3
        simpa using h3
      rw [h5]
      omega
  · rw [if_neg hk]
    rw [List.idxOf?_eq_none_iff]
    simpa [inMap] using hk

end

/-! ## The operator -/

variable {α : Type} [SVal α]

/-- `TrieScanSubtract` (subtract.rs:169-185).  `sh` are the shared vectors `active_scans` (layer `k`
reads vector `k`, its column scans write vector `k + 1`); a vector that was not written yet is empty
in Rust and would make `down` panic, here it is all `false`, but it is never read.  `loc k τ` is the
`current_value` of the column scan of type `τ` of layer `k`. -/
structure TSub (n : Nat) (S α : Type) [SVal α] where
  main : S
  subs : Fin n → S
  maps : Fin n → List Nat
  sh : Nat → Fin n → Bool
  loc : Nat → (τ : Ty) → Option (TVal α τ)

namespace TSub
variable {n : Nat} {S : Type}

/-- Construction of the scan (subtract.rs:84-162). -/
def new (maps : Fin n → List Nat) (main : S) (subs : Fin n → S) : TSub n S α :=
  ⟨main, subs, maps, fun k _ => decide (k = 0), fun _ _ => none⟩

/-- is `k` the last layer of the map (subtract.rs:107-116) -/
def lastOn (m : List Nat) (k : Nat) : Bool :=
  match m.idxOf? k with
  | some u => u + 1 == m.length
  | none => false

/-- is `k` a layer of the map, but not the last one (subtract.rs:107-116) -/
def followOn (m : List Nat) (k : Nat) : Bool :=
  match m.idxOf? k with
  | some u => u + 1 != m.length
  | none => false

/-- `subtract_indices` -/
def sidx (maps : Fin n → List Nat) (k : Nat) : List (Fin n) := (List.finRange n).filter fun j => lastOn (maps j) k

/-- `follow_indices` -/
def fidx (maps : Fin n → List Nat) (k : Nat) : List (Fin n) := (List.finRange n).filter fun j => followOn (maps j) k

/-- `input_follower` (subtract.rs:101-124) -/
def followers (maps : Fin n → List Nat) (k : Nat) (subs : Fin n → S) (j : Fin n) : Option (Nat × S) :=
  ((maps j).idxOf? k).map fun u => (u, subs j)

/-- The column scan of one layer and type (subtract.rs:95-138), with its inputs. -/
def column (t : TSub n S α) (k : Nat) (τ : Ty) : SubScan n (Nat × S) (TVal α τ) :=
  ⟨⟨(k, t.main), followers t.maps k t.subs, t.sh (k + 1)⟩, sidx t.maps k, fidx t.maps k, t.sh k, t.loc k τ⟩

/-- state of an input after a call -/
def newSub (old : S) : Option (Nat × S) → S
  | some s => s.2
  | none => old

/-- The scan after a call to a column scan. -/
def update (t : TSub n S α) (k : Nat) (τ : Ty)
    (r : Option (TVal α τ) × SubScan n (Nat × S) (TVal α τ)) : Option α × TSub n S α :=
  (r.1.map Subtype.val,
    { t with
      main := r.2.main.2
      subs := fun j => newSub (t.subs j) (r.2.followers j)
      sh := Function.update t.sh (k + 1) r.2.equal
      loc := Function.update t.loc k (Function.update (t.loc k) τ r.2.cur) })

/-- `next` of the column scan of the current layer. -/
def next (cops : TrieOps S α) (t : TSub n S α) (τ : Ty) : Option (Option α × TSub n S α) := do
  let k ← usub (cops.depth t.main) 1
  ((SubScan.ops (childOps cops τ)).next (t.column k τ)).map (t.update k τ)

/-- `seek` of the column scan of the current layer. -/
def seek (cops : TrieOps S α) (t : TSub n S α) (v : α) : Option (Option α × TSub n S α) := do
  let k ← usub (cops.depth t.main) 1
  ((SubScan.ops (childOps cops (ty v))).seek (t.column k (ty v)) ⟨v, rfl⟩).map (t.update k (ty v))

/-- the indices for which a test that may panic succeeds -/
def select (f : Fin n → Option Bool) : Option (List (Fin n)) :=
  if ∀ j, (f j).isSome then some ((List.finRange n).filter fun j => f j == some true) else none

/-- does the input move up (subtract.rs:198-204) -/
def upTest (cops : TrieOps S α) (t : TSub n S α) (k : Nat) (j : Fin n) : Option Bool :=
  match cops.depth (t.subs j) with
  | 0 => some false
  | d + 1 => ((t.maps j)[d]?).map fun l => l == k

/-- `up` (subtract.rs:191-208) -/
def up (cops : TrieOps S α) (t : TSub n S α) : Option (TSub n S α) := do
  let k ← usub (cops.depth t.main) 1
  let is ← select (upTest cops t k)
  let subs ← moveUp cops is t.subs
  let main ← cops.up t.main
  return { t with main := main, subs := subs }

/-- does the input move down (subtract.rs:218-226) -/
def downTest (cops : TrieOps S α) (t : TSub n S α) (k : Nat) (j : Fin n) : Option Bool :=
  if t.sh k j then ((t.maps j)[cops.depth (t.subs j)]?).map fun l => l == k else some false

/-- `reset` of the column scan of type `τ` (columnar/operations/subtract.rs:157-159) -/
def resetLoc (t : TSub n S α) (k : Nat) (τ : Ty) : Nat → (τ : Ty) → Option (TVal α τ) :=
  Function.update t.loc k (Function.update (t.loc k) τ none)

/-- `down` (subtract.rs:210-231) -/
def down (cops : TrieOps S α) (t : TSub n S α) (τ : Ty) : Option (TSub n S α) := do
  let k := cops.depth t.main
  let is ← select (downTest cops t k)
  let subs ← moveDown cops τ is t.subs
  let main ← cops.down t.main τ
  return { t with main := main, subs := subs, loc := t.resetLoc k τ }

/-- `TrieScanSubtract` as a partial trie scan -/
def ops (cops : TrieOps S α) : TrieOps (TSub n S α) α where
  depth t := cops.depth t.main
  up := up cops
  down := down cops
  next := next cops
  seek := seek cops
  current t k τ := (t.loc k τ).map Subtype.val

/-! ## Specification -/

/-- What `GeneratorSubtract::new` establishes: the columns of the subtracted tables are columns of the
main table, in order. -/
structure MapsOK (maps : Fin n → List Nat) (ar : Nat) : Prop where
  sorted : ∀ j, (maps j).Pairwise (· < ·)
  ne : ∀ j, maps j ≠ []
  lt : ∀ j, ∀ k ∈ maps j, k < ar

/-- input `j` contains the prefix and has more columns -/
def actOf (maps : Fin n → List Nat) (C : Fin n → List α → Ty → List α) (vs : List α) (j : Fin n) : Bool :=
  decide (IsPath (C j) [] (restrict (inMap (maps j)) 0 vs)) &&
    decide (numBefore (inMap (maps j)) vs.length < (maps j).length)

/-- contents of the inputs on a layer -/
def contents (maps : Fin n → List Nat) (C : Fin n → List α → Ty → List α) (vs : List α) (τ : Ty) (j : Fin n) :
    List (TVal α τ) := typedList τ (C j (restrict (inMap (maps j)) 0 vs) τ)

/-- some input ends here with the value -/
def removed (maps : Fin n → List Nat) (C : Fin n → List α → Ty → List α) (vs : List α) (τ : Ty) (x : α) : Bool :=
  (sidx maps vs.length).any fun j => actOf maps C vs j && decide (x ∈ C j (restrict (inMap (maps j)) 0 vs) τ)

/-- children of the difference -/
def ch (maps : Fin n → List Nat) (C0 : List α → Ty → List α) (C : Fin n → List α → Ty → List α)
    (vs : List α) (τ : Ty) : List α :=
  (C0 vs τ).filter fun x => !removed maps C vs τ x

variable {maps : Fin n → List Nat} {ar : Nat} {C0 : List α → Ty → List α} {C : Fin n → List α → Ty → List α}

theorem mem_sidx (hM : MapsOK maps ar) {k : Nat} {j : Fin n} :
    j ∈ sidx maps k ↔ inMap (maps j) k = true ∧ numBefore (inMap (maps j)) k + 1 = (maps j).length := by
  unfold sidx lastOn
  rw [List.mem_filter, idxOf_map (hM.sorted j)]
  by_cases hk : inMap (maps j) k = true
  · simp [hk]
  · simp [hk]

theorem mem_fidx (hM : MapsOK maps ar) {k : Nat} {j : Fin n} :
    j ∈ fidx maps k ↔ inMap (maps j) k = true ∧ numBefore (inMap (maps j)) k + 1 ≠ (maps j).length := by
  unfold fidx followOn
  rw [List.mem_filter, idxOf_map (hM.sorted j)]
  by_cases hk : inMap (maps j) k = true
  · simp [hk]
  · simp [hk]

theorem ch_asc (hC : ∀ p τ, Asc (C0 p τ)) (vs : List α) (τ : Ty) : Asc (ch maps C0 C vs τ) := (hC vs τ).filter _

theorem ch_typed (hC : ∀ p τ a, a ∈ C0 p τ → ty a = τ) (vs : List α) (τ : Ty) (a : α)
    (h : a ∈ ch maps C0 C vs τ) : ty a = τ := hC _ _ _ (List.mem_filter.mp h).1

/-- all layers of the map are below `k` iff the number of columns below `k` is the length -/
theorem numBefore_full (hM : MapsOK maps ar) (j : Fin n) : numBefore (inMap (maps j)) ar = (maps j).length := by
  rw [numBefore_eq (hM.sorted j), List.filter_eq_self.mpr]
  intro x hx
  simpa using hM.lt j x hx

/-- a row is in the difference iff it is in the main table and no input contains its restriction -/
theorem isPath_ch (hM : MapsOK maps ar) (r : List α) :
    IsPath (ch maps C0 C) [] r ↔ IsPath C0 [] r ∧
      ∀ j, numBefore (inMap (maps j)) r.length = (maps j).length →
        ¬ IsPath (C j) [] (restrict (inMap (maps j)) 0 r) := by
  induction r using List.reverseRecOn with
  | nil =>
    simp only [IsPath, true_and, true_iff, List.length_nil, numBefore]
    intro j hj
    have := hM.ne j
    simp at hj
    exact absurd (List.length_eq_zero_iff.mp hj.symm) this
  | append_singleton r a ih =>
    rw [isPath_append, isPath_append, ih, List.nil_append, isPath_single, isPath_single]
    unfold ch
    rw [List.mem_filter]
    simp only [List.length_append, List.length_singleton, numBefore_succ, Bool.not_eq_true', restrict_snoc,
      isPath_append, List.nil_append]
    constructor
    · rintro ⟨⟨h1, h2⟩, h3, h4⟩
      refine ⟨⟨h1, h3⟩, fun j hj => ?_⟩
      by_cases hk : inMap (maps j) r.length = true
      · rw [if_pos hk] at hj
        rintro ⟨h5, h6⟩
        rw [if_pos hk, isPath_single] at h6
        have : removed maps C r (ty a) a = true := by
          unfold removed
          rw [List.any_eq_true]
          refine ⟨j, (mem_sidx hM).mpr ⟨hk, hj⟩, ?_⟩
          unfold actOf
          simp [h5, h6]
          omega
        rw [this] at h4
        simp at h4
      · rw [if_neg hk] at hj ⊢
        exact fun h => h2 j hj h.1
    · rintro ⟨⟨h1, h2⟩, h3⟩
      have h4 : ∀ j, numBefore (inMap (maps j)) r.length = (maps j).length →
          ¬ IsPath (C j) [] (restrict (inMap (maps j)) 0 r) := by
        intro j hj hp
        have hk : ¬ inMap (maps j) r.length = true := by
          intro hk
          have := numBefore_le (hM.sorted j) (r.length + 1)
          rw [numBefore_succ, if_pos hk] at this
          omega
        have := h3 j (by rw [if_neg hk]; exact hj)
        rw [if_neg hk] at this
        exact this ⟨hp, trivial⟩
      refine ⟨⟨h1, h4⟩, h2, ?_⟩
      by_contra hr
      simp only [Bool.not_eq_false] at hr
      unfold removed at hr
      rw [List.any_eq_true] at hr
      obtain ⟨j, hj, hr⟩ := hr
      obtain ⟨hk, hj⟩ := (mem_sidx hM).mp hj
      unfold actOf at hr
      simp only [Bool.and_eq_true, decide_eq_true_eq] at hr
      have := h3 j (by rw [if_pos hk]; exact hj)
      rw [if_pos hk, isPath_single] at this
      exact this ⟨hr.1.1, hr.2⟩

/-! ## The operator behaves like the tree -/

/-- Position of the operator on one layer: type, cursor of the result, cursors of the inputs, inputs
that take part. -/
structure Ghost (n : Nat) (α : Type) [SVal α] where
  τ : Ty
  c : Cur (TVal α τ)
  cm : Cur (TVal α τ)
  cf : Fin n → Cur (TVal α τ)
  act : Fin n → Bool

/-- position in the result -/
def Ghost.entry (g : Ghost n α) : Ty × Cur α := (g.τ, g.c.map Subtype.val)

/-- position in the main table -/
def Ghost.mainEntry (g : Ghost n α) : Ty × Cur α := (g.τ, g.cm.map Subtype.val)

/-- position in input `j` -/
def childPath (maps : Fin n → List Nat) : List (Ghost n α) → Fin n → TPath α
  | [], _ => []
  | g :: gs, j => if inMap (maps j) gs.length && g.act j then
      (g.τ, (g.cf j).map Subtype.val) :: childPath maps gs j else childPath maps gs j

theorem length_childPath_le (gs : List (Ghost n α)) (j : Fin n) :
    (childPath maps gs j).length ≤ numBefore (inMap (maps j)) gs.length := by
  induction gs with
  | nil => simp [childPath]
  | cons g gs ih =>
    rw [List.length_cons, numBefore_succ]
    simp only [childPath]
    split
    · next h =>
      rw [if_pos (Bool.and_eq_true_iff.mp h).1, List.length_cons]
      omega
    · omega

/-- cursors of the followers -/
def ghostF (maps : Fin n → List Nat) (k : Nat) {β : Type} (cf : Fin n → β) (j : Fin n) : Option β :=
  if inMap (maps j) k then some (cf j) else none

/-- the column scan of a layer, with cursors as inputs -/
def ghostScan (maps : Fin n → List Nat) (k : Nat) (g : Ghost n α) (equal : Fin n → Bool)
    (cur : Option (TVal α g.τ)) : SubScan n (Cur (TVal α g.τ)) (TVal α g.τ) :=
  ⟨⟨g.cm, ghostF maps k g.cf, equal⟩, sidx maps k, fidx maps k, g.act, cur⟩

/-- the column scans of the layers correspond to their cursors -/
def LocOK (maps : Fin n → List Nat) (C : Fin n → List α → Ty → List α) (sh : Nat → Fin n → Bool)
    (loc : Nat → (τ : Ty) → Option (TVal α τ)) : List (Ghost n α) → Prop
  | [] => sh 0 = fun _ => true
  | g :: gs => sh gs.length = g.act ∧ g.act = actOf maps C (TPath.pref (gs.map Ghost.entry)) ∧
    TPath.full (gs.map Ghost.entry) ∧
    SubScan.Sim curOps ⟨sidx maps gs.length, fidx maps gs.length, g.act,
        contents maps C (TPath.pref (gs.map Ghost.entry)) g.τ⟩
      (ghostScan maps gs.length g (sh (gs.length + 1)) (loc gs.length g.τ)) g.c ∧
    LocOK maps C sh loc gs

theorem LocOK.congr {sh sh' : Nat → Fin n → Bool} {loc loc' : Nat → (τ : Ty) → Option (TVal α τ)}
    {gs : List (Ghost n α)} (hs : ∀ k ≤ gs.length, sh k = sh' k)
    (h : ∀ k < gs.length, loc k = loc' k) (hl : LocOK maps C sh loc gs) : LocOK maps C sh' loc' gs := by
  induction gs with
  | nil => exact (hs 0 (by simp)).symm.trans hl
  | cons g gs ih =>
    obtain ⟨h1, h2, h3, h4, h5⟩ := hl
    refine ⟨?_, h2, h3, ?_, ih (fun k hk => hs k (by simp; omega)) (fun k hk => h k (by simp; omega)) h5⟩
    · rw [← hs gs.length (by simp)]; exact h1
    · rw [← h gs.length (by simp), ← hs (gs.length + 1) (by simp)]; exact h4

theorem actOf_snoc (hM : MapsOK maps ar) (vs : List α) (a : α) (j : Fin n) :
    actOf maps C (vs ++ [a]) j = if j ∈ sidx maps vs.length then false
      else if j ∈ fidx maps vs.length then
        (actOf maps C vs j && decide (a ∈ C j (restrict (inMap (maps j)) 0 vs) (ty a)))
      else actOf maps C vs j := by
  unfold actOf
  rw [restrict_snoc, List.length_append, List.length_singleton, numBefore_succ]
  by_cases hk : inMap (maps j) vs.length = true
  · have hle := numBefore_le (hM.sorted j) (vs.length + 1)
    rw [numBefore_succ, if_pos hk] at hle
    by_cases hl : numBefore (inMap (maps j)) vs.length + 1 = (maps j).length
    · rw [if_pos ((mem_sidx hM).mpr ⟨hk, hl⟩), if_pos hk]
      simp [hk, hl]
    · rw [if_neg (fun h => hl ((mem_sidx hM).mp h).2), if_pos ((mem_fidx hM).mpr ⟨hk, hl⟩), if_pos hk, if_pos hk]
      rw [Bool.eq_iff_iff]
      simp only [isPath_append, List.nil_append, isPath_single, Bool.and_eq_true, decide_eq_true_eq]
      constructor
      · rintro ⟨⟨h1, h2⟩, h3⟩
        exact ⟨⟨h1, by omega⟩, h2⟩
      · rintro ⟨⟨h1, h2⟩, h3⟩
        exact ⟨⟨h1, h3⟩, by omega⟩
  · rw [if_neg (fun h => hk ((mem_sidx hM).mp h).1), if_neg (fun h => hk ((mem_fidx hM).mp h).1), if_neg hk,
      if_neg hk]
    simp

/-- The vector of active inputs for the next layer, when all cursors stand on values. -/
theorem next_active (hM : MapsOK maps ar) {sh : Nat → Fin n → Bool} {loc : Nat → (τ : Ty) → Option (TVal α τ)}
    {gs : List (Ghost n α)} (hl : LocOK maps C sh loc gs) (hf : TPath.full (gs.map Ghost.entry)) :
    sh gs.length = actOf maps C (TPath.pref (gs.map Ghost.entry)) := by
  cases gs with
  | nil =>
    have : sh 0 = _ := hl
    rw [List.length_nil, this]
    funext j
    have hlen := List.length_pos_iff.mpr (hM.ne j)
    unfold actOf
    simp [TPath.pref, restrict, IsPath, numBefore]
    exact hlen
  | cons g gs =>
    obtain ⟨h1, h2, h3, h4, h5⟩ := hl
    rw [List.map_cons, Ghost.entry, GScan.full_cons, Cur.map_current, Option.isSome_map] at hf
    obtain ⟨v, hv⟩ := Option.isSome_iff_exists.mp hf.1
    rw [List.map_cons, Ghost.entry, GScan.pref_cons (v := v.val) (by simp [hv])]
    funext j
    rw [actOf_snoc hM, ← h2, RowCfg.length_pref h3, List.length_map, List.length_cons]
    obtain ⟨cm, -, -, -, -, -, hat⟩ := h4.ex
    cases hc : g.c with
    | fresh l => rw [hc] at hv; simp [Cur.current] at hv
    | «at» l =>
      rw [hc] at hv
      obtain ⟨-, h6⟩ := hat l hc
      obtain ⟨e1, e2, e3, -⟩ := h6 v hv
      simp only [ghostScan] at e1 e2 e3
      by_cases hs : j ∈ sidx maps gs.length
      · rw [if_pos hs, e1 j hs]
      · rw [if_neg hs]
        by_cases hf' : j ∈ fidx maps gs.length
        · rw [if_pos hf', e2 j hf']
          congr 1
          rw [decide_eq_decide]
          unfold contents
          rw [mem_typedList, v.property]
        · rw [if_neg hf', e3 j hs hf']

/-- the position in the main table -/
theorem mainPath_full {sh : Nat → Fin n → Bool} {loc : Nat → (τ : Ty) → Option (TVal α τ)}
    {gs : List (Ghost n α)} (hl : LocOK maps C sh loc gs) (hf : TPath.full (gs.map Ghost.entry)) :
    TPath.full (gs.map Ghost.mainEntry) ∧
      TPath.pref (gs.map Ghost.mainEntry) = TPath.pref (gs.map Ghost.entry) := by
  induction gs with
  | nil => simp [TPath.full, TPath.pref]
  | cons g gs ih =>
    obtain ⟨h1, h2, h3, h4, h5⟩ := hl
    obtain ⟨i1, i2⟩ := ih h5 h3
    rw [List.map_cons, Ghost.entry, GScan.full_cons, Cur.map_current, Option.isSome_map] at hf
    obtain ⟨v, hv⟩ := Option.isSome_iff_exists.mp hf.1
    have hcm : g.cm.current = some v := by
      obtain ⟨cm, hb, -, -, -, -, hat⟩ := h4.ex
      cases hc : g.c with
      | fresh l => rw [hc] at hv; simp [Cur.current] at hv
      | «at» l =>
        rw [hc] at hv
        obtain ⟨⟨m, rfl, hm⟩, -⟩ := hat l hc
        have := hb.current
        simp only [curOps, ghostScan] at this
        rw [this]
        simp only [Cur.current] at hv ⊢
        rw [hm, hv]
    have p1 : TPath.pref ((g.τ, g.c.map Subtype.val) :: gs.map Ghost.entry) = _ :=
      GScan.pref_cons (v := v.val) (by rw [Cur.map_current, hv]; rfl)
    have p2 : TPath.pref ((g.τ, g.cm.map Subtype.val) :: gs.map Ghost.mainEntry) = _ :=
      GScan.pref_cons (v := v.val) (by rw [Cur.map_current, hcm]; rfl)
    rw [List.map_cons, List.map_cons, Ghost.entry, Ghost.mainEntry, p1, p2, i2]
    exact ⟨GScan.full_cons.mpr ⟨by rw [Cur.map_current, hcm]; rfl, i1⟩, rfl⟩

/-- the position in an input that takes part -/
theorem childPath_full (hM : MapsOK maps ar) {sh : Nat → Fin n → Bool}
    {loc : Nat → (τ : Ty) → Option (TVal α τ)} {gs : List (Ghost n α)} (hl : LocOK maps C sh loc gs)
    (hf : TPath.full (gs.map Ghost.entry)) {j : Fin n}
    (hj : actOf maps C (TPath.pref (gs.map Ghost.entry)) j = true) :
    TPath.full (childPath maps gs j) ∧ (childPath maps gs j).length = numBefore (inMap (maps j)) gs.length ∧
      TPath.pref (childPath maps gs j) = restrict (inMap (maps j)) 0 (TPath.pref (gs.map Ghost.entry)) := by
  induction gs with
  | nil => simp [childPath, TPath.full, TPath.pref, restrict, numBefore]
  | cons g gs ih =>
    obtain ⟨h1, h2, h3, h4, h5⟩ := hl
    rw [List.map_cons, Ghost.entry, GScan.full_cons, Cur.map_current, Option.isSome_map] at hf
    obtain ⟨v, hv⟩ := Option.isSome_iff_exists.mp hf.1
    rw [List.map_cons, Ghost.entry, GScan.pref_cons (v := v.val) (by simp [hv])] at hj ⊢
    rw [actOf_snoc hM, ← h2, RowCfg.length_pref h3, List.length_map] at hj
    rw [restrict_snoc, RowCfg.length_pref h3, List.length_map, List.length_cons, numBefore_succ]
    simp only [childPath]
    by_cases hs : j ∈ sidx maps gs.length
    · rw [if_pos hs] at hj; simp at hj
    · rw [if_neg hs] at hj
      by_cases hf' : j ∈ fidx maps gs.length
      · rw [if_pos hf'] at hj
        simp only [Bool.and_eq_true, decide_eq_true_eq] at hj
        have hk := ((mem_fidx hM).mp hf').1
        obtain ⟨i1, i2, i3⟩ := ih h5 h3 (by rw [← h2]; exact hj.1)
        have hc : (g.cf j).current = some v := by
          obtain ⟨cm, -, -, -, -, -, hat⟩ := h4.ex
          cases hc : g.c with
          | fresh l => rw [hc] at hv; simp [Cur.current] at hv
          | «at» l =>
            rw [hc] at hv
            obtain ⟨-, h6⟩ := hat l hc
            obtain ⟨-, -, -, e4⟩ := h6 v hv
            obtain ⟨f, e5, e6⟩ := e4 j hf' hj.1 (by
              unfold contents
              rw [mem_typedList]
              have := hj.2
              rw [v.property] at this
              exact this)
            simp only [ghostScan, ghostF] at e5
            rw [if_pos hk] at e5
            simp only [Option.some.injEq] at e5
            rw [e5]
            exact e6
        rw [if_pos (by rw [hk, hj.1]; rfl), if_pos hk, if_pos hk, ← i3]
        exact ⟨GScan.full_cons.mpr ⟨by rw [Cur.map_current, hc]; rfl, i1⟩, by simp [i2],
          GScan.pref_cons (v := v.val) (by rw [Cur.map_current, hc]; rfl)⟩
      · rw [if_neg hf'] at hj
        have hk : ¬ inMap (maps j) gs.length = true := by
          intro hk
          by_cases hl : numBefore (inMap (maps j)) gs.length + 1 = (maps j).length
          · exact hs ((mem_sidx hM).mpr ⟨hk, hl⟩)
          · exact hf' ((mem_fidx hM).mpr ⟨hk, hl⟩)
        obtain ⟨i1, i2, i3⟩ := ih h5 h3 (by rw [← h2]; exact hj)
        rw [if_neg (by simp [hk]), if_neg hk, if_neg hk, ← i3]
        exact ⟨i1, by rw [i2]; rfl, by simp⟩

/-- simulation relation -/
structure Inv (maps : Fin n → List Nat) (C : Fin n → List α → Ty → List α)
    (R0 : S → TPath α → Prop) (R : Fin n → S → TPath α → Prop) (t : TSub n S α) (gs : List (Ghost n α)) :
    Prop where
  hmaps : t.maps = maps
  main : R0 t.main (gs.map Ghost.mainEntry)
  subs : ∀ j, R j (t.subs j) (childPath maps gs j)
  loc : LocOK maps C t.sh t.loc gs

/-- the relation between states and positions -/
def Rel (maps : Fin n → List Nat) (C : Fin n → List α → Ty → List α)
    (R0 : S → TPath α → Prop) (R : Fin n → S → TPath α → Prop) (t : TSub n S α) (p : TPath α) : Prop :=
  ∃ gs : List (Ghost n α), p = gs.map Ghost.entry ∧ Inv maps C R0 R t gs

section
variable {cops : TrieOps S α} {R0 : S → TPath α → Prop} {R : Fin n → S → TPath α → Prop} {arity : Fin n → Nat}

/-- relation between the subtracted inputs of a column scan and their cursors -/
def colQ (maps : Fin n → List Nat) (R : Fin n → S → TPath α → Prop) (g : Ghost n α) (gs : List (Ghost n α))
    (j : Fin n) (s : Nat × S) (c : Cur (TVal α g.τ)) : Prop :=
  if g.act j then childQ (R j) g.τ (childPath maps gs j) s c else R j s.2 (childPath maps gs j)

theorem columnRel (hM : MapsOK maps ar) {t : TSub n S α} {g : Ghost n α} {gs : List (Ghost n α)}
    (hI : Inv maps C R0 R t (g :: gs)) :
    SubScan.Rel (childQ R0 g.τ (gs.map Ghost.mainEntry)) (colQ maps R g gs)
      ⟨(gs.length, t.main), followers maps gs.length t.subs, t.sh (gs.length + 1)⟩
      ⟨g.cm, ghostF maps gs.length g.cf, t.sh (gs.length + 1)⟩ := by
  obtain ⟨h1, h2, h3, h4, h5⟩ := hI.loc
  refine ⟨⟨by simp, hI.main⟩, fun j c hc => ?_, fun j hj => ?_, rfl⟩
  · simp only [ghostF] at hc
    split at hc
    · next hk =>
      simp only [Option.some.injEq] at hc
      subst hc
      refine ⟨(numBefore (inMap (maps j)) gs.length, t.subs j), ?_, ?_⟩
      · simp only [followers]
        rw [idxOf_map (hM.sorted j), if_pos hk]
        rfl
      · have hk' := hI.subs j
        simp only [childPath, hk, Bool.true_and] at hk'
        unfold colQ
        by_cases hj : g.act j = true
        · rw [if_pos hj] at hk' ⊢
          exact ⟨(childPath_full hM h5 h3 (by rw [← h2]; exact hj)).2.1.symm, hk'⟩
        · rw [if_neg hj] at hk' ⊢
          exact hk'
    · simp at hc
  · simp only [ghostF] at hj
    split at hj
    · simp at hj
    · next hk =>
      simp only [followers]
      rw [idxOf_map (hM.sorted j), if_neg hk]
      rfl

/-- cursors of the followers after a call -/
def newCf {β : Type} (old : β) : Option β → β
  | some c => c
  | none => old

/-- the state after a call to the column scan of the current layer -/
theorem inv_update {t : TSub n S α} {g : Ghost n α} {gs : List (Ghost n α)}
    (hI : Inv maps C R0 R t (g :: gs)) (c' : Cur (TVal α g.τ)) {o : Option (TVal α g.τ)}
    {st : SubScan n (Cur (TVal α g.τ)) (TVal α g.τ)}
    (hs : SubScan.Sim curOps ⟨sidx maps gs.length, fidx maps gs.length, g.act,
      contents maps C (TPath.pref (gs.map Ghost.entry)) g.τ⟩ st c')
    (hF : SubScan.SameF st.followers (ghostF maps gs.length g.cf))
    (he : st = ⟨st.toSubState, sidx maps gs.length, fidx maps gs.length, g.act, st.cur⟩)
    {st' : SubState n (Nat × S)} {sx fx : List (Fin n)} {ax : Fin n → Bool}
    (hQ : SubScan.Rel (childQ R0 g.τ (gs.map Ghost.mainEntry)) (colQ maps R g gs) st' st.toSubState) :
    Inv maps C R0 R (t.update gs.length g.τ (o, ⟨st', sx, fx, ax, st.cur⟩)).2
      (⟨g.τ, c', st.main, fun j => newCf (g.cf j) (st.followers j), g.act⟩ :: gs) := by
  obtain ⟨h1, h2, h3, h4, h5⟩ := hI.loc
  refine ⟨hI.hmaps, hQ.main.2, fun j => ?_, ?_, h2, h3, ?_, ?_⟩
  · simp only [childPath, update]
    have hold := hI.subs j
    simp only [childPath] at hold
    have hFj := hF j
    simp only [ghostF] at hFj
    cases hfj : st.followers j with
    | none =>
      rw [hQ.fnone j hfj]
      simp only [newSub, newCf]
      have hk : ¬ inMap (maps j) gs.length = true := by
        intro hk
        rw [hfj, if_pos hk] at hFj
        simp at hFj
      rw [if_neg (by simp [hk])] at hold ⊢
      exact hold
    | some c =>
      obtain ⟨s, e1, e2⟩ := hQ.fsome j c hfj
      rw [e1]
      simp only [newSub, newCf]
      have hk : inMap (maps j) gs.length = true := by
        by_contra hk
        rw [hfj, if_neg hk] at hFj
        simp at hFj
      rw [hk, Bool.true_and]
      unfold colQ at e2
      by_cases hj : g.act j = true
      · rw [if_pos hj] at e2 ⊢
        exact e2.2
      · rw [if_neg hj] at e2 ⊢
        exact e2
  · simp only [update]
    rw [Function.update_of_ne (by omega)]
    exact h1
  · simp only [update, Function.update_self]
    have hg : ghostF maps gs.length (fun j => newCf (g.cf j) (st.followers j)) = st.followers := by
      funext j
      have hFj := hF j
      simp only [ghostF] at hFj ⊢
      cases hfj : st.followers j with
      | none =>
        by_cases hk : inMap (maps j) gs.length = true
        · rw [hfj, if_pos hk] at hFj; simp at hFj
        · rw [if_neg hk]
      | some c =>
        by_cases hk : inMap (maps j) gs.length = true
        · rw [if_pos hk]; rfl
        · rw [hfj, if_neg hk] at hFj; simp at hFj
    have hst : ghostScan maps gs.length
        ⟨g.τ, c', st.main, fun j => newCf (g.cf j) (st.followers j), g.act⟩ st'.equal st.cur = st := by
      unfold ghostScan
      simp only [hg, hQ.equal]
      exact he.symm
    rw [hst]
    exact hs
  · refine h5.congr (fun k hk => ?_) (fun k hk => ?_)
    · simp only [update]; rw [Function.update_of_ne (by omega)]
    · simp only [update]; rw [Function.update_of_ne (by omega)]

theorem depth_main (hS0 : Simulates cops ar C0 R0) {t : TSub n S α} {gs : List (Ghost n α)}
    (hI : Inv maps C R0 R t gs) : cops.depth t.main = gs.length ∧ gs.length ≤ ar := by
  have := hS0.depth _ _ hI.main
  rw [List.length_map] at this
  exact this

theorem rel_next (hM : MapsOK maps ar) (hS0 : Simulates cops ar C0 R0)
    (hS : ∀ j, Simulates cops (arity j) (C j) (R j)) (hK : ∀ j, SeekSim cops (R j)) (t : TSub n S α) (τ : Ty)
    (c : Cur α) (p : TPath α) (h : Rel maps C R0 R t ((τ, c) :: p)) :
    ∃ t', (ops cops).next t τ = some (c.next.current, t') ∧ Rel maps C R0 R t' ((τ, c.next) :: p) := by
  obtain ⟨gs, hp, hI⟩ := h
  cases gs with
  | nil => simp at hp
  | cons g gs =>
    simp only [List.map_cons, List.cons.injEq, Ghost.entry, Prod.mk.injEq] at hp
    obtain ⟨⟨rfl, rfl⟩, rfl⟩ := hp
    obtain ⟨l1, l2, l3, l4, l5⟩ := hI.loc
    obtain ⟨st, h1, h2⟩ := SubScan.sim_next curOps _ _ _ l4
    obtain ⟨st', h3, h4, h5⟩ := SubScan.param_next (cops := childOps cops g.τ) (child_simOn hS0 _ _)
      (fun j hj ha => by
        have : colQ maps R g gs j = childQ (R j) g.τ (childPath maps gs j) := by
          funext s c; unfold colQ; rw [if_pos ha]
        rw [this]
        exact child_seekOn (hS j) (hK j) _ _) h1 (columnRel hM hI)
    refine ⟨_, ?_, _, ?_, inv_update hI g.c.next (o := g.c.next.current)
      (sx := sidx maps gs.length) (fx := fidx maps gs.length) (ax := g.act) h2 (SubScan.sameF_next h1) h5 h4⟩
    rotate_left
    · simp [Ghost.entry]
    · have hd := (depth_main hS0 hI).1
      simp only [ops, next, hd, usub, List.length_cons]
      simp only [Nat.le_add_left, if_true, Nat.add_sub_cancel, Option.bind_eq_bind, Option.bind_some]
      rw [show t.column gs.length g.τ = ⟨⟨(gs.length, t.main), followers t.maps gs.length t.subs,
        t.sh (gs.length + 1)⟩, sidx t.maps gs.length, fidx t.maps gs.length, t.sh gs.length, _⟩ from rfl,
        l1, hI.hmaps, h3]
      simp only [Option.map_some, update, Cur.map_next, Cur.map_current]

theorem rel_seek (hM : MapsOK maps ar) (hS0 : Simulates cops ar C0 R0) (hK0 : SeekSim cops R0)
    (hS : ∀ j, Simulates cops (arity j) (C j) (R j)) (hK : ∀ j, SeekSim cops (R j)) :
    SeekSim (ops cops) (Rel maps C R0 R) := by
  intro t c p v h
  obtain ⟨gs, hp, hI⟩ := h
  cases gs with
  | nil => simp at hp
  | cons g gs =>
    obtain ⟨τ, gc, gm, gf, ga⟩ := g
    simp only [List.map_cons, List.cons.injEq, Ghost.entry, Prod.mk.injEq] at hp
    obtain ⟨⟨e, rfl⟩, rfl⟩ := hp
    subst e
    obtain ⟨l1, l2, l3, l4, l5⟩ := hI.loc
    obtain ⟨st, h1, h2⟩ := SubScan.sim_seek curOps _ _ _ ⟨v, rfl⟩ l4
    obtain ⟨st', h3, h4, h5⟩ := SubScan.param_seek (cops := childOps cops (ty v)) (child_simOn hS0 _ _)
      (child_seekOn hS0 hK0 _ _)
      (fun j hj ha => by
        have : colQ maps R ⟨ty v, gc, gm, gf, ga⟩ gs j = childQ (R j) (ty v) (childPath maps gs j) := by
          funext s c; unfold colQ; rw [if_pos ha]
        rw [this]
        exact child_seekOn (hS j) (hK j) _ _) h1 (columnRel hM hI)
    refine ⟨_, ?_, _, ?_, inv_update hI (gc.seek ⟨v, rfl⟩) (o := (gc.seek ⟨v, rfl⟩).current)
      (sx := sidx maps gs.length) (fx := fidx maps gs.length) (ax := ga) h2
      (SubScan.sameF_seek h1) h5 h4⟩
    rotate_left
    · have := Cur.map_seek gc ⟨v, rfl⟩
      simp only at this
      simp [Ghost.entry, this]
    · have hd := (depth_main hS0 hI).1
      simp only [ops, seek, hd, usub, List.length_cons]
      simp only [Nat.le_add_left, if_true, Nat.add_sub_cancel, Option.bind_eq_bind, Option.bind_some]
      rw [show t.column gs.length (ty v) = ⟨⟨(gs.length, t.main), followers t.maps gs.length t.subs,
        t.sh (gs.length + 1)⟩, sidx t.maps gs.length, fidx t.maps gs.length, t.sh gs.length, _⟩ from rfl,
        l1, hI.hmaps, h3]
      have := Cur.map_seek gc ⟨v, rfl⟩
      simp only at this
      simp only [Option.map_some, update, this, Cur.map_current]

theorem rel_current (t : TSub n S α) (p q : TPath α) (τ : Ty) (c : Cur α)
    (h : Rel maps C R0 R t (p ++ (τ, c) :: q)) : (ops cops).current t q.length τ = c.current := by
  obtain ⟨gs, hp, hI⟩ := h
  obtain ⟨g1, g2, rfl, -, h2⟩ := List.append_eq_map_iff.mp hp
  cases g2 with
  | nil => simp at h2
  | cons g gs =>
    simp only [List.map_cons, List.cons.injEq, Ghost.entry, Prod.mk.injEq] at h2
    obtain ⟨⟨rfl, rfl⟩, rfl⟩ := h2
    have hl : LocOK maps C t.sh t.loc (g :: gs) := by
      have := hI.loc
      clear hp hI
      induction g1 with
      | nil => exact this
      | cons x g1 ih => exact ih this.2.2.2.2
    obtain ⟨l1, l2, l3, l4, l5⟩ := hl
    have hcur := l4.cur
    simp only [ops, List.length_map, Cur.map_current]
    rw [← hcur]
    rfl

theorem select_spec {f : Fin n → Option Bool} {g : Fin n → Bool} (h : ∀ j, f j = some (g j)) :
    select f = some ((List.finRange n).filter g) := by
  unfold select
  rw [if_pos (fun j => by rw [h j]; rfl)]
  congr 1
  apply List.filter_congr
  intro j _
  rw [h j]
  cases g j <;> rfl

theorem rel_up (hM : MapsOK maps ar) (hS0 : Simulates cops ar C0 R0)
    (hS : ∀ j, Simulates cops (arity j) (C j) (R j)) (t : TSub n S α)
    (e : Ty × Cur α) (p : TPath α) (h : Rel maps C R0 R t (e :: p)) :
    ∃ t', (ops cops).up t = some t' ∧ Rel maps C R0 R t' p := by
  obtain ⟨gs, hp, hI⟩ := h
  cases gs with
  | nil => simp at hp
  | cons g gs =>
    simp only [List.map_cons, List.cons.injEq] at hp
    obtain ⟨-, rfl⟩ := hp
    obtain ⟨l1, l2, l3, l4, l5⟩ := hI.loc
    have htest : ∀ j, upTest cops t gs.length j = some (inMap (maps j) gs.length && g.act j) := by
      intro j
      have hd := ((hS j).depth _ _ (hI.subs j)).1
      simp only [upTest, hI.hmaps]
      simp only [childPath] at hd
      by_cases hj : (inMap (maps j) gs.length && g.act j) = true
      · rw [if_pos hj] at hd
        have hj' := Bool.and_eq_true_iff.mp hj
        have hlen := (childPath_full hM l5 l3 (by rw [← l2]; exact hj'.2)).2.1
        rw [List.length_cons, hlen] at hd
        rw [hd]
        have hlt : numBefore (inMap (maps j)) gs.length < (maps j).length := by
          have := numBefore_le (hM.sorted j) (gs.length + 1)
          rw [numBefore_succ, if_pos hj'.1] at this
          omega
        obtain ⟨x, e1, e2⟩ := getElem_ge (hM.sorted j) hlt
        rw [hj]
        simp only [e1, Option.map_some, e2.mpr hj'.1, beq_self_eq_true]
      · rw [if_neg hj] at hd
        have hle := length_childPath_le (maps := maps) gs j
        rw [show (inMap (maps j) gs.length && g.act j) = false by simpa using hj]
        cases hc : (childPath maps gs j).length with
        | zero => rw [hd, hc]
        | succ d =>
          rw [hd, hc]
          obtain ⟨x, e1, e2⟩ := getElem_lt (hM.sorted j) (k := gs.length) (i := d) (by omega)
          simp only [e1, Option.map_some]
          congr 1
          simp; omega
    obtain ⟨subs, h1, h2⟩ := moveUp_spec hS
      (is := (List.finRange n).filter fun j => inMap (maps j) gs.length && g.act j)
      ((List.nodup_finRange n).filter _) hI.subs (by
        intro j hj
        simp only [childPath]
        rw [if_pos (List.mem_filter.mp hj).2]
        simp)
    obtain ⟨m, h3, h4⟩ := hS0.up _ _ _ hI.main
    refine ⟨{ t with main := m, subs := subs }, ?_, gs, rfl, hI.hmaps, h4, fun j => ?_, l5⟩
    · simp only [ops, up, (depth_main hS0 hI).1, usub, List.length_cons]
      simp only [Nat.le_add_left, if_true, Nat.add_sub_cancel, Option.bind_eq_bind, Option.bind_some,
        select_spec htest, h1, h3]
      rfl
    · have := h2 j
      simp only [childPath, List.mem_filter, List.mem_finRange, true_and] at this
      by_cases hj : (inMap (maps j) gs.length && g.act j) = true
      · rw [if_pos hj, if_pos hj] at this
        exact this
      · rw [if_neg hj, if_neg hj] at this
        exact this

theorem rel_down (hM : MapsOK maps ar) (hA0 : ∀ p τ, Asc (C0 p τ)) (hT0 : ∀ p τ a, a ∈ C0 p τ → ty a = τ)
    (hA : ∀ j p τ, Asc (C j p τ)) (hT : ∀ j p τ a, a ∈ C j p τ → ty a = τ)
    (hS0 : Simulates cops ar C0 R0) (harity : ∀ j, (maps j).length ≤ arity j)
    (hS : ∀ j, Simulates cops (arity j) (C j) (R j)) (t : TSub n S α)
    (p : TPath α) (τ : Ty) (h : Rel maps C R0 R t p) (hf : p.full) (hlt : p.length < ar) :
    ∃ t', (ops cops).down t τ = some t' ∧ Rel maps C R0 R t' ((τ, .fresh (ch maps C0 C p.pref τ)) :: p) := by
  obtain ⟨gs, rfl, hI⟩ := h
  rw [List.length_map] at hlt
  have hact := next_active hM hI.loc hf
  have hpl : (TPath.pref (gs.map Ghost.entry)).length = gs.length := by rw [RowCfg.length_pref hf, List.length_map]
  obtain ⟨mf, mp⟩ := mainPath_full hI.loc hf
  have hfull := fun j (hj : actOf maps C (TPath.pref (gs.map Ghost.entry)) j = true) =>
    childPath_full hM hI.loc hf hj
  have hnum : ∀ j, actOf maps C (TPath.pref (gs.map Ghost.entry)) j = true →
      numBefore (inMap (maps j)) gs.length < (maps j).length := by
    intro j hj
    unfold actOf at hj
    rw [hpl] at hj
    simpa using (Bool.and_eq_true_iff.mp hj).2
  have htest : ∀ j, downTest cops t gs.length j = some (inMap (maps j) gs.length &&
      actOf maps C (TPath.pref (gs.map Ghost.entry)) j) := by
    intro j
    unfold downTest
    rw [hact, hI.hmaps]
    by_cases hj : actOf maps C (TPath.pref (gs.map Ghost.entry)) j = true
    · rw [if_pos hj, ((hS j).depth _ _ (hI.subs j)).1, (hfull j hj).2.1, hj, Bool.and_true]
      obtain ⟨x, e1, e2⟩ := getElem_ge (hM.sorted j) (hnum j hj)
      simp only [e1, Option.map_some]
      congr 1
      rw [Bool.eq_iff_iff, ← e2]
      simp
    · rw [if_neg hj, show actOf maps C (TPath.pref (gs.map Ghost.entry)) j = false by simpa using hj, Bool.and_false]
  obtain ⟨subs, h1, h2⟩ := moveDown_spec hS τ
    (is := (List.finRange n).filter fun j => inMap (maps j) gs.length &&
      actOf maps C (TPath.pref (gs.map Ghost.entry)) j) ((List.nodup_finRange n).filter _) hI.subs (by
    intro j hj
    have hj' := (Bool.and_eq_true_iff.mp (List.mem_filter.mp hj).2).2
    obtain ⟨f1, f2, -⟩ := hfull j hj'
    have := hnum j hj'
    have := harity j
    exact ⟨f1, by omega⟩)
  obtain ⟨m, h3, h4⟩ := hS0.down _ _ τ hI.main mf (by rw [List.length_map]; exact hlt)
  refine ⟨{ t with main := m, subs := subs, loc := t.resetLoc gs.length τ }, ?_,
    ⟨τ, .fresh (typedList τ (ch maps C0 C (TPath.pref (gs.map Ghost.entry)) τ)),
      .fresh (typedList τ (C0 (TPath.pref (gs.map Ghost.entry)) τ)),
      fun j => .fresh (contents maps C (TPath.pref (gs.map Ghost.entry)) τ j),
      actOf maps C (TPath.pref (gs.map Ghost.entry))⟩ :: gs, ?_, hI.hmaps, ?_, fun j => ?_, hact, rfl, hf, ?_, ?_⟩
  · simp only [ops, down, (depth_main hS0 hI).1, select_spec htest, Option.bind_eq_bind, Option.bind_some, h1, h3]
    rfl
  · simp only [List.map_cons, Ghost.entry, Cur.map]
    rw [typedList_val fun a ha => ch_typed hT0 _ _ a ha]
  · simp only [List.map_cons, Ghost.mainEntry, Cur.map]
    rw [typedList_val fun a ha => hT0 _ _ a ha, ← mp]
    exact h4
  · have := h2 j
    simp only [List.mem_filter, List.mem_finRange, true_and] at this
    simp only [childPath]
    by_cases hj : (inMap (maps j) gs.length && actOf maps C (TPath.pref (gs.map Ghost.entry)) j) = true
    · rw [if_pos hj] at this ⊢
      simp only [Cur.map]
      unfold contents
      rw [typedList_val fun a ha => hT _ _ _ a ha]
      rw [(hfull j (Bool.and_eq_true_iff.mp hj).2).2.2] at this
      exact this
    · rw [if_neg hj] at this ⊢
      exact this
  · have h0 := SubScan.sim_new curOps ⟨sidx maps gs.length, fidx maps gs.length,
      actOf maps C (TPath.pref (gs.map Ghost.entry)), contents maps C (TPath.pref (gs.map Ghost.entry)) τ⟩
      (.fresh (typedList τ (C0 (TPath.pref (gs.map Ghost.entry)) τ)))
      (ghostF maps gs.length fun j => .fresh (contents maps C (TPath.pref (gs.map Ghost.entry)) τ j))
      (t.sh (gs.length + 1)) (typedList τ (C0 (TPath.pref (gs.map Ghost.entry)) τ))
      ((List.nodup_finRange n).filter _)
      (fun j hj hj' => ((mem_fidx hM).mp hj).2 ((mem_sidx hM).mp hj').2)
      (behaves_cur _) (typedList_asc (fun a ha => hT0 _ _ a ha) (hA0 _ _)) (by
        intro j hj _
        have hk : inMap (maps j) gs.length = true := by
          rcases List.mem_append.mp hj with h | h
          · exact ((mem_sidx hM).mp h).1
          · exact ((mem_fidx hM).mp h).1
        refine ⟨_, by simp only [ghostF]; rw [if_pos hk], behaves_cur _,
          typedList_asc (fun a ha => hT _ _ _ a ha) (hA _ _ _)⟩)
    have e1 : (typedList τ (C0 (TPath.pref (gs.map Ghost.entry)) τ)).filter (fun x => decide (SubScan.Keep
          (actOf maps C (TPath.pref (gs.map Ghost.entry))) (sidx maps gs.length)
          (contents maps C (TPath.pref (gs.map Ghost.entry)) τ) x)) =
        typedList τ (ch maps C0 C (TPath.pref (gs.map Ghost.entry)) τ) := by
      refine asc_ext ((typedList_asc (fun a ha => hT0 _ _ a ha) (hA0 _ _)).filter _)
        (typedList_asc (fun a ha => ch_typed hT0 _ _ a ha) (ch_asc hA0 _ _)) fun x => ?_
      rw [List.mem_filter, mem_typedList, mem_typedList]
      unfold ch
      rw [List.mem_filter]
      refine and_congr_right fun _ => ?_
      unfold SubScan.Keep removed contents
      rw [hpl]
      simp only [mem_typedList, decide_eq_true_eq, Bool.not_eq_true', List.any_eq_false, Bool.and_eq_true, not_and]
    have e2 : t.resetLoc gs.length τ gs.length τ = none := by simp [resetLoc]
    simp only at h0 ⊢
    rw [e1] at h0
    rw [e2]
    exact h0
  · refine hI.loc.congr (fun k hk => rfl) (fun k hk => ?_)
    simp only [resetLoc]
    rw [Function.update_of_ne (by omega)]

/-- The subtraction behaves like the tree of the difference. -/
theorem simulates (hM : MapsOK maps ar) (hA0 : ∀ p τ, Asc (C0 p τ)) (hT0 : ∀ p τ a, a ∈ C0 p τ → ty a = τ)
    (hA : ∀ j p τ, Asc (C j p τ)) (hT : ∀ j p τ a, a ∈ C j p τ → ty a = τ)
    (hS0 : Simulates cops ar C0 R0) (harity : ∀ j, (maps j).length ≤ arity j)
    (hS : ∀ j, Simulates cops (arity j) (C j) (R j)) (hK : ∀ j, SeekSim cops (R j)) :
    Simulates (ops cops) ar (ch maps C0 C) (Rel maps C R0 R) where
  depth t p h := by
    obtain ⟨gs, rfl, hI⟩ := h
    rw [List.length_map]
    exact depth_main hS0 hI
  next := rel_next hM hS0 hS hK
  current _ _ _ _ _ h _ := rel_current _ _ _ _ _ h
  up := rel_up hM hS0 hS
  down := rel_down hM hA0 hT0 hA hT hS0 harity hS

theorem rel_new {main : S} {subs : Fin n → S} (h0 : R0 main []) (h : ∀ j, R j (subs j) []) :
    Rel maps C R0 R (new maps main subs) [] :=
  ⟨[], rfl, rfl, h0, h, rfl⟩

/-- only possible types occur in the difference -/
theorem treeOK (hM : MapsOK maps ar) {tys : Nat → List Ty} (hT : TreeOK tys C0 ar) : TreeOK tys (ch maps C0 C) ar where
  asc := ch_asc hT.asc
  typed := ch_typed hT.typed
  tyAsc := hT.tyAsc
  cover p τ a hp hlt ha := hT.cover _ _ _ ((isPath_ch hM p).mp hp).1 hlt (List.mem_filter.mp ha).1

end

/-! ## The generator -/

/-- `TrieScanSubtract` with `arity` (subtract.rs:233-235) and `possible_types` (241-243) -/
def scan (I : PScan S α) : PScan (TSub n S α) α where
  toTrieOps := ops I.toTrieOps
  arity t := I.arity t.main
  types t := I.types t.main

section
variable {M : Type} [DecidableEq M]

/-- one layer map (subtract.rs:40): the positions of the columns in the output; `none` is a panic -/
def layerMap (output : List M) (input : List M) : Option (List Nat) := input.mapM fun m => output.idxOf? m

/-- `GeneratorSubtract::new` (subtract.rs:36-47) -/
def newMaps (output : List M) (inputs : List (List M)) : Option (List (List Nat)) := inputs.mapM (layerMap output)

/-- the subtracted tables that are present (subtract.rs:61-66) -/
def present (subs : Fin n → Option (AnyScan α)) : List (Fin n) := (List.finRange n).filter fun i => (subs i).isSome

/-- all inputs, the main one first -/
def inputsOf (main : AnyScan α) (subs : Fin n → Option (AnyScan α)) :
    Fin ((present subs).length + 1) → AnyScan α :=
  Fin.cons main fun k => (subs ((present subs).get k)).getD .dummy

/-- the scan that is constructed (subtract.rs:84-162) -/
def ofInputs (maps : Fin n → List Nat) (main : AnyScan α) (subs : Fin n → Option (AnyScan α)) : AnyScan α :=
  ⟨_, scan (AnyScan.family (inputsOf main subs)), new (fun k => maps ((present subs).get k))
    (AnyScan.start (inputsOf main subs) 0) fun k => AnyScan.start (inputsOf main subs) k.succ⟩

/-- a subtracted table without columns is present (subtract.rs:79) -/
def zeroSub (subs : Fin n → Option (AnyScan α)) : Bool :=
  (List.finRange n).any fun i => match subs i with
    | some x => x.I.arity x.s == 0
    | none => false

/-- `GeneratorSubtract::generate` (subtract.rs:51-163) -/
def generate (maps : Fin n → List Nat) (main : Option (AnyScan α)) (subs : Fin n → Option (AnyScan α)) :
    Option (AnyScan α) :=
  match main with
  | none => none
  | some x =>
    if present subs = [] then some x
    else if x.I.arity x.s = 0 then none
    else if zeroSub subs then none
    else some (ofInputs maps x subs)

theorem ofInputs_table {m : Mode} {maps : Fin n → List Nat} {main : AnyScan α} {subs : Fin n → Option (AnyScan α)}
    {ar : Nat} (hs : ∀ j, (maps j).Pairwise (· < ·)) (hlt : ∀ j, ∀ k ∈ maps j, k < ar)
    (hne : ∀ j, (subs j).isSome → maps j ≠ []) {rows0 : List α → Prop} {rows : Fin n → List α → Prop}
    (h0 : IsTable main.I m main.s ar rows0) (hk : ∀ j, Tab .weak (subs j) (maps j).length (rows j)) :
    IsTable (ofInputs maps main subs).I m (ofInputs maps main subs).s ar
      (fun r => rows0 r ∧ ∀ j, ¬ rows j (restrict (inMap (maps j)) 0 r)) := by
  have h0' : IsTable (AnyScan.family (inputsOf main subs)) m (AnyScan.start (inputsOf main subs) 0) ar rows0 :=
    AnyScan.family_start h0
  have hsome : ∀ k : Fin (present subs).length, (subs ((present subs).get k)).isSome = true :=
    fun k => (List.mem_filter.mp (List.get_mem (present subs) k)).2
  have hk' : ∀ k : Fin (present subs).length, IsTable (AnyScan.family (inputsOf main subs)) .weak
      (AnyScan.start (inputsOf main subs) k.succ) (maps ((present subs).get k)).length
      (rows ((present subs).get k)) := by
    intro k
    refine AnyScan.family_start (i := k.succ) ?_
    have h := hk ((present subs).get k)
    obtain ⟨x, hx⟩ := Option.isSome_iff_exists.mp (hsome k)
    rw [hx] at h
    show IsTable ((subs ((present subs).get k)).getD .dummy).I .weak ((subs ((present subs).get k)).getD .dummy).s _ _
    rw [hx]
    exact h
  have hM : MapsOK (fun k => maps ((present subs).get k)) ar :=
    ⟨fun k => hs _, fun k => hne _ (hsome k), fun k => hlt _⟩
  obtain ⟨a0, C0, R0, s0, k0, c0, t0, r0, rows0'⟩ := h0'
  choose ha C R hS hK hC hT hR hrows using hk'
  refine ⟨a0, ch (fun k => maps ((present subs).get k)) C0 C, Rel (fun k => maps ((present subs).get k)) C R0 R,
    simulates hM t0.asc t0.typed (fun j => (hT j).asc) (fun j => (hT j).typed) s0 (fun j => le_refl _) hS
      fun j => hK j rfl,
    fun hs => rel_seek hM s0 (k0 hs) hS fun j => hK j rfl,
    fun _ => fun _ _ _ _ _ h => rel_current _ _ _ _ _ h, treeOK hM t0, rel_new r0 hR, fun r => ?_⟩
  unfold RowsOf
  rw [isPath_ch hM]
  have hrest : ∀ (k : Fin (present subs).length), r.length = ar →
      (restrict (inMap (maps ((present subs).get k))) 0 r).length = (maps ((present subs).get k)).length := by
    intro k hr
    rw [length_restrict, hr]
    exact numBefore_full hM k
  constructor
  · rintro ⟨hr, h1, h2⟩
    refine ⟨(rows0' r).mp ⟨hr, h1⟩, fun j hj => ?_⟩
    by_cases hjs : (subs j).isSome = true
    · obtain ⟨k, hk⟩ := List.get_of_mem (show j ∈ present subs from List.mem_filter.mpr ⟨List.mem_finRange j, hjs⟩)
      rw [← hk] at hj
      have := (hrows k _).mpr hj
      exact h2 k (by rw [hr]; exact numBefore_full hM k) this.2
    · have h := hk j
      rw [Option.not_isSome_iff_eq_none.mp hjs] at h
      exact h _ hj
  · rintro ⟨h1, h2⟩
    obtain ⟨hr, hp⟩ := (rows0' r).mpr h1
    exact ⟨hr, hp, fun k _ hk => h2 _ ((hrows k _).mp ⟨hrest k hr, hk⟩)⟩

variable {output : List M} {inputs : List (List M)}

theorem idxOf?_mem {l : List M} {m : M} (h : m ∈ l) : l.idxOf? m = some (l.idxOf m) := by
  induction l with
  | nil => simp at h
  | cons a l ih =>
    rw [List.idxOf?_cons, List.idxOf_cons]
    by_cases e : a = m
    · simp [e]
    · have : m ∈ l := (List.mem_cons.mp h).resolve_left (fun e' => e e'.symm)
      have e2 : (a == m) = false := by simpa using e
      simp [e2, ih this]

theorem newMaps_eq (hsub : ∀ l ∈ inputs, l.Sublist output) :
    newMaps output inputs = some (inputs.map fun l => l.map fun m => output.idxOf m) := by
  unfold newMaps
  rw [Permut.mapM_option_eq]
  intro l hl
  unfold layerMap
  rw [Permut.mapM_option_eq]
  intro m hm
  exact idxOf?_mem ((hsub l hl).subset hm)

theorem map_idxOf_sorted {l : List M} (hn : output.Nodup) (h : l.Sublist output) :
    (l.map fun m => output.idxOf m).Pairwise (· < ·) := by
  refine List.Pairwise.sublist (h.map _) ?_
  rw [List.pairwise_iff_getElem]
  intro i j hi hj hij
  rw [List.getElem_map, List.getElem_map, hn.idxOf_getElem, hn.idxOf_getElem]
  exact hij

theorem restrict_map {l : List M} (hn : output.Nodup) (h : l.Sublist output) (f : M → α) :
    restrict (inMap (l.map fun m => output.idxOf m)) 0 (output.map f) = l.map f := by
  rw [TJoin.restrict_eq_filter (l := l) f 0 (fun k m hk => ?_), TJoin.filter_sublist hn h]
  rw [Nat.zero_add]
  unfold inMap
  rw [decide_eq_decide, List.mem_map]
  obtain ⟨hk', rfl⟩ := List.getElem?_eq_some_iff.mp hk
  constructor
  · rintro ⟨m, hm, e⟩
    subst e
    rw [List.getElem_idxOf]
    exact hm
  · intro hm
    exact ⟨_, hm, hn.idxOf_getElem k hk'⟩

/-- **C09, subtraction.** Let the columns of the main and of the subtracted tables be named by markers,
such that the columns of each subtracted table occur among those of the main table, in their order.
Then the generator does not panic and the result consists of the rows of the main table whose values
in the columns of a subtracted table never form a row of that table. -/
theorem generate_table [Nonempty α] {m : Mode} (hn : output.Nodup) (hsub : ∀ l ∈ inputs, l.Sublist output)
    {main : Option (AnyScan α)} {subs : Fin inputs.length → Option (AnyScan α)}
    {rows0 : List α → Prop} {rows : Fin inputs.length → List α → Prop}
    (h0 : Tab m main output.length rows0) (hk : ∀ i, Tab .weak (subs i) (inputs.get i).length (rows i)) :
    ∃ maps, newMaps output inputs = some maps ∧
      Tab m (generate (fun i => maps.getD i.val []) main subs) output.length
        (fun r => ∃ f : M → α, r = output.map f ∧ rows0 r ∧ ∀ i, ¬ rows i ((inputs.get i).map f)) := by
  refine ⟨_, newMaps_eq hsub, ?_⟩
  obtain ⟨maps, hmaps⟩ : ∃ maps : Fin inputs.length → List Nat, maps = fun i =>
      (inputs.map fun l => l.map fun m => output.idxOf m).getD i.val [] := ⟨_, rfl⟩
  rw [← hmaps]
  have hmap : ∀ i, maps i = (inputs.get i).map fun m => output.idxOf m := by
    intro i
    rw [hmaps]
    simp
  clear hmaps
  have hval : ∀ r : List α, r.length = output.length → ∃ f : M → α, r = output.map f := by
    intro r hr
    obtain ⟨a⟩ := ‹Nonempty α›
    refine ⟨fun m => r.getD (output.idxOf m) a, ?_⟩
    apply List.ext_getElem (by simp [hr])
    intro k h1 h2
    rw [List.getElem_map, hn.idxOf_getElem k (by rw [← hr]; exact h1)]
    simp [h1]
  cases main with
  | none =>
    rintro r ⟨f, -, hr, -⟩
    exact h0 r hr
  | some x =>
    have h0' : IsTable x.I m x.s output.length rows0 := h0
    simp only [generate]
    split
    · next hp =>
      refine Tab.congr (x := some x) h0 fun r => ⟨fun hr => ?_, fun ⟨f, _, hr, _⟩ => hr⟩
      obtain ⟨f, hf⟩ := hval r (h0'.length hr)
      refine ⟨f, hf, hr, fun i => ?_⟩
      have : subs i = none := by
        by_contra hne
        have : i ∈ present subs := List.mem_filter.mpr ⟨List.mem_finRange i, Option.isSome_iff_ne_none.mpr hne⟩
        rw [hp] at this
        simp at this
      have h := hk i
      rw [this] at h
      exact h _
    · next hp =>
      split
      · next hz =>
        rintro r ⟨f, rfl, hr, h⟩
        obtain ⟨i, hi⟩ := List.exists_mem_of_ne_nil _ hp
        obtain ⟨y, hy⟩ := Option.isSome_iff_exists.mp (List.mem_filter.mp hi).2
        have hout : output = [] := List.length_eq_zero_iff.mp (h0'.1.symm.trans hz)
        have hin : inputs.get i = [] := by
          have := hsub _ (List.get_mem inputs i)
          rw [hout] at this
          exact List.sublist_nil.mp this
        have hk' := hk i
        rw [hy, hin] at hk'
        have hki : IsTable y.I .weak y.s 0 (rows i) := hk'
        obtain ⟨-, C, R, -, -, -, -, -, hrows⟩ := hki
        refine h i ?_
        rw [hin]
        exact (hrows []).mp ⟨rfl, trivial⟩
      · split
        · next hz =>
          rintro r ⟨f, rfl, hr, h⟩
          unfold zeroSub at hz
          rw [List.any_eq_true] at hz
          obtain ⟨i, -, hi⟩ := hz
          have hk' := hk i
          cases hy : subs i with
          | none => rw [hy] at hi; simp at hi
          | some y =>
            rw [hy] at hi hk'
            have hki : IsTable y.I .weak y.s _ (rows i) := hk'
            have hz : (inputs.get i).length = 0 := by
              rw [← hki.1]; simpa using hi
            have hin := List.length_eq_zero_iff.mp hz
            obtain ⟨-, C, R, -, -, -, -, -, hrows⟩ := hki
            refine h i ?_
            rw [hin]
            exact (hrows []).mp ⟨by rw [hz]; rfl, trivial⟩
        · next hz =>
          have h := ofInputs_table (maps := maps) (main := x) (subs := subs) (m := m) (ar := output.length)
            (rows0 := rows0) (rows := rows)
            (fun j => by rw [hmap]; exact map_idxOf_sorted hn (hsub _ (List.get_mem _ _)))
            (fun j k hk => by
              rw [hmap, List.mem_map] at hk
              obtain ⟨m, hm, rfl⟩ := hk
              exact List.idxOf_lt_length_iff.mpr ((hsub _ (List.get_mem inputs j)).subset hm))
            (fun j hj e => by
              apply hz
              unfold zeroSub
              rw [List.any_eq_true]
              refine ⟨j, List.mem_finRange j, ?_⟩
              obtain ⟨y, hy⟩ := Option.isSome_iff_exists.mp hj
              have h := hk j
              rw [hy] at h
              have hki : IsTable y.I .weak y.s _ (rows j) := h
              rw [hy]
              simp only [hki.1]
              rw [hmap] at e
              simpa using e)
            h0' (fun j => by rw [hmap, List.length_map]; exact hk j)
          refine IsTable.congr h fun r => ?_
          constructor
          · rintro ⟨h1, h2⟩
            obtain ⟨f, rfl⟩ := hval r (h0'.length h1)
            refine ⟨f, rfl, h1, fun i hi => h2 i ?_⟩
            rw [hmap, restrict_map hn (hsub _ (List.get_mem inputs i))]
            exact hi
          · rintro ⟨f, rfl, h1, h2⟩
            refine ⟨h1, fun i hi => h2 i ?_⟩
            rw [hmap, restrict_map hn (hsub _ (List.get_mem inputs i))] at hi
            exact hi

end
end TSub
end Verif
