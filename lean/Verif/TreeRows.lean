import Verif.RowScanProofs
import Verif.TrieBuild

/-!
# The rows of a tree

`RowsOf ch n`: the rows of length `n` that a tree of children `ch` contains, as a set, and how the
search orders of row scans enumerate it.
-/

set_option linter.unusedSimpArgs false
set_option linter.unusedSectionVars false

namespace Verif
variable {α : Type} [SVal α]

/-- `q` can be read off the tree starting at `p`. -/
def IsPath (ch : List α → Ty → List α) : List α → List α → Prop
  | _, [] => True
  | p, a :: q => a ∈ ch p (ty a) ∧ IsPath ch (p ++ [a]) q

instance IsPath.dec (ch : List α → Ty → List α) : ∀ p q : List α, Decidable (IsPath ch p q)
  | _, [] => .isTrue trivial
  | p, a :: q => @instDecidableAnd _ _ inferInstance (IsPath.dec ch (p ++ [a]) q)

/-- the rows of length `n` of a tree -/
def RowsOf (ch : List α → Ty → List α) (n : Nat) (r : List α) : Prop := r.length = n ∧ IsPath ch [] r

theorem isPath_append {ch : List α → Ty → List α} {p q r : List α} :
    IsPath ch p (q ++ r) ↔ IsPath ch p q ∧ IsPath ch (p ++ q) r := by
  induction q generalizing p with
  | nil => simp [IsPath]
  | cons a q ih => simp [IsPath, ih, and_assoc]

theorem isPath_single {ch : List α → Ty → List α} {p : List α} {a : α} :
    IsPath ch p [a] ↔ a ∈ ch p (ty a) := by simp [IsPath]

/-- The children of the nodes of a tree are sorted and of the right type, and only possible types
occur. `types` may be any ascending lists of types. -/
structure TreeOK (types : Nat → List Ty) (ch : List α → Ty → List α) (n : Nat) : Prop where
  asc : ∀ p τ, Asc (ch p τ)
  typed : ∀ p τ a, a ∈ ch p τ → ty a = τ
  tyAsc : ∀ k, (types k).Pairwise (· < ·)
  cover : ∀ p τ a, IsPath ch [] p → p.length < n → a ∈ ch p τ → τ ∈ types p.length

section
variable {types : Nat → List Ty} {ch : List α → Ty → List α} {N : Nat}

theorem kidsAt_asc (h : TreeOK types ch N) (p : List α) : Asc (kidsAt types ch p) := by
  unfold kidsAt
  generalize types p.length = T, (show (types p.length).Pairwise (· < ·) from h.tyAsc _) = hT
  induction T with
  | nil => simp
  | cons τ T ih =>
    rw [List.flatMap_cons]
    obtain ⟨h1, h2⟩ := List.pairwise_cons.mp hT
    refine List.pairwise_append.mpr ⟨h.asc p τ, ih h2, fun a ha b hb => ?_⟩
    obtain ⟨σ, hσ, hb⟩ := List.mem_flatMap.mp hb
    have ha' := h.typed _ _ _ ha
    have hb' := h.typed _ _ _ hb
    by_contra hle
    have := SVal.ty_mono b a (not_lt.mp hle)
    rw [ha', hb'] at this
    exact absurd (h1 σ hσ) (not_lt.mpr this)

theorem kidsAt_nodup (h : TreeOK types ch N) (p : List α) : (kidsAt types ch p).Nodup :=
  (kidsAt_asc h p).imp ne_of_lt

theorem mem_kidsAt (h : TreeOK types ch N) {p : List α} (hp : IsPath ch [] p) (hl : p.length < N)
    {a : α} : a ∈ kidsAt types ch p ↔ a ∈ ch p (ty a) := by
  unfold kidsAt
  rw [List.mem_flatMap]
  constructor
  · rintro ⟨τ, _, ha⟩
    rw [h.typed _ _ _ ha]; exact ha
  · intro ha
    exact ⟨ty a, h.cover _ _ _ hp hl ha, ha⟩

theorem mem_leaves (h : TreeOK types ch N) {n : Nat} {p : List α} (hp : IsPath ch [] p)
    (hl : p.length + n ≤ N) {r : List α} :
    r ∈ leaves types ch n p ↔ ∃ q, r = p ++ q ∧ q.length = n ∧ IsPath ch p q := by
  induction n generalizing p with
  | zero =>
    simp only [leaves, dfs, List.mem_singleton]
    constructor
    · rintro rfl; exact ⟨[], by simp, rfl, trivial⟩
    · rintro ⟨q, rfl, hq, _⟩
      simp [List.length_eq_zero_iff.mp hq]
  | succ n ih =>
    rw [RowCfg.leaves_succ, List.mem_flatMap]
    constructor
    · rintro ⟨a, ha, hr⟩
      have ha' := (mem_kidsAt h hp (by omega)).mp ha
      obtain ⟨q, rfl, hq, hpa⟩ :=
        (ih (isPath_append.mpr ⟨hp, by simpa [IsPath] using ha'⟩) (by simp; omega)).mp hr
      exact ⟨a :: q, by simp, by simp [hq], ha', hpa⟩
    · rintro ⟨q, rfl, hq, hpa⟩
      cases q with
      | nil => simp at hq
      | cons a q =>
        refine ⟨a, (mem_kidsAt h hp (by omega)).mpr hpa.1, ?_⟩
        refine (ih (isPath_append.mpr ⟨hp, by simpa [IsPath] using hpa.1⟩) (by simp; omega)).mpr
          ⟨q, by simp, by simpa using hq, hpa.2⟩

/-- search results come in ascending order -/
theorem dfs_sorted {β : Type} (h : TreeOK types ch N) {g : List α → List β} {key : β → List α}
    (hg : ∀ q, ∀ x ∈ g q, q <+: key x) (hg1 : ∀ q, (g q).Pairwise (fun x y => key x < key y))
    (n : Nat) (p : List α) :
    (∀ x ∈ dfs types ch g n p, p <+: key x) ∧
      (dfs types ch g n p).Pairwise (fun x y => key x < key y) := by
  induction n generalizing p with
  | zero => exact ⟨hg p, hg1 p⟩
  | succ n ih =>
    rw [dfs_succ]
    constructor
    · intro x hx
      obtain ⟨a, _, hx⟩ := List.mem_flatMap.mp hx
      exact (List.prefix_append p [a]).trans ((ih _).1 x hx)
    · rw [List.pairwise_flatMap]
      refine ⟨fun a _ => (ih _).2, (kidsAt_asc h p).imp ?_⟩
      intro a b hab x hx y hy
      obtain ⟨u, hu⟩ := (ih _).1 x hx
      obtain ⟨v, hv⟩ := (ih _).1 y hy
      rw [← hu, ← hv]
      simp only [List.append_assoc, List.cons_append, List.nil_append]
      clear hu hv hx hy
      induction p with
      | nil => exact List.cons_lt_cons_iff.mpr (.inl hab)
      | cons z p ihp => exact List.cons_lt_cons_iff.mpr (.inr ⟨rfl, ihp⟩)

theorem leaves_sorted (h : TreeOK types ch N) (n : Nat) (p : List α) :
    (leaves types ch n p).Pairwise (· < ·) :=
  (dfs_sorted (key := id) h (g := fun q => [q]) (by simp) (by simp) n p).2

/-- the rows that can be extended, in ascending order -/
def extRows (types : Nat → List Ty) (ch : List α → Ty → List α) (n e : Nat) : List (List α) :=
  (extendable types ch n e).map (·.1)

theorem extRows_sorted (h : TreeOK types ch N) (n e : Nat) :
    (extRows types ch n e).Pairwise (· < ·) := by
  rw [extRows, List.pairwise_map]
  refine (dfs_sorted (key := fun x : List α × List α => x.1) h ?_ ?_ n []).2
  · intro q x hx
    simp only [Option.mem_toList, Option.mem_def, Option.map_eq_some_iff] at hx
    obtain ⟨r, _, rfl⟩ := hx
    exact List.prefix_rfl
  · intro q
    cases (leaves types ch e q).head? <;> simp

theorem mem_dfs_gE (h : TreeOK types ch N) {n e : Nat} {p : List α} (hp : IsPath ch [] p)
    (hl : p.length + n + e ≤ N) {x : List α × List α} :
    x ∈ dfs types ch (RowCfg.gE types ch e) n p ↔
      (∃ q, x.1 = p ++ q ∧ q.length = n ∧ IsPath ch p q) ∧
        (leaves types ch e x.1).head? = some x.2 := by
  induction n generalizing p with
  | zero =>
    simp only [dfs, RowCfg.gE, Option.mem_toList, Option.mem_def, Option.map_eq_some_iff]
    constructor
    · rintro ⟨r, hr, rfl⟩; exact ⟨⟨[], by simp, rfl, trivial⟩, hr⟩
    · rintro ⟨⟨q, hx, hq, _⟩, hr⟩
      rw [List.length_eq_zero_iff.mp hq, List.append_nil] at hx
      exact ⟨x.2, hx ▸ hr, by rw [← hx]⟩
  | succ n ih =>
    rw [dfs_succ, List.mem_flatMap]
    constructor
    · rintro ⟨a, ha, hr⟩
      have ha' := (mem_kidsAt h hp (by omega)).mp ha
      obtain ⟨⟨q, hx, hq, hpa⟩, hr⟩ :=
        (ih (isPath_append.mpr ⟨hp, by simpa [IsPath] using ha'⟩) (by simp; omega)).mp hr
      exact ⟨⟨a :: q, by simp [hx], by simp [hq], ha', hpa⟩, hr⟩
    · rintro ⟨⟨q, hx, hq, hpa⟩, hr⟩
      cases q with
      | nil => simp at hq
      | cons a q =>
        refine ⟨a, (mem_kidsAt h hp (by omega)).mpr hpa.1, ?_⟩
        exact (ih (isPath_append.mpr ⟨hp, by simpa [IsPath] using hpa.1⟩) (by simp; omega)).mpr
          ⟨⟨q, by simp [hx], by simpa using hq, hpa.2⟩, hr⟩

theorem mem_extRows (h : TreeOK types ch N) {n e : Nat} (hl : n + e ≤ N) {r : List α} :
    r ∈ extRows types ch n e ↔ r.length = n ∧ ∃ x, RowsOf ch (n + e) (r ++ x) := by
  have key : ∀ x : List α × List α, x ∈ extendable types ch n e ↔ _ :=
    fun x => mem_dfs_gE h (p := []) trivial (by simpa using hl)
  simp only [extRows, List.mem_map, Prod.exists, exists_and_right, exists_eq_right]
  constructor
  · rintro ⟨s, hs⟩
    obtain ⟨⟨q, hx, hq, hpa⟩, hr⟩ := (key (r, s)).mp hs
    simp only [List.nil_append] at hx
    subst hx
    refine ⟨hq, ?_⟩
    obtain ⟨y, rfl, hy, hpy⟩ := (mem_leaves h hpa (by omega)).mp (List.mem_of_head? hr)
    exact ⟨y, by simp [hy]; exact hq, isPath_append.mpr ⟨hpa, by simpa using hpy⟩⟩
  · rintro ⟨hl', x, hx, hpx⟩
    obtain ⟨h1, h2⟩ := isPath_append.mp hpx
    have hxl : x.length = e := by simp at hx; omega
    have hm : r ++ x ∈ leaves types ch e r :=
      (mem_leaves h h1 (by omega)).mpr ⟨x, rfl, hxl, by simpa using h2⟩
    cases hL : leaves types ch e r with
    | nil => rw [hL] at hm; simp at hm
    | cons s L =>
      exact ⟨s, (key (r, s)).mpr ⟨⟨r, by simp, hl', h1⟩, by rw [hL]; rfl⟩⟩

theorem length_extRows {n e : Nat} {r : List α} (hm : r ∈ extRows types ch n e) (h : TreeOK types ch N)
    (hl : n + e ≤ N) : r.length = n := ((mem_extRows h hl).mp hm).1

/-- with no existential layers these are all rows -/
theorem extendable_zero (n : Nat) :
    extendable types ch n 0 = (leaves types ch n []).map fun r => (r, r) := by
  have : ∀ n p, dfs types ch (RowCfg.gE types ch 0) n p =
      (leaves types ch n p).map fun r => (r, r) := by
    intro n
    induction n with
    | zero => intro p; simp [dfs, RowCfg.gE, leaves]
    | succ n ih =>
      intro p
      rw [dfs_succ, RowCfg.leaves_succ, List.map_flatMap]
      congr 1
      funext a
      exact ih _
  exact this n []

end

/-- the children in the tree of a list of rows: the rows of the tree are the rows -/
theorem isPath_chOf {rows : List (List α)} {p q : List α} :
    IsPath (chOf rows) p q ↔ q = [] ∨ ∃ r, p ++ q ++ r ∈ rows := by
  induction q generalizing p with
  | nil => simp [IsPath]
  | cons a q ih =>
    simp only [IsPath, ih, mem_chOf, true_and, reduceCtorEq, false_or, List.append_assoc,
      List.cons_append, List.nil_append]
    constructor
    · rintro ⟨⟨r, hr⟩, rfl | ⟨s, hs⟩⟩
      · exact ⟨r, by simpa using hr⟩
      · exact ⟨s, hs⟩
    · rintro ⟨r, hr⟩
      exact ⟨⟨_, hr⟩, .inr ⟨r, hr⟩⟩

theorem rowsOf_chOf {rows : List (List α)} {n : Nat} (hn : 0 < n)
    (hl : ∀ r ∈ rows, r.length = n) {r : List α} : RowsOf (chOf rows) n r ↔ r ∈ rows := by
  unfold RowsOf
  rw [isPath_chOf]
  constructor
  · rintro ⟨h1, rfl | ⟨s, hs⟩⟩
    · simp at h1; omega
    · have := hl _ hs
      simp only [List.nil_append, List.length_append] at this
      have : s = [] := List.length_eq_zero_iff.mp (by omega)
      simpa [this] using hs
  · intro h
    exact ⟨hl _ h, .inr ⟨[], by simpa using h⟩⟩

end Verif
