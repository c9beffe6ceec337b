import Verif.Trie

/-!
# A trie that represents a sorted list of rows behaves like it

The main result is `GScan.simulates`: the partial trie scan of a trie that represents `rows`
behaves like the tree of the rows.
-/

set_option linter.unusedSimpArgs false
set_option linter.unusedSectionVars false

namespace Verif

section sorted
variable {α : Type} [SVal α]

/-- rows in (weakly) ascending lexicographic order -/
abbrev SortedRows (rows : List (List α)) : Prop := rows.Pairwise (· ≤ ·)

theorem cons_le_cons_iff' {a b : α} {s t : List α} :
    a :: s ≤ b :: t ↔ a < b ∨ (a = b ∧ s ≤ t) := by
  rw [le_iff_lt_or_eq, le_iff_lt_or_eq, List.cons_lt_cons_iff]
  constructor
  · rintro ((h | ⟨h, h'⟩) | h)
    · exact .inl h
    · exact .inr ⟨h, .inl h'⟩
    · exact .inr ⟨(List.cons.inj h).1, .inr (List.cons.inj h).2⟩
  · rintro (h | ⟨rfl, h | rfl⟩)
    · exact .inl (.inl h)
    · exact .inl (.inr ⟨rfl, h⟩)
    · exact .inr rfl

theorem nil_le' (t : List α) : [] ≤ t := by
  cases t with
  | nil => exact le_rfl
  | cons a t => exact le_of_lt (by simp)

theorem mem_uniq {a : α} {l : List α} : a ∈ uniq l ↔ a ∈ l := by
  induction l using uniq.induct with
  | case1 => simp [uniq]
  | case2 => simp [uniq]
  | case3 a l ih => simp [uniq, ih]
  | case4 a b l h ih => simp [uniq, h, ih]

theorem uniq_asc {l : List α} (h : l.Pairwise (· ≤ ·)) : Asc (uniq l) := by
  induction l using uniq.induct with
  | case1 => simp [uniq]
  | case2 => simp [uniq]
  | case3 a l ih => simpa [uniq] using ih (List.pairwise_cons.mp h).2
  | case4 a b l hab ih =>
    have h' := List.pairwise_cons.mp h
    simp only [uniq, hab, if_false]
    refine asc_cons.mpr ⟨fun c hc => ?_, ih h'.2⟩
    have hc' := mem_uniq.mp hc
    have h1 : a < b := lt_of_le_of_ne (h'.1 b (by simp)) hab
    rcases List.mem_cons.mp hc' with e | e
    · exact e ▸ h1
    · exact lt_of_lt_of_le h1 ((List.pairwise_cons.mp h'.2).1 c e)

theorem sorted_heads {rows : List (List α)} (h : SortedRows rows) :
    (rows.filterMap List.head?).Pairwise (· ≤ ·) := by
  rw [List.pairwise_filterMap]
  refine h.imp ?_
  intro r s hrs a ha b hb
  cases r with
  | nil => simp at ha
  | cons x r =>
    cases s with
    | nil => simp at hb
    | cons y s =>
      simp at ha hb; subst ha hb
      rcases cons_le_cons_iff'.mp hrs with h | h
      · exact h.le
      · exact h.1.le

theorem sorted_tails {rows : List (List α)} (h : SortedRows rows) (a : α) :
    SortedRows (tails a rows) := by
  unfold tails
  rw [SortedRows, List.pairwise_filterMap]
  refine h.imp ?_
  intro r s hrs r' hr s' hs
  cases r with
  | nil => simp at hr
  | cons x r =>
    cases s with
    | nil => simp at hs
    | cons y s =>
      simp at hr hs
      obtain ⟨rfl, rfl⟩ := hr
      obtain ⟨rfl, rfl⟩ := hs
      rcases cons_le_cons_iff'.mp hrs with h | h
      · exact absurd h (lt_irrefl _)
      · exact h.2

theorem sorted_subs {rows : List (List α)} (h : SortedRows rows) (p : List α) :
    SortedRows (subs rows p) := by
  induction p generalizing rows with
  | nil => exact h
  | cons a p ih => exact ih (sorted_tails h a)

theorem keys_asc {rows : List (List α)} (h : SortedRows rows) : Asc (keys rows) :=
  uniq_asc (sorted_heads h)

theorem keysOf_asc {l : List α} (h : Asc l) (τ : Ty) : Asc (keysOf τ l) := h.filter _

theorem chOf_asc {rows : List (List α)} (h : SortedRows rows) (p : List α) (τ : Ty) :
    Asc (chOf rows p τ) := keysOf_asc (keys_asc (sorted_subs h p)) τ

theorem mem_keysOf {τ : Ty} {l : List α} {a : α} : a ∈ keysOf τ l ↔ a ∈ l ∧ ty a = τ := by
  simp [keysOf]

theorem mem_tails {a : α} {rows : List (List α)} {r : List α} :
    r ∈ tails a rows ↔ (a :: r) ∈ rows := by
  unfold tails
  rw [List.mem_filterMap]
  constructor
  · rintro ⟨s, hs, h⟩
    cases s with
    | nil => simp at h
    | cons x s =>
      simp at h; obtain ⟨rfl, rfl⟩ := h; exact hs
  · intro h
    exact ⟨_, h, by simp⟩

theorem mem_subs {p : List α} {rows : List (List α)} {r : List α} :
    r ∈ subs rows p ↔ (p ++ r) ∈ rows := by
  induction p generalizing rows with
  | nil => simp [subs]
  | cons a p ih =>
    have : subs rows (a :: p) = subs (tails a rows) p := rfl
    rw [this, ih, mem_tails]; rfl

theorem mem_keys {rows : List (List α)} {a : α} : a ∈ keys rows ↔ ∃ r, (a :: r) ∈ rows := by
  unfold keys
  rw [mem_uniq, List.mem_filterMap]
  constructor
  · rintro ⟨s, hs, h⟩
    cases s with
    | nil => simp at h
    | cons x s => simp at h; subst h; exact ⟨s, hs⟩
  · rintro ⟨r, h⟩
    exact ⟨_, h, rfl⟩

theorem mem_chOf {rows : List (List α)} {p : List α} {τ : Ty} {a : α} :
    a ∈ chOf rows p τ ↔ ty a = τ ∧ ∃ r, (p ++ a :: r) ∈ rows := by
  unfold chOf
  rw [mem_keysOf, mem_keys]
  simp only [mem_subs]
  exact and_comm

theorem subs_append (rows : List (List α)) (p q : List α) :
    subs rows (p ++ q) = subs (subs rows p) q := by simp [subs]

end sorted

section levels
variable {α : Type} [SVal α]

theorem filter_split {p : α → Bool} {l : List α} {i : Nat} {v : α}
    (h : (l.filter p)[i]? = some v) :
    ∃ l₁ l₂, l = l₁ ++ v :: l₂ ∧ (l₁.filter p).length = i ∧ p v = true := by
  induction l generalizing i with
  | nil => simp at h
  | cons a l ih =>
    by_cases ha : p a
    · simp only [List.filter_cons, ha, if_true] at h
      cases i with
      | zero => simp at h; subst h; exact ⟨[], l, rfl, rfl, ha⟩
      | succ i =>
        obtain ⟨l₁, l₂, h1, h2, h3⟩ := ih (i := i) (by simpa using h)
        exact ⟨a :: l₁, l₂, by simp [h1], by simp [ha, h2], h3⟩
    · simp only [List.filter_cons, ha] at h
      obtain ⟨l₁, l₂, h1, h2, h3⟩ := ih (i := i) (by simpa using h)
      exact ⟨a :: l₁, l₂, by simp [h1], by simp [ha, h2], h3⟩

theorem gen_append (rows S T : List (List α)) : gen rows (S ++ T) = gen rows S ++ gen rows T := by
  simp [gen]

theorem gen_filter_length (rows T : List (List α)) (σ : Ty) :
    ((gen rows T).filter (·.1 = σ)).length = (T.filter (lastTy · = σ)).length := by
  induction T with
  | nil => rfl
  | cons x T ih =>
    simp only [gen, List.map_cons] at ih ⊢
    by_cases h : lastTy x = σ <;> simp [h, ih]

theorem lastTy_append (p : List α) (a : α) : lastTy (p ++ [a]) = ty a := by simp [lastTy]

theorem kids_filter_length (ks : List α) (p : List α) (τ : Ty) :
    ((ks.map fun a => p ++ [a]).filter (lastTy · = τ)).length = (keysOf τ ks).length := by
  induction ks with
  | nil => rfl
  | cons a ks ih =>
    by_cases h : ty a = τ <;> simp [h, keysOf, ih, lastTy_append]

theorem level_filter_length (rows T : List (List α)) (τ : Ty) :
    ((T.flatMap fun p => (keys (subs rows p)).map fun a => p ++ [a]).filter
      (lastTy · = τ)).length = (allKeys τ (gen rows T)).length := by
  induction T with
  | nil => rfl
  | cons x T ih =>
    have : gen rows (x :: T) = (lastTy x, keys (subs rows x)) :: gen rows T := rfl
    rw [List.flatMap_cons, List.filter_append, List.length_append, ih, this, allKeys_cons,
      List.length_append, kids_filter_length]

/-- where a child node is found in the next level -/
theorem level_split {rows : List (List α)} {k : Nat} {T₁ T₂ : List (List α)} {p : List α}
    (h : level rows k = T₁ ++ p :: T₂) {τ : Ty} {i : Nat} {v : α}
    (hv : (keysOf τ (keys (subs rows p)))[i]? = some v) :
    ty v = τ ∧ ∃ S₁ S₂, level rows (k + 1) = S₁ ++ (p ++ [v]) :: S₂ ∧
      (S₁.filter (lastTy · = τ)).length = (allKeys τ (gen rows T₁)).length + i := by
  obtain ⟨K₁, K₂, h1, h2, h3⟩ := filter_split hv
  have h3' : ty v = τ := by simpa using h3
  subst h3'
  refine ⟨rfl, T₁.flatMap (fun p => (keys (subs rows p)).map fun a => p ++ [a]) ++
      K₁.map (fun a => p ++ [a]),
    K₂.map (fun a => p ++ [a]) ++ T₂.flatMap (fun p => (keys (subs rows p)).map fun a => p ++ [a]),
    ?_, ?_⟩
  · rw [level, h]
    simp [h1]
  · rw [List.filter_append, List.length_append, level_filter_length, kids_filter_length]
    congr 1

theorem slice_append {β : Type} (a b c : List β) :
    slice (a ++ b ++ c) a.length (a.length + b.length) = b := by
  unfold slice
  rw [List.take_left' (by simp), List.drop_left]

theorem slice_getElem? {β : Type} {l : List β} {a b i : Nat} (h : a + i < b) :
    (slice l a b)[i]? = l[a + i]? := by
  unfold slice
  rw [List.getElem?_drop, List.getElem?_take, if_pos h]

end levels

namespace GScan
variable {α : Type} [SVal α]

theorem full_cons {τ : Ty} {c : Cur α} {p : TPath α} :
    TPath.full ((τ, c) :: p) ↔ c.current.isSome ∧ TPath.full p := by
  simp [TPath.full]

theorem pref_cons {τ : Ty} {c : Cur α} {p : TPath α} {v : α} (h : c.current = some v) :
    TPath.pref ((τ, c) :: p) = (TPath.pref p) ++ [v] := by
  simp [TPath.pref, h]

/-- the scans of the layers of a path correspond to its cursors -/
def RPath (t : Trie α) (rows : List (List α)) (scans : Nat → Ty → VecScan α) : TPath α → Prop
  | [] => True
  | (τ, c) :: p => RPath t rows scans p ∧ TPath.full p ∧
    ∃ l T₁ T₂ a b, t.columns[p.length]? = some l ∧
      level rows p.length = T₁ ++ TPath.pref p :: T₂ ∧
      b ≤ (l τ).data.length ∧ slice (l τ).data a b = chOf rows (TPath.pref p) τ ∧
      (chOf rows (TPath.pref p) τ ≠ [] → a = (allKeys τ (gen rows T₁)).length) ∧
      VecScan.Sim (l τ).data a b (scans p.length τ) c

/-- simulation relation -/
def Inv (t : Trie α) (rows : List (List α)) (s : GScan α) (p : TPath α) : Prop :=
  s.trie = t ∧ s.path = p.map Prod.fst ∧ p.length ≤ t.arity ∧
  (∀ k τ l, t.columns[k]? = some l → (s.scans k τ).data = (l τ).data) ∧
  (∀ τ, (s.scans 0 τ).start = 0 ∧ (s.scans 0 τ).stop = (s.scans 0 τ).data.length) ∧
  RPath t rows s.scans p

theorem rpath_congr {t : Trie α} {rows : List (List α)} {f g : Nat → Ty → VecScan α} {p : TPath α}
    (h : ∀ k < p.length, f k = g k) (hp : RPath t rows f p) : RPath t rows g p := by
  induction p with
  | nil => trivial
  | cons e p ih =>
    obtain ⟨τ, c⟩ := e
    obtain ⟨h1, h2, l, T₁, T₂, a, b, h3, h4, h5, h6, h7, h8⟩ := hp
    refine ⟨ih (fun k hk => h k (by simp; omega)) h1, h2, l, T₁, T₂, a, b, h3, h4, h5, h6, h7,
      ?_⟩
    rw [← h p.length (by simp)]; exact h8

theorem inv_new {t : Trie α} {rows : List (List α)} : Inv t rows (new t) [] := by
  refine ⟨rfl, rfl, by simp, ?_, ?_, trivial⟩
  · intro k τ l hl; simp [new, VecScan.new, hl]
  · intro τ; simp [new, VecScan.new]

theorem setScan_same (s : GScan α) (k : Nat) (τ : Ty) (v : VecScan α) :
    (s.setScan k τ v).scans k τ = v := by simp [setScan]

theorem setScan_layer (s : GScan α) (k j : Nat) (τ : Ty) (v : VecScan α) (h : j ≠ k) :
    (s.setScan k τ v).scans j = s.scans j := by simp [setScan, h]

theorem setScan_ty (s : GScan α) (k j : Nat) (τ σ : Ty) (v : VecScan α) (h : σ ≠ τ) :
    (s.setScan k τ v).scans j σ = s.scans j σ := by
  by_cases hj : j = k
  · subst hj; simp [setScan, h]
  · simp [setScan, hj]

/-- replacing the scan of the innermost layer by one for another cursor -/
theorem inv_set {t : Trie α} {rows : List (List α)} {s : GScan α} {τ : Ty} {c c' : Cur α}
    {p : TPath α} (h : Inv t rows s ((τ, c) :: p)) {v : VecScan α}
    (hv : ∀ d a b, VecScan.Sim d a b (s.scans p.length τ) c → VecScan.Sim d a b v c') :
    Inv t rows (s.setScan p.length τ v) ((τ, c') :: p) := by
  obtain ⟨h1, h2, h3, h4, h5, h6⟩ := h
  obtain ⟨g1, g2, l, T₁, T₂, a, b, g3, g4, g5, g6, g7, g8⟩ := h6
  have hs := hv _ _ _ g8
  have e1 : v.data = (s.scans p.length τ).data := by rw [hs.1, g8.1]
  have e2 : v.start = (s.scans p.length τ).start := by rw [hs.2.1, g8.2.1]
  have e3 : v.stop = (s.scans p.length τ).stop := by rw [hs.2.2.1, g8.2.2.1]
  have key : ∀ k ρ, ((s.setScan p.length τ v).scans k ρ).data = (s.scans k ρ).data ∧
      ((s.setScan p.length τ v).scans k ρ).start = (s.scans k ρ).start ∧
      ((s.setScan p.length τ v).scans k ρ).stop = (s.scans k ρ).stop := by
    intro k ρ
    by_cases hk : k = p.length
    · by_cases hr : ρ = τ
      · subst hk hr; rw [setScan_same]; exact ⟨e1, e2, e3⟩
      · rw [setScan_ty _ _ _ _ _ _ hr]; simp
    · rw [setScan_layer _ _ _ _ _ hk]; simp
  refine ⟨h1, h2, h3, ?_, ?_, ?_⟩
  · intro k ρ l' hl; rw [(key k ρ).1]; exact h4 k ρ l' hl
  · intro ρ; rw [(key 0 ρ).1, (key 0 ρ).2.1, (key 0 ρ).2.2]; exact h5 ρ
  · refine ⟨rpath_congr (fun k hk => (setScan_layer _ _ _ _ _ (by omega)).symm) g1, g2, l, T₁,
      T₂, a, b, g3, g4, g5, g6, g7, ?_⟩
    rw [setScan_same]; exact hs

theorem sim_next {t : Trie α} {rows : List (List α)} {s : GScan α} {τ : Ty} {c : Cur α}
    {p : TPath α} (h : Inv t rows s ((τ, c) :: p)) :
    ∃ s', ops.next s τ = some (c.next.current, s') ∧ Inv t rows s' ((τ, c.next) :: p) := by
  have hh := h
  obtain ⟨h1, h2, h3, h4, h5, h6⟩ := h
  obtain ⟨g1, g2, l, T₁, T₂, a, b, g3, g4, g5, g6, g7, g8⟩ := h6
  obtain ⟨v, e1, e2⟩ := VecScan.sim_next g5 _ _ g8
  have hlen : s.path.length = p.length + 1 := by rw [h2]; simp
  refine ⟨s.setScan p.length τ v, ?_, inv_set hh ?_⟩
  · have e1' : (s.scans p.length τ).next = some (c.next.current, v) := e1
    simp [ops, next, usub, hlen, e1']
  · intro d a' b' hs
    have : d = (l τ).data ∧ a' = a ∧ b' = b :=
      ⟨hs.1.symm.trans g8.1, hs.2.1.symm.trans g8.2.1, hs.2.2.1.symm.trans g8.2.2.1⟩
    obtain ⟨rfl, rfl, rfl⟩ := this
    exact e2

theorem sim_seek {t : Trie α} {rows : List (List α)} (hr : SortedRows rows) {s : GScan α}
    {c : Cur α} {p : TPath α} {v : α} (h : Inv t rows s ((ty v, c) :: p)) :
    ∃ s', ops.seek s v = some ((c.seek v).current, s') ∧
      Inv t rows s' ((ty v, c.seek v) :: p) := by
  have hh := h
  obtain ⟨h1, h2, h3, h4, h5, h6⟩ := h
  obtain ⟨g1, g2, l, T₁, T₂, a, b, g3, g4, g5, g6, g7, g8⟩ := h6
  have hsort : (slice (l (ty v)).data a b).Pairwise (· ≤ ·) := by
    rw [g6]; exact (chOf_asc hr _ _).imp (fun h => le_of_lt h)
  obtain ⟨w, e1, e2⟩ := VecScan.sim_seek g5 hsort _ _ v g8
  have hlen : s.path.length = p.length + 1 := by rw [h2]; simp
  refine ⟨s.setScan p.length (ty v) w, ?_, inv_set hh ?_⟩
  · have e1' : (s.scans p.length (ty v)).seek v = some ((c.seek v).current, w) := e1
    simp [ops, seek, usub, hlen, e1']
  · intro d a' b' hs
    have : d = (l (ty v)).data ∧ a' = a ∧ b' = b :=
      ⟨hs.1.symm.trans g8.1, hs.2.1.symm.trans g8.2.1, hs.2.2.1.symm.trans g8.2.2.1⟩
    obtain ⟨rfl, rfl, rfl⟩ := this
    exact e2

theorem rpath_suffix {t : Trie α} {rows : List (List α)} {f : Nat → Ty → VecScan α}
    {p q : TPath α} (h : RPath t rows f (p ++ q)) : RPath t rows f q := by
  induction p with
  | nil => exact h
  | cons e p ih => exact ih h.1

theorem sim_current {t : Trie α} {rows : List (List α)} {s : GScan α} {τ : Ty} {c : Cur α}
    {p q : TPath α} (h : Inv t rows s (p ++ (τ, c) :: q)) :
    ops.current s q.length τ = c.current := by
  obtain ⟨h1, h2, h3, h4, h5, h6⟩ := h
  obtain ⟨g1, g2, l, T₁, T₂, a, b, g3, g4, g5, g6, g7, g8⟩ := rpath_suffix h6
  exact VecScan.sim_current g5 _ _ g8

theorem sim_up {t : Trie α} {rows : List (List α)} {s : GScan α} {e : Ty × Cur α}
    {p : TPath α} (h : Inv t rows s (e :: p)) :
    ∃ s', ops.up s = some s' ∧ Inv t rows s' p := by
  obtain ⟨h1, h2, h3, h4, h5, h6⟩ := h
  refine ⟨{ s with path := s.path.tail }, rfl, h1, by simp [h2], ?_, h4, h5, h6.1⟩
  have : p.length + 1 ≤ t.arity := by simpa using h3
  omega

/-- position of a cursor that stands on a value -/
theorem position_of_sim {d : List α} {a b : Nat} (hb : b ≤ d.length) {v : VecScan α} {c : Cur α}
    {x : α} (h : VecScan.Sim d a b v c) (hc : c.current = some x) :
    ∃ i, v.position = some (a + i) ∧ (slice d a b)[i]? = some x ∧ a + i < b := by
  obtain ⟨rfl, rfl, rfl, h⟩ := h
  rcases h with ⟨hp, rfl | ⟨_, rfl⟩⟩ | ⟨p, hp, hle, rfl⟩
  · simp [Cur.current] at hc
  · simp [Cur.current] at hc
  · simp only [Cur.current, slice_head hb] at hc
    split at hc
    · next hlt =>
      have : v.start + (p - v.start) = p := by omega
      refine ⟨p - v.start, ?_, ?_, by omega⟩
      · simp [VecScan.position, hp, hlt, this]
      · rw [slice_getElem? (by omega), this, hc]
    · cases hc

theorem sim_down {t : Trie α} {rows : List (List α)} (ht : Rep t rows) {s : GScan α}
    {p : TPath α} (τ : Ty) (h : Inv t rows s p) (hf : p.full) (hlt : p.length < t.arity) :
    ∃ s', ops.down s τ = some s' ∧ Inv t rows s' ((τ, .fresh (chOf rows (TPath.pref p) τ)) :: p) := by
  have hh := h
  obtain ⟨h1, h2, h3, h4, h5, h6⟩ := h
  obtain ⟨l, hl⟩ : ∃ l, t.columns[p.length]? = some l :=
    ⟨_, List.getElem?_eq_getElem hlt⟩
  -- it suffices to provide the new scan of the layer
  have key : ∀ (v : VecScan α) (a b : Nat) (T₁ T₂ : List (List α)),
      ops.down s τ = some { s.setScan p.length τ v with path := τ :: s.path } →
      level rows p.length = T₁ ++ TPath.pref p :: T₂ →
      b ≤ (l τ).data.length → slice (l τ).data a b = chOf rows (TPath.pref p) τ →
      (chOf rows (TPath.pref p) τ ≠ [] → a = (allKeys τ (gen rows T₁)).length) →
      v = ⟨(l τ).data, none, a, b⟩ → (p.length = 0 → a = 0 ∧ b = (l τ).data.length) →
      ∃ s', ops.down s τ = some s' ∧ Inv t rows s' ((τ, .fresh (chOf rows (TPath.pref p) τ)) :: p) := by
    intro v a b T₁ T₂ k1 k2 k3 k4 k5 k6 k7
    subst k6
    have hsc : ∀ (k : Nat) (ρ : Ty), ρ ≠ τ ∨ k ≠ p.length →
        (s.setScan p.length τ ⟨(l τ).data, none, a, b⟩).scans k ρ = s.scans k ρ := by
      rintro k ρ (hr | hk)
      · exact setScan_ty _ _ _ _ _ _ hr
      · rw [setScan_layer _ _ _ _ _ hk]
    refine ⟨_, k1, h1, by simp [h2], Nat.succ_le_of_lt hlt, ?_, ?_, ?_⟩
    · intro k ρ l' hl'
      by_cases hc : ρ = τ ∧ k = p.length
      · obtain ⟨rfl, rfl⟩ := hc
        change ((s.setScan p.length ρ _).scans p.length ρ).data = _
        rw [setScan_same]
        rw [hl] at hl'; cases hl'; rfl
      · change ((s.setScan p.length τ _).scans k ρ).data = _
        rw [hsc k ρ (by tauto)]; exact h4 k ρ l' hl'
    · intro ρ
      by_cases hc : ρ = τ ∧ 0 = p.length
      · obtain ⟨rfl, hk⟩ := hc
        change ((s.setScan p.length ρ _).scans 0 ρ).start = _ ∧
          ((s.setScan p.length ρ _).scans 0 ρ).stop = ((s.setScan p.length ρ _).scans 0 ρ).data.length
        obtain ⟨u1, u2⟩ := k7 hk.symm
        have := setScan_same s p.length ρ ⟨(l ρ).data, none, a, b⟩
        rw [← hk] at this ⊢
        rw [this]; exact ⟨u1, u2⟩
      · change ((s.setScan p.length τ _).scans 0 ρ).start = _ ∧
          ((s.setScan p.length τ _).scans 0 ρ).stop = ((s.setScan p.length τ _).scans 0 ρ).data.length
        rw [hsc 0 ρ (by tauto)]; exact h5 ρ
    · refine ⟨rpath_congr (fun k hk => ?_) h6, hf, l, T₁, T₂, a, b, hl, k2, k3, k4, k5, ?_⟩
      · exact (setScan_layer _ _ _ _ _ (by omega)).symm
      · change VecScan.Sim _ _ _ ((s.setScan p.length τ _).scans p.length τ) _
        rw [setScan_same]
        exact ⟨rfl, rfl, rfl, .inl ⟨rfl, .inl (by rw [k4])⟩⟩
  cases hp : p with
  | nil =>
    subst hp
    have hd := ht.data 0 l τ hl
    have hd' : (l τ).data = chOf rows (TPath.pref ([] : TPath α)) τ := by
      rw [hd]; simp [level, gen, allKeys, chOf, TPath.pref, subs]
    have hpath : s.path = [] := by simpa using h2
    refine key ⟨(l τ).data, none, 0, (l τ).data.length⟩ 0 (l τ).data.length [] [] ?_ ?_
      (le_refl _) ?_ ?_ rfl ?_
    · have hpos : 0 < t.columns.length := hlt
      have hr : (s.scans 0 τ).reset = ⟨(l τ).data, none, 0, (l τ).data.length⟩ := by
        have a1 := h4 0 τ l hl
        obtain ⟨a2, a3⟩ := h5 τ
        rw [a1] at a3
        simp [VecScan.reset, a1, a2, a3]
      simp [ops, down, hpath, downRoot, h1, hpos, hr]
    · simp [level, TPath.pref, subs]
    · rw [slice_full, hd']
    · simp [gen, allKeys, keysOf]
    · simp
  | cons e q =>
    obtain ⟨σ, c⟩ := e
    subst hp
    obtain ⟨g1, g2, l', T₁, T₂, a, b, g3, g4, g5, g6, g7, g8⟩ := h6
    obtain ⟨x, hx⟩ := Option.isSome_iff_exists.mp (full_cons.mp hf).1
    obtain ⟨i, i1, i2, i3⟩ := position_of_sim g5 g8 hx
    rw [g6] at i2
    have hne : chOf rows (TPath.pref q) σ ≠ [] := by intro e; rw [e] at i2; simp at i2
    have ha := g7 hne
    obtain ⟨hxt, S₁, S₂, s1, s2⟩ := level_split g4 i2
    have hpref : subs rows (TPath.pref ((σ, c) :: q)) = tails x (subs rows (TPath.pref q)) := by
      rw [pref_cons hx, subs_append]; rfl
    have hlay := ht.layer q.length l (by simpa using hl) (by rw [s1]; simp)
    have hgen : gen rows (level rows (q.length + 1)) =
        gen rows S₁ ++ (σ, keys (tails x (subs rows (TPath.pref q)))) :: gen rows S₂ := by
      rw [s1, gen_append]
      simp [gen, lastTy_append, hxt, subs_append, subs]
    obtain ⟨r, r1, r2⟩ := bounds_spec (gen rows S₁) (gen rows S₂) (σ, keys (tails x (subs rows (TPath.pref q)))) τ
    rw [← hgen, ← hlay, gen_filter_length, s2, ← ha] at r1
    have hd : (l τ).data = allKeys τ (gen rows S₁) ++ keysOf τ (keys (tails x (subs rows (TPath.pref q)))) ++
        allKeys τ (gen rows S₂) := by
      rw [ht.data (q.length + 1) l τ (by simpa using hl), hgen, allKeys_append, allKeys_cons,
        List.append_assoc]
    have hch : chOf rows (TPath.pref ((σ, c) :: q)) τ =
        keysOf τ (keys (tails x (subs rows (TPath.pref q)))) := by rw [chOf, hpref]
    have hpath : s.path = σ :: q.map Prod.fst := by simpa using h2
    have hlen : s.path.length = q.length + 1 := by simp [hpath]
    have hdat := h4 (q.length + 1) τ l (by simpa using hl)
    have hdown : ∀ (a' b' : Nat), r.getD (0, 0) = (a', b') → b' ≤ (l τ).data.length →
        ops.down s τ = some { s.setScan (q.length + 1) τ ⟨(l τ).data, none, a', b'⟩ with
          path := τ :: s.path } := by
      intro a' b' hr hb'
      have hl' : t.columns[q.length + 1]? = some l := by simpa using hl
      simp only [ops, down, hpath, downInner, List.length_cons, List.length_map,
        Nat.add_sub_cancel, i1, h1, hl', r1, Option.bind_eq_bind, Option.bind_some, hr,
        VecScan.narrow, hdat, hb', if_true]
      rfl
    rcases r2 with ⟨rfl, hk⟩ | ⟨rfl, hk⟩
    · refine key ⟨(l τ).data, none, 0, 0⟩ 0 0 S₁ S₂ (hdown 0 0 rfl (by omega)) ?_ (by omega)
        ?_ ?_ rfl ?_
      · rw [pref_cons hx]; exact s1
      · rw [slice_nil (le_refl _), hch, hk]
      · rw [hch]; exact fun h => absurd hk h
      · simp
    · have hb' : (allKeys τ (gen rows S₁)).length +
          (keysOf τ (keys (tails x (subs rows (TPath.pref q))))).length ≤ (l τ).data.length := by
        rw [hd]; simp
      refine key ⟨(l τ).data, none, _, _⟩ _ _ S₁ S₂ (hdown _ _ rfl hb') ?_ hb' ?_ ?_ rfl ?_
      · rw [pref_cons hx]; exact s1
      · rw [hd, slice_append, hch]
      · intro _; rfl
      · simp

/-- The partial trie scan of a trie that represents `rows` behaves like the tree of the rows. -/
theorem simulates {t : Trie α} {rows : List (List α)} (hr : SortedRows rows) (ht : Rep t rows) :
    Simulates ops t.arity (chOf rows) (Inv t rows) where
  depth s p h := ⟨by rw [show ops.depth s = s.path.length from rfl, h.2.1]; simp, h.2.2.1⟩
  next _ _ _ _ h := sim_next h
  current _ _ _ _ _ h _ := sim_current h
  up _ _ _ h := sim_up h
  down _ _ τ h hf hlt := sim_down ht τ h hf hlt

theorem curSim {t : Trie α} {rows : List (List α)} : CurSim (ops (α := α)) (Inv t rows) :=
  fun _ _ _ _ _ h => sim_current h

theorem seekSim {t : Trie α} {rows : List (List α)} (hr : SortedRows rows) :
    SeekSim (ops (α := α)) (Inv t rows) := fun _ _ _ _ h => sim_seek hr h

end GScan
end Verif
