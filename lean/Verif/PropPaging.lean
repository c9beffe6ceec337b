import Verif.ImportPaging

/-!
# Imports for given bindings deliver the matching rows

Specification: a row of the external table is demanded (`Demanded`) if it agrees with one binding of each factor,
and one of these bindings is new.
-/

set_option linter.unusedSimpArgs false

namespace Verif.Dem

variable {V T : Type}

/-! ## Specification -/

/-- A row of terms agrees with a binding of the given positions: each bound value is either not expressible in
queries (`UNDEF`, for nulls) or its term is in the row.  (`ground_term_from_datavalue`, queries.rs:22-56, is `term`.) -/
def Agrees (term : V → Option T) (positions : List Nat) (binding : List V) (row : List T) : Prop :=
  ∀ x ∈ positions.zip binding, term x.2 = none ∨ ∃ t, row[x.1]? = some t ∧ term x.2 = some t

/-- a row agrees with one of the bindings -/
def Matches (term : V → Option T) (b : Bindings V) (row : List T) : Prop :=
  ∃ t ∈ b.rows, Agrees term b.positions t row

/-- The contract of the server: if it answers a query then with the matching rows of its table. -/
def Serves (term : V → Option T) (ext : List (List T)) (server : List (Bindings V) → Response T) : Prop :=
  ∀ page l, server page = .rows l → ∀ row, row ∈ l ↔ row ∈ ext ∧ ∀ b ∈ page, Matches term b row

/-- The rows that have to be imported: they agree with a new binding of one factor, and with an old or new
binding of each other factor. -/
def Demanded (term : V → Option T) (pb : ProductBindings V) (row : List T) : Prop :=
  ∃ (i : Nat) (f : Bindings V × Bindings V), pb[i]? = some f ∧ Matches term f.2 row ∧
    ∀ (j : Nat) (g : Bindings V × Bindings V), pb[j]? = some g → j ≠ i → Matches term g.1 row ∨ Matches term g.2 row

/-- old and new bindings are bindings of the same positions (asserted in bindings.rs:38) -/
def SamePositions (pb : ProductBindings V) : Prop := ∀ f ∈ pb, f.1.positions = f.2.positions

/-! ## Chunks -/

theorem chunksAux_flatten {A : Type} (n : Nat) (hn : 0 < n) : ∀ (k : Nat) (l : List A), l.length ≤ k →
    (chunksAux n k l).flatten = l
  | 0, l, h => by simp at h; subst h; rfl
  | k + 1, [], _ => rfl
  | k + 1, x :: xs, h => by
    rw [chunksAux, List.flatten_cons, chunksAux_flatten n hn k _ (by simp at h ⊢; omega), List.take_append_drop]

theorem chunks_flatten {A : Type} (n : Nat) (hn : 0 < n) (l : List A) : (chunks n l).flatten = l :=
  chunksAux_flatten n hn _ l le_rfl

theorem chunks_matches (term : V → Option T) (n : Nat) (hn : 0 < n) (b : Bindings V) (row : List T) :
    (∃ c ∈ b.chunks n, Matches term c row) ↔ Matches term b row := by
  constructor
  · rintro ⟨c, hc, t, ht, ha⟩
    simp only [Bindings.chunks, List.mem_map] at hc
    obtain ⟨rows, hr, rfl⟩ := hc
    refine ⟨t, ?_, ha⟩
    rw [← chunks_flatten n hn b.rows]
    exact List.mem_flatten.2 ⟨rows, hr, ht⟩
  · rintro ⟨t, ht, ha⟩
    rw [← chunks_flatten n hn b.rows] at ht
    obtain ⟨rows, hr, ht⟩ := List.mem_flatten.1 ht
    exact ⟨⟨b.positions, rows⟩, List.mem_map.2 ⟨rows, hr, rfl⟩, t, ht, ha⟩

theorem cartesian_empty {A : Type} : ∀ (ls : List (List A)), cartesian ls = [] → [] ∈ ls
  | [], h => by simp [cartesian] at h
  | l :: ls, h => by
    cases l with
    | nil => exact List.mem_cons_self
    | cons a as =>
      simp only [cartesian, List.flatMap_cons, List.append_eq_nil_iff, List.map_eq_nil_iff] at h
      exact List.mem_cons_of_mem _ (cartesian_empty ls h.1)

theorem mem_sortByCount (bs : List (Bindings V)) (b : Bindings V) : b ∈ sortByCount bs ↔ b ∈ bs :=
  List.mem_insertionSort _

/-- The pages together match what the bindings match. -/
theorem bindingsChunks_spec (term : V → Option T) {bs : List (Bindings V)} {size : Nat}
    {pages : List (List (Bindings V))} (h : bindingsChunks bs size = .ok pages) (row : List T) :
    (∃ page ∈ pages, ∀ b ∈ page, Matches term b row) ↔ ∀ b ∈ bs, Matches term b row := by
  rw [bindingsChunks] at h
  dsimp only at h
  split at h
  · simp only [Outcome.ok.injEq] at h
    subst h; simp
  · rename_i k hk
    split at h
    · cases h
    · have hsplit : ∀ b, b ∈ bs ↔ b ∈ (sortByCount bs).take k ∨ b ∈ (sortByCount bs).drop k := by
        intro b
        rw [← mem_sortByCount, ← List.mem_append, List.take_append_drop]
      split at h
      · split at h
        · rename_i hc
          simp only [Outcome.ok.injEq] at h
          subst h
          have := cartesian_empty _ (List.isEmpty_iff.1 hc)
          simp only [List.mem_map] at this
          obtain ⟨b, hb, he⟩ := this
          have hb2 : b ∈ bs := (hsplit b).2 (.inr (List.dropLast_subset _ hb))
          constructor
          · rintro ⟨_, h, _⟩; cases h
          · intro hall
            obtain ⟨c, hc', _⟩ := (chunks_matches term 1 (by omega) b row).2 (hall b hb2)
            rw [he] at hc'; cases hc'
        · cases h
      · rename_i hlen
        split at h
        · rename_i hr
          exfalso
          clear h
          have : ∀ (l : List (Bindings V)) acc k, splitIndex size acc l = some k → k < l.length := by
            intro l
            induction l with
            | nil => intro acc k h; simp [splitIndex] at h
            | cons b l ih =>
              intro acc k h
              rw [splitIndex] at h
              split at h
              · simp at h; subst h; simp
              · simp only [Option.map_eq_some_iff] at h
                obtain ⟨k', h1, rfl⟩ := h
                have := ih _ _ h1
                simp; omega
          have := this _ _ _ hk
          have h0 := congrArg List.length hr
          simp at h0
          omega
        · rename_i r rest hr
          simp only [Outcome.ok.injEq] at h
          subst h
          have hrest : rest = [] := by
            have h0 := congrArg List.length hr
            simp only [List.length_cons] at h0
            have : rest.length = 0 := by omega
            simpa using this
          subst hrest
          constructor
          · rintro ⟨page, hp, hm⟩ b hb
            obtain ⟨c, hc, rfl⟩ := List.mem_map.1 hp
            rcases (hsplit b).1 hb with h1 | h1
            · exact hm b (List.mem_append_left _ h1)
            · rw [hr] at h1
              simp only [List.mem_singleton] at h1
              subst h1
              exact (chunks_matches term _ (by omega) b row).1 ⟨c, hc, hm c (by simp)⟩
          · intro hall
            have hrb : r ∈ bs := (hsplit r).2 (.inr (by rw [hr]; simp))
            obtain ⟨c, hc, hm⟩ := (chunks_matches term (max ((size + ((sortByCount bs).take k |>.map Bindings.count).prod - 1) /
              ((sortByCount bs).take k |>.map Bindings.count).prod) 1) (by omega) r row).2 (hall r hrb)
            refine ⟨_, List.mem_map.2 ⟨c, hc, rfl⟩, ?_⟩
            intro b hb
            rcases List.mem_append.1 hb with h1 | h1
            · exact hall b ((hsplit b).2 (.inl h1))
            · simp only [List.mem_singleton] at h1; subst h1; exact hm

/-! ## Queries -/

/-- what the rows of a combination agree with -/
def MatchesComb (term : V → Option T) (pb : ProductBindings V) (row : List T) : Prop :=
  ∃ c ∈ combinations pb, ∀ b ∈ c, Matches term b row

theorem pages_spec (term : V → Option T) (fits : List (Bindings V) → Bool) {P : List T → Prop}
    {rec : Option (Outcome (List (List (Bindings V))))}
    (hrec : ∀ qs, rec = some (.ok qs) → ∀ row, (∃ q ∈ qs, ∀ b ∈ q, Matches term b row) ↔ P row) :
    ∀ (ps : List (List (Bindings V))), (∀ p ∈ ps, ∀ row, (∀ b ∈ p, Matches term b row) → P row) →
    ∀ (qs : List (List (Bindings V))),
    queriesWithBindings.pages fits rec ps = some (.ok qs) →
    ∀ row, ((∃ q ∈ qs, ∀ b ∈ q, Matches term b row) → P row) ∧
      ((∃ p ∈ ps, ∀ b ∈ p, Matches term b row) → ∃ q ∈ qs, ∀ b ∈ q, Matches term b row)
  | [], _, qs, h, row => by
    simp only [queriesWithBindings.pages, Option.some.injEq, Outcome.ok.injEq] at h
    subst h; simp
  | p :: ps, hP, qs, h, row => by
    rw [queriesWithBindings.pages] at h
    split at h
    · cases h
    · cases h
    · rename_i q hq
      split at h
      · cases h
      · cases h
      · rename_i qs' hqs'
        simp only [Option.some.injEq, Outcome.ok.injEq] at h
        subst h
        have ih := pages_spec term fits hrec ps (fun p hp => hP p (List.mem_cons_of_mem _ hp)) qs' hqs' row
        have hhere : ((∃ x ∈ q, ∀ b ∈ x, Matches term b row) → P row) ∧
            ((∀ b ∈ p, Matches term b row) → ∃ x ∈ q, ∀ b ∈ x, Matches term b row) := by
          split at hq
          · simp only [Option.some.injEq, Outcome.ok.injEq] at hq
            subst hq
            exact ⟨fun ⟨x, hx, hm⟩ => by
              simp only [List.mem_singleton] at hx; subst hx
              exact hP _ List.mem_cons_self row hm, fun hm => ⟨p, by simp, hm⟩⟩
          · have := hrec q hq row
            exact ⟨this.1, fun hm => this.2 (hP p List.mem_cons_self row hm)⟩
        constructor
        · rintro ⟨x, hx, hm⟩
          rcases List.mem_append.1 hx with hx | hx
          · exact hhere.1 ⟨x, hx, hm⟩
          · exact ih.1 ⟨x, hx, hm⟩
        · rintro ⟨x, hx, hm⟩
          rcases List.mem_cons.1 hx with rfl | hx
          · obtain ⟨y, hy, hm⟩ := hhere.2 hm
            exact ⟨y, List.mem_append_left _ hy, hm⟩
          · obtain ⟨y, hy, hm⟩ := ih.2 ⟨x, hx, hm⟩
            exact ⟨y, List.mem_append_right _ hy, hm⟩

theorem go_spec (term : V → Option T) (fits : List (Bindings V) → Bool) {P : List T → Prop}
    {rec : Option (Outcome (List (List (Bindings V))))}
    (hrec : ∀ qs, rec = some (.ok qs) → ∀ row, (∃ q ∈ qs, ∀ b ∈ q, Matches term b row) ↔ P row) (size : Nat) :
    ∀ (cs : List (List (Bindings V))), (∀ c ∈ cs, ∀ row, (∀ b ∈ c, Matches term b row) → P row) →
    ∀ (qs : List (List (Bindings V))),
    queriesWithBindings.go fits rec cs size = some (.ok qs) →
    ∀ row, ((∃ q ∈ qs, ∀ b ∈ q, Matches term b row) → P row) ∧
      ((∃ c ∈ cs, ∀ b ∈ c, Matches term b row) → ∃ q ∈ qs, ∀ b ∈ q, Matches term b row)
  | [], _, qs, h, row => by
    simp only [queriesWithBindings.go, Option.some.injEq, Outcome.ok.injEq] at h
    subst h; simp
  | c :: cs, hP, qs, h, row => by
    rw [queriesWithBindings.go] at h
    split at h
    · cases h
    · rename_i ps hps
      split at h
      · cases h
      · cases h
      · rename_i q hq
        split at h
        · cases h
        · cases h
        · rename_i qs' hqs'
          simp only [Option.some.injEq, Outcome.ok.injEq] at h
          subst h
          have ih := go_spec term fits hrec size cs (fun p hp => hP p (List.mem_cons_of_mem _ hp)) qs' hqs' row
          have hc := fun row => bindingsChunks_spec term hps row
          have hpg := pages_spec term fits hrec ps
            (fun p hp row hm => hP c List.mem_cons_self row ((hc row).1 ⟨p, hp, hm⟩)) q hq row
          constructor
          · rintro ⟨x, hx, hm⟩
            rcases List.mem_append.1 hx with hx | hx
            · exact hpg.1 ⟨x, hx, hm⟩
            · exact ih.1 ⟨x, hx, hm⟩
          · rintro ⟨x, hx, hm⟩
            rcases List.mem_cons.1 hx with rfl | hx
            · obtain ⟨y, hy, hm⟩ := hpg.2 ((hc row).2 hm)
              exact ⟨y, List.mem_append_left _ hy, hm⟩
            · obtain ⟨y, hy, hm⟩ := ih.2 ⟨x, hx, hm⟩
              exact ⟨y, List.mem_append_right _ hy, hm⟩

/-- The queries together match what the combinations match. -/
theorem queries_spec (term : V → Option T) (fits : List (Bindings V) → Bool) (pb : ProductBindings V) :
    ∀ (fuel size : Nat) (qs : List (List (Bindings V))),
    queriesWithBindings fits pb fuel size = some (.ok qs) →
    ∀ row, (∃ q ∈ qs, ∀ b ∈ q, Matches term b row) ↔ MatchesComb term pb row
  | 0, _, qs, h => by simp [queriesWithBindings] at h
  | fuel + 1, size, qs, h => by
    intro row
    rw [queriesWithBindings] at h
    have := go_spec term fits (queries_spec term fits pb fuel ((size + 1) / 2)) _ (combinations pb)
      (fun c hc row hm => ⟨c, hc, hm⟩) qs h row
    exact ⟨this.1, this.2⟩

theorem bindingsChunks_ne {bs : List (Bindings V)} {size : Nat}
    {pages : List (List (Bindings V))} (h : bindingsChunks bs size = .ok pages) (hne : bs ≠ []) :
    ∀ page ∈ pages, page ≠ [] := by
  rw [bindingsChunks] at h
  dsimp only at h
  split at h
  · simp only [Outcome.ok.injEq] at h
    subst h; simpa using hne
  · split at h
    · cases h
    · split at h
      · split at h
        · simp only [Outcome.ok.injEq] at h
          subst h; simp
        · cases h
      · split at h
        · simp only [Outcome.ok.injEq] at h
          subst h; simp
        · simp only [Outcome.ok.injEq] at h
          subst h
          intro page hp
          obtain ⟨c, _, rfl⟩ := List.mem_map.1 hp
          simp

theorem pages_ne (fits : List (Bindings V) → Bool) {rec : Option (Outcome (List (List (Bindings V))))}
    (hrec : ∀ qs, rec = some (.ok qs) → ∀ q ∈ qs, q ≠ []) :
    ∀ (ps : List (List (Bindings V))), (∀ p ∈ ps, p ≠ []) → ∀ (qs : List (List (Bindings V))),
    queriesWithBindings.pages fits rec ps = some (.ok qs) → ∀ q ∈ qs, q ≠ []
  | [], _, qs, h => by
    simp only [queriesWithBindings.pages, Option.some.injEq, Outcome.ok.injEq] at h
    subst h; simp
  | p :: ps, hP, qs, h => by
    rw [queriesWithBindings.pages] at h
    split at h
    · cases h
    · cases h
    · rename_i q hq
      split at h
      · cases h
      · cases h
      · rename_i qs' hqs'
        simp only [Option.some.injEq, Outcome.ok.injEq] at h
        subst h
        have ih := pages_ne fits hrec ps (fun p hp => hP p (List.mem_cons_of_mem _ hp)) qs' hqs'
        intro x hx
        rcases List.mem_append.1 hx with hx | hx
        · split at hq
          · simp only [Option.some.injEq, Outcome.ok.injEq] at hq
            subst hq
            simp only [List.mem_singleton] at hx
            subst hx
            exact hP _ List.mem_cons_self
          · exact hrec q hq x hx
        · exact ih x hx

theorem go_ne (fits : List (Bindings V) → Bool) {rec : Option (Outcome (List (List (Bindings V))))}
    (hrec : ∀ qs, rec = some (.ok qs) → ∀ q ∈ qs, q ≠ []) (size : Nat) :
    ∀ (cs : List (List (Bindings V))), (∀ c ∈ cs, c ≠ []) → ∀ (qs : List (List (Bindings V))),
    queriesWithBindings.go fits rec cs size = some (.ok qs) → ∀ q ∈ qs, q ≠ []
  | [], _, qs, h => by
    simp only [queriesWithBindings.go, Option.some.injEq, Outcome.ok.injEq] at h
    subst h; simp
  | c :: cs, hP, qs, h => by
    rw [queriesWithBindings.go] at h
    split at h
    · cases h
    · rename_i ps hps
      split at h
      · cases h
      · cases h
      · rename_i q hq
        split at h
        · cases h
        · cases h
        · rename_i qs' hqs'
          simp only [Option.some.injEq, Outcome.ok.injEq] at h
          subst h
          intro x hx
          rcases List.mem_append.1 hx with hx | hx
          · exact pages_ne fits hrec ps (bindingsChunks_ne hps (hP c List.mem_cons_self)) q hq x hx
          · exact go_ne fits hrec size cs (fun p hp => hP p (List.mem_cons_of_mem _ hp)) qs' hqs' x hx

theorem queries_ne (fits : List (Bindings V) → Bool) (pb : ProductBindings V) :
    ∀ (fuel size : Nat) (qs : List (List (Bindings V))),
    queriesWithBindings fits pb fuel size = some (.ok qs) → ∀ q ∈ qs, q ≠ []
  | 0, _, qs, h => by simp [queriesWithBindings] at h
  | fuel + 1, size, qs, h => by
    rw [queriesWithBindings] at h
    refine go_ne fits (queries_ne fits pb fuel ((size + 1) / 2)) _ (combinations pb) ?_ qs h
    intro c hc
    obtain ⟨x, _, he⟩ := List.mem_filterMap.1 hc
    split at he
    · cases he
    · simp only [Option.some.injEq] at he
      subst he; simp

/-! ## Combinations -/

theorem matches_isEmpty {term : V → Option T} {b : Bindings V} {row : List T} (h : Matches term b row) :
    b.isEmpty = false := by
  obtain ⟨t, ht, _⟩ := h
  have := List.length_pos_of_mem ht
  simp [Bindings.isEmpty, Bindings.count]
  intro h; rw [h] at ht; cases ht

theorem matches_union (term : V → Option T) {l r : Bindings V} (h : l.positions = r.positions) (row : List T) :
    Matches term (l.union r) row ↔ Matches term l row ∨ Matches term r row := by
  simp only [Matches, Bindings.union, List.mem_append]
  constructor
  · rintro ⟨t, ht | ht, ha⟩
    · exact .inl ⟨t, ht, ha⟩
    · exact .inr ⟨t, ht, h ▸ ha⟩
  · rintro (⟨t, ht, ha⟩ | ⟨t, ht, ha⟩)
    · exact ⟨t, .inl ht, ha⟩
    · exact ⟨t, .inr ht, h ▸ ha⟩

theorem mem_zip_range {A : Type} (l : List A) (x : Nat × A) : x ∈ (List.range l.length).zip l ↔ l[x.1]? = some x.2 := by
  rw [List.mem_iff_getElem?]
  constructor
  · rintro ⟨i, hi⟩
    rw [List.getElem?_zip_eq_some] at hi
    obtain ⟨h1, h2⟩ := hi
    have : i = x.1 := by
      rw [List.getElem?_eq_some_iff] at h1
      obtain ⟨h, e⟩ := h1; simpa using e
    rw [← this]; exact h2
  · intro h
    refine ⟨x.1, List.getElem?_zip_eq_some.2 ⟨?_, h⟩⟩
    have := (List.getElem?_eq_some_iff.1 h).1
    rw [List.getElem?_range this]

/-- Combinations match at least what is demanded. -/
theorem comb_of_demanded (term : V → Option T) {pb : ProductBindings V} (hs : SamePositions pb) {row : List T}
    (h : Demanded term pb row) : MatchesComb term pb row := by
  obtain ⟨i, f, hf, hm, ho⟩ := h
  refine ⟨f.2 :: others i ((List.range pb.length).zip pb), List.mem_filterMap.2 ⟨(i, f), (mem_zip_range _ _).2 hf, ?_⟩, ?_⟩
  · simp [matches_isEmpty hm]
  · intro b hb
    rcases List.mem_cons.1 hb with rfl | hb
    · exact hm
    · obtain ⟨x, hx, he⟩ := List.mem_filterMap.1 hb
      split at he
      · cases he
      · rename_i hne
        simp only [Option.some.injEq] at he
        subst he
        have hx' := (mem_zip_range _ _).1 hx
        refine (matches_union term (hs _ (List.mem_of_getElem? hx')) row).2 (ho x.1 x.2 hx' ?_)
        intro h
        simp [h] at hne

/-- If no factor is empty then the combinations match exactly what is demanded. -/
theorem comb_iff_demanded (term : V → Option T) {pb : ProductBindings V} (hs : SamePositions pb)
    (hne : ∀ f ∈ pb, f.1.rows ≠ [] ∨ f.2.rows ≠ []) (row : List T) :
    MatchesComb term pb row ↔ Demanded term pb row := by
  refine ⟨?_, comb_of_demanded term hs⟩
  rintro ⟨c, hc, hm⟩
  obtain ⟨⟨i, f⟩, hx, he⟩ := List.mem_filterMap.1 hc
  have hf := (mem_zip_range _ _).1 hx
  dsimp only at he hf
  split at he
  · cases he
  · simp only [Option.some.injEq] at he
    subst he
    refine ⟨i, f, hf, hm _ List.mem_cons_self, ?_⟩
    intro j g hg hji
    have hgm := List.mem_of_getElem? hg
    refine (matches_union term (hs _ hgm) row).1 (hm _ (List.mem_cons_of_mem _ ?_))
    refine List.mem_filterMap.2 ⟨(j, g), (mem_zip_range _ _).2 hg, ?_⟩
    dsimp only
    rw [if_neg]
    have h1 : (g.1.isEmpty && g.2.isEmpty) = false := by
      rcases hne g hgm with h | h
      · simp [Bindings.isEmpty, Bindings.count, h]
      · simp [Bindings.isEmpty, Bindings.count, h]
    simp [h1, Ne.symm hji]

/-! ## Loading -/

theorem chunks_ne_nil {A : Type} (n : Nat) (hn : 0 < n) : ∀ (k : Nat) (l : List A), ∀ c ∈ chunksAux n k l, c ≠ []
  | 0, _, _, h => by simp [chunksAux] at h
  | k + 1, [], _, h => by simp [chunksAux] at h
  | k + 1, x :: xs, c, h => by
    rw [chunksAux] at h
    rcases List.mem_cons.1 h with rfl | h
    · cases n with
      | zero => omega
      | succ n => simp
    · exact chunks_ne_nil n hn k _ c h

theorem part_demanded (term : V → Option T) {part : List (Bindings V)} (hne : part ≠ []) {row : List T}
    (h : ∀ b ∈ part, Matches term b row) :
    MatchesComb term (part.map fun b => (Bindings.empty b.positions, b)) row := by
  refine comb_of_demanded term ?_ ?_
  · intro f hf
    obtain ⟨b, _, rfl⟩ := List.mem_map.1 hf
    rfl
  · cases part with
    | nil => exact absurd rfl hne
    | cons b bs =>
      refine ⟨0, (Bindings.empty b.positions, b), rfl, h b List.mem_cons_self, ?_⟩
      intro j g hg _
      rw [List.getElem?_map] at hg
      obtain ⟨b', hb', rfl⟩ := Option.map_eq_some_iff.1 hg
      exact .inr (h b' (List.mem_of_getElem? hb'))

theorem parts_spec {P Q : List T → Prop} {rec : ProductBindings V → Option (Load T)} :
    ∀ (ps : List (List (Bindings V))) (l : List (List T)),
    (∀ p ∈ ps, ∀ l, rec (p.map fun b => (Bindings.empty b.positions, b)) = some (.done l) →
      (∀ row ∈ l, P row) ∧ ∀ row, Q row → row ∈ l) →
    loadFromBindings.parts rec ps = some (.done l) →
    (∀ row ∈ l, P row) ∧ (ps ≠ [] → ∀ row, Q row → row ∈ l)
  | [], l, _, h => by
    simp only [loadFromBindings.parts, Option.some.injEq, Load.done.injEq] at h
    subst h; simp
  | p :: ps, l, hrec, h => by
    rw [loadFromBindings.parts] at h
    split at h
    · cases h
    · cases h
    · cases h
    · rename_i l1 h1
      split at h
      · cases h
      · cases h
      · cases h
      · rename_i l2 h2
        simp only [Option.some.injEq, Load.done.injEq] at h
        subst h
        have ha := hrec p List.mem_cons_self l1 h1
        have hb := parts_spec ps l2 (fun p hp => hrec p (List.mem_cons_of_mem _ hp)) h2
        refine ⟨?_, fun _ row hq => List.mem_append_left _ (ha.2 row hq)⟩
        intro row hr
        rcases List.mem_append.1 hr with hr | hr
        · exact ha.1 row hr
        · exact hb.1 row hr

theorem load_queries_spec (term : V → Option T) {ext : List (List T)} {server : List (Bindings V) → Response T}
    (hserve : Serves term ext server) {rec : ProductBindings V → Option (Load T)}
    (hrec : ∀ pb l, rec pb = some (.done l) → (∀ row ∈ l, row ∈ ext) ∧
      ((∀ page, server page ≠ .failure) → ∀ row ∈ ext, MatchesComb term pb row → row ∈ l))
    (pb : ProductBindings V) : ∀ (qs : List (List (Bindings V))) (l : List (List T)), (∀ q ∈ qs, q ≠ []) →
    loadFromBindings.queries server rec pb qs = some (.done l) →
    (∀ row ∈ l, row ∈ ext) ∧
    ((∀ page, server page ≠ .failure) → ∀ row ∈ ext, (∃ q ∈ qs, ∀ b ∈ q, Matches term b row) → row ∈ l)
  | [], l, _, h => by
    simp only [loadFromBindings.queries, Option.some.injEq, Load.done.injEq] at h
    subst h; simp
  | q :: qs, l, hne, h => by
    rw [loadFromBindings.queries] at h
    split at h
    · cases h
    · cases h
    · cases h
    · rename_i l1 h1
      split at h
      · cases h
      · cases h
      · cases h
      · rename_i l2 h2
        simp only [Option.some.injEq, Load.done.injEq] at h
        subst h
        have ih := load_queries_spec term hserve hrec pb qs l2 (fun q hq => hne q (List.mem_cons_of_mem _ hq)) h2
        have hhere : (∀ row ∈ l1, row ∈ ext) ∧
            ((∀ page, server page ≠ .failure) → ∀ row ∈ ext, (∀ b ∈ q, Matches term b row) → row ∈ l1) := by
          split at h1
          · rename_i rows hr
            simp only [Option.some.injEq, Load.done.injEq] at h1
            subst h1
            have := hserve q rows hr
            exact ⟨fun row h => ((this row).1 h).1, fun _ row he hm => (this row).2 ⟨he, hm⟩⟩
          · rename_i hr
            simp only [Option.some.injEq, Load.done.injEq] at h1
            subst h1
            exact ⟨by simp, fun hf => absurd hr (hf q)⟩
          · split at h1
            · cases h1
            · have hq : q ≠ [] := hne q List.mem_cons_self
              have hcne : chunks (max ((q.length + 1) / 2) 1) q ≠ [] := by
                intro h0
                have := chunks_flatten (max ((q.length + 1) / 2) 1) (by omega) q
                rw [h0] at this
                exact hq this.symm
              refine ⟨(parts_spec (P := fun row => row ∈ ext) (Q := fun _ => False) _ l1
                (fun p _ l hl => ⟨(hrec _ l hl).1, fun _ h => h.elim⟩) h1).1, ?_⟩
              intro hf row he hm
              refine (parts_spec (P := fun row => row ∈ ext)
                (Q := fun row => row ∈ ext ∧ ∀ b ∈ q, Matches term b row) _ l1 ?_ h1).2 hcne row ⟨he, hm⟩
              intro p hp l hl
              refine ⟨(hrec _ l hl).1, ?_⟩
              rintro row ⟨he, hm⟩
              refine (hrec _ l hl).2 hf row he (part_demanded term (chunks_ne_nil _ (by omega) _ _ p hp) ?_)
              intro b hb
              refine hm b ?_
              rw [← chunks_flatten (max ((q.length + 1) / 2) 1) (by omega) q]
              exact List.mem_flatten.2 ⟨p, hp, hb⟩
        constructor
        · intro row hr
          rcases List.mem_append.1 hr with hr | hr
          · exact hhere.1 row hr
          · exact ih.1 row hr
        · rintro hf row he ⟨x, hx, hm⟩
          rcases List.mem_cons.1 hx with rfl | hx
          · exact List.mem_append_left _ (hhere.2 hf row he hm)
          · exact List.mem_append_right _ (ih.2 hf row he ⟨x, hx, hm⟩)

/-- the two directions of the property, for all rows that the combinations match -/
theorem load_spec (term : V → Option T) {ext : List (List T)} {server : List (Bindings V) → Response T}
    (hserve : Serves term ext server) (fits : List (Bindings V) → Bool) :
    ∀ (fuel : Nat) (pb : ProductBindings V) (l : List (List T)),
    loadFromBindings fits server fuel pb = some (.done l) → (∀ row ∈ l, row ∈ ext) ∧
      ((∀ page, server page ≠ .failure) → ∀ row ∈ ext, MatchesComb term pb row → row ∈ l)
  | 0, pb, l, h => by simp [loadFromBindings] at h
  | fuel + 1, pb, l, h => by
    rw [loadFromBindings] at h
    split at h
    · cases h
    · cases h
    · rename_i qs hqs
      have := load_queries_spec term hserve (load_spec term hserve fits fuel) pb qs l (queries_ne fits pb _ _ qs hqs) h
      refine ⟨this.1, fun hf row he hm => this.2 hf row he ((queries_spec term fits pb _ _ qs hqs row).2 hm)⟩

/-- **C56 (only rows of the external table are imported).** -/
theorem import_sound (term : V → Option T) {ext : List (List T)} {server : List (Bindings V) → Response T}
    (hserve : Serves term ext server) (fits : List (Bindings V) → Bool) (fuel : Nat) (pb : ProductBindings V)
    (l : List (List T)) (h : loadFromBindings fits server fuel pb = some (.done l)) (row : List T) (hr : row ∈ l) :
    row ∈ ext := (load_spec term hserve fits fuel pb l h).1 row hr

/-- **C56 (no demanded row is missing)**, however the bindings are distributed over queries, and also if the
server refuses queries because they are too large; unless it fails otherwise. -/
theorem import_complete_partial (term : V → Option T) {ext : List (List T)} {server : List (Bindings V) → Response T}
    (hserve : Serves term ext server) (hfail : ∀ page, server page ≠ .failure) (fits : List (Bindings V) → Bool)
    (fuel : Nat) (pb : ProductBindings V) (hpos : SamePositions pb) (l : List (List T))
    (h : loadFromBindings fits server fuel pb = some (.done l)) (row : List T) (he : row ∈ ext)
    (hd : Demanded term pb row) : row ∈ l :=
  (load_spec term hserve fits fuel pb l h).2 hfail row he (comb_of_demanded term hpos hd)

theorem load_queries_exact {ext : List (List T)} (term : V → Option T)
    {server : List (Bindings V) → Response T} (hserve : Serves term ext server)
    (hrows : ∀ page, ∃ l, server page = .rows l) {rec : ProductBindings V → Option (Load T)} (pb : ProductBindings V) :
    ∀ (qs : List (List (Bindings V))) (l : List (List T)),
    loadFromBindings.queries server rec pb qs = some (.done l) →
    ∀ row, row ∈ l ↔ row ∈ ext ∧ ∃ q ∈ qs, ∀ b ∈ q, Matches term b row
  | [], l, h, row => by
    simp only [loadFromBindings.queries, Option.some.injEq, Load.done.injEq] at h
    subst h; simp
  | q :: qs, l, h, row => by
    rw [loadFromBindings.queries] at h
    obtain ⟨l0, e0⟩ := hrows q
    rw [e0] at h
    dsimp only at h
    split at h
    · cases h
    · cases h
    · cases h
    · rename_i l2 h2
      simp only [Option.some.injEq, Load.done.injEq] at h
      subst h
      have ih := load_queries_exact term hserve hrows pb qs l2 h2 row
      rw [List.mem_append, ih, hserve q l0 e0 row]
      simp only [List.mem_cons, exists_eq_or_imp]
      tauto

/-- **C56 (exactly the demanded rows)** if the server answers all queries and no factor is empty. -/
theorem import_exact_partial (term : V → Option T) {ext : List (List T)} {server : List (Bindings V) → Response T}
    (hserve : Serves term ext server) (hrows : ∀ page, ∃ l, server page = .rows l) (fits : List (Bindings V) → Bool)
    (fuel : Nat) (pb : ProductBindings V) (hpos : SamePositions pb)
    (hne : ∀ f ∈ pb, f.1.rows ≠ [] ∨ f.2.rows ≠ []) (l : List (List T))
    (h : loadFromBindings fits server fuel pb = some (.done l)) (row : List T) :
    row ∈ l ↔ row ∈ ext ∧ Demanded term pb row := by
  cases fuel with
  | zero => simp [loadFromBindings] at h
  | succ fuel =>
    rw [loadFromBindings] at h
    split at h
    · cases h
    · cases h
    · rename_i qs hqs
      rw [load_queries_exact term hserve hrows pb qs l h row, queries_spec term fits pb _ _ qs hqs row,
        comb_iff_demanded term hpos hne row]

end Verif.Dem
