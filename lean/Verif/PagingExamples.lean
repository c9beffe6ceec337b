import Verif.PropPaging

/-!
# Imports for given bindings: when they end, and where they go wrong
-/

set_option linter.unusedSimpArgs false

namespace Verif.Dem

variable {V T : Type}

theorem combinations_single (b : Bindings V) (h : b.rows ≠ []) :
    combinations (ProductBindings.single b) = [[b]] := by
  simp [combinations, ProductBindings.single, others, Bindings.isEmpty, Bindings.count, h]

theorem bindingsChunks_single (b : Bindings V) (size : Nat) :
    ∃ pages, bindingsChunks [b] size = .ok pages ∧ ((∃ t, t ∈ b.rows) → pages ≠ []) := by
  rw [bindingsChunks]
  have hs : sortByCount [b] = [b] := rfl
  rw [hs]
  simp only [splitIndex]
  by_cases h : size < 1 + b.count
  · rw [if_pos h]
    refine ⟨_, rfl, ?_⟩
    rintro ⟨t, ht⟩ h0
    have := List.map_eq_nil_iff.1 h0
    have h1 := (chunks_matches (T := V) (fun _ => none) _ (show 0 < max ((size + 1 - 1) / 1) 1 by omega) b []).2
      ⟨t, ht, fun _ _ => .inl rfl⟩
    obtain ⟨c, hc, _⟩ := h1
    have h2 : b.chunks (max ((size + 1 - 1) / 1) 1) = [] := this
    rw [h2] at hc; cases hc
  · rw [if_neg h]
    exact ⟨_, rfl, fun _ => by simp⟩

theorem pages_fit {fits : List (Bindings V) → Bool} (hf : ∀ p, fits p = true)
    (rec : Option (Outcome (List (List (Bindings V))))) : ∀ ps, queriesWithBindings.pages fits rec ps = some (.ok ps)
  | [] => rfl
  | p :: ps => by
    rw [queriesWithBindings.pages, pages_fit hf rec ps]
    simp [hf p]

theorem queries_end {server : List (Bindings V) → Response T} (hrows : ∀ page, ∃ l, server page = .rows l)
    (rec : ProductBindings V → Option (Load T)) (pb : ProductBindings V) :
    ∀ qs, ∃ l, loadFromBindings.queries server rec pb qs = some (.done l)
  | [] => ⟨[], rfl⟩
  | q :: qs => by
    obtain ⟨l0, h0⟩ := hrows q
    obtain ⟨l, h⟩ := queries_end hrows rec pb qs
    exact ⟨l0 ++ l, by rw [loadFromBindings.queries, h0, h]⟩

/-- **C56 (ends)**: if no query is too long for the server then the import for one factor, that is, for the
bindings of a rule whose body is connected, ends with a result. -/
theorem import_ends_partial {server : List (Bindings V) → Response T} (hrows : ∀ page, ∃ l, server page = .rows l)
    {fits : List (Bindings V) → Bool} (hf : ∀ p, fits p = true) (b : Bindings V) :
    ∃ l, loadFromBindings fits server 2 (ProductBindings.single b) = some (.done l) := by
  have hq : ∃ qs, queriesWithBindings fits (ProductBindings.single b) 1 maxBindingsPerPage = some (.ok qs) := by
    rw [queriesWithBindings]
    by_cases h : b.rows = []
    · have : combinations (ProductBindings.single b) = [] := by
        simp [combinations, ProductBindings.single, Bindings.isEmpty, Bindings.count, h]
      rw [this]
      exact ⟨[], rfl⟩
    · rw [combinations_single b h, queriesWithBindings.go]
      obtain ⟨pages, hp, _⟩ := bindingsChunks_single b (max maxBindingsPerPage 1)
      rw [hp]
      dsimp only
      rw [pages_fit hf]
      exact ⟨_, rfl⟩
  obtain ⟨qs, hq⟩ := hq
  rw [loadFromBindings, hq]
  exact queries_end hrows _ _ qs

/-- **Counterexample to C56 (panic).**  If a rule needs an import for two independent sets of at least 32000
bindings each then `rest[rest.len()]` (reader.rs:239) is evaluated, and the import panics. -/
theorem two_large_factors_panic (fits : List (Bindings V) → Bool) (server : List (Bindings V) → Response T)
    (b c : Bindings V) (hb : 32000 ≤ b.count) (hc : 32000 ≤ c.count) (fuel : Nat) :
    loadFromBindings fits server (fuel + 2) [(Bindings.empty b.positions, b), (Bindings.empty c.positions, c)] =
      some .panic := by
  have hb' : b.rows ≠ [] := by intro h; simp [Bindings.count, h] at hb
  have hc' : c.rows ≠ [] := by intro h; simp [Bindings.count, h] at hc
  have key : ∀ x y : Bindings V, 32000 ≤ x.count → 32000 ≤ y.count → bindingsChunks [x, y] 32000 = .panic := by
    intro x y hx hy
    have hne : ∀ z : Bindings V, 32000 ≤ z.count → z.chunks 1 ≠ [] := by
      intro z hz h0
      have hz' : ∃ t, t ∈ z.rows := List.exists_mem_of_length_pos (by simp [Bindings.count] at hz; omega)
      obtain ⟨t, ht⟩ := hz'
      obtain ⟨w, hw, _⟩ := (chunks_matches (T := V) (fun _ => none) 1 (by omega) z []).2 ⟨t, ht, fun _ _ => .inl rfl⟩
      rw [h0] at hw; cases hw
    have hcart : ∀ z : Bindings V, 32000 ≤ z.count → (cartesian [z.chunks 1]).isEmpty = false := by
      intro z hz
      rw [Bool.eq_false_iff]
      intro h0
      have := cartesian_empty _ (List.isEmpty_iff.1 h0)
      simp only [List.mem_singleton] at this
      exact hne z hz this.symm
    have hsort : sortByCount [x, y] = [x, y] ∨ sortByCount [x, y] = [y, x] := by
      simp only [sortByCount, List.insertionSort, List.foldr, List.orderedInsert]
      split
      · exact .inl rfl
      · exact .inr rfl
    rw [bindingsChunks]
    rcases hsort with h | h <;> rw [h] <;> simp only [splitIndex]
    · rw [if_pos (by omega)]
      simp [hcart x hx]
    · rw [if_pos (by omega)]
      simp [hcart y hy]
  have hcomb : combinations [(Bindings.empty b.positions, b), (Bindings.empty c.positions, c)] =
      [[b, Bindings.union (Bindings.empty c.positions) c], [c, Bindings.union (Bindings.empty b.positions) b]] := by
    simp [combinations, others, Bindings.isEmpty, Bindings.count, hb', hc', List.range_succ]
  have hu : Bindings.union (Bindings.empty c.positions) c = c := rfl
  rw [loadFromBindings, queriesWithBindings, hcomb, queriesWithBindings.go, hu]
  have hk : bindingsChunks [b, c] (max maxBindingsPerPage 1) = .panic := key b c hb hc
  rw [hk]

/-- **Counterexample to C56 (errors are ignored).**  If the server fails (for example with "internal server
error" or because of a broken connection) then the import succeeds without the demanded rows. -/
theorem failure_ignored :
    ∃ (ext : List (List Nat)) (server : List (Bindings Nat) → Response Nat) (pb : ProductBindings Nat) (row : List Nat),
      Serves some ext server ∧ SamePositions pb ∧ row ∈ ext ∧ Demanded some pb row ∧
      loadFromBindings (fun _ => true) server 2 pb = some (.done []) := by
  refine ⟨[[1, 2]], fun _ => .failure, ProductBindings.single ⟨[0], [[1]]⟩, [1, 2], ?_, ?_, by simp, ?_, by decide +kernel⟩
  · intro page l h; cases h
  · intro f hf
    simp only [ProductBindings.single, List.mem_singleton] at hf
    subst hf; rfl
  · refine ⟨0, _, rfl, ⟨[1], by simp, ?_⟩, ?_⟩
    · intro x hx
      simp at hx
      subst hx
      exact .inr ⟨1, rfl, rfl⟩
    · intro j g hg hj
      cases j with
      | zero => exact absurd rfl hj
      | succ j => simp [ProductBindings.single] at hg

/-- **Counterexample to C56 (does not end).**  If the query is too long even for a single binding then
`queries_with_bindings` calls itself with the same page size for ever (reader.rs:274-278). -/
theorem long_query_never_ends (b : Bindings V) (h : b.rows ≠ []) :
    ∀ fuel size, queriesWithBindings (fun _ => false) (ProductBindings.single b) fuel size = none
  | 0, _ => rfl
  | fuel + 1, size => by
    rw [queriesWithBindings, combinations_single b h, queriesWithBindings.go]
    obtain ⟨pages, hp, hne⟩ := bindingsChunks_single b (max size 1)
    rw [hp]
    dsimp only
    cases pages with
    | nil => exact absurd rfl (hne (List.exists_mem_of_ne_nil _ h))
    | cons p ps =>
      rw [queriesWithBindings.pages, long_query_never_ends b h fuel]
      simp

/-- **Counterexample to C56 (does not end).**  If the server finds a query with between 2 and 31999 bindings too
large then the same query is sent again for ever: the list of factors is split (reader.rs:121), not the list of
bindings, and there is one factor. -/
theorem too_large_never_ends (b : Bindings V) (h2 : 2 ≤ b.count) (hmax : b.count < 32000) :
    ∀ fuel, loadFromBindings (T := T) (fun _ => true) (fun _ => .tooLarge) fuel (ProductBindings.single b) = none
  | 0 => rfl
  | fuel + 1 => by
    have h : b.rows ≠ [] := by intro h; simp [Bindings.count, h] at h2
    rw [loadFromBindings]
    cases fuel with
    | zero => rfl
    | succ fuel =>
      rw [queriesWithBindings, combinations_single b h, queriesWithBindings.go]
      have hp : bindingsChunks [b] (max maxBindingsPerPage 1) = .ok [[b]] := by
        rw [bindingsChunks]
        have hs : sortByCount [b] = [b] := rfl
        rw [hs]
        simp only [splitIndex]
        rw [if_neg (by simp [maxBindingsPerPage]; omega)]
        rfl
      rw [hp]
      dsimp only
      rw [pages_fit (by simp)]
      simp only [queriesWithBindings.go, List.append_nil]
      rw [loadFromBindings.queries]
      have hcount : ProductBindings.count (ProductBindings.single b) ≠ 1 := by
        rw [ProductBindings.count, combinations_single b h]
        simp; omega
      simp only [if_neg hcount]
      have hc : chunks (max (([b].length + 1) / 2) 1) [b] = [[b]] := by simp [chunks, chunksAux]
      rw [hc, loadFromBindings.parts]
      have := too_large_never_ends b h2 hmax (fuel + 1)
      simp only [List.map_cons, List.map_nil]
      rw [show [(Bindings.empty b.positions, b)] = ProductBindings.single b from rfl, this]

/-! ## Examples: the hypotheses are met -/

/-- a server that answers all queries from a table -/
def tableServer (ext : List (List Nat)) (page : List (Bindings Nat)) : Response Nat :=
  .rows (ext.filter fun row => page.all fun b => b.rows.any fun t =>
    (b.positions.zip t).all fun x => decide (row[x.1]? = some x.2))

theorem tableServer_serves (ext : List (List Nat)) : Serves some ext (tableServer ext) := by
  intro page l h row
  simp only [tableServer, Response.rows.injEq] at h
  subst h
  simp [Matches, Agrees]

/-- an import for two factors, with old and new bindings -/
example : loadFromBindings (fun _ => true) (tableServer [[1, 5], [1, 6], [2, 5], [2, 6], [3, 6]]) 2
    [(⟨[0], [[1]]⟩, ⟨[0], [[2]]⟩), (⟨[1], [[5]]⟩, ⟨[1], []⟩)] = some (.done [[2, 5]]) := by decide +kernel

/-- a server that only knows the spelling 10 of the number 1: bindings do not find it -/
example : loadFromBindings (fun _ => true) (tableServer [[10, 5]]) 2 (ProductBindings.single ⟨[0], [[1]]⟩) =
    some (.done []) := by decide +kernel

end Verif.Dem
