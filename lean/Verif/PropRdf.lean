import Verif.PropFiles
/-
C48, C32 for RDF files.
-/

set_option linter.unusedVariables false
set_option linter.unusedSimpArgs false
set_option linter.unusedSectionVars false

namespace Verif.Lit
open Verif.Fn
variable {α : Type} [SVal α]

/-! ### Blank nodes -/

/-- Different blank nodes have different nulls, and the next null is new. -/
structure Blanks.OK (m : Blanks) (start : Nat) : Prop where
  below : ∀ p ∈ m.map, start ≤ p.2 ∧ p.2 < m.next
  inj : ∀ b b' n, m.map.lookup b = some n → m.map.lookup b' = some n → b = b'
  next_ge : start ≤ m.next

/-- `m'` knows all blank nodes that `m` knows. -/
def Blanks.Sub (m m' : Blanks) : Prop := ∀ b n, m.map.lookup b = some n → m'.map.lookup b = some n

theorem Blanks.Sub.trans {a b c : Blanks} (h1 : a.Sub b) (h2 : b.Sub c) : a.Sub c := fun x n h => h2 x n (h1 x n h)

theorem lookup_mem' {l : List (String × Nat)} {b : String} {n : Nat} (h : l.lookup b = some n) : (b, n) ∈ l := by
  induction l with
  | nil => simp at h
  | cons p l ih =>
      obtain ⟨k, v⟩ := p
      rw [List.lookup_cons] at h
      by_cases e : b = k
      · subst e
        simp at h
        simp [h]
      · have : (b == k) = false := by simpa using e
        rw [this] at h
        exact List.mem_cons_of_mem _ (ih h)

theorem Blanks.get_spec {m : Blanks} {start : Nat} (h : m.OK start) (b : String) :
    (m.get b).2.OK start ∧ m.Sub (m.get b).2 ∧ (m.get b).2.map.lookup b = some (m.get b).1 := by
  unfold Blanks.get
  cases hl : m.map.lookup b with
  | some n => exact ⟨h, fun _ _ h => h, hl⟩
  | none =>
      dsimp only
      have hsub : ∀ b' n, m.map.lookup b' = some n → (((b, m.next) :: m.map).lookup b') = some n := by
        intro b' n h'
        rw [List.lookup_cons]
        have : (b' == b) = false := by
          simp only [beq_eq_false_iff_ne]
          rintro rfl
          rw [hl] at h'
          cases h'
        rw [this]
        exact h'
      have hcase : ∀ b' n, (((b, m.next) :: m.map).lookup b') = some n → (b' = b ∧ n = m.next) ∨ m.map.lookup b' = some n := by
        intro b' n h'
        rw [List.lookup_cons] at h'
        by_cases e : b' = b
        · subst e
          simp at h'
          exact .inl ⟨rfl, h'.symm⟩
        · have : (b' == b) = false := by simpa using e
          rw [this] at h'
          exact .inr h'
      have hlt : ∀ b' n, m.map.lookup b' = some n → n < m.next := fun b' n h' => (h.below _ (lookup_mem' h')).2
      refine ⟨⟨?_, ?_, Nat.le_succ_of_le h.next_ge⟩, hsub, by simp⟩
      · intro p hp
        rcases List.mem_cons.mp hp with rfl | hp
        · exact ⟨h.next_ge, Nat.lt_succ_self _⟩
        · exact ⟨(h.below p hp).1, Nat.lt_succ_of_lt (h.below p hp).2⟩
      · intro b1 b2 n h1 h2
        rcases hcase b1 n h1 with ⟨rfl, rfl⟩ | k1 <;> rcases hcase b2 _ h2 with ⟨rfl, e⟩ | k2
        · rfl
        · exact absurd (hlt _ _ k2) (Nat.lt_irrefl _)
        · subst e
          exact absurd (hlt _ _ k1) (Nat.lt_irrefl _)
        · exact h.inj _ _ _ k1 k2

/-! ### Terms -/

/-- **Specification.** The value of a term, where `M` gives the nulls of blank nodes. -/
def RTerm.value (L : Lib) (M : String → Option Nat) : RTerm → Option DV
  | .named s => some (.iri s)
  | .blank b => (M b).map .null
  | .typed s dt => match typedLit L s dt with
      | .val v => some v
      | _ => none
  | .lang s tag => some (.lang s (String.ofList (tag.toList.map Char.toLower)))
  | .simple s => some (.str s)
  | .defaultGraph => some (.iri DEFAULT_GRAPH)

/-- **Specification.** A term that is well-formed: for literals with a datatype, the text is one of the datatype. -/
def RTerm.WellFormed (L : Lib) : RTerm → Prop
  | .typed s dt => ∃ v, typedLit L s dt = .val v
  | _ => True

/-- The nulls of a state. -/
def Blanks.fn (m : Blanks) : String → Option Nat := fun b => m.map.lookup b

theorem RTerm.read_spec (L : Lib) {t : RTerm} (ht : t.WellFormed L) {m : Blanks} {start : Nat} (hm : m.OK start) :
    ∃ v m', t.read L m = (.val v, m') ∧ m'.OK start ∧ m.Sub m' ∧ ∀ M : Blanks, m'.Sub M → t.value L M.fn = some v := by
  have hid : m.Sub m := fun _ _ h => h
  cases t with
  | named s => exact ⟨_, m, rfl, hm, hid, fun _ _ => rfl⟩
  | blank b =>
      obtain ⟨h1, h2, h3⟩ := Blanks.get_spec hm b
      refine ⟨_, _, rfl, h1, h2, fun M hM => ?_⟩
      rw [RTerm.value, Blanks.fn, hM _ _ h3]
      rfl
  | typed s dt =>
      obtain ⟨v, hv⟩ := ht
      exact ⟨v, m, by rw [RTerm.read, hv], hm, hid, fun _ _ => by rw [RTerm.value, hv]⟩
  | lang s tag => exact ⟨_, m, rfl, hm, hid, fun _ _ => rfl⟩
  | simple s => exact ⟨_, m, rfl, hm, hid, fun _ _ => rfl⟩
  | defaultGraph => exact ⟨_, m, rfl, hm, hid, fun _ _ => rfl⟩

/-- **Specification.** The values of the components that are not skipped. -/
def termValues (L : Lib) (M : String → Option Nat) : List Bool → List RTerm → Option (List DV)
  | s :: ss, t :: ts =>
      if s then termValues L M ss ts
      else match t.value L M with
        | some v => (termValues L M ss ts).map (v :: ·)
        | none => none
  | _, _ => some []

/-- The number of components that are read. -/
def keptTerms (skips : List Bool) : Nat := (skips.filter (!·)).length

theorem rdfCells_spec (L : Lib) (enc : DV → α) {start : Nat} : ∀ {skips : List Bool} {ts : List RTerm} (b : PBuf DV α) {m : Blanks},
    m.OK start → skips.length = ts.length → (∀ (i : Nat) t, skips[i]? = some false → ts[i]? = some t → t.WellFormed L) →
    ∃ vs m', rdfCells L enc ⟨b, m⟩ skips ts = (b.addAll enc vs).map (fun b' => (⟨b', m'⟩, true)) ∧ m'.OK start ∧ m.Sub m' ∧
      vs.length = keptTerms skips ∧ ∀ M : Blanks, m'.Sub M → termValues L M.fn skips ts = some vs
  | [], ts, b, m, hm, hl, hw => ⟨[], m, by rw [rdfCells]; rfl; simp, hm, fun _ _ h => h, rfl, fun M _ => by
      cases ts <;> rfl⟩
  | s :: ss, [], b, m, hm, hl, hw => by simp at hl
  | s :: ss, t :: ts, b, m, hm, hl, hw => by
      have hw' : ∀ (i : Nat) t, ss[i]? = some false → ts[i]? = some t → t.WellFormed L :=
        fun i t h1 h2 => hw (i + 1) t (by simpa using h1) (by simpa using h2)
      have hl' : ss.length = ts.length := by simpa using hl
      rw [rdfCells]
      cases s with
      | true =>
          obtain ⟨vs, m', h1, h2, h3, h4, h5⟩ := rdfCells_spec L enc b hm hl' hw'
          exact ⟨vs, m', by rw [if_pos rfl, h1], h2, h3, by simpa [keptTerms] using h4, fun M hM => by
            rw [termValues, if_pos rfl, h5 M hM]⟩
      | false =>
          obtain ⟨v, m1, r1, r2, r3, r4⟩ := RTerm.read_spec L (hw 0 t rfl rfl) hm
          rw [if_neg (by simp)]
          dsimp only
          rw [r1]
          dsimp only
          cases ha : b.add enc v with
          | none =>
              obtain ⟨vs, m', h1, h2, h3, h4, h5⟩ := rdfCells_spec L enc b r2 hl' hw'
              refine ⟨v :: vs, m', by rw [PBuf.addAll, ha]; rfl, h2, r3.trans h3, by simpa [keptTerms] using h4, fun M hM => ?_⟩
              rw [termValues, if_neg (by simp), r4 M (h3.trans hM)]
              simp [h5 M hM]
          | some b' =>
              obtain ⟨vs, m', h1, h2, h3, h4, h5⟩ := rdfCells_spec L enc b' r2 hl' hw'
              refine ⟨v :: vs, m', by rw [PBuf.addAll, ha]; exact h1, h2, r3.trans h3, by simpa [keptTerms] using h4, fun M hM => ?_⟩
              rw [termValues, if_neg (by simp), r4 M (h3.trans hM)]
              simp [h5 M hM]

/-! ### Statements -/

/-- **Specification.** The row of a statement. -/
def quadRow (L : Lib) (quads : Bool) (skips : List Bool) (M : String → Option Nat) (q : Quad) : Option (List DV) :=
  termValues L M skips (q.terms quads)

/-- All components of the statement that are not skipped are well-formed. -/
def Quad.WellFormed (L : Lib) (quads : Bool) (skips : List Bool) (q : Quad) : Prop :=
  ∀ (i : Nat) t, skips[i]? = some false → (q.terms quads)[i]? = some t → t.WellFormed L

variable {output : Nat} {ps : List (Pattern DV)}

/-- The rows of statements. -/
def quadRows (L : Lib) (enc : DV → α) (ps : List (Pattern DV)) (quads : Bool) (skips : List Bool) (M : String → Option Nat)
    (qs : List Quad) : List (List α) :=
  qs.filterMap fun q => ((quadRow L quads skips M q).bind (filterResult ps)).map (List.map enc)

theorem rdfStatements_spec (L : Lib) (enc : DV → α) {quads : Bool} {skips : List Bool} (stop : Nat) {start : Nat}
    (hsk : skips.length = if quads then 4 else 3) (hi : 0 < keptTerms skips)
    (hp : PatternsOK (keptTerms skips) output ps) : ∀ (qs : List (Option Quad)) (n : Nat) {st : RdfSt α},
    Between st.buf (keptTerms skips) ps output → st.blanks.OK start →
    (∀ q, some q ∈ qs → q.WellFormed L quads skips) → n ≤ stop →
    ∃ st' : RdfSt α, rdfStatements L enc quads skips stop n st qs = some st' ∧ Between st'.buf (keptTerms skips) ps output ∧
      st'.blanks.OK start ∧ st.blanks.Sub st'.blanks ∧
      ∀ M : Blanks, st'.blanks.Sub M → (∀ q ∈ (qs.filterMap id).take (stop - n), quadRow L quads skips M.fn q ≠ none) ∧
        st'.buf.buf.stored.Perm
        (quadRows L enc ps quads skips M.fn ((qs.filterMap id).take (stop - n)) ++ st.buf.buf.stored)
  | [], n, st, hb, hm, _, _ => ⟨st, rfl, hb, hm, fun _ _ h => h, fun M _ => by simp [quadRows]⟩
  | none :: qs, n, st, hb, hm, hw, hn => by
      rw [rdfStatements, rdfStep]
      dsimp only
      by_cases he : n = stop
      · rw [if_pos he]
        exact ⟨st, rfl, hb, hm, fun _ _ h => h, fun M _ => by simp [quadRows, he]⟩
      · rw [if_neg he]
        exact rdfStatements_spec L enc stop hsk hi hp qs n hb hm (fun q h => hw q (by simp [h])) hn
  | some q :: qs, n, st, hb, hm, hw, hn => by
      rw [rdfStatements, rdfStep]
      by_cases he : n = stop
      · rw [if_pos he]
        dsimp only
        rw [if_pos he]
        exact ⟨st, rfl, hb, hm, fun _ _ h => h, fun M _ => by simp [quadRows, he]⟩
      · rw [if_neg he]
        have hl : skips.length = (q.terms quads).length := by
          rw [hsk]; unfold Quad.terms; cases quads <;> rfl
        obtain ⟨vs, m', h1, h2, h3, h4, h5⟩ := rdfCells_spec L enc st.buf hm hl (hw q (by simp))
        obtain ⟨b', g1, g2, g3⟩ := addRow enc hb hi hp h4
        have hst : rdfCells L enc st skips (q.terms quads) = some (⟨b', m'⟩, true) := by
          have : st = ⟨st.buf, st.blanks⟩ := rfl
          rw [this, h1, g1]
          rfl
        rw [hst]
        dsimp only
        have hq : ∀ M : Blanks, m'.Sub M → ∀ rest : List Quad, quadRows L enc ps quads skips M.fn (q :: rest) =
            ((filterResult ps vs).map (List.map enc)).toList ++ quadRows L enc ps quads skips M.fn rest := by
          intro M hM rest
          unfold quadRows
          have : quadRow L quads skips M.fn q = some vs := h5 M hM
          rw [List.filterMap_cons, this, Option.bind_some]
          cases (filterResult ps vs).map (List.map enc) <;> rfl
        have htake : ∃ k, stop - n = k + 1 := ⟨stop - n - 1, by omega⟩
        obtain ⟨k, hk⟩ := htake
        have hfm : ((some q :: qs).filterMap id).take (stop - n) = q :: (qs.filterMap id).take k := by
          rw [hk]; simp
        rw [hfm]
        by_cases he' : n + 1 = stop
        · rw [if_pos he']
          refine ⟨_, rfl, g2, h2, h3, fun M hM => ?_⟩
          have : k = 0 := by omega
          subst this
          rw [hq M hM]
          refine ⟨by simp [quadRow, h5 M hM], by simpa [quadRows] using g3⟩
        · rw [if_neg he']
          obtain ⟨st', f1, f2, f3, f4, f5⟩ := rdfStatements_spec L enc stop hsk hi hp qs (n + 1) (st := ⟨b', m'⟩) g2 h2
            (fun q h => hw q (by simp [h])) (by omega)
          refine ⟨st', f1, f2, f3, h3.trans f4, fun M hM => ?_⟩
          rw [hq M (f4.trans hM)]
          have hf5 := f5 M hM
          rw [show stop - (n + 1) = k by omega] at hf5
          refine ⟨?_, hf5.2.trans ?_⟩
          · intro q' hq'
            rcases List.mem_cons.mp hq' with rfl | hq'
            · simp [quadRow, h5 M (f4.trans hM)]
            · exact hf5.1 q' hq'
          refine (List.Perm.append_left _ g3).trans ?_
          rw [List.append_assoc]
          exact List.perm_append_comm_assoc _ _ _

/-- **Specification.** A limit on a list. -/
def upTo {γ : Type} (limit : Option Nat) (l : List γ) : List γ :=
  match limit with
  | some n => l.take n
  | none => l

/-- **C48.** Importing an RDF file all of whose literals (in columns that are read) are well-formed: the table
consists exactly of the (filtered and transformed) rows of the first `limit` statements that the parser
accepts, where blank nodes have become new nulls, and different blank nodes different nulls. -/
theorem rdf_import_partial (L : Lib) (enc : DV → α) (zero : DV) {quads : Bool} {skips : List Bool}
    (hsk : skips.length = if quads then 4 else 3) (hi : 0 < keptTerms skips) (hpos : 0 < output)
    (hp : PatternsOK (keptTerms skips) output ps) (limit : Option Nat) (firstNull : Nat) (file : List (Option Quad))
    (hw : ∀ q, some q ∈ file → q.WellFormed L quads skips) (hsize : file.length < 2 ^ 64) :
    ∃ (st : RdfSt α) (table : List (List α)) (nulls : String → Option Nat),
      rdfRead L enc quads skips limit ⟨PBuf.new zero (keptTerms skips) ps, ⟨[], firstNull⟩⟩ file = some st ∧
      st.buf.buf.finalize = some table ∧ SortedRows table ∧
      (∀ b b' n, nulls b = some n → nulls b' = some n → b = b') ∧ (∀ b n, nulls b = some n → firstNull ≤ n) ∧
      (∀ q ∈ upTo limit (file.filterMap id), quadRow L quads skips nulls q ≠ none) ∧
      ∀ x, x ∈ table ↔ ∃ q ∈ upTo limit (file.filterMap id),
        ∃ row, quadRow L quads skips nulls q = some row ∧ ∃ out, filterResult ps row = some out ∧ x = out.map enc := by
  have h0 : (⟨[], firstNull⟩ : Blanks).OK firstNull := ⟨by simp, by simp, Nat.le_refl _⟩
  obtain ⟨st, h1, h2, h3, h4, h5⟩ := rdfStatements_spec L enc (limit.getD (2 ^ 64 - 1)) hsk hi hp file 0
    (st := ⟨PBuf.new zero (keptTerms skips) ps, ⟨[], firstNull⟩⟩) (between_new zero hp hpos) h0 hw (Nat.zero_le _)
  obtain ⟨table, t1, t2, t3⟩ := TBuf.finalize_spec h2.ready.ok
  refine ⟨st, table, st.blanks.fn, h1, t1, t2, h3.inj, fun b n h => (h3.below _ (lookup_mem' h)).1, ?_⟩
  have hlim : (file.filterMap id).take (limit.getD (2 ^ 64 - 1) - 0) =
      upTo limit (file.filterMap id) := by
    cases limit with
    | some n => rfl
    | none =>
        unfold upTo
        dsimp only
        rw [List.take_of_length_le]
        have := List.length_filterMap_le id file
        simp only [Option.getD_none]
        omega
  have hfin := h5 st.blanks (fun _ _ h => h)
  rw [hlim] at hfin
  refine ⟨hfin.1, fun x => ?_⟩
  rw [t3.mem_iff, hfin.2.mem_iff]
  have : (PBuf.new zero (keptTerms skips) ps : PBuf DV α).buf.stored = [] := rfl
  simp only [this, List.append_nil]
  unfold quadRows
  rw [List.mem_filterMap]
  constructor
  · rintro ⟨r, g1, g2⟩
    simp only [Option.map_eq_some_iff, Option.bind_eq_some_iff] at g2
    obtain ⟨out, ⟨row, g3, g4⟩, rfl⟩ := g2
    exact ⟨r, g1, row, g3, out, g4, rfl⟩
  · rintro ⟨r, g1, row, g2, out, g3, rfl⟩
    exact ⟨r, g1, by simp [g2, g3]⟩

/-! ### Malformed literals -/

theorem integer_abc (L : Lib) : typedLit L "abc" (XSD ++ "integer") = .undef := by
  rw [typedLit_xsd, xsdLit_integer]
  apply decimalLit_refused
  intro neg ip fp h
  have hc : ∀ c ∈ "abc".toList, c ≠ '.' ∧ c ≠ '+' ∧ c ≠ '-' ∧ digit 10 c = none := by decide
  obtain ⟨sg, hs, ht⟩ := h.text
  have hsg : sg = [] := by
    cases hs with
    | absent => rfl
    | plus => exact absurd rfl (hc '+' (by rw [ht]; simp)).2.1
    | minus => exact absurd rfl (hc '-' (by rw [ht]; simp)).2.2.1
  subst hsg
  cases ip with
  | nil =>
      cases fp with
      | none => simp [fracText] at ht
      | some fp => exact absurd rfl (hc '.' (by rw [ht]; simp [fracText])).1
  | cons c ip =>
      obtain ⟨d, hd⟩ := h.int c (by simp)
      rw [(hc c (by rw [ht]; simp)).2.2.2] at hd
      cases hd

/-- **C48, finding.** The condition on literals is needed. The reader of RDF files reports a malformed literal
after it has already written the subject and the predicate of its statement, and does not take them
back (rdf/reader.rs:200-213, 226-228: there is no `drop_current_tuple`, unlike dsv/reader.rs:137). So the
values of all later statements are shifted: from the file

    s₁ p₁ "abc"^^xsd:integer .
    s₂ p₂ "o" .

the import makes the single row `s₁ p₁ s₂`, which is not in the file, and loses the row `s₂ p₂ "o"`. -/
theorem rdf_malformed_shifts (L : Lib) (enc : DV → α) (zero : DV) (s₁ p₁ s₂ p₂ o : String) :
    ∃ (st : RdfSt α) (table : List (List α)),
      rdfRead L enc false [false, false, false] none ⟨PBuf.new zero 3 [], ⟨[], 0⟩⟩
        [some ⟨.defaultGraph, .named s₁, .named p₁, .typed "abc" (XSD ++ "integer")⟩,
         some ⟨.defaultGraph, .named s₂, .named p₂, .simple o⟩] = some st ∧
      st.buf.buf.finalize = some table ∧ table = [[enc (.iri s₁), enc (.iri p₁), enc (.iri s₂)]] := by
  have hb : Between (PBuf.new zero 3 [] : PBuf DV α) 3 [] 3 := between_new zero (patternsOK_nil 3) (by omega)
  obtain ⟨b3, h1, h2, h3⟩ := addRow enc hb (by omega) (patternsOK_nil 3) (row := [.iri s₁, .iri p₁, .iri s₂]) rfl
  obtain ⟨b5, g1, g2, g3⟩ := addPart enc h2 (vs := [.iri p₂, .str o]) (by simp)
  have hstored : b5.buf.stored = b3.buf.stored := g3
  have hok : b5.buf.OK := g2.ready.ok
  obtain ⟨table, t1, t2, t3⟩ := TBuf.finalize_spec hok
  have htab : table = [[enc (.iri s₁), enc (.iri p₁), enc (.iri s₂)]] := by
    rw [hstored] at t3
    have := t3.trans h3
    simp only [filterResult, List.isEmpty_nil, if_true, Option.map_some, Option.toList_some] at this
    exact List.perm_singleton.mp (by simpa [TBuf.stored, PBuf.new, TBuf.new] using this)
  refine ⟨⟨b5, ⟨[], 0⟩⟩, table, ?_, t1, htab⟩
  -- the values are added one after the other
  simp only [PBuf.addAll] at h1 g1
  cases a1 : (PBuf.new zero 3 [] : PBuf DV α).add enc (.iri s₁) with
  | none => rw [a1] at h1; cases h1
  | some b1 =>
    rw [a1] at h1
    dsimp only at h1
    cases a2 : b1.add enc (.iri p₁) with
    | none => rw [a2] at h1; cases h1
    | some b2 =>
      rw [a2] at h1
      dsimp only at h1
      cases a3 : b2.add enc (.iri s₂) with
      | none => rw [a3] at h1; cases h1
      | some b3' =>
        rw [a3] at h1
        cases h1
        cases a4 : b3.add enc (.iri p₂) with
        | none => rw [a4] at g1; cases g1
        | some b4 =>
          rw [a4] at g1
          dsimp only at g1
          cases a5 : b4.add enc (.str o) with
          | none => rw [a5] at g1; cases g1
          | some b5' =>
            rw [a5] at g1
            cases g1
            simp [rdfRead, rdfStatements, rdfStep, rdfCells, Quad.terms, RTerm.read, a1, a2, a3, a4, a5, integer_abc]

/-! ### Export -/

theorem rdfLines_spec (X : FloatText) (quads : Bool) (skips : List Bool) (stop : Nat) : ∀ (rows : List (List DV)) (n : Nat),
    (n < stop ∨ stop = 0) → rdfLines X quads skips stop n rows =
      limited (if stop = 0 then none else some (stop - n)) (rows.filterMap (rowQuad X quads skips))
  | [], n, hs => by
      have : limited (γ := Quad) (if stop = 0 then none else some (stop - n)) [] = [] := by
        unfold limited
        split <;> simp
      rw [List.filterMap_nil, this]
      rfl
  | row :: rows, n, hs => by
      rw [rdfLines, List.filterMap_cons]
      cases hr : rowQuad X quads skips row with
      | none => exact rdfLines_spec X quads skips stop rows n hs
      | some r =>
          dsimp only
          by_cases h0 : stop = 0
          · rw [if_neg (by omega), rdfLines_spec X quads skips stop rows (n + 1) (.inr h0), if_pos h0, if_pos h0]
            rfl
          · rw [if_neg h0]
            obtain ⟨k, hk⟩ : ∃ k, stop - n = k + 1 := ⟨stop - n - 1, by omega⟩
            rw [hk]
            by_cases he : n + 1 = stop
            · rw [if_pos he]
              have : k = 0 := by omega
              subst this
              rfl
            · rw [if_neg he, rdfLines_spec X quads skips stop rows (n + 1) (by omega), if_neg h0]
              obtain ⟨j, rfl⟩ : ∃ j, k = j + 1 := ⟨k - 1, by omega⟩
              rw [show stop - (n + 1) = j + 1 by omega]
              rfl

/-- **C48.** The exported statements are those of the rows that are statements (subjects and graphs are
IRIs or nulls, predicates IRIs, and objects neither tuples nor maps), in order, up to the limit (unless
it is 0: then there is no limit). -/
theorem rdf_export (X : FloatText) (quads : Bool) (skips : List Bool) (limit : Option Nat) (rows : List (List DV))
    (hsize : rows.length < 2 ^ 64) :
    rdfWrite X quads skips limit rows = limited limit (rows.filterMap (rowQuad X quads skips)) := by
  unfold rdfWrite
  rw [rdfLines_spec X quads skips _ rows 0 (by omega)]
  cases limit with
  | none =>
      have hl := List.length_filterMap_le (rowQuad X quads skips) rows
      have : (none : Option Nat).getD (2 ^ 64 - 1) ≠ 0 := by decide
      rw [if_neg this]
      show List.take _ _ = _
      rw [List.take_of_length_le (by simp only [Option.getD_none]; omega)]
      rfl
  | some n => cases n <;> rfl

/-- The values that RDF keeps: everything except tuples, maps, single precision numbers, and language tags
in upper case (which no value has). -/
inductive RdfSurvives (L : Lib) (X : FloatText) : DV → Prop
  | str (s : String) : RdfSurvives L X (.str s)
  | lang {s tag : String} : (∀ c ∈ tag.toList, c.toLower = c) → RdfSurvives L X (.lang s tag)
  | iri (s : String) : RdfSurvives L X (.iri s)
  | null (id : Nat) : RdfSurvives L X (.null id)
  | long (i : Int64) : RdfSurvives L X (.long i)
  | ulong (n : UInt64) : RdfSurvives L X (.ulong n)
  | double (f : F64) : RdfSurvives L X (.double f)
  | bool (b : Bool) : RdfSurvives L X (.bool b)
  /-- values of other datatypes: values that some typed literal denotes -/
  | other {s dt s' dt' : String} : typedLit L s' dt' = .val (.other s dt) → RdfSurvives L X (.other s dt)

/-- Renaming nulls. -/
def renameNull (ren : Nat → Nat) : DV → DV
  | .null id => .null (ren id)
  | v => v

/-- The text of a null. -/
def nullLabel (id : Nat) : String := String.ofList (decimal id)

theorem nullLabel_inj {a b : Nat} (h : nullLabel a = nullLabel b) : a = b := by
  have h1 : decimal a = decimal b := by
    have := congrArg String.toList h
    simpa [nullLabel, String.toList_ofList] using this
  rw [← numeral_decimal a, ← numeral_decimal b, h1]

theorem object_roundtrip (L : Lib) (X : FloatText) (hX : ∀ f, L.parseF64 (String.ofList (X.showF64 f)) = some f) {v : DV}
    (h : RdfSurvives L X v) : ∃ t, objectTerm X v = some t ∧ t.WellFormed L ∧
      ∀ (M : String → Option Nat) (ren : Nat → Nat), (∀ id, v = .null id → M (nullLabel id) = some (ren id)) →
        ∃ v', t.value L M = some v' ∧ DV.eq v' (renameNull ren v) = true := by
  have key : ∀ v : DV, ReadsBack L X v → (∀ dt, datatypeIri v = some dt → objectTerm X v = some (.typed (lexicalStr X v) dt)) →
      (∀ ren, renameNull ren v = v) → ∃ t, objectTerm X v = some t ∧ t.WellFormed L ∧
      ∀ (M : String → Option Nat) (ren : Nat → Nat), (∀ id, v = .null id → M (nullLabel id) = some (ren id)) →
        ∃ v', t.value L M = some v' ∧ DV.eq v' (renameNull ren v) = true := by
    intro v ⟨dt, v', h1, h2, h3⟩ ho hren
    refine ⟨_, ho dt h1, ⟨v', h2⟩, fun M ren _ => ⟨v', ?_, by rw [hren]; exact h3⟩⟩
    rw [RTerm.value, h2]
  cases h with
  | str s => exact ⟨_, rfl, trivial, fun M ren _ => ⟨.str s, rfl, by simp [renameNull, DV.eq]⟩⟩
  | @lang s tag ht =>
      refine ⟨_, rfl, trivial, fun M ren _ => ⟨.lang s tag, ?_, by simp [renameNull, DV.eq]⟩⟩
      have : tag.toList.map Char.toLower = tag.toList := by
        conv_rhs => rw [← List.map_id tag.toList]
        exact List.map_congr_left fun c hc => ht c hc
      rw [RTerm.value, this, String.ofList_toList]
  | iri s => exact ⟨_, rfl, trivial, fun M ren _ => ⟨.iri s, rfl, by simp [renameNull, DV.eq]⟩⟩
  | null id =>
      refine ⟨_, rfl, trivial, fun M ren hM => ⟨.null (ren id), ?_, by simp [renameNull, DV.eq]⟩⟩
      have := hM id rfl
      unfold nullLabel at this
      rw [RTerm.value, this]
      rfl
  | long i => exact key _ (readsBack_long L X i) (fun dt h => by simp [objectTerm, h]) (fun _ => rfl)
  | ulong n => exact key _ (readsBack_ulong L X n) (fun dt h => by simp [objectTerm, h]) (fun _ => rfl)
  | double f =>
      have : ReadsBack L X (.double f) := by
        refine ⟨_, .double f, rfl, ?_, by simp [DV.eq]⟩
        rw [DV.domain, typeIri, typedLit_xsd, xsdLit_double, doubleLit, lexicalStr, lexical, hX]
        rfl
      exact key _ this (fun dt h => by simp [objectTerm, h]) (fun _ => rfl)
  | bool b =>
      have : ReadsBack L X (.bool b) := by
        refine ⟨_, .bool b, rfl, ?_, by simp [DV.eq]⟩
        rw [DV.domain, typeIri, typedLit_xsd, xsdLit_boolean, lexicalStr, lexical]
        cases b <;> simp [parseBool]
      exact key _ this (fun dt h => by simp [objectTerm, h]) (fun _ => rfl)
  | @other s dt s' dt' h => exact key _ (typedLit_stable L X hX h) (fun dt h => by simp [objectTerm, h]) (fun _ => rfl)

/-- The rows that can be written as statements and read again: subjects (and graphs) are IRIs or nulls,
predicates are IRIs, objects are as above. -/
def RdfRow (L : Lib) (X : FloatText) (quads : Bool) (row : List DV) : Prop :=
  ∃ g s p o, row = (if quads then [g, s, p, o] else [s, p, o]) ∧ ((∃ i, s = .iri i) ∨ ∃ n, s = .null n) ∧ (∃ i, p = .iri i) ∧
    RdfSurvives L X o ∧ (quads = true → (∃ i, g = .iri i) ∨ ∃ n, g = .null n)

theorem node_roundtrip (L : Lib) {s : DV} (h : (∃ i, s = .iri i) ∨ ∃ n, s = .null n) : ∃ t, subjectTerm s = some t ∧ t.WellFormed L ∧
    ∀ (M : String → Option Nat) (ren : Nat → Nat), (∀ id, s = .null id → M (nullLabel id) = some (ren id)) →
      t.value L M = some (renameNull ren s) := by
  rcases h with ⟨i, rfl⟩ | ⟨n, rfl⟩
  · exact ⟨_, rfl, trivial, fun M ren _ => rfl⟩
  · refine ⟨_, rfl, trivial, fun M ren hM => ?_⟩
    have := hM n rfl
    unfold nullLabel at this
    rw [RTerm.value, this]
    rfl

theorem graph_roundtrip (L : Lib) {s : DV} (h : (∃ i, s = .iri i) ∨ ∃ n, s = .null n) : ∃ t, graphTerm s = some t ∧ t.WellFormed L ∧
    ∀ (M : String → Option Nat) (ren : Nat → Nat), (∀ id, s = .null id → M (nullLabel id) = some (ren id)) →
      t.value L M = some (renameNull ren s) := by
  rcases h with ⟨i, rfl⟩ | ⟨n, rfl⟩
  · rw [graphTerm]
    by_cases hd : i = DEFAULT_GRAPH
    · rw [if_pos hd]
      exact ⟨_, rfl, trivial, fun M ren _ => by rw [RTerm.value, hd]; rfl⟩
    · rw [if_neg hd]
      exact ⟨_, rfl, trivial, fun M ren _ => rfl⟩
  · refine ⟨_, rfl, trivial, fun M ren hM => ?_⟩
    have := hM n rfl
    unfold nullLabel at this
    rw [RTerm.value, this]
    rfl

/-- No column is skipped. -/
def noSkips (quads : Bool) : List Bool := if quads then [false, false, false, false] else [false, false, false]

theorem rdfRow_roundtrip (L : Lib) (X : FloatText) (hX : ∀ f, L.parseF64 (String.ofList (X.showF64 f)) = some f) {quads : Bool}
    {row : List DV} (h : RdfRow L X quads row) : ∃ q, rowQuad X quads (noSkips quads) row = some q ∧
      q.WellFormed L quads (noSkips quads) ∧ (∀ id, .null id ∈ row → .blank (nullLabel id) ∈ q.terms quads) ∧
      ∀ (M : String → Option Nat) (ren : Nat → Nat), (∀ id, .null id ∈ row → M (nullLabel id) = some (ren id)) →
        ∃ row', quadRow L quads (noSkips quads) M q = some row' ∧
          List.Forall₂ (fun v' v => DV.eq v' v = true) row' (row.map (renameNull ren)) := by
  obtain ⟨g, s, p, o, hrow, hs, ⟨pi, rfl⟩, ho, hg⟩ := h
  obtain ⟨ts, s1, s2, s3⟩ := node_roundtrip L hs
  obtain ⟨tob, o1, o2, o3⟩ := object_roundtrip L X hX ho
  have so : ∀ id, s = .null id → ts = .blank (nullLabel id) := by
    rintro id rfl
    simp [subjectTerm] at s1
    exact s1.symm
  have oo : ∀ id, o = .null id → tob = .blank (nullLabel id) := by
    rintro id rfl
    simp [objectTerm] at o1
    exact o1.symm
  have seq : ∀ ren, DV.eq (renameNull ren s) (renameNull ren s) = true := by
    intro ren
    rcases hs with ⟨i, rfl⟩ | ⟨n, rfl⟩ <;> simp [renameNull, DV.eq]
  have peq : ∀ ren : Nat → Nat, DV.eq (.iri pi) (renameNull ren (.iri pi)) = true := by
    intro ren; simp [renameNull, DV.eq]
  cases quads with
  | false =>
      simp only [Bool.false_eq_true, if_false] at hrow
      subst hrow
      refine ⟨⟨.defaultGraph, ts, .named pi, tob⟩, ?_, ?_, ?_, ?_⟩
      · simp [rowQuad, unskipped, noSkips, tripleOf, s1, predicateTerm, o1]
      · intro i t h1 h2
        match i with
        | 0 => simp [Quad.terms] at h2; subst h2; exact s2
        | 1 => simp [Quad.terms] at h2; subst h2; trivial
        | 2 => simp [Quad.terms] at h2; subst h2; exact o2
        | i + 3 => simp [Quad.terms] at h2
      · intro id hid
        simp only [List.mem_cons, List.not_mem_nil, or_false, reduceCtorEq, false_or] at hid
        rcases hid with h | h
        · simp [Quad.terms, so id h.symm]
        · simp [Quad.terms, oo id h.symm]
      · intro M ren hM
        obtain ⟨o', e1, e2⟩ := o3 M ren (fun id e => hM id (by simp [e]))
        have es := s3 M ren (fun id e => hM id (by simp [e]))
        refine ⟨[renameNull ren s, .iri pi, o'], ?_, .cons (seq ren) (.cons (peq ren) (.cons e2 .nil))⟩
        have ep : RTerm.value L M (.named pi) = some (.iri pi) := rfl
        simp [quadRow, Quad.terms, noSkips, termValues, es, e1, ep]
  | true =>
      simp only [if_true] at hrow
      subst hrow
      obtain ⟨tg, g1, g2, g3⟩ := graph_roundtrip L (hg rfl)
      have geq : ∀ ren, DV.eq (renameNull ren g) (renameNull ren g) = true := by
        intro ren
        rcases hg rfl with ⟨i, rfl⟩ | ⟨n, rfl⟩ <;> simp [renameNull, DV.eq]
      refine ⟨⟨tg, ts, .named pi, tob⟩, ?_, ?_, ?_, ?_⟩
      · simp [rowQuad, unskipped, noSkips, quadOf, s1, predicateTerm, o1, g1]
      · intro i t h1 h2
        match i with
        | 0 => simp [Quad.terms] at h2; subst h2; exact g2
        | 1 => simp [Quad.terms] at h2; subst h2; exact s2
        | 2 => simp [Quad.terms] at h2; subst h2; trivial
        | 3 => simp [Quad.terms] at h2; subst h2; exact o2
        | i + 4 => simp [Quad.terms] at h2
      · have go : ∀ id, g = .null id → tg = .blank (nullLabel id) := by
          rintro id rfl
          simp [graphTerm] at g1
          exact g1.symm
        intro id hid
        simp only [List.mem_cons, List.not_mem_nil, or_false, reduceCtorEq, false_or] at hid
        rcases hid with h | h | h
        · simp [Quad.terms, go id h.symm]
        · simp [Quad.terms, so id h.symm]
        · simp [Quad.terms, oo id h.symm]
      · intro M ren hM
        obtain ⟨o', e1, e2⟩ := o3 M ren (fun id e => hM id (by simp [e]))
        have es := s3 M ren (fun id e => hM id (by simp [e]))
        have eg := g3 M ren (fun id e => hM id (by simp [e]))
        refine ⟨[renameNull ren g, renameNull ren s, .iri pi, o'], ?_, .cons (geq ren) (.cons (seq ren) (.cons (peq ren) (.cons e2 .nil)))⟩
        have ep : RTerm.value L M (.named pi) = some (.iri pi) := rfl
        simp [quadRow, Quad.terms, noSkips, termValues, es, e1, eg, ep]

theorem termValues_defined {L : Lib} {M : String → Option Nat} : ∀ {skips : List Bool} {ts : List RTerm}, skips.length = ts.length →
    (∀ s ∈ skips, s = false) → termValues L M skips ts ≠ none → ∀ t ∈ ts, t.value L M ≠ none
  | [], [], _, _, _, t, ht => by simp at ht
  | [], _ :: _, hl, _, _, _, _ => by simp at hl
  | _ :: _, [], hl, _, _, _, _ => by simp at hl
  | s :: ss, t :: ts, hl, hs, h, t', ht => by
      have hs0 := hs s (by simp)
      subst hs0
      rw [termValues, if_neg (by simp)] at h
      cases hv : t.value L M with
      | none => rw [hv] at h; exact absurd rfl h
      | some v =>
          rw [hv] at h
          dsimp only at h
          rcases List.mem_cons.mp ht with rfl | ht
          · rw [hv]; simp
          · exact termValues_defined (by simpa using hl) (fun s h => hs s (by simp [h])) (by
              intro h'
              rw [h'] at h
              exact h rfl) t' ht

/-- **C32.** Exporting a table of statements to an RDF file and importing the file again yields the same
table, up to the names of nulls: `ren` renames them, and different nulls remain different. -/
theorem rdf_roundtrip_partial (L : Lib) (X : FloatText) (hX : ∀ f, L.parseF64 (String.ofList (X.showF64 f)) = some f)
    (enc : DV → α) (henc : ∀ v v', DV.eq v v' = true → enc v = enc v') (zero : DV) (quads : Bool) (firstNull : Nat)
    {rows : List (List DV)} (hr : ∀ row ∈ rows, RdfRow L X quads row) (hsize : rows.length < 2 ^ 64) :
    ∃ (st : RdfSt α) (table : List (List α)) (ren : Nat → Nat),
      rdfRead L enc quads (noSkips quads) none ⟨PBuf.new zero (keptTerms (noSkips quads)) [], ⟨[], firstNull⟩⟩
        ((rdfWrite X quads (noSkips quads) none rows).map some) = some st ∧
      st.buf.buf.finalize = some table ∧ SortedRows table ∧
      (∀ a b, (∃ row ∈ rows, .null a ∈ row) → (∃ row ∈ rows, .null b ∈ row) → ren a = ren b → a = b) ∧
      ∀ x, x ∈ table ↔ ∃ row ∈ rows, x = (row.map (renameNull ren)).map enc := by
  have hkept : 0 < keptTerms (noSkips quads) := by cases quads <;> decide
  have hlen : (noSkips quads).length = if quads then 4 else 3 := by cases quads <;> rfl
  rw [rdf_export X quads (noSkips quads) none rows hsize]
  have hfm : ((limited none (rows.filterMap (rowQuad X quads (noSkips quads)))).map some).filterMap id =
      rows.filterMap (rowQuad X quads (noSkips quads)) := by
    rw [limited, List.filterMap_map]
    simp
  obtain ⟨st, table, M, h1, h2, h3, h4, h5, h6, h7⟩ := rdf_import_partial L enc zero hlen hkept hkept (patternsOK_nil _) none firstNull
    ((limited none (rows.filterMap (rowQuad X quads (noSkips quads)))).map some) (by
      intro q hq
      obtain ⟨q', hq', e⟩ := List.mem_map.mp hq
      cases e
      obtain ⟨row, m, e⟩ := List.mem_filterMap.mp hq'
      obtain ⟨q2, r1, r2, _⟩ := rdfRow_roundtrip L X hX (hr row m)
      rw [r1] at e
      cases e
      exact r2) (by
      have := List.length_filterMap_le (rowQuad X quads (noSkips quads)) rows
      simp only [limited, List.length_map]
      omega)
  rw [hfm] at h6 h7
  simp only [upTo] at h6 h7
  -- the nulls are defined
  have hdef : ∀ row ∈ rows, ∀ id, .null id ∈ row → M (nullLabel id) ≠ none := by
    intro row m id hid
    obtain ⟨q, r1, r2, r3, _⟩ := rdfRow_roundtrip L X hX (hr row m)
    have hq := h6 q (List.mem_filterMap.mpr ⟨row, m, r1⟩)
    have := termValues_defined (L := L) (M := M) (skips := noSkips quads) (ts := q.terms quads)
      (by cases quads <;> rfl) (by cases quads <;> simp [noSkips]) hq _ (r3 id hid)
    rw [RTerm.value] at this
    intro hn
    rw [hn] at this
    exact this rfl
  refine ⟨st, table, fun id => (M (nullLabel id)).getD 0, h1, h2, h3, ?_, fun x => ?_⟩
  · rintro a b ⟨row, m, ha⟩ ⟨row', m', hb⟩ e
    have ea := hdef row m a ha
    have eb := hdef row' m' b hb
    cases hA : M (nullLabel a) with
    | none => exact absurd hA ea
    | some n =>
        cases hB : M (nullLabel b) with
        | none => exact absurd hB eb
        | some k =>
            dsimp only at e
            rw [hA, hB] at e
            simp only [Option.getD_some] at e
            subst e
            exact nullLabel_inj (h4 _ _ _ hA hB)
  · have hM : ∀ row ∈ rows, ∀ id, .null id ∈ row → M (nullLabel id) = some ((M (nullLabel id)).getD 0) := by
      intro row m id hid
      cases hA : M (nullLabel id) with
      | none => exact absurd hA (hdef row m id hid)
      | some n => rfl
    rw [h7]
    constructor
    · rintro ⟨q, mq, row', e1, out, e2, rfl⟩
      obtain ⟨row, m, e⟩ := List.mem_filterMap.mp mq
      obtain ⟨q2, r1, r2, r3, r4⟩ := rdfRow_roundtrip L X hX (hr row m)
      rw [r1] at e
      cases e
      obtain ⟨row'', k1, k2⟩ := r4 M _ (hM row m)
      rw [k1] at e1
      cases e1
      simp only [filterResult, List.isEmpty_nil, if_true, Option.some.injEq] at e2
      subst e2
      exact ⟨row, m, enc_congr henc k2⟩
    · rintro ⟨row, m, rfl⟩
      obtain ⟨q, r1, r2, r3, r4⟩ := rdfRow_roundtrip L X hX (hr row m)
      obtain ⟨row'', k1, k2⟩ := r4 M _ (hM row m)
      exact ⟨q, List.mem_filterMap.mpr ⟨row, m, r1⟩, row'', k1, row'', rfl, (enc_congr henc k2).symm⟩

end Verif.Lit
