import Verif.TrieRep

/-!
# Building a trie from a sorted tuple buffer

Model of `Trie::from_tuple_buffer` (/repo/nemo-physical/src/tabular/trie.rs:183-244) and proof that
the result represents the rows.
-/

set_option linter.unusedSimpArgs false
set_option linter.unusedSectionVars false

namespace Verif
variable {α : Type} [SVal α]

/-- The variables of the loop over the tuples of a column (trie.rs:194-198). -/
structure ColSt (α : Type) where
  builder : MBuilder α := {}
  curInt : List Nat := []
  curTys : List Ty := []
  pred : Nat := 0
  curTy : Ty := 0
  idx : Nat := 0

/-- Finish the interval of the previous value if a new one starts at this tuple
(trie.rs:201-206). -/
def ColSt.boundary (lastInt : List Nat) (lastTys : List Ty) (st : ColSt α) : Option (ColSt α) :=
  if lastInt[st.pred]? = some st.idx then do
    let σ ← lastTys[st.pred]?
    return { st with builder := st.builder.finishInterval σ, pred := st.pred + 1 }
  else return st

/-- Add the value of a tuple (trie.rs:208-216). -/
def ColSt.push (lastColumn : Bool) (st : ColSt α) (v : α) : ColSt α :=
  let r := st.builder.addValue v
  let st := { st with builder := r.2 }
  let st := if r.1 ∧ 0 < st.idx ∧ ¬ lastColumn then
    { st with curInt := st.curInt ++ [st.idx], curTys := st.curTys ++ [st.curTy] } else st
  { st with curTy := ty v, idx := st.idx + 1 }

/-- The body of the loop over the tuples of a column (trie.rs:200-217). -/
def ColSt.step (lastInt : List Nat) (lastTys : List Ty) (lastColumn : Bool) (st : ColSt α) (v : α) :
    Option (ColSt α) := do
  let st ← st.boundary lastInt lastTys
  return st.push lastColumn v

/-- The body of the loop over the columns (trie.rs:191-235): returns the builder and the new values
of `last_tuple_intervals`, `last_tuple_types`. -/
def columnPass (first lastColumn : Bool) (lastInt : List Nat) (lastTys : List Ty) (col : List α) :
    Option (MBuilder α × List Nat × List Ty) := do
  let st ← col.foldlM (ColSt.step lastInt lastTys lastColumn) {}
  let curTys := if lastColumn then st.curTys else st.curTys ++ [st.curTy]
  if first then
    return (st.builder.commitValue, st.curInt, curTys)
  else do
    let σ ← lastTys.getLast?
    return (st.builder.finishInterval σ, st.curInt, curTys)

/-- The loop over the columns `k, k+1, …` (`n` columns remain). -/
def columnLoop (rows : List (List α)) : Nat → Nat → List Nat → List Ty →
    Option (List (Layer α))
  | _, 0, _, _ => some []
  | k, n + 1, lastInt, lastTys => do
    let (b, i, t) ← columnPass (k == 0) (n == 0) lastInt lastTys (rows.filterMap (·[k]?))
    let rest ← columnLoop rows (k + 1) n i t
    return b.finalize :: rest

/-- `Trie::from_tuple_buffer` (trie.rs:183-244). The sorted buffer is the list of its rows;
`get_column k` lists the `k`-th values. -/
def Trie.fromSorted (arity : Nat) (rows : List (List α)) : Option (Trie α) := do
  let cols ← columnLoop rows 0 arity [] []
  return ⟨cols, false⟩

/-! ## Proof -/

/-- positions (from `o`) at which a value differs from the one before it, the first being `w` -/
def changes : Nat → α → List α → List Nat
  | _, _, [] => []
  | o, w, v :: vs => if w = v then changes (o + 1) v vs else o :: changes (o + 1) v vs

/-- start positions of consecutive blocks -/
def offsets {β : Type} : Nat → List (List β) → List Nat
  | _, [] => []
  | o, b :: bs => o :: offsets (o + b.length) bs

theorem uniq_ne_nil {w : α} {vs : List α} : uniq (w :: vs) ≠ [] := by
  induction vs generalizing w with
  | nil => simp [uniq]
  | cons v vs ih => simp only [uniq]; split <;> simp [ih]

/-- values of the rest of a block -/
theorem step_inner (lastInt : List Nat) (lastTys : List Ty) (lc : Bool) (vs : List α) (w : α)
    (st : ColSt α) (hcur : st.builder.cur = some w) (hty : st.curTy = ty w) (hidx : 0 < st.idx)
    (hno : ∀ j, lastInt[st.pred]? = some j → st.idx + vs.length ≤ j) :
    ∃ st', vs.foldlM (ColSt.step lastInt lastTys lc) st = some st' ∧
      st'.builder.commitValue.layer = (uniq (w :: vs)).foldl Layer.addValue st.builder.layer ∧
      st'.builder.cur.isSome ∧
      st'.idx = st.idx + vs.length ∧ st'.pred = st.pred ∧
      (lc = true → st'.curInt = st.curInt ∧ st'.curTys = st.curTys) ∧
      (lc = false → st'.curInt = st.curInt ++ changes st.idx w vs ∧
        st'.curTys ++ [st'.curTy] = st.curTys ++ (uniq (w :: vs)).map ty) := by
  induction vs generalizing w st with
  | nil =>
    refine ⟨st, rfl, ?_, ?_, rfl, rfl, fun _ => ⟨rfl, rfl⟩, fun _ => ?_⟩
    · simp [MBuilder.commitValue, hcur, uniq]
    · simp [hcur]
    · simp [changes, uniq, hty]
  | cons v vs ih =>
    have hb : st.boundary lastInt lastTys = some st := by
      unfold ColSt.boundary
      rw [if_neg]; · rfl
      intro h
      have := hno _ h
      simp only [List.length_cons] at this
      omega
    rw [List.foldlM_cons]
    simp only [ColSt.step, hb, Option.bind_eq_bind, Option.bind_some]
    simp only [List.length_cons] at hno
    by_cases hwv : w = v
    · subst hwv
      have hp : st.push lc w = { st with curTy := ty w, idx := st.idx + 1 } := by
        simp [ColSt.push, MBuilder.addValue, hcur]
      obtain ⟨st', h1, h2, h3, h4, h5, h6, h7⟩ := ih w (st.push lc w) (by rw [hp]; exact hcur)
        (by rw [hp]) (by rw [hp]; simp) (by rw [hp]; intro j hj; have := hno j hj; simp; omega)
      rw [hp] at h1 h2 h4 h5 h6 h7
      refine ⟨st', by rw [hp]; exact h1, ?_, h3, by simp at h4 ⊢; omega, h5, h6, fun hl => ?_⟩
      · rw [h2]; simp [uniq]
      · have := h7 hl
        simpa [changes, uniq] using this
    · have hp : st.push lc v =
          { builder := ⟨st.builder.layer.addValue w, some v⟩
            curInt := if lc then st.curInt else st.curInt ++ [st.idx]
            curTys := if lc then st.curTys else st.curTys ++ [ty w]
            pred := st.pred, curTy := ty v, idx := st.idx + 1 } := by
        cases lc <;>
          simp [ColSt.push, MBuilder.addValue, hcur, hwv, MBuilder.commitValue, hidx, hty]
      obtain ⟨st', h1, h2, h3, h4, h5, h6, h7⟩ := ih v (st.push lc v) (by rw [hp])
        (by rw [hp]) (by rw [hp]; simp) (by rw [hp]; intro j hj; have := hno j hj; simp; omega)
      rw [hp] at h1 h2 h4 h5 h6 h7
      refine ⟨st', by rw [hp]; exact h1, ?_, h3, by simp at h4 ⊢; omega, h5, fun hl => ?_,
        fun hl => ?_⟩
      · rw [h2]; simp [uniq, hwv]
      · simpa [hl] using h6 hl
      · have := h7 hl
        simpa [changes, uniq, hwv, hl] using this

/-- the first value of a block after its boundary has been handled, and the rest of it -/
theorem step_block (lastInt : List Nat) (lastTys : List Ty) (lc : Bool) (v : α) (vs : List α)
    (st st₁ : ColSt α) (hb : st.boundary lastInt lastTys = some st₁)
    (hcur : st₁.builder.cur = none)
    (hno : ∀ j, lastInt[st₁.pred]? = some j → st₁.idx + (vs.length + 1) ≤ j) :
    ∃ st', (v :: vs).foldlM (ColSt.step lastInt lastTys lc) st = some st' ∧
      st'.builder.commitValue.layer = (uniq (v :: vs)).foldl Layer.addValue st₁.builder.layer ∧
      st'.builder.cur.isSome ∧
      st'.idx = st₁.idx + (vs.length + 1) ∧ st'.pred = st₁.pred ∧
      (lc = true → st'.curInt = st₁.curInt ∧ st'.curTys = st₁.curTys) ∧
      (lc = false → st'.curInt = st₁.curInt ++ (if 0 < st₁.idx then [st₁.idx] else []) ++
          changes (st₁.idx + 1) v vs ∧
        st'.curTys ++ [st'.curTy] = st₁.curTys ++ (if 0 < st₁.idx then [st₁.curTy] else []) ++
          (uniq (v :: vs)).map ty) := by
  rw [List.foldlM_cons]
  simp only [ColSt.step, hb, Option.bind_eq_bind, Option.bind_some]
  have hp : st₁.push lc v =
      { builder := ⟨st₁.builder.layer, some v⟩
        curInt := if lc then st₁.curInt else st₁.curInt ++ (if 0 < st₁.idx then [st₁.idx] else [])
        curTys := if lc then st₁.curTys else st₁.curTys ++ (if 0 < st₁.idx then [st₁.curTy] else [])
        pred := st₁.pred, curTy := ty v, idx := st₁.idx + 1 } := by
    cases lc <;> by_cases h0 : 0 < st₁.idx <;>
      simp [ColSt.push, MBuilder.addValue, hcur, h0]
  obtain ⟨st', h1, h2, h3, h4, h5, h6, h7⟩ := step_inner lastInt lastTys lc vs v (st₁.push lc v)
    (by rw [hp]) (by rw [hp]) (by rw [hp]; simp)
    (by rw [hp]; intro j hj; have := hno j hj; simp; omega)
  rw [hp] at h1 h2 h4 h5 h6 h7
  refine ⟨st', by rw [hp]; exact h1, h2, h3, by simp at h4; omega, h5, fun hl => ?_, fun hl => ?_⟩
  · simpa [hl] using h6 hl
  · have := h7 hl
    simpa [hl] using this

/-- positions at which a new group of equal values starts, in blocks starting at `o` -/
def groupStarts : Nat → List (List α) → List Nat
  | _, [] => []
  | o, [] :: bs => groupStarts o bs
  | o, (v :: vs) :: bs => o :: changes (o + 1) v vs ++ groupStarts (o + vs.length + 1) bs

/-- the effect of the blocks on a layer -/
def runBlocks (l : Layer α) (bs : List (Ty × List α)) : Layer α :=
  bs.foldl (fun l g => ((uniq g.2).foldl Layer.addValue l).finishAll g.1) l

theorem offsets_ge {β : Type} {o : Nat} {bs : List (List β)} {j : Nat} (h : j ∈ offsets o bs) :
    o ≤ j := by
  induction bs generalizing o with
  | nil => simp [offsets] at h
  | cons b bs ih =>
    simp only [offsets, List.mem_cons] at h
    rcases h with h | h
    · omega
    · have := ih h; omega

/-- all blocks after the first -/
theorem step_blocks (lastInt : List Nat) (lastTys : List Ty) (lc : Bool) (bs : List (Ty × List α))
    (σ : Ty) (st : ColSt α) (hne : ∀ b ∈ bs, b.2 ≠ []) (hidx : 0 < st.idx)
    (hint : lastInt.drop st.pred = offsets st.idx (bs.map (·.2)))
    (htys : lastTys.drop st.pred = σ :: bs.map (·.1)) :
    ∃ st', (bs.flatMap (·.2)).foldlM (ColSt.step lastInt lastTys lc) st = some st' ∧
      (∃ ρ, lastTys.getLast? = some ρ ∧ (st'.builder.finishInterval ρ).layer =
        runBlocks (st.builder.finishInterval σ).layer bs) ∧
      (lc = false → st'.curInt = st.curInt ++ groupStarts st.idx (bs.map (·.2)) ∧
        st'.curTys ++ [st'.curTy] = st.curTys ++ [st.curTy] ++
          bs.flatMap (fun b => (uniq b.2).map ty)) := by
  induction bs generalizing σ st with
  | nil =>
    refine ⟨st, rfl, ⟨σ, ?_, rfl⟩, fun _ => by simp [groupStarts]⟩
    have : lastTys.getLast? = (lastTys.drop st.pred).getLast? := by
      rw [List.getLast?_drop, if_neg]
      intro h
      rw [List.drop_eq_nil_of_le h] at htys
      cases htys
    rw [this, htys]; rfl
  | cons b bs ih =>
    obtain ⟨ρ, vals⟩ := b
    cases vals with
    | nil => exact absurd rfl (hne (ρ, []) (by simp))
    | cons v vs =>
      have h0 : lastInt[st.pred]? = some st.idx := by
        have := congrArg List.head? hint
        simpa [List.head?_drop, offsets] using this
      have h1 : lastTys[st.pred]? = some σ := by
        have := congrArg List.head? htys
        simpa [List.head?_drop] using this
      have hint' : lastInt.drop (st.pred + 1) = offsets (st.idx + (vs.length + 1)) (bs.map (·.2)) := by
        have := congrArg List.tail hint
        simpa [offsets, List.tail_drop] using this
      have htys' : lastTys.drop (st.pred + 1) = ρ :: bs.map (·.1) := by
        have := congrArg List.tail htys
        simpa [List.tail_drop] using this
      have hb : st.boundary lastInt lastTys = some { st with
          builder := st.builder.finishInterval σ, pred := st.pred + 1 } := by
        simp [ColSt.boundary, h0, h1]
      obtain ⟨s1, a1, a2, a3, a4, a5, a6, a7⟩ := step_block lastInt lastTys lc v vs st _ hb rfl
        (by
          intro j hj
          have : j ∈ lastInt.drop (st.pred + 1) := by
            rw [List.mem_iff_getElem?]; exact ⟨0, by simpa using hj⟩
          rw [hint'] at this
          exact offsets_ge this)
      obtain ⟨st', b1, ⟨ρ', b2, b3⟩, b4⟩ := ih ρ s1 (fun b hb => hne b (by simp [hb]))
        (by rw [a4]; exact Nat.add_pos_right _ (Nat.succ_pos _)) (by rw [a4, a5]; exact hint')
        (by rw [a5]; exact htys')
      refine ⟨st', ?_, ⟨ρ', b2, ?_⟩, fun hl => ?_⟩
      · rw [List.flatMap_cons, List.foldlM_append, a1]; exact b1
      · rw [b3]
        simp only [runBlocks, List.foldl_cons]
        congr 1
        simp only [MBuilder.finishInterval, a2]
      · obtain ⟨c1, c2⟩ := a7 hl
        obtain ⟨d1, d2⟩ := b4 hl
        simp only [hidx, if_true] at c1 c2
        refine ⟨?_, ?_⟩
        · rw [d1, c1, a4]
          simp [groupStarts, Nat.add_assoc]
        · rw [d2, c2]; simp

/-- one column -/
theorem columnPass_spec (first lc : Bool) (lastInt : List Nat) (lastTys : List Ty)
    (b : Ty × List α) (bs : List (Ty × List α)) (hne : ∀ x ∈ b :: bs, x.2 ≠ [])
    (hint : lastInt = offsets b.2.length (bs.map (·.2)))
    (htys : lastTys = b.1 :: bs.map (·.1) ∨ (first = true ∧ bs = [])) :
    ∃ bld i t, columnPass first lc lastInt lastTys ((b :: bs).flatMap (·.2)) =
        some (bld, i, t) ∧
      (first = false → bld.layer = runBlocks Layer.empty (b :: bs)) ∧
      (first = true → bs = [] → bld.layer = (uniq b.2).foldl Layer.addValue Layer.empty) ∧
      (lc = false → i = (groupStarts 0 ((b :: bs).map (·.2))).tail ∧
        t = (b :: bs).flatMap (fun b => (uniq b.2).map ty)) := by
  obtain ⟨σ, vals⟩ := b
  cases vals with
  | nil => exact absurd rfl (hne (σ, []) (by simp))
  | cons v vs =>
    simp only [List.length_cons] at hint
    have hb : ColSt.boundary lastInt lastTys ({} : ColSt α) = some {} := by
      unfold ColSt.boundary
      rw [if_neg]; · rfl
      intro h
      have : (0 : Nat) ∈ lastInt := List.mem_of_getElem? h
      rw [hint] at this
      have := offsets_ge this
      omega
    obtain ⟨s1, a1, a2, a3, a4, a5, a6, a7⟩ := step_block lastInt lastTys lc v vs {} {} hb rfl
      (by
        intro j hj
        have : j ∈ lastInt := List.mem_of_getElem? hj
        rw [hint] at this
        have := offsets_ge this
        simpa using this)
    simp only [lt_irrefl, if_false, List.append_nil, List.nil_append, Nat.zero_add] at a4 a7
    have a5' : s1.pred = 0 := a5
    by_cases hbs : bs = [] ∧ first = true
    · obtain ⟨rfl, rfl⟩ := hbs
      refine ⟨s1.builder.commitValue, s1.curInt, if lc then s1.curTys else s1.curTys ++ [s1.curTy],
        ?_, by simp, fun _ _ => ?_, fun hl => ?_⟩
      · simp [columnPass, a1]
      · simpa using a2
      · obtain ⟨c1, c2⟩ := a7 hl
        simp [groupStarts, c1, hl, c2]
    · have htys' : lastTys = σ :: bs.map (·.1) := by
        rcases htys with h | h
        · exact h
        · exact absurd ⟨h.2, h.1⟩ hbs
      obtain ⟨st', b1, ⟨ρ', b2, b3⟩, b4⟩ := step_blocks lastInt lastTys lc bs σ s1
        (fun b hb => hne b (by simp [hb])) (by rw [a4]; simp)
        (by rw [a4, a5']; exact hint) (by rw [a5']; exact htys')
      have hrun : (((σ, v :: vs) :: bs).flatMap (·.2)).foldlM (ColSt.step lastInt lastTys lc) {} =
          some st' := by
        rw [List.flatMap_cons, List.foldlM_append, a1]; exact b1
      have hT : lc = false → st'.curInt = (groupStarts 0 (((σ, v :: vs) :: bs).map (·.2))).tail ∧
          st'.curTys ++ [st'.curTy] =
            ((σ, v :: vs) :: bs).flatMap (fun b => (uniq b.2).map ty) := by
        intro hl
        obtain ⟨c1, c2⟩ := a7 hl
        obtain ⟨d1, d2⟩ := b4 hl
        refine ⟨?_, ?_⟩
        · rw [d1, c1, a4]; simp [groupStarts]
        · rw [d2, c2]; simp
      cases first with
      | true =>
        refine ⟨st'.builder.commitValue, st'.curInt,
          if lc then st'.curTys else st'.curTys ++ [st'.curTy], ?_, by simp,
          fun _ hb => absurd ⟨hb, rfl⟩ hbs, fun hl => ?_⟩
        · simp only [columnPass, hrun, Option.bind_eq_bind, Option.bind_some, if_true]; rfl
        · obtain ⟨c1, c2⟩ := hT hl
          exact ⟨c1, by rw [hl]; simpa using c2⟩
      | false =>
        refine ⟨st'.builder.finishInterval ρ', st'.curInt,
          if lc then st'.curTys else st'.curTys ++ [st'.curTy], ?_, fun _ => ?_, by simp,
          fun hl => ?_⟩
        · simp only [columnPass, hrun, Option.bind_eq_bind, Option.bind_some, b2]; rfl
        · rw [b3]
          simp only [runBlocks, List.foldl_cons]
          congr 1
          simp only [MBuilder.finishInterval, a2]
        · obtain ⟨c1, c2⟩ := hT hl
          exact ⟨c1, by rw [hl]; simpa using c2⟩


/-! ### The blocks of a column -/

theorem flatMap_congr' {β γ : Type} {l : List β} {f g : β → List γ} (h : ∀ a ∈ l, f a = g a) :
    l.flatMap f = l.flatMap g := by
  rw [List.flatMap_def, List.flatMap_def, List.map_congr_left h]

/-- the first values -/
def heads (n : List (List α)) : List α := n.filterMap List.head?

theorem tails_eq_nil {n : List (List α)} {a : α} (h : ∀ r ∈ n, ∀ b ∈ r.head?, a ≠ b) :
    tails a n = [] := by
  rw [List.eq_nil_iff_forall_not_mem]
  intro r hr
  exact h _ (mem_tails.mp hr) a rfl rfl

theorem tails_cons_self (a : α) (t : List α) (n : List (List α)) :
    tails a ((a :: t) :: n) = t :: tails a n := by simp [tails]

theorem tails_cons_ne {a b : α} (t : List α) (n : List (List α)) (h : b ≠ a) :
    tails a ((b :: t) :: n) = tails a n := by simp [tails, h]

/-- A sorted block of non-empty rows is the concatenation of its sub-blocks. -/
theorem flatMap_tails {n : List (List α)} (hs : SortedRows n) (hne : ∀ r ∈ n, r ≠ []) :
    (keys n).flatMap (fun a => tails a n) = n.map List.tail ∧
    ∀ a ∈ keys n, tails a n ≠ [] := by
  refine ⟨?_, fun a ha => ?_⟩
  · induction n with
    | nil => rfl
    | cons r n ih =>
      have hs' := List.pairwise_cons.mp hs
      have ih' := ih hs'.2 (fun r hr => hne r (by simp [hr]))
      cases r with
      | nil => exact absurd rfl (hne [] (by simp))
      | cons x t =>
        have hge : ∀ b ∈ keys n, x ≤ b := by
          intro b hb
          obtain ⟨r, hr⟩ := mem_keys.mp hb
          rcases cons_le_cons_iff'.mp (hs'.1 _ hr) with h | h
          · exact h.le
          · exact h.1.le
        have hasc := keys_asc hs'.2
        by_cases hx : x ∈ keys n
        · -- the first key of the rest is `x`
          have hk : keys ((x :: t) :: n) = keys n := by
            unfold keys
            rw [List.filterMap_cons]
            simp only [List.head?_cons]
            cases hn : n.filterMap List.head? with
            | nil => simp [keys, hn, uniq] at hx
            | cons y l =>
              have : x = y := by
                have h1 : y ∈ keys n := by unfold keys; rw [mem_uniq, hn]; simp
                have h2 := hge y h1
                have h3 : y ≤ x := by
                  have hp := sorted_heads hs'.2
                  rw [hn] at hp
                  unfold keys at hx
                  rw [mem_uniq, hn] at hx
                  rcases List.mem_cons.mp hx with e | e
                  · exact e.ge
                  · exact (List.pairwise_cons.mp hp).1 x e
                exact le_antisymm h2 h3
              subst this
              simp [uniq]
          rw [hk, List.map_cons, ← ih']
          cases hkn : keys n with
          | nil => rw [hkn] at hx; simp at hx
          | cons y l =>
            have hy : x = y := by
              rw [hkn] at hx hge hasc
              rcases List.mem_cons.mp hx with e | e
              · exact e
              · exact absurd ((asc_cons.mp hasc).1 x e) (not_lt.mpr (hge y (by simp)))
            subst hy
            rw [List.flatMap_cons, List.flatMap_cons, tails_cons_self]
            simp only [List.tail_cons, List.cons_append]
            congr 2
            refine flatMap_congr' fun a ha => ?_
            rw [hkn] at hasc
            exact tails_cons_ne _ _ ((asc_cons.mp hasc).1 a ha).ne
        · have hk : keys ((x :: t) :: n) = x :: keys n := by
            unfold keys
            rw [List.filterMap_cons]
            simp only [List.head?_cons]
            cases hn : n.filterMap List.head? with
            | nil => simp [uniq]
            | cons y l =>
              have : x ≠ y := by
                rintro rfl
                exact hx (by unfold keys; rw [mem_uniq, hn]; simp)
              simp [uniq, this]
          have h0 : tails x n = [] := tails_eq_nil fun r hr b hb => by
            rintro rfl
            cases r with
            | nil => simp at hb
            | cons c r =>
              simp at hb; subst hb
              exact hx (mem_keys.mpr ⟨r, hr⟩)
          rw [hk, List.flatMap_cons, tails_cons_self, h0, List.map_cons, ← ih']
          simp only [List.tail_cons, List.cons_append, List.nil_append]
          congr 1
          refine flatMap_congr' fun a ha => ?_
          refine tails_cons_ne _ _ ?_
          rintro rfl
          exact hx ha
  · obtain ⟨r, hr⟩ := mem_keys.mp ha
    intro h
    have := mem_tails.mpr hr
    rw [h] at this; simp at this

theorem length_subs {rows : List (List α)} {m : Nat} (hl : ∀ r ∈ rows, r.length = m) {p r : List α}
    (h : r ∈ subs rows p) : p.length + r.length = m := by
  have := hl _ (mem_subs.mp h)
  simpa using this

theorem length_level {rows : List (List α)} {k : Nat} {p : List α} (h : p ∈ level rows k) :
    p.length = k := by
  induction k generalizing p with
  | zero => simp [level] at h; simp [h]
  | succ k ih =>
    simp only [level, List.mem_flatMap, List.mem_map] at h
    obtain ⟨q, hq, a, _, rfl⟩ := h
    simp [ih hq]

/-- the blocks of the nodes of a level, one after the other, are all rows -/
theorem level_blocks {rows : List (List α)} {m : Nat} (hs : SortedRows rows)
    (hl : ∀ r ∈ rows, r.length = m) {k : Nat} (hk : k ≤ m) :
    (level rows k).flatMap (subs rows) = rows.map (List.drop k) := by
  induction k with
  | zero =>
    have : (List.drop 0 : List α → List α) = id := by funext l; simp
    simp [level, subs, this]
  | succ k ih =>
    have ih' := ih (by omega)
    have h1 : rows.map (List.drop (k + 1)) = (rows.map (List.drop k)).map List.tail := by
      simp [List.tail_drop]
    rw [h1, ← ih', level, List.flatMap_assoc, List.map_flatMap]
    refine flatMap_congr' fun p hp => ?_
    rw [← (flatMap_tails (sorted_subs hs p) ?_).1, List.flatMap_map]
    · refine flatMap_congr' fun a _ => ?_
      rw [subs_append]; rfl
    · intro r hr
      have h2 := length_subs hl hr
      have h3 := length_level hp
      intro e; subst e; simp at h2; omega

theorem subs_ne_nil {rows : List (List α)} (hr : rows ≠ []) {k : Nat} {p : List α}
    (hp : p ∈ level rows k) : subs rows p ≠ [] := by
  cases k with
  | zero => simp [level] at hp; subst hp; simpa [subs] using hr
  | succ k =>
    simp only [level, List.mem_flatMap, List.mem_map] at hp
    obtain ⟨q, hq, a, ha, rfl⟩ := hp
    obtain ⟨r, hr⟩ := mem_keys.mp ha
    rw [subs_append]
    intro h
    have := mem_tails.mpr hr
    change r ∈ tails a (subs rows q) at this
    have h' : subs (subs rows q) [a] = tails a (subs rows q) := rfl
    rw [h'] at h
    rw [h] at this; simp at this

theorem heads_eq {n : List (List α)} (hne : ∀ r ∈ n, r ≠ []) : (heads n).length = n.length := by
  induction n with
  | nil => rfl
  | cons r n ih =>
    cases r with
    | nil => exact absurd rfl (hne [] (by simp))
    | cons a r =>
      have := ih (fun r hr => hne r (by simp [hr]))
      simp only [heads, List.filterMap_cons, List.head?_cons, List.length_cons] at this ⊢
      omega

/-- the values of a column, block by block -/
theorem column_blocks {rows : List (List α)} {m : Nat} (hs : SortedRows rows)
    (hl : ∀ r ∈ rows, r.length = m) {k : Nat} (hk : k ≤ m) :
    (level rows k).flatMap (fun p => heads (subs rows p)) = rows.filterMap (·[k]?) := by
  have := congrArg (List.filterMap List.head?) (level_blocks hs hl hk)
  rw [List.filterMap_map, List.filterMap_flatMap] at this
  simpa [heads, List.head?_drop, Function.comp_def] using this

/-- group starts in a sorted block are the starts of its sub-blocks -/
theorem groupStarts_block {n : List (List α)} (hs : SortedRows n) (hne : ∀ r ∈ n, r ≠ [])
    (o : Nat) (bs : List (List α)) :
    groupStarts o (heads n :: bs) =
      offsets o ((keys n).map fun a => tails a n) ++ groupStarts (o + n.length) bs := by
  have hlen := heads_eq hne
  -- statement for a block with a given first value
  have key : ∀ (n : List (List α)), SortedRows n → (∀ r ∈ n, r ≠ []) → ∀ o w vs, heads n = w :: vs →
      o :: changes (o + 1) w vs = offsets o ((keys n).map fun a => tails a n) := by
    intro n
    induction n with
    | nil => intro _ _ o w vs h; simp [heads] at h
    | cons r n ih =>
      intro hs hne o w vs h
      cases r with
      | nil => exact absurd rfl (hne [] (by simp))
      | cons x t =>
        have hs' := List.pairwise_cons.mp hs
        have hh : heads ((x :: t) :: n) = x :: heads n := by simp [heads]
        rw [hh] at h
        obtain ⟨e1, rfl⟩ := List.cons.inj h
        subst e1
        cases hn : heads n with
        | nil =>
          have hn0 : n = [] := by
            cases n with
            | nil => rfl
            | cons r n =>
              cases r with
              | nil => exact absurd rfl (hne [] (by simp))
              | cons a r => simp [heads] at hn
          subst hn0
          simp [changes, keys, uniq, offsets]
        | cons y l =>
          have ih' := ih hs'.2 (fun r hr => hne r (by simp [hr])) (o + 1) y l hn
          have hkeys : keys n = uniq (y :: l) := by unfold keys; rw [← hn]; rfl
          have hkeys' : keys ((x :: t) :: n) = uniq (x :: y :: l) := by
            unfold keys
            rw [← hn]
            simp [heads]
          have hyk : y ∈ keys n := by rw [hkeys, mem_uniq]; simp
          have hasc := keys_asc hs'.2
          obtain ⟨K, hK⟩ : ∃ K, keys n = y :: K := by
            have hp := sorted_heads hs'.2
            change (heads n).Pairwise (· ≤ ·) at hp
            rw [hn] at hp
            cases hkn : keys n with
            | nil => rw [hkn] at hyk; simp at hyk
            | cons z K =>
              have hz : z ∈ keys n := by rw [hkn]; simp
              rw [hkeys, mem_uniq] at hz
              have hyz : y ≤ z := by
                rcases List.mem_cons.mp hz with e | e
                · exact e.ge
                · exact (List.pairwise_cons.mp hp).1 z e
              rw [hkn] at hasc hyk
              rcases List.mem_cons.mp hyk with e | e
              · exact ⟨K, by rw [e]⟩
              · exact absurd ((asc_cons.mp hasc).1 y e) (not_lt.mpr hyz)
          by_cases hxy : x = y
          · subst hxy
            have hk2 : keys ((x :: t) :: n) = x :: K := by
              rw [hkeys', uniq, if_pos rfl, ← hkeys, hK]
            rw [hk2, List.map_cons, offsets, changes, if_pos rfl]
            rw [hK, List.map_cons, offsets] at ih'
            congr 1
            have ih2 := (List.cons.inj ih').2
            rw [ih2, tails_cons_self, List.length_cons]
            rw [hK] at hasc
            have : (K.map fun a => tails a ((x :: t) :: n)) = K.map fun a => tails a n :=
              List.map_congr_left fun a ha => tails_cons_ne _ _ ((asc_cons.mp hasc).1 a ha).ne
            rw [this]
            congr 1; omega
          · have hk2 : keys ((x :: t) :: n) = x :: keys n := by
              rw [hkeys', uniq, if_neg hxy, ← hkeys]
            have hxk : x ∉ keys n := by
              intro hx
              have hge : x ≤ y := by
                obtain ⟨r, hr⟩ := mem_keys.mp hyk
                rcases cons_le_cons_iff'.mp (hs'.1 _ hr) with h | h
                · exact h.le
                · exact h.1.le
              rw [hK] at hx hasc
              rcases List.mem_cons.mp hx with e | e
              · exact hxy e
              · exact absurd ((asc_cons.mp hasc).1 x e) (not_lt.mpr hge)
            have h0 : tails x n = [] := tails_eq_nil fun r hr b hb => by
              rintro rfl
              cases r with
              | nil => simp at hb
              | cons c r =>
                simp at hb; subst hb
                exact hxk (mem_keys.mpr ⟨r, hr⟩)
            rw [hk2, List.map_cons, offsets, changes, if_neg hxy, tails_cons_self, h0, ih']
            have : ((keys n).map fun a => tails a ((x :: t) :: n)) =
                (keys n).map fun a => tails a n :=
              List.map_congr_left fun a ha => tails_cons_ne _ _ (by rintro rfl; exact hxk ha)
            rw [this]; rfl
  cases hn : heads n with
  | nil =>
    rw [hn] at hlen
    have : n = [] := List.length_eq_zero_iff.mp hlen.symm
    subst this
    simp [groupStarts, keys, uniq, offsets]
  | cons w vs =>
    have hk := key n hs hne o w vs hn
    rw [groupStarts, hk]
    rw [hn] at hlen
    rw [← hlen]
    simp [Nat.add_assoc]

theorem offsets_append {β : Type} (o : Nat) (a b : List (List β)) :
    offsets o (a ++ b) = offsets o a ++ offsets (o + a.flatten.length) b := by
  induction a generalizing o with
  | nil => simp [offsets]
  | cons x a ih => simp [offsets, ih, Nat.add_assoc]

theorem offsets_length_congr {β γ : Type} (o : Nat) (a : List (List β)) (b : List (List γ))
    (h : a.map List.length = b.map List.length) : offsets o a = offsets o b := by
  induction a generalizing o b with
  | nil => cases b with
    | nil => rfl
    | cons y b => simp at h
  | cons x a ih =>
    cases b with
    | nil => simp at h
    | cons y b =>
      simp only [List.map_cons, List.cons.injEq] at h
      simp [offsets, h.1, ih _ b h.2]

/-- group starts of all blocks of a level are the starts of the blocks of the next level -/
theorem groupStarts_level {rows : List (List α)} {m : Nat} (hs : SortedRows rows)
    (hl : ∀ r ∈ rows, r.length = m) {k : Nat} (hk : k < m) :
    groupStarts 0 ((level rows k).map fun p => heads (subs rows p)) =
      offsets 0 ((level rows (k + 1)).map (subs rows)) := by
  have key : ∀ (T : List (List α)) (o : Nat), (∀ p ∈ T, p.length = k) →
      groupStarts o (T.map fun p => heads (subs rows p)) =
      offsets o ((T.flatMap fun p => (keys (subs rows p)).map fun a => p ++ [a]).map (subs rows)) := by
    intro T
    induction T with
    | nil => intro o _; rfl
    | cons p T ih =>
      intro o hT
      have hne : ∀ r ∈ subs rows p, r ≠ [] := by
        intro r hr e
        have h2 := length_subs hl hr
        have h3 := hT p (by simp)
        subst e; simp at h2; omega
      rw [List.map_cons, groupStarts_block (sorted_subs hs p) hne,
        ih _ (fun q hq => hT q (by simp [hq])), List.flatMap_cons, List.map_append, offsets_append]
      have e : ((keys (subs rows p)).map fun a => p ++ [a]).map (subs rows) =
          (keys (subs rows p)).map fun a => tails a (subs rows p) := by
        rw [List.map_map]
        refine List.map_congr_left fun a _ => ?_
        simp only [Function.comp, subs_append]; rfl
      rw [e]
      congr 2
      have := congrArg List.length (flatMap_tails (sorted_subs hs p) hne).1
      rw [List.flatMap_def] at this
      rw [this]; simp
  exact key _ 0 (fun p hp => length_level hp)

/-- the blocks of a level as input of `columnPass` -/
def blocksOf (rows : List (List α)) (k : Nat) : List (Ty × List α) :=
  (level rows k).map fun p => (lastTy p, heads (subs rows p))

theorem runBlocks_blocksOf (rows T : List (List α)) (l : Layer α) :
    runBlocks l (T.map fun p => (lastTy p, heads (subs rows p))) =
      (gen rows T).foldl (fun l g => (g.2.foldl Layer.addValue l).finishAll g.1) l := by
  induction T generalizing l with
  | nil => rfl
  | cons p T ih =>
    simp only [List.map_cons, runBlocks, List.foldl_cons, gen] at ih ⊢
    rw [ih]; rfl

theorem level_ne_nil {rows : List (List α)} {m : Nat} (hr : rows ≠ [])
    (hl : ∀ r ∈ rows, r.length = m) {k : Nat} (hk : k ≤ m) : level rows k ≠ [] := by
  induction k with
  | zero => simp [level]
  | succ k ih =>
    obtain ⟨p, hp⟩ := List.exists_mem_of_ne_nil _ (ih (by omega))
    obtain ⟨r, hr'⟩ := List.exists_mem_of_ne_nil _ (subs_ne_nil hr hp)
    have h2 := length_subs hl hr'
    have h3 := length_level hp
    cases r with
    | nil => simp at h2; omega
    | cons a r =>
      intro h
      have : p ++ [a] ∈ level rows (k + 1) := by
        simp only [level, List.mem_flatMap, List.mem_map]
        exact ⟨p, hp, a, mem_keys.mpr ⟨r, hr'⟩, rfl⟩
      rw [h] at this; simp at this

/-- types of the next level -/
theorem types_level (rows : List (List α)) (k : Nat) :
    (blocksOf rows k).flatMap (fun b => (uniq b.2).map ty) = (level rows (k + 1)).map lastTy := by
  rw [blocksOf, List.flatMap_map, level, List.map_flatMap]
  refine flatMap_congr' fun p _ => ?_
  simp [keys, heads, lastTy_append, Function.comp_def]

theorem columnLoop_spec {rows : List (List α)} {m : Nat} (hr : rows ≠ []) (hs : SortedRows rows)
    (hl : ∀ r ∈ rows, r.length = m) (n k : Nat) (hk : k + n = m) (lastInt : List Nat)
    (lastTys : List Ty) (hint : lastInt = (offsets 0 ((level rows k).map (subs rows))).tail)
    (htys : k ≠ 0 → lastTys = (level rows k).map lastTy) :
    ∃ cols, columnLoop rows k n lastInt lastTys = some cols ∧ cols.length = n ∧
      ∀ i l, cols[i]? = some l →
        (k + i ≠ 0 → l = (buildRaw (gen rows (level rows (k + i)))).finalizeAll) ∧
        (∀ τ, (l τ).data = allKeys τ (gen rows (level rows (k + i)))) := by
  induction n generalizing k lastInt lastTys with
  | zero => exact ⟨[], rfl, rfl, by simp⟩
  | succ n ih =>
    have hkm : k < m := by omega
    have hlev := level_ne_nil hr hl (k := k) (by omega)
    obtain ⟨p, T, hT⟩ : ∃ p T, level rows k = p :: T := by
      cases h : level rows k with
      | nil => exact absurd h hlev
      | cons p T => exact ⟨p, T, rfl⟩
    have hrow : ∀ p ∈ level rows k, ∀ r ∈ subs rows p, r ≠ [] := by
      intro p hp r hr' e
      have h2 := length_subs hl hr'
      have h3 := length_level hp
      subst e; simp at h2; omega
    have hlen : ∀ p ∈ level rows k, (heads (subs rows p)).length = (subs rows p).length :=
      fun p hp => heads_eq (hrow p hp)
    have hB : blocksOf rows k = (lastTy p, heads (subs rows p)) ::
        T.map fun p => (lastTy p, heads (subs rows p)) := by rw [blocksOf, hT]; rfl
    obtain ⟨bld, i, t, e1, e2, e3, e4⟩ := columnPass_spec (k == 0) (n == 0) lastInt lastTys
      (lastTy p, heads (subs rows p)) (T.map fun p => (lastTy p, heads (subs rows p)))
      (by
        rw [← hB]
        intro x hx
        simp only [blocksOf, List.mem_map] at hx
        obtain ⟨q, hq, rfl⟩ := hx
        intro h
        have := hlen q hq
        change heads (subs rows q) = [] at h
        rw [h] at this
        exact subs_ne_nil hr hq (List.length_eq_zero_iff.mp this.symm))
      (by
        rw [hint, hT, List.map_cons, offsets, List.tail_cons, Nat.zero_add,
          ← hlen p (by rw [hT]; simp)]
        refine offsets_length_congr _ _ _ ?_
        simp only [List.map_map]
        refine List.map_congr_left fun q hq => ?_
        exact (hlen q (by rw [hT]; simp [hq])).symm)
      (by
        by_cases h0 : k = 0
        · subst h0
          right
          simp only [level] at hT
          cases hT
          simp
        · left
          rw [htys h0, hT]; simp)
    rw [← hB] at e1 e2 e4
    have hcol : (blocksOf rows k).flatMap (·.2) = rows.filterMap (·[k]?) := by
      rw [blocksOf, List.flatMap_map]; exact column_blocks hs hl (by omega)
    rw [hcol] at e1
    have hrest : ∃ cols, columnLoop rows (k + 1) n i t = some cols ∧ cols.length = n ∧
        ∀ j l, cols[j]? = some l →
        (k + 1 + j ≠ 0 → l = (buildRaw (gen rows (level rows (k + 1 + j)))).finalizeAll) ∧
        (∀ τ, (l τ).data = allKeys τ (gen rows (level rows (k + 1 + j)))) := by
      cases n with
      | zero => exact ⟨[], rfl, rfl, by simp⟩
      | succ n =>
        obtain ⟨f1, f2⟩ := e4 (by simp)
        refine ih (k + 1) (by omega) i t ?_ ?_
        · rw [f1]
          congr 1
          rw [← groupStarts_level hs hl hkm, blocksOf, List.map_map]
          rfl
        · intro _
          rw [f2, types_level]
    obtain ⟨cols, c1, c2, c3⟩ := hrest
    refine ⟨bld.finalize :: cols, ?_, by simp [c2], ?_⟩
    · simp only [columnLoop, e1, Option.bind_eq_bind, Option.bind_some, c1]; rfl
    · intro j l hj
      cases j with
      | succ j =>
        have := c3 j l (by simpa using hj)
        rw [show k + 1 + j = k + (j + 1) by omega] at this
        exact this
      | zero =>
        simp only [List.getElem?_cons_zero, Option.some.injEq] at hj
        subst hj
        simp only [Nat.add_zero]
        by_cases h0 : k = 0
        · subst h0
          refine ⟨fun h => absurd rfl h, fun τ => ?_⟩
          simp only [level] at hT
          cases hT
          have := e3 (by simp) rfl
          simp only [MBuilder.finalize, Layer.finalizeAll, ICol.finalize]
          rw [this, foldl_addValue_data]
          simp only [Layer.empty, level, gen, allKeys, subs, keys, heads]
          simp
        · have := e2 (by simpa using h0)
          have hlay : bld.layer = buildRaw (gen rows (level rows k)) := by
            rw [this, buildRaw, ← runBlocks_blocksOf]; rfl
          refine ⟨fun _ => by rw [MBuilder.finalize, hlay], fun τ => ?_⟩
          rw [MBuilder.finalize, hlay, finalize_data]

theorem columnLoop_nil (n k : Nat) (lastInt : List Nat) (lastTys : List Ty)
    (htys : k ≠ 0 → n ≠ 0 → lastTys ≠ []) :
    ∃ cols, columnLoop ([] : List (List α)) k n lastInt lastTys = some cols ∧ cols.length = n ∧
      ∀ l ∈ cols, ∀ τ, (l τ).data = [] := by
  induction n generalizing k lastInt lastTys with
  | zero => exact ⟨[], rfl, rfl, by simp⟩
  | succ n ih =>
    have hpass : ∃ bld i t, columnPass (k == 0) (n == 0) lastInt lastTys ([] : List α) =
        some (bld, i, t) ∧ (∀ τ, (bld.layer τ).data = []) ∧ (n ≠ 0 → t ≠ []) := by
      by_cases h0 : k = 0
      · subst h0
        refine ⟨_, _, _, rfl, fun τ => rfl, fun hn => ?_⟩
        simp [hn]
      · obtain ⟨ρ, hρ⟩ : ∃ ρ, lastTys.getLast? = some ρ := by
          have := htys h0 (by simp)
          exact ⟨_, List.getLast?_eq_some_getLast this⟩
        refine ⟨_, _, _, by simp [columnPass, h0, hρ]; exact ⟨rfl, rfl, rfl⟩, fun τ => ?_, fun hn => ?_⟩
        · simp [MBuilder.finishInterval, Layer.finishAll, ICol.finishInterval, MBuilder.commitValue,
            Layer.empty]
        · simp [hn]
    obtain ⟨bld, i, t, e1, e2, e3⟩ := hpass
    obtain ⟨cols, c1, c2, c3⟩ := ih (k + 1) i t (fun _ => e3)
    refine ⟨bld.finalize :: cols, ?_, by simp [c2], ?_⟩
    · simp only [columnLoop, List.filterMap_nil, e1, Option.bind_eq_bind, Option.bind_some, c1]; rfl
    · intro l hl τ
      rcases List.mem_cons.mp hl with rfl | hl
      · exact e2 τ
      · exact c3 l hl τ

theorem level_nil (k : Nat) : level ([] : List (List α)) (k + 1) = [] := by
  induction k with
  | zero => simp [level, subs, keys, uniq]
  | succ k ih => rw [level, ih]; rfl

/-- Building a trie from a sorted buffer succeeds and the trie represents the rows. -/
theorem Trie.fromSorted_rep {rows : List (List α)} {m : Nat} (hs : SortedRows rows)
    (hl : ∀ r ∈ rows, r.length = m) :
    ∃ t, Trie.fromSorted m rows = some t ∧ t.arity = m ∧ Rep t rows ∧ t.emptyRow = false := by
  by_cases hr : rows = []
  · subst hr
    obtain ⟨cols, c1, c2, c3⟩ := columnLoop_nil (α := α) m 0 [] [] (fun h => absurd rfl h)
    refine ⟨⟨cols, false⟩, by simp [Trie.fromSorted, c1], c2, ⟨?_, ?_⟩, rfl⟩
    · intro k l τ hk
      rw [c3 l (List.mem_of_getElem? hk) τ]
      cases k with
      | zero => simp [level, gen, allKeys, keysOf, subs, keys, uniq]
      | succ k => rw [level_nil]; rfl
    · intro k l _ h
      exact absurd (level_nil k) h
  · obtain ⟨cols, c1, c2, c3⟩ := columnLoop_spec hr hs hl m 0 (by omega) [] []
      (by simp [level, offsets]) (fun h => absurd rfl h)
    refine ⟨⟨cols, false⟩, by simp [Trie.fromSorted, c1], c2, ⟨?_, ?_⟩, rfl⟩
    · intro k l τ hk
      have := (c3 k l hk).2 τ
      simpa using this
    · intro k l hk _
      have := (c3 (k + 1) l hk).1 (by omega)
      simpa using this

end Verif
