import Verif.IntervalColumn

/-!
# Finding the subtable of a tuple

Model of `TypedTableLookup` (/repo/nemo-physical/src/tabular/buffer/tuple_buffer.rs:133-218): a trie
over sequences of storage types, flattened into one vector of blocks of five entries.
-/

set_option linter.unusedSimpArgs false
set_option linter.unusedSectionVars false

namespace Verif

/-- `lookup_trie` (tuple_buffer.rs:134-144); `NO_SUCCESSOR = usize::MAX` is `none`. -/
abbrev TLookup := List (Option Nat)

namespace TLookup

/-- `new` (tuple_buffer.rs:150-154). -/
def new : TLookup := List.replicate 5 none

/-- The loop of `add_new_lookup_trie_` (tuple_buffer.rs:202-216); writing outside of the vector
panics. -/
def link : TLookup → Nat → Nat → List Ty → Nat → Option TLookup
  | t, _, _, [], _ => some t
  | t, block, _, [τ], id => if block + τ < t.length then some (t.set (block + τ) (some id)) else none
  | t, block, next, τ :: σ :: ts, id =>
    if block + τ < t.length then link (t.set (block + τ) (some next)) next (next + 5) (σ :: ts) id
    else none

/-- `add_new_lookup_trie_` (tuple_buffer.rs:186-217). -/
def addNew (t : TLookup) (missing : List Ty) (block id : Nat) : Option TLookup :=
  link (t ++ List.replicate ((missing.length - 1) * 5) none) block t.length missing id

/-- `subtable_id` (tuple_buffer.rs:160-184), from the block `block`. -/
def subtableIdAt (t : TLookup) (n : Nat) : Nat → List Ty → Option (Option Nat × TLookup)
  | block, [] => some (some block, t)
  | block, τ :: ts => do
    let entry ← t[block + τ]?
    match entry with
    | none =>
      let t ← addNew t (τ :: ts) block n
      return (none, t)
    | some next => subtableIdAt t n next ts

/-- `subtable_id` (tuple_buffer.rs:160-184). -/
def subtableId (t : TLookup) (types : List Ty) (n : Nat) : Option (Option Nat × TLookup) :=
  subtableIdAt t n 0 types

/-! ## Correctness -/

/-- The vector stores the function `M` from type sequences of length at most `m`: sequences shorter
than `m` are mapped to blocks, sequences of length `m` to subtables. -/
structure Stores (t : TLookup) (m : Nat) (M : List Ty → Option Nat) : Prop where
  root : M [] = some 0
  bound : ∀ p b, p.length < m → M p = some b → b + 5 ≤ t.length ∧ 5 ∣ b
  entry : ∀ p b (τ : Ty), p.length < m → M p = some b → t[b + τ]? = some (M (p ++ [τ]))
  inj : ∀ p q b, p.length < m → q.length < m → M p = some b → M q = some b → p = q
  none : ∀ p (τ : Ty), M p = none → M (p ++ [τ]) = none

theorem Stores.none_append {t : TLookup} {m : Nat} {M : List Ty → Option Nat} (h : Stores t m M)
    (p q : List Ty) (hp : M p = Option.none) : M (p ++ q) = Option.none := by
  induction q generalizing p with
  | nil => simpa using hp
  | cons τ q ih =>
    rw [List.append_cons]
    exact ih _ (h.none p τ hp)

theorem block_inj {b b' : Nat} {τ τ' : Ty} (h : 5 ∣ b) (h' : 5 ∣ b') (he : b + τ.val = b' + τ'.val) :
    b = b' ∧ τ = τ' := by
  obtain ⟨c, rfl⟩ := h
  obtain ⟨c', rfl⟩ := h'
  have := τ.isLt
  have := τ'.isLt
  constructor
  · omega
  · exact Fin.ext (by omega)

/-- adding one pointer -/
theorem Stores.set {t : TLookup} {m : Nat} {M : List Ty → Option Nat} (h : Stores t m M)
    {p : List Ty} {b x : Nat} {τ : Ty} (hp : p.length < m) (hb : M p = some b)
    (hn : M (p ++ [τ]) = Option.none)
    (hx : p.length + 1 < m → x + 5 ≤ t.length ∧ 5 ∣ x ∧ (∀ σ : Ty, t[x + σ]? = some Option.none) ∧
      ∀ q, q.length < m → M q ≠ some x) :
    Stores (t.set (b + τ) (some x)) m (Function.update M (p ++ [τ]) (some x)) := by
  have hne : ∀ q : List Ty, q = [] → q ≠ p ++ [τ] := by rintro q rfl; simp
  obtain ⟨hbl, hb5⟩ := h.bound p b hp hb
  have hτ := τ.isLt
  have hpp : ∀ (q : List Ty) (σ : Ty), q ++ [σ] = p ++ [τ] → q = p ∧ σ = τ := by
    intro q σ he
    have := List.append_inj' he rfl
    exact ⟨this.1, by simpa using this.2⟩
  refine ⟨?_, ?_, ?_, ?_, ?_⟩
  · rw [Function.update_of_ne (hne [] rfl)]; exact h.root
  · intro q c hq hc
    rw [List.length_set]
    by_cases hqp : q = p ++ [τ]
    · subst hqp
      simp only [Function.update_self, Option.some.injEq] at hc
      subst hc
      obtain ⟨h1, h2, _⟩ := hx (by simpa using hq)
      exact ⟨h1, h2⟩
    · rw [Function.update_of_ne hqp] at hc; exact h.bound q c hq hc
  · intro q c σ hq hc
    rw [List.getElem?_set]
    by_cases hqp : q = p ++ [τ]
    · subst hqp
      simp only [Function.update_self, Option.some.injEq] at hc
      subst hc
      obtain ⟨h1, h2, h3, h4⟩ := hx (by simpa using hq)
      have hxb : x ≠ b := by rintro rfl; exact h4 p hp hb
      rw [if_neg (fun e => hxb (block_inj hb5 h2 e).1.symm)]
      rw [Function.update_of_ne (by simp), h3, h.none _ _ hn]
    · rw [Function.update_of_ne hqp] at hc
      obtain ⟨hcl, hc5⟩ := h.bound q c hq hc
      by_cases he : b + τ.val = c + σ.val
      · obtain ⟨rfl, rfl⟩ := block_inj hb5 hc5 he
        have := h.inj q p b hq hp hc hb
        subst this
        have hlt : b + τ.val < t.length := by omega
        simp [hlt]
      · rw [if_neg he]
        have : q ++ [σ] ≠ p ++ [τ] := by
          intro e
          obtain ⟨rfl, rfl⟩ := hpp _ _ e
          rw [hc] at hb; cases hb; exact he rfl
        rw [Function.update_of_ne this]
        exact h.entry q c σ hq hc
  · intro q q' c hq hq' hc hc'
    by_cases hqp : q = p ++ [τ]
    · by_cases hqp' : q' = p ++ [τ]
      · rw [hqp, hqp']
      · subst hqp
        rw [Function.update_self] at hc
        cases hc
        rw [Function.update_of_ne hqp'] at hc'
        exact absurd hc' ((hx (by simpa using hq)).2.2.2 q' hq')
    · by_cases hqp' : q' = p ++ [τ]
      · subst hqp'
        rw [Function.update_self] at hc'
        cases hc'
        rw [Function.update_of_ne hqp] at hc
        exact absurd hc ((hx (by simpa using hq')).2.2.2 q hq)
      · rw [Function.update_of_ne hqp] at hc
        rw [Function.update_of_ne hqp'] at hc'
        exact h.inj q q' c hq hq' hc hc'
  · intro q σ hq
    by_cases hqp : q = p ++ [τ]
    · subst hqp; simp at hq
    · rw [Function.update_of_ne hqp] at hq
      have : q ++ [σ] ≠ p ++ [τ] := by
        intro e
        obtain ⟨rfl, rfl⟩ := hpp _ _ e
        rw [hb] at hq; cases hq
      rw [Function.update_of_ne this]
      exact h.none q σ hq

/-- the vector may grow -/
theorem Stores.grow {t : TLookup} {m : Nat} {M : List Ty → Option Nat} (h : Stores t m M)
    (u : TLookup) : Stores (t ++ u) m M := by
  refine ⟨h.root, ?_, ?_, h.inj, h.none⟩
  · intro p b hp hb
    obtain ⟨h1, h2⟩ := h.bound p b hp hb
    exact ⟨by simp; omega, h2⟩
  · intro p b τ hp hb
    obtain ⟨h1, _⟩ := h.bound p b hp hb
    have := τ.isLt
    rw [List.getElem?_append_left (by omega)]
    exact h.entry p b τ hp hb

/-- linking a chain of fresh blocks -/
theorem link_spec {m : Nat} (id : Nat) (ts : List Ty) : ∀ (t : TLookup) (M : List Ty → Option Nat)
    (p : List Ty) (τ : Ty) (b next : Nat), Stores t m M → p.length + (ts.length + 1) = m →
    M p = some b → M (p ++ [τ]) = none → 5 ∣ next →
    (∀ q c, q.length < m → M q = some c → c + 5 ≤ next) →
    next + ts.length * 5 = t.length → (∀ i, next ≤ i → i < t.length → t[i]? = some none) →
    ∃ t' M', link t b next (τ :: ts) id = some t' ∧ Stores t' m M' ∧ t'.length = t.length ∧
      M' (p ++ τ :: ts) = some id ∧
      ∀ q, q.length = m → q ≠ p ++ τ :: ts → M' q = M q := by
  induction ts with
  | nil =>
    intro t M p τ b next hS hlen hb hn h5 hM hl hf
    simp only [List.length_nil, Nat.zero_add] at hlen
    obtain ⟨hbl, _⟩ := hS.bound p b (by omega) hb
    have hτ := τ.isLt
    refine ⟨t.set (b + τ) (some id), Function.update M (p ++ [τ]) (some id), ?_,
      hS.set (by omega) hb hn (by omega), by simp, by simp, ?_⟩
    · rw [link, if_pos (by omega)]
    · intro q _ hq
      rw [Function.update_of_ne hq]
  | cons σ ts ih =>
    intro t M p τ b next hS hlen hb hn h5 hM hl hf
    simp only [List.length_cons] at hlen hl
    obtain ⟨hbl, hb5⟩ := hS.bound p b (by omega) hb
    have hτ := τ.isLt
    have hbn := hM p b (by omega) hb
    have hS' := hS.set (p := p) (b := b) (x := next) (τ := τ) (by omega) hb hn (fun _ =>
      ⟨by omega, h5, fun σ => hf _ (by omega) (by have := σ.isLt; omega),
        fun q hq hc => by have := hM q next hq hc; omega⟩)
    obtain ⟨t', M', e1, e2, e3, e4, e5⟩ := ih _ _ (p ++ [τ]) σ next (next + 5) hS'
      (by simp; omega) (by simp) (by
        rw [Function.update_of_ne (by simp)]; exact hS.none _ _ hn) (by omega) (by
        intro q c hq hc
        by_cases hqp : q = p ++ [τ]
        · subst hqp
          simp only [Function.update_self, Option.some.injEq] at hc
          omega
        · rw [Function.update_of_ne hqp] at hc
          have := hM q c hq hc; omega) (by simp; omega) (by
        intro i hi hil
        rw [List.length_set] at hil
        rw [List.getElem?_set_ne (by omega)]
        exact hf i (by omega) hil)
    refine ⟨t', M', ?_, e2, by simpa using e3, by simpa using e4, ?_⟩
    · rw [link, if_pos (by omega)]; exact e1
    · intro q hq hqp
      rw [e5 q hq (by simpa using hqp)]
      have hlq : q ≠ p ++ [τ] := by
        rintro rfl
        simp at hq; omega
      rw [Function.update_of_ne hlq]

theorem subtableIdAt_spec {t : TLookup} {m : Nat} {M : List Ty → Option Nat} (hS : Stores t m M)
    (h5 : 5 ∣ t.length) (n : Nat) (ts : List Ty) : ∀ (p : List Ty) (b : Nat), M p = some b →
    p.length + ts.length = m →
    ∃ r t' M', subtableIdAt t n b ts = some (r, t') ∧ Stores t' m M' ∧ 5 ∣ t'.length ∧
      r = M (p ++ ts) ∧ M' (p ++ ts) = some (r.getD n) ∧
      (∀ q, q.length = m → q ≠ p ++ ts → M' q = M q) := by
  induction ts with
  | nil =>
    intro p b hb _
    exact ⟨some b, t, M, rfl, hS, h5, by simp [hb], by simp [hb], fun _ _ _ => rfl⟩
  | cons τ ts ih =>
    intro p b hb hlen
    simp only [List.length_cons] at hlen
    have he := hS.entry p b τ (by omega) hb
    rw [subtableIdAt, he]
    simp only [Option.bind_eq_bind, Option.bind_some]
    cases hM : M (p ++ [τ]) with
    | some next =>
      obtain ⟨r, t', M', e1, e2, e3, e4, e5, e6⟩ := ih (p ++ [τ]) next hM (by simp; omega)
      exact ⟨r, t', M', e1, e2, e3, by simpa using e4, by simpa using e5, by simpa using e6⟩
    | none =>
      have hnone : M (p ++ τ :: ts) = none := by
        have := hS.none_append (p ++ [τ]) ts hM
        simpa using this
      obtain ⟨t', M', e1, e2, e3, e4, e5⟩ := link_spec (m := m) n ts
        (t ++ List.replicate (ts.length * 5) none) M p τ b t.length (hS.grow _) (by omega) hb hM h5
        (fun q c hq hc => (hS.bound q c hq hc).1) (by simp) (by
          intro i hi hil
          simp only [List.length_append, List.length_replicate] at hil
          rw [List.getElem?_append_right hi, List.getElem?_replicate, if_pos (by omega)])
      refine ⟨none, t', M', ?_, e2, ?_, hnone.symm, by simpa using e4, e5⟩
      · simp [addNew, e1]
      · rw [e3]; simp; omega

theorem stores_new {m : Nat} : Stores new m fun p => if p = [] then some 0 else none := by
  refine ⟨by simp, ?_, ?_, ?_, ?_⟩
  · intro p b _ hb
    split at hb <;> simp at hb
    subst hb; simp [new]
  · intro p b τ _ hb
    split at hb <;> simp at hb
    subst hb
    have := τ.isLt
    rw [if_neg (by simp)]
    simp only [new]
    rw [List.getElem?_replicate, if_pos (by omega)]
  · intro p q b _ _ hp hq
    split at hp <;> simp at hp
    split at hq <;> simp at hq
    simp_all
  · intro p τ _; simp

/-- Looking up the type sequences `ts` one after the other, where `n` subtables exist at the beginning; a new subtable
is added whenever the lookup returns `none` (tuple_buffer.rs:398-413).  Returns the subtable used by each tuple. -/
def lookupAll : TLookup → Nat → List (List Ty) → Option (List Nat)
  | _, _, [] => some []
  | t, n, τs :: rest => do
    let (r, t) ← subtableId t τs n
    let ids ← match r with
      | some _ => lookupAll t n rest
      | none => lookupAll t (n + 1) rest
    return r.getD n :: ids

/-- The invariant of `lookupAll`: the sequences seen so far are exactly those with a subtable, and no two of them
share one. -/
structure Assigned (M : List Ty → Option Nat) (m n : Nat) : Prop where
  lt : ∀ p i, p.length = m → M p = some i → i < n
  inj : ∀ p q i, p.length = m → q.length = m → M p = some i → M q = some i → p = q

theorem lookupAll_spec {m : Nat} (ts : List (List Ty)) (hl : ∀ τs ∈ ts, τs.length = m) :
    ∀ (t : TLookup) (n : Nat) (M : List Ty → Option Nat), Stores t m M → 5 ∣ t.length → Assigned M m n →
    ∃ (ids : List Nat) (M' : List Ty → Option Nat), lookupAll t n ts = some ids ∧ ids = ts.map (fun τs => (M' τs).getD 0) ∧
      (∀ p i, p.length = m → M p = some i → M' p = some i) ∧ (∀ τs ∈ ts, M' τs ≠ none) ∧
      (∀ p q i, p.length = m → q.length = m → M' p = some i → M' q = some i → p = q) := by
  induction ts with
  | nil => intro t n M _ _ hA; exact ⟨[], M, rfl, rfl, fun _ _ _ h => h, by simp, hA.inj⟩
  | cons τs ts ih =>
    intro t n M hS h5 hA
    have hτ : τs.length = m := hl τs (by simp)
    obtain ⟨r, t', M', e1, e2, e3, e4, e5, e6⟩ := subtableIdAt_spec hS h5 n τs [] 0 hS.root (by simpa using hτ)
    simp only [List.nil_append] at e4 e5 e6
    have hkeep : ∀ p i, p.length = m → M p = some i → M' p = some i := by
      intro p i hp hi
      by_cases hpe : p = τs
      · subst hpe; rw [e5, e4, hi]; rfl
      · rw [e6 p hp hpe, hi]
    have key : ∀ n', n ≤ n' → (r = none → n' = n + 1) → Assigned M' m n' := by
      intro n' hn hr
      refine ⟨?_, ?_⟩
      · intro p i hp hi
        by_cases hpe : p = τs
        · subst hpe
          rw [e5] at hi
          cases hr' : r with
          | none => rw [hr'] at hi; simp at hi; have := hr hr'; omega
          | some k =>
            rw [hr'] at hi e4; simp at hi; subst hi
            have := hA.lt p k hp e4.symm; omega
        · rw [e6 p hp hpe] at hi
          have := hA.lt p i hp hi; omega
      · have aux : ∀ q i, q.length = m → q ≠ τs → M' τs = some i → M' q = some i → False := by
          intro q i hq hne h1 h2
          rw [e6 q hq hne] at h2
          rw [e5] at h1
          cases hr' : r with
          | none =>
            rw [hr'] at h1; simp at h1; subst h1
            exact absurd (hA.lt q n hq h2) (by omega)
          | some k =>
            rw [hr'] at h1 e4; simp at h1; subst h1
            exact hne (hA.inj q τs k hq hτ h2 e4.symm)
        intro p q i hp hq h1 h2
        by_cases hpe : p = τs
        · by_cases hqe : q = τs
          · rw [hpe, hqe]
          · subst hpe; exact absurd (aux q i hq hqe h1 h2) id
        · by_cases hqe : q = τs
          · subst hqe; exact absurd (aux p i hp hpe h2 h1) id
          · rw [e6 p hp hpe] at h1; rw [e6 q hq hqe] at h2
            exact hA.inj p q i hp hq h1 h2
    have hl' : ∀ x ∈ ts, x.length = m := fun x hx => hl x (by simp [hx])
    cases hr : r with
    | some k =>
      obtain ⟨ids, M2, i1, i2, i3, i4, i5⟩ := ih hl' t' n M' e2 e3 (key n (le_refl _) (by simp [hr]))
      have h1 : M2 τs = some (r.getD n) := i3 τs _ hτ e5
      refine ⟨(r.getD n) :: ids, M2, ?_, ?_, fun p i hp hi => i3 p i hp (hkeep p i hp hi), ?_, i5⟩
      · rw [lookupAll, subtableId, e1]; simp [hr, i1]
      · simp [h1, i2]
      · intro x hx
        rcases List.mem_cons.1 hx with rfl | hx
        · rw [h1]; simp
        · exact i4 x hx
    | none =>
      obtain ⟨ids, M2, i1, i2, i3, i4, i5⟩ := ih hl' t' (n + 1) M' e2 e3 (key (n + 1) (by omega) (fun _ => rfl))
      have h1 : M2 τs = some (r.getD n) := i3 τs _ hτ e5
      refine ⟨(r.getD n) :: ids, M2, ?_, ?_, fun p i hp hi => i3 p i hp (hkeep p i hp hi), ?_, i5⟩
      · rw [lookupAll, subtableId, e1]; simp [hr, i1]
      · simp [h1, i2]
      · intro x hx
        rcases List.mem_cons.1 hx with rfl | hx
        · rw [h1]; simp
        · exact i4 x hx

/-- **C37.** Whatever tuples are added to a buffer, the lookup never fails, and two tuples are put into the same
subtable exactly if their values have the same storage types. -/
theorem lookup_by_types {m : Nat} (hm : 0 < m) (ts : List (List Ty)) (hl : ∀ τs ∈ ts, τs.length = m) :
    ∃ ids, lookupAll new 0 ts = some ids ∧ ids.length = ts.length ∧
      ∀ (i j : Nat) (a b : List Ty), ts[i]? = some a → ts[j]? = some b → (ids[i]? = ids[j]? ↔ a = b) := by
  obtain ⟨ids, M, h1, h2, _, h4, h5⟩ := lookupAll_spec ts hl new 0 _ stores_new (by simp [new])
    ⟨by intro p i hp hi; split at hi <;> simp_all, by
      intro p q i hp hq h1 h2
      split at h1 <;> simp at h1
      split at h2 <;> simp at h2
      simp_all⟩
  refine ⟨ids, h1, by rw [h2]; simp, ?_⟩
  intro i j a b ha hb
  have hma := List.mem_of_getElem? ha
  have hmb := List.mem_of_getElem? hb
  rw [h2, List.getElem?_map, List.getElem?_map, ha, hb]
  obtain ⟨x, hx⟩ := Option.ne_none_iff_exists'.1 (h4 a hma)
  obtain ⟨y, hy⟩ := Option.ne_none_iff_exists'.1 (h4 b hmb)
  constructor
  · intro h
    simp [hx, hy] at h
    subst h
    exact h5 a b x (hl a hma) (hl b hmb) hx hy
  · rintro rfl; rfl

/-- Five tuples with two columns: the lookup distinguishes the type sequences. -/
example : lookupAll new 0 [[0, 1], [1, 1], [0, 1], [0, 0], [1, 1]] = some [0, 1, 0, 2, 1] := by decide

end TLookup
end Verif
