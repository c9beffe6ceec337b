/-
The dictionary of pairs whose first component repeats often.

Modelled code: `nemo-physical/src/dictionary/ranked_pair_dictionary.rs:15-290`.  The two byte
dictionaries it consists of are given by their specification `DSpec`, which the byte dictionary
model refines (`BDict.dictionaries_refine`).
-/
import Verif.BytesDict
import Mathlib.Tactic.IntervalCases

set_option linter.unusedSimpArgs false
set_option linter.unusedVariables false

namespace Verif

/-! ### Abstract dictionaries -/

/-- The answer of a dictionary that has assigned the ids 0, 1, … to the keys of `ks`. -/
def kFind {κ : Type} [DecidableEq κ] (ks : List κ) (k : κ) : Option Nat :=
  if k ∈ ks then some (ks.idxOf k) else none

/-- Adding a key to such a dictionary. -/
def kAdd {κ : Type} [DecidableEq κ] (ks : List κ) (k : κ) : AddResult × List κ :=
  match kFind ks k with
  | some i => (.known i, ks)
  | none => (.fresh ks.length, ks ++ [k])

section
variable {κ : Type} [DecidableEq κ]

theorem kFind_some {ks : List κ} {k : κ} {i : Nat} (h : kFind ks k = some i) : ks[i]? = some k := by
  unfold kFind at h
  split at h
  · rename_i hm
    simp only [Option.some.injEq] at h
    rw [← h]; exact List.getElem?_idxOf hm
  · simp at h

theorem kFind_lt {ks : List κ} {k : κ} {i : Nat} (h : kFind ks k = some i) : i < ks.length := by
  have := kFind_some h
  by_contra hc
  rw [List.getElem?_eq_none (by omega)] at this; simp at this

theorem kFind_none {ks : List κ} {k : κ} : kFind ks k = none ↔ k ∉ ks := by
  unfold kFind; split <;> simp [*]

theorem kFind_append {ks ls : List κ} {k : κ} {i : Nat} (h : kFind ks k = some i) : kFind (ks ++ ls) k = some i := by
  unfold kFind at h ⊢
  split at h
  · rename_i hm
    rw [if_pos (List.mem_append_left _ hm), ← h, List.idxOf_append_of_mem hm]
  · simp at h

theorem kFind_new {ks : List κ} {k : κ} (h : k ∉ ks) : kFind (ks ++ [k]) k = some ks.length := by
  rw [kFind, if_pos (by simp), List.idxOf_append_of_notMem h]; simp

theorem kFind_get {ks : List κ} (hn : ks.Nodup) {k : κ} {i : Nat} (h : ks[i]? = some k) : kFind ks k = some i := by
  have hlt : i < ks.length := by
    by_contra hc
    rw [List.getElem?_eq_none (by omega)] at h; simp at h
  rw [List.getElem?_eq_getElem hlt] at h
  simp only [Option.some.injEq] at h
  have hm : k ∈ ks := by rw [← h]; exact List.getElem_mem hlt
  rw [kFind, if_pos hm, ← h, hn.idxOf_getElem]

end

/-- Without marks, a byte dictionary is an abstract dictionary. -/
theorem DSpec.toId_eq (d : DSpec) (h : d.marks = []) (k : Bytes) : d.toId k = kFind d.keys k := by
  have key : ∀ (i j : BEq Bytes), @LawfulBEq Bytes i → @LawfulBEq Bytes j →
      ∀ ks : List Bytes, @List.idxOf _ i k ks = @List.idxOf _ j k ks := by
    intro i j hi hj ks
    induction ks with
    | nil => rfl
    | cons x ks ih =>
      by_cases hx : x = k
      · subst hx; simp
      · rw [@List.idxOf_cons_ne _ i hi _ _ _ hx, @List.idxOf_cons_ne _ j hj _ _ _ hx, ih]
  unfold DSpec.toId kFind
  by_cases hk : k ∈ d.keys
  · simp only [hk, if_true, Option.some.injEq]
    exact key List.instBEq instBEqOfDecidableEq inferInstance inferInstance _
  · simp [hk, h]

theorem DSpec.add_eq (d : DSpec) (h : d.marks = []) (k : Bytes) :
    d.add k true = ((kAdd d.keys k).1, ⟨(kAdd d.keys k).2, []⟩) := by
  unfold DSpec.add kAdd
  rw [DSpec.toId_eq d h]
  cases kFind d.keys k with
  | some i => simp; cases d; simp at h; simp [h]
  | none => simp [h]

/-! ### The encoding of pairs -/

/-- byte `j` (from the right) of `fid.to_be_bytes()` -/
def beByte (fid j : Nat) : UInt8 := UInt8.ofNat (fid / 256 ^ j)

/-- `pair_bytes`, ranked_pair_dictionary.rs:134-169. -/
def pairBytes (fid : Nat) (rare : Bytes) : Option Bytes :=
  if fid < 2 ^ 6 then some (beByte fid 0 :: rare)
  else if fid < 2 ^ 14 then some ((beByte fid 1 ||| 0x40) :: beByte fid 0 :: rare)
  else if fid < 2 ^ 22 then some ((beByte fid 2 ||| 0x80) :: beByte fid 1 :: beByte fid 0 :: rare)
  else if fid < 2 ^ 30 then
    some ((beByte fid 3 ||| 0xC0) :: beByte fid 2 :: beByte fid 1 :: beByte fid 0 :: rare)
  else none

/-- the id of the frequent part and the rest (ranked_pair_dictionary.rs:215-246) -/
def splitPair : Bytes → Option (Nat × Bytes)
  | [] => none
  | b₀ :: rest =>
    if b₀ &&& 0xC0 = 0x00 then some (b₀.toNat, rest)
    else if b₀ &&& 0xC0 = 0x40 then
      match rest with
      | b₁ :: rest => some ((b₀ &&& 0x3F).toNat * 256 + b₁.toNat, rest)
      | _ => none
    else if b₀ &&& 0xC0 = 0x80 then
      match rest with
      | b₁ :: b₂ :: rest => some (((b₀ &&& 0x3F).toNat * 256 + b₁.toNat) * 256 + b₂.toNat, rest)
      | _ => none
    else
      match rest with
      | b₁ :: b₂ :: b₃ :: rest =>
        some ((((b₀ &&& 0x3F).toNat * 256 + b₁.toNat) * 256 + b₂.toNat) * 256 + b₃.toNat, rest)
      | _ => none

theorem tag_bits : ∀ x : Fin 64,
    (UInt8.ofNat x.val &&& 0xC0 = 0x00) ∧
    ((UInt8.ofNat x.val ||| 0x40) &&& 0xC0 = 0x40) ∧ ((UInt8.ofNat x.val ||| 0x40) &&& 0x3F).toNat = x.val ∧
    ((UInt8.ofNat x.val ||| 0x80) &&& 0xC0 = 0x80) ∧ ((UInt8.ofNat x.val ||| 0x80) &&& 0x3F).toNat = x.val ∧
    ((UInt8.ofNat x.val ||| 0xC0) &&& 0xC0 = 0xC0) ∧ ((UInt8.ofNat x.val ||| 0xC0) &&& 0x3F).toNat = x.val := by
  decide

theorem beByte_toNat (fid j : Nat) : (beByte fid j).toNat = fid / 256 ^ j % 256 := by
  simp [beByte]

/-- The encoding of pairs can be decoded. -/
theorem splitPair_pairBytes {fid : Nat} {rare bs : Bytes} (h : pairBytes fid rare = some bs) :
    splitPair bs = some (fid, rare) := by
  unfold pairBytes at h
  split at h
  · rename_i h1
    have t := tag_bits ⟨fid, h1⟩
    simp only [Option.some.injEq] at h
    subst h
    have e : beByte fid 0 = UInt8.ofNat fid := by simp [beByte]
    have e2 : (UInt8.ofNat fid).toNat = fid := by simp; omega
    simp only [splitPair, e, t.1, if_true, e2]
  · split at h
    · rename_i _ h1
      have hlt : fid / 256 < 64 := by omega
      have t := tag_bits ⟨fid / 256, hlt⟩
      simp only [Option.some.injEq] at h
      subst h
      have e : beByte fid 1 = UInt8.ofNat (fid / 256) := by simp [beByte]
      have e0 := beByte_toNat fid 0
      simp only [splitPair, e, t.2.1, t.2.2.1, if_true]
      rw [if_neg (by decide)]
      simp only [Option.some.injEq, Prod.mk.injEq, and_true]
      rw [e0]; omega
    · split at h
      · rename_i _ _ h1
        have hlt : fid / 256 / 256 < 64 := by omega
        have t := tag_bits ⟨fid / 256 / 256, hlt⟩
        simp only [Option.some.injEq] at h
        subst h
        have e : beByte fid 2 = UInt8.ofNat (fid / 256 / 256) := by simp [beByte, Nat.div_div_eq_div_mul]
        have e0 := beByte_toNat fid 0
        have e1 := beByte_toNat fid 1
        simp only [splitPair, e, t.2.2.2.1, t.2.2.2.2.1, if_true]
        rw [if_neg (by decide), if_neg (by decide)]
        simp only [Option.some.injEq, Prod.mk.injEq, and_true]
        rw [e0, e1]; omega
      · split at h
        · rename_i _ _ _ h1
          have hlt : fid / 256 / 256 / 256 < 64 := by omega
          have t := tag_bits ⟨fid / 256 / 256 / 256, hlt⟩
          simp only [Option.some.injEq] at h
          subst h
          have e : beByte fid 3 = UInt8.ofNat (fid / 256 / 256 / 256) := by simp [beByte, Nat.div_div_eq_div_mul]
          have e0 := beByte_toNat fid 0
          have e1 := beByte_toNat fid 1
          have e2 := beByte_toNat fid 2
          simp only [splitPair, e, t.2.2.2.2.2.1, t.2.2.2.2.2.2, if_true]
          rw [if_neg (by decide), if_neg (by decide), if_neg (by decide)]
          simp only [Option.some.injEq, Prod.mk.injEq, and_true]
          rw [e0, e1, e2]; omega
        · simp at h

/-- `pair_bytes` works for up to `2 ^ 30` frequent parts. -/
theorem pairBytes_isSome (fid : Nat) (rare : Bytes) (h : fid < 2 ^ 30) : ∃ bs, pairBytes fid rare = some bs := by
  unfold pairBytes
  split
  · exact ⟨_, rfl⟩
  · split
    · exact ⟨_, rfl⟩
    · split
      · exact ⟨_, rfl⟩
      · exact ⟨_, rfl⟩

/-! ### The cache of recent frequent parts -/

/-- `LruArray`, ranked_pair_dictionary.rs:44-48. -/
structure Lru where
  cache : List (Bytes × Nat)
  top : Nat
  len : Nat

namespace Lru

/-- `new`, ranked_pair_dictionary.rs:50-56. -/
def new (n : Nat) : Lru := ⟨List.replicate n ([0], 2 ^ 64 - 1), 0, n⟩

/-- `put`, ranked_pair_dictionary.rs:62-67. -/
def put (c : Lru) (data : Bytes) (id : Nat) : Lru :=
  { c with top := (c.top + 1) % c.len, cache := c.cache.set ((c.top + 1) % c.len) (data, id) }

/-- the indices `a..b` of a Rust range -/
def rustRange (a b : Nat) : List Nat := List.range' a (b - a)

/-- the search loop of `get` (ranked_pair_dictionary.rs:74-82) -/
def search (c : Lru) (data : Bytes) : Option Nat :=
  ((rustRange (c.top + c.len) c.top).find? fun i => decide ((c.cache[i % c.len]?.map Prod.fst) = some data)).map
    (· % c.len)

/-- swapping two entries -/
def swap (l : List (Bytes × Nat)) (i j : Nat) : List (Bytes × Nat) :=
  match l[i]?, l[j]? with
  | some a, some b => (l.set i b).set j a
  | _, _ => l

/-- one step of moving an entry to the top (ranked_pair_dictionary.rs:91) -/
def bubble (c : Lru) (l : List (Bytes × Nat)) (k : Nat) : List (Bytes × Nat) :=
  swap l (k % c.len) ((k + 1) % c.len)

/-- `get`, ranked_pair_dictionary.rs:73-98. -/
def get (c : Lru) (data : Bytes) : Nat × Lru :=
  match c.search data with
  | none => (2 ^ 64 - 1, c)
  | some idx =>
    let c' : Lru :=
      if idx = (c.top + 1) % c.len then { c with top := (c.top + 1) % c.len }
      else if idx ≠ c.top then
        { c with cache := (rustRange idx (c.top + c.len)).foldl (c.bubble) c.cache }
      else c
    (((c'.cache[c'.top]?).map Prod.snd).getD (2 ^ 64 - 1), c')

/-- The search loop runs over an empty range: the cache never answers. -/
theorem get_never (c : Lru) (data : Bytes) : c.get data = (2 ^ 64 - 1, c) := by
  have : c.search data = none := by
    have : c.top - (c.top + c.len) = 0 := by omega
    simp [search, rustRange, this]
  simp [get, this]

end Lru

/-! ### The pair dictionary -/

/-- `GenericRankedPairDictionary`, ranked_pair_dictionary.rs:125-129. -/
structure PairDict where
  freq : DSpec
  pair : DSpec
  recent : Lru

namespace PairDict

/-- `Default::default`, ranked_pair_dictionary.rs:292-300. -/
def new : PairDict := ⟨⟨[], []⟩, ⟨[], []⟩, Lru.new 3⟩

/-- the id of the frequent part (ranked_pair_dictionary.rs:183-193) -/
def addFreq (d : PairDict) (f : Bytes) : Nat × PairDict :=
  let g := d.recent.get f
  if g.1 = 2 ^ 64 - 1 then
    let r := d.freq.add f true
    (r.1.value, { d with freq := r.2, recent := g.2.put f r.1.value })
  else (g.1, { d with recent := g.2 })

/-- `add_pair`, ranked_pair_dictionary.rs:182-197. -/
def add (d : PairDict) (f r : Bytes) : Option (AddResult × PairDict) := do
  let x := d.addFreq f
  let bs ← pairBytes x.1 r
  let y := x.2.pair.add bs true
  return (y.1, { x.2 with pair := y.2 })

/-- `pair_to_id`, ranked_pair_dictionary.rs:202-205. -/
def toId (d : PairDict) (f r : Bytes) : Option (Option Nat) :=
  match d.freq.toId f with
  | none => some none
  | some fid => (pairBytes fid r).map d.pair.toId

/-- `id_to_pair`, ranked_pair_dictionary.rs:210-250. -/
def toPair (d : PairDict) (id : Nat) : Option (Option (Bytes × Bytes)) :=
  match d.pair.keys[id]? with
  | none => some none
  | some bs => do
    let x ← splitPair bs
    let f ← d.freq.keys[x.1]?
    return some (f, x.2)

/-- `d` is the dictionary of the pairs `ps`. -/
structure Rep (d : PairDict) (ps : List (Bytes × Bytes)) : Prop where
  fmarks : d.freq.marks = []
  pmarks : d.pair.marks = []
  fnodup : d.freq.keys.Nodup
  len : d.pair.keys.length = ps.length
  nodup : ps.Nodup
  enc : ∀ (i : Nat) (p : Bytes × Bytes), ps[i]? = some p →
    ∃ (fid : Nat) (bs : Bytes), d.freq.keys[fid]? = some p.1 ∧ pairBytes fid p.2 = some bs ∧ d.pair.keys[i]? = some bs

theorem new_rep : Rep new [] := by
  constructor <;> simp [new]

variable {d : PairDict} {ps : List (Bytes × Bytes)}

/-- **Ids lead back to their pairs.** -/
theorem Rep.toPair_eq (h : Rep d ps) (id : Nat) : d.toPair id = some (ps[id]?) := by
  unfold toPair
  cases hk : d.pair.keys[id]? with
  | none =>
    rw [List.getElem?_eq_none_iff] at hk
    rw [List.getElem?_eq_none (by rw [← h.len]; exact hk)]
  | some bs =>
    have hlt : id < ps.length := by
      rw [← h.len]
      by_contra hc
      rw [List.getElem?_eq_none (by omega)] at hk; simp at hk
    obtain ⟨fid, bs', h1, h2, h3⟩ := h.enc id _ (List.getElem?_eq_getElem hlt)
    rw [hk] at h3
    simp only [Option.some.injEq] at h3
    subst h3
    rw [List.getElem?_eq_getElem hlt]
    simp [splitPair_pairBytes h2, h1]

/-- a stored encoding belongs to the pair it encodes -/
theorem Rep.enc_inj (h : Rep d ps) {i fid : Nat} {f r bs : Bytes} (hf : d.freq.keys[fid]? = some f)
    (hb : pairBytes fid r = some bs) (hi : d.pair.keys[i]? = some bs) : ps[i]? = some (f, r) := by
  have := h.toPair_eq i
  simp only [toPair, hi, splitPair_pairBytes hb, hf, Option.bind_eq_bind, Option.bind_some, Option.pure_def,
    Option.some.injEq] at this
  exact this.symm

theorem Rep.pair_nodup (h : Rep d ps) : d.pair.keys.Nodup := by
  rw [List.nodup_iff_injective_get]
  intro i j hij
  have hi : i.val < ps.length := by rw [← h.len]; exact i.isLt
  have hj : j.val < ps.length := by rw [← h.len]; exact j.isLt
  obtain ⟨fid, bs, h1, h2, h3⟩ := h.enc i _ (List.getElem?_eq_getElem hi)
  have hj2 : d.pair.keys[j.val]? = some bs := by
    rw [← h3, List.getElem?_eq_getElem i.isLt, List.getElem?_eq_getElem j.isLt]
    simpa using hij.symm
  have := h.enc_inj h1 h2 hj2
  have hkk := kFind_get h.nodup this
  have hkk' := kFind_get h.nodup (List.getElem?_eq_getElem hi)
  rw [show (ps[i.val].1, ps[i.val].2) = ps[i.val] from rfl] at hkk
  rw [hkk'] at hkk
  simp only [Option.some.injEq] at hkk
  exact Fin.ext hkk

/-- **Pairs are found under their ids.** -/
theorem Rep.toId_eq (h : Rep d ps) (f r : Bytes) (hlim : d.freq.keys.length ≤ 2 ^ 30) :
    d.toId f r = some (kFind ps (f, r)) := by
  unfold toId
  rw [DSpec.toId_eq _ h.fmarks]
  cases hf : kFind d.freq.keys f with
  | none =>
    rw [kFind_none] at hf
    have : kFind ps (f, r) = none := by
      rw [kFind_none]
      intro hm
      obtain ⟨i, hi, he⟩ := List.getElem_of_mem hm
      obtain ⟨fid, bs, h1, _, _⟩ := h.enc i _ (List.getElem?_eq_getElem hi)
      rw [he] at h1
      exact hf (List.mem_of_getElem? h1)
    rw [this]
  | some fid =>
    have hlt := kFind_lt hf
    obtain ⟨bs, hbs⟩ := pairBytes_isSome fid r (by omega)
    simp only [hbs, Option.map_some, Option.some.injEq]
    rw [DSpec.toId_eq _ h.pmarks]
    cases hp : kFind d.pair.keys bs with
    | none =>
      rw [kFind_none] at hp
      symm
      rw [kFind_none]
      intro hm
      obtain ⟨i, hi, he⟩ := List.getElem_of_mem hm
      obtain ⟨fid', bs', h1, h2, h3⟩ := h.enc i _ (List.getElem?_eq_getElem hi)
      rw [he] at h1 h2
      have := kFind_get h.fnodup h1
      rw [hf] at this
      simp only [Option.some.injEq] at this
      subst this
      rw [hbs] at h2
      simp only [Option.some.injEq] at h2
      subst h2
      exact hp (List.mem_of_getElem? h3)
    | some i =>
      have := h.enc_inj (kFind_some hf) hbs (kFind_some hp)
      exact (kFind_get h.nodup this).symm

/-- the frequent part gets an id -/
theorem addFreq_spec (h : Rep d ps) (f : Bytes) :
    ∃ d', (d.addFreq f).2 = d' ∧ Rep d' ps ∧ d'.freq.keys[(d.addFreq f).1]? = some f ∧ d'.pair = d.pair ∧
      d'.freq.keys = (kAdd d.freq.keys f).2 := by
  refine ⟨_, rfl, ?_⟩
  unfold addFreq
  rw [Lru.get_never]
  simp only [if_true]
  rw [DSpec.add_eq _ h.fmarks]
  have hkeys : ∀ (i : Nat) (x : Bytes), d.freq.keys[i]? = some x → (kAdd d.freq.keys f).2[i]? = some x := by
    intro i x hx
    unfold kAdd
    split
    · exact hx
    · have hlt : i < d.freq.keys.length := by
        by_contra hc
        rw [List.getElem?_eq_none (by omega)] at hx; simp at hx
      simp only
      rw [List.getElem?_append_left hlt, hx]
  refine ⟨⟨rfl, h.pmarks, ?_, h.len, h.nodup, ?_⟩, ?_, trivial, rfl⟩
  · simp only [kAdd]
    split
    · exact h.fnodup
    · rename_i hn
      rw [kFind_none] at hn
      simp only
      rw [List.nodup_append]
      refine ⟨h.fnodup, by simp, ?_⟩
      intro a ha b hb
      simp only [List.mem_singleton] at hb
      subst hb
      rintro rfl
      exact hn ha
  · intro i p hp
    obtain ⟨fid, bs, h1, h2, h3⟩ := h.enc i p hp
    exact ⟨fid, bs, hkeys _ _ h1, h2, h3⟩
  · simp only [kAdd]
    split
    · rename_i i hi
      exact kFind_some hi
    · simp [AddResult.value]

/-- **Adding a pair** gives it an id of its own, or the id it has. -/
theorem Rep.add_eq (h : Rep d ps) {f r : Bytes} {x : AddResult × PairDict} (hx : d.add f r = some x) :
    x.1 = (kAdd ps (f, r)).1 ∧ Rep x.2 (kAdd ps (f, r)).2 := by
  obtain ⟨d', h1, h2, h3, h4, h5⟩ := addFreq_spec h f
  simp only [add, h1, Option.bind_eq_bind, Option.bind_eq_some_iff, Option.pure_def, Option.some.injEq] at hx
  obtain ⟨bs, hbs, rfl⟩ := hx
  rw [DSpec.add_eq _ h2.pmarks]
  cases hp : kFind d'.pair.keys bs with
  | some i =>
    have hi := h2.enc_inj h3 hbs (kFind_some hp)
    have hk := kFind_get h.nodup hi
    simp only [kAdd, hp, hk]
    exact ⟨trivial, ⟨h2.fmarks, rfl, h2.fnodup, h2.len, h2.nodup, h2.enc⟩⟩
  | none =>
    have hk : kFind ps (f, r) = none := by
      rw [kFind_none] at hp ⊢
      intro hm
      obtain ⟨i, hi, he⟩ := List.getElem_of_mem hm
      obtain ⟨fid', bs', q1, q2, q3⟩ := h2.enc i _ (List.getElem?_eq_getElem hi)
      rw [he] at q1 q2
      have e1 := kFind_get h2.fnodup q1
      have e2 := kFind_get h2.fnodup h3
      rw [e1] at e2
      simp only [Option.some.injEq] at e2
      subst e2
      rw [hbs] at q2
      simp only [Option.some.injEq] at q2
      subst q2
      exact hp (List.mem_of_getElem? q3)
    simp only [kAdd, hp, hk]
    refine ⟨by rw [h2.len], ⟨h2.fmarks, rfl, h2.fnodup, by simp [h2.len], ?_, ?_⟩⟩
    · rw [kFind_none] at hk
      rw [List.nodup_append]
      refine ⟨h.nodup, by simp, ?_⟩
      intro a ha b hb
      simp only [List.mem_singleton] at hb
      subst hb
      rintro rfl
      exact hk ha
    · intro i p hi
      rw [List.getElem?_append] at hi
      split at hi
      · rename_i hlt
        obtain ⟨fid, bs', q1, q2, q3⟩ := h2.enc i p hi
        refine ⟨fid, bs', q1, q2, ?_⟩
        rw [List.getElem?_append_left (by rw [h2.len]; exact hlt), q3]
      · rename_i hge
        have : i = ps.length := by
          by_contra hne
          rw [List.getElem?_eq_none (by simp; omega)] at hi; simp at hi
        subst this
        simp at hi
        subst hi
        exact ⟨_, bs, h3, hbs, by rw [← h2.len]; simp⟩

/-- **Adding works** for up to `2 ^ 30` different frequent parts. -/
theorem Rep.add_works (h : Rep d ps) (f r : Bytes) (hlim : d.freq.keys.length < 2 ^ 30) : ∃ x, d.add f r = some x := by
  obtain ⟨d', h1, h2, h3, h4, h5⟩ := addFreq_spec h f
  have hlt : (d.addFreq f).1 < 2 ^ 30 := by
    have : (d.addFreq f).1 < d'.freq.keys.length := by
      by_contra hc
      rw [List.getElem?_eq_none (by omega)] at h3; simp at h3
    have h6 : d'.freq.keys.length ≤ d.freq.keys.length + 1 := by
      rw [h5]; unfold kAdd; split <;> simp
    omega
  obtain ⟨bs, hbs⟩ := pairBytes_isSome _ r hlt
  simp only [add, hbs, Option.bind_eq_bind, Option.bind_some, Option.pure_def]
  exact ⟨_, rfl⟩

/-- Two pairs with the same frequent part. -/
example : ∃ d ps, Rep d ps ∧ d.freq.keys.length ≤ 2 ^ 30 ∧ ps = [([1], [5]), ([1], [6])] := by
  obtain ⟨x, hx⟩ := new_rep.add_works [1] [5] (by simp [new])
  have h1 := new_rep.add_eq hx
  have hl : x.2.freq.keys.length < 2 ^ 30 := by
    simp [add, addFreq, Lru.get_never, new, pairBytes, DSpec.add, DSpec.toId, AddResult.value] at hx
    subst hx
    decide
  obtain ⟨y, hy⟩ := h1.2.add_works [1] [6] hl
  have h2 := h1.2.add_eq hy
  refine ⟨y.2, _, h2.2, ?_, by decide⟩
  have : y.2.freq.keys.length ≤ x.2.freq.keys.length + 1 := by
    obtain ⟨d', q1, q2, q3, q4, q5⟩ := addFreq_spec h1.2 [1]
    simp only [add, q1, Option.bind_eq_bind, Option.bind_eq_some_iff, Option.pure_def, Option.some.injEq] at hy
    obtain ⟨bs, hbs, rfl⟩ := hy
    simp only [q5]; unfold kAdd; split <;> simp
  omega

end PairDict
end Verif
