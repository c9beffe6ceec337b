/-
The dictionary of byte arrays on top of the global byte buffer.

Modelled code: `nemo-physical/src/dictionary/bytes_dictionary.rs:12-201`,
`datavalue_dictionary.rs:9-45`.  The two hash maps are association lists from references to ids;
as in the code, their keys are compared by the bytes they refer to, read from the buffer.
`M` is `SMALL_KNOWN_ID_MARK` (`u32::MAX`, 3 in the unit tests); ids are `usize` of 64 bits.
-/
import Verif.BytesBuffer

set_option linter.unusedSimpArgs false
set_option linter.unusedVariables false

namespace Verif

/-- `AddResult`, datavalue_dictionary.rs:26-33. -/
inductive AddResult where
  | fresh (id : Nat) | known (id : Nat) | rejected
deriving DecidableEq, Repr

/-- `KNOWN_ID_MARK`, datavalue_dictionary.rs:11. -/
def knownIdMark : Nat := 2 ^ 64 - 1 - 1

/-- `NONEXISTING_ID_MARK`, datavalue_dictionary.rs:9. -/
def nonexistingIdMark : Nat := 2 ^ 64 - 1

/-- `AddResult::value`, datavalue_dictionary.rs:38-44. -/
def AddResult.value : AddResult → Nat
  | .fresh i => i
  | .known i => i
  | .rejected => nonexistingIdMark

/-- `IdUtils::id_to_innerid`, bytes_dictionary.rs:16-22. -/
def idToInner (M id : Nat) : Nat := if id < M then id else id + 1

/-- `IdUtils::id32_to_id`, bytes_dictionary.rs:27-33. -/
def id32ToId (M i : Nat) : Nat := if i < M then i else i - 1

/-- `IdUtils::id64_to_id`, bytes_dictionary.rs:38-41. -/
def id64ToId (i : Nat) : Option Nat := if 2 ^ 32 - 1 < i then some (i - 1) else none

/-- `BytesDictionary`, bytes_dictionary.rs:48-54. -/
structure BDict where
  store : List Nat
  short : List (Nat × Nat)
  long : List (Nat × Nat)
  buf : Nat
  hasMark : Bool
deriving DecidableEq

namespace BDict

/-- Lookup in a hash map whose keys are references (bytes_dictionary.rs:71, 77, 133, 142 with
`Equivalent`, bytes_buffer.rs:373-377). -/
def mapGet (rd : Nat → Option Bytes) (k : Bytes) : List (Nat × Nat) → Option (Option Nat)
  | [] => some none
  | (r, v) :: m => do
    let bs ← rd r
    if bs = k then return some v else mapGet rd k m

/-- the id reported for an entry of `map_short` (bytes_dictionary.rs:72-76, 135-139) -/
def shortId (M v : Nat) : Nat := if v = M then knownIdMark else id32ToId M v

/-- `bytes_to_id`, bytes_dictionary.rs:70-83. -/
def bytesToId (M : Nat) (rd : Nat → Option Bytes) (d : BDict) (k : Bytes) : Option (Option Nat) := do
  match ← mapGet rd k d.short with
  | some v => return some (shortId M v)
  | none =>
    match ← mapGet rd k d.long with
    | some v => (id64ToId v).map some
    | none => return none

/-- `id_to_bytes`, bytes_dictionary.rs:87-89. -/
def idToBytes (rd : Nat → Option Bytes) (d : BDict) (id : Nat) : Option (Option Bytes) :=
  match d.store[id]? with
  | none => some none
  | some r => (rd r).map some

/-- the tables after storing a reference under the next id (bytes_dictionary.rs:156-167) -/
def storeRef (M : Nat) (d : BDict) (r : Nat) : BDict :=
  if idToInner M d.store.length < 2 ^ 32 then
    { d with store := d.store ++ [r], short := (r, idToInner M d.store.length) :: d.short }
  else
    { d with store := d.store ++ [r], long := (r, idToInner M d.store.length) :: d.long }

/-- `insert_bytes_inner`, bytes_dictionary.rs:153-173. -/
def insertInner (P L A M : Nat) (s : BBuf) (d : BDict) (k : Bytes) (insert : Bool) :
    Option (AddResult × BDict × BBuf) := do
  let r ← s.pushRef P L A d.buf k
  if insert then return (.fresh d.store.length, d.storeRef M r.1, r.2)
  else return (.fresh knownIdMark, { d with short := (r.1, M) :: d.short }, r.2)

/-- `add_bytes_inner`, bytes_dictionary.rs:132-146. -/
def addInner (P L A M : Nat) (s : BBuf) (d : BDict) (k : Bytes) (insert : Bool) :
    Option (AddResult × BDict × BBuf) := do
  match ← mapGet (s.readRef P L A) k d.short with
  | some v => return (.known (shortId M v), d, s)
  | none =>
    match ← mapGet (s.readRef P L A) k d.long with
    | some v => (id64ToId v).map fun i => (.known i, d, s)
    | none => insertInner P L A M s d k insert

/-- `add_bytes`, bytes_dictionary.rs:63-65. -/
def add (P L A M : Nat) (s : BBuf) (d : BDict) (k : Bytes) := addInner P L A M s d k true

/-- `mark_bytes`, bytes_dictionary.rs:113-116. -/
def mark (P L A M : Nat) (s : BBuf) (d : BDict) (k : Bytes) :=
  addInner P L A M s { d with hasMark := true } k false

/-- `Default::default`, bytes_dictionary.rs:177-187. -/
def new (s : BBuf) : BDict × BBuf := (⟨[], [], [], s.initBuffer.1, false⟩, s.initBuffer.2)

/-- `Drop::drop`, bytes_dictionary.rs:190-194. -/
def drop (s : BBuf) (d : BDict) : BBuf := s.dropBuffer d.buf

end BDict

/-! ### The specification -/

/-- A dictionary as its user sees it: the byte arrays with an id, in the order of their ids, and
those that are only marked. -/
structure DSpec where
  keys : List Bytes
  marks : List Bytes

namespace DSpec

/-- Nothing is in two places. -/
def Ok (d : DSpec) : Prop := d.keys.Nodup ∧ ∀ k ∈ d.marks, k ∉ d.keys

/-- The answer to `bytes_to_id`. -/
def toId (d : DSpec) (k : Bytes) : Option Nat :=
  if k ∈ d.keys then some (d.keys.idxOf k) else if k ∈ d.marks then some knownIdMark else none

/-- Adding or marking a byte array. -/
def add (d : DSpec) (k : Bytes) (insert : Bool) : AddResult × DSpec :=
  match d.toId k with
  | some i => (.known i, d)
  | none =>
    if insert then (.fresh d.keys.length, ⟨d.keys ++ [k], d.marks⟩)
    else (.fresh knownIdMark, ⟨d.keys, d.marks ++ [k]⟩)

theorem ok_empty : Ok ⟨[], []⟩ := by simp [Ok]

theorem toId_none {d : DSpec} {k : Bytes} : d.toId k = none ↔ k ∉ d.keys ∧ k ∉ d.marks := by
  unfold toId
  split
  · simp [*]
  · split <;> simp [*]

theorem add_ok {d : DSpec} (h : d.Ok) (k : Bytes) (ins : Bool) : (d.add k ins).2.Ok := by
  unfold add
  cases hk : d.toId k with
  | some i => exact h
  | none =>
    rw [toId_none] at hk
    cases ins with
    | true =>
      refine ⟨?_, ?_⟩
      · simp only [if_true]
        rw [List.nodup_append]
        refine ⟨h.1, by simp, ?_⟩
        intro a ha b hb
        simp only [List.mem_singleton] at hb
        subst hb
        rintro rfl
        exact hk.1 ha
      · intro x hx
        simp only [if_true] at hx ⊢
        simp only [List.mem_append, List.mem_singleton, not_or]
        exact ⟨h.2 x hx, by rintro rfl; exact hk.2 hx⟩
    | false =>
      refine ⟨h.1, ?_⟩
      intro x hx
      simp only [Bool.false_eq_true, if_false, List.mem_append, List.mem_singleton] at hx ⊢
      rcases hx with hx | rfl
      · exact h.2 x hx
      · exact hk.1

end DSpec

/-! ### Refinement -/

namespace BDict

/-- The pair of a reference and the inner id stored for the `i`-th key -/
def entries (M : Nat) (refs : List Nat) : List (Nat × Nat) :=
  refs.zipIdx.map fun x => (x.1, idToInner M x.2)

/-- `d` represents the specification state `sp` in the buffer `s`. -/
structure Rep (P L A M : Nat) (s : BBuf) (d : BDict) (sp : DSpec) : Prop where
  live : s.Live d.buf
  len : d.store.length = sp.keys.length
  store : ∀ (i r : Nat) (k : Bytes), d.store[i]? = some r → sp.keys[i]? = some k →
    s.Holds P d.buf (r >>> L) k ∧ r % 2 ^ L = k.length
  short_mem : ∀ r v : Nat, (r, v) ∈ d.short → (∃ i : Nat, d.store[i]? = some r ∧ v = idToInner M i) ∨
    (v = M ∧ ∃ k ∈ sp.marks, s.Holds P d.buf (r >>> L) k ∧ r % 2 ^ L = k.length)
  long_mem : ∀ r v : Nat, (r, v) ∈ d.long → ∃ i : Nat, d.store[i]? = some r ∧ v = idToInner M i ∧ 2 ^ 32 ≤ v
  mem_key : ∀ (i r : Nat), d.store[i]? = some r → (r, idToInner M i) ∈ d.short ∨ (r, idToInner M i) ∈ d.long
  mem_mark : ∀ k ∈ sp.marks, ∃ r : Nat, (r, M) ∈ d.short ∧ s.Holds P d.buf (r >>> L) k ∧ r % 2 ^ L = k.length
  ok : sp.Ok

variable {P L A M : Nat}

theorem idToInner_ne (i : Nat) : idToInner M i ≠ M := by
  unfold idToInner; split <;> omega

theorem shortId_inner (i : Nat) : shortId M (idToInner M i) = i := by
  rw [shortId, if_neg (idToInner_ne i)]
  unfold id32ToId idToInner
  by_cases h : i < M
  · rw [if_pos h, if_pos h]
  · rw [if_neg h, if_neg (by omega)]; omega

theorem id64_inner {i : Nat} (hM : M < 2 ^ 32) (h : 2 ^ 32 ≤ idToInner M i) :
    id64ToId (idToInner M i) = some i := by
  unfold id64ToId
  rw [if_pos (by omega)]
  unfold idToInner at h ⊢
  split
  · rename_i hc; rw [if_pos hc] at h; omega
  · simp

theorem mapGet_spec {rd : Nat → Option Bytes} {k : Bytes} {m : List (Nat × Nat)}
    (h : ∀ r v : Nat, (r, v) ∈ m → ∃ bs, rd r = some bs) :
    (∃ r v, (r, v) ∈ m ∧ rd r = some k ∧ mapGet rd k m = some (some v)) ∨
      ((∀ r v : Nat, (r, v) ∈ m → rd r ≠ some k) ∧ mapGet rd k m = some none) := by
  induction m with
  | nil => exact Or.inr ⟨by simp, rfl⟩
  | cons e m ih =>
    obtain ⟨r, v⟩ := e
    obtain ⟨bs, hbs⟩ := h r v (by simp)
    by_cases hk : bs = k
    · subst hk
      exact Or.inl ⟨r, v, by simp, hbs, by simp [mapGet, hbs]⟩
    · have hm : mapGet rd k ((r, v) :: m) = mapGet rd k m := by simp [mapGet, hbs, hk]
      rw [hm]
      rcases ih (fun r v h' => h r v (List.mem_cons_of_mem _ h')) with ⟨r', v', h1, h2, h3⟩ | ⟨h1, h2⟩
      · exact Or.inl ⟨r', v', List.mem_cons_of_mem _ h1, h2, h3⟩
      · refine Or.inr ⟨?_, h2⟩
        intro r' v' hm'
        rcases List.mem_cons.mp hm' with h' | h'
        · simp at h'; rw [h'.1, hbs]; simpa using hk
        · exact h1 r' v' h'

/-- Reading a reference that the dictionary holds. -/
theorem readRef_of_holds {s : BBuf} {b r : Nat} {k : Bytes} (hs : s.pages.length * 2 ^ P < 2 ^ A)
    (h : s.Holds P b (r >>> L) k) (hl : r % 2 ^ L = k.length) : s.readRef P L A r = some k := by
  have := BBuf.holds_lt h
  rw [BBuf.readRef, if_neg (by omega), hl]
  exact BBuf.getBytes_of_holds h

namespace Rep

variable {s : BBuf} {d : BDict} {sp : DSpec}

/-- where a reference of the store comes from -/
theorem key_of_store (h : Rep P L A M s d sp) {i r : Nat} (hi : d.store[i]? = some r) :
    ∃ k : Bytes, sp.keys[i]? = some k ∧ s.Holds P d.buf (r >>> L) k ∧ r % 2 ^ L = k.length := by
  have hlt : i < d.store.length := by
    by_contra hc
    rw [List.getElem?_eq_none (by omega)] at hi; simp at hi
  have hlt' : i < sp.keys.length := by rw [← h.len]; exact hlt
  exact ⟨sp.keys[i], List.getElem?_eq_getElem hlt', h.store i r _ hi (List.getElem?_eq_getElem hlt')⟩

/-- the two lookups of the code, together -/
theorem lookup (h : Rep P L A M s d sp) (hs : s.pages.length * 2 ^ P < 2 ^ A) (hM : M < 2 ^ 32) (k : Bytes) :
    (∃ v, mapGet (s.readRef P L A) k d.short = some (some v) ∧ sp.toId k = some (shortId M v)) ∨
    (mapGet (s.readRef P L A) k d.short = some none ∧ ∃ v i, mapGet (s.readRef P L A) k d.long = some (some v) ∧
      id64ToId v = some i ∧ sp.toId k = some i) ∨
    (mapGet (s.readRef P L A) k d.short = some none ∧ mapGet (s.readRef P L A) k d.long = some none ∧
      sp.toId k = none) := by
  have hread : ∀ (i r : Nat), d.store[i]? = some r →
      ∃ bs : Bytes, s.readRef P L A r = some bs ∧ sp.keys[i]? = some bs := by
    intro i r hi
    obtain ⟨k', h1, h2, h3⟩ := h.key_of_store hi
    exact ⟨k', readRef_of_holds hs h2 h3, h1⟩
  have hidx : ∀ (i : Nat) (bs : Bytes), sp.keys[i]? = some bs → sp.toId bs = some i := by
    intro i bs hb
    have hlt : i < sp.keys.length := by
      by_contra hc
      rw [List.getElem?_eq_none (by omega)] at hb; simp at hb
    rw [List.getElem?_eq_getElem hlt] at hb
    simp only [Option.some.injEq] at hb
    have : bs ∈ sp.keys := by rw [← hb]; exact List.getElem_mem hlt
    rw [DSpec.toId, if_pos this, ← hb, h.ok.1.idxOf_getElem]
  have hs1 : ∀ r v : Nat, (r, v) ∈ d.short → ∃ bs, s.readRef P L A r = some bs := by
    intro r v hm
    rcases h.short_mem r v hm with ⟨i, h1, _⟩ | ⟨_, k', _, h2, h3⟩
    · obtain ⟨bs, hb, _⟩ := hread i r h1; exact ⟨bs, hb⟩
    · exact ⟨k', readRef_of_holds hs h2 h3⟩
  have hl1 : ∀ r v : Nat, (r, v) ∈ d.long → ∃ bs, s.readRef P L A r = some bs := by
    intro r v hm
    obtain ⟨i, h1, _⟩ := h.long_mem r v hm
    obtain ⟨bs, hb, _⟩ := hread i r h1; exact ⟨bs, hb⟩
  rcases mapGet_spec (k := k) hs1 with ⟨r, v, h1, h2, h3⟩ | ⟨h1, h2⟩
  · left
    refine ⟨v, h3, ?_⟩
    rcases h.short_mem r v h1 with ⟨i, h4, h5⟩ | ⟨h4, k', h5, h6, h7⟩
    · obtain ⟨bs, hb, hk⟩ := hread i r h4
      rw [h2] at hb
      simp only [Option.some.injEq] at hb
      subst hb
      rw [hidx _ _ hk, h5, shortId_inner]
    · have hb := readRef_of_holds hs h6 h7
      rw [h2] at hb
      simp only [Option.some.injEq] at hb
      subst hb
      rw [DSpec.toId, if_neg (h.ok.2 _ h5), if_pos h5, shortId, if_pos h4]
  · right
    rcases mapGet_spec (k := k) hl1 with ⟨r, v, h3, h4, h5⟩ | ⟨h3, h4⟩
    · left
      obtain ⟨i, h6, h7, h8⟩ := h.long_mem r v h3
      refine ⟨h2, v, i, h5, ?_, ?_⟩
      · rw [h7]; exact id64_inner hM (by rw [← h7]; exact h8)
      · obtain ⟨bs, hb, hk⟩ := hread i r h6
        rw [h4] at hb
        simp only [Option.some.injEq] at hb
        subst hb
        exact hidx _ _ hk
    · right
      refine ⟨h2, h4, ?_⟩
      rw [DSpec.toId_none]
      constructor
      · intro hk
        obtain ⟨i, hi, he⟩ := List.getElem_of_mem hk
        have hlt : i < d.store.length := by rw [h.len]; exact hi
        obtain ⟨bs, hb, hkk⟩ := hread i _ (List.getElem?_eq_getElem hlt)
        have : bs = k := by
          rw [List.getElem?_eq_getElem hi] at hkk
          simp only [Option.some.injEq] at hkk
          rw [← hkk, he]
        subst this
        rcases h.mem_key i _ (List.getElem?_eq_getElem hlt) with hm | hm
        · exact h1 _ _ hm hb
        · exact h3 _ _ hm hb
      · intro hk
        obtain ⟨r, hm, h6, h7⟩ := h.mem_mark k hk
        exact h1 _ _ hm (readRef_of_holds hs h6 h7)

/-- **Lookup by content** gives the id of the specification. -/
theorem bytesToId_eq (h : Rep P L A M s d sp) (hs : s.pages.length * 2 ^ P < 2 ^ A) (hM : M < 2 ^ 32) (k : Bytes) :
    d.bytesToId M (s.readRef P L A) k = some (sp.toId k) := by
  rcases h.lookup hs hM k with ⟨v, h1, h2⟩ | ⟨h1, v, i, h2, h3, h4⟩ | ⟨h1, h2, h3⟩
  · simp [bytesToId, h1, h2]
  · simp [bytesToId, h1, h2, h3, h4]
  · simp [bytesToId, h1, h2, h3]

/-- **Lookup by id** gives the key of the specification. -/
theorem idToBytes_eq (h : Rep P L A M s d sp) (hs : s.pages.length * 2 ^ P < 2 ^ A) (id : Nat) :
    d.idToBytes (s.readRef P L A) id = some (sp.keys[id]?) := by
  unfold idToBytes
  cases hi : d.store[id]? with
  | none =>
    rw [List.getElem?_eq_none_iff] at hi
    rw [List.getElem?_eq_none (by rw [← h.len]; exact hi)]
  | some r =>
    obtain ⟨k, h1, h2, h3⟩ := h.key_of_store hi
    simp [readRef_of_holds hs h2 h3, h1]

/-- Changes of the buffer that keep what this dictionary's buffer holds keep the dictionary. -/
theorem mono (h : Rep P L A M s d sp) {t : BBuf} (hl : t.Live d.buf)
    (hh : ∀ a bs, s.Holds P d.buf a bs → t.Holds P d.buf a bs) : Rep P L A M t d sp := by
  refine ⟨hl, h.len, ?_, ?_, h.long_mem, h.mem_key, ?_, h.ok⟩
  · intro i r k h1 h2
    exact ⟨hh _ _ (h.store i r k h1 h2).1, (h.store i r k h1 h2).2⟩
  · intro r v hm
    rcases h.short_mem r v hm with h1 | ⟨h1, k, h2, h3, h4⟩
    · exact Or.inl h1
    · exact Or.inr ⟨h1, k, h2, hh _ _ h3, h4⟩
  · intro k hk
    obtain ⟨r, h1, h2, h3⟩ := h.mem_mark k hk
    exact ⟨r, h1, hh _ _ h2, h3⟩

end Rep

/-- A new dictionary is empty. -/
theorem new_rep {s : BBuf} (hI : s.Inv P) : Rep P L A M (new s).2 (new s).1 ⟨[], []⟩ := by
  obtain ⟨h1, h2, h3, h4, h5⟩ := BBuf.initBuffer_spec hI
  refine ⟨(h4 _).mpr (Or.inl rfl), rfl, ?_, ?_, ?_, ?_, ?_, DSpec.ok_empty⟩ <;> simp [new]

/-- **Adding and marking** follow the specification. -/
theorem addInner_rep {s : BBuf} {d : BDict} {sp : DSpec} (h : Rep P L A M s d sp) (hI : s.Inv P)
    (hs : s.pages.length * 2 ^ P < 2 ^ A) (hM : M < 2 ^ 32) {k : Bytes} {ins : Bool}
    (hf : k = [] → ¬ s.FullPage P d.buf) {x : AddResult × BDict × BBuf}
    (hx : addInner P L A M s d k ins = some x) :
    x.1 = (sp.add k ins).1 ∧ Rep P L A M x.2.2 x.2.1 (sp.add k ins).2 ∧ x.2.2.Inv P ∧
      x.2.1.buf = d.buf ∧ (∀ b, x.2.2.Live b ↔ s.Live b) ∧
      (∀ b a bs, s.Holds P b a bs → x.2.2.Holds P b a bs) ∧ x.2.1.hasMark = d.hasMark := by
  rcases h.lookup hs hM k with ⟨v, h1, h2⟩ | ⟨h1, v, i, h2, h3, h4⟩ | ⟨h1, h2, h3⟩
  · simp only [addInner, h1, Option.bind_eq_bind, Option.bind_some, Option.pure_def, Option.some.injEq] at hx
    subst hx
    simp only [DSpec.add, h2]
    exact ⟨trivial, h, hI, trivial, fun _ => trivial, fun _ _ _ h => h, trivial⟩
  · simp only [addInner, h1, h2, h3, Option.bind_eq_bind, Option.bind_some, Option.pure_def, Option.map_some,
      Option.some.injEq] at hx
    subst hx
    simp only [DSpec.add, h4]
    exact ⟨trivial, h, hI, trivial, fun _ => trivial, fun _ _ _ h => h, trivial⟩
  · simp only [addInner, h1, h2, Option.bind_eq_bind, Option.bind_some, insertInner, Option.bind_eq_some_iff] at hx
    obtain ⟨⟨r, t⟩, hp, hx⟩ := hx
    obtain ⟨a, ha, hr⟩ := BBuf.pushRef_some hp
    obtain ⟨a', t', e1, e2, e3, e4, e5, e6, _⟩ := BBuf.pushBytes_spec hI h.live (BBuf.pushBytes_short ha) hf
    rw [ha] at e1
    simp only [Option.some.injEq, Prod.mk.injEq] at e1
    obtain ⟨rfl, rfl⟩ := e1
    obtain ⟨hr1, hr2⟩ := BBuf.mkRef_parts hr
    have hrep := h.mono ((e3 _).mpr h.live) (e5 d.buf)
    have hok := DSpec.add_ok h.ok k ins
    cases ins with
    | true =>
      simp only [if_true, Option.pure_def, Option.some.injEq] at hx
      subst hx
      simp only [DSpec.add, h3, if_true] at hok ⊢
      have hbuf : (d.storeRef M r).buf = d.buf := by unfold storeRef; split <;> rfl
      have hst : (d.storeRef M r).store = d.store ++ [r] := by unfold storeRef; split <;> rfl
      have hmk : (d.storeRef M r).hasMark = d.hasMark := by unfold storeRef; split <;> rfl
      have hsm : ∀ x, x ∈ (d.storeRef M r).short →
          x ∈ d.short ∨ x = (r, idToInner M d.store.length) := by
        intro x hx
        unfold storeRef at hx
        split at hx
        · rcases List.mem_cons.mp hx with h' | h'
          · exact Or.inr h'
          · exact Or.inl h'
        · exact Or.inl hx
      have hlm : ∀ x, x ∈ (d.storeRef M r).long →
          x ∈ d.long ∨ (x = (r, idToInner M d.store.length) ∧ 2 ^ 32 ≤ idToInner M d.store.length) := by
        intro x hx
        unfold storeRef at hx
        split at hx
        · exact Or.inl hx
        · rename_i hc
          rcases List.mem_cons.mp hx with h' | h'
          · exact Or.inr ⟨h', by omega⟩
          · exact Or.inl h'
      have hsup : (∀ x, x ∈ d.short → x ∈ (d.storeRef M r).short) ∧ (∀ x, x ∈ d.long → x ∈ (d.storeRef M r).long) := by
        unfold storeRef
        split
        · exact ⟨fun x hx => List.mem_cons_of_mem _ hx, fun x hx => hx⟩
        · exact ⟨fun x hx => hx, fun x hx => List.mem_cons_of_mem _ hx⟩
      have hnew : (r, idToInner M d.store.length) ∈ (d.storeRef M r).short ∨
          (r, idToInner M d.store.length) ∈ (d.storeRef M r).long := by
        unfold storeRef
        split
        · exact Or.inl (by simp)
        · exact Or.inr (by simp)
      have hget : ∀ (i r' : Nat), (d.store ++ [r])[i]? = some r' →
          (d.store[i]? = some r') ∨ (i = d.store.length ∧ r' = r) := by
        intro i r' h'
        rw [List.getElem?_append] at h'
        split at h'
        · exact Or.inl h'
        · rename_i hc
          have : i = d.store.length := by
            by_contra hne
            rw [List.getElem?_eq_none (by simp; omega)] at h'; simp at h'
          subst this
          simp at h'
          exact Or.inr ⟨rfl, h'.symm⟩
      have hget' : ∀ (i r' : Nat), d.store[i]? = some r' → (d.store ++ [r])[i]? = some r' := by
        intro i r' h'
        have hlt : i < d.store.length := by
          by_contra hc
          rw [List.getElem?_eq_none (by omega)] at h'; simp at h'
        rw [List.getElem?_append_left hlt, h']
      refine ⟨by rw [h.len], ⟨?_, ?_, ?_, ?_, ?_, ?_, ?_, hok⟩, e2, hbuf, e3, fun _ _ _ hh => e5 _ _ _ hh, hmk⟩
      · rw [hbuf]; exact hrep.live
      · rw [hst]; simp [h.len]
      · intro i r' k' hi hk'
        rw [hst] at hi
        rw [hbuf]
        rcases hget i r' hi with h' | ⟨rfl, rfl⟩
        · obtain ⟨k'', q1, q2, q3⟩ := hrep.key_of_store h'
          have hlt : i < sp.keys.length := by
            by_contra hc
            rw [List.getElem?_eq_none (by omega)] at q1; simp at q1
          rw [List.getElem?_append_left hlt, q1] at hk'
          simp only [Option.some.injEq] at hk'
          subst hk'
          exact ⟨q2, q3⟩
        · rw [h.len] at hk'
          simp at hk'
          subst hk'
          exact ⟨by rw [hr1]; exact e4, hr2⟩
      · intro r' v hm
        rw [hst, hbuf]
        rcases hsm _ hm with hm | hm
        · rcases hrep.short_mem r' v hm with ⟨i, q1, q2⟩ | q
          · exact Or.inl ⟨i, hget' _ _ q1, q2⟩
          · exact Or.inr q
        · simp only [Prod.mk.injEq] at hm
          exact Or.inl ⟨d.store.length, by simp [hm.1], hm.2⟩
      · intro r' v hm
        rw [hst]
        rcases hlm _ hm with hm | ⟨hm, hge⟩
        · obtain ⟨i, q1, q2, q3⟩ := h.long_mem r' v hm
          exact ⟨i, hget' _ _ q1, q2, q3⟩
        · simp only [Prod.mk.injEq] at hm
          exact ⟨d.store.length, by simp [hm.1], hm.2, by rw [hm.2]; exact hge⟩
      · intro i r' hi
        rw [hst] at hi
        rcases hget i r' hi with h' | ⟨rfl, rfl⟩
        · rcases h.mem_key i r' h' with q | q
          · exact Or.inl (hsup.1 _ q)
          · exact Or.inr (hsup.2 _ q)
        · exact hnew
      · intro k' hk'
        rw [hbuf]
        obtain ⟨r', q1, q2, q3⟩ := hrep.mem_mark k' hk'
        exact ⟨r', hsup.1 _ q1, q2, q3⟩
    | false =>
      simp only [Bool.false_eq_true, if_false, Option.pure_def, Option.some.injEq] at hx
      subst hx
      simp only [DSpec.add, h3, Bool.false_eq_true, if_false] at hok ⊢
      refine ⟨trivial, ⟨hrep.live, h.len, hrep.store, ?_, h.long_mem, ?_, ?_, hok⟩, e2, trivial, e3,
        fun _ _ _ hh => e5 _ _ _ hh, trivial⟩
      · intro r' v hm
        rcases List.mem_cons.mp hm with hm | hm
        · simp only [Prod.mk.injEq] at hm
          refine Or.inr ⟨hm.2, k, by simp, ?_, ?_⟩
          · rw [hm.1, hr1]; exact e4
          · rw [hm.1, hr2]
        · rcases hrep.short_mem r' v hm with q | ⟨q1, k', q2, q3⟩
          · exact Or.inl q
          · exact Or.inr ⟨q1, k', List.mem_append_left _ q2, q3⟩
      · intro i r' hi
        rcases h.mem_key i r' hi with q | q
        · exact Or.inl (List.mem_cons_of_mem _ q)
        · exact Or.inr q
      · intro k' hk'
        rcases List.mem_append.mp hk' with hk' | hk'
        · obtain ⟨r', q1, q2⟩ := hrep.mem_mark k' hk'
          exact ⟨r', List.mem_cons_of_mem _ q1, q2⟩
        · simp only [List.mem_singleton] at hk'
          subst hk'
          exact ⟨r, by simp, by rw [hr1]; exact e4, hr2⟩

/-! ### Several dictionaries over one buffer -/

/-- The calls a program makes on its dictionaries; dictionaries are numbered in the order of their
creation. -/
inductive Call where
  | new
  | add (i : Nat) (k : Bytes)
  | mark (i : Nat) (k : Bytes)
  | drop (i : Nat)

/-- All dictionaries of a program and the buffer they share. -/
structure World where
  buf : BBuf
  dicts : List (Option BDict)

/-- One call; `none` is a panic or a call of a dictionary that does not exist (ruled out by Rust's
ownership). -/
def World.call (P L A M : Nat) (w : World) : Call → Option (Option AddResult × World)
  | .new => some (none, ⟨(BDict.new w.buf).2, w.dicts ++ [some (BDict.new w.buf).1]⟩)
  | .add i k => do
    let d ← w.dicts[i]?.join
    let x ← d.add P L A M w.buf k
    return (some x.1, ⟨x.2.2, w.dicts.set i (some x.2.1)⟩)
  | .mark i k => do
    let d ← w.dicts[i]?.join
    let x ← d.mark P L A M w.buf k
    return (some x.1, ⟨x.2.2, w.dicts.set i (some x.2.1)⟩)
  | .drop i => do
    let d ← w.dicts[i]?.join
    return (none, ⟨d.drop w.buf, w.dicts.set i none⟩)

/-- The same call on independent specification dictionaries. -/
def specCall (ds : List (Option DSpec)) : Call → Option (Option AddResult × List (Option DSpec))
  | .new => some (none, ds ++ [some ⟨[], []⟩])
  | .add i k => do
    let d ← ds[i]?.join
    return (some (d.add k true).1, ds.set i (some (d.add k true).2))
  | .mark i k => do
    let d ← ds[i]?.join
    return (some (d.add k false).1, ds.set i (some (d.add k false).2))
  | .drop i => do
    let _ ← ds[i]?.join
    return (none, ds.set i none)

/-- no empty byte array is stored at the exact end of a page -/
def World.NoEdge (P : Nat) (w : World) : Call → Prop
  | .add i k => ∀ d, w.dicts[i]?.join = some d → k = [] → ¬ w.buf.FullPage P d.buf
  | .mark i k => ∀ d, w.dicts[i]?.join = some d → k = [] → ¬ w.buf.FullPage P d.buf
  | _ => True

/-- Histories of calls, with the answers and the specification state. -/
inductive World.Hist (P L A M : Nat) : World → List (Option DSpec) → Prop
  | start : World.Hist P L A M ⟨BBuf.new, []⟩ []
  | step {w w' ds c r} : World.Hist P L A M w ds → w.NoEdge P c → w.buf.pages.length * 2 ^ P < 2 ^ A →
      w.call P L A M c = some (r, w') → World.Hist P L A M w' (((specCall ds c).map (·.2)).getD ds)

/-- all dictionaries are represented, with pairwise different buffers -/
structure World.RepAll (P L A M : Nat) (w : World) (ds : List (Option DSpec)) : Prop where
  inv : w.buf.Inv P
  len : w.dicts.length = ds.length
  rep : ∀ (i : Nat) (d : BDict), w.dicts[i]?.join = some d →
    ∃ sp, ds[i]?.join = some sp ∧ Rep P L A M w.buf d sp
  none : ∀ (i : Nat), w.dicts[i]?.join = none → ds[i]?.join = none
  disj : ∀ (i j : Nat) (d e : BDict), w.dicts[i]?.join = some d → w.dicts[j]?.join = some e → i ≠ j → d.buf ≠ e.buf

theorem join_set {α : Type} (l : List (Option α)) (i j : Nat) (x : Option α) (hi : i < l.length) :
    (l.set i x)[j]?.join = if j = i then x else l[j]?.join := by
  rw [List.getElem?_set]
  by_cases h : i = j
  · subst h; simp [hi]
  · rw [if_neg h, if_neg (Ne.symm h)]

theorem join_append {α : Type} (l : List (Option α)) (j : Nat) (x : Option α) :
    (l ++ [x])[j]?.join = if j = l.length then x else l[j]?.join := by
  rw [List.getElem?_append]
  by_cases h : j < l.length
  · rw [if_pos h, if_neg (by omega)]
  · rw [if_neg h]
    by_cases h2 : j = l.length
    · subst h2; simp
    · rw [if_neg h2, List.getElem?_eq_none (by simp; omega), List.getElem?_eq_none (by omega)]

theorem join_lt {α : Type} {l : List (Option α)} {i : Nat} {d : α} (h : l[i]?.join = some d) : i < l.length := by
  by_contra hc
  rw [List.getElem?_eq_none (by omega)] at h; simp at h

/-- updating one dictionary -/
theorem repAll_update {w : World} {ds : List (Option DSpec)} (h : w.RepAll P L A M ds) {i : Nat} {d d' : BDict}
    {sp' : DSpec} {t : BBuf} (hd : w.dicts[i]?.join = some d) (hI : t.Inv P) (hb : d'.buf = d.buf)
    (hr : Rep P L A M t d' sp') (hL : ∀ b, t.Live b ↔ w.buf.Live b)
    (hh : ∀ b a bs, w.buf.Holds P b a bs → t.Holds P b a bs) :
    World.RepAll P L A M ⟨t, w.dicts.set i (some d')⟩ (ds.set i (some sp')) := by
  have hi := join_lt hd
  have hi' : i < ds.length := by rw [← h.len]; exact hi
  refine ⟨hI, by simp [h.len], ?_, ?_, ?_⟩
  · intro j e he
    simp only [join_set _ _ _ _ hi] at he
    rw [join_set _ _ _ _ hi']
    split at he
    · rename_i hj
      simp only [Option.some.injEq] at he
      subst he
      exact ⟨sp', by rw [if_pos hj], hr⟩
    · rename_i hj
      obtain ⟨sp, h1, h2⟩ := h.rep j e he
      exact ⟨sp, by rw [if_neg hj]; exact h1, h2.mono ((hL _).mpr h2.live) (hh _)⟩
  · intro j he
    simp only [join_set _ _ _ _ hi] at he
    rw [join_set _ _ _ _ hi']
    split at he
    · simp at he
    · rename_i hj
      rw [if_neg hj]; exact h.none j he
  · have key : ∀ (j : Nat) (e : BDict), (w.dicts.set i (some d'))[j]?.join = some e →
        ∃ e', w.dicts[j]?.join = some e' ∧ e'.buf = e.buf := by
      intro j e he
      rw [join_set _ _ _ _ hi] at he
      split at he
      · rename_i hj
        simp only [Option.some.injEq] at he
        subst he; subst hj
        exact ⟨d, hd, hb.symm⟩
      · exact ⟨e, he, rfl⟩
    intro j l e f he hf hne
    obtain ⟨e', h1, h2⟩ := key j e he
    obtain ⟨f', h3, h4⟩ := key l f hf
    rw [← h2, ← h4]
    exact h.disj j l e' f' h1 h3 hne

theorem call_rep {w : World} {ds : List (Option DSpec)} (h : w.RepAll P L A M ds) (hM : M < 2 ^ 32)
    (hs : w.buf.pages.length * 2 ^ P < 2 ^ A) {c : Call} (he : w.NoEdge P c) {r : Option AddResult} {w' : World}
    (hc : w.call P L A M c = some (r, w')) :
    ∃ ds', specCall ds c = some (r, ds') ∧ w'.RepAll P L A M ds' := by
  cases c with
  | new =>
    simp only [World.call, Option.some.injEq, Prod.mk.injEq] at hc
    obtain ⟨rfl, rfl⟩ := hc
    refine ⟨_, rfl, ?_⟩
    obtain ⟨h1, h2, h3, h4, h5⟩ := BBuf.initBuffer_spec h.inv
    have hold : ∀ b a bs, w.buf.Holds P b a bs → (BDict.new w.buf).2.Holds P b a bs :=
      fun b a bs hh => BBuf.holds_of_pages (fun p b' c hp => ⟨[], by simp [BDict.new, h3, hp]⟩) hh
    refine ⟨h1, by simp [h.len], ?_, ?_, ?_⟩
    · intro j e hj
      simp only [join_append] at hj ⊢
      split at hj
      · rename_i hlen
        simp only [Option.some.injEq] at hj
        subst hj
        exact ⟨⟨[], []⟩, by rw [if_pos (by rw [hlen, h.len])], new_rep h.inv⟩
      · rename_i hlen
        obtain ⟨sp, q1, q2⟩ := h.rep j e hj
        exact ⟨sp, by rw [if_neg (by rw [← h.len]; exact hlen)]; exact q1,
          q2.mono ((h4 _).mpr (Or.inr q2.live)) (hold _)⟩
    · intro j hj
      simp only [join_append] at hj ⊢
      split at hj
      · simp at hj
      · rename_i hlen
        rw [if_neg (by rw [← h.len]; exact hlen)]; exact h.none j hj
    · intro i j d e hd he' hne
      simp only [join_append] at hd he'
      have live : ∀ (j : Nat) (e : BDict), w.dicts[j]?.join = some e → e.buf ≠ (BDict.new w.buf).1.buf := by
        intro j e hj heq
        obtain ⟨sp, q1, q2⟩ := h.rep j e hj
        exact h2 (by have := q2.live; rw [heq] at this; exact this)
      split at hd
      · rename_i e1
        simp only [Option.some.injEq] at hd
        subst hd
        split at he'
        · rename_i e2; exact absurd (e1.trans e2.symm) hne
        · exact (live j e he').symm
      · split at he'
        · simp only [Option.some.injEq] at he'
          subst he'
          exact live i d hd
        · exact h.disj i j d e hd he' hne
  | add i k =>
    simp only [World.call, Option.bind_eq_bind, Option.bind_eq_some_iff, Option.pure_def, Option.some.injEq,
      Prod.mk.injEq] at hc
    obtain ⟨d, hd, x, hx, rfl, rfl⟩ := hc
    obtain ⟨sp, q1, q2⟩ := h.rep i d hd
    obtain ⟨e1, e2, e3, e4, e5, e6, _⟩ := addInner_rep q2 h.inv hs hM (he d hd) hx
    refine ⟨ds.set i (some (sp.add k true).2), ?_, ?_⟩
    · simp [specCall, q1, e1]
    · exact repAll_update h hd e3 e4 e2 e5 e6
  | mark i k =>
    simp only [World.call, Option.bind_eq_bind, Option.bind_eq_some_iff, Option.pure_def, Option.some.injEq,
      Prod.mk.injEq] at hc
    obtain ⟨d, hd, x, hx, rfl, rfl⟩ := hc
    obtain ⟨sp, q1, q2⟩ := h.rep i d hd
    have q2' : Rep P L A M w.buf { d with hasMark := true } sp :=
      ⟨q2.live, q2.len, q2.store, q2.short_mem, q2.long_mem, q2.mem_key, q2.mem_mark, q2.ok⟩
    obtain ⟨e1, e2, e3, e4, e5, e6, _⟩ := addInner_rep q2' h.inv hs hM (he d hd) hx
    refine ⟨ds.set i (some (sp.add k false).2), ?_, ?_⟩
    · simp [specCall, q1, e1]
    · exact repAll_update h hd e3 e4 e2 e5 e6
  | drop i =>
    simp only [World.call, Option.bind_eq_bind, Option.bind_eq_some_iff, Option.pure_def, Option.some.injEq,
      Prod.mk.injEq] at hc
    obtain ⟨d, hd, rfl, rfl⟩ := hc
    obtain ⟨sp, q1, q2⟩ := h.rep i d hd
    have hi := join_lt hd
    have hi' : i < ds.length := by rw [← h.len]; exact hi
    obtain ⟨h1, h2, h3⟩ := BBuf.dropBuffer_spec h.inv q2.live
    refine ⟨ds.set i none, by simp [specCall, q1], h1, by simp [h.len], ?_, ?_, ?_⟩
    · intro j e hj
      simp only [join_set _ _ _ _ hi] at hj
      rw [join_set _ _ _ _ hi']
      split at hj
      · simp at hj
      · rename_i hne
        obtain ⟨sp', p1, p2⟩ := h.rep j e hj
        have hbn := h.disj j i e d hj hd hne
        exact ⟨sp', by rw [if_neg hne]; exact p1, p2.mono ((h2 _).mpr ⟨hbn, p2.live⟩) (fun a bs => h3 _ a bs hbn)⟩
    · intro j hj
      simp only [join_set _ _ _ _ hi] at hj
      rw [join_set _ _ _ _ hi']
      split
      · rfl
      · rename_i hne
        rw [if_neg hne] at hj; exact h.none j hj
    · intro j l e f he' hf hne
      simp only [join_set _ _ _ _ hi] at he' hf
      split at he'
      · simp at he'
      · split at hf
        · simp at hf
        · exact h.disj j l e f he' hf hne

theorem hist_rep {w : World} {ds : List (Option DSpec)} (h : World.Hist P L A M w ds) (hM : M < 2 ^ 32) :
    w.RepAll P L A M ds := by
  induction h with
  | start => exact ⟨BBuf.inv_new, rfl, by simp, by simp, by simp⟩
  | @step w w' ds c r _ he hs hc ih =>
    obtain ⟨ds', h1, h2⟩ := call_rep ih hM hs he hc
    rw [h1]; exact h2

/-- **Dictionaries over the shared buffer are independent bijections**: after any history of
calls on any number of dictionaries, each answers `bytes_to_id` and `id_to_bytes` like a
dictionary of its own, and the next call (add, mark, create, drop) is answered likewise. -/
theorem dictionaries_refine {w : World} {ds : List (Option DSpec)} (h : World.Hist P L A M w ds) (hM : M < 2 ^ 32)
    (hs : w.buf.pages.length * 2 ^ P < 2 ^ A) :
    (∀ (i : Nat) (d : BDict), w.dicts[i]?.join = some d → ∃ sp, ds[i]?.join = some sp ∧ sp.Ok ∧
      (∀ k, d.bytesToId M (w.buf.readRef P L A) k = some (sp.toId k)) ∧
      (∀ id, d.idToBytes (w.buf.readRef P L A) id = some (sp.keys[id]?))) ∧
    (∀ (c : Call) (r : Option AddResult) (w' : World), w.NoEdge P c → w.call P L A M c = some (r, w') →
      ∃ ds', specCall ds c = some (r, ds') ∧ World.Hist P L A M w' ds') := by
  have hrep := hist_rep h hM
  refine ⟨?_, ?_⟩
  · intro i d hd
    obtain ⟨sp, h1, h2⟩ := hrep.rep i d hd
    exact ⟨sp, h1, h2.ok, fun k => h2.bytesToId_eq hs hM k, fun id => h2.idToBytes_eq hs id⟩
  · intro c r w' he hc
    obtain ⟨ds', h1, _⟩ := call_rep hrep hM hs he hc
    refine ⟨ds', h1, ?_⟩
    have := World.Hist.step h he hs hc
    rwa [h1] at this

end BDict

/-! ### What the specification means -/

namespace DSpec

/-- ids and keys correspond one to one -/
theorem bijection {d : DSpec} (h : d.Ok) (k : Bytes) (i : Nat) (hi : i < d.keys.length) :
    d.keys[i]? = some k ↔ (d.toId k = some i ∧ k ∈ d.keys) := by
  constructor
  · intro hk
    rw [List.getElem?_eq_getElem hi] at hk
    simp only [Option.some.injEq] at hk
    have hm : k ∈ d.keys := by rw [← hk]; exact List.getElem_mem hi
    exact ⟨by rw [toId, if_pos hm, ← hk, h.1.idxOf_getElem], hm⟩
  · rintro ⟨h1, h2⟩
    rw [toId, if_pos h2] at h1
    simp only [Option.some.injEq] at h1
    rw [← h1]
    exact List.getElem?_idxOf h2

/-- ids never change -/
theorem add_stable {d : DSpec} (h : d.Ok) (k k' : Bytes) (ins : Bool) (i : Nat) (hk : d.toId k' = some i) :
    (d.add k ins).2.toId k' = some i := by
  unfold add
  cases hn : d.toId k with
  | some j => exact hk
  | none =>
    cases ins with
    | true =>
      simp only [if_true]
      unfold toId at hk ⊢
      by_cases h1 : k' ∈ d.keys
      · rw [if_pos h1] at hk
        rw [if_pos (List.mem_append_left _ h1), ← hk]
        simp only [Option.some.injEq]
        exact List.idxOf_append_of_mem h1
      · rw [if_neg h1] at hk
        split at hk
        · rename_i h2
          rw [if_neg, if_pos h2, hk]
          simp only [List.mem_append, List.mem_singleton, not_or]
          refine ⟨h1, ?_⟩
          rintro rfl
          rw [toId_none] at hn
          exact hn.2 h2
        · simp at hk
    | false =>
      simp only [Bool.false_eq_true, if_false]
      unfold toId at hk ⊢
      by_cases h1 : k' ∈ d.keys
      · simp only [if_pos h1] at hk ⊢; exact hk
      · simp only [if_neg h1] at hk ⊢
        split at hk
        · rename_i h2
          rw [if_pos (List.mem_append_left _ h2), hk]
        · simp at hk

/-- an added key is found under the id that was returned -/
theorem add_toId {d : DSpec} (k : Bytes) (ins : Bool) :
    (d.add k ins).2.toId k = some (d.add k ins).1.value := by
  unfold add
  cases hn : d.toId k with
  | some j => exact hn
  | none =>
    rw [toId_none] at hn
    cases ins with
    | true =>
      simp only [if_true, AddResult.value, toId]
      rw [if_pos (by simp), List.idxOf_append_of_notMem hn.1]
      simp
    | false =>
      simp only [Bool.false_eq_true, if_false, AddResult.value, toId]
      rw [if_neg hn.1, if_pos (by simp)]

end DSpec

/-- Two dictionaries sharing a buffer: the same bytes get independent ids. -/
example : ∃ w ds, BDict.World.Hist 25 24 40 (2 ^ 32 - 1) w ds ∧
    ds.map (Option.map DSpec.keys) = [some [[1], [2]], some [[2]]] := by
  have h0 := BDict.World.Hist.start (P := 25) (L := 24) (A := 40) (M := 2 ^ 32 - 1)
  have h1 := BDict.World.Hist.step (c := .new) (r := none) h0 trivial (by decide) rfl
  have h2 := BDict.World.Hist.step (c := .new) (r := none) h1 trivial (by decide) rfl
  have h3 := BDict.World.Hist.step (c := .add 0 [1]) (r := some (.fresh 0)) h2 (by simp [BDict.World.NoEdge]) (by decide) rfl
  have h4 := BDict.World.Hist.step (c := .add 1 [2]) (r := some (.fresh 0)) h3 (by simp [BDict.World.NoEdge]) (by decide) rfl
  have h5 := BDict.World.Hist.step (c := .add 0 [2]) (r := some (.fresh 1)) h4 (by simp [BDict.World.NoEdge]) (by decide) rfl
  exact ⟨_, _, h5, by decide⟩

end Verif
