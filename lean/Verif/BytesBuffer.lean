/-
The global byte buffer of the dictionaries: pages, buffers, references.

Modelled code: `nemo-physical/src/dictionary/bytes_buffer.rs:13-197` (`BytesBuffer`) and
`271-352` (`BytesRef`).  Bytes are `UInt8`, addresses and `u64` references natural numbers.
A panic, and every access through `get_unchecked` that is out of bounds, is `none`.  The lock is
not modelled: one thread.  The page size (`2 ^ P`), the number of length bits `L` and of address
bits `A` of a reference are parameters; in the code they are 25, 24 and 40.
-/
import Mathlib.Data.List.Basic
import Mathlib.Data.List.Nodup
import Mathlib.Data.List.GetD
import Mathlib.Tactic.Push

set_option linter.unusedSimpArgs false
set_option linter.unusedVariables false

namespace Verif

/-- A byte array. -/
abbrev Bytes := List UInt8

/-- `BytesBuffer`, bytes_buffer.rs:45-58: pages with their owner, the current page of each
buffer, and the queues of reclaimed buffers and pages. -/
structure BBuf where
  pages : List (Option Nat × Bytes)
  cur : List (Option Nat)
  recB : List Nat
  recP : List Nat
deriving DecidableEq

namespace BBuf

/-- `BytesBuffer::new`, bytes_buffer.rs:62-71. -/
def new : BBuf := ⟨[], [], [], []⟩

/-- bytes_buffer.rs:81-85 -/
def resetCur (cur : List (Option Nat)) (b : Nat) : List (Option Nat) :=
  if b < cur.length then cur.set b none else cur ++ [none]

/-- `init_buffer`, bytes_buffer.rs:73-88. -/
def initBuffer (s : BBuf) : Nat × BBuf :=
  match s.recB with
  | [] => (s.cur.length, { s with cur := resetCur s.cur s.cur.length })
  | b :: rest => (b, { s with recB := rest, cur := resetCur s.cur b })

/-- a page after `drop_buffer` (bytes_buffer.rs:97-100) -/
def clearPage (b : Nat) (pg : Option Nat × Bytes) : Option Nat × Bytes :=
  if pg.1 = some b then (none, []) else pg

/-- the pages that `drop_buffer` reclaims (bytes_buffer.rs:96-101) -/
def ownedPages (b : Nat) (pages : List (Option Nat × Bytes)) : List Nat :=
  (List.range pages.length).filter fun i => decide ((pages[i]?.map Prod.fst) = some (some b))

/-- `drop_buffer`, bytes_buffer.rs:92-105. -/
def dropBuffer (s : BBuf) (b : Nat) : BBuf :=
  { s with
    recB := s.recB ++ [b]
    pages := s.pages.map (clearPage b)
    recP := s.recP ++ ownedPages b s.pages }

/-- allocate or reclaim a page for buffer `b` (bytes_buffer.rs:118-131 and 137-149) -/
def newPage (s : BBuf) (b : Nat) : Nat × BBuf :=
  match s.recP with
  | [] => (s.pages.length,
      { s with pages := s.pages ++ [(some b, [])], cur := s.cur.set b (some s.pages.length) })
  | p :: rest => (p,
      { s with recP := rest, pages := s.pages.set p (some b, []), cur := s.cur.set b (some p) })

/-- the page of a buffer (bytes_buffer.rs:114-133) -/
def firstPage (s : BBuf) (b : Nat) : Option (Nat × BBuf) := do
  let c ← s.cur[b]?
  match c with
  | some p => return (p, s)
  | none => return s.newPage b

/-- a page with enough space (bytes_buffer.rs:135-150) -/
def roomyPage (P : Nat) (s : BBuf) (b p len : Nat) : Option (Nat × BBuf) := do
  let pg ← s.pages[p]?
  if 2 ^ P < pg.2.length + len then return s.newPage b else return (p, s)

/-- `push_bytes`, bytes_buffer.rs:109-162: the address of the new bytes. -/
def pushBytes (P : Nat) (s : BBuf) (b : Nat) (bytes : Bytes) : Option (Nat × BBuf) := do
  if ¬ bytes.length < 2 ^ P then none else
  let r ← s.firstPage b
  let r ← roomyPage P r.2 b r.1 bytes.length
  let pg ← r.2.pages[r.1]?
  return (r.1 * 2 ^ P + pg.2.length,
    { r.2 with pages := r.2.pages.set r.1 (pg.1, pg.2 ++ bytes) })

/-- `get_bytes`, bytes_buffer.rs:166-174. -/
def getBytes (P : Nat) (s : BBuf) (addr len : Nat) : Option Bytes := do
  let pg ← s.pages[addr >>> P]?
  if addr % 2 ^ P + len ≤ pg.2.length then return (pg.2.drop (addr % 2 ^ P)).take len else none

/-- `BytesRef::new`, bytes_buffer.rs:304-313. -/
def mkRef (L A addr len : Nat) : Option Nat :=
  if len ≤ 2 ^ L - 1 ∧ addr ≤ 2 ^ A - 1 then some ((addr <<< L) + len) else none

/-- `push_bytes` of a `GlobalBytesBuffer`, bytes_buffer.rs:245-250: the reference. -/
def pushRef (P L A : Nat) (s : BBuf) (b : Nat) (bytes : Bytes) : Option (Nat × BBuf) := do
  let r ← pushBytes P s b bytes
  let ref ← mkRef L A r.1 bytes.length
  return (ref, r.2)

/-- `as_vec` of a reference, bytes_buffer.rs:317-352 (with the debug assertion of line 333: the
address is not the largest possible one). -/
def readRef (P L A : Nat) (s : BBuf) (ref : Nat) : Option Bytes :=
  if ref >>> L = 2 ^ A - 1 then none else getBytes P s (ref >>> L) (ref % 2 ^ L)

/-! ### The invariant -/

/-- What holds between all operations. -/
structure Inv (P : Nat) (s : BBuf) : Prop where
  size : ∀ (p : Nat) (o : Option Nat) (c : Bytes), s.pages[p]? = some (o, c) → c.length ≤ 2 ^ P
  owner : ∀ (p b : Nat) (c : Bytes), s.pages[p]? = some (some b, c) → b < s.cur.length ∧ b ∉ s.recB
  recP_nodup : s.recP.Nodup
  recP_free : ∀ p ∈ s.recP, ∃ c : Bytes, s.pages[p]? = some (none, c)
  recB_nodup : s.recB.Nodup
  recB_lt : ∀ b ∈ s.recB, b < s.cur.length
  cur_ok : ∀ b p : Nat, b ∉ s.recB → s.cur[b]? = some (some p) →
    ∃ c : Bytes, s.pages[p]? = some (some b, c)

/-- Buffer `b` holds `bs` at address `a`. -/
def Holds (P : Nat) (s : BBuf) (b a : Nat) (bs : Bytes) : Prop :=
  ∃ (p : Nat) (pre post : Bytes), s.pages[p]? = some (some b, pre ++ bs ++ post) ∧
    a = p * 2 ^ P + pre.length ∧ pre.length < 2 ^ P

/-- `b` was handed out and not dropped. -/
def Live (s : BBuf) (b : Nat) : Prop := b < s.cur.length ∧ b ∉ s.recB

variable {P : Nat}

theorem inv_new : Inv P new := by
  constructor <;> simp [new]

theorem getElem?_resetCur (cur : List (Option Nat)) (b i : Nat) (hb : b ≤ cur.length) :
    (resetCur cur b)[i]? = if i = b then some none else cur[i]? := by
  unfold resetCur
  split
  · rename_i h
    rw [List.getElem?_set]
    by_cases hi : b = i
    · subst hi; simp [h]
    · rw [if_neg hi, if_neg (Ne.symm hi)]
  · rename_i h
    have : b = cur.length := by omega
    subst this
    rw [List.getElem?_append]
    by_cases hi : i = cur.length
    · subst hi; simp
    · by_cases h2 : i < cur.length
      · simp [h2, hi]
      · have h3 : cur.length < i := by omega
        simp [h2, hi]
        omega

theorem length_resetCur (cur : List (Option Nat)) (b : Nat) (hb : b ≤ cur.length) :
    (resetCur cur b).length = max cur.length (b + 1) := by
  unfold resetCur
  split
  · simp; omega
  · simp; omega

/-- `init_buffer` hands out a buffer that is not live and leaves the pages alone. -/
theorem initBuffer_spec {s : BBuf} (hI : Inv P s) :
    Inv P s.initBuffer.2 ∧ ¬ Live s s.initBuffer.1 ∧ s.initBuffer.2.pages = s.pages ∧
      (∀ b, Live s.initBuffer.2 b ↔ (b = s.initBuffer.1 ∨ Live s b)) ∧
      s.initBuffer.2.cur[s.initBuffer.1]? = some none := by
  unfold initBuffer
  cases hr : s.recB with
  | nil =>
    have hl : (resetCur s.cur s.cur.length).length = s.cur.length + 1 := by
      rw [length_resetCur _ _ (Nat.le_refl _)]; omega
    refine ⟨⟨hI.size, ?_, hI.recP_nodup, hI.recP_free, ?_, ?_, ?_⟩, ?_, rfl, ?_, ?_⟩
    · intro p b c h
      have := hI.owner p b c h
      simp only [hl]
      exact ⟨by omega, by simp [hr]⟩
    · simp
    · intro b hb; simp [hr] at hb
    · intro b p hb h
      simp only [getElem?_resetCur _ _ _ (Nat.le_refl _)] at h
      split at h
      · simp at h
      · exact hI.cur_ok b p (by simp [hr]) h
    · simp [Live]
    · intro b
      simp only [Live, hl, hr]
      simp; omega
    · simp [getElem?_resetCur]
  | cons b₀ rest =>
    have hlt : b₀ < s.cur.length := hI.recB_lt b₀ (by simp [hr])
    have hnd := hI.recB_nodup
    rw [hr] at hnd
    have hl : (resetCur s.cur b₀).length = s.cur.length := by
      rw [length_resetCur _ _ (by omega)]; omega
    refine ⟨⟨hI.size, ?_, hI.recP_nodup, hI.recP_free, ?_, ?_, ?_⟩, ?_, rfl, ?_, ?_⟩
    · intro p b c h
      have := hI.owner p b c h
      rw [hr] at this
      simp only [hl]
      exact ⟨this.1, fun hm => this.2 (List.mem_cons_of_mem _ hm)⟩
    · exact (List.nodup_cons.mp hnd).2
    · intro b hb
      simp only [hl]
      exact hI.recB_lt b (by rw [hr]; exact List.mem_cons_of_mem _ hb)
    · intro b p hb h
      simp only [getElem?_resetCur _ _ _ (Nat.le_of_lt hlt)] at h
      split at h
      · simp at h
      · rename_i hne
        exact hI.cur_ok b p (by rw [hr]; simp [hne]; exact hb) h
    · simp [Live, hr]
    · intro b
      simp only [Live, hl, hr]
      constructor
      · rintro ⟨h1, h2⟩
        by_cases hb : b = b₀
        · exact Or.inl hb
        · exact Or.inr ⟨h1, by simp [hb]; exact h2⟩
      · rintro (rfl | ⟨h1, h2⟩)
        · exact ⟨hlt, (List.nodup_cons.mp hnd).1⟩
        · exact ⟨h1, fun hm => h2 (List.mem_cons_of_mem _ hm)⟩
    · simp [getElem?_resetCur _ _ _ (Nat.le_of_lt hlt)]

theorem getElem?_clear (b : Nat) (pages : List (Option Nat × Bytes)) (i : Nat) :
    (pages.map (clearPage b))[i]? = (pages[i]?).map (clearPage b) := by simp

theorem mem_ownedPages {b : Nat} {pages : List (Option Nat × Bytes)} {i : Nat} :
    i ∈ ownedPages b pages ↔ ∃ c : Bytes, pages[i]? = some (some b, c) := by
  unfold ownedPages
  simp only [List.mem_filter, List.mem_range, decide_eq_true_eq]
  constructor
  · rintro ⟨h1, h2⟩
    cases h : pages[i]? with
    | none => simp [h] at h2
    | some pg =>
      simp only [h, Option.map_some, Option.some.injEq] at h2
      exact ⟨pg.2, by rw [← h2]⟩
  · rintro ⟨c, h⟩
    have : i < pages.length := by
      by_contra hc
      rw [List.getElem?_eq_none (by omega)] at h; simp at h
    exact ⟨this, by simp [h]⟩

/-- `drop_buffer` ends exactly the dropped buffer. -/
theorem dropBuffer_spec {s : BBuf} (hI : Inv P s) {b : Nat} (hb : Live s b) :
    Inv P (s.dropBuffer b) ∧ (∀ b', Live (s.dropBuffer b) b' ↔ (b' ≠ b ∧ Live s b')) ∧
      ∀ b' a bs, b' ≠ b → Holds P s b' a bs → Holds P (s.dropBuffer b) b' a bs := by
  have hpg : ∀ (p : Nat) (o : Option Nat) (c : Bytes), (s.dropBuffer b).pages[p]? = some (o, c) →
      (s.pages[p]? = some (o, c) ∧ o ≠ some b) ∨ (o = none ∧ c = [] ∧ ∃ c', s.pages[p]? = some (some b, c')) := by
    intro p o c h
    simp only [dropBuffer, getElem?_clear] at h
    cases hp : s.pages[p]? with
    | none => simp [hp] at h
    | some pg =>
      simp only [hp, Option.map_some, Option.some.injEq, clearPage] at h
      split at h
      · rename_i ho
        simp only [Prod.mk.injEq] at h
        exact Or.inr ⟨h.1.symm, h.2.symm, pg.2, by rw [← ho]⟩
      · rename_i ho
        rw [h] at ho
        exact Or.inl ⟨by rw [h], ho⟩
  refine ⟨⟨?_, ?_, ?_, ?_, ?_, ?_, ?_⟩, ?_, ?_⟩
  · intro p o c h
    rcases hpg p o c h with ⟨h1, _⟩ | ⟨_, h2, _⟩
    · exact hI.size p o c h1
    · rw [h2]; simp
  · intro p b' c h
    rcases hpg p _ c h with ⟨h1, h2⟩ | ⟨h2, _⟩
    · have := hI.owner p b' c h1
      refine ⟨this.1, ?_⟩
      simp only [dropBuffer, List.mem_append, List.mem_singleton]
      rintro (h3 | rfl)
      · exact this.2 h3
      · exact h2 rfl
    · simp at h2
  · simp only [dropBuffer]
    refine List.Nodup.append hI.recP_nodup ?_ ?_
    · exact List.Nodup.filter _ List.nodup_range
    · intro p h1 h2
      obtain ⟨c, hc⟩ := hI.recP_free p h1
      obtain ⟨c', hc'⟩ := mem_ownedPages.mp h2
      rw [hc] at hc'; simp at hc'
  · intro p hp
    simp only [dropBuffer, List.mem_append] at hp
    simp only [dropBuffer, getElem?_clear]
    rcases hp with hp | hp
    · obtain ⟨c, hc⟩ := hI.recP_free p hp
      exact ⟨c, by simp [hc, clearPage]⟩
    · obtain ⟨c', hc'⟩ := mem_ownedPages.mp hp
      exact ⟨[], by simp [hc', clearPage]⟩
  · simp only [dropBuffer]
    refine List.Nodup.append hI.recB_nodup (by simp) ?_
    intro x h1 h2
    simp only [List.mem_singleton] at h2
    subst h2
    exact hb.2 h1
  · intro x hx
    simp only [dropBuffer, List.mem_append, List.mem_singleton] at hx
    rcases hx with hx | rfl
    · exact hI.recB_lt x hx
    · exact hb.1
  · intro b' p hb' h
    simp only [dropBuffer, List.mem_append, List.mem_singleton, not_or] at hb'
    obtain ⟨c, hc⟩ := hI.cur_ok b' p hb'.1 h
    refine ⟨c, ?_⟩
    simp only [dropBuffer, getElem?_clear, hc, Option.map_some, clearPage]
    rw [if_neg (by simp; exact hb'.2)]
  · intro b'
    simp only [Live, dropBuffer, List.mem_append, List.mem_singleton, not_or]
    constructor
    · rintro ⟨h1, h2, h3⟩; exact ⟨h3, h1, h2⟩
    · rintro ⟨h3, h1, h2⟩; exact ⟨h1, h2, h3⟩
  · rintro b' a bs hne ⟨p, pre, post, h1, h2, h3⟩
    refine ⟨p, pre, post, ?_, h2, h3⟩
    simp only [dropBuffer, getElem?_clear, h1, Option.map_some, clearPage]
    rw [if_neg (by simp; exact hne)]

/-- Allocating a page for `b`: it is empty, owned by `b`, and no owned page changes. -/
theorem newPage_spec {s : BBuf} (hI : Inv P s) {b : Nat} (hb : Live s b) :
    Inv P (s.newPage b).2 ∧ (s.newPage b).2.pages[(s.newPage b).1]? = some (some b, []) ∧
      (∀ (p b' : Nat) (c : Bytes), s.pages[p]? = some (some b', c) →
        (s.newPage b).2.pages[p]? = some (some b', c)) ∧
      (∀ b', Live (s.newPage b).2 b' ↔ Live s b') ∧
      (s.newPage b).2.cur[b]? = some (some (s.newPage b).1) ∧
      (s.newPage b).2.pages.length ≤ s.pages.length + 1 := by
  unfold newPage
  have hset : ∀ (x : Option Nat) (i : Nat), (s.cur.set b x)[i]? = if i = b then some x else s.cur[i]? := by
    intro x i
    rw [List.getElem?_set]
    by_cases hi : b = i
    · subst hi; simp [hb.1]
    · rw [if_neg hi, if_neg (Ne.symm hi)]
  cases hr : s.recP with
  | nil =>
    have hap : ∀ p, (s.pages ++ [(some b, ([] : Bytes))])[p]? =
        if p = s.pages.length then some (some b, []) else s.pages[p]? := by
      intro p
      rw [List.getElem?_append]
      by_cases h1 : p < s.pages.length
      · rw [if_pos h1, if_neg (by omega)]
      · rw [if_neg h1]
        by_cases h2 : p = s.pages.length
        · subst h2; simp
        · rw [if_neg h2, List.getElem?_eq_none (by simp; omega), List.getElem?_eq_none (by omega)]
    refine ⟨⟨?_, ?_, ?_, ?_, hI.recB_nodup, ?_, ?_⟩, ?_, ?_, ?_, ?_, ?_⟩
    · intro p o c h
      simp only [hap] at h
      split at h
      · simp at h; rw [h.2]; simp
      · exact hI.size p o c h
    · intro p b' c h
      simp only [hap] at h
      simp only [List.length_set]
      split at h
      · simp at h; rw [← h.1]; exact hb
      · exact hI.owner p b' c h
    · simp
    · intro p hp
      simp at hp
    · intro x hx; simp; exact hI.recB_lt x hx
    · intro b' p hb' h
      simp only [hset] at h
      split at h
      · rename_i he
        simp only [Option.some.injEq] at h
        refine ⟨[], ?_⟩
        simp only [hap, ← h, if_true, he]
      · obtain ⟨c, hc⟩ := hI.cur_ok b' p hb' h
        refine ⟨c, ?_⟩
        simp only [hap]
        rw [if_neg, hc]
        rintro rfl
        rw [List.getElem?_eq_none (Nat.le_refl _)] at hc; simp at hc
    · simp only [hap, if_true]
    · intro p b' c h
      simp only [hap]
      rw [if_neg, h]
      rintro rfl
      rw [List.getElem?_eq_none (Nat.le_refl _)] at h; simp at h
    · intro b'; simp [Live]
    · simp only [hset, if_true]
    · simp
  | cons p₀ rest =>
    obtain ⟨c₀, hc₀⟩ := hI.recP_free p₀ (by simp [hr])
    have hlt : p₀ < s.pages.length := by
      by_contra hc
      rw [List.getElem?_eq_none (by omega)] at hc₀; simp at hc₀
    have hnd := hI.recP_nodup
    rw [hr] at hnd
    have hap : ∀ p, (s.pages.set p₀ (some b, ([] : Bytes)))[p]? =
        if p = p₀ then some (some b, []) else s.pages[p]? := by
      intro p
      rw [List.getElem?_set]
      by_cases hi : p₀ = p
      · subst hi; simp [hlt]
      · rw [if_neg hi, if_neg (Ne.symm hi)]
    refine ⟨⟨?_, ?_, ?_, ?_, hI.recB_nodup, ?_, ?_⟩, ?_, ?_, ?_, ?_, ?_⟩
    · intro p o c h
      simp only [hap] at h
      split at h
      · simp at h; rw [h.2]; simp
      · exact hI.size p o c h
    · intro p b' c h
      simp only [hap] at h
      simp only [List.length_set]
      split at h
      · simp at h; rw [← h.1]; exact hb
      · exact hI.owner p b' c h
    · exact (List.nodup_cons.mp hnd).2
    · intro p hp
      obtain ⟨c, hc⟩ := hI.recP_free p (by rw [hr]; exact List.mem_cons_of_mem _ hp)
      refine ⟨c, ?_⟩
      simp only [hap]
      rw [if_neg, hc]
      rintro rfl
      exact (List.nodup_cons.mp hnd).1 hp
    · intro x hx; simp; exact hI.recB_lt x hx
    · intro b' p hb' h
      simp only [hset] at h
      split at h
      · rename_i he
        simp only [Option.some.injEq] at h
        refine ⟨[], ?_⟩
        simp only [hap, ← h, if_true, he]
      · obtain ⟨c, hc⟩ := hI.cur_ok b' p hb' h
        refine ⟨c, ?_⟩
        simp only [hap]
        rw [if_neg, hc]
        rintro rfl
        rw [hc₀] at hc; simp at hc
    · simp only [hap, if_true]
    · intro p b' c h
      simp only [hap]
      rw [if_neg, h]
      rintro rfl
      rw [hc₀] at h; simp at h
    · intro b'; simp [Live]
    · simp only [hset, if_true]
    · simp

theorem holds_of_pages {s t : BBuf} (h : ∀ (p b' : Nat) (c : Bytes), s.pages[p]? = some (some b', c) →
    ∃ c', t.pages[p]? = some (some b', c ++ c')) {b a : Nat} {bs : Bytes} (hh : Holds P s b a bs) :
    Holds P t b a bs := by
  obtain ⟨p, pre, post, h1, h2, h3⟩ := hh
  obtain ⟨c', hc'⟩ := h p b _ h1
  exact ⟨p, pre, post ++ c', by rw [hc']; simp, h2, h3⟩

/-- The page of the buffer is exactly full (then pushing nothing gives a reference into the next
page). -/
def FullPage (P : Nat) (s : BBuf) (b : Nat) : Prop :=
  ∃ (p : Nat) (o : Option Nat) (c : Bytes), s.cur[b]? = some (some p) ∧
    s.pages[p]? = some (o, c) ∧ c.length = 2 ^ P

/-- `push_bytes` on a live buffer: it succeeds for everything shorter than a page, the new bytes
are held at the returned address, and everything held before still is. -/
theorem pushBytes_spec {s : BBuf} (hI : Inv P s) {b : Nat} (hb : Live s b) {bs : Bytes}
    (hlen : bs.length < 2 ^ P) (hfull : bs = [] → ¬ FullPage P s b) :
    ∃ a t, pushBytes P s b bs = some (a, t) ∧ Inv P t ∧ (∀ b', Live t b' ↔ Live s b') ∧
      Holds P t b a bs ∧ (∀ b' a' bs', Holds P s b' a' bs' → Holds P t b' a' bs') ∧
      t.pages.length ≤ s.pages.length + 1 ∧ a < t.pages.length * 2 ^ P := by
  -- the page chosen first
  obtain ⟨p₁, s₁, e1, hI1, hL1, hmono1, ⟨c₁, hc1⟩, hcur1, hpl1⟩ : ∃ p₁ s₁, s.firstPage b = some (p₁, s₁) ∧ Inv P s₁ ∧
      (∀ b', Live s₁ b' ↔ Live s b') ∧
      (∀ (p b' : Nat) (c : Bytes), s.pages[p]? = some (some b', c) → s₁.pages[p]? = some (some b', c)) ∧
      (∃ c : Bytes, s₁.pages[p₁]? = some (some b, c) ∧
        ((s.cur[b]? = some (some p₁) ∧ s₁ = s) ∨ c = [])) ∧ s₁.cur[b]? = some (some p₁) ∧
      s₁.pages.length ≤ s.pages.length + 1 := by
    unfold firstPage
    cases hc : s.cur[b]? with
    | none =>
      rw [List.getElem?_eq_none_iff] at hc
      exact absurd hb.1 (by omega)
    | some o =>
      cases o with
      | some p =>
        obtain ⟨c, h⟩ := hI.cur_ok b p hb.2 hc
        exact ⟨p, s, rfl, hI, fun _ => Iff.rfl, fun _ _ _ h => h, ⟨c, h, Or.inl ⟨hc ▸ rfl, rfl⟩⟩, hc, by omega⟩
      | none =>
        obtain ⟨h1, h2, h3, h4, h5, h6⟩ := newPage_spec hI hb
        exact ⟨_, _, rfl, h1, h4, h3, ⟨[], h2, Or.inr rfl⟩, h5, h6⟩
  have hb1 : Live s₁ b := (hL1 b).mpr hb
  have hpos : 0 < 2 ^ P := Nat.pow_pos (by omega)
  -- the page that is used
  obtain ⟨p₂, s₂, c₂, e2, hI2, hL2, hmono2, hc2, hroom, hlt2, hpl2⟩ : ∃ p₂ s₂ c₂,
      roomyPage P s₁ b p₁ bs.length = some (p₂, s₂) ∧ Inv P s₂ ∧
      (∀ b', Live s₂ b' ↔ Live s₁ b') ∧
      (∀ (p b' : Nat) (c : Bytes), s₁.pages[p]? = some (some b', c) → s₂.pages[p]? = some (some b', c)) ∧
      s₂.pages[p₂]? = some (some b, c₂) ∧ c₂.length + bs.length ≤ 2 ^ P ∧ c₂.length < 2 ^ P ∧
      s₂.pages.length ≤ s.pages.length + 1 := by
    unfold roomyPage
    rw [hc1.1]
    simp only [Option.bind_eq_bind, Option.bind_some]
    split
    · rename_i hgt
      obtain ⟨h1, h2, h3, h4, h5, h6⟩ := newPage_spec hI1 hb1
      refine ⟨_, _, [], rfl, h1, h4, h3, h2, by simp; omega, by simpa using hpos, ?_⟩
      rcases hc1.2 with ⟨_, h⟩ | h
      · rw [h] at h6 ⊢; exact h6
      · rw [h] at hgt; simp at hgt; omega
    · rename_i hle
      refine ⟨p₁, s₁, c₁, rfl, hI1, fun _ => Iff.rfl, fun _ _ _ h => h, hc1.1, by omega, ?_, by omega⟩
      by_contra hc
      have hz : bs.length = 0 := by omega
      have hs := hI1.size _ _ _ hc1.1
      rcases hc1.2 with ⟨h1, h2⟩ | h
      · exact hfull (List.length_eq_zero_iff.mp hz) ⟨p₁, _, c₁, h1, by rw [← h2]; exact hc1.1, by omega⟩
      · rw [h] at hc; simp at hc
  have hset : ∀ p, (s₂.pages.set p₂ (some b, c₂ ++ bs))[p]? =
      if p = p₂ then some (some b, c₂ ++ bs) else s₂.pages[p]? := by
    intro p
    have hlt : p₂ < s₂.pages.length := by
      by_contra hc
      rw [List.getElem?_eq_none (by omega)] at hc2; simp at hc2
    rw [List.getElem?_set]
    by_cases hi : p₂ = p
    · subst hi; simp [hlt]
    · rw [if_neg hi, if_neg (Ne.symm hi)]
  refine ⟨p₂ * 2 ^ P + c₂.length, { s₂ with pages := s₂.pages.set p₂ (some b, c₂ ++ bs) }, ?_, ?_, ?_, ?_, ?_, ?_, ?_⟩
  · unfold pushBytes
    rw [if_neg (by simpa using hlen)]
    simp [e1, e2, hc2]
  · refine ⟨?_, ?_, hI2.recP_nodup, ?_, hI2.recB_nodup, hI2.recB_lt, ?_⟩
    · intro p o c h
      simp only [hset] at h
      split at h
      · simp at h; rw [← h.2]; simp; omega
      · exact hI2.size p o c h
    · intro p b' c h
      simp only [hset] at h
      split at h
      · simp at h; rw [← h.1]; exact hI2.owner _ _ _ hc2
      · exact hI2.owner p b' c h
    · intro p hp
      obtain ⟨c, hc⟩ := hI2.recP_free p hp
      refine ⟨c, ?_⟩
      simp only [hset]
      rw [if_neg, hc]
      rintro rfl
      rw [hc2] at hc; simp at hc
    · intro b' p hb' h
      obtain ⟨c, hc⟩ := hI2.cur_ok b' p hb' h
      simp only [hset]
      split
      · rename_i he
        subst he
        rw [hc2] at hc
        simp at hc
        exact ⟨_, by rw [hc.1]⟩
      · exact ⟨c, hc⟩
  · intro b'
    rw [← hL1, ← hL2]
    simp [Live]
  · refine ⟨p₂, c₂, [], ?_, rfl, hlt2⟩
    simp only [hset, if_true, List.append_nil]
  · intro b' a' bs' hh
    refine holds_of_pages ?_ hh
    intro p b'' c h
    have h2 := hmono2 _ _ _ (hmono1 _ _ _ h)
    simp only [hset]
    by_cases he : p = p₂
    · subst he
      rw [hc2] at h2
      simp only [Option.some.injEq, Prod.mk.injEq] at h2
      obtain ⟨h2a, h2b⟩ := h2
      refine ⟨bs, ?_⟩
      rw [if_pos rfl, ← h2a, h2b]
    · exact ⟨[], by rw [if_neg he, h2]; simp⟩
  · simp; omega
  · have hlt : p₂ < s₂.pages.length := by
      by_contra hc
      rw [List.getElem?_eq_none (by omega)] at hc2; simp at hc2
    simp only [List.length_set]
    calc p₂ * 2 ^ P + c₂.length < p₂ * 2 ^ P + 2 ^ P := by omega
      _ = (p₂ + 1) * 2 ^ P := by rw [Nat.add_mul]; omega
      _ ≤ s₂.pages.length * 2 ^ P := Nat.mul_le_mul_right _ hlt

theorem getBytes_of_holds {s : BBuf} {b a : Nat} {bs : Bytes} (h : Holds P s b a bs) :
    getBytes P s a bs.length = some bs := by
  obtain ⟨p, pre, post, h1, h2, h3⟩ := h
  have hpos : 0 < 2 ^ P := Nat.pow_pos (by omega)
  have e1 : a >>> P = p := by
    rw [Nat.shiftRight_eq_div_pow, h2, Nat.mul_comm, Nat.mul_add_div hpos, Nat.div_eq_of_lt h3]; simp
  have e2 : a % 2 ^ P = pre.length := by
    rw [h2, Nat.mul_comm, Nat.mul_add_mod, Nat.mod_eq_of_lt h3]
  simp [getBytes, e1, e2, h1]

theorem mkRef_parts {L A a len r : Nat} (h : mkRef L A a len = some r) : r >>> L = a ∧ r % 2 ^ L = len := by
  unfold mkRef at h
  split at h
  · rename_i hc
    simp only [Option.some.injEq] at h
    have hpos : 0 < 2 ^ L := Nat.pow_pos (by omega)
    have hl : len < 2 ^ L := by omega
    subst h
    rw [Nat.shiftLeft_eq, Nat.shiftRight_eq_div_pow]
    constructor
    · rw [Nat.mul_comm, Nat.mul_add_div hpos, Nat.div_eq_of_lt hl]; simp
    · rw [Nat.mul_comm, Nat.mul_add_mod, Nat.mod_eq_of_lt hl]
  · simp at h

/-! ### Histories -/

/-- A state of the buffer together with the buffers that clients own (handed out by `init_buffer`
and not dropped), and all references they obtained for these, with the bytes they pushed. -/
inductive Hist (P L A : Nat) : BBuf → List Nat → List (Nat × Nat × Bytes) → Prop
  | new : Hist P L A new [] []
  | init {s live log} : Hist P L A s live log →
      Hist P L A s.initBuffer.2 (s.initBuffer.1 :: live) log
  | push {s live log b bs r t} : Hist P L A s live log → b ∈ live →
      (bs = [] → ¬ FullPage P s b) → pushRef P L A s b bs = some (r, t) →
      Hist P L A t live ((b, r, bs) :: log)
  | drop {s live log b} : Hist P L A s live log → b ∈ live →
      Hist P L A (s.dropBuffer b) (live.filter (· ≠ b)) (log.filter (·.1 ≠ b))

theorem pushRef_some {L A : Nat} {s t : BBuf} {b r : Nat} {bs : Bytes} (h : pushRef P L A s b bs = some (r, t)) :
    ∃ a, pushBytes P s b bs = some (a, t) ∧ mkRef L A a bs.length = some r := by
  simp only [pushRef, Option.bind_eq_bind, Option.bind_eq_some_iff] at h
  obtain ⟨⟨a, t'⟩, h1, r', h2, h3⟩ := h
  simp at h3
  obtain ⟨rfl, rfl⟩ := h3
  exact ⟨a, h1, h2⟩

theorem pushBytes_short {s : BBuf} {b : Nat} {bs : Bytes} {x : Nat × BBuf} (h : pushBytes P s b bs = some x) :
    bs.length < 2 ^ P := by
  by_contra hc
  simp [pushBytes, hc] at h

theorem hist_inv {L A : Nat} {s : BBuf} {live : List Nat} {log : List (Nat × Nat × Bytes)}
    (h : Hist P L A s live log) :
    Inv P s ∧ (∀ b, b ∈ live ↔ Live s b) ∧
      ∀ e ∈ log, Holds P s e.1 (e.2.1 >>> L) e.2.2 ∧ e.2.1 % 2 ^ L = e.2.2.length ∧ e.2.1 >>> L ≤ 2 ^ A - 1 := by
  induction h with
  | new => exact ⟨inv_new, by simp [Live, new], by simp⟩
  | @init s live log _ ih =>
    obtain ⟨hI, hl, hh⟩ := ih
    obtain ⟨h1, h2, h3, h4, h5⟩ := initBuffer_spec hI
    refine ⟨h1, fun b => by rw [h4, List.mem_cons, hl], ?_⟩
    intro e he
    refine ⟨?_, (hh e he).2⟩
    exact holds_of_pages (fun p b' c h => ⟨[], by rw [h3, h]; simp⟩) (hh e he).1
  | @push s live log b bs r t _ hb hf hp ih =>
    obtain ⟨hI, hl, hh⟩ := ih
    obtain ⟨a, ha, hr⟩ := pushRef_some hp
    obtain ⟨a', t', e1, e2, e3, e4, e5, e6, _⟩ := pushBytes_spec hI ((hl b).mp hb) (pushBytes_short ha) hf
    rw [ha] at e1
    simp only [Option.some.injEq, Prod.mk.injEq] at e1
    obtain ⟨rfl, rfl⟩ := e1
    refine ⟨e2, fun b => by rw [hl, e3], ?_⟩
    intro e he
    rcases List.mem_cons.mp he with rfl | he
    · have := mkRef_parts hr
      refine ⟨by simpa [this.1] using e4, this.2, ?_⟩
      simp only [this.1]
      unfold mkRef at hr
      split at hr
      · rename_i hc; exact hc.2
      · simp at hr
    · exact ⟨e5 _ _ _ (hh e he).1, (hh e he).2⟩
  | @drop s live log b _ hb ih =>
    obtain ⟨hI, hl, hh⟩ := ih
    obtain ⟨h1, h2, h3⟩ := dropBuffer_spec hI ((hl b).mp hb)
    refine ⟨h1, ?_, ?_⟩
    · intro b'
      rw [h2, List.mem_filter, hl]
      simp [and_comm]
    · intro e he
      rw [List.mem_filter] at he
      refine ⟨h3 _ _ _ (by simpa using he.2) (hh e he.1).1, (hh e he.1).2⟩

theorem holds_lt {s : BBuf} {b a : Nat} {bs : Bytes} (h : Holds P s b a bs) : a < s.pages.length * 2 ^ P := by
  obtain ⟨p, pre, post, h1, h2, h3⟩ := h
  have hlt : p < s.pages.length := by
    by_contra hc
    rw [List.getElem?_eq_none (by omega)] at h1; simp at h1
  calc a < p * 2 ^ P + 2 ^ P := by omega
    _ = (p + 1) * 2 ^ P := by rw [Nat.add_mul]; omega
    _ ≤ s.pages.length * 2 ^ P := Nat.mul_le_mul_right _ hlt

/-- **Byte arrays come back unchanged.**  Whatever buffers were created, filled and dropped, and
in whatever order: every reference obtained for a buffer that still exists reads back exactly
the bytes that were pushed. -/
theorem buffer_reads_back {L A : Nat} {s : BBuf} {live : List Nat} {log : List (Nat × Nat × Bytes)}
    (h : Hist P L A s live log) (hsize : s.pages.length * 2 ^ P < 2 ^ A) {b r : Nat} {bs : Bytes}
    (hm : (b, r, bs) ∈ log) : readRef P L A s r = some bs := by
  obtain ⟨hI, hl, hh⟩ := hist_inv h
  obtain ⟨h1, h2, h3⟩ := hh _ hm
  simp only at h1 h2 h3
  have := holds_lt h1
  rw [readRef, if_neg (by omega), h2]
  exact getBytes_of_holds h1

/-- **A new buffer is nobody else's**: `init_buffer` never returns the id of a buffer in use. -/
theorem buffer_init_fresh {L A : Nat} {s : BBuf} {live : List Nat} {log : List (Nat × Nat × Bytes)}
    (h : Hist P L A s live log) : s.initBuffer.1 ∉ live := by
  obtain ⟨hI, hl, hh⟩ := hist_inv h
  rw [hl]
  exact (initBuffer_spec hI).2.1

/-- **Pushing works within the documented limits**: for a buffer in use and a byte array of at
most `2 ^ L - 1` bytes, as long as the pages fit the address space. -/
theorem buffer_push_works {L A : Nat} {s : BBuf} {live : List Nat} {log : List (Nat × Nat × Bytes)}
    (h : Hist P L A s live log) (hLP : L ≤ P) (hsize : (s.pages.length + 1) * 2 ^ P ≤ 2 ^ A) {b : Nat} {bs : Bytes}
    (hb : b ∈ live) (hlen : bs.length < 2 ^ L) (hf : bs = [] → ¬ FullPage P s b) :
    ∃ r t, pushRef P L A s b bs = some (r, t) := by
  obtain ⟨hI, hl, hh⟩ := hist_inv h
  have hle : 2 ^ L ≤ 2 ^ P := Nat.pow_le_pow_right (by omega) hLP
  obtain ⟨a, t, e1, e2, e3, e4, e5, e6, e7⟩ := pushBytes_spec hI ((hl b).mp hb) (by omega) hf
  have : a < 2 ^ A := by
    calc a < t.pages.length * 2 ^ P := e7
      _ ≤ (s.pages.length + 1) * 2 ^ P := Nat.mul_le_mul_right _ e6
      _ ≤ 2 ^ A := hsize
  refine ⟨(a <<< L) + bs.length, t, ?_⟩
  simp only [pushRef, e1, Option.bind_eq_bind, Option.bind_some, mkRef]
  rw [if_pos (by omega)]
  simp

/-- **Two references never overlap**: pushing into one buffer while another one exists gives
different addresses for nonempty byte arrays. -/
theorem buffer_disjoint {L A : Nat} {s : BBuf} {live : List Nat} {log : List (Nat × Nat × Bytes)}
    (h : Hist P L A s live log) (hsize : s.pages.length * 2 ^ P < 2 ^ A) {b b' r r' : Nat} {bs bs' : Bytes}
    (hm : (b, r, bs) ∈ log) (hm' : (b', r', bs') ∈ log) (hne : b ≠ b') : r ≠ r' := by
  rintro rfl
  obtain ⟨hI, hl, hh⟩ := hist_inv h
  obtain ⟨p, pre, post, h1, h2, h3⟩ := (hh _ hm).1
  obtain ⟨p', pre', post', h1', h2', h3'⟩ := (hh _ hm').1
  simp only at h1 h2 h3 h1' h2' h3'
  have hpos : 0 < 2 ^ P := Nat.pow_pos (by omega)
  have e1 : (r >>> L) / 2 ^ P = p := by
    rw [h2, Nat.mul_comm, Nat.mul_add_div hpos, Nat.div_eq_of_lt h3]; simp
  have e2 : (r >>> L) / 2 ^ P = p' := by
    rw [h2', Nat.mul_comm, Nat.mul_add_div hpos, Nat.div_eq_of_lt h3']; simp
  rw [← e1, e2] at h1
  rw [h1] at h1'
  simp at h1'
  exact hne h1'.1

/-- An exactly full page is the exception: pushing the empty byte array then returns a reference
into a page that does not exist, and reading it panics. -/
theorem empty_at_page_end (bs : Bytes) (h : bs.length = 2 ^ P) :
    ∃ a t, pushBytes P ⟨[(some 0, bs)], [some 0], [], []⟩ 0 [] = some (a, t) ∧ getBytes P t a 0 = none := by
  have hpos : 0 < 2 ^ P := Nat.pow_pos (by omega)
  refine ⟨2 ^ P, ⟨[(some 0, bs)], [some 0], [], []⟩, ?_, ?_⟩
  · simp [pushBytes, firstPage, roomyPage, h, hpos]
  · simp [getBytes, Nat.shiftRight_eq_div_pow, Nat.div_self hpos]

/-- Non-trivial instance with the constants of the code: two buffers, one of them dropped and
its page reused. -/
example : ∃ s live log, Hist 25 24 40 s live log ∧ s.pages.length * 2 ^ 25 < 2 ^ 40 ∧
    live = [0, 1] ∧ log.map (fun e => (e.1, e.2.2)) = [(0, [7]), (1, [3, 4])] := by
  have h1 := Hist.init (Hist.init (Hist.new (P := 25) (L := 24) (A := 40)))
  have h2 := Hist.push (b := 0) (bs := [1, 2]) (r := 2)
    (t := ⟨[(some 0, [1, 2])], [some 0, none], [], []⟩) h1 (by decide) (by simp) (by decide)
  have h3 := Hist.push (b := 1) (bs := [3, 4]) (r := 2 ^ 49 + 2)
    (t := ⟨[(some 0, [1, 2]), (some 1, [3, 4])], [some 0, some 1], [], []⟩) h2 (by decide) (by simp) (by decide)
  have h4 := Hist.init (Hist.drop (b := 0) h3 (by decide))
  have h5 := Hist.push (b := 0) (bs := [7]) (r := 1)
    (t := ⟨[(some 0, [7]), (some 1, [3, 4])], [some 0, some 1], [], []⟩) h4 (by decide) (by simp) (by decide)
  exact ⟨_, _, _, h5, by decide, by decide, by decide⟩

end BBuf
end Verif
