import Verif.ColumnRle

/-! # Proofs about run-length encoded columns: builder and random access -/

set_option linter.unusedSimpArgs false
set_option linter.unusedSectionVars false

namespace Verif

variable {α Step : Type} [LinearOrder α] [DecidableEq Step]

/-- Laws of a run-length encodable type used by the proofs. `safe v s` is the guard under which
`floorDiv v s _` does not panic. -/
structure RleLaws (r : RleOps α Step) (safe : α → α → Prop) : Prop where
  zero_eq : ∀ x y, r.diffStep x y = some r.zeroStep → x = y
  diff_self : ∀ x, r.diffStep x x = some r.zeroStep
  offset_chain : ∀ (f : Nat → α) (d : Step) (n : Nat), n < 2 ^ 63 →
    (∀ i < n, r.diffStep (f i) (f (i + 1)) = some d) → r.offset (f 0) d n = some (f n)
  floorDiv : ∀ (v start : α) (d : Step) (inc : α), start < v → d ≠ r.zeroStep →
    r.stepInc d = some inc → safe v start →
    ∃ k, r.floorDiv v start inc = some k ∧
      ∀ (f : Nat → α) (n : Nat), f 0 = start →
        (∀ i < n, r.diffStep (f i) (f (i + 1)) = some d) → ∀ j ≤ n, j < k → f j < v

/-- `c` stores `data`, in `n` blocks, block `e` covering positions `E e ≤ i < E (e+1)`. -/
structure Repr (r : RleOps α Step) (c : RleCol α Step) (data : List α) (n : Nat) (E : Nat → Nat) :
    Prop where
  E0 : E 0 = 0
  En : E n = data.length
  Elt : ∀ e < n, E e < E (e + 1)
  vlen : c.values.length = n
  elen : c.endIndices.length = n
  ilen : c.increments.length = n
  ends : ∀ e < n, c.endIndices[e]? = some (E (e + 1))
  vals : ∀ e < n, c.values[e]? = data[E e]?
  chain : ∀ e < n, ∀ d, c.increments[e]? = some d → ∀ i, E e ≤ i → i + 1 < E (e + 1) →
    ∀ x y, data[i]? = some x → data[i + 1]? = some y → r.diffStep x y = some d
  single : ∀ e < n, E (e + 1) = E e + 1 → c.increments[e]? = some r.zeroStep
  maximal : ∀ e, e + 1 < n → ∀ x y, data[E (e + 1) - 1]? = some x → data[E (e + 1)]? = some y →
    r.diffStep x y = some r.zeroStep → c.increments[e]? ≠ some r.zeroStep

/-! ## From elements to the three vectors -/

/-- total length of a list of elements -/
def elemLen (els : List (RleElement α Step)) : Nat := (els.map (·.length)).sum

theorem elemLen_append (a b : List (RleElement α Step)) :
    elemLen (a ++ b) = elemLen a + elemLen b := by simp [elemLen]

theorem fromElements_snoc (els : List (RleElement α Step)) (e : RleElement α Step) :
    RleCol.fromElements (els ++ [e]) =
      ⟨(RleCol.fromElements els).values ++ [e.value],
       (RleCol.fromElements els).endIndices ++
         [(RleCol.fromElements els).endIndices.getLast?.getD 0 + e.length],
       (RleCol.fromElements els).increments ++ [e.increment]⟩ := by
  simp [RleCol.fromElements, List.foldl_append]

theorem list_snoc_induction {β : Type} {P : List β → Prop} (h0 : P [])
    (h1 : ∀ l x, P l → P (l ++ [x])) (l : List β) : P l := by
  have : ∀ l : List β, P l.reverse := by
    intro l
    induction l with
    | nil => simpa using h0
    | cons a l ih => rw [List.reverse_cons]; exact h1 _ _ ih
  have h := this l.reverse
  rwa [List.reverse_reverse] at h

theorem fromElements_spec (els : List (RleElement α Step)) :
    (RleCol.fromElements els).values = els.map (·.value) ∧
    (RleCol.fromElements els).increments = els.map (·.increment) ∧
    (RleCol.fromElements els).endIndices.length = els.length ∧
    (RleCol.fromElements els).endIndices.getLast?.getD 0 = elemLen els ∧
    ∀ e < els.length, (RleCol.fromElements els).endIndices[e]? = some (elemLen (els.take (e + 1))) := by
  induction els using list_snoc_induction with
  | h0 => simp [RleCol.fromElements, elemLen]
  | h1 l x ih =>
    obtain ⟨h1, h2, h3, h4, h5⟩ := ih
    rw [fromElements_snoc]
    refine ⟨by simp [h1], by simp [h2], by simp [h3], by simp [h4, elemLen], fun e he => ?_⟩
    simp only [List.length_append, List.length_cons, List.length_nil] at he
    by_cases hc : e < l.length
    · rw [List.getElem?_append_left (by omega), h5 e hc, List.take_append_of_le_length (by omega)]
    · have : e = l.length := by omega
      subst this
      rw [List.getElem?_append_right (by omega), h3, h4,
        List.take_of_length_le (by simp)]
      simp [elemLen]

/-- Builder invariant: the elements describe `data`. -/
structure BInv (r : RleOps α Step) (els : List (RleElement α Step)) (data : List α) : Prop where
  len : data.length = elemLen els
  pos : ∀ pre e post, els = pre ++ e :: post → 0 < e.length
  val : ∀ pre e post, els = pre ++ e :: post → data[elemLen pre]? = some e.value
  chain : ∀ pre e post, els = pre ++ e :: post → ∀ i, elemLen pre ≤ i →
    i + 1 < elemLen pre + e.length → ∀ x y, data[i]? = some x → data[i + 1]? = some y →
    r.diffStep x y = some e.increment
  single : ∀ pre e post, els = pre ++ e :: post → e.length = 1 → e.increment = r.zeroStep
  maximal : ∀ pre e e' post, els = pre ++ e :: e' :: post → ∀ x y,
    data[elemLen pre + e.length - 1]? = some x → data[elemLen pre + e.length]? = some y →
    r.diffStep x y = some r.zeroStep → e.increment ≠ r.zeroStep

theorem snoc_split {β : Type} {init pre post : List β} {x e : β} (h : init ++ [x] = pre ++ e :: post) :
    (pre = init ∧ e = x ∧ post = []) ∨ ∃ post', post = post' ++ [x] ∧ init = pre ++ e :: post' := by
  rcases List.eq_nil_or_concat post with rfl | ⟨post', y, rfl⟩
  · left
    have := List.append_inj' h rfl
    simp at this
    exact ⟨this.1.symm, this.2.symm, rfl⟩
  · right
    rw [List.concat_eq_append] at h ⊢
    have h' : init ++ [x] = (pre ++ e :: post') ++ [y] := by rw [h]; simp
    have := List.append_inj' h' rfl
    simp at this
    exact ⟨post', by rw [this.2], this.1⟩

theorem elemLen_pos_le {pre : List (RleElement α Step)} {e post} :
    elemLen pre + e.length ≤ elemLen (pre ++ e :: post) := by
  simp [elemLen]

variable {r : RleOps α Step}

/-- pushing a new block -/
theorem BInv.push {els : List (RleElement α Step)} {data : List α} {v : α} (h : BInv r els data)
    (hmax : ∀ init last, els = init ++ [last] → ∀ x, data[data.length - 1]? = some x →
      r.diffStep x v = some r.zeroStep → last.increment ≠ r.zeroStep) :
    BInv r (els ++ [⟨v, 1, r.zeroStep⟩]) (data ++ [v]) := by
  have hlen := h.len
  constructor
  · simp [elemLen_append, hlen]; simp [elemLen]
  · intro pre e post he
    rcases snoc_split he with ⟨rfl, rfl, rfl⟩ | ⟨post', rfl, he'⟩
    · simp
    · exact h.pos _ _ _ he'
  · intro pre e post he
    rcases snoc_split he with ⟨rfl, rfl, rfl⟩ | ⟨post', rfl, he'⟩
    · rw [← hlen]; simp
    · have := h.val _ _ _ he'
      rw [List.getElem?_append_left, this]
      exact (List.getElem?_eq_some_iff.mp this).1
  · intro pre e post he i h1 h2 x y hx hy
    rcases snoc_split he with ⟨rfl, rfl, rfl⟩ | ⟨post', rfl, he'⟩
    · simp at h2; omega
    · have hle : elemLen pre + e.length ≤ elemLen els := by rw [he']; exact elemLen_pos_le
      rw [List.getElem?_append_left (by omega)] at hx hy
      exact h.chain _ _ _ he' i h1 h2 x y hx hy
  · intro pre e post he
    rcases snoc_split he with ⟨rfl, rfl, rfl⟩ | ⟨post', rfl, he'⟩
    · simp
    · exact h.single _ _ _ he'
  · intro pre e e' post he x y hx hy hd
    have he2 : els ++ [⟨v, 1, r.zeroStep⟩] = (pre ++ [e]) ++ e' :: post := by rw [he]; simp
    rcases snoc_split he2 with ⟨h1, rfl, rfl⟩ | ⟨post', rfl, he'⟩
    · have hl : elemLen pre + e.length = data.length := by
        rw [hlen, ← h1, elemLen_append]; simp [elemLen]
      have hp := h.pos _ _ _ h1.symm
      rw [List.getElem?_append_left (by omega), hl] at hx
      rw [hl] at hy
      simp at hy
      subst hy
      exact hmax pre e h1.symm x hx hd
    · have hle : elemLen pre + e.length + e'.length ≤ elemLen els := by
        have := elemLen_pos_le (pre := pre ++ [e]) (e := e') (post := post')
        rw [← he', elemLen_append] at this
        simpa [elemLen] using this
      have hp := h.pos _ _ _ he'
      rw [List.getElem?_append_left (by omega)] at hx hy
      exact h.maximal pre e e' post' (by rw [he']; simp) x y hx hy hd

/-- extending the last block -/
theorem BInv.extend {init : List (RleElement α Step)} {last : RleElement α Step} {data : List α}
    {v p : α} {d : Step} (h : BInv r (init ++ [last]) data)
    (hp : data[data.length - 1]? = some p) (hd : r.diffStep p v = some d)
    (hlast : last.length = 1 ∨ last.increment = d) :
    BInv r (init ++ [{ last with length := last.length + 1, increment := d }]) (data ++ [v]) := by
  have hlen := h.len
  have hl : data.length = elemLen init + last.length := by
    rw [hlen, elemLen_append]; simp [elemLen]
  have hpos := h.pos init last [] rfl
  constructor
  · simp [elemLen_append, hl]; simp [elemLen]; omega
  · intro pre e post he
    rcases snoc_split he with ⟨rfl, rfl, rfl⟩ | ⟨post', rfl, he'⟩
    · simp
    · exact h.pos pre e (post' ++ [last]) (by rw [he']; simp)
  · intro pre e post he
    rcases snoc_split he with ⟨rfl, rfl, rfl⟩ | ⟨post', rfl, he'⟩
    · have := h.val _ last [] rfl
      rw [List.getElem?_append_left, this]
      exact (List.getElem?_eq_some_iff.mp this).1
    · have := h.val pre e (post' ++ [last]) (by rw [he']; simp)
      rw [List.getElem?_append_left, this]
      exact (List.getElem?_eq_some_iff.mp this).1
  · intro pre e post he i h1 h2 x y hx hy
    rcases snoc_split he with ⟨rfl, rfl, rfl⟩ | ⟨post', rfl, he'⟩
    · simp only at h2 ⊢
      rw [List.getElem?_append_left (by omega)] at hx
      by_cases hc : i + 1 < data.length
      · rw [List.getElem?_append_left hc] at hy
        have := h.chain _ last [] rfl i h1 (by omega) x y hx hy
        rcases hlast with hlast | hlast
        · omega
        · rw [this, hlast]
      · have hi : i = data.length - 1 := by omega
        subst hi
        have : data.length - 1 + 1 = data.length := by omega
        rw [this] at hy
        simp at hy
        rw [hp] at hx
        cases hx; subst hy
        exact hd
    · have hle : elemLen pre + e.length ≤ elemLen init := by rw [he']; exact elemLen_pos_le
      rw [List.getElem?_append_left (by omega)] at hx hy
      exact h.chain pre e (post' ++ [last]) (by rw [he']; simp) i h1 h2 x y hx hy
  · intro pre e post he hone
    rcases snoc_split he with ⟨rfl, rfl, rfl⟩ | ⟨post', rfl, he'⟩
    · simp at hone; omega
    · exact h.single pre e (post' ++ [last]) (by rw [he']; simp) hone
  · intro pre e e' post he x y hx hy hd'
    have he2 : init ++ [{ last with length := last.length + 1, increment := d }]
        = (pre ++ [e]) ++ e' :: post := by rw [he]; simp
    rcases snoc_split he2 with ⟨h1, rfl, rfl⟩ | ⟨post', rfl, he'⟩
    · have hl' : elemLen pre + e.length = elemLen init := by
        rw [← h1, elemLen_append]; simp [elemLen]
      have hp := h.pos pre e [last] (by rw [← h1]; simp)
      rw [List.getElem?_append_left (by omega)] at hx hy
      exact h.maximal pre e last [] (by rw [← h1]; simp) x y hx hy hd'
    · have hle : elemLen pre + e.length ≤ elemLen init := by
        rw [he', List.append_assoc]; exact elemLen_pos_le
      have hp := h.pos pre e (e' :: post' ++ [last]) (by rw [he']; simp)
      rw [List.getElem?_append_left (by omega)] at hx hy
      exact h.maximal pre e e' (post' ++ [last]) (by rw [he']; simp) x y hx hy hd'

/-- State invariant of the RLE builder after the values `data` have been added. -/
def RleBuilder.Ok (r : RleOps α Step) (b : RleBuilder α Step) (data : List α) : Prop :=
  BInv r b.elements data ∧ b.prev = data.getLast? ∧ b.count = data.length

theorem RleBuilder.ok_new : RleBuilder.Ok r RleBuilder.new [] := by
  refine ⟨⟨rfl, ?_, ?_, ?_, ?_, ?_⟩, rfl, rfl⟩ <;> intro pre e <;> simp [RleBuilder.new]

theorem RleBuilder.ok_add {b : RleBuilder α Step} {data : List α} {v : α}
    (h : RleBuilder.Ok r b data) :
    ∃ b', b.add r v = some b' ∧ RleBuilder.Ok r b' (data ++ [v]) := by
  obtain ⟨hinv, hprev, hcount⟩ := h
  unfold RleBuilder.add
  by_cases he : b.elements = []
  · simp only [he, List.isEmpty_nil, if_true]
    refine ⟨_, rfl, ?_, by simp, by simp [hcount]⟩
    rw [he] at hinv
    have := hinv.push (v := v) (by intro i l hl; simp at hl)
    simpa using this
  · have hemp : b.elements.isEmpty = false := by
      cases hb : b.elements with
      | nil => exact absurd hb he
      | cons => rfl
    obtain ⟨last, hlast⟩ : ∃ last, b.elements.getLast? = some last := by
      rw [← Option.isSome_iff_exists, List.getLast?_isSome]; exact he
    have hsplit : b.elements = b.elements.dropLast ++ [last] := by
      obtain ⟨ys, hys⟩ := List.getLast?_eq_some_iff.mp hlast
      rw [hys]; simp
    have hpos := hinv.pos _ _ _ hsplit
    have hdl : 0 < data.length := by
      rw [hinv.len, hsplit, elemLen_append]; simp [elemLen]; omega
    have hplast : data.getLast? = some (data[data.length - 1]'(by omega)) := by
      rw [List.getLast?_eq_getElem?, List.getElem?_eq_getElem (by omega)]
    have hp? : data[data.length - 1]? = some (data[data.length - 1]'(by omega)) :=
      List.getElem?_eq_getElem (by omega)
    generalize hpe : data[data.length - 1]'(by omega) = p at hplast hp?
    simp only [hemp, Bool.false_eq_true, if_false, hprev, hplast, hlast, Option.bind_eq_bind,
      Option.bind_some]
    refine ⟨_, rfl, ?_, by simp, by simp [hcount]⟩
    simp only
    cases hd : r.diffStep p v with
    | none =>
      simp only
      refine hinv.push fun init l hl x hx hxd => ?_
      rw [hp?] at hx; cases hx
      rw [hd] at hxd; cases hxd
    | some d =>
      simp only
      by_cases h1 : last.length = 1
      · simp only [h1, if_true]
        rw [hsplit] at hinv
        have := hinv.extend hp? hd (.inl h1)
        rwa [h1] at this
      · simp only [h1, if_false]
        by_cases h2 : last.increment = d
        · simp only [h2, if_true]
          rw [hsplit] at hinv
          have := hinv.extend hp? hd (.inr h2)
          subst h2
          exact this
        · simp only [h2, if_false]
          refine hinv.push fun init l hl x hx hxd => ?_
          rw [hp?] at hx; cases hx
          rw [hd] at hxd; cases hxd
          have : l = last := by
            rw [hl] at hlast
            simpa using hlast
          rw [this]; exact h2

theorem repr_of_binv {els : List (RleElement α Step)} {data : List α} (h : BInv r els data) :
    Repr r (RleCol.fromElements els) data els.length (fun e => elemLen (els.take e)) := by
  obtain ⟨h1, h2, h3, h4, h5⟩ := fromElements_spec els
  have split : ∀ e (he : e < els.length), els = els.take e ++ els[e] :: els.drop (e + 1) := by
    intro e he
    rw [List.getElem_cons_drop, List.take_append_drop]
  have step : ∀ e (he : e < els.length),
      elemLen (els.take (e + 1)) = elemLen (els.take e) + els[e].length := by
    intro e he
    rw [List.take_add_one, elemLen_append, List.getElem?_eq_getElem he]; simp [elemLen]
  constructor
  · simp [elemLen]
  · simp [h.len]
  · intro e he
    have := h.pos _ _ _ (split e he)
    rw [step e he]; omega
  · simp [h1]
  · exact h3
  · simp [h2]
  · exact h5
  · intro e he
    rw [h1, h.val _ _ _ (split e he)]; simp [List.getElem?_eq_getElem he]
  · intro e he d hd i hi1 hi2 x y hx hy
    rw [h2, List.getElem?_map, List.getElem?_eq_getElem he] at hd
    simp at hd; subst hd
    rw [step e he] at hi2
    exact h.chain _ _ _ (split e he) i hi1 hi2 x y hx hy
  · intro e he h1'
    rw [step e he] at h1'
    rw [h2, List.getElem?_map, List.getElem?_eq_getElem he]
    simp [h.single _ _ _ (split e he) (by omega)]
  · intro e he x y hx hy hd
    rw [h2, List.getElem?_map, List.getElem?_eq_getElem (show e < els.length by omega)]
    simp only [step e (by omega)] at hx hy
    have hs : els = els.take e ++ els[e] :: els[e + 1] :: els.drop (e + 2) := by
      conv_lhs => rw [← List.take_append_drop e els]
      rw [List.drop_eq_getElem_cons (show e < els.length by omega),
        List.drop_eq_getElem_cons (show e + 1 < els.length by omega)]
    have := h.maximal _ _ _ _ hs x y hx hy hd
    simpa using this

theorem getD_of_lt {β : Type} (l : List β) (x : β) {i : Nat} (h : i < l.length) :
    l.getD i x = l[i] := by simp [h]

/-! ## Locating positions -/

namespace Repr
variable {c : RleCol α Step} {data : List α} {n : Nat} {E : Nat → Nat}

theorem mono (h : Repr r c data n E) {e e' : Nat} (h1 : e ≤ e') (h2 : e' ≤ n) : E e ≤ E e' := by
  induction e' with
  | zero => have : e = 0 := by omega
            subst this; exact le_refl _
  | succ k ih =>
    by_cases hc : e = k + 1
    · subst hc; exact le_refl _
    · have := ih (by omega) (by omega)
      have := h.Elt k (by omega)
      omega

theorem lt (h : Repr r c data n E) {e e' : Nat} (h1 : e < e') (h2 : e' ≤ n) : E e < E e' :=
  lt_of_lt_of_le (h.Elt e (by omega)) (h.mono (by omega) h2)

/-- a pair of indices that denotes a position in normal form -/
def Norm (n : Nat) (E : Nat → Nat) (e k : Nat) : Prop :=
  (e < n ∧ E e + k < E (e + 1)) ∨ (e = n ∧ k = 0)

theorem Norm.le_len (h : Repr r c data n E) {e k : Nat} (hn : Norm n E e k) :
    E e + k ≤ data.length := by
  rw [← h.En]
  rcases hn with ⟨h1, h2⟩ | ⟨rfl, rfl⟩
  · have := h.mono (show e + 1 ≤ n by omega) (le_refl _); omega
  · omega

theorem Norm.lt_len (h : Repr r c data n E) {e k : Nat} (hn : Norm n E e k)
    (hlt : E e + k < data.length) : e < n ∧ E e + k < E (e + 1) := by
  rcases hn with h1 | ⟨rfl, rfl⟩
  · exact h1
  · rw [h.En] at hlt; omega

theorem lex_lt (h : Repr r c data n E) {e k e' k' : Nat} (h1 : Norm n E e k) (h2 : Norm n E e' k') :
    (e < e' ∨ (e = e' ∧ k < k')) ↔ E e + k < E e' + k' := by
  have key : ∀ {e k e' k'}, Norm n E e k → Norm n E e' k' → e < e' → E e + k < E e' + k' := by
    intro e k e' k' h1 h2 hlt
    have he' : e' ≤ n := by rcases h2 with h2 | h2 <;> omega
    rcases h1 with ⟨h1, h1'⟩ | ⟨h1, h1'⟩
    · have := h.mono (show e + 1 ≤ e' by omega) he'; omega
    · omega
  constructor
  · rintro (hlt | ⟨rfl, hlt⟩)
    · exact key h1 h2 hlt
    · omega
  · intro hlt
    rcases Nat.lt_trichotomy e e' with hc | hc | hc
    · exact .inl hc
    · subst hc; exact .inr ⟨rfl, by omega⟩
    · have := key h2 h1 hc; omega

theorem endBefore (h : Repr r c data n E) {e : Nat} (he : e ≤ n) : c.endBefore e = some (E e) := by
  cases e with
  | zero => simp [RleCol.endBefore, h.E0]
  | succ e => simp [RleCol.endBefore, h.ends e (by omega)]

theorem ends_asc (h : Repr r c data n E) : Asc c.endIndices := by
  refine List.pairwise_iff_getElem.mpr fun i j hi hj hij => ?_
  rw [h.elen] at hi hj
  have h1 := h.ends i hi
  have h2 := h.ends j hj
  rw [List.getElem?_eq_getElem (by rw [h.elen]; omega)] at h1 h2
  simp only [Option.some.injEq] at h1 h2
  rw [h1, h2]
  exact h.lt (show i + 1 < j + 1 by omega) (by omega)

theorem locate (h : Repr r c data n E) {i : Nat} (hi : i ≤ data.length) :
    ∃ e k, c.locate i = some (e, k) ∧ Norm n E e k ∧ E e + k = i := by
  have fin : ∀ e, c.elementOf i = some e → e ≤ n → E e ≤ i → (e < n → i < E (e + 1)) →
      ∃ e k, c.locate i = some (e, k) ∧ Norm n E e k ∧ E e + k = i := by
    intro e h1 h2 h3 h4
    refine ⟨e, i - E e, ?_, ?_, by omega⟩
    · unfold RleCol.locate
      rw [h1]
      simp [h.endBefore h2, usub, h3]
    · by_cases hc : e < n
      · exact .inl ⟨hc, by have := h4 hc; omega⟩
      · have : e = n := by omega
        subst this
        rw [h.En]; exact .inr ⟨rfl, by omega⟩
  by_cases h0 : i = 0
  · subst h0
    refine fin 0 (by simp [RleCol.elementOf]) (by omega) (by rw [h.E0]) fun hn => ?_
    have := h.Elt 0 hn; omega
  · have getE : ∀ j (hj : j < c.endIndices.length), c.endIndices[j] = E (j + 1) := by
      intro j hj
      have := h.ends j (by rw [← h.elen]; exact hj)
      rw [List.getElem?_eq_getElem hj] at this
      simpa using this
    have hel := h.elen
    rcases binarySearch_sorted c.endIndices i h.ends_asc with ⟨j, hj, h1, h2⟩ | ⟨j, h1, h2, h3, h4⟩
    · rw [getE j hj] at h2
      refine fin (j + 1) (by simp [RleCol.elementOf, h0, h1]) (by omega) (by omega) fun hc => ?_
      have := h.Elt (j + 1) hc; omega
    · refine fin j (by simp [RleCol.elementOf, h0, h1]) (by omega) ?_ fun hc => ?_
      · cases j with
        | zero => rw [h.E0]; omega
        | succ j =>
          have := h3 j (by omega) (by omega)
          rw [getE] at this; omega
      · have := h4 j (by omega) (le_refl _)
        rwa [getE] at this

theorem len (h : Repr r c data n E) : c.len = data.length := by
  unfold RleCol.len
  rw [List.getLast?_eq_getElem?, h.elen, ← h.En]
  cases n with
  | zero =>
    have : c.endIndices = [] := List.length_eq_zero_iff.mp h.elen
    simp [this, h.E0]
  | succ n => simp [h.ends n (by omega)]

variable {safe : α → α → Prop}

theorem get_inc (h : Repr r c data n E) {e : Nat} (he : e < n) : ∃ d, c.increments[e]? = some d := by
  have := h.ilen
  exact ⟨_, List.getElem?_eq_getElem (by omega)⟩

theorem Ele (h : Repr r c data n E) {e : Nat} (he : e ≤ n) : E e ≤ data.length := by
  rw [← h.En]; exact h.mono he (le_refl _)

theorem get_val (h : Repr r c data n E) {e : Nat} (he : e < n) :
    ∃ x, c.values[e]? = some x ∧ data[E e]? = some x := by
  have h1 := h.Elt e he
  have h2 := h.Ele (show e + 1 ≤ n by omega)
  refine ⟨data[E e], ?_, List.getElem?_eq_getElem _⟩
  rw [h.vals e he, List.getElem?_eq_getElem]

/-- The values of a block form a chain. -/
theorem chain_fun (h : Repr r c data n E) {e : Nat} (he : e < n) {d : Step}
    (hd : c.increments[e]? = some d) {x0 : α} {m : Nat} (hm : E e + m < E (e + 1)) :
    ∀ i < m, r.diffStep (data.getD (E e + i) x0) (data.getD (E e + (i + 1)) x0) = some d := by
  intro i hi
  have hE := h.Ele (show e + 1 ≤ n by omega)
  have h1 : E e + i < data.length := by omega
  have h2 : E e + i + 1 < data.length := by omega
  have := h.chain e he d hd (E e + i) (by omega) (by omega) _ _ (List.getElem?_eq_getElem h1)
    (List.getElem?_eq_getElem h2)
  rw [getD_of_lt _ _ h1, ← Nat.add_assoc, getD_of_lt _ _ h2]
  exact this

/-- Access to a position inside block `e`. -/
theorem getInternal (h : Repr r c data n E) (L : RleLaws r safe) (hlen : data.length < 2 ^ 63)
    {e k : Nat} (he : e < n) (hk : E e + k < E (e + 1)) :
    c.getInternal r e k = data[E e + k]? := by
  obtain ⟨x0, hv, hx0⟩ := h.get_val he
  obtain ⟨d, hd⟩ := h.get_inc he
  have hE := h.Ele (show e + 1 ≤ n by omega)
  have hch := h.chain_fun he hd (x0 := x0) hk
  have hf0 : data.getD (E e + 0) x0 = x0 := by
    simp [List.getD_eq_getElem?_getD, hx0]
  have hk' : data[E e + k]? = some (data.getD (E e + k) x0) := by
    rw [List.getElem?_eq_getElem (by omega), getD_of_lt _ _ (by omega)]
  rw [hk']
  simp only [RleCol.getInternal, hv, hd, Option.bind_eq_bind, Option.bind_some]
  by_cases hz : d = r.zeroStep
  · simp only [hz, if_true]
    have : ∀ j ≤ k, data.getD (E e + j) x0 = x0 := by
      intro j
      induction j with
      | zero => intro _; exact hf0
      | succ j ih =>
        intro hj
        have h1 := hch j (by omega)
        rw [hz] at h1
        rw [← L.zero_eq _ _ h1]
        exact ih (by omega)
    rw [this k (le_refl _)]; rfl
  · simp only [hz, if_false]
    have := L.offset_chain (fun i => data.getD (E e + i) x0) d k (by omega) hch
    simp only [hf0] at this
    exact this

/-- Random access returns the stored value. -/
theorem get (h : Repr r c data n E) (L : RleLaws r safe) (hlen : data.length < 2 ^ 63) {i : Nat}
    (hi : i < data.length) : c.get r i = data[i]? := by
  obtain ⟨e, k, h1, h2, h3⟩ := h.locate (Nat.le_of_lt hi)
  obtain ⟨h4, h5⟩ := h2.lt_len h (by omega)
  simp only [RleCol.get, h1, Option.bind_eq_bind, Option.bind_some]
  rw [h.getInternal L hlen h4 h5, h3]

/-- One step further inside a block. -/
theorem offset_one (h : Repr r c data n E) (L : RleLaws r safe) {e k : Nat} (he : e < n)
    (hk : E e + k + 1 < E (e + 1)) {d : Step} (hd : c.increments[e]? = some d) {x : α}
    (hx : data[E e + k]? = some x) : r.offset x d 1 = data[E e + k + 1]? := by
  have hE := h.Ele (show e + 1 ≤ n by omega)
  have h2 : E e + k + 1 < data.length := by omega
  have hy := List.getElem?_eq_getElem h2
  have := h.chain e he d hd (E e + k) (by omega) hk x _ hx hy
  have := L.offset_chain (fun i => if i = 0 then x else data[E e + k + 1]) d 1 (by omega)
    (by intro i hi; have : i = 0 := by omega
        subst this; simpa using this)
  simp at this
  rw [this, hy]

end Repr
end Verif
